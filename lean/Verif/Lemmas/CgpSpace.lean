import Verif.Model.Cgp
import Mathlib.Tactic.Linarith
import Mathlib.Tactic.FieldSimp
import Mathlib.Tactic.Ring

/-! Lemmas on the intervals of observations and actions. -/
namespace Verif.Cgp

theorem change_eq {lo hi a b x : Rat} (h : lo < hi) : changeInterval x (some lo) (some hi) a b =
    .ok ((max lo (min hi x) - lo) / (hi - lo) * (b - a) + a) := by
  simp only [changeInterval, Option.getD_some]
  rw [if_neg (by linarith)]

theorem clip_mem {lo hi x : Rat} (h : lo < hi) : 0 ≤ (max lo (min hi x) - lo) / (hi - lo) ∧ (max lo (min hi x) - lo) / (hi - lo) ≤ 1 := by
  have hp : 0 < hi - lo := by linarith
  constructor
  · exact div_nonneg (by linarith [le_max_left lo (min hi x)]) (le_of_lt hp)
  · rw [div_le_one hp]
    have : max lo (min hi x) ≤ hi := max_le (le_of_lt h) (min_le_left _ _)
    linarith

theorem clip_id {lo hi x : Rat} (h1 : lo ≤ x) (h2 : x ≤ hi) : max lo (min hi x) = x := by
  rw [min_eq_right h2, max_eq_right h1]

theorem change_range {lo hi a b x : Rat} (h : lo < hi) (hab : a ≤ b) : ∃ y, changeInterval x (some lo) (some hi) a b = .ok y ∧ a ≤ y ∧ y ≤ b := by
  obtain ⟨h1, h2⟩ := clip_mem (x := x) h
  refine ⟨_, change_eq h, ?_, ?_⟩
  · nlinarith [mul_nonneg h1 (sub_nonneg.mpr hab)]
  · nlinarith [mul_le_mul_of_nonneg_right h2 (sub_nonneg.mpr hab)]

theorem change_inverse {lo hi a b x : Rat} (h : lo < hi) (hab : a < b) (h1 : lo ≤ x) (h2 : x ≤ hi) :
    ∃ y, changeInterval x (some lo) (some hi) a b = .ok y ∧ changeInterval y (some a) (some b) lo hi = .ok x := by
  refine ⟨(x - lo) / (hi - lo) * (b - a) + a, by rw [change_eq h, clip_id h1 h2], ?_⟩
  have hp : 0 < hi - lo := by linarith
  have hq : 0 < b - a := by linarith
  have t0 : 0 ≤ (x - lo) / (hi - lo) := div_nonneg (by linarith) (le_of_lt hp)
  have t1 : (x - lo) / (hi - lo) ≤ 1 := by rw [div_le_one hp]; linarith
  rw [change_eq hab, clip_id (by nlinarith [mul_nonneg t0 (le_of_lt hq)]) (by nlinarith [mul_le_mul_of_nonneg_right t1 (le_of_lt hq)])]
  congr 1
  have : ((x - lo) / (hi - lo) * (b - a) + a - a) / (b - a) = (x - lo) / (hi - lo) := by
    rw [add_sub_cancel_right, mul_div_assoc, div_self (ne_of_gt hq), mul_one]
  rw [this, div_mul_cancel₀ _ (ne_of_gt hp)]
  ring

theorem floor_iff {q : Rat} {z : Int} : q.floor = z ↔ (z : Rat) ≤ q ∧ q < z + 1 := by
  have h : ⌊q⌋ = q.floor := rfl
  rw [← h, Int.floor_eq_iff]

/-- The whole number for a value `x` of [-1, 1]. -/
theorem toInt_iff {n : Nat} (hn : 0 < n) {x : Rat} (h1 : -1 ≤ x) (h2 : x < 1) (k : Int) :
    changeToInt x (some (-1)) (some 1) 0 ((n : Int) - 1) = .ok k ↔ (-1 + 2 * (k : Rat) / n ≤ x ∧ x < -1 + 2 * ((k : Rat) + 1) / n) := by
  have hn' : (0 : Rat) < n := by exact_mod_cast hn
  simp only [changeToInt, change_eq (show (-1 : Rat) < 1 by norm_num), clip_id h1 (le_of_lt h2)]
  rw [if_neg (by intro h; linarith)]
  rw [Except.ok.injEq, floor_iff]
  push_cast
  have e1 : -1 + 2 * (k : Rat) / n ≤ x ↔ 2 * (k : Rat) ≤ (x + 1) * n := by
    rw [← div_le_iff₀ hn']; constructor <;> intro h <;> linarith
  have e2 : x < -1 + 2 * ((k : Rat) + 1) / n ↔ (x + 1) * n < 2 * ((k : Rat) + 1) := by
    rw [← lt_div_iff₀ hn']; constructor <;> intro h <;> linarith
  rw [e1, e2]
  constructor
  · rintro ⟨a, b⟩; constructor <;> nlinarith
  · rintro ⟨a, b⟩; constructor <;> nlinarith

theorem toInt_high {n : Nat} {x : Rat} (h : 1 ≤ x) : changeToInt x (some (-1)) (some 1) 0 ((n : Int) - 1) = .ok ((n : Int) - 1) := by
  simp only [changeToInt, change_eq (show (-1 : Rat) < 1 by norm_num), min_eq_left h]
  norm_num

theorem toInt_low {n : Nat} {x : Rat} (h : x < -1) : changeToInt x (some (-1)) (some 1) 0 ((n : Int) - 1) = .ok 0 := by
  simp only [changeToInt, change_eq (show (-1 : Rat) < 1 by norm_num), min_eq_right (show x ≤ 1 by linarith), max_eq_left (le_of_lt h)]
  norm_num
  rfl

theorem toInt_range {n : Nat} (hn : 0 < n) (x : Rat) : ∃ k : Int, changeToInt x (some (-1)) (some 1) 0 ((n : Int) - 1) = .ok k ∧ 0 ≤ k ∧ k < n := by
  have hn' : (0 : Rat) < n := by exact_mod_cast hn
  by_cases hl : x < -1
  · exact ⟨0, toInt_low hl, le_refl _, by omega⟩
  by_cases hh : 1 ≤ x
  · exact ⟨(n : Int) - 1, toInt_high hh, by omega, by omega⟩
  · have h1 : -1 ≤ x := not_lt.mp hl
    have h2 : x < 1 := not_le.mp hh
    obtain ⟨f1, f2⟩ := (floor_iff (q := (x + 1) / 2 * n) (z := ((x + 1) / 2 * n).floor)).mp rfl
    refine ⟨((x + 1) / 2 * n).floor, (toInt_iff hn h1 h2 _).mpr ⟨?_, ?_⟩, ?_, ?_⟩
    · have : 2 * (((x + 1) / 2 * n).floor : Rat) / n ≤ x + 1 := by rw [div_le_iff₀ hn']; linarith
      linarith
    · have : x + 1 < 2 * ((((x + 1) / 2 * n).floor : Rat) + 1) / n := by rw [lt_div_iff₀ hn']; linarith
      linarith
    · have : (-1 : Rat) < (((x + 1) / 2 * n).floor : Rat) := by nlinarith
      have : (-1 : Int) < ((x + 1) / 2 * n).floor := by exact_mod_cast this
      omega
    · have : (((x + 1) / 2 * n).floor : Rat) < n := by nlinarith
      exact_mod_cast this

/-- A choice of a discrete space survives both changes. -/
theorem toInt_inverse {n : Nat} (hn : 2 ≤ n) {k : Nat} (hk : k < n) : ∃ y, changeInterval (k : Rat) (some 0) (some ((n : Rat) - 1)) (-1) 1 = .ok y ∧
    changeToInt y (some (-1)) (some 1) 0 ((n : Int) - 1) = .ok k := by
  have hn2 : (2 : Rat) ≤ n := by exact_mod_cast hn
  have hn' : (0 : Rat) < n := by linarith
  have hm : (0 : Rat) < (n : Rat) - 1 := by linarith
  have hk1 : (k : Rat) ≤ (n : Rat) - 1 := by
    have : ((k + 1 : Nat) : Rat) ≤ (n : Rat) := by exact_mod_cast hk
    push_cast at this; linarith
  have hk0 : (0 : Rat) ≤ k := Nat.cast_nonneg k
  refine ⟨_, change_eq hm, ?_⟩
  rw [clip_id hk0 hk1]
  by_cases hlast : k + 1 = n
  · have : (k : Rat) = (n : Rat) - 1 := by
      have : ((k + 1 : Nat) : Rat) = (n : Rat) := by rw [hlast]
      push_cast at this; linarith
    rw [toInt_high (by rw [this, sub_zero, div_self (ne_of_gt hm)]; norm_num)]
    congr 1; omega
  · have hlt : (k : Rat) < (n : Rat) - 1 := by
      have : ((k + 2 : Nat) : Rat) ≤ (n : Rat) := by exact_mod_cast (by omega : k + 2 ≤ n)
      push_cast at this; linarith
    have hq : ((k : Rat) - 0) / ((n : Rat) - 1 - 0) * (1 - (-1)) + (-1) = -1 + 2 * k / ((n : Rat) - 1) := by
      rw [sub_zero, sub_zero]; ring
    rw [hq]
    have hfrac : 2 * (k : Rat) / ((n : Rat) - 1) < 2 := by rw [div_lt_iff₀ hm]; linarith
    have hge : 0 ≤ 2 * (k : Rat) / ((n : Rat) - 1) := div_nonneg (by linarith) (le_of_lt hm)
    refine (toInt_iff (by omega) (by linarith) (by linarith) (k : Int)).mpr ⟨?_, ?_⟩
    · push_cast
      have : 2 * (k : Rat) / n ≤ 2 * (k : Rat) / ((n : Rat) - 1) := div_le_div_of_nonneg_left (by linarith) hm (by linarith)
      linarith
    · push_cast
      have : 2 * (k : Rat) / ((n : Rat) - 1) < 2 * ((k : Rat) + 1) / n := by
        rw [div_lt_div_iff₀ hm hn']
        nlinarith
      linarith

/-! ### Whole spaces -/

/-- Spaces whose boxes have finite bounds, the lower ones below, and whose choices are not empty. -/
def Sound : List Kind → Prop
  | [] => True
  | .box bs :: ts => (∀ b ∈ bs, ∃ l h, b = (some l, some h) ∧ l ≤ h) ∧ Sound ts
  | .discrete n :: ts => 0 < n ∧ Sound ts
  | _ :: _ => False

/-- The number of values a space takes. -/
def cells : List Kind → Nat
  | [] => 0
  | .box bs :: ts => bs.length + cells ts
  | _ :: ts => 1 + cells ts

/-- The values of a box, and what remains. -/
def Within : List (Option Rat × Option Rat) → List Item → List Item → Prop
  | [], l, rest => l = rest
  | (some a, some b) :: bs, .real (some x) :: l, rest => a ≤ x ∧ x ≤ b ∧ Within bs l rest
  | _, _, _ => False

/-- The flat values are values of the space. -/
def Member : List Kind → List Item → Prop
  | [], l => l = []
  | .box bs :: ts, l => ∃ rest, Within bs l rest ∧ Member ts rest
  | .discrete n :: ts, .int k :: l => 0 ≤ k ∧ k < n ∧ Member ts l
  | _, _ => False

theorem within_append : ∀ (bs : List (Option Rat × Option Rat)) (l rest rest' : List Item), Within bs l rest → Within bs (l ++ rest') (rest ++ rest') := by
  intro bs
  induction bs with
  | nil => intro l rest rest' h; simp only [Within] at h ⊢; rw [h]
  | cons b bs ih =>
    intro l rest rest' h
    obtain ⟨b1, b2⟩ := b
    cases b1 with
    | none => simp [Within] at h
    | some a =>
      cases b2 with
      | none => simp [Within] at h
      | some b =>
        cases l with
        | nil => simp [Within] at h
        | cons i l =>
          cases i with
          | int k => simp [Within] at h
          | real x =>
            cases x with
            | none => simp [Within] at h
            | some x =>
              simp only [Within, List.cons_append] at h ⊢
              exact ⟨h.1, h.2.1, ih l rest rest' h.2.2⟩

theorem denormCells_ok : ∀ (bs : List (Option Rat × Option Rat)) (vals : List Rat), (∀ b ∈ bs, ∃ l h, b = (some l, some h) ∧ l ≤ h) → bs.length ≤ vals.length →
    ∃ ys, denormCells bs vals = .ok (ys, vals.drop bs.length) ∧ Within bs ys [] := by
  intro bs
  induction bs with
  | nil => intro vals _ _; exact ⟨[], rfl, rfl⟩
  | cons b bs ih =>
    intro vals hb hl
    cases vals with
    | nil => simp at hl
    | cons v vals =>
      obtain ⟨l, h, rfl, hlh⟩ := hb b List.mem_cons_self
      obtain ⟨y, y1, y2, y3⟩ := change_range (x := v) (show (-1 : Rat) < 1 by norm_num) hlh
      obtain ⟨ys, e1, e2⟩ := ih vals (fun b hb' => hb b (List.mem_cons_of_mem _ hb')) (by simpa using hl)
      exact ⟨.real (some y) :: ys, by simp only [denormCells, y1, Except.map, e1, List.length_cons, List.drop_succ_cons], y2, y3, e2⟩

theorem denormAll_ok : ∀ (ks : List Kind) (vals : List Rat), Sound ks → cells ks ≤ vals.length → ∃ items, denormAll ks vals = .ok items ∧ Member ks items := by
  intro ks
  induction ks with
  | nil => intro vals _ _; exact ⟨[], rfl, rfl⟩
  | cons k ks ih =>
    intro vals hs hc
    cases k with
    | box bs =>
      simp only [Sound] at hs
      simp only [cells] at hc
      obtain ⟨ys, e1, e2⟩ := denormCells_ok bs vals hs.1 (by omega)
      obtain ⟨zs, e3, e4⟩ := ih (vals.drop bs.length) hs.2 (by rw [List.length_drop]; omega)
      refine ⟨ys ++ zs, by simp only [denormAll, e1, e3], zs, ?_, e4⟩
      simpa using within_append bs ys [] zs e2
    | discrete n =>
      simp only [Sound] at hs
      simp only [cells] at hc
      cases vals with
      | nil => simp at hc
      | cons v vals =>
        obtain ⟨y, y1, y2, y3⟩ := toInt_range hs.1 v
        obtain ⟨zs, e3, e4⟩ := ih vals hs.2 (by simp at hc; omega)
        exact ⟨.int y :: zs, by simp only [denormAll, y1, e3], y2, y3, e4⟩
    | nested => exact hs.elim
    | other => exact hs.elim

/-- Spaces for which nothing is lost: boxes with the lower bounds strictly below, at least two choices. -/
def Wide : List Kind → Prop
  | [] => True
  | .box bs :: ts => (∀ b ∈ bs, ∃ l h, b = (some l, some h) ∧ l < h) ∧ Wide ts
  | .discrete n :: ts => 2 ≤ n ∧ Wide ts
  | _ :: _ => False

/-- The number behind an item. -/
def Item.num : Item → Rat
  | .real x => x.getD 0
  | .int n => n

theorem cells_back : ∀ (bs : List (Option Rat × Option Rat)) (l rest : List Item) (more : List Rat), (∀ b ∈ bs, ∃ l h, b = (some l, some h) ∧ l < h) → Within bs l rest →
    ∃ ys vs, l = vs ++ rest ∧ normCells bs (l.map Item.num) = .ok (ys, rest.map Item.num) ∧ denormCells bs (ys ++ more) = .ok (vs, more) ∧
      (∀ y ∈ ys, -1 ≤ y ∧ y ≤ 1) ∧ ys.length = bs.length := by
  intro bs
  induction bs with
  | nil =>
    intro l rest more _ h
    simp only [Within] at h
    subst h
    exact ⟨[], [], rfl, rfl, rfl, by simp, rfl⟩
  | cons b bs ih =>
    intro l rest more hb h
    obtain ⟨lo, hi, rfl, hlt⟩ := hb b List.mem_cons_self
    cases l with
    | nil => simp [Within] at h
    | cons i l =>
      cases i with
      | int k => simp [Within] at h
      | real x =>
        cases x with
        | none => simp [Within] at h
        | some x =>
          simp only [Within] at h
          obtain ⟨ys, vs, e1, e2, e3, e4, e5⟩ := ih l rest more (fun b hb' => hb b (List.mem_cons_of_mem _ hb')) h.2.2
          obtain ⟨y, y1, y2⟩ := change_inverse hlt (show (-1 : Rat) < 1 by norm_num) h.1 h.2.1
          obtain ⟨y', y3, y4, y5⟩ := change_range (x := x) hlt (show (-1 : Rat) ≤ 1 by norm_num)
          rw [y1] at y3
          cases y3
          refine ⟨y :: ys, .real (some x) :: vs, by rw [e1]; rfl, ?_, ?_, ?_, by simp [e5]⟩
          · simp only [List.map_cons, Item.num, Option.getD_some, normCells, y1, e2]
          · simp only [List.cons_append, denormCells, y2, Except.map, e3]
          · intro z hz
            rcases List.mem_cons.mp hz with rfl | hz
            · exact ⟨y4, y5⟩
            · exact e4 z hz

theorem norm_denorm : ∀ (ks : List Kind) (l : List Item), Wide ks → Member ks l →
    ∃ ys, normFlat ks (l.map Item.num) = .ok ys ∧ denormAll ks ys = .ok l ∧ (∀ y ∈ ys, -1 ≤ y ∧ y ≤ 1) ∧ ys.length = cells ks := by
  intro ks
  induction ks with
  | nil => intro l _ h; simp only [Member] at h; subst h; exact ⟨[], rfl, rfl, by simp, rfl⟩
  | cons k ks ih =>
    intro l hs hm
    cases k with
    | box bs =>
      simp only [Wide] at hs
      simp only [Member] at hm
      obtain ⟨rest, h1, h2⟩ := hm
      obtain ⟨zs, e3, e4, e5, e6⟩ := ih rest hs.2 h2
      obtain ⟨ys, vs, f1, f2, f3, f4, f5⟩ := cells_back bs l rest zs hs.1 h1
      refine ⟨ys ++ zs, by simp only [normFlat, f2, e3], by simp only [denormAll, f3, e4]; rw [f1], ?_, by simp [f5, e6, cells]⟩
      intro y hy
      rcases List.mem_append.mp hy with hy | hy
      · exact f4 y hy
      · exact e5 y hy
    | discrete n =>
      simp only [Wide] at hs
      cases l with
      | nil => simp [Member] at hm
      | cons i l =>
        cases i with
        | real x => simp [Member] at hm
        | int k =>
          simp only [Member] at hm
          obtain ⟨h1, h2, h3⟩ := hm
          obtain ⟨m, rfl⟩ := Int.eq_ofNat_of_zero_le h1
          obtain ⟨zs, e3, e4, e5, e6⟩ := ih l hs.2 h3
          obtain ⟨y, y1, y2⟩ := toInt_inverse hs.1 (show m < n by exact_mod_cast h2)
          obtain ⟨y', y3, y4, y5⟩ := change_range (x := (m : Rat)) (show (0 : Rat) < (n : Rat) - 1 by
            have : (2 : Rat) ≤ n := by exact_mod_cast hs.1
            linarith) (show (-1 : Rat) ≤ 1 by norm_num)
          rw [y1] at y3
          cases y3
          refine ⟨y :: zs, ?_, by simp only [denormAll, y2, e4], ?_, by simp [e6, cells]; omega⟩
          · simp only [List.map_cons, Item.num, normFlat]
            rw [show ((m : Int) : Rat) = (m : Rat) by norm_cast, y1]
            simp only [e3]
          · intro z hz
            rcases List.mem_cons.mp hz with rfl | hz
            · exact ⟨y4, y5⟩
            · exact e5 z hz
    | nested => exact hs.elim
    | other => exact hs.elim

end Verif.Cgp
