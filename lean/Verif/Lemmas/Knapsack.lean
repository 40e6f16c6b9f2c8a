import Verif.Model.Knapsack
import Verif.Lemmas.ListSum
import Verif.Lemmas.Core
/-
Helper lemmas for the knapsack model.
-/
namespace Verif.Knapsack
open Verif.Core (mapE)

/-- Total of `f` over a packing: `Σ taken_i * f item_i`. -/
def packSum (f : Item → Int) (items : List Item) (taken : List Int) : Int :=
  (List.zipWith (fun x it => x * f it) taken items).sum

/-- The items are numbered by their position. -/
def Numbered (items : List Item) : Prop :=
  ∀ (i : Nat) (h : i < items.length), items[i].index = i

/-- `Σ_{j<k} g j`. -/
def ssum (g : Nat → Int) : Nat → Int
  | 0 => 0
  | k + 1 => ssum g k + g k

theorem ssum_eq (g : Nat → Int) (k : Nat) : ssum g k = ((List.range k).map g).sum := by
  induction k with
  | zero => rfl
  | succ k ih => rw [ssum, ih, List.range_succ, List.map_append, sum_append_int]; simp

theorem ssum_congr {g g' : Nat → Int} {k : Nat} (h : ∀ j, j < k → g j = g' j) :
    ssum g k = ssum g' k := by
  induction k with
  | zero => rfl
  | succ k ih => rw [ssum, ssum, ih (fun j hj => h j (by omega)), h k (by omega)]

theorem packSum_eq_ssum (f : Item → Int) : ∀ (items : List Item) (taken : List Int),
    taken.length = items.length →
    packSum f items taken = ssum (fun i => (taken[i]?.getD 0) * (items[i]?.elim 0 f)) items.length := by
  intro items taken h
  rw [ssum_eq]
  unfold packSum
  congr 1
  apply List.ext_getElem
  · simp [h]
  · intro i h1 h2
    simp only [List.length_zipWith, List.length_map, List.length_range] at h1 h2
    have a : i < taken.length := by omega
    simp [a, h2]

theorem mapE_ok_map {f : α → Except PyErr β} {g : α → β} {xs : List α}
    (h : ∀ x ∈ xs, f x = .ok (g x)) : mapE f xs = .ok (xs.map g) := by
  induction xs with
  | nil => rfl
  | cons x xs ih =>
    rw [mapE, h x (by simp), ih (fun y hy => h y (by simp [hy]))]
    rfl

theorem sumTaken_eq (f : Item → Int) (items : List Item) (taken : List Int)
    (h : taken.length = items.length) : sumTaken f items taken = .ok (packSum f items taken) := by
  unfold sumTaken
  rw [mapE_ok_map (g := fun i => (taken[i]?.getD 0) * (items[i]?.elim 0 f))]
  · rw [packSum_eq_ssum f items taken h, ssum_eq]; rfl
  · intro i hi
    rw [List.mem_range] at hi
    rw [pyGet_of_lt (by omega : i < taken.length), pyGet_of_lt hi]
    simp [hi, h]

theorem indexToPos_numbered {items : List Item} (hn : Numbered items) {i : Nat}
    (hi : i < items.length) : indexToPos items i = .ok i := by
  unfold indexToPos
  have : (List.range items.length).filter (fun j => (items[j]?.map Item.index) = some i) = [i] := by
    have h1 : ∀ j ∈ List.range items.length,
        (decide ((items[j]?.map Item.index) = some i)) = decide (j = i) := by
      intro j hj
      rw [List.mem_range] at hj
      simp [hj, hn j hj]
    rw [List.filter_congr h1]
    have : ∀ n, i < n → (List.range n).filter (fun j => decide (j = i)) = [i] := by
      intro n
      induction n with
      | zero => intro h; omega
      | succ n ih =>
        intro h
        rw [List.range_succ, List.filter_append]
        by_cases hin : i < n
        · rw [ih hin]
          have : n ≠ i := by omega
          simp [this]
        · have e : n = i := by omega
          subst e
          have : (List.range n).filter (fun j => decide (j = n)) = [] := by
            rw [List.filter_eq_nil_iff]
            intro a ha
            rw [List.mem_range] at ha
            simp; omega
          simp [this]
    exact this _ hi
  rw [this]; rfl

/-- The optimum table bounds every selection. -/
theorem row_upper (os : List Item) (hw : ∀ it ∈ os, 0 ≤ it.weight) (x : Nat → Int)
    (hx : ∀ j, x j = 0 ∨ x j = 1) : ∀ (k : Nat) (c : Int),
    ssum (fun j => x j * (os[j]?.elim 0 Item.weight)) k ≤ c →
    ssum (fun j => x j * (os[j]?.elim 0 Item.value)) k ≤ row os k c := by
  have hwk : ∀ k, 0 ≤ ssum (fun j => x j * (os[j]?.elim 0 Item.weight)) k := by
    intro k
    induction k with
    | zero => simp [ssum]
    | succ k ih =>
      simp only [ssum]
      have : 0 ≤ x k * (os[k]?.elim 0 Item.weight) := by
        apply Int.mul_nonneg
        · rcases hx k with h | h <;> simp [h]
        · cases h : os[k]? with
          | none => simp
          | some it => exact hw it (List.mem_of_getElem? h)
      omega
  intro k
  induction k with
  | zero => intro c _; simp [ssum, row]
  | succ k ih =>
    intro c hc
    simp only [ssum] at hc ⊢
    simp only [row]
    cases h : os[k]? with
    | none =>
      simp only [h, Option.elim_none, Int.mul_zero, Int.add_zero] at hc ⊢
      exact ih c hc
    | some it =>
      simp only [h, Option.elim_some] at hc ⊢
      have hit := hw it (List.mem_of_getElem? h)
      rcases hx k with h0 | h1
      · simp only [h0, Int.zero_mul, Int.add_zero] at hc ⊢
        have := ih c hc
        split <;> omega
      · simp only [h1, Int.one_mul] at hc ⊢
        have := ih (c - it.weight) (by omega)
        have := hwk k
        rw [if_neg (by omega)]
        omega

/-- What back-tracking does: it selects items whose total value is the table entry. -/
theorem backtrack_spec (os : List Item) : ∀ (k : Nat) (c : Int) (t : List Int) (v w : Int),
    (∀ it ∈ os, it.index < t.length) → k ≤ os.length →
    ∃ (x : Nat → Int) (t' : List Int),
      backtrack os k c (t, v, w) = .ok (t',
        v + ssum (fun j => x j * (os[j]?.elim 0 Item.value)) k,
        w + ssum (fun j => x j * (os[j]?.elim 0 Item.weight)) k) ∧
      (∀ j, x j = 0 ∨ x j = 1) ∧
      ssum (fun j => x j * (os[j]?.elim 0 Item.value)) k = row os k c ∧
      (0 ≤ c → ssum (fun j => x j * (os[j]?.elim 0 Item.weight)) k ≤ c) ∧
      t'.length = t.length ∧
      ∀ p : Nat, p < t.length → (t'[p]? = some 1 ∧ ∃ (j : Nat) (it : Item), j < k ∧ os[j]? = some it ∧ x j = 1 ∧ it.index = p) ∨
        (t'[p]? = t[p]? ∧ ∀ (j : Nat) (it : Item), j < k → os[j]? = some it → x j = 1 → it.index ≠ p) := by
  intro k
  induction k with
  | zero =>
    intro c t v w _ _
    refine ⟨fun _ => 0, t, by simp [backtrack, ssum], by simp, by simp [ssum, row], by simp [ssum], rfl, ?_⟩
    intro p hp
    right
    exact ⟨rfl, fun j it hj => by omega⟩
  | succ k ih =>
    intro c t v w hidx hk
    have hk' : k < os.length := by omega
    simp only [backtrack]
    split
    · rename_i hne
      have hit : os[k]? = some os[k] := List.getElem?_eq_getElem hk'
      have hil : os[k].index < t.length := hidx _ (List.getElem_mem hk')
      rw [pyGet_of_lt hk']
      simp only [bind_ok, pySet, hil, if_true]
      -- the row differs, so the item was used
      have hrow : row os (k + 1) c = row os k (c - os[k].weight) + os[k].value ∧ os[k].weight ≤ c := by
        simp only [row, hit] at hne ⊢
        split
        · rename_i hgt; simp [hgt] at hne
        · rename_i hgt
          rw [if_neg hgt] at hne
          constructor <;> omega
      obtain ⟨x, t', h1, h2, h3, h4, h5, h6⟩ := ih (c - os[k].weight) (t.set os[k].index 1)
        (v + os[k].value) (w + os[k].weight) (by simpa using hidx) (by omega)
      let y : Nat → Int := fun j => if j = k then 1 else x j
      have hy : ∀ (f : Item → Int), ssum (fun j => y j * (os[j]?.elim 0 f)) k
          = ssum (fun j => x j * (os[j]?.elim 0 f)) k := by
        intro f
        apply ssum_congr
        intro j hj
        have : y j = x j := by simp only [y]; rw [if_neg (by omega)]
        rw [this]
      have hyk : y k = 1 := by simp [y]
      refine ⟨y, t', ?_, ?_, ?_, ?_, by simpa using h5, ?_⟩
      · rw [h1]
        simp only [ssum, hy, hyk, hit, Option.elim_some, Int.one_mul]
        congr 2
        simp only [Prod.mk.injEq]
        constructor <;> omega
      · intro j
        simp only [y]
        split
        · exact .inr rfl
        · exact h2 j
      · simp only [ssum, hy, hyk, hit, Option.elim_some, Int.one_mul, h3]
        omega
      · intro hc
        simp only [ssum, hy, hyk, hit, Option.elim_some, Int.one_mul]
        have := h4 (by omega)
        omega
      · intro p hp
        rcases h6 p (by simpa using hp) with ⟨q1, j, it, q2, q3, q4, q5⟩ | ⟨q1, q2⟩
        · left
          refine ⟨q1, j, it, by omega, q3, ?_, q5⟩
          simp only [y]; rw [if_neg (by omega)]; exact q4
        · by_cases hpi : os[k].index = p
          · left
            refine ⟨?_, k, os[k], by omega, hit, hyk, hpi⟩
            rw [q1, hpi, List.getElem?_set_self hp]
          · right
            refine ⟨by rw [q1, List.getElem?_set_ne hpi], ?_⟩
            intro j it hj hji hyj
            by_cases hjk : j = k
            · subst hjk
              rw [hit] at hji; cases hji
              exact hpi
            · refine q2 j it (by omega) hji ?_
              simp only [y] at hyj; rwa [if_neg hjk] at hyj
    · rename_i heq
      have heq : row os (k + 1) c = row os k c := by simpa using heq
      obtain ⟨x, t', h1, h2, h3, h4, h5, h6⟩ := ih c t v w hidx (by omega)
      let y : Nat → Int := fun j => if j = k then 0 else x j
      have hy : ∀ (f : Item → Int), ssum (fun j => y j * (os[j]?.elim 0 f)) k
          = ssum (fun j => x j * (os[j]?.elim 0 f)) k := by
        intro f
        apply ssum_congr
        intro j hj
        have : y j = x j := by simp only [y]; rw [if_neg (by omega)]
        rw [this]
      have hyk : y k = 0 := by simp [y]
      refine ⟨y, t', ?_, ?_, ?_, ?_, h5, ?_⟩
      · rw [h1]
        simp only [ssum, hy, hyk, Int.zero_mul, Int.add_zero]
      · intro j
        simp only [y]
        split
        · exact .inl rfl
        · exact h2 j
      · simp only [ssum, hy, hyk, Int.zero_mul, Int.add_zero, h3, heq]
      · intro hc
        simp only [ssum, hy, hyk, Int.zero_mul, Int.add_zero]
        exact h4 hc
      · intro p hp
        rcases h6 p hp with ⟨q1, j, it, q2, q3, q4, q5⟩ | ⟨q1, q2⟩
        · left
          refine ⟨q1, j, it, by omega, q3, ?_, q5⟩
          simp only [y]; rw [if_neg (by omega)]; exact q4
        · right
          refine ⟨q1, ?_⟩
          intro j it hj hji hyj
          by_cases hjk : j = k
          · subst hjk
            rw [hyk] at hyj; omega
          · refine q2 j it (by omega) hji ?_
            simp only [y] at hyj; rwa [if_neg hjk] at hyj

theorem startRow_spec (os : List Item) (cap : Int) (n : Nat) :
    startRow os cap n ≤ n ∧ row os (startRow os cap n) cap = row os n cap := by
  induction n with
  | zero => exact ⟨Nat.le_refl _, rfl⟩
  | succ k ih =>
    simp only [startRow]
    cases h : os[k]? with
    | none =>
      simp only [row, h]
      exact ⟨by omega, ih.2⟩
    | some it =>
      simp only
      split
      · rename_i hgt
        refine ⟨by omega, ?_⟩
        simp only [row, h, if_pos hgt]
        exact ih.2
      · exact ⟨Nat.le_refl _, rfl⟩

/-- Sum over the processing order of a packing supported on it. -/
theorem ssum_order {items : List Item} {order : List Nat} {k : Nat} {t : List Int} (f : Item → Int)
    (hlen : t.length = items.length) (hnd : order.Nodup) (hlt : ∀ p ∈ order, p < items.length)
    (hk : k ≤ order.length) (hsup : ∀ p, p < items.length → p ∉ order.take k → t[p]? = some 0)
    (x : Nat → Int) (hx : ∀ (j : Nat) (h : j < k), x j = (t[order[j]]?).getD 0)
    (os : List Item) (hos : ∀ (j : Nat) (h : j < k), os[j]? = items[order[j]]?) :
    ssum (fun j => x j * (os[j]?.elim 0 f)) k = packSum f items t := by
  rw [packSum_eq_ssum f items t hlen, ssum_eq, ssum_eq]
  have hnd' : (order.take k).Nodup := hnd.sublist (List.take_sublist _ _)
  rw [sum_support hnd' (fun d hd => hlt d (List.mem_of_mem_take hd))]
  · congr 1
    apply List.ext_getElem
    · simp [hk]
    · intro i h1 h2
      simp only [List.length_map, List.length_range] at h1
      simp only [List.getElem_map, List.getElem_range, List.getElem_take]
      rw [hx i h1, hos i h1]
  · intro i hi hni
    rw [hsup i hi hni]; simp

end Verif.Knapsack
