import Verif.Model.Robust
import Verif.Lemmas.Milp
import Verif.Lemmas.Sched
import Verif.Props.Objectives
import Mathlib.Algebra.Order.Ring.Rat
import Mathlib.Algebra.BigOperators.Group.List.Basic

/-! Helper lemmas for C178, C179 and C180. -/
namespace Verif.Robust
open Rcpsp Milp

theorem floor_bounds (x : Rat) : (x.floor : Rat) ≤ x ∧ x < x.floor + 1 :=
  ⟨Rat.floor_le x, by exact_mod_cast Rat.lt_floor_add_one x⟩

/-- Truncation stays between integers. -/
theorem trunc_bounds {a b : Int} {x : Rat} (h1 : (a : Rat) ≤ x) (h2 : x ≤ (b : Rat)) : a ≤ trunc x ∧ trunc x ≤ b := by
  unfold trunc
  split
  · constructor
    · exact Rat.le_floor_iff.2 h1
    · have := (floor_bounds x).1
      have : (x.floor : Rat) ≤ b := le_trans this h2
      exact_mod_cast this
  · constructor
    · have := (floor_bounds (-x)).1
      have : ((-x).floor : Rat) ≤ -(a : Rat) := by linarith
      have : (-x).floor ≤ -a := by exact_mod_cast this
      omega
    · have : -b ≤ (-x).floor := Rat.le_floor_iff.2 (by push_cast; linarith)
      omega

theorem trunc_int (z : Int) : trunc (z : Rat) = z := by
  have := trunc_bounds (le_refl (z : Rat)) (le_refl (z : Rat))
  omega

theorem mem_sortR {x : Rat} {l : List Rat} : x ∈ sortR l ↔ x ∈ l := by
  unfold sortR; exact (List.mergeSort_perm l _).mem_iff

theorem length_sortR (l : List Rat) : (sortR l).length = l.length := by
  unfold sortR; exact (List.mergeSort_perm l _).length_eq

/-- Every method but the weighted sum stays between the values. -/
theorem apply_bounds {agg : Agg} {l : List Rat} {x lo hi : Rat} (hp : ∀ ws, agg ≠ .ponderation ws) (hl : l ≠ [])
    (h : agg.apply l = .ok x) (hb : ∀ y ∈ l, lo ≤ y ∧ y ≤ hi) : lo ≤ x ∧ x ≤ hi := by
  obtain ⟨y, ys, rfl⟩ : ∃ y ys, l = y :: ys := by
    cases l with
    | nil => exact absurd rfl hl
    | cons y ys => exact ⟨y, ys, rfl⟩
  have hm := Objectives.C54_methods y ys
  cases agg with
  | mean =>
    obtain ⟨m, e, hs⟩ := hm.2.2
    simp only [Agg.apply, e, Except.ok.injEq] at h
    subst h
    have := Objectives.sum_bounds (y :: ys) lo hi hb
    rw [← hs] at this
    have hpos : (0 : Rat) < ((y :: ys).length : Rat) := by simp only [List.length_cons]; positivity
    exact ⟨le_of_mul_le_mul_right this.1 hpos, le_of_mul_le_mul_right this.2 hpos⟩
  | median =>
    simp only [Agg.apply, medianOf] at h
    split at h
    · rename_i a b ha hb'
      have h := (Except.ok.inj h).symm; subst h
      have h1 := hb a (mem_sortR.1 (List.mem_of_getElem? ha))
      have h2 := hb b (mem_sortR.1 (List.mem_of_getElem? hb'))
      constructor <;> linarith
    · cases h
  | percentile q =>
    simp only [Agg.apply, percentileOf] at h
    split at h
    · cases h
    · rename_i hq
      have hq0 : 0 ≤ q := by
        have := not_or.1 hq
        exact le_of_not_gt this.1
      have hx0 : (0 : Rat) ≤ (((y :: ys).length : Rat) - 1) * q / 100 := by
        have : (0 : Rat) ≤ ((y :: ys).length : Rat) - 1 := by
          simp only [List.length_cons]; push_cast; simp
        exact div_nonneg (mul_nonneg this hq0) (by norm_num)
      generalize (((y :: ys).length : Rat) - 1) * q / 100 = p at h hx0
      have hfl : (0 : Int) ≤ p.floor := Rat.le_floor_iff.2 (by exact_mod_cast hx0)
      have hcast : ((p.floor.toNat : Nat) : Rat) = (p.floor : Rat) := by
        have : ((p.floor.toNat : Int) : Rat) = (p.floor : Rat) := by rw [Int.toNat_of_nonneg hfl]
        exact_mod_cast this
      have hfb := floor_bounds p
      split at h
      · rename_i a b ha hb'
        have h := (Except.ok.inj h).symm; subst h
        have h1 := hb a (mem_sortR.1 (List.mem_of_getElem? ha))
        have h2 := hb b (mem_sortR.1 (List.mem_of_getElem? hb'))
        rw [hcast]
        have f0 : 0 ≤ p - p.floor := by linarith
        have f1 : p - p.floor ≤ 1 := by linarith
        generalize p - p.floor = f at f0 f1
        constructor <;> nlinarith
      · rename_i ha _
        have h := (Except.ok.inj h).symm; subst h
        exact hb _ (mem_sortR.1 (List.mem_of_getElem? ha))
      · cases h
  | ponderation ws => exact absurd rfl (hp ws)
  | min =>
    obtain ⟨m, e, hs, -⟩ := hm.1
    simp only [Agg.apply, e, Except.ok.injEq] at h
    subst h
    exact hb _ hs
  | max =>
    obtain ⟨m, e, hs, -⟩ := hm.2.1
    simp only [Agg.apply, e, Except.ok.injEq] at h
    subst h
    exact hb _ hs

/-- Every method but the weighted sum has a value. -/
theorem apply_ok {agg : Agg} {l : List Rat} (hp : ∀ ws, agg ≠ .ponderation ws)
    (hq : ∀ q, agg = .percentile q → 0 ≤ q ∧ q ≤ 100) (hl : l ≠ []) : ∃ x, agg.apply l = .ok x := by
  obtain ⟨y, ys, rfl⟩ : ∃ y ys, l = y :: ys := by
    cases l with
    | nil => exact absurd rfl hl
    | cons y ys => exact ⟨y, ys, rfl⟩
  have hm := Objectives.C54_methods y ys
  have hlen : (sortR (y :: ys)).length = ys.length + 1 := by rw [length_sortR]; rfl
  cases agg with
  | mean => obtain ⟨m, e, -⟩ := hm.2.2; exact ⟨m, e⟩
  | median =>
    have h1 : ((y :: ys).length - 1) / 2 < (sortR (y :: ys)).length := by
      rw [hlen, List.length_cons]; omega
    have h2 : (y :: ys).length / 2 < (sortR (y :: ys)).length := by
      rw [hlen, List.length_cons]; omega
    refine ⟨((sortR (y :: ys))[((y :: ys).length - 1) / 2] + (sortR (y :: ys))[(y :: ys).length / 2]) / 2, ?_⟩
    simp only [Agg.apply, medianOf, List.getElem?_eq_getElem h1, List.getElem?_eq_getElem h2]
  | percentile q =>
    obtain ⟨q0, q1⟩ := hq q rfl
    simp only [Agg.apply, percentileOf]
    rw [if_neg (by rintro (h | h) <;> linarith)]
    have hn : (((y :: ys).length : Rat) - 1) = (ys.length : Rat) := by
      simp only [List.length_cons]; push_cast; ring
    rw [hn]
    have hx0 : (0 : Rat) ≤ (ys.length : Rat) * q / 100 :=
      div_nonneg (mul_nonneg (by positivity) q0) (by norm_num)
    have hx1 : (ys.length : Rat) * q / 100 ≤ ys.length := by
      have : (0 : Rat) ≤ ys.length := by positivity
      rw [div_le_iff₀ (by norm_num)]
      nlinarith
    generalize (ys.length : Rat) * q / 100 = p at hx0 hx1
    have hfl : p.floor ≤ ys.length := by
      have := (floor_bounds p).1
      have : (p.floor : Rat) ≤ (ys.length : Rat) := le_trans this hx1
      exact_mod_cast this
    have hi : p.floor.toNat < (sortR (y :: ys)).length := by rw [hlen]; omega
    rw [List.getElem?_eq_getElem hi]
    cases (sortR (y :: ys))[p.floor.toNat + 1]? with
    | none => exact ⟨_, rfl⟩
    | some b => exact ⟨_, rfl⟩
  | ponderation ws => exact absurd rfl (hp ws)
  | min => obtain ⟨m, e, -⟩ := hm.1; exact ⟨m, e⟩
  | max => obtain ⟨m, e, -⟩ := hm.2.1; exact ⟨m, e⟩

/-- A dictionary mapped entry by entry. -/
theorem mapD_inv {κ α β : Type} [DecidableEq κ] {f : κ → α → Except PyErr β} :
    ∀ {d : Dict κ α} {d' : Dict κ β}, mapD f d = .ok d' →
      d'.keys = d.keys ∧ (∀ k v, d.get? k = some v → ∃ v', f k v = .ok v' ∧ d'.get? k = some v') ∧
      (∀ k, d.get? k = none → d'.get? k = none)
  | [], d', h => by
    simp only [mapD, mapE, Except.ok.injEq] at h
    subst h
    exact ⟨rfl, fun k v hk => by simp [Dict.get?] at hk, fun k _ => rfl⟩
  | (k0, v0) :: d, d', h => by
    simp only [mapD, mapE, bind_eq_ok, Except.ok.injEq] at h
    obtain ⟨y, ⟨x, hx, rfl⟩, ys, hys, rfl⟩ := h
    obtain ⟨i1, i2, i3⟩ := mapD_inv (f := f) hys
    refine ⟨by simp only [Dict.keys, List.map_cons] at i1 ⊢; rw [i1], ?_, ?_⟩
    · intro k v hk
      simp only [Dict.get?] at hk ⊢
      split at hk
      · rename_i he
        have hk := (Option.some.inj hk).symm
        subst hk; subst he
        exact ⟨x, hx, by rw [if_pos rfl]⟩
      · rename_i he
        obtain ⟨v', h1, h2⟩ := i2 k v hk
        exact ⟨v', h1, by rw [if_neg he]; exact h2⟩
    · intro k hk
      simp only [Dict.get?] at hk ⊢
      split at hk
      · cases hk
      · rename_i he
        rw [if_neg he]; exact i3 k hk

theorem mapE_total {α β : Type} {f : α → Except PyErr β} : ∀ {l : List α}, (∀ x ∈ l, ∃ y, f x = .ok y) →
    ∃ ys, mapE f l = .ok ys
  | [], _ => ⟨[], rfl⟩
  | x :: l, h => by
    obtain ⟨y, hy⟩ := h x (List.mem_cons_self ..)
    obtain ⟨ys, hys⟩ := mapE_total (l := l) (fun z hz => h z (List.mem_cons_of_mem _ hz))
    exact ⟨y :: ys, by simp only [mapE, hy, hys, bind_ok]⟩

theorem mapD_total {κ α β : Type} {f : κ → α → Except PyErr β} {d : Dict κ α} (h : ∀ p ∈ d, ∃ y, f p.1 p.2 = .ok y) :
    ∃ d', mapD f d = .ok d' := by
  unfold mapD
  refine mapE_total (fun p hp => ?_)
  obtain ⟨y, hy⟩ := h p hp
  exact ⟨(p.1, y), by simp only [hy, bind_ok]⟩

/-- The elements of a list mapped. -/
theorem mapE_forall {α β : Type} {f : α → Except PyErr β} : ∀ {l : List α} {ys : List β}, mapE f l = .ok ys →
    List.Forall₂ (fun x y => f x = .ok y) l ys
  | [], ys, h => by
    simp only [mapE, Except.ok.injEq] at h
    subst h; exact .nil
  | x :: l, ys, h => by
    simp only [mapE, bind_eq_ok, Except.ok.injEq] at h
    obtain ⟨y, hy, zs, hz, rfl⟩ := h
    exact .cons hy (mapE_forall hz)

end Verif.Robust
