import Verif.Model.Mdp
import Mathlib.Algebra.Order.Ring.Rat
import Mathlib.Data.List.Basic
import Mathlib.Tactic.Linarith
import Mathlib.Tactic.Ring

/-! Lemmas about the parts that the planners for stochastic domains share. -/
namespace Verif

namespace Mdp

/-- The loop over the actions finds the smallest value. -/
theorem greedy_foldl (value : α → Rat) (as : List α) (b : α) (v : Rat) (hv : v = value b) :
    ∃ a w, as.foldl (fun best a => match best with
      | none => some (a, value a)
      | some (b, v) => if value a < v then some (a, value a) else some (b, v)) (some (b, v)) = some (a, w) ∧
      (a = b ∨ a ∈ as) ∧ w = value a ∧ w ≤ v ∧ ∀ x ∈ as, w ≤ value x := by
  induction as generalizing b v with
  | nil => exact ⟨b, v, rfl, .inl rfl, hv, le_refl _, by simp⟩
  | cons x as ih =>
    simp only [List.foldl_cons]
    by_cases h : value x < v
    · rw [if_pos h]
      obtain ⟨a, w, e, ha, hw, hle, hmin⟩ := ih x (value x) rfl
      refine ⟨a, w, e, .inr ?_, hw, by linarith, ?_⟩
      · rcases ha with rfl | ha
        · exact List.mem_cons_self
        · exact List.mem_cons_of_mem _ ha
      · intro y hy
        rcases List.mem_cons.1 hy with rfl | hy
        · exact hle
        · exact hmin y hy
    · rw [if_neg h]
      obtain ⟨a, w, e, ha, hw, hle, hmin⟩ := ih b v hv
      refine ⟨a, w, e, ?_, hw, hle, ?_⟩
      · rcases ha with rfl | ha
        · exact .inl rfl
        · exact .inr (List.mem_cons_of_mem _ ha)
      · intro y hy
        rcases List.mem_cons.1 hy with rfl | hy
        · linarith [not_lt.1 h]
        · exact hmin y hy

theorem greedy_some {value : α → Rat} {as : List α} {a : α} {v : Rat} (h : greedy value as = some (a, v)) :
    a ∈ as ∧ v = value a ∧ ∀ b ∈ as, v ≤ value b := by
  cases as with
  | nil => simp [greedy] at h
  | cons x as =>
    obtain ⟨a', w, e, ha, hw, hle, hmin⟩ := greedy_foldl value as x (value x) rfl
    have e' : greedy value (x :: as) = some (a', w) := e
    rw [e'] at h
    cases h
    refine ⟨?_, hw, ?_⟩
    · rcases ha with rfl | ha
      · exact List.mem_cons_self
      · exact List.mem_cons_of_mem _ ha
    · intro y hy
      rcases List.mem_cons.1 hy with rfl | hy
      · exact hle
      · exact hmin y hy

theorem greedy_none {value : α → Rat} {as : List α} (h : greedy value as = none) : as = [] := by
  cases as with
  | nil => rfl
  | cons x as =>
    obtain ⟨a', w, e, -⟩ := greedy_foldl value as x (value x) rfl
    have e' : greedy value (x :: as) = some (a', w) := e
    rw [e'] at h
    cases h

theorem greedy_congr {f g : α → Rat} {as : List α} (h : ∀ a ∈ as, f a = g a) : greedy f as = greedy g as := by
  unfold greedy
  refine List.foldl_ext _ _ _ ?_
  intro b a ha
  rw [h a ha]

theorem q_congr (m : Mdp σ α) (d : Rat) {v w : σ → Rat} {s : σ} {a : α}
    (h : ∀ o ∈ m.outcomes s a, v o.2.2 = w o.2.2) : m.q d v s a = m.q d w s a := by
  unfold q
  congr 1
  apply List.map_congr_left
  intro o ho
  rw [h o ho]

theorem sum_map_le (l : List β) {f g : β → Rat} (h : ∀ x ∈ l, f x ≤ g x) : (l.map f).sum ≤ (l.map g).sum := by
  induction l with
  | nil => simp
  | cons x l ih =>
    simp only [List.map_cons, List.sum_cons]
    have h1 := h x List.mem_cons_self
    have h2 := ih fun y hy => h y (List.mem_cons_of_mem _ hy)
    linarith

theorem sum_nonneg (l : List β) {f : β → Rat} (h : ∀ x ∈ l, 0 ≤ f x) : 0 ≤ (l.map f).sum := by
  induction l with
  | nil => simp
  | cons x l ih =>
    simp only [List.map_cons, List.sum_cons]
    have h1 := h x List.mem_cons_self
    have h2 := ih fun y hy => h y (List.mem_cons_of_mem _ hy)
    linarith

theorem sum_zero_of_nonneg (l : List β) {f : β → Rat} (h : ∀ x ∈ l, 0 ≤ f x) (hs : (l.map f).sum ≤ 0) :
    ∀ x ∈ l, f x = 0 := by
  induction l with
  | nil => simp
  | cons y l ih =>
    simp only [List.map_cons, List.sum_cons] at hs
    have h0 := h y List.mem_cons_self
    have h1 := sum_nonneg l fun x hx => h x (List.mem_cons_of_mem _ hx)
    intro x hx
    rcases List.mem_cons.1 hx with rfl | hx
    · linarith
    · exact ih (fun z hz => h z (List.mem_cons_of_mem _ hz)) (by linarith) x hx

theorem sum_lin (l : List (Rat × Rat × σ)) (D : σ → Rat) (M : Rat) :
    (l.map fun o => o.1 * (M - D o.2.2)).sum = M * (l.map fun o => o.1).sum - (l.map fun o => o.1 * D o.2.2).sum := by
  induction l with
  | nil => simp
  | cons o l ih =>
    simp only [List.map_cons, List.sum_cons, ih]
    ring

theorem q_mono (m : Mdp σ α) {d : Rat} (hd : 0 ≤ d) {v w : σ → Rat} {s : σ} {a : α}
    (hp : ∀ o ∈ m.outcomes s a, 0 ≤ o.1) (h : ∀ o ∈ m.outcomes s a, v o.2.2 ≤ w o.2.2) :
    m.q d v s a ≤ m.q d w s a := by
  apply sum_map_le
  intro o ho
  have h1 := mul_le_mul_of_nonneg_left (h o ho) hd
  exact mul_le_mul_of_nonneg_left (by linarith) (hp o ho)

end Mdp
end Verif
