import Verif.Model.SimpleGreedy
import Mathlib.Algebra.Order.Ring.Rat
import Mathlib.Tactic.Linarith

/-!
C149: the greedy solver answers with the first action of greatest expected immediate reward.
-/
namespace Verif.SimpleGreedy

variable {σ α : Type}

theorem argmaxFrom_spec (xs : List Rat) : ∀ (pre : List Rat) (j : Nat) (v : Rat), pre[j]? = some v →
    (∀ x ∈ pre, x ≤ v) → (∀ (k : Nat) (x : Rat), k < j → pre[k]? = some x → x < v) →
    ∃ w, (pre ++ xs)[argmaxFrom j v pre.length xs]? = some w ∧ (∀ x ∈ pre ++ xs, x ≤ w) ∧
      ∀ (k : Nat) (x : Rat), k < argmaxFrom j v pre.length xs → (pre ++ xs)[k]? = some x → x < w := by
  induction xs with
  | nil => intro pre j v h1 h2 h3; exact ⟨v, by simpa [argmaxFrom] using h1, by simpa using h2, by simpa [argmaxFrom] using h3⟩
  | cons y xs ih =>
    intro pre j v h1 h2 h3
    have hj : j < pre.length := (List.getElem?_eq_some_iff.1 h1).1
    simp only [argmaxFrom]
    have e : pre ++ y :: xs = (pre ++ [y]) ++ xs := by simp
    have el : pre.length + 1 = (pre ++ [y]).length := by simp
    split
    · rename_i hlt
      rw [e, el]
      refine ih (pre ++ [y]) pre.length y (by simp) ?_ ?_
      · intro x hx
        rcases List.mem_append.1 hx with hx | hx
        · have := h2 x hx; linarith
        · rw [List.mem_singleton.1 hx]
      · intro k x hk hx
        rw [List.getElem?_append_left hk] at hx
        have := h2 x (List.mem_of_getElem? hx)
        linarith
    · rename_i hge
      rw [e, el]
      refine ih (pre ++ [y]) j v (by rw [List.getElem?_append_left hj]; exact h1) ?_ ?_
      · intro x hx
        rcases List.mem_append.1 hx with hx | hx
        · exact h2 x hx
        · rw [List.mem_singleton.1 hx]; linarith
      · intro k x hk hx
        rw [List.getElem?_append_left (by omega)] at hx
        exact h3 k x hk hx

/-- The expected immediate reward of an action, as a sum over its outcomes. -/
def meanReward (reward : σ → Rat) : List (σ × Rat) → Rat
  | [] => 0
  | (s, p) :: l => p * reward s + meanReward reward l

theorem meanReward_eq (reward : σ → Rat) (l : List (σ × Rat)) : meanReward reward l = (l.map fun q => q.2 * reward q.1).sum := by
  induction l with
  | nil => rfl
  | cons q l ih => simp [meanReward, ih]

/-- When rewards depend on the next state, the answer is an applicable action of greatest expected immediate reward, the first such in
the order of the action space. -/
theorem C149_greedy_partial (d : Dom σ α) (hd : d.dependent = true) (s : σ) (a : α) (h : answer d s = .ok a) :
    ∃ pre post, d.applicable s = pre ++ a :: post ∧
      (∀ b ∈ d.applicable s, meanReward (fun t => d.reward s b (some t)) (d.next s b) ≤ meanReward (fun t => d.reward s a (some t)) (d.next s a)) ∧
      ∀ b ∈ pre, meanReward (fun t => d.reward s b (some t)) (d.next s b) < meanReward (fun t => d.reward s a (some t)) (d.next s a) := by
  have hE : ∀ b, meanReward (fun t => d.reward s b (some t)) (d.next s b) = expected d s b := fun b => meanReward_eq _ _
  simp only [hE]
  simp only [answer, values, hd, if_true, bind_ok, bind_eq_ok] at h
  obtain ⟨i, h1, h2⟩ := h
  cases hv : (d.applicable s).map (expected d s) with
  | nil => rw [hv] at h1; cases h1
  | cons x xs =>
    rw [hv] at h1
    have h1 := Except.ok.inj h1
    have key := argmaxFrom_spec xs [x] 0 x rfl (by simp) (by simp)
    rw [show [x].length = 1 from rfl, h1, show [x] ++ xs = x :: xs from rfl, ← hv] at key
    obtain ⟨w, e1, e2, e3⟩ := key
    cases ha : (d.applicable s)[i]? with
    | none => rw [ha] at h2; cases h2
    | some b =>
      rw [ha] at h2
      have h2 := Except.ok.inj h2
      subst h2
      rw [List.getElem?_map, ha] at e1
      have e1 : expected d s b = w := by simpa using e1
      subst e1
      obtain ⟨hi, hb⟩ := List.getElem?_eq_some_iff.1 ha
      refine ⟨(d.applicable s).take i, (d.applicable s).drop (i + 1), ?_, ?_, ?_⟩
      · rw [← hb, List.getElem_cons_drop, List.take_append_drop]
      · exact fun c hc => e2 _ (List.mem_map.2 ⟨c, hc, rfl⟩)
      · intro c hc
        obtain ⟨k, hk⟩ := List.mem_iff_getElem?.1 hc
        have hki : k < i := by
          have := (List.getElem?_eq_some_iff.1 hk).1
          rw [List.length_take] at this
          omega
        rw [List.getElem?_take_of_lt hki] at hk
        exact e3 k _ hki (by rw [List.getElem?_map, hk]; rfl)

/-- When rewards depend on the next state, the solver answers exactly when some action is applicable; otherwise Python's `max` raises
`ValueError`. -/
theorem C149_total_partial (d : Dom σ α) (hd : d.dependent = true) (s : σ) :
    (d.applicable s ≠ [] → ∃ a, answer d s = .ok a) ∧ (d.applicable s = [] → answer d s = .error .valueError) := by
  constructor
  · intro hne
    simp only [answer, values, hd, if_true, bind_ok]
    cases hv : (d.applicable s).map (expected d s) with
    | nil => exact absurd (List.map_eq_nil_iff.1 hv) hne
    | cons x xs =>
      obtain ⟨w, e1, _⟩ := argmaxFrom_spec xs [x] 0 x rfl (by simp) (by simp)
      rw [show [x].length = 1 from rfl, show [x] ++ xs = x :: xs from rfl, ← hv, List.getElem?_map] at e1
      simp only [argmax, bind_ok]
      cases ha : (d.applicable s)[argmaxFrom 0 x 1 xs]? with
      | none => rw [ha] at e1; cases e1
      | some b => exact ⟨b, rfl⟩
  · intro h
    simp only [answer, values, hd, if_true, bind_ok, h, List.map_nil, argmax]
    rfl

/-- When rewards do not depend on the next state (the domain says so), the solver raises `TypeError` in every state of every domain. -/
theorem C149_independent_refuted (d : Dom σ α) (hd : d.dependent = false) (s : σ) : answer d s = .error .typeError := by
  simp only [answer, values, hd, Bool.false_eq_true, if_false]
  rfl

/-- Two actions of one step: a sure reward of 2, and 5 or 0 with equal chances; the third ties with the second. -/
def exDom : Dom Nat Nat where
  applicable := fun s => if s = 0 then [0, 1, 2] else []
  dependent := true
  next := fun _ a => if a = 0 then [(1, 1)] else [(2, 1 / 2), (3, 1 / 2)]
  reward := fun _ _ t => match t with
    | some 1 => 2
    | some 2 => 5
    | _ => 0

example : answer exDom 0 = .ok 1 ∧ answer exDom 1 = .error .valueError ∧ answer { exDom with dependent := false } 0 = .error .typeError := by
  decide +kernel

end Verif.SimpleGreedy
