import Mathlib.Tactic.Linarith
import Mathlib.Tactic.FieldSimp
import Mathlib.Algebra.Order.Field.Basic
import Mathlib.Algebra.Order.BigOperators.Group.List
import Verif.Model.Portfolio
/-
C204: portfolios of mutations.
-/
namespace Verif.Portfolio

theorem cumsum_lower {l : List Rat} : ∀ {s u : Rat}, (∀ x, x ∈ l → 0 ≤ x) → u < s → (cumsum s l).countP (fun c => decide (c ≤ u)) = 0 := by
  induction l with
  | nil => intro s u _ _; rfl
  | cons x l ih =>
    intro s u h hu
    have hx := h x (by simp)
    have hs : u < s + x := by linarith
    rw [cumsum, List.countP_cons, ih (fun y hy => h y (List.mem_cons_of_mem _ hy)) hs]
    simp [hs]

/-- The number drawn lies in the share of the index chosen. -/
theorem count_share {l : List Rat} : ∀ {s u : Rat}, (∀ x, x ∈ l → 0 ≤ x) → s ≤ u → u < s + l.sum →
    ∀ i, (cumsum s l).countP (fun c => decide (c ≤ u)) = i ↔ i < l.length ∧ s + (l.take i).sum ≤ u ∧ u < s + (l.take (i + 1)).sum := by
  induction l with
  | nil => intro s u _ h1 h2; simp at h2; linarith
  | cons x l ih =>
    intro s u h h1 h2 i
    have hx := h x (by simp)
    have hl := fun y hy => h y (List.mem_cons_of_mem x hy)
    rw [List.sum_cons] at h2
    rw [cumsum, List.countP_cons]
    by_cases hc : s + x ≤ u
    · have hi := ih (s := s + x) (u := u) hl hc (by linarith)
      simp only [hc, decide_true, if_true]
      cases i with
      | zero =>
        simp only [Nat.add_eq_zero_iff, one_ne_zero, and_false, false_iff, List.take_succ_cons, List.take_zero, List.sum_cons, List.sum_nil]
        rintro ⟨_, _, h3⟩
        linarith
      | succ i =>
        rw [Nat.add_right_cancel_iff, hi i]
        simp only [List.length_cons, List.take_succ_cons, List.sum_cons, Nat.add_lt_add_iff_right, ← add_assoc s x]
    · have h0 := cumsum_lower (s := s + x) (u := u) hl (not_le.1 hc)
      simp only [hc, decide_false, Bool.false_eq_true, if_false, h0, Nat.add_zero]
      constructor
      · rintro rfl
        refine ⟨by simp, by simpa using h1, ?_⟩
        simp only [Nat.zero_add, List.take_succ_cons, List.take_zero, List.sum_cons, List.sum_nil, add_zero]
        exact not_le.1 hc
      · rintro ⟨_, h3, _⟩
        cases i with
        | zero => rfl
        | succ i =>
          exfalso
          rw [List.take_succ_cons, List.sum_cons] at h3
          have : 0 ≤ (l.take i).sum := List.sum_nonneg (fun y hy => hl y (List.mem_of_mem_take hy))
          exact hc (by linarith)

theorem sum_div (l : List Rat) (c : Rat) : (l.map (fun x => x / c)).sum = l.sum / c := by
  induction l with
  | nil => simp
  | cons x l ih => rw [List.map_cons, List.sum_cons, List.sum_cons, ih, add_div]

/-- A share that contains a number is not empty. -/
theorem share_pos {w : List Rat} {u : Rat} {i : Nat} (hi : i < w.length) (h : (w.take i).sum ≤ u * w.sum ∧ u * w.sum < (w.take (i + 1)).sum) :
    0 < w[i] := by
  rw [List.take_succ_eq_append_getElem hi, List.sum_append] at h
  simp only [List.sum_cons, List.sum_nil, add_zero] at h
  linarith [h.1, h.2]

/-- C204: with weights of which none is negative and some positive, one per mutation, `mutate` is a mutation of the list that has a positive
weight; it is the one at `i` exactly if the number drawn lies in the share of weight `i`: after the weights before it and before the end of its own, relative to their sum. -/
theorem C204_choice {S M : Type} {ms : List (S → M)} {w : List Rat} (hw : ∀ x, x ∈ w → 0 ≤ x) (hs : 0 < w.sum) (hl : w.length = ms.length)
    {u : Rat} (h0 : 0 ≤ u) (h1 : u < 1) (s : S) :
    ∃ i m x, ms[i]? = some m ∧ w[i]? = some x ∧ 0 < x ∧ mutate ms w u s = .ok (m s) ∧
      ∀ j, j = i ↔ j < w.length ∧ (w.take j).sum ≤ u * w.sum ∧ u * w.sum < (w.take (j + 1)).sum := by
  have hn : normalise w = some (w.map (fun x => x / w.sum)) := by unfold normalise; rw [if_neg hs.ne']
  have hp : ∀ x, x ∈ w.map (fun x => x / w.sum) → 0 ≤ x := by
    intro x hx
    obtain ⟨y, hy, rfl⟩ := List.mem_map.1 hx
    exact div_nonneg (hw y hy) hs.le
  have hsum : (w.map (fun x => x / w.sum)).sum = 1 := by rw [sum_div, div_self hs.ne']
  have hne : ms.length ≠ 0 := by
    intro h
    rw [h, List.length_eq_zero_iff] at hl
    subst hl
    simp at hs
  have hany : (w.map (fun x => x / w.sum)).any (fun x => decide (x < 0)) = false := by
    rw [List.any_eq_false]
    intro x hx
    simp only [decide_eq_true_eq, not_lt]
    exact hp x hx
  have hc := count_share hp h0 (by rw [hsum]; linarith)
  obtain ⟨k1, _, _⟩ := (hc _).1 rfl
  have hlen : (cumsum 0 (w.map (fun x => x / w.sum))).countP (fun c => decide (c ≤ u)) < ms.length := by
    rw [List.length_map, hl] at k1; exact k1
  have hch : choice ms.length (normalise w) u = .ok ((cumsum 0 (w.map (fun x => x / w.sum))).countP (fun c => decide (c ≤ u))) := by
    rw [hn]
    simp only [choice]
    rw [if_neg]
    simp [hne, hl, hany]
  have hj : ∀ j, j = (cumsum 0 (w.map (fun x => x / w.sum))).countP (fun c => decide (c ≤ u)) ↔
      j < w.length ∧ (w.take j).sum ≤ u * w.sum ∧ u * w.sum < (w.take (j + 1)).sum := by
    intro j
    rw [eq_comm, hc j]
    simp only [List.length_map, ← List.map_take, sum_div, zero_add]
    rw [div_le_iff₀ hs, lt_div_iff₀ hs]
  obtain ⟨q1, q2⟩ := (hj _).1 rfl
  refine ⟨_, _, _, List.getElem?_eq_getElem hlen, List.getElem?_eq_getElem q1, share_pos q1 q2, ?_, hj⟩
  unfold mutate
  rw [hch]
  simp only [List.getElem?_eq_getElem hlen]

/-- C204: no mutations, another number of weights than of mutations, weights of sum 0, or weights of different signs raise `ValueError`. -/
theorem C204_raises {S M : Type} {ms : List (S → M)} {w : List Rat} (u : Rat) (s : S)
    (h : ms = [] ∨ w.length ≠ ms.length ∨ w.sum = 0 ∨ ∃ x, x ∈ w ∧ (x < 0 ∧ 0 < w.sum ∨ 0 < x ∧ w.sum < 0)) : mutate ms w u s = .error .valueError := by
  have key : choice ms.length (normalise w) u = .error .valueError := by
    by_cases hs : w.sum = 0
    · unfold normalise; rw [if_pos hs]; rfl
    · unfold normalise
      rw [if_neg hs]
      simp only [choice]
      rw [if_pos]
      rcases h with rfl | h | h | ⟨x, hx, h⟩
      · exact .inl rfl
      · exact .inr (.inl (by rwa [List.length_map]))
      · exact absurd h hs
      · refine .inr (.inr (List.any_eq_true.2 ⟨x / w.sum, List.mem_map.2 ⟨x, hx, rfl⟩, ?_⟩))
        simp only [decide_eq_true_eq]
        rcases h with ⟨h1, h2⟩ | ⟨h1, h2⟩
        · exact div_neg_of_neg_of_pos h1 h2
        · exact div_neg_of_pos_of_neg h1 h2
  unfold mutate
  rw [key]

/-- C204, refuted: weights that are all negative are accepted, and the most negative one is chosen most often. -/
theorem C204_negative_refuted : ∃ (w : List Rat) (ms : List (Nat → Nat)), (∀ x, x ∈ w → x < 0) ∧ w = [-1, -3] ∧
    mutate ms w (1 / 4) 5 = .ok 7 ∧ mutate ms w (99 / 100) 5 = .ok 7 ∧ mutate ms w (24 / 100) 5 = .ok 6 :=
  ⟨[-1, -3], [(· + 1), (· + 2)], by decide +kernel, rfl, by decide +kernel, by decide +kernel, by decide +kernel⟩

/-- C204: the mutations available are those of the catalogue for the types that are present, each as often as there; the order of the
types changes only the order of the mutations. -/
theorem C204_available {T M : Type} [DecidableEq T] (catalog : Dict T (Dict String M)) (types : List T) :
    (∀ m, m ∈ available catalog types ↔ ∃ t, t ∈ types ∧ ∃ d n, catalog.get? t = some d ∧ (n, m) ∈ d) ∧
    (available catalog types).length = (types.map (fun t => ((catalog.get? t).getD []).length)).sum ∧
    ∀ types', types.Perm types' → (available catalog types).Perm (available catalog types') := by
  have hflat : ∀ ts : List T, available catalog ts = ts.flatMap (fun t => ((catalog.get? t).getD []).map Prod.snd) := by
    intro ts
    induction ts with
    | nil => rfl
    | cons t ts ih =>
      rw [List.flatMap_cons, ← ih]
      simp only [available]
      cases Dict.get? catalog t <;> rfl
  refine ⟨?_, ?_, ?_⟩
  · intro m
    rw [hflat, List.mem_flatMap]
    refine exists_congr fun t => and_congr_right fun _ => ?_
    cases Dict.get? catalog t with
    | none => simp
    | some d => simp
  · rw [hflat, List.length_flatMap]
    simp only [List.length_map]
  · intro types' hp
    rw [hflat, hflat]
    exact List.Perm.flatMap_right _ hp

/-- Three mutations, the second of weight 0. -/
example : (List.map (fun u => mutate [(· + 1), (· + 2), (· + 3)] [1, 0, 3] u 10) [0, 24 / 100, 1 / 4, 99 / 100]) =
    [Except.ok (11 : Nat), .ok 11, .ok 13, .ok 13] := by decide +kernel
example : mutate [(· + 1), (· + 2)] [1] 0 (10 : Nat) = .error .valueError ∧ mutate [(· + 1), (· + 2)] [1, -1] 0 (10 : Nat) = .error .valueError ∧
    mutate [(· + 1), (· + 2)] [2, -1] 0 (10 : Nat) = .error .valueError ∧ mutate ([] : List (Nat → Nat)) [] 0 (10 : Nat) = .error .valueError :=
  ⟨by decide +kernel, by decide +kernel, by decide +kernel, by decide +kernel⟩
example : available [("perm", [("swap", 1), ("shuffle", 2)]), ("bool", [("flip", 3)])] ["bool", "other", "perm"] = [3, 1, 2] := by decide +kernel

end Verif.Portfolio
