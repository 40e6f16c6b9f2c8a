import Verif.Props.Moves
/-
Properties C20, C21, C46: what each move does position by position.
-/
namespace Verif.Moves
open Verif.Core (mapE)

/-- C20 (shuffle): position `k` of the result holds what stood at the `k`-th entry of the
rearrangement. -/
theorem C20_shuffle_effect (l l' : List α) (r : List Nat) (m : ShuffleMove α)
    (h : shuffleMutate l r = .ok (l', m)) :
    l'.length = r.length ∧ ∀ (k : Nat) (i : Nat), r[k]? = some i → i < l.length ∧ l'[k]? = l[i]? := by
  simp only [shuffleMutate, bind_eq_ok] at h
  obtain ⟨w, h1, h2⟩ := h
  cases h2
  obtain ⟨h3, h4⟩ := Verif.Core.mapE_ok h1
  refine ⟨h3, fun k i hk => ?_⟩
  obtain ⟨hk', rfl⟩ := List.getElem?_eq_some_iff.1 hk
  have h5 := h4 k hk' (by omega)
  rw [pyGet_ok_iff] at h5
  have h6 := (List.getElem?_eq_some_iff.1 h5).1
  refine ⟨h6, ?_⟩
  rw [h5, List.getElem?_eq_getElem (by omega)]

example : shuffleMutate [7, 8, 9] [2, 0, 1] = .ok ([9, 7, 8], ⟨[9, 7, 8], [7, 8, 9]⟩) := rfl

/-- C20 (partial shuffle): positions that were not chosen keep their element; the `k`-th chosen
position receives the element of the chosen position at the `k`-th entry of the rearrangement. -/
theorem C20_partial_shuffle_effect (l : List α) (d r : List Nat) (hd : d.Nodup)
    (hdl : ∀ i ∈ d, i < l.length) (hr : r.Perm (List.range d.length)) :
    ∃ l' m, partialShuffleMutate l d r = .ok (l', m) ∧ l'.length = l.length ∧
      (∀ i, i ∉ d → l'[i]? = l[i]?) ∧
      (∀ (k : Nat) (i j p : Nat), d[k]? = some i → r[k]? = some p → d[p]? = some j → l'[i]? = l[j]?) := by
  obtain ⟨new, h1, h2, h3, h4⟩ := partialShuffleLoop_spec (prev := l) (D := d) (ds := d) (rs := r)
    (new := l) (by simpa using hr.length_eq.symm) hd hdl
    (fun i hi => by simpa using hr.mem_iff.1 hi) hdl
  refine ⟨new, ⟨new, l⟩, by simp [partialShuffleMutate, h1], h2, h3, ?_⟩
  intro k i j p hi hp hj
  obtain ⟨a1, rfl⟩ := List.getElem?_eq_some_iff.1 hi
  obtain ⟨a2, rfl⟩ := List.getElem?_eq_some_iff.1 hp
  obtain ⟨a3, rfl⟩ := List.getElem?_eq_some_iff.1 hj
  exact h4 k a1 a2 a3

example : partialShuffleMutate [5, 6, 7, 8] [3, 0, 2] [1, 2, 0]
    = .ok ([7, 6, 8, 5], ⟨[7, 6, 8, 5], [5, 6, 7, 8]⟩) := rfl

/-- C20 (swap): one swap exchanges the elements at its two positions and touches nothing else;
it raises exactly when a position does not exist. -/
theorem C20_swap_effect (l : List α) (i j : Nat) :
    (∀ l', swapsApply [(i, j)] l = .ok l' → l'[i]? = l[j]? ∧ l'[j]? = l[i]? ∧
      ∀ k, k ≠ i → k ≠ j → l'[k]? = l[k]?) ∧
    ((∃ e, swapsApply [(i, j)] l = .error e) ↔ l.length ≤ i ∨ l.length ≤ j) := by
  constructor
  · intro l' h
    simp only [swapsApply, bind_eq_ok] at h
    obtain ⟨l1, h1, h2⟩ := h
    cases h2
    obtain ⟨h3, h4, rfl⟩ := swap1_ok h1
    replace h3 : i < l.length := h3
    replace h4 : j < l.length := h4
    show (((l.set i l[j]).set j l[i])[i]? = l[j]? ∧ ((l.set i l[j]).set j l[i])[j]? = l[i]? ∧
      ∀ k, k ≠ i → k ≠ j → ((l.set i l[j]).set j l[i])[k]? = l[k]?)
    refine ⟨?_, ?_, ?_⟩
    · rw [List.getElem?_set]
      split
      · rename_i h; subst h; simp [h3]
      · simp [h3]
    · simp [h3, h4]
    · intro k h3 h4
      rw [List.getElem?_set_ne (Ne.symm h4), List.getElem?_set_ne (Ne.symm h3)]
  · by_cases h : i < l.length ∧ j < l.length
    · simp only [swapsApply, swap1_of_lt (p := (i, j)) h.1 h.2, bind_ok, reduceCtorEq, exists_false, false_iff]
      omega
    · constructor
      · intro _; omega
      · intro _
        cases h2 : swapsApply [(i, j)] l with
        | error e => exact ⟨e, rfl⟩
        | ok l' =>
          simp only [swapsApply, bind_eq_ok] at h2
          obtain ⟨l1, h1, _⟩ := h2
          obtain ⟨h1, h2, _⟩ := swap1_ok h1
          exact absurd ⟨h1, h2⟩ h

example : swapsApply [(0, 2)] [5, 6, 7] = .ok [7, 6, 5] := rfl

/-- C20 (two-opt): one move reverses the segment between its two positions, ends included, and
touches nothing else. -/
theorem C20_two_opt_effect (l : List α) (i j : Nat) (hij : i ≤ j) (hj : j < l.length) (k : Nat) :
    (twoOptApply [(i, j)] l)[k]? = if i ≤ k ∧ k ≤ j then l[i + j - k]? else l[k]? := by
  simp only [twoOptApply, List.foldl_cons, List.foldl_nil, twoOpt1]
  rw [List.append_assoc, List.getElem?_append]
  simp only [List.length_take]
  rw [Nat.min_eq_left (by omega)]
  split
  · rename_i h
    rw [if_neg (by omega), List.getElem?_take_of_lt h]
  · rename_i h
    rw [List.getElem?_append]
    simp only [List.length_reverse, List.length_drop, List.length_take]
    rw [Nat.min_eq_left (show j + 1 ≤ l.length by omega)]
    split
    · rename_i h2
      rw [if_pos (by omega), List.getElem?_reverse (by simp; omega)]
      simp only [List.length_drop, List.length_take, List.getElem?_drop]
      rw [List.getElem?_take_of_lt (by omega)]
      congr 1
      omega
    · rename_i h2
      rw [if_neg (by omega), List.getElem?_drop]
      congr 1
      omega

example : twoOptApply [(1, 3)] [0, 1, 2, 3, 4] = [0, 3, 2, 1, 4] := rfl

theorem integerMutateLoop_effect : ∀ (k : Nat) (as : List Nat) (ds : List (Option Nat))
    (v v' : List Nat), integerMutateLoop k as ds v = .ok v' →
    ∀ i : Nat, v'[i]? =
      if k ≤ i ∧ i - k < as.length then
        match ds[i - k]? with
        | some (some c) => some (c + 1)
        | _ => v[i]?
      else v[i]?
  | k, a :: as, d :: ds, v, v', h, i => by
    cases d with
    | none =>
      simp only [integerMutateLoop] at h
      rw [integerMutateLoop_effect (k + 1) as ds v v' h i]
      by_cases hk : i = k
      · subst hk; simp [show ¬ i + 1 ≤ i by omega]
      · by_cases h1 : k + 1 ≤ i
        · rw [show i - k = (i - (k + 1)) + 1 by omega]
          simp [h1, show k ≤ i by omega]
        · simp [h1, show ¬ k ≤ i by omega]
    | some c =>
      simp only [integerMutateLoop, bind_eq_ok, pyGet_ok_iff, pySet_ok_iff] at h
      obtain ⟨x, hx, v1, ⟨hk, rfl⟩, h2⟩ := h
      rw [integerMutateLoop_effect (k + 1) as ds _ v' h2 i]
      have hx' : x = c + 1 := by
        simp only [List.getElem?_map, Option.map_eq_some_iff] at hx
        obtain ⟨y, hy, rfl⟩ := hx
        obtain ⟨q1, q2⟩ := List.getElem?_eq_some_iff.1 hy
        simp at q2
        omega
      subst hx'
      by_cases hik : i = k
      · subst hik; simp [hk, show ¬ i + 1 ≤ i by omega]
      · by_cases h1 : k + 1 ≤ i
        · rw [show i - k = (i - (k + 1)) + 1 by omega]
          simp [h1, show k ≤ i by omega, List.getElem?_set_ne (Ne.symm hik)]
        · simp [h1, show ¬ k ≤ i by omega, List.getElem?_set_ne (Ne.symm hik)]
  | k, [], ds, v, v', h, i => by simp [integerMutateLoop] at h; subst h; simp
  | k, a :: as, [], v, v', h, i => by simp [integerMutateLoop] at h; subst h; simp

/-- C46: exactly the positions for which the flip is drawn change: such a position receives the
drawn mode, every other position keeps its value. -/
theorem C46_integer_mutation_effect (arities : List Nat) (draws : List (Option Nat))
    (v v' : List Nat) (m : List Nat × List Nat) (h : integerMutate arities draws v = .ok (v', m)) (i : Nat) :
    (∀ c, i < arities.length → draws[i]? = some (some c) → v'[i]? = some (c + 1)) ∧
    ((¬ i < arities.length ∨ ∀ c, draws[i]? ≠ some (some c)) → v'[i]? = v[i]?) := by
  simp only [integerMutate, bind_eq_ok] at h
  obtain ⟨w, h1, h2⟩ := h
  cases h2
  have h3 := integerMutateLoop_effect _ _ _ _ _ h1 i
  simp only [Nat.zero_le, Nat.sub_zero, true_and] at h3
  constructor
  · intro c hi hc
    rw [h3, if_pos hi, hc]
  · rintro (hi | hc)
    · rw [h3, if_neg hi]
    · rw [h3]
      split
      · split
        · rename_i c hc'; exact absurd hc' (hc c)
        · rfl
      · rfl

example : integerMutate [3, 2, 1] [some 2, none, some 0] [1, 2, 1]
    = .ok ([3, 2, 1], ([1, 2, 1], [3, 2, 1])) := rfl

end Verif.Moves
