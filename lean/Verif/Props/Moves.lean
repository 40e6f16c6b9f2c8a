import Verif.Lemmas.Moves
/-
Properties C20, C21, C46: local moves on permutations and vectors.
-/
namespace Verif.Moves

/-! ## C20: moves keep permutations -/

/-- C20 (shuffle): whatever rearrangement `random.shuffle` produces, the mutated attribute
is a permutation of the previous one, and no index error occurs. -/
theorem C20_shuffle (l : List α) (r : List Nat) (hr : r.Perm (List.range l.length)) :
    ∃ l' m, shuffleMutate l r = .ok (l', m) ∧ l'.Perm l := by
  cases hl : l with
  | nil =>
    subst hl
    have : r = [] := by simpa using hr
    subst this
    exact ⟨[], ⟨[], []⟩, rfl, List.Perm.refl _⟩
  | cons x xs =>
    rw [← hl]
    have : Inhabited α := ⟨x⟩
    refine ⟨r.map (fun i => l[i]!), ⟨r.map (fun i => l[i]!), l⟩, ?_, ?_⟩
    · unfold shuffleMutate
      rw [mapE_pyGet l r (fun i hi => by simpa using hr.mem_iff.1 hi)]
      rfl
    · have := hr.map (fun i => l[i]!)
      rwa [map_range_get] at this

example : ∃ l' m, shuffleMutate [7, 8, 9] [2, 0, 1] = .ok (l', m) ∧ l'.Perm [7, 8, 9] :=
  C20_shuffle _ _ (by decide)

/-- C20 (partial shuffle): for every choice of distinct positions and every rearrangement
of them the result is a permutation of the previous attribute. -/
theorem C20_partial_shuffle (l : List α) (d r : List Nat) (hd : d.Nodup)
    (hdl : ∀ i ∈ d, i < l.length) (hr : r.Perm (List.range d.length)) :
    ∃ l' m, partialShuffleMutate l d r = .ok (l', m) ∧ l'.Perm l := by
  cases hl : l with
  | nil =>
    subst hl
    have : d = [] := by
      cases d with
      | nil => rfl
      | cons i d => exact absurd (hdl i (by simp)) (by simp)
    subst this
    have : r = [] := by simpa using hr
    subst this
    exact ⟨[], ⟨[], []⟩, rfl, List.Perm.refl _⟩
  | cons x xs =>
    rw [← hl]
    have : Inhabited α := ⟨x⟩
    obtain ⟨new, h1, h2, h3, h4⟩ := partialShuffleLoop_spec (prev := l) (D := d) (ds := d) (rs := r)
      (new := l) (by simpa using hr.length_eq.symm) hd hdl
      (fun i hi => by simpa using hr.mem_iff.1 hi) hdl
    refine ⟨new, ⟨new, l⟩, ?_, perm_of_moved h2 hd hdl hr h3 h4⟩
    unfold partialShuffleMutate
    rw [h1]; rfl

example : ∃ l' m, partialShuffleMutate [5, 6, 7, 8] [3, 0, 2] [1, 2, 0] = .ok (l', m) ∧
    l'.Perm [5, 6, 7, 8] :=
  C20_partial_shuffle _ _ _ (by decide) (by decide) (by decide)

/-- C20 (swaps): a swap move that is applied (no index error) gives a permutation, and it
is applied whenever its positions exist. -/
theorem C20_swaps (l : List α) (ps : List (Nat × Nat)) :
    (∀ l', swapsApply ps l = .ok l' → l'.Perm l) ∧
    ((∀ p ∈ ps, p.1 < l.length ∧ p.2 < l.length) → ∃ l', swapsApply ps l = .ok l') :=
  ⟨fun _ h => swapsApply_perm h, swapsApply_defined⟩

/-- C20 (swap mutation): for two or more positions every draw gives a permutation and
never raises. -/
theorem C20_permutation_swap (l : List α) (draws : List (Nat × Nat)) (hl : 2 ≤ l.length)
    (hd : SwapDraws l.length draws) :
    ∃ l', permutationSwapMutate l.length draws l = .ok l' ∧ l'.Perm l := by
  obtain ⟨l', h⟩ := swapsApply_defined (ps := draws) (l := l) (fun p hp => by
    have := hd p hp; omega)
  refine ⟨l', ?_, swapsApply_perm h⟩
  unfold permutationSwapMutate
  rw [if_neg (by omega), h]

example : ∃ l', permutationSwapMutate 4 [(0, 2), (2, 1)] [5, 6, 7, 8] = .ok l' ∧
    l'.Perm [5, 6, 7, 8] :=
  C20_permutation_swap [5, 6, 7, 8] _ (by decide) (by unfold SwapDraws; decide)

/-- The swap mutation never moves the element at the last position, whatever is drawn
(`high` is exclusive in `np.random.randint`), and it raises on a one-element
permutation. -/
theorem C20_permutation_swap_last_fixed (l l' : List α) (draws : List (Nat × Nat))
    (hd : SwapDraws l.length draws) (h : permutationSwapMutate l.length draws l = .ok l') :
    l'[l.length - 1]? = l[l.length - 1]? := by
  unfold permutationSwapMutate at h
  split at h
  · simp at h
  · rename_i hn
    have key : ∀ (n : Nat) (ps : List (Nat × Nat)) (l l' : List α), SwapDraws n ps →
        swapsApply ps l = .ok l' → l'[n - 1]? = l[n - 1]? := by
      intro n ps
      induction ps with
      | nil => intro l l' _ h; simp [swapsApply] at h; rw [h]
      | cons p ps ih =>
        intro l l' hd h
        rw [swapsApply, bind_eq_ok] at h
        obtain ⟨l1, h1, h2⟩ := h
        rw [ih l1 l' (fun q hq => hd q (by simp [hq])) h2]
        obtain ⟨a, b, rfl⟩ := swap1_ok h1
        have := hd p (by simp)
        rw [List.getElem?_set_ne (by omega), List.getElem?_set_ne (by omega)]
    exact key _ _ _ _ hd h

theorem C20_permutation_swap_one_raises (x : α) (draws : List (Nat × Nat)) :
    permutationSwapMutate 1 draws [x] = .error .valueError := rfl

/-- C20 (two-opt, partial): a two-opt move all of whose pairs satisfy `i ≤ j + 1` gives a
permutation.  The full statement (every pair) is false, see `C20_two_opt_not_every_pair`. -/
theorem C20_two_opt_partial (l : List α) (ms : List (Nat × Nat)) (h : ∀ p ∈ ms, p.1 ≤ p.2 + 1) :
    (twoOptApply ms l).Perm l := twoOptApply_perm ms l h

example : (twoOptApply [(1, 3), (0, 2)] [4, 5, 6, 7, 8]).Perm [4, 5, 6, 7, 8] :=
  C20_two_opt_partial _ _ (by decide)

/-- A two-opt move built with a reversed pair duplicates elements. -/
theorem C20_two_opt_not_every_pair :
    ¬ ∀ (l : List Nat) (ms : List (Nat × Nat)), (twoOptApply ms l).Perm l := by
  intro h
  have := (h [0, 1, 2] [(2, 0)]).length_eq
  revert this
  decide

/-- C20 (two-opt mutation): every pair the mutation can draw gives a permutation. -/
theorem C20_two_opt_mutation (l : List α) (p : Nat × Nat) (hp : TwoOptDraw l.length p) :
    ∃ l', twoOptMutate l.length p l = .ok l' ∧ l'.Perm l := by
  obtain ⟨h1, h2⟩ := hp
  refine ⟨twoOptApply [p] l, ?_, twoOptApply_perm _ _ (by
    intro q hq; simp only [List.mem_singleton] at hq; subst hq; omega)⟩
  unfold twoOptMutate
  rw [if_neg (by omega)]

example : ∃ l', twoOptMutate 4 (1, 3) [4, 5, 6, 7] = .ok l' ∧ l'.Perm [4, 5, 6, 7] :=
  C20_two_opt_mutation [4, 5, 6, 7] (1, 3) (by unfold TwoOptDraw; decide)

/-! ## C21: undoing a move -/

/-- C21 (bit flip): backtracking restores the vector, also when an index is repeated. -/
theorem C21_bit_flip (is : List Nat) (l l' : List Int) (h : bitFlipApply is l = .ok l') :
    bitFlipBacktrack is l' = .ok l := by
  obtain ⟨h1, h2, h3⟩ := bitFlipApply_ok h
  obtain ⟨l2, h4⟩ := bitFlipApply_defined (is := is) (l := l') (fun i hi => by
    rw [h1]; exact h2 i hi)
  obtain ⟨_, _, h7⟩ := bitFlipApply_ok h4
  rw [bitFlipBacktrack, h4]
  congr 1
  apply List.ext_getElem?
  intro k
  rw [h7, h3]
  cases l[k]? with
  | none => rfl
  | some x =>
    simp only [Option.map_some, Option.some.injEq]
    unfold flipN
    split <;> omega

example : bitFlipApply [0, 2, 0] [1, 0, 1] = .ok [1, 0, 0] ∧
    bitFlipBacktrack [0, 2, 0] [1, 0, 0] = .ok [1, 0, 1] :=
  ⟨by decide, C21_bit_flip _ _ _ (by decide)⟩

/-- A flip changes exactly the positions listed an odd number of times. -/
theorem C21_bit_flip_effect (is : List Nat) (l l' : List Int) (h : bitFlipApply is l = .ok l')
    (k : Nat) : l'[k]? = (l[k]?).map (fun x => if is.count k % 2 = 0 then x else 1 - x) :=
  (bitFlipApply_ok h).2.2 k

/-- C21 (shuffle and partial shuffle): the move returned by the mutation restores the
attribute the mutated solution had. -/
theorem C21_shuffle (l cur : List α) (r d : List Nat) :
    (∀ l' m, shuffleMutate l r = .ok (l', m) → m.apply cur = l' ∧ m.backtrack l' = l) ∧
    (∀ l' m, partialShuffleMutate l d r = .ok (l', m) → m.apply cur = l' ∧ m.backtrack l' = l) := by
  constructor
  · intro l' m h
    simp only [shuffleMutate, bind_eq_ok] at h
    obtain ⟨n, _, h2⟩ := h
    cases h2
    exact ⟨rfl, rfl⟩
  · intro l' m h
    simp only [partialShuffleMutate, bind_eq_ok] at h
    obtain ⟨n, _, h2⟩ := h
    cases h2
    exact ⟨rfl, rfl⟩

example : ∃ m, shuffleMutate [7, 8, 9] [2, 0, 1] = .ok ([9, 7, 8], m) ∧
    m.backtrack [9, 7, 8] = [7, 8, 9] := ⟨_, rfl, rfl⟩

/-- C21 (two-opt): backtracking restores the list. -/
theorem C21_two_opt (ms : List (Nat × Nat)) (l : List α) (h : ∀ p ∈ ms, p.1 ≤ p.2 + 1) :
    twoOptBacktrack ms (twoOptApply ms l) = l := twoOpt_undo ms l h

example : twoOptApply [(0, 2), (1, 3)] [4, 5, 6, 7] = [6, 7, 4, 5] ∧
    twoOptBacktrack [(0, 2), (1, 3)] [6, 7, 4, 5] = [4, 5, 6, 7] :=
  ⟨by decide, C21_two_opt [(0, 2), (1, 3)] [4, 5, 6, 7] (by decide)⟩

/-- C21 (swaps, partial): backtracking restores the list when the swaps touch pairwise
different positions — in particular for the default `nb_swap = 1`.  The full statement
(every swap list) is false, see `C21_swaps_not_undone`. -/
theorem C21_swaps_partial (ps : List (Nat × Nat)) (l l' : List α)
    (hd : ps.Pairwise (fun p q => p.1 ≠ q.1 ∧ p.1 ≠ q.2 ∧ p.2 ≠ q.1 ∧ p.2 ≠ q.2))
    (h : swapsApply ps l = .ok l') : swapsBacktrack ps l' = .ok l := by
  rw [swapsBacktrack_eq]
  induction ps generalizing l l' with
  | nil => simp [swapsApply] at h ⊢; exact h.symm
  | cons p ps ih =>
    rw [List.pairwise_cons] at hd
    have h' := swapsApply_past hd.1 h
    rw [swapsApply_append, bind_eq_ok] at h'
    obtain ⟨l1, h1, h2⟩ := h'
    simp only [swapsApply, bind_eq_ok] at h2
    obtain ⟨l2, h3, h4⟩ := h2
    cases h4
    rw [swapsApply, swap1_swap1 h3]
    exact ih _ _ hd.2 h1

example : swapsApply [(0, 2), (1, 3)] [4, 5, 6, 7] = .ok [6, 7, 4, 5] ∧
    swapsBacktrack [(0, 2), (1, 3)] [6, 7, 4, 5] = .ok [4, 5, 6, 7] :=
  ⟨by decide, C21_swaps_partial _ _ _ (by decide) (by decide)⟩

/-- Undoing the swaps in reverse order would always restore the list. -/
theorem C21_swaps_reverse_restores (ps : List (Nat × Nat)) (l l' : List α)
    (h : swapsApply ps l = .ok l') : swapsBacktrack ps.reverse l' = .ok l := by
  rw [swapsBacktrack_eq]; exact swapsApply_reverse h

/-- The code backtracks in the same order, which does not restore overlapping swaps. -/
theorem C21_swaps_not_undone :
    ¬ ∀ (ps : List (Nat × Nat)) (l l' : List Nat), swapsApply ps l = .ok l' →
      swapsBacktrack ps l' = .ok l := by
  intro h
  have := h [(0, 1), (1, 2)] [0, 1, 2] [1, 2, 0] (by decide)
  revert this
  decide

/-! ## C46: mutating a vector of modes -/

theorem integerMutateLoop_spec : ∀ (k : Nat) (as : List Nat) (ds : List (Option Nat))
    (v v' : List Nat), integerMutateLoop k as ds v = .ok v' →
    v'.length = v.length ∧ ∀ i : Nat, v'[i]? = v[i]? ∨
      (k ≤ i ∧ ∃ a c, as[i - k]? = some a ∧ v'[i]? = some c ∧ 1 ≤ c ∧ c ≤ a)
  | k, a :: as, d :: ds, v, v', h => by
    cases d with
    | none =>
      simp only [integerMutateLoop] at h
      obtain ⟨h1, h2⟩ := integerMutateLoop_spec (k + 1) as ds v v' h
      refine ⟨h1, fun i => ?_⟩
      rcases h2 i with h3 | ⟨h3, b, c, h4, h5⟩
      · exact .inl h3
      · refine .inr ⟨by omega, b, c, ?_, h5⟩
        rw [show i - k = (i - (k + 1)) + 1 by omega]; simpa using h4
    | some c =>
      simp only [integerMutateLoop, bind_eq_ok, pyGet_ok_iff, pySet_ok_iff] at h
      obtain ⟨x, hx, v1, ⟨hk, rfl⟩, h2⟩ := h
      obtain ⟨h3, h4⟩ := integerMutateLoop_spec (k + 1) as ds _ v' h2
      refine ⟨by simpa using h3, fun i => ?_⟩
      rcases h4 i with h5 | ⟨h5, b, e, h6, h7⟩
      · by_cases hik : i = k
        · subst hik
          right
          refine ⟨Nat.le_refl _, a, x, by simp, ?_, ?_⟩
          · rw [h5, List.getElem?_set_self hk]
          · simp only [List.getElem?_map, Option.map_eq_some_iff] at hx
            obtain ⟨y, hy, rfl⟩ := hx
            have := List.getElem?_eq_some_iff.1 hy
            obtain ⟨q1, q2⟩ := this
            simp at q1 q2
            omega
        · left; rw [h5, List.getElem?_set_ne (Ne.symm hik)]
      · refine .inr ⟨by omega, b, e, ?_, h7⟩
        rw [show i - k = (i - (k + 1)) + 1 by omega]; simpa using h6
  | k, [], ds, v, v', h => by simp [integerMutateLoop] at h; subst h; simp
  | k, a :: as, [], v, v', h => by simp [integerMutateLoop] at h; subst h; simp

/-- C46: if every entry of a mode vector is between 1 and the number of modes of its
position, so is every entry of the mutated vector, whatever is drawn; the length is kept;
backtracking gives the old vector. -/
theorem C46_integer_mutation (arities : List Nat) (draws : List (Option Nat))
    (v v' : List Nat) (m : List Nat × List Nat)
    (hv : ∀ (i : Nat) (a c : Nat), arities[i]? = some a → v[i]? = some c → 1 ≤ c ∧ c ≤ a)
    (h : integerMutate arities draws v = .ok (v', m)) :
    v'.length = v.length ∧ m.1 = v ∧ m.2 = v' ∧
      ∀ (i : Nat) (a c : Nat), arities[i]? = some a → v'[i]? = some c → 1 ≤ c ∧ c ≤ a := by
  simp only [integerMutate, bind_eq_ok] at h
  obtain ⟨w, h1, h2⟩ := h
  cases h2
  obtain ⟨h3, h4⟩ := integerMutateLoop_spec _ _ _ _ _ h1
  refine ⟨h3, rfl, rfl, ?_⟩
  intro i a c ha hc
  rcases h4 i with h5 | ⟨_, b, d, h6, h7, h8⟩
  · exact hv i a c ha (h5 ▸ hc)
  · simp only [Nat.sub_zero] at h6
    rw [ha] at h6; rw [hc] at h7
    cases h6; cases h7
    exact h8

example : integerMutate [3, 2, 1] [some 2, none, some 0] [1, 2, 1]
    = .ok ([3, 2, 1], ([1, 2, 1], [3, 2, 1])) := by rfl

/-- With at least one mode per position and choices inside the ranges the mutation never
raises. -/
theorem C46_integer_mutation_defined (arities : List Nat) (draws : List (Option Nat))
    (v : List Nat) (hlen : v.length = arities.length)
    (hd : ∀ (i : Nat) (a c : Nat), arities[i]? = some a → draws[i]? = some (some c) → c < a) :
    ∃ r, integerMutate arities draws v = .ok r := by
  have key : ∀ (as : List Nat) (ds : List (Option Nat)) (k : Nat) (v : List Nat),
      v.length = k + as.length →
      (∀ (i : Nat) (a c : Nat), as[i]? = some a → ds[i]? = some (some c) → c < a) →
      ∃ r, integerMutateLoop k as ds v = .ok r := by
    intro as
    induction as with
    | nil => intro ds k v _ _; exact ⟨v, by simp [integerMutateLoop]⟩
    | cons a as ih =>
      intro ds k v hl hd
      cases ds with
      | nil => exact ⟨v, by simp [integerMutateLoop]⟩
      | cons d ds =>
        have hd' : ∀ (i : Nat) (a c : Nat), as[i]? = some a → ds[i]? = some (some c) → c < a :=
          fun i a' c h1 h2 => hd (i + 1) a' c (by simpa using h1) (by simpa using h2)
        cases d with
        | none =>
          simp only [integerMutateLoop]
          exact ih ds (k + 1) v (by simp at hl; omega) hd'
        | some c =>
          have hc : c < a := hd 0 a c (by simp) (by simp)
          have hk : k < v.length := by simp at hl; omega
          have hg : pyGet ((List.range a).map (· + 1)) c = .ok (c + 1) := by
            rw [pyGet_ok_iff]; simp [hc]
          simp only [integerMutateLoop, hg, bind_ok, pySet, hk, if_true]
          exact ih ds (k + 1) _ (by simp at hl ⊢; omega) hd'
  obtain ⟨r, hr⟩ := key arities draws 0 v (by omega) hd
  exact ⟨(r, (v, r)), by simp [integerMutate, hr]⟩

end Verif.Moves
