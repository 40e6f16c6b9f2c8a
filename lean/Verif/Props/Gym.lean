import Verif.Lemmas.GymStable
import Verif.Lemmas.GymBits

/-! Properties of features, proxies and discrete actions of Gym domains (C132-C135). -/
namespace Verif.Gym

/-! ### C132: interval features -/

/-- C132, BEE1: for observation spaces made of boxes and tuples, all evaluations of elements of the space
succeed, one after the other, each with `fidelity` features for every cell. -/
theorem C132_bee1_total (fid : Nat) (s : Space) (ho : onlyBoxes s = true) (es : List (Elem Rat))
    (hes : ∀ e ∈ es, Fits (fun _ => True) s e) :
    ∃ os st, runs (bee1 fid s) ⟨[], []⟩ es = .ok (os, st) ∧ os.length = es.length ∧ ∀ o ∈ os, o.length = fid * size s := by
  obtain ⟨os, st, e, l, p, -⟩ := runs_ok (I := Ready1 s) (E := Fits (fun _ => True) s) (P := fun o => o.length = fid * size s)
    (fun st e h hf => bee1_ok fid hf ho h) hes (st := ⟨[], []⟩) (.inl ⟨rfl, rfl⟩)
  exact ⟨os, st, e, l, p⟩

/-- C132, BEE2: the same, without the exception "Should never get here". -/
theorem C132_bee2_total (lv : Nat) (s : Space) (ho : onlyBoxes s = true) (es : List (Elem Rat))
    (hes : ∀ e ∈ es, Fits (fun _ => True) s e) :
    ∃ os st, runs (bee2 lv s) [] es = .ok (os, st) ∧ os.length = es.length ∧ ∀ o ∈ os, o.length = (lv + 1) * size s := by
  obtain ⟨os, st, e, l, p, -⟩ := runs_ok (I := Ready2 s) (E := Fits (fun _ => True) s) (P := fun o => o.length = (lv + 1) * size s)
    (fun st e h hf => bee2_ok lv hf ho h) hes (st := []) (.inl rfl)
  exact ⟨os, st, e, l, p⟩

/-- C132, BEE1: in any sequence of evaluations, states that agree on a cell agree on the first feature of the cell. -/
theorem C132_bee1_first (f : Nat) (s : Space) (ho : onlyBoxes s = true) (es : List (Elem Rat))
    (hes : ∀ e ∈ es, Fits (fun _ => True) s e) (os : List (List Int)) (st : St1)
    (h : runs (bee1 (f + 1) s) ⟨[], []⟩ es = .ok (os, st)) (b b' : Nat) (e e' : Elem Rat) (o o' : List Int)
    (he : es[b]? = some e) (he' : es[b']? = some e') (hb : os[b]? = some o) (hb' : os[b']? = some o')
    (i : Nat) (x : Rat) (hx : (flatten e)[i]? = some x) (hx' : (flatten e')[i]? = some x) :
    ∃ k, o[i * (f + 1)]? = some k ∧ o'[i * (f + 1)]? = some k := by
  obtain ⟨val, -, hv⟩ := runs_settled (step := bee1 (f + 1) s) (I := Ready1 s) (E := Fits (fun _ => True) s) (S := Settled1) (w := f + 1)
    (fun st i x v v' h h' => h.unique h')
    (fun st e o st' hI hE he => by
      obtain ⟨fs, st2, e2, -, h2⟩ := bee1_ok (f + 1) hE ho hI
      rw [he] at e2
      simp only [Except.ok.injEq, Prod.mk.injEq] at e2
      rw [e2.2]; exact h2)
    (fun st e o st' hI hE he => bee1_spec hE ho hI he) hes (.inl ⟨rfl, rfl⟩) h
  exact ⟨val i x, hv b e o he hb i x hx, hv b' e' o' he' hb' i x hx'⟩

/-- C132, BEE2: the same. -/
theorem C132_bee2_first (lv : Nat) (s : Space) (ho : onlyBoxes s = true) (es : List (Elem Rat))
    (hes : ∀ e ∈ es, Fits (fun _ => True) s e) (os : List (List Int)) (st : List Bee2)
    (h : runs (bee2 lv s) [] es = .ok (os, st)) (b b' : Nat) (e e' : Elem Rat) (o o' : List Int)
    (he : es[b]? = some e) (he' : es[b']? = some e') (hb : os[b]? = some o) (hb' : os[b']? = some o')
    (i : Nat) (x : Rat) (hx : (flatten e)[i]? = some x) (hx' : (flatten e')[i]? = some x) :
    ∃ k, o[i * (lv + 1)]? = some k ∧ o'[i * (lv + 1)]? = some k := by
  obtain ⟨val, -, hv⟩ := runs_settled (step := bee2 lv s) (I := Ready2 s) (E := Fits (fun _ => True) s) (S := Settled2) (w := lv + 1)
    (fun st i x v v' h h' => h.unique h')
    (fun st e o st' hI hE he => by
      obtain ⟨fs, st2, e2, -, h2⟩ := bee2_ok lv hE ho hI
      rw [he] at e2
      simp only [Except.ok.injEq, Prod.mk.injEq] at e2
      rw [e2.2]; exact h2)
    (fun st e o st' hI hE he => bee2_spec hE ho hI he) hes (.inl rfl) h
  exact ⟨val i x, hv b e o he hb i x hx, hv b' e' o' he' hb' i x hx'⟩

/-- A tuple of a box with two cells and a box with one. -/
def twoBoxes : Space := .tuple [.box [2] [(some 0, some 10), (none, none)], .box [1] [(some 0, some 1)]]

def at3 (a b c : Rat) : Elem Rat := .tuple [.array [a, b], .array [c]]

example : onlyBoxes twoBoxes = true ∧ size twoBoxes = 3 ∧ Fits (fun _ => True) twoBoxes (at3 5 (-3) 1) := by
  refine ⟨by decide, by decide, ?_⟩
  simp [twoBoxes, at3, Fits, FitsL]

example : (runs (bee1 2 twoBoxes) ⟨[], []⟩ [at3 5 0 1, at3 6 (-3) 1, at3 8 (-1) 0, at3 6 (-3) 1]).map (·.1) =
    .ok [[0, 0, 0, 0, 0, 0], [1, 0, -1, 0, 0, 0], [2, 0, -1, -1, -1, 0], [1, 1, -1, -2, 0, 0]] := by decide +kernel

example : (runs (bee2 1 twoBoxes) [] [at3 5 0 1, at3 6 (-3) 1, at3 8 (-1) 0, at3 6 (-3) 1]).map (·.1) =
    .ok [[0, 0, 0, 0, 0, 0], [1, -1, 1, -1, 0, 0], [2, -1, 1, 0, 1, -1], [1, 0, 1, 1, 0, 0]] := by decide +kernel

/-- C132, the first feature of BEE1: the signed number of increments below the distance from the reference; a
distance above all of them is appended. -/
theorem C132_bee1_node (sign : Int) (cell : Rat) (f : Nat) (n : Bee1) (hn : n.WF) :
    ∃ fs n', n.eval sign cell (f + 1) = .ok (fs, n') ∧ n'.WF ∧
      fs.head? = some (sign * ((n.increments.filter (fun a => decide (a < sign * (cell - n.reference)))).length : Nat)) ∧
      ((∀ a ∈ n.increments, a < sign * (cell - n.reference)) →
        n'.increments = n.increments ++ [sign * (cell - n.reference)] ∧ fs.tail = List.replicate f 0) ∧
      ((∃ a ∈ n.increments, ¬ a < sign * (cell - n.reference)) → n'.increments = n.increments) := by
  obtain ⟨fs, n', e, -, hw⟩ := Bee1.eval_ok sign cell (f + 1) hn
  obtain ⟨h1, -, -⟩ := Bee1.eval_first e
  refine ⟨fs, n', e, hw, by rw [h1, bisectLeft_count hn.sorted], fun hall => ?_, fun hex => ?_⟩
  · have hb : n.increments.length ≤ bisectLeft n.increments (sign * (cell - n.reference)) := by
      rw [bisectLeft_count hn.sorted, List.filter_eq_self.mpr (fun a ha => decide_eq_true (hall a ha))]
    simp only [Bee1.eval, if_pos hb, Except.ok.injEq, Prod.mk.injEq] at e
    obtain ⟨rfl, rfl⟩ := e
    exact ⟨rfl, rfl⟩
  · have hb : ¬ n.increments.length ≤ bisectLeft n.increments (sign * (cell - n.reference)) := by
      intro hb
      obtain ⟨a, ha, hna⟩ := hex
      exact hna (bisectLeft_full hb a ha)
    by_cases h0 : 0 < bisectLeft n.increments (sign * (cell - n.reference))
    · simp only [Bee1.eval, if_neg hb, if_pos h0] at e
      split at e
      · simp at e
      · split at e
        · simp at e
        · simp only [Except.ok.injEq, Prod.mk.injEq] at e
          obtain ⟨-, rfl⟩ := e
          rfl
    · rw [Bee1.eval_zero (f + 1) (by omega) (by omega)] at e
      simp only [Except.ok.injEq, Prod.mk.injEq] at e
      rw [e.2]

example : ((Bee1.mk 3 [0, 2] [Bee1.new 3]).eval 1 7 2).map (fun q => (q.1, q.2.increments)) = .ok ([2, 0], [0, 2, 4]) ∧
    ((Bee1.mk 3 [0, 2] [Bee1.new 3]).eval 1 4 2).map (fun q => (q.1, q.2.increments)) = .ok ([1, 1], [0, 2]) := by
  refine ⟨by decide +kernel, by decide +kernel⟩

/-- C132, the first feature of BEE2: the position of the first interval that contains the value; the value gets
a new interval, with `-1` for the finer levels, exactly when none contains it. -/
theorem C132_bee2_node (x : Rat) (lv : Nat) (n : Bee2) (hn : n.WF) :
    ∃ (k : Nat) (fs : List Int) (n' : Bee2), n.eval x lv = .ok ((k : Int) :: fs, n') ∧ n'.WF ∧ n.I <+: n'.I ∧
      (∃ i, n'.I[k]? = some i ∧ i.1 ≤ x ∧ x ≤ i.2) ∧ (∀ j < k, ∀ i, n'.I[j]? = some i → ¬ (i.1 ≤ x ∧ x ≤ i.2)) ∧
      ((∀ i ∈ n.I, ¬ (i.1 ≤ x ∧ x ≤ i.2)) → k = n.I.length ∧ n'.I.length = n.I.length + 1 ∧ fs = List.replicate lv (-1)) ∧
      ((∃ i ∈ n.I, i.1 ≤ x ∧ x ≤ i.2) → n'.I = n.I) := by
  obtain ⟨k, fs, n', e, hl, hw, hp, hf, hk, hb, h1, h2, hne⟩ := Bee2.eval_ok x lv hn
  obtain ⟨k, rfl⟩ := Int.eq_ofNat_of_zero_le hk
  simp only [Int.toNat_natCast] at hf
  obtain ⟨hlt, hin, hmin⟩ := List.findIdx?_eq_some_iff_getElem.mp hf
  have hne' : (∃ i ∈ n.I, i.1 ≤ x ∧ x ≤ i.2) ∨ (∀ i ∈ n.I, ¬ (i.1 ≤ x ∧ x ≤ i.2)) := by
    by_cases h : ∃ i ∈ n.I, i.1 ≤ x ∧ x ≤ i.2
    · exact .inl h
    · exact .inr (fun i hi hx => h ⟨i, hi, hx⟩)
  refine ⟨k, fs, n', e, hw, hp, ⟨n'.I[k], List.getElem?_eq_getElem hlt, inside_iff.mp hin⟩, ?_, ?_, ?_⟩
  · intro j hj i hi hx
    obtain ⟨hj', rfl⟩ := List.getElem?_eq_some_iff.mp hi
    exact hmin j hj (inside_iff.mpr hx)
  · intro hall
    cases hn with
    | empty l g =>
      rw [Bee2.eval.eq_def] at e
      simp only [Bee2.I, List.length_nil, if_pos, Except.ok.injEq, Prod.mk.injEq, List.cons.injEq] at e
      obtain ⟨⟨h0, rfl⟩, rfl⟩ := e
      exact ⟨by simp only [Bee2.I, List.length_nil]; omega, rfl, rfl⟩
    | mk I l g ch ne len le cover within sub =>
      have a1 : ¬ (Bee2.mk I l g ch).I.length = 0 := fun h => ne (List.length_eq_zero_iff.mp h)
      rw [Bee2.eval.eq_def] at e
      simp only [if_neg a1] at e
      split at e
      · simp only [Except.ok.injEq, Prod.mk.injEq, List.cons.injEq] at e
        obtain ⟨⟨h0, rfl⟩, rfl⟩ := e
        exact ⟨by omega, by simp [Bee2.I], rfl⟩
      · split at e
        · simp only [Except.ok.injEq, Prod.mk.injEq, List.cons.injEq] at e
          obtain ⟨⟨h0, rfl⟩, rfl⟩ := e
          exact ⟨by omega, by simp [Bee2.I], rfl⟩
        · next c1 c2 =>
          obtain ⟨i, hi, hx⟩ := cover x (not_lt.mp c1) (not_lt.mp c2)
          exact absurd hx (hall i hi)
  · rintro ⟨i, hi, hx⟩
    cases hn with
    | empty l g => simp [Bee2.I] at hi
    | mk I l g ch ne len le cover within sub =>
      have a1 : ¬ (Bee2.mk I l g ch).I.length = 0 := fun h => ne (List.length_eq_zero_iff.mp h)
      obtain ⟨w1, w2⟩ := within i hi
      have a2 : ¬ x < (Bee2.mk I l g ch).llb := by simp only [Bee2.llb]; linarith
      have a3 : ¬ (Bee2.mk I l g ch).gub < x := by simp only [Bee2.gub]; linarith
      rw [Bee2.eval.eq_def] at e
      simp only [if_neg a1, if_neg a2, if_neg a3] at e
      split at e
      · simp at e
      · split at e
        · simp only [Except.ok.injEq, Prod.mk.injEq] at e
          obtain ⟨-, rfl⟩ := e
          rfl
        · split at e
          · simp at e
          · split at e
            · simp at e
            · simp only [Except.ok.injEq, Prod.mk.injEq] at e
              obtain ⟨-, rfl⟩ := e
              rfl

example : ((Bee2.mk [(3, 3), (3, 5)] 3 5 [Bee2.new, Bee2.new]).eval 4 1).map (fun q => (q.1, q.2.I)) = .ok ([1, 0], [(3, 3), (3, 5)]) ∧
    ((Bee2.mk [(3, 3), (3, 5)] 3 5 [Bee2.new, Bee2.new]).eval 1 1).map (fun q => (q.1, q.2.I)) = .ok ([2, -1], [(3, 3), (3, 5), (1, 3)]) := by
  refine ⟨by decide +kernel, by decide +kernel⟩

/-- C132: the finer features depend on the history: the same state gets different features the next time, for
both tables, although nothing else was evaluated in between. -/
theorem C132_repeat_refuted :
    ¬ (∀ (s : Space) (a e : Elem Rat), onlyBoxes s = true → Fits (fun _ => True) s a → Fits (fun _ => True) s e →
      ∃ oa o st, runs (bee1 2 s) ⟨[], []⟩ [a, e, e] = .ok ([oa, o, o], st)) ∧
    ¬ (∀ (s : Space) (a e : Elem Rat), onlyBoxes s = true → Fits (fun _ => True) s a → Fits (fun _ => True) s e →
      ∃ oa o st, runs (bee2 1 s) [] [a, e, e] = .ok ([oa, o, o], st)) := by
  constructor
  · intro h
    obtain ⟨oa, o, st, e⟩ := h (.box [1] [(none, none)]) (.array [0]) (.array [5]) rfl (by simp [Fits]) (by simp [Fits])
    have e1 : (runs (bee1 2 (.box [1] [(none, none)])) ⟨[], []⟩ [.array [0], .array [5], .array [5]]).map (·.1) =
      .ok [[0, 0], [1, 0], [1, 1]] := by decide +kernel
    rw [e] at e1
    simp only [Except.map, Except.ok.injEq, List.cons.injEq, and_true] at e1
    obtain ⟨-, h1, h2⟩ := e1
    rw [h1] at h2
    simp at h2
  · intro h
    obtain ⟨oa, o, st, e⟩ := h (.box [1] [(none, none)]) (.array [0]) (.array [5]) rfl (by simp [Fits]) (by simp [Fits])
    have e1 : (runs (bee2 1 (.box [1] [(none, none)])) [] [.array [0], .array [5], .array [5]]).map (·.1) =
      .ok [[0, 0], [1, -1], [1, 0]] := by decide +kernel
    rw [e] at e1
    simp only [Except.map, Except.ok.injEq, List.cons.injEq, and_true] at e1
    obtain ⟨-, h1, h2⟩ := e1
    rw [h1] at h2
    simp at h2

/-- C132: exactly the spaces of boxes and tuples (and dictionaries without keys) have features; for all others
the first evaluation of an element of the space raises. -/
theorem C132_spaces (fid lv : Nat) (s : Space) (e : Elem Rat) (hf : Fits (fun _ => True) s e) :
    ((∃ q, bee1 fid s ⟨[], []⟩ e = .ok q) ↔ onlyBoxes s = true) ∧
    ((∃ q, bee2 lv s [] e = .ok q) ↔ onlyBoxes s = true) ∧
    (onlyBoxes s = false →
      (bee1 fid s ⟨[], []⟩ e = .error .runtimeError ∨ bee1 fid s ⟨[], []⟩ e = .error .valueError) ∧
      (bee2 lv s [] e = .error .runtimeError ∨ bee2 lv s [] e = .error .valueError)) := by
  have hbad : onlyBoxes s = false →
      (bee1 fid s ⟨[], []⟩ e = .error .runtimeError ∨ bee1 fid s ⟨[], []⟩ e = .error .valueError) ∧
      (bee2 lv s [] e = .error .runtimeError ∨ bee2 lv s [] e = .error .valueError) := by
    intro ho
    constructor
    · rcases init1_error _ s e ⟨[], []⟩ hf ho with h | h
      · exact .inl (by simp [bee1, h])
      · exact .inr (by simp [bee1, h])
    · rcases init2_error _ s e [] hf ho (by simp [WF2]) with h | h
      · exact .inl (by simp [bee2, h])
      · exact .inr (by simp [bee2, h])
  refine ⟨⟨?_, ?_⟩, ⟨?_, ?_⟩, hbad⟩
  · rintro ⟨q, hq⟩
    cases ho : onlyBoxes s with
    | true => rfl
    | false => rcases (hbad ho).1 with h | h <;> rw [h] at hq <;> simp at hq
  · intro ho
    obtain ⟨fs, st, h, -⟩ := bee1_ok fid hf ho (st := ⟨[], []⟩) (.inl ⟨rfl, rfl⟩)
    exact ⟨_, h⟩
  · rintro ⟨q, hq⟩
    cases ho : onlyBoxes s with
    | true => rfl
    | false => rcases (hbad ho).2 with h | h <;> rw [h] at hq <;> simp at hq
  · intro ho
    obtain ⟨fs, st, h, -⟩ := bee2_ok lv hf ho (st := []) (.inl rfl)
    exact ⟨_, h⟩

/-- C132: a space with a discrete part, or a dictionary, has no features, although `_bee1_features` and
`_bee2_features` have branches that would compute them. -/
theorem C132_spaces_refuted :
    ¬ (∀ (s : Space) (e : Elem Rat) (st : St1), Fits (fun _ => True) s e → (∃ q, features1 1 st 0 s e = .ok q) →
      ∃ q, bee1 1 s ⟨[], []⟩ e = .ok q) ∧
    ¬ (∀ (s : Space) (e : Elem Rat) (st : List Bee2), Fits (fun _ => True) s e → (∃ q, features2 0 st 0 s e = .ok q) →
      ∃ q, bee2 0 s [] e = .ok q) := by
  have hf : Fits (fun _ : Rat => True) (.tuple [.discrete 3, .box [1] [(none, none)]]) (.tuple [.int 2, .array [4]]) := by
    simp [Fits, FitsL]
  constructor
  · intro h
    have := h _ _ ⟨[4], [Bee1.new 4, Bee1.new 4]⟩ hf (by
      obtain ⟨fs, st', e, -⟩ := cells1_ok 1 [4] (st := ⟨[4], [Bee1.new 4, Bee1.new 4]⟩) (index := 0)
        ⟨rfl, by simp [Bee1.wf_new]⟩ (by simp)
      exact ⟨_, by simp only [features1, features1L, e]; rfl⟩)
    have := ((C132_spaces 1 0 _ _ hf).1.mp this)
    simp [onlyBoxes, onlyBoxesL] at this
  · intro h
    have := h _ _ [Bee2.new] hf (by
      obtain ⟨fs, st', e, -⟩ := cells2_ok 0 [4] (st := [Bee2.new]) (index := 0) (by simp [WF2, Bee2.wf_new]) (by simp)
      exact ⟨_, by simp only [features2, features2L, e]; rfl⟩)
    have := ((C132_spaces 1 0 _ _ hf).2.1.mp this)
    simp [onlyBoxes, onlyBoxesL] at this

/-! ### C133: bit vectors -/

/-- C133: the elements of a space are encoded with the same number of bits, when no cell of a box is negative zero. -/
theorem C133_length (s : Space) (e : Elem Nat) (hf : Fits Plain s e) (ho : encodable s = true) :
    ∃ fs, binary s e = .ok fs ∧ fs.length = width s := binary_ok s e hf ho

/-- C133: and different elements are encoded differently. -/
theorem C133_injective (s : Space) (e e' : Elem Nat) (hf : Fits Plain s e) (hf' : Fits Plain s e') (ho : encodable s = true) :
    binary s e = binary s e' ↔ e = e' := ⟨binary_inj s e e' hf hf' ho, fun h => by rw [h]⟩

/-- C133, discrete spaces: the digits of the number, most significant first, as many as those of the largest element. -/
theorem C133_discrete (n : Nat) (e : Int) (h0 : 0 ≤ e) (h : e < n) :
    ∃ fs, binary (.discrete n) (.int e) = .ok fs ∧ fs.length = max 1 (Nat.log 2 (n - 1) + 1) ∧
      fs.foldl (fun a b => 2 * a + b.toNat) 0 = e.natAbs := by
  refine ⟨intBits n e, rfl, ?_, value_pad _ _⟩
  rw [intBits_length h0 h]
  unfold bits
  split
  · next h => simp [h]
  · next h => rw [List.length_reverse, List.length_map, Nat.length_digits 2 _ (by omega) h]; omega

example : Fits Plain (.tuple [.discrete 6, .multiBinary 2, .box [1] [(none, none)]]) (.tuple [.int 2, .ints [0, 1], .array [0xbf800000]]) ∧
    encodable (.tuple [.discrete 6, .multiBinary 2, .box [1] [(none, none)]]) = true := by
  refine ⟨?_, by decide⟩
  simp [Fits, FitsL, Plain]

example : binary (.tuple [.discrete 6, .multiBinary 2]) (.tuple [.int 2, .ints [0, 1]]) = .ok [false, true, false, false, true] := by
  decide +kernel

/-- C133: negative zero (the float with the pattern 0x80000000) takes 33 bits instead of 32. -/
theorem C133_negative_zero_refuted :
    ¬ (∀ (e e' : Elem Nat), Fits (fun u => u < 2 ^ 32) (.box [1] [(none, none)]) e →
      Fits (fun u => u < 2 ^ 32) (.box [1] [(none, none)]) e' →
      (binary (.box [1] [(none, none)]) e).map List.length = (binary (.box [1] [(none, none)]) e').map List.length) := by
  intro h
  have := h (.array [2 ^ 31]) (.array [0]) (by simp [Fits]) (by simp [Fits])
  revert this
  decide +kernel

/-- C133: elements of a space with a dictionary with keys are never encoded. -/
theorem C133_dict_refuted (k : String) (ks : List String) (sp : List Space) (e : Elem Nat) :
    binary (.dict (k :: ks) sp) e = .error .valueError ∨ binary (.dict (k :: ks) sp) e = .error .runtimeError := by
  simp only [binary, unpackKeys]
  split
  · exact .inr rfl
  · exact .inl rfl

/-! ### C134: proxies of states -/

/-- C134: two states of one observation space are equal for the proxy exactly when they are equal. -/
theorem C134_equal (s : Space) (e e' : Elem Rat) (hf : Fits (fun _ => True) s e) (hf' : Fits (fun _ => True) s e') :
    proxyEq e e' = true ↔ e = e' := by
  unfold proxyEq
  rw [decide_eq_true_eq]
  exact ⟨flatten_inj s e e' hf hf', fun h => by rw [h]⟩

example : Fits (fun _ => True) twoBoxes (at3 1 2 3) ∧ proxyEq (at3 1 2 3) (at3 1 2 4) = false := by
  refine ⟨by simp [twoBoxes, at3, Fits, FitsL], by decide +kernel⟩

/-- C134: states of different structure, or with different keys, may be equal for the proxy. -/
theorem C134_structure_refuted :
    ¬ (∀ e e' : Elem Rat, proxyEq e e' = true → e = e') ∧
    ¬ (∀ k k' x, proxyEq (.dict [k] [.int x]) (.dict [k'] [.int x]) = true → k = k') := by
  constructor
  · intro h
    have := h (.tuple [.array [1], .array [2, 3]]) (.tuple [.array [1, 2], .array [3]]) (by decide +kernel)
    simp at this
  · intro h
    have := h "a" "b" 0 (by decide +kernel)
    simp at this

/-! ### C135: discrete actions -/

/-- C135: for a discrete action space every number below its size is an action, once, in ascending order. -/
theorem C135_discrete (factor : Nat) (sample : Nat → Rat) (n : Nat) :
    ∃ l : List Nat, discretize factor sample (.discrete n) = .ok (some (l.map .int)) ∧ l.Pairwise (· < ·) ∧ ∀ v, v ∈ l ↔ v < n :=
  ⟨List.range n, rfl, List.pairwise_lt_range, fun _ => List.mem_range⟩

/-- C135: for a multi-discrete action space every vector within the bounds is an action, once. -/
theorem C135_multiDiscrete (factor : Nat) (sample : Nat → Rat) (nv : List Nat) (h : nv ≠ []) :
    ∃ l : List (List Nat), discretize factor sample (.multiDiscrete nv) = .ok (some (l.map .ints)) ∧ l.Nodup ∧
      l.length = nv.prod ∧ ∀ v, v ∈ l ↔ List.Forall₂ (fun a n => a < n) v nv := by
  refine ⟨combinations (nv.map List.range), ?_, ?_, ?_, fun v => ?_⟩
  · cases nv with
    | nil => exact absurd rfl h
    | cons a nv => simp only [discretize, List.map_cons, generate]
  · refine nodup_combinations fun l hl => ?_
    obtain ⟨n, -, rfl⟩ := List.mem_map.mp hl
    exact List.nodup_range
  · rw [length_combinations, List.map_map]
    congr 1
    simp [Function.comp_def]
  · rw [mem_combinations, List.forall₂_map_right_iff]
    simp only [List.mem_range]

/-- C135: for a tuple the actions are all combinations of the actions of the parts. -/
theorem C135_tuple (factor : Nat) (sample : Nat → Rat) (sp : List Space) (ls : List (List Act)) (h : sp ≠ [])
    (hp : List.Forall₂ (fun s l => discretize factor sample s = .ok (some l)) sp ls) :
    ∃ l : List (List Act), discretize factor sample (.tuple sp) = .ok (some (l.map .list)) ∧
      l.length = (ls.map List.length).prod ∧ ∀ v, v ∈ l ↔ List.Forall₂ (fun a l => a ∈ l) v ls := by
  have key : discretizeL factor sample sp = .ok ls := by
    clear h
    induction hp with
    | nil => simp only [discretizeL]
    | cons h1 _ ih => simp only [discretizeL, h1, ih]
  refine ⟨combinations ls, ?_, length_combinations ls, fun v => mem_combinations⟩
  cases hp with
  | nil => exact absurd rfl h
  | cons h1 h2 => simp only [discretize, key, generate]

/-- C135: for a box of one cell with bounds the actions are equidistant, from the lower to the upper bound. -/
theorem C135_box (factor : Nat) (sample : Nat → Rat) (lo hi : Rat) (hle : lo ≤ hi) (hf : 2 ≤ factor) :
    ∃ l : List Rat, discretize factor sample (.box [1] [(some lo, some hi)]) = .ok (some (l.map (fun x => .array [some x]))) ∧
      l.length = factor ∧ l.head? = some lo ∧ l[factor - 1]? = some hi ∧ (∀ x ∈ l, lo ≤ x ∧ x ≤ hi) ∧
      ∀ i x y, l[i]? = some x → l[i + 1]? = some y → y - x = (hi - lo) / ((factor : Rat) - 1) := by
  have hpos : (0 : Rat) < (factor : Rat) - 1 := by
    have : (2 : Rat) ≤ (factor : Rat) := by exact_mod_cast hf
    linarith
  have hcomb : ∀ vs : List Rat, combinations [vs.map some] = vs.map (fun v => [some v]) := by
    intro vs
    simp only [combinations, List.map_cons, List.map_nil]
    induction vs with
    | nil => rfl
    | cons v vs ih => simp only [List.map_cons, List.flatMap_cons, ih, List.singleton_append]
  have hmap : ∀ vs : List Rat, (vs.map (fun v => [some v])).mapM (toArray [1]) = .ok (vs.map (fun v => [some v])) := by
    intro vs
    induction vs with
    | nil => rfl
    | cons v vs ih =>
      rw [List.map_cons, List.mapM_cons, ih]
      rfl
  refine ⟨(List.range factor).map (fun i : Nat => lo + (hi - lo) / ((factor : Rat) - 1) * i), ?_, by simp, ?_, ?_, ?_, ?_⟩
  · have hiv : itemValues factor sample (some lo, some hi) =
        ((List.range factor).map (fun i : Nat => lo + (hi - lo) / ((factor : Rat) - 1) * i)).map some := by
      simp only [itemValues, List.map_map]
      simp [show ¬ factor = 1 by omega, Function.comp_def]
    simp only [discretize, List.length_cons, List.length_nil, List.map_cons, List.map_nil, hiv, hcomb, hmap]
    simp [Function.comp_def]
  · obtain ⟨f, rfl⟩ : ∃ f, factor = f + 1 := ⟨factor - 1, by omega⟩
    simp [List.range_succ_eq_map]
  · rw [List.getElem?_map, List.getElem?_range (by omega)]
    simp only [Option.map_some, Option.some.injEq]
    rw [Nat.cast_sub (by omega), Nat.cast_one, div_mul_cancel₀ _ (ne_of_gt hpos)]
    ring
  · intro x hx
    obtain ⟨i, hi', rfl⟩ := List.mem_map.mp hx
    have hi2 : (i : Rat) ≤ (factor : Rat) - 1 := by
      have : i + 1 ≤ factor := List.mem_range.mp hi'
      have : ((i + 1 : Nat) : Rat) ≤ (factor : Rat) := by exact_mod_cast this
      push_cast at this
      linarith
    have hd : 0 ≤ (hi - lo) / ((factor : Rat) - 1) := div_nonneg (by linarith) (le_of_lt hpos)
    have hi0 : (0 : Rat) ≤ (i : Rat) := by exact_mod_cast Nat.zero_le i
    refine ⟨by linarith [mul_nonneg hd hi0], ?_⟩
    have h1 : (hi - lo) / ((factor : Rat) - 1) * i ≤ (hi - lo) / ((factor : Rat) - 1) * ((factor : Rat) - 1) :=
      mul_le_mul_of_nonneg_left hi2 hd
    rw [div_mul_cancel₀ _ (ne_of_gt hpos)] at h1
    linarith
  · intro i x y hx hy
    rw [List.getElem?_map] at hx hy
    cases hr : (List.range factor)[i]? with
    | none => rw [hr] at hx; simp at hx
    | some a =>
      cases hr' : (List.range factor)[i + 1]? with
      | none => rw [hr'] at hy; simp at hy
      | some b =>
        obtain ⟨h1, rfl⟩ := List.getElem?_eq_some_iff.mp hr
        obtain ⟨h2, rfl⟩ := List.getElem?_eq_some_iff.mp hr'
        rw [hr] at hx
        rw [hr'] at hy
        simp only [Option.map_some, Option.some.injEq, List.getElem_range] at hx hy
        rw [← hx, ← hy]
        push_cast
        ring

/-- C135: for a box of one dimension with more cells only the first item of an action is written, so no action
is a vector of the box; for other dimensions, for `MultiBinary` and within tuples for `Dict` it raises. -/
theorem C135_box_refuted (factor : Nat) (sample : Nat → Rat) (n : Nat) (bounds : List (Option Rat × Option Rat)) (hn : 2 ≤ n)
    (hb : bounds.length = n) :
    ∃ l : List (List (Option Rat)), discretize factor sample (.box [n] bounds) = .ok (some (l.map .array)) ∧
      l.length = factor ^ n ∧ ∀ a ∈ l, a.length = n ∧ ∀ i, 0 < i → i < n → a[i]? = some none := by
  have hmap : ∀ cs : List (List (Option Rat)), (∀ c ∈ cs, c ≠ []) →
      ∃ l, cs.mapM (toArray [n]) = .ok l ∧ l.length = cs.length ∧ ∀ a ∈ l, ∃ v, a = v :: List.replicate (n - 1) none := by
    intro cs hcs
    induction cs with
    | nil => exact ⟨[], rfl, rfl, by simp⟩
    | cons c cs ih =>
      obtain ⟨l, e, hl, ha⟩ := ih (fun c hc => hcs c (List.mem_cons_of_mem _ hc))
      cases c with
      | nil => exact absurd rfl (hcs [] List.mem_cons_self)
      | cons v c =>
        refine ⟨(v :: List.replicate (n - 1) none) :: l, ?_, by simp [hl], ?_⟩
        · rw [List.mapM_cons, e]
          rfl
        · intro a h
          rcases List.mem_cons.mp h with rfl | h
          · exact ⟨v, rfl⟩
          · exact ha a h
  obtain ⟨l, e, hl, ha⟩ := hmap (combinations (bounds.map (itemValues factor sample))) (by
    intro c hc h0
    subst h0
    have := mem_combinations.mp hc
    have := this.length_eq
    simp at this
    omega)
  refine ⟨l, ?_, ?_, fun a h => ?_⟩
  · simp only [discretize]
    rw [if_neg (by omega), e]
  · rw [hl, length_combinations, List.map_map, ← hb]
    clear ha hl e hmap hb hn
    induction bounds with
    | nil => rfl
    | cons b bs ih =>
      rw [List.map_cons, List.prod_cons, ih, List.length_cons, Nat.pow_succ, Nat.mul_comm]
      congr 1
      obtain ⟨lo, hi⟩ := b
      cases lo <;> cases hi <;> simp [itemValues]
  · obtain ⟨v, rfl⟩ := ha a h
    refine ⟨by simp; omega, fun i h0 hi => ?_⟩
    obtain ⟨j, rfl⟩ : ∃ j, i = j + 1 := ⟨i - 1, by omega⟩
    simp only [List.getElem?_cons_succ]
    rw [List.getElem?_replicate, if_pos (by omega)]

/-- C135: no discrete actions for boxes of another dimension, for multi-binary spaces, for dictionaries (`None`
alone, an AttributeError in a tuple) and for empty vectors and tuples. -/
theorem C135_unsupported_refuted (factor : Nat) (sample : Nat → Rat) (hf : 0 < factor) :
    (∀ shape bounds, shape.length ≠ 1 → bounds ≠ [] → discretize factor sample (.box shape bounds) = .error .typeError) ∧
    (∀ n, discretize factor sample (.multiBinary n) = .error .typeError) ∧
    (∀ ks sp, discretize factor sample (.dict ks sp) = .ok none) ∧
    (∀ ks sp rest, discretize factor sample (.tuple (.dict ks sp :: rest)) = .error .attributeError) ∧
    discretize factor sample (.multiDiscrete []) = .error .indexError ∧
    discretize factor sample (.tuple []) = .error .indexError := by
  refine ⟨?_, fun n => rfl, fun ks sp => by simp only [discretize], fun ks sp rest => by simp only [discretize, discretizeL],
    rfl, by simp only [discretize, discretizeL, generate]⟩
  intro shape bounds hs hb
  have hlen : 0 < (combinations (bounds.map (itemValues factor sample))).length := by
    rw [length_combinations, List.map_map]
    clear hb
    induction bounds with
    | nil => simp
    | cons b bs ih =>
      rw [List.map_cons, List.prod_cons]
      refine Nat.mul_pos ?_ ih
      obtain ⟨lo, hi⟩ := b
      cases lo <;> cases hi <;> simp [itemValues, hf]
  have hto : ∀ c, toArray shape c = .error .typeError := by
    intro c
    unfold toArray
    split
    · simp at hs
    · rfl
  simp only [discretize]
  rw [if_neg (by simpa using hb)]
  cases hc : combinations (bounds.map (itemValues factor sample)) with
  | nil => rw [hc] at hlen; simp at hlen
  | cons c cs =>
    rw [List.mapM_cons, hto c]
    rfl

/-- C135: with a discretization factor of 1 the only action of a bounded cell is not a number. -/
theorem C135_factor_one_refuted (sample : Nat → Rat) (lo hi : Rat) :
    discretize 1 sample (.box [1] [(some lo, some hi)]) = .ok (some [.array [none]]) := rfl

example : ∃ l : List (List Nat), discretize 10 (fun _ => 0) (.multiDiscrete [2, 3]) = .ok (some (l.map .ints)) ∧ l.length = 6 := by
  obtain ⟨l, e, -, h, -⟩ := C135_multiDiscrete 10 (fun _ => 0) [2, 3] (by simp)
  exact ⟨l, e, by rw [h]; rfl⟩

example : List.Forall₂ (fun s l => discretize 10 (fun _ => 0) s = .ok (some l)) [.discrete 2, .discrete 1] [[.int 0, .int 1], [.int 0]] :=
  .cons rfl (.cons rfl .nil)

end Verif.Gym
