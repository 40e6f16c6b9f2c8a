import Verif.Lemmas.CpNeigh
/- Property C188: the neighbourhoods of the constraint programs of projects. -/
namespace Verif.CpNeigh

/-- A schedule: different activities, starting at 0 or later and ending no earlier than they start. -/
structure Good (sched : Sched) : Prop where
  keys : sched.keys.Nodup
  times : ∀ j se, sched.get? j = some se → 0 ≤ se.1 ∧ se.1 ≤ se.2

/-- Specification: the makespan. -/
def IsMakespan (sched : Sched) (m : Int) : Prop :=
  (∃ j se, sched.get? j = some se ∧ se.2 = m) ∧ ∀ j se, sched.get? j = some se → se.2 ≤ m

theorem makespan {sched : Sched} (hg : sched.keys.Nodup) {m : Int} (h : maxTime sched = .ok m) : IsMakespan sched m := by
  obtain ⟨⟨p, hp, he⟩, hle⟩ := maxTime_ok h
  exact ⟨⟨p.1, p.2, Dict.get?_of_mem hg hp, he⟩, fun j se hs => hle _ (Dict.mem_of_get? hs)⟩

/-- C188: the constraints of the interval handler leave exactly the starts in which every activity drawn that does not end late starts within
its window and before the makespan, and all activities start at most 50 after the makespan. -/
theorem C188_interval {P : Params} {sched : Sched} {nb : Nat} {draw : List Nat} {ret add : List Con} (hg : Good sched)
    (h : interval P sched nb draw = .ok (ret, add)) : ∃ m, IsMakespan sched m ∧ ∀ s : Nat → Int,
    (∀ c ∈ add, c.Holds s) ↔
      (∀ j ∈ draw, ∀ se, sched.get? j = some se → se.2 < m - P.delta →
        0 ≤ s j ∧ se.1 - P.minus ≤ s j ∧ s j ≤ se.1 + P.plus ∧ s j ≤ m) ∧
      (∀ j se, sched.get? j = some se → s j ≤ m + 50) := by
  simp only [interval, bind_eq_ok, Except.ok.injEq, Prod.mk.injEq] at h
  obtain ⟨m, h1, d, h2, ws, h3, rfl, rfl⟩ := h
  have hd : d = draw := by
    unfold sample at h2
    split at h2
    · cases h2
    · exact (Except.ok.inj h2).symm
  subst hd
  refine ⟨m, makespan hg.keys h1, fun s => ?_⟩
  rw [List.forall_mem_append, windows_ok h3 s, caps_holds]
  constructor
  · rintro ⟨x, y⟩
    refine ⟨?_, fun j se hs => y j ((Dict.get?_isSome_iff_mem_keys _ _).1 (by rw [hs]; rfl))⟩
    intro j hj se hs hlt
    obtain ⟨st, en, hs', a, b⟩ := x j (List.mem_filter.2 ⟨hj, by
      rw [decide_eq_true_eq, mem_last hg.keys hs]; omega⟩)
    rw [hs] at hs'
    obtain rfl := Option.some.inj hs'
    simp only at *
    omega
  · rintro ⟨x, y⟩
    refine ⟨?_, fun j hj => ?_⟩
    · intro j hj
      obtain ⟨hj1, hj2⟩ := List.mem_filter.1 hj
      have hw : ∃ st en, sched.get? j = some (st, en) := windows_get h3 hj
      obtain ⟨st, en, hs⟩ := hw
      rw [decide_eq_true_eq, mem_last hg.keys hs] at hj2
      have := x j hj1 _ hs (by omega)
      refine ⟨st, en, hs, ?_, ?_⟩ <;> simp only at * <;> omega
    · obtain ⟨se, hs⟩ := Option.isSome_iff_exists.1 ((Dict.get?_isSome_iff_mem_keys _ _).2 hj)
      exact y j se hs

/-- C188: the incumbent is in its own neighbourhood. -/
theorem C188_incumbent {P : Params} {sched : Sched} {nb : Nat} {draw : List Nat} {ret add : List Con} (hg : Good sched) (hm : 0 ≤ P.minus)
    (hp : 0 ≤ P.plus) (h : interval P sched nb draw = .ok (ret, add)) {s : Nat → Int} (hs : ∀ j se, sched.get? j = some se → s j = se.1) :
    ∀ c ∈ add, c.Holds s := by
  obtain ⟨m, hmk, hiff⟩ := C188_interval hg h
  refine (hiff s).2 ⟨?_, ?_⟩
  · intro j _ se hse _
    have h1 := hg.times j se hse
    have h2 := hmk.2 j se hse
    rw [hs j se hse]
    omega
  · intro j se hse
    have h1 := hg.times j se hse
    have h2 := hmk.2 j se hse
    rw [hs j se hse]
    omega

/-- C188: the handler answers exactly if there is an activity and no more activities are to be drawn than there are. -/
theorem C188_answers {P : Params} {sched : Sched} {nb : Nat} {draw : List Nat} (hd : ∀ j ∈ draw, (sched.get? j).isSome) (hf : 0 ≤ P.fraction) :
    (∃ r, interval P sched nb draw = .ok r) ↔ sched ≠ [] ∧ P.fraction * nb < sched.length + 1 := by
  have hneg : ¬ ⌈P.fraction * nb⌉ < 0 := by
    have : 0 ≤ ⌈P.fraction * nb⌉ := Int.ceil_nonneg (mul_nonneg hf (by positivity))
    omega
  have hfl : (sched.length : Int) < ⌊P.fraction * nb⌋ ↔ ¬ P.fraction * nb < sched.length + 1 := by
    rw [Int.lt_iff_add_one_le, Int.le_floor, not_lt]
    push_cast
    rfl
  constructor
  · rintro ⟨r, h⟩
    simp only [interval, bind_eq_ok] at h
    obtain ⟨m, h1, d, h2, -⟩ := h
    refine ⟨(by rintro rfl; cases h1), ?_⟩
    unfold sample at h2
    split at h2
    · cases h2
    · rename_i hc
      rw [hfl] at hc
      exact Classical.byContradiction (fun hh => hc (Or.inr hh))
  · rintro ⟨h1, h2⟩
    obtain ⟨m, hm⟩ := maxTime_total h1
    obtain ⟨ws, hw⟩ := windows_total (P := P) (m := m) (sched := sched) (js := draw.filter (fun j => decide (j ∉ lastJobs P sched m)))
      (fun j hj => hd j (List.mem_filter.1 hj).1)
    refine ⟨(ws, ws ++ caps sched m), ?_⟩
    have hs : sample P sched nb draw = .ok draw := by
      rw [sample, if_neg]
      rintro (h | h)
      · exact hneg h
      · exact hfl.1 h h2
    rw [interval, hm]
    simp only [bind_ok, hs, hw]

/-- C188: the constraints of the handler by parts: those of the interval handler without the activities that start in the current part. -/
theorem C188_part {P : Params} {cut sub : Nat} {sched : Sched} {nb : Nat} {draw : List Nat} {ret add : List Con} {sub' : Nat} (hg : Good sched)
    (h : byPart P cut sub sched nb draw = .ok (ret, add, sub')) : ∃ m, IsMakespan sched m ∧ sub' = (sub + 1) % cut ∧ ∀ s : Nat → Int,
    (∀ c ∈ add, c.Holds s) ↔
      (∀ j ∈ draw, ∀ se, sched.get? j = some se → se.2 < m - P.delta →
        ¬ ((m : Rat) / cut * sub ≤ se.1 ∧ (se.1 : Rat) ≤ (m : Rat) / cut * (sub + 1)) →
        0 ≤ s j ∧ se.1 - P.minus ≤ s j ∧ s j ≤ se.1 + P.plus ∧ s j ≤ m) ∧
      (∀ j se, sched.get? j = some se → s j ≤ m + 50) := by
  simp only [byPart, bind_eq_ok] at h
  obtain ⟨m, h1, h⟩ := h
  split at h
  · cases h
  simp only [bind_eq_ok, Except.ok.injEq, Prod.mk.injEq] at h
  obtain ⟨d, h2, ws, h3, rfl, rfl, rfl⟩ := h
  have hd : d = draw := by
    unfold sample at h2
    split at h2
    · cases h2
    · exact (Except.ok.inj h2).symm
  subst hd
  refine ⟨m, makespan hg.keys h1, rfl, fun s => ?_⟩
  rw [List.forall_mem_append, windows_ok h3 s, caps_holds]
  constructor
  · rintro ⟨x, y⟩
    refine ⟨?_, fun j se hs => y j ((Dict.get?_isSome_iff_mem_keys _ _).1 (by rw [hs]; rfl))⟩
    intro j hj se hs hlt hout
    obtain ⟨st, en, hs', a, b⟩ := x j (List.mem_filter.2 ⟨List.mem_filter.2 ⟨hj, by
      rw [decide_eq_true_eq, mem_last hg.keys hs]; omega⟩, by rw [decide_eq_true_eq, mem_interest hg.keys hs]; exact hout⟩)
    rw [hs] at hs'
    obtain rfl := Option.some.inj hs'
    clear hout
    simp only at *
    omega
  · rintro ⟨x, y⟩
    refine ⟨?_, fun j hj => ?_⟩
    · intro j hj
      obtain ⟨hj0, hj3⟩ := List.mem_filter.1 hj
      obtain ⟨hj1, hj2⟩ := List.mem_filter.1 hj0
      have hw : ∃ st en, sched.get? j = some (st, en) := windows_get h3 hj
      obtain ⟨st, en, hs⟩ := hw
      rw [decide_eq_true_eq, mem_last hg.keys hs] at hj2
      rw [decide_eq_true_eq, mem_interest hg.keys hs] at hj3
      have := x j hj1 _ hs (by omega) hj3
      clear hj3
      refine ⟨st, en, hs, ?_, ?_⟩ <;> simp only at * <;> omega
    · obtain ⟨se, hs⟩ := Option.isSome_iff_exists.1 ((Dict.get?_isSome_iff_mem_keys _ _).2 hj)
      exact y j se hs

/-- C188: each activity starts in one of the parts, and in `cut` calls every part has its turn, so that within that many calls with the same
incumbent each activity is free once. -/
theorem C188_turns {sched : Sched} {cut : Nat} (hc : 0 < cut) (hg : Good sched) {m : Int} (hm : IsMakespan sched m) (sub : Nat) (hsub : sub < cut)
    {j : Nat} {se : Int × Int} (hs : sched.get? j = some se) :
    ∃ k, k < cut ∧ ((m : Rat) / cut * ((sub + k) % cut : Nat) ≤ se.1 ∧ (se.1 : Rat) ≤ (m : Rat) / cut * (((sub + k) % cut : Nat) + 1)) := by
  obtain ⟨h0, h1⟩ := hg.times j se hs
  have h2 := hm.2 j se hs
  have hcr : (0 : Rat) < cut := by exact_mod_cast hc
  have hpart : ∃ q, q < cut ∧ ((m : Rat) / cut * q ≤ se.1 ∧ (se.1 : Rat) ≤ (m : Rat) / cut * (q + 1)) := by
    by_cases hm0 : m ≤ 0
    · have e1 : se.1 = 0 := by omega
      have e2 : m = 0 := by omega
      refine ⟨0, hc, ?_⟩
      rw [e1, e2]
      simp
    · have hmr : (0 : Rat) < m := by exact_mod_cast (show 0 < m by omega)
      by_cases hlast : se.1 = m
      · refine ⟨cut - 1, by omega, ?_⟩
        have e : ((cut - 1 : Nat) : Rat) = cut - 1 := by
          rw [Nat.cast_sub (by omega)]; simp
        rw [hlast, e]
        constructor
        · rw [div_mul_eq_mul_div, div_le_iff₀ hcr]
          nlinarith
        · rw [sub_add_cancel, div_mul_cancel₀ _ (ne_of_gt hcr)]
      · refine ⟨(se.1 * cut / m).toNat, ?_, ?_⟩
        · have hlt : se.1 * cut / m < cut := by
            apply Int.ediv_lt_of_lt_mul (by omega)
            rw [mul_comm]
            exact Int.mul_lt_mul_of_pos_left (by omega) (by omega)
          have hnn : 0 ≤ se.1 * cut / m := Int.ediv_nonneg (Int.mul_nonneg h0 (by omega)) (by omega)
          omega
        · have hnn : 0 ≤ se.1 * cut / m := Int.ediv_nonneg (Int.mul_nonneg h0 (by omega)) (by omega)
          have e : (((se.1 * cut / m).toNat : Nat) : Rat) = ((se.1 * cut / m : Int) : Rat) := by
            have := Int.toNat_of_nonneg hnn
            exact_mod_cast congrArg (fun z : Int => (z : Rat)) this
          rw [e]
          have d1 : se.1 * cut / m * m ≤ se.1 * cut := Int.ediv_mul_le _ (by omega)
          have d2 : se.1 * cut < (se.1 * cut / m + 1) * m := by
            have := Int.lt_ediv_add_one_mul_self (se.1 * cut) (show 0 < m by omega)
            exact this
          have d1' : ((se.1 * cut / m : Int) : Rat) * m ≤ se.1 * cut := by exact_mod_cast d1
          have d2' : (se.1 : Rat) * cut ≤ (((se.1 * cut / m : Int) : Rat) + 1) * m := by exact_mod_cast le_of_lt d2
          constructor
          · rw [div_mul_eq_mul_div, div_le_iff₀ hcr]; linarith
          · rw [div_mul_eq_mul_div, le_div_iff₀ hcr]; linarith
  obtain ⟨q, hq, hin⟩ := hpart
  by_cases hle : sub ≤ q
  · refine ⟨q - sub, by omega, ?_⟩
    have : (sub + (q - sub)) % cut = q := by rw [Nat.add_sub_cancel' hle]; exact Nat.mod_eq_of_lt hq
    rw [this]; exact hin
  · refine ⟨q + cut - sub, by omega, ?_⟩
    have : (sub + (q + cut - sub)) % cut = q := by
      have e : sub + (q + cut - sub) = q + cut := by omega
      rw [e, Nat.add_mod_right]; exact Nat.mod_eq_of_lt hq
    rw [this]; exact hin

/-- Calls of the mixed handler: fitnesses of the incumbents and the state after them, with any draws. -/
inductive Run (w : List Rat) : List Int → Mix → Prop where
  | init : Run w [] (Mix.init w)
  | step {fits : List Int} {s : Mix} (fit : Int) (greedy : Bool) (c : Nat) : Run w fits s → c ∈ (s.learn fit).choices greedy →
      Run w (fits ++ [fit]) ((s.learn fit).use c)

/-- Specification: how often a fitness differs from the one before. -/
def changes : List Int → Nat
  | a :: b :: l => (if a = b then 0 else 1) + changes (b :: l)
  | _ => 0

theorem changes_snoc : ∀ (l : List Int) (a b : Int), changes (l ++ [a, b]) = changes (l ++ [a]) + if a = b then 0 else 1
  | [], a, b => by simp [changes]
  | [x], a, b => by simp only [List.cons_append, List.nil_append, changes]; omega
  | x :: y :: l, a, b => by
    have ih := changes_snoc (y :: l) a b
    simp only [List.cons_append, changes] at ih ⊢
    rw [ih]; omega

/-- What holds after any calls. -/
structure Fine (w : List Rat) (fits : List Int) (s : Mix) : Prop where
  len : s.proba.length = w.length ∧ s.usage.length = w.length ∧ s.improved.length = w.length
  pos : ∀ x ∈ s.proba, 0 < x
  one : s.proba.sum = 1
  iter : s.iteration = fits.length ∧ s.usage.sum = fits.length
  last : s.fit = fits.getLast? ∧ ((∃ i, s.last = some i ∧ i < w.length) ∨ s.last = none ∧ fits = [])
  each : ∀ i, s.improved.getD i 0 + (if s.last = some i then 1 else 0) ≤ s.usage.getD i 0
  total : s.improved.sum = changes fits

theorem choices_lt {w : List Rat} {s : Mix} (h1 : s.proba.length = w.length) (h2 : s.usage.length = w.length) {greedy : Bool} {c : Nat}
    (h : c ∈ s.choices greedy) : c < w.length := by
  unfold Mix.choices at h
  split at h
  · rw [← h2]; exact List.mem_range.1 (List.mem_filter.1 h).1
  · rw [← h1]; exact List.mem_range.1 (List.mem_filter.1 h).1

theorem fine_learn {w : List Rat} (hne : w ≠ []) {fits : List Int} {s : Mix} (h : Fine w fits s) (fit : Int) :
    (s.learn fit).proba.length = w.length ∧ (s.learn fit).usage = s.usage ∧ (s.learn fit).improved.length = w.length ∧
    (∀ x ∈ (s.learn fit).proba, 0 < x) ∧ (s.learn fit).proba.sum = 1 ∧ (s.learn fit).iteration = s.iteration ∧ (s.learn fit).fit = some fit ∧
    (∀ i, (s.learn fit).improved.getD i 0 ≤ s.usage.getD i 0) ∧ (s.learn fit).improved.sum = changes (fits ++ [fit]) := by
  have hpne : s.proba ≠ [] := by
    intro e
    have := h.len.1
    rw [e] at this
    exact hne (List.length_eq_zero_iff.1 this.symm)
  rcases h.last with ⟨hf, ⟨i, hi, hlt⟩ | ⟨hi, rfl⟩⟩
  · have hup : ∀ c : Rat, 0 < c → (normalise (s.proba.modify i (· * c))).length = w.length ∧
        (∀ x ∈ normalise (s.proba.modify i (· * c)), 0 < x) ∧ (normalise (s.proba.modify i (· * c))).sum = 1 := by
      intro c hc
      have hl : (s.proba.modify i (· * c)).length = s.proba.length := by simp
      have hne' : s.proba.modify i (· * c) ≠ [] := by
        intro e; rw [e] at hl; exact hpne (List.length_eq_zero_iff.1 hl.symm)
      obtain ⟨a, b, c⟩ := normalise_ok hne' (modify_pos hc h.pos)
      exact ⟨by rw [a, hl, h.len.1], b, c⟩
    have hfne : fits ≠ [] := by
      rintro rfl
      have h1 := h.each i
      rw [hi, if_pos rfl] at h1
      have h2 : s.usage.getD i 0 ≤ s.usage.sum := getD_le_sum _ _
      have := h.iter.2
      simp at this
      omega
    obtain ⟨l, a, rfl⟩ : ∃ l a, fits = l ++ [a] := ⟨_, _, (List.dropLast_concat_getLast hfne).symm⟩
    rw [List.getLast?_concat] at hf
    by_cases hd : some fit ≠ s.fit
    · obtain ⟨a1, a2, a3⟩ := hup (21 / 20) (by norm_num)
      have hfa : fit ≠ a := by rw [hf] at hd; exact fun e => hd (by rw [e])
      have e : s.learn fit = { s with improved := s.improved.modify i (· + 1), fit := some fit, proba := normalise (s.proba.modify i (· * (21 / 20))) } := by
        unfold Mix.learn; rw [hi]; simp only [if_pos hd]
      rw [e]
      refine ⟨a1, rfl, by simp [h.len.2.2], a2, a3, rfl, rfl, ?_, ?_⟩
      · intro j
        have := h.each j
        show (s.improved.modify i (· + 1)).getD j 0 ≤ _
        rw [modify_getD _ _ _ (by rw [h.len.2.2]; exact hlt)]
        rw [hi] at this
        by_cases hij : i = j
        · subst hij; rw [if_pos rfl] at this ⊢; exact this
        · rw [if_neg hij]; rw [if_neg (by simpa using hij)] at this; exact this
      · show (s.improved.modify i (· + 1)).sum = _
        rw [modify_sum (by rw [h.len.2.2]; exact hlt), h.total, List.append_assoc]
        show _ = changes (l ++ [a, fit])
        rw [changes_snoc, if_neg (Ne.symm hfa)]
    · obtain ⟨a1, a2, a3⟩ := hup (19 / 20) (by norm_num)
      have e : s.learn fit = { s with proba := normalise (s.proba.modify i (· * (19 / 20))) } := by
        unfold Mix.learn; rw [hi]; simp only [if_neg hd]
      have hfa : some fit = s.fit := Classical.byContradiction hd
      rw [e]
      refine ⟨a1, rfl, h.len.2.2, a2, a3, rfl, hfa.symm, fun j => by have := h.each j; show s.improved.getD j 0 ≤ _; omega, ?_⟩
      show s.improved.sum = _
      rw [hf] at hfa
      have := Option.some.inj hfa
      rw [h.total, List.append_assoc]
      show _ = changes (l ++ [a, fit])
      rw [changes_snoc, if_pos this.symm, Nat.add_zero]
  · have e : s.learn fit = { s with fit := some fit } := by unfold Mix.learn; rw [hi]
    rw [e]
    refine ⟨h.len.1, rfl, h.len.2.2, h.pos, h.one, rfl, rfl, fun j => by have := h.each j; show s.improved.getD j 0 ≤ _; omega, ?_⟩
    show s.improved.sum = _
    rw [h.total]; rfl

/-- C188: after any calls of the mixed handler the probabilities are positive and sum to 1, usages sum to the number of calls, no
parameters improved more often than they were used, and improvements are counted exactly once for each change of the fitness. -/
theorem C188_mix {w : List Rat} (hne : w ≠ []) (hw : ∀ x ∈ w, 0 < x) {fits : List Int} {s : Mix} (h : Run w fits s) :
    s.proba.length = w.length ∧ (∀ x ∈ s.proba, 0 < x) ∧ s.proba.sum = 1 ∧ s.iteration = fits.length ∧ s.usage.sum = fits.length ∧
    (∀ i, s.improved.getD i 0 ≤ s.usage.getD i 0) ∧ s.improved.sum = changes fits := by
  have key : Fine w fits s := by
    induction h with
    | init =>
      obtain ⟨a, b, c⟩ := normalise_ok hne hw
      refine ⟨⟨a, by simp [Mix.init], by simp [Mix.init]⟩, b, c, ⟨rfl, by simp [Mix.init]⟩, ⟨rfl, .inr ⟨rfl, rfl⟩⟩, ?_, by simp [Mix.init, changes]⟩
      intro i
      simp [Mix.init, List.getD, List.getElem?_replicate]
    | @step fits s fit greedy c hr hc ih =>
      obtain ⟨a1, a2, a3, a4, a5, a6, a7, a8, a9⟩ := fine_learn hne ih fit
      have hlt : c < w.length := choices_lt a1 (by rw [a2]; exact ih.len.2.1) hc
      have hul : c < s.usage.length := by rw [ih.len.2.1]; exact hlt
      refine ⟨⟨a1, by simp [Mix.use, a2, ih.len.2.1], a3⟩, a4, a5, ⟨?_, ?_⟩, ⟨?_, .inl ⟨c, rfl, hlt⟩⟩, ?_, a9⟩
      · simp [Mix.use, a6, ih.iter.1]
      · simp only [Mix.use, a2, modify_sum hul, ih.iter.2, List.length_append, List.length_singleton]
      · simp [Mix.use, a7]
      · intro i
        have h8 := a8 i
        show (s.learn fit).improved.getD i 0 + (if some c = some i then 1 else 0) ≤ ((s.learn fit).usage.modify c (· + 1)).getD i 0
        rw [a2, modify_getD _ _ _ hul]
        by_cases hci : c = i
        · subst hci; rw [if_pos rfl, if_pos rfl]; omega
        · rw [if_neg (by simpa using hci), if_neg hci]; omega
  exact ⟨key.len.1, key.pos, key.one, key.iter.1, key.iter.2, fun i => by have := key.each i; omega, key.total⟩

/-- C188: in either case there is something to choose; with positive probabilities all parameters can be drawn, else those whose share of
improvements is greatest. -/
theorem C188_choices {w : List Rat} (hne : w ≠ []) (hw : ∀ x ∈ w, 0 < x) {fits : List Int} {s : Mix} (h : Run w fits s) :
    (∀ i, i ∈ s.choices false ↔ i < w.length) ∧
    (∀ i, i ∈ s.choices true ↔ i < w.length ∧ ∀ j, j < w.length →
      (s.improved.getD j 0 : Rat) / (max (s.usage.getD j 0) 1 : Nat) ≤ (s.improved.getD i 0 : Rat) / (max (s.usage.getD i 0) 1 : Nat)) ∧
    s.choices true ≠ [] := by
  obtain ⟨h1, h2, -⟩ := C188_mix hne hw h
  have hul : s.usage.length = w.length := by
    clear h1 h2
    induction h with
    | init => simp [Mix.init]
    | @step fits s fit greedy c hr hc ih =>
      have : (s.learn fit).usage = s.usage := by
        unfold Mix.learn; split
        · rfl
        · split <;> rfl
      simp [Mix.use, this, ih]
  have hb : ∀ i, i ∈ s.choices true ↔ i < w.length ∧ ∀ j, j < w.length →
      (s.improved.getD j 0 : Rat) / (max (s.usage.getD j 0) 1 : Nat) ≤ (s.improved.getD i 0 : Rat) / (max (s.usage.getD i 0) 1 : Nat) := by
    intro i
    simp only [Mix.choices, if_true, Mix.bestOnes, List.mem_filter, List.mem_range, List.all_eq_true, hul, Mix.rate]
    simp
  refine ⟨?_, hb, ?_⟩
  · intro i
    simp only [Mix.choices, Bool.false_eq_true, if_false, List.mem_filter, List.mem_range, decide_eq_true_eq, h1]
    constructor
    · exact fun h => h.1
    · intro hi
      refine ⟨hi, ?_⟩
      have hi' : i < s.proba.length := by rw [h1]; exact hi
      rw [List.getD, List.getElem?_eq_getElem hi']
      exact h2 _ (List.getElem_mem hi')
  · obtain ⟨i, a, b⟩ := exists_greatest s.rate w.length (List.length_pos_iff.2 hne)
    have : i ∈ s.choices true := (hb i).2 ⟨a, b⟩
    intro e
    rw [e] at this
    cases this

/-- C188 (refuted): the constraints returned are not all that were added. -/
theorem C188_returned_refuted : ∃ P sched draw ret add, interval P sched 2 draw = .ok (ret, add) ∧ ∃ c ∈ add, c ∉ ret :=
  ⟨⟨1 / 2, 2, 2, 5⟩, [(1, 0, 0), (2, 0, 10)], [1], [.le 1 2, .ge 1 0], [.le 1 2, .ge 1 0, .le 1 60, .le 2 60], by decide +kernel,
    .le 1 60, by decide +kernel, by decide +kernel⟩

/-- C188 (refuted): a worse fitness counts as an improvement. -/
theorem C188_worse_refuted : ∃ s, Run [1, 1] [-5, -9] s ∧ s.improved = [1, 0] :=
  ⟨_, .step (-9) false 1 (.step (-5) false 0 .init (by decide +kernel)) (by decide +kernel), by decide +kernel⟩

/-- Four activities with makespan 20. -/
def plan : Sched := [(1, 0, 0), (2, 0, 8), (3, 8, 17), (4, 17, 20)]

theorem plan_good : Good plan := by
  refine ⟨by decide, ?_⟩
  intro j se h
  have : ∀ p ∈ plan, 0 ≤ p.2.1 ∧ p.2.1 ≤ p.2.2 := by decide
  exact this _ (Dict.mem_of_get? h)

/-- Of the three activities drawn the third ends late and stays free. -/
theorem plan_interval : interval ⟨3 / 4, 2, 1, 5⟩ plan 4 [1, 2, 3] =
    .ok ([.le 1 1, .ge 1 0, .le 2 1, .ge 2 0], [.le 1 1, .ge 1 0, .le 2 1, .ge 2 0, .le 1 70, .le 2 70, .le 3 70, .le 4 70]) := by decide +kernel

example : ∀ c ∈ [Con.le 1 1, .ge 1 0, .le 2 1, .ge 2 0, .le 1 70, .le 2 70, .le 3 70, .le 4 70], c.Holds (fun j => [0, 0, 0, 8, 17].getD j 0) := by
  refine C188_incumbent plan_good (by decide) (by decide) plan_interval ?_
  intro j se h
  have : ∀ p ∈ plan, [0, 0, 0, 8, 17].getD p.1 0 = p.2.1 := by decide
  exact this _ (Dict.mem_of_get? h)

example {s : Nat → Int} (h : ∀ c ∈ [Con.le 1 1, .ge 1 0, .le 2 1, .ge 2 0, .le 1 70, .le 2 70, .le 3 70, .le 4 70], c.Holds s) :
    ∃ m, IsMakespan plan m ∧ ∀ j ∈ [1, 2, 3], ∀ se, plan.get? j = some se → se.2 < m - 5 → 0 ≤ s j ∧ se.1 - 2 ≤ s j ∧ s j ≤ se.1 + 1 ∧ s j ≤ m := by
  obtain ⟨m, h1, h2⟩ := C188_interval plan_good plan_interval
  exact ⟨m, h1, ((h2 s).1 h).1⟩

/-- The second activity starts in the first half and is free. -/
example : byPart ⟨3 / 4, 2, 1, 2⟩ 2 0 plan 4 [1, 2, 3] = .ok ([], [.le 1 70, .le 2 70, .le 3 70, .le 4 70], 1) ∧
    byPart ⟨3 / 4, 2, 1, 2⟩ 2 1 plan 4 [1, 2, 3] = .ok ([.le 1 1, .ge 1 0, .le 2 1, .ge 2 0, .le 3 9, .ge 3 6],
      [.le 1 1, .ge 1 0, .le 2 1, .ge 2 0, .le 3 9, .ge 3 6, .le 1 70, .le 2 70, .le 3 70, .le 4 70], 0) :=
  ⟨by decide +kernel, by decide +kernel⟩

example {s : Nat → Int} (h : ∀ c ∈ [Con.le 1 70, .le 2 70, .le 3 70, .le 4 70], c.Holds s) :
    ∃ m, IsMakespan plan m ∧ ∀ j se, plan.get? j = some se → s j ≤ m + 50 := by
  obtain ⟨m, h1, -, h2⟩ := C188_part (P := ⟨3 / 4, 2, 1, 2⟩) (cut := 2) (sub := 0) (nb := 4) (draw := [1, 2, 3]) plan_good (by decide +kernel :
    byPart ⟨3 / 4, 2, 1, 2⟩ 2 0 plan 4 [1, 2, 3] = .ok ([], [.le 1 70, .le 2 70, .le 3 70, .le 4 70], 1))
  exact ⟨m, h1, ((h2 s).1 h).2⟩

example : ∃ k, k < 3 ∧ (((20 : Int) : Rat) / (3 : Nat) * ((1 + k) % 3 : Nat) ≤ ((8 : Int) : Rat) ∧
    ((8 : Int) : Rat) ≤ ((20 : Int) : Rat) / (3 : Nat) * (((1 + k) % 3 : Nat) + 1)) :=
  C188_turns (sched := plan) (se := (8, 17)) (j := 3) (by decide) plan_good (makespan plan_good.keys (by decide +kernel)) 1 (by decide) (by decide)

example : (∃ r, interval ⟨1, 2, 1, 5⟩ plan 4 [1, 2, 3, 4] = .ok r) ∧ ¬ ∃ r, interval ⟨1, 2, 1, 5⟩ plan 5 [1, 2, 3, 4] = .ok r := by
  have hd : ∀ j ∈ [1, 2, 3, 4], (plan.get? j).isSome := by decide
  rw [C188_answers hd (by norm_num), C188_answers hd (by norm_num)]
  exact ⟨⟨by decide, by norm_num [plan]⟩, fun h => absurd h.2 (by norm_num [plan])⟩

/-- Three calls: the first parameters improved, then did not. -/
theorem mix_run : Run [1, 3] [-9, -5, -5] (((((((Mix.init [1, 3]).learn (-9)).use 0).learn (-5)).use 0).learn (-5)).use 1) :=
  .step (-5) false 1 (.step (-5) true 0 (.step (-9) false 0 .init (by decide +kernel)) (by decide +kernel)) (by decide +kernel)

example : (((((((Mix.init [1, 3]).learn (-9)).use 0).learn (-5)).use 0).learn (-5)).use 1).improved = [1, 0] ∧
    (((((((Mix.init [1, 3]).learn (-9)).use 0).learn (-5)).use 0).learn (-5)).use 1).usage = [2, 1] :=
  ⟨by decide +kernel, by decide +kernel⟩

example : (((((((Mix.init [1, 3]).learn (-9)).use 0).learn (-5)).use 0).learn (-5)).use 1).proba.sum = 1 :=
  (C188_mix (by decide) (by intro x hx; simp at hx; rcases hx with rfl | rfl <;> norm_num) mix_run).2.2.1

end Verif.CpNeigh
