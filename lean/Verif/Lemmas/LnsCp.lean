import Verif.Lemmas.Lns
/-! Helper lemmas for the large neighbourhood search with a constraint solver. -/
set_option linter.unusedSectionVars false
namespace Verif.Lns
open Verif.Results
variable {σ κ : Type} [DecidableEq σ]

/-- What one iteration does: it fails, or it has a result. -/
theorem stepCp_spec {L : Cp σ κ} {skip : Bool} {i : Nat} {s s' : CpState σ κ} (h : stepCp L skip i s = .ok s') :
    ∃ rows, childRows L skip i s.store = .ok rows ∧
      (s' = { s with seen := s.seen ++ [rows], noImp := s.noImp + 1, results := s.results ++ [none] } ∨
       ∃ r0 r b old store r' best n, L.solve i rows = .ok r0 ∧ L.post r0 = .ok r ∧ r.getBestFit = .ok b ∧
         (if skip && i == 0 then some r else s.store) = some old ∧ old.addAll r.sols = .ok store ∧
         r' = (if skip && i == 0 then store else r) ∧
         best = (if (countCp L.maximize b.2 s.best s.noImp).2.1 then some b.1 else s.bestSol) ∧
         (n = (countCp L.maximize b.2 s.best s.noImp).2.2 ∨
           (n = (countCp L.maximize b.2 s.best s.noImp).2.2 + 1 ∧
             (best = none ∨ ∃ x e, best = some x ∧ L.satisfy x = .error e))) ∧
         s' = ⟨some store, (countCp L.maximize b.2 s.best s.noImp).1, best, n, s.seen ++ [rows], s.results ++ [some r']⟩) := by
  simp only [stepCp, bind_eq_ok] at h
  obtain ⟨rows, h1, h2⟩ := h
  refine ⟨rows, h1, ?_⟩
  cases hs : L.solve i rows with
  | error e => simp only [hs] at h2; exact .inl (Except.ok.inj h2).symm
  | ok r0 =>
    simp only [hs] at h2
    split at h2
    · exact .inl (Except.ok.inj h2).symm
    · cases ht : tryBody L skip i { s with seen := s.seen ++ [rows] } r0 with
      | error e => simp only [ht] at h2; exact .inl (Except.ok.inj h2).symm
      | ok q =>
        obtain ⟨s1, fine⟩ := q
        simp only [ht] at h2
        simp only [tryBody, bind_eq_ok] at ht
        obtain ⟨b0, _, r, t2, b, t3, old, t4, store, t5, t6⟩ := ht
        right
        have t6 := Except.ok.inj t6
        have t7 := congrArg Prod.fst t6
        have t8 := congrArg Prod.snd t6
        simp only at t7 t8
        have h2 := Except.ok.inj h2
        cases hfine : fine with
        | true =>
          rw [hfine] at h2
          simp only [if_true] at h2
          refine ⟨r0, r, b, old, store, _, _, _, rfl, t2, t3, present_eq_ok.1 t4, t5, rfl, rfl, .inl rfl, ?_⟩
          rw [← h2, ← t7]
        | false =>
          rw [hfine] at h2 t8
          simp only [Bool.false_eq_true, if_false] at h2
          refine ⟨r0, r, b, old, store, _, _, _, rfl, t2, t3, present_eq_ok.1 t4, t5, rfl, rfl, .inr ⟨rfl, ?_⟩, ?_⟩
          · cases hbs : (if (countCp L.maximize b.2 s.best s.noImp).2.1 = true then some b.1 else s.bestSol) with
            | none => exact .inl rfl
            | some x =>
              simp only [hbs] at t8
              cases hx : L.satisfy x with
              | error e => exact .inr ⟨x, e, rfl, hx⟩
              | ok v => simp [hx, Except.toBool] at t8
          · rw [← h2, ← t7]

/-- Rule for properties of the loop. -/
theorem loopCp_inv {L : Cp σ κ} {skip : Bool} {patience : Nat} (P : Nat → CpState σ κ → Prop)
    (hstep : ∀ i s s', P i s → (0 < i → s.noImp ≤ patience) → stepCp L skip i s = .ok s' → P (i + 1) s') :
    ∀ (k i : Nat) (s out : CpState σ κ), P i s → (0 < i → s.noImp ≤ patience) → loopCp L skip patience k i s = .ok out →
      ∃ n, i ≤ n ∧ n ≤ i + k ∧ P n out ∧
        (n < i + k → i < n ∧ (L.late (n - 1) = true ∨ patience < out.noImp)) := by
  intro k
  induction k with
  | zero =>
    intro i s out hp _ h
    simp only [loopCp] at h
    cases h
    exact ⟨i, Nat.le_refl _, by omega, hp, fun h => by omega⟩
  | succ k ih =>
    intro i s out hp hc h
    simp only [loopCp, bind_eq_ok] at h
    obtain ⟨s', h1, h2⟩ := h
    have hp' := hstep i s s' hp hc h1
    by_cases hl : L.late i = true
    · simp only [hl, if_true] at h2
      cases h2
      exact ⟨i + 1, by omega, by omega, hp', fun _ => ⟨by omega, .inl (by simpa using hl)⟩⟩
    · simp only [hl, if_false, Bool.false_eq_true] at h2
      by_cases hn : s'.noImp > patience
      · simp only [hn, if_true] at h2
        cases h2
        exact ⟨i + 1, by omega, by omega, hp', fun _ => ⟨by omega, .inr hn⟩⟩
      · simp only [hn, if_false] at h2
        obtain ⟨n, h3, h4, h5, h6⟩ := ih (i + 1) s' out hp' (fun _ => by omega) h2
        exact ⟨n, by omega, by omega, h5, fun h => ⟨by omega, (h6 (by omega)).2⟩⟩

theorem startCp_spec {L : Cp σ κ} {skip : Bool} {s : CpState σ κ} (h : startCp L skip = .ok s) :
    (skip = true ∧ s = ⟨none, if L.maximize then .negInf else .posInf, none, 0, [], []⟩) ∨
    (skip = false ∧ ∃ st b, L.initial = .ok st ∧ st.getBestFit = .ok b ∧ s = ⟨some st, .fin b.2, some b.1, 0, [], []⟩) := by
  cases skip with
  | true => simp only [startCp, if_true] at h; cases h; exact .inl ⟨rfl, rfl⟩
  | false =>
    simp only [startCp, bind_eq_ok, Bool.false_eq_true, if_false] at h
    obtain ⟨st, h1, b, h2, _, _, h4⟩ := h
    cases h4
    exact .inr ⟨rfl, st, b, h1, h2, rfl⟩

/-- Rule for the whole search. -/
theorem solveCp_inv {L : Cp σ κ} {skip : Bool} {nb : Nat} {patience : Option Nat} {out : CpState σ κ}
    (h : solveCp L nb patience skip = .ok out) (P : Nat → CpState σ κ → Prop)
    (hstart : ∀ s, startCp L skip = .ok s → P 0 s)
    (hstep : ∀ i s s', P i s → (0 < i → s.noImp ≤ patience.getD (2 * nb)) → stepCp L skip i s = .ok s' → P (i + 1) s') :
    ∃ n, n ≤ nb ∧ P n out ∧ (n < nb → 0 < n ∧ (L.late (n - 1) = true ∨ patience.getD (2 * nb) < out.noImp)) := by
  simp only [solveCp, bind_eq_ok] at h
  obtain ⟨s, h1, h2⟩ := h
  obtain ⟨n, _, h4, h5, h6⟩ := loopCp_inv P hstep nb 0 s out (hstart s h1) (fun h => absurd h (Nat.lt_irrefl 0)) h2
  exact ⟨n, by omega, h5, fun h => h6 (by omega)⟩

theorem startCp_length {L : Cp σ κ} {skip : Bool} {s : CpState σ κ} (h : startCp L skip = .ok s) : s.results = [] := by
  rcases startCp_spec h with ⟨_, rfl⟩ | ⟨_, st, b, _, _, rfl⟩ <;> rfl

theorem lengthCp_inv {L : Cp σ κ} {skip : Bool} {i : Nat} {s s' : CpState σ κ}
    (hp : s.results.length = i) (h : stepCp L skip i s = .ok s') : s'.results.length = i + 1 := by
  obtain ⟨rows, _, rfl | ⟨r0, r, b, old, store, r', best, n, _, _, _, _, _, _, _, _, rfl⟩⟩ := stepCp_spec h <;> simp [hp]

theorem childRows_ok {L : Cp σ κ} {skip : Bool} {i : Nat} {store : Option (Store σ)} {rows : List κ}
    (h : childRows L skip i store = .ok rows) :
    (skip = true ∧ i = 0 ∧ rows = []) ∨ (¬ (skip = true ∧ i = 0) ∧ ∃ st, store = some st ∧ L.add i st = .ok rows) := by
  unfold childRows at h
  split at h
  · rename_i hc
    rw [bind_eq_ok] at h
    obtain ⟨st, h1, h2⟩ := h
    refine .inr ⟨?_, st, present_eq_ok.1 h1, h2⟩
    rintro ⟨rfl, rfl⟩
    simp at hc
  · rename_i hc
    cases h
    refine .inl ?_
    cases skip <;> simp at hc ⊢ <;> omega

end Verif.Lns
