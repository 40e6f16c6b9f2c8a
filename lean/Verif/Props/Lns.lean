import Verif.Lemmas.Lns
/-!
# Large neighbourhood search with a mixed integer solver (C116)

`LNS_MILP.solve_lns`: what is returned, which constraints are present at every solve, when the search ends.
-/
set_option linter.unusedSectionVars false
namespace Verif.Lns
open Verif.Results
variable {σ κ : Type} [DecidableEq σ]

/-! ### Statements -/

/-- Stores come from the constructor and `add_solution`, are in the direction of the search, and rate every solution by `val`. -/
structure Fits (L : Milp σ κ) (val : σ → Int) : Prop where
  initial : ∀ st, L.initial = .ok st → Made st ∧ st.maximize = L.maximize ∧ ∀ p, p ∈ st.sols → p.2 = val p.1
  result : ∀ i rows r0 r, L.solve i rows = .ok r0 → L.post r0 = .ok r →
    Made r ∧ r.maximize = L.maximize ∧ ∀ p, p ∈ r.sols → p.2 = val p.1

/-- A solution with its fitness that the search has seen: in the initial store or in a result. -/
def Found (L : Milp σ κ) (skip : Bool) (out : State σ κ) (p : σ × Int) : Prop :=
  (skip = false ∧ ∃ st, L.initial = .ok st ∧ p ∈ st.sols) ∨ ∃ r, r ∈ out.results ∧ p ∈ r.sols

/-- The constraints that iteration `i` should have: those the handler makes of the result before (at first of the initial
store; none when the first iteration is skipped). -/
def Source (L : Milp σ κ) (skip : Bool) (results : List (Store σ)) : Nat → List κ → Prop
  | 0, rows => if skip then rows = [] else ∃ st, L.initial = .ok st ∧ L.add 0 st = .ok rows
  | i + 1, rows => ∃ r, results[i]? = some r ∧ L.add (i + 1) r = .ok rows

/-- The handler finds its constraints again. -/
structure Removes (L : Milp σ κ) (skip : Bool) : Prop where
  own : ∀ rows, L.toRemove [(L.key, rows)] = .ok rows
  empty : skip = true → L.toRemove [("empty", [])] = .ok []

/-! ### What is returned -/

private theorem answer_inv {L : Milp σ κ} {skip : Bool} {val : σ → Int} (hf : Fits L val) {nb : Nat} {patience : Option Nat}
    {out : State σ κ} (h : solveMilp L nb patience skip = .ok out) :
    ∃ n, n ≤ nb ∧ (n < nb → 0 < n) ∧ ((skip = true ∧ n = 0) ∨ ∃ st, out.store = some st ∧ Covers st ∧ st.maximize = L.maximize ∧
      st.sols ≠ [] ∧ (∀ p, p ∈ st.sols → p.2 = val p.1) ∧ ∀ p, p ∈ st.sols ↔ Found L skip out p) := by
  have key := solveMilp_inv h (fun n s => s.results.length = n ∧ ((skip = true ∧ n = 0) ∨ ∃ st, s.store = some st ∧ Covers st ∧
      st.maximize = L.maximize ∧ st.sols ≠ [] ∧ (∀ p, p ∈ st.sols → p.2 = val p.1) ∧ ∀ p, p ∈ st.sols ↔ Found L skip s p)) ?_ ?_
  · obtain ⟨n, h1, h2, h3⟩ := key
    exact ⟨n, h1, fun h => (h3 h).1, h2.2⟩
  · intro s hs
    refine ⟨start_length hs, ?_⟩
    rcases start_spec hs with ⟨hk, rfl⟩ | ⟨hk, st, b, rows, h1, h2, h3, rfl⟩
    · exact .inl ⟨hk, rfl⟩
    · obtain ⟨hm, hx, hv⟩ := hf.initial st h1
      refine .inr ⟨st, rfl, hm.covers, hx, best_ne h2, hv, fun p => ⟨fun hp => .inl ⟨hk, st, h1, hp⟩, ?_⟩⟩
      rintro (⟨_, st', h1', hp⟩ | ⟨r, hr, _⟩)
      · rw [h1] at h1'; cases h1'; exact hp
      · simp at hr
  · intro i s s' hp _ hs
    refine ⟨length_inv hp.1 hs, ?_⟩
    obtain ⟨hlen, hp⟩ := hp
    obtain ⟨r0, b0, r, b, old, store, r', gone, rows, h1, h2, h3, h4, h5, h6, h7, h8, h9, rfl⟩ := step_spec hs
    obtain ⟨hm, hx, hv⟩ := hf.result i _ r0 r h1 h3
    right
    by_cases hc : (skip && i == 0) = true
    · simp only [hc, if_true, Option.some.injEq] at h5 h7
      simp only [Bool.and_eq_true, beq_iff_eq] at hc
      obtain ⟨hsk, hi⟩ := hc
      have hres : s.results = [] := List.length_eq_zero_iff.1 (hlen.trans hi)
      rw [← h5] at h6
      obtain ⟨a1, a2, _, _, _⟩ := addAll_sols hm.covers h6
      obtain ⟨b1, b2⟩ := addAll_mem hm.covers h6 hv hv
      refine ⟨store, rfl, a1, a2.trans hx, covers_ne_none hm.covers h6 (best_ne h4), b2, fun p => ?_⟩
      simp [Found, hres, h7, hsk]
    · simp only [hc, if_false, Bool.false_eq_true] at h5 h7
      rcases hp with ⟨hp1, hp2⟩ | ⟨st, c1, c2, c3, c4, c5, c6⟩
      · exact absurd (by simp [hp1, hp2]) hc
      · rw [h5] at c1
        cases c1
        obtain ⟨a1, a2, _, _, _⟩ := addAll_sols c2 h6
        obtain ⟨b1, b2⟩ := addAll_mem c2 h6 c5 hv
        refine ⟨store, rfl, a1, a2.trans c3, covers_ne_none c2 h6 c4, b2, fun p => ?_⟩
        rw [b1, c6, h7]
        simp only [Found, List.mem_append, List.mem_singleton]
        constructor
        · rintro ((h | ⟨q, hq, hqp⟩) | h)
          · exact .inl h
          · exact .inr ⟨q, .inl hq, hqp⟩
          · exact .inr ⟨r, .inr rfl, h⟩
        · rintro (h | ⟨q, hq | rfl, hqp⟩)
          · exact .inl (.inl h)
          · exact .inl (.inr ⟨q, hq, hqp⟩)
          · exact .inr hqp

/-- C116: the store that is returned has exactly the solutions of the initial store and of all results, and its best one is
at least as good as each of them: the search never ends worse than it began. -/
theorem C116_answer {L : Milp σ κ} {skip : Bool} {val : σ → Int} (hf : Fits L val) {nb : Nat} {patience : Option Nat}
    {out : State σ κ} (h : solveMilp L nb patience skip = .ok out) (hn : skip = false ∨ 0 < nb) :
    ∃ st b, out.store = some st ∧ (∀ p, p ∈ st.sols ↔ Found L skip out p) ∧ st.getBestFit = .ok b ∧ Found L skip out b ∧
      ∀ p, Found L skip out p → Better L.maximize b.2 p.2 := by
  obtain ⟨n, h1, h2, h3⟩ := answer_inv hf h
  rcases h3 with ⟨h4, h5⟩ | ⟨st, c1, c2, c3, c4, c5, c6⟩
  · rcases hn with hn | hn
    · rw [hn] at h4; cases h4
    · have := h2 (by omega); omega
  · obtain ⟨b, hb⟩ := best_defined c4
    obtain ⟨hb1, hb2⟩ := best_spec hb
    refine ⟨st, b, c1, c6, hb, (c6 b).1 hb1, fun p hp => ?_⟩
    rw [← c3]
    exact hb2 p ((c6 p).2 hp)

/-- C116: a skipped first iteration and no other one leave nothing to return. -/
theorem C116_nothing (L : Milp σ κ) (patience : Option Nat) :
    ∃ out, solveMilp L 0 patience true = .ok out ∧ out.store = none := ⟨_, rfl, rfl⟩

/-! ### The constraints at every solve -/

theorem Source.append {L : Milp σ κ} {skip : Bool} {results more : List (Store σ)} {i : Nat} {rows : List κ}
    (h : Source L skip results i rows) : Source L skip (results ++ more) i rows := by
  cases i with
  | zero => exact h
  | succ i =>
    obtain ⟨r, h1, h2⟩ := h
    exact ⟨r, by rw [List.getElem?_append_left (List.getElem?_eq_some_iff.1 h1).1]; exact h1, h2⟩

/-- C116: every solve has exactly the constraints that the handler makes of the result before, with none left over from
earlier iterations; each result is that of the solver after the post-processing (the very first of a search that skips the
first iteration has its own solutions added to it).  The constraints made last are still in the program at the end. -/
theorem C116_constraints {L : Milp σ κ} {skip : Bool} (hr : Removes L skip) {nb : Nat} {patience : Option Nat}
    {out : State σ κ} (h : solveMilp L nb patience skip = .ok out) :
    out.seen.length = out.results.length ∧
    (∀ i, i < out.results.length → ∃ rows r0 r r', out.seen[i]? = some rows ∧ Source L skip out.results i rows ∧
      L.solve i rows = .ok r0 ∧ L.post r0 = .ok r ∧ (∃ b, r.getBestFit = .ok b) ∧ out.results[i]? = some r' ∧
      (r' = r ∨ (skip = true ∧ i = 0 ∧ r.addAll r.sols = .ok r'))) ∧
    Source L skip out.results out.results.length (out.active.map Prod.snd) := by
  have key := solveMilp_inv h (fun n s => s.results.length = n ∧ s.seen.length = n ∧ L.toRemove s.prev = .ok s.active ∧
    Source L skip s.results n (s.active.map Prod.snd) ∧
    ∀ i, i < n → ∃ rows r0 r r', s.seen[i]? = some rows ∧ Source L skip s.results i rows ∧
      L.solve i rows = .ok r0 ∧ L.post r0 = .ok r ∧ (∃ b, r.getBestFit = .ok b) ∧ s.results[i]? = some r' ∧
      (r' = r ∨ (skip = true ∧ i = 0 ∧ r.addAll r.sols = .ok r'))) ?_ ?_
  · obtain ⟨n, _, ⟨h1, h2, _, h4, h5⟩, _⟩ := key
    subst h1
    exact ⟨h2, h5, h4⟩
  · intro s hs
    rcases start_spec hs with ⟨hk, rfl⟩ | ⟨hk, st, b, rows, h1, h2, h3, rfl⟩
    · refine ⟨rfl, rfl, hr.empty hk, by simp [Source, hk], fun i hi => by omega⟩
    · refine ⟨rfl, rfl, hr.own _, ?_, fun i hi => by omega⟩
      simp only [Source, hk, Bool.false_eq_true, if_false, fresh_snd]
      exact ⟨st, h1, h3⟩
  · intro i s s' ⟨p1, p2, p3, p4, p5⟩ _ hs
    obtain ⟨r0, b0, r, b, old, store, r', gone, rows, h1, h2, h3, h4, h5, h6, h7, h8, h9, rfl⟩ := step_spec hs
    rw [p3] at h8
    cases h8
    have hnew : (s.results ++ [r'])[i]? = some r' := by rw [← p1]; simp
    refine ⟨by simp [p1], by simp [p2], ?_, ?_, ?_⟩
    · simp only [drop_self, List.nil_append]; exact hr.own _
    · simp only [drop_self, List.nil_append, fresh_snd]
      exact ⟨r', hnew, h9⟩
    · intro j hj
      by_cases hji : j < i
      · obtain ⟨w1, w2, w3, w4, w5, w6, w7, w8, w8b, w9, w10⟩ := p5 j hji
        refine ⟨w1, w2, w3, w4, ?_, w6.append, w7, w8, w8b, ?_, w10⟩
        · rw [List.getElem?_append_left (by omega)]; exact w5
        · rw [List.getElem?_append_left (by omega)]; exact w9
      · have hj' : j = i := by omega
        subst hj'
        refine ⟨s.active.map Prod.snd, r0, r, r', by rw [← p2]; simp, p4.append, h1, h3, ⟨b, h4⟩, hnew, ?_⟩
        by_cases hc : (skip && j == 0) = true
        · simp only [hc, if_true, Option.some.injEq] at h5 h7
          simp only [Bool.and_eq_true, beq_iff_eq] at hc
          rw [← h5] at h6
          exact .inr ⟨hc.1, hc.2, by rw [h7]; exact h6⟩
        · simp only [hc, if_false, Bool.false_eq_true] at h7
          exact .inl h7

theorem fresh_ids (n : Nat) (l : List κ) : ((fresh n l).map Prod.fst).Nodup ∧ ∀ x ∈ (fresh n l).map Prod.fst, n ≤ x ∧ x < n + l.length := by
  induction l generalizing n with
  | nil => simp [fresh]
  | cons y ys ih =>
    obtain ⟨h1, h2⟩ := ih (n + 1)
    simp only [fresh, List.map_cons, List.nodup_cons, List.mem_cons, List.length_cons]
    refine ⟨⟨fun hm => ?_, h1⟩, ?_⟩
    · have := h2 n hm; omega
    · rintro x (rfl | hx)
      · omega
      · have := h2 x hx; omega

/-- C116: whatever the handler removes, no two constraints in the program are the same object: one of two equal constraints can
be removed without the other. -/
theorem C116_identity {L : Milp σ κ} {skip : Bool} {nb : Nat} {patience : Option Nat}
    {out : State σ κ} (h : solveMilp L nb patience skip = .ok out) : (out.active.map Prod.fst).Nodup := by
  have key := solveMilp_inv h (fun _ s => (s.active.map Prod.fst).Nodup ∧ ∀ x ∈ s.active.map Prod.fst, x < s.next) ?_ ?_
  · obtain ⟨n, _, ⟨h1, _⟩, _⟩ := key
    exact h1
  · intro s hs
    rcases start_spec hs with ⟨hk, rfl⟩ | ⟨hk, st, b, rows, h1, h2, h3, rfl⟩
    · simp
    · refine ⟨(fresh_ids 0 rows).1, fun x hx => ?_⟩
      have := (fresh_ids 0 rows).2 x hx
      simp only at this ⊢
      omega
  · intro i s s' ⟨p1, p2⟩ _ hs
    obtain ⟨r0, b0, r, b, old, store, r', gone, rows, h1, h2, h3, h4, h5, h6, h7, h8, h9, rfl⟩ := step_spec hs
    have hsub : ((drop s.active gone).map Prod.fst).Sublist (s.active.map Prod.fst) := List.Sublist.map _ List.filter_sublist
    have hf := fresh_ids s.next rows
    simp only [List.map_append]
    refine ⟨List.nodup_append.2 ⟨hsub.nodup p1, hf.1, ?_⟩, ?_⟩
    · intro x hx y hy hxy
      have h1 := p2 x (hsub.subset hx)
      have h2 := (hf.2 y hy).1
      omega
    · intro x hx
      rcases List.mem_append.1 hx with hx | hx
      · have h1 := p2 x (hsub.subset hx)
        omega
      · exact (hf.2 x hx).2

/-! ### Descent -/

/-- An exact solver and a handler that does not exclude the solution it is given: `Sol` are the solutions of the program,
`Feas rows` those that also meet the constraints `rows`. -/
structure Exact (L : Milp σ κ) (val : σ → Int) (Sol : σ → Prop) (Feas : List κ → σ → Prop) : Prop where
  solve : ∀ i rows r, L.solve i rows = .ok r → ∀ s, Feas rows s → ∃ p, p ∈ r.sols ∧ Better L.maximize p.2 (val s)
  post : ∀ i rows r0 r b, L.solve i rows = .ok r0 → L.post r0 = .ok r → r.getBestFit = .ok b → ∀ p, p ∈ r0.sols → Better L.maximize b.2 p.2
  keep : ∀ i st rows b, L.add i st = .ok rows → st.getBestFit = .ok b → Sol b.1 → Feas rows b.1
  initial : ∀ st b, L.initial = .ok st → st.getBestFit = .ok b → Sol b.1
  result : ∀ i rows r0 r b, L.solve i rows = .ok r0 → L.post r0 = .ok r → r.getBestFit = .ok b → Sol b.1

/-- C116: with an exact solver and a handler that keeps the solution it is given, no iteration is worse than the one before, and
the first one is not worse than the initial solution; so the last result is the best of all. -/
theorem C116_descent {L : Milp σ κ} {skip : Bool} (hr : Removes L skip) {val : σ → Int} (hf : Fits L val) {Sol : σ → Prop}
    {Feas : List κ → σ → Prop} (he : Exact L val Sol Feas) {nb : Nat} {patience : Option Nat}
    {out : State σ κ} (h : solveMilp L nb patience skip = .ok out) {j : Nat} {r' : Store σ} {b' : σ × Int}
    (hj : out.results[j]? = some r') (hb' : r'.getBestFit = .ok b') :
    (∀ i r b, i ≤ j → out.results[i]? = some r → r.getBestFit = .ok b → Better L.maximize b'.2 b.2) ∧
    (skip = false → ∀ st b, L.initial = .ok st → st.getBestFit = .ok b → Better L.maximize b'.2 b.2) := by
  obtain ⟨_, hall, _⟩ := C116_constraints hr h
  -- the best of a result
  have hres : ∀ (i : Nat) (r : Store σ), out.results[i]? = some r → ∃ b, r.getBestFit = .ok b ∧ Sol b.1 ∧ b.2 = val b.1 := by
    intro i r hi
    obtain ⟨rows, r0, r1, r2, _, _, h3, h4, ⟨b, hb⟩, h5, h6⟩ := hall i (List.getElem?_eq_some_iff.1 hi).1
    rw [hi] at h5
    cases h5
    obtain ⟨hm, _, hv⟩ := hf.result _ _ _ _ h3 h4
    have hbest : r.getBestFit = .ok b := by
      rcases h6 with rfl | ⟨_, _, h6⟩
      · exact hb
      · rw [addAll_self hm.covers h6, hb]
    exact ⟨b, hbest, he.result _ _ _ _ _ h3 h4 hb, hv b (best_spec hb).1⟩
  -- a result against what its constraints keep
  have hstep : ∀ (i : Nat) (r : Store σ) (b : σ × Int) (rows : List κ), out.results[i]? = some r → r.getBestFit = .ok b → Source L skip out.results i rows →
      ∀ s, Feas rows s → Better L.maximize b.2 (val s) := by
    intro i r b rows hi hb hs s hfs
    obtain ⟨rows', r0, r1, r2, _, h2, h3, h4, ⟨b1, hb1⟩, h5, h6⟩ := hall i (List.getElem?_eq_some_iff.1 hi).1
    rw [hi] at h5
    cases h5
    obtain ⟨hm, _, hv⟩ := hf.result _ _ _ _ h3 h4
    have hrows : rows' = rows := by
      cases i with
      | zero =>
        simp only [Source] at h2 hs
        split at h2
        · rename_i hk
          rw [if_pos hk] at hs
          rw [h2, hs]
        · rename_i hk
          rw [if_neg hk] at hs
          obtain ⟨s1, q1, q2⟩ := h2
          obtain ⟨s2, q3, q4⟩ := hs
          rw [q1] at q3; cases q3
          rw [q2] at q4; cases q4; rfl
      | succ i =>
        obtain ⟨s1, q1, q2⟩ := h2
        obtain ⟨s2, q3, q4⟩ := hs
        rw [q1] at q3; cases q3
        rw [q2] at q4; cases q4; rfl
    subst hrows
    have hbest : r1.getBestFit = .ok b := by
      rcases h6 with rfl | ⟨_, _, h6⟩
      · exact hb
      · rw [← addAll_self hm.covers h6, hb]
    obtain ⟨p, hp1, hp2⟩ := he.solve _ _ _ h3 s hfs
    exact better_trans (he.post _ _ _ _ _ h3 h4 hbest p hp1) hp2
  have hchain : ∀ (d i : Nat) (r : Store σ) (b : σ × Int) (r2 : Store σ) (b2 : σ × Int), out.results[i]? = some r → r.getBestFit = .ok b → out.results[i + d]? = some r2 →
      r2.getBestFit = .ok b2 → Better L.maximize b2.2 b.2 := by
    intro d
    induction d with
    | zero =>
      intro i r b r2 b2 h1 h2 h3 h4
      rw [Nat.add_zero, h1] at h3; cases h3
      rw [h2] at h4; cases h4
      exact better_refl _ _
    | succ d ih =>
      intro i r b r2 b2 h1 h2 h3 h4
      have hlt := (List.getElem?_eq_some_iff.1 h3).1
      have hmid : ∃ q, out.results[i + d]? = some q := ⟨_, List.getElem?_eq_getElem (by omega)⟩
      obtain ⟨q, hq⟩ := hmid
      obtain ⟨bq, hbq, hsq, hvq⟩ := hres _ _ hq
      have h5 := ih i r b q bq h1 h2 hq hbq
      obtain ⟨rows, r0, r1, r2', g1, g2, g3, g4, _, g5, _⟩ := hall (i + (d + 1)) hlt
      obtain ⟨q', hq', hadd⟩ := g2
      have hq' : out.results[i + d]? = some q' := hq'
      rw [hq] at hq'; cases hq'
      have h6 := hstep (i + (d + 1)) r2 b2 rows h3 h4 ⟨q, hq, hadd⟩ bq.1 (he.keep _ _ _ _ hadd hbq hsq)
      rw [← hvq] at h6
      exact better_trans h6 h5
  have hjl := (List.getElem?_eq_some_iff.1 hj).1
  refine ⟨fun i r b hij hi hb => hchain (j - i) i r b r' b' hi hb (by rw [Nat.add_sub_cancel' hij]; exact hj) hb', ?_⟩
  intro hk st b hst hb
  have h0 : ∃ q, out.results[0]? = some q := ⟨_, List.getElem?_eq_getElem (by omega)⟩
  obtain ⟨q, hq⟩ := h0
  obtain ⟨bq, hbq, _, _⟩ := hres _ _ hq
  obtain ⟨rows, r0, r1, r2, g1, g2, _, _, _, _, _⟩ := hall 0 (by omega)
  have g2' := g2
  simp only [Source, hk, Bool.false_eq_true, if_false] at g2'
  obtain ⟨st', hst', hadd⟩ := g2'
  rw [hst] at hst'; cases hst'
  have h6 := hstep 0 q bq rows hq hbq g2 b.1 (he.keep _ _ _ _ hadd hb (he.initial _ _ hst hb))
  rw [← (hf.initial st hst).2.2 b (best_spec hb).1] at h6
  exact better_trans (hchain j 0 q bq r' b' hq hbq (by rw [Nat.zero_add]; exact hj) hb') h6

/-! ### When the search ends -/

/-- C116: the number of iterations is at most `nb_iteration_lns`; without `nb_iteration_no_improvement` only the clock ends the
search before. -/
theorem C116_default {L : Milp σ κ} {skip : Bool} {nb : Nat} {patience : Option Nat} {out : State σ κ}
    (h : solveMilp L nb patience skip = .ok out) :
    out.results.length ≤ nb ∧
    (patience = none → out.results.length < nb → 0 < out.results.length ∧ L.late (out.results.length - 1) = true) := by
  have key := solveMilp_inv h (fun n s => s.results.length = n ∧ s.noImp ≤ n) ?_ ?_
  · obtain ⟨n, h1, ⟨rfl, h3⟩, h4⟩ := key
    refine ⟨h1, fun hp hlt => ?_⟩
    obtain ⟨h5, h6⟩ := h4 hlt
    rcases h6 with h6 | h6
    · exact ⟨h5, h6⟩
    · rw [hp] at h6; simp only [Option.getD_none] at h6; omega
  · intro s hs
    refine ⟨start_length hs, ?_⟩
    rcases start_spec hs with ⟨_, rfl⟩ | ⟨_, st, b, rows, _, _, _, rfl⟩ <;> simp
  · intro i s s' ⟨p1, p2⟩ _ hs
    refine ⟨length_inv p1 hs, ?_⟩
    obtain ⟨r0, b0, r, b, old, store, r', gone, rows, _, _, _, _, _, _, _, _, _, rfl⟩ := step_spec hs
    simp only [countMilp]
    split
    · simp
    · split <;> simp <;> omega

/-- C116: when every iteration only finds the fitness of the initial solution again, the search stops after
`nb_iteration_no_improvement + 1` iterations. -/
theorem C116_equal_stops {L : Milp σ κ} {nb patience : Nat} {out : State σ κ} (hl : ∀ i, L.late i = false)
    (h : solveMilp L nb (some patience) false = .ok out) {st : Store σ} {b0 : σ × Int} (hst : L.initial = .ok st)
    (hb0 : st.getBestFit = .ok b0)
    (heq : ∀ r, r ∈ out.results → ∀ b, r.getBestFit = .ok b → b.2 = b0.2) :
    out.results.length = min nb (patience + 1) := by
  have key := solveMilp_inv h (fun n s => s.results.length = n ∧ n ≤ patience + 1 + (n - s.noImp) ∧
    ((∀ r, r ∈ s.results → ∀ b, r.getBestFit = .ok b → b.2 = b0.2) → s.noImp = n ∧ s.best = .fin b0.2 ∧ n ≤ patience + 1)) ?_ ?_
  · obtain ⟨n, h1, ⟨rfl, _, h3⟩, h4⟩ := key
    obtain ⟨h5, _, h7⟩ := h3 heq
    by_cases hlt : out.results.length < nb
    · obtain ⟨h8, h9⟩ := h4 hlt
      rcases h9 with h9 | h9
      · rw [hl] at h9; cases h9
      · simp only [Option.getD_some] at h9; omega
    · omega
  · intro s hs
    rcases start_spec hs with ⟨hk, _⟩ | ⟨_, st', b, rows, g1, g2, _, rfl⟩
    · cases hk
    · rw [hst] at g1; cases g1
      rw [hb0] at g2; cases g2
      exact ⟨rfl, by simp, fun _ => ⟨rfl, rfl, by omega⟩⟩
  · intro i s s' ⟨p1, p2, p3⟩ hpat hs
    have hlen := length_inv p1 hs
    obtain ⟨r0, b0', r, b, old, store, r', gone, rows, _, _, _, g4, _, _, g7, _, _, rfl⟩ := step_spec hs
    simp only [Bool.false_and, Bool.false_eq_true, if_false] at g7
    subst g7
    refine ⟨hlen, ?_, fun hall => ?_⟩
    · simp only [countMilp]
      split
      · simp
      · split
        · simp only
          by_cases h0 : 0 < i
          · have := hpat h0; simp only [Option.getD_some] at this; omega
          · omega
        · simp only
          by_cases h0 : 0 < i
          · have := hpat h0; simp only [Option.getD_some] at this; omega
          · omega
    · obtain ⟨q1, q2, q3⟩ := p3 (fun r hr => hall r (List.mem_append_left _ hr))
      have hb := hall r' (by simp) b g4
      have h1 : (Obj.fin b0.2).improved L.maximize b.2 = false := by
        rw [Bool.eq_false_iff]
        intro hh
        rw [improved_fin, hb] at hh
        exact hh (better_refl _ _)
      rw [hb] at h1
      simp only [countMilp, q2, Obj.is, hb, h1, decide_true, if_true, Bool.false_eq_true, if_false]
      refine ⟨by omega, trivial, ?_⟩
      by_cases h0 : 0 < i
      · have := hpat h0; simp only [Option.getD_some] at this; omega
      · omega

/-- C116: iterations that are worse than the best so far are not counted: when every iteration is worse than the initial
solution, no `nb_iteration_no_improvement`, not even 0, ends the search before the last iteration. -/
theorem C116_worse_uncounted {L : Milp σ κ} {nb : Nat} {patience : Option Nat} {out : State σ κ} (hl : ∀ i, L.late i = false)
    (h : solveMilp L nb patience false = .ok out) {st : Store σ} {b0 : σ × Int} (hst : L.initial = .ok st)
    (hb0 : st.getBestFit = .ok b0)
    (hw : ∀ r, r ∈ out.results → ∀ b, r.getBestFit = .ok b → Better L.maximize b0.2 b.2 ∧ b.2 ≠ b0.2) :
    out.results.length = nb := by
  have key := solveMilp_inv h (fun n s => s.results.length = n ∧
    ((∀ r, r ∈ s.results → ∀ b, r.getBestFit = .ok b → Better L.maximize b0.2 b.2 ∧ b.2 ≠ b0.2) →
      s.noImp = 0 ∧ s.best = .fin b0.2)) ?_ ?_
  · obtain ⟨n, h1, ⟨rfl, h3⟩, h4⟩ := key
    obtain ⟨h5, _⟩ := h3 hw
    by_cases hlt : out.results.length < nb
    · obtain ⟨h8, h9⟩ := h4 hlt
      rcases h9 with h9 | h9
      · rw [hl] at h9; cases h9
      · omega
    · omega
  · intro s hs
    rcases start_spec hs with ⟨hk, _⟩ | ⟨_, st', b, rows, g1, g2, _, rfl⟩
    · cases hk
    · rw [hst] at g1; cases g1
      rw [hb0] at g2; cases g2
      exact ⟨rfl, fun _ => ⟨rfl, rfl⟩⟩
  · intro i s s' ⟨p1, p2⟩ _ hs
    have hlen := length_inv p1 hs
    obtain ⟨r0, b0', r, b, old, store, r', gone, rows, _, _, _, g4, _, _, g7, _, _, rfl⟩ := step_spec hs
    simp only [Bool.false_and, Bool.false_eq_true, if_false] at g7
    subst g7
    refine ⟨hlen, fun hall => ?_⟩
    obtain ⟨q1, q2⟩ := p2 (fun r hr => hall r (List.mem_append_left _ hr))
    obtain ⟨hb1, hb2⟩ := hall r' (by simp) b g4
    have h1 : (Obj.fin b0.2).improved L.maximize b.2 = false := by
      rw [Bool.eq_false_iff]
      intro hh
      exact (improved_fin.1 hh) hb1
    simp only [countMilp, q2, h1, Obj.is, hb2, decide_false, Bool.false_eq_true, if_false]
    exact ⟨q1, trivial⟩

/-- C116: when a search that maximises skips the first iteration, the best objective is infinite from the start on: nothing
counts as an iteration without improvement, and only the clock ends the search before the last iteration. -/
theorem C116_skip_max {L : Milp σ κ} {nb : Nat} {patience : Option Nat} {out : State σ κ} (hl : ∀ i, L.late i = false)
    (hm : L.maximize = true) (h : solveMilp L nb patience true = .ok out) : out.results.length = nb := by
  have key := solveMilp_inv h (fun n s => s.results.length = n ∧ s.noImp = 0 ∧ s.best = .posInf) ?_ ?_
  · obtain ⟨n, h1, ⟨rfl, h3, _⟩, h4⟩ := key
    by_cases hlt : out.results.length < nb
    · obtain ⟨h8, h9⟩ := h4 hlt
      rcases h9 with h9 | h9
      · rw [hl] at h9; cases h9
      · omega
    · omega
  · intro s hs
    rcases start_spec hs with ⟨_, rfl⟩ | ⟨hk, _⟩
    · exact ⟨rfl, rfl, rfl⟩
    · cases hk
  · intro i s s' ⟨p1, p2, p3⟩ _ hs
    refine ⟨length_inv p1 hs, ?_⟩
    obtain ⟨r0, b0', r, b, old, store, r', gone, rows, _, _, _, g4, _, _, g7, _, _, rfl⟩ := step_spec hs
    simp [countMilp, p3, hm, Obj.improved, Obj.below, Obj.is, p2]

/-- C116: a search that skips the first iteration can not be used with a handler that reads its own key of the dictionary, as
those for projects do: the placeholder of the first iteration does not have it, so no such search returns; after a
successful first solve the error is a `KeyError`. -/
theorem C116_skip_refuted {L : Milp σ κ} (hk : L.toRemove = byKey L.key) (hkey : L.key ≠ "empty") (nb : Nat) (patience : Option Nat) :
    (¬ ∃ out, solveMilp L (nb + 1) patience true = .ok out) ∧
    ∀ r0 b0 r b st, L.solve 0 [] = .ok r0 → r0.getBestFit = .ok b0 → L.post r0 = .ok r → r.getBestFit = .ok b →
      r.addAll r.sols = .ok st → solveMilp L (nb + 1) patience true = .error .keyError := by
  have hrem : L.toRemove [("empty", [])] = .error .keyError := by
    rw [hk]
    have : ¬ "empty" = L.key := fun h => hkey h.symm
    simp [byKey, Dict.get, Dict.get?, this]
  refine ⟨?_, ?_⟩
  · rintro ⟨out, h⟩
    simp only [solveMilp, start, if_true, bind_ok, loop, bind_eq_ok] at h
    obtain ⟨s', h1, _⟩ := h
    obtain ⟨_, _, _, _, _, _, _, gone, _, _, _, _, _, _, _, _, h8, _, _⟩ := step_spec h1
    rw [hrem] at h8
    cases h8
  · intro r0 b0 r b st h1 h2 h3 h4 h5
    simp only [solveMilp, start, if_true, bind_ok, loop, step, List.map_nil, h1, h2, h3, h4, beq_self_eq_true,
      Bool.and_self, present, h5, hrem, bind_error]

/-! ### A search on numbers -/

/-- The numbers 0 to 9; the fitness of a number is its distance to 7, to be minimised.  The handler allows only the numbers at most two
away from the given one; the solver is exact. -/
def near : Milp Nat (Nat × Nat) :=
  let val : Nat → Int := fun n => ((n : Int) - 7).natAbs
  let store := fun l : List Nat => Store.init (l.map (fun n => (n, val n))) none false true 1000
  { maximize := false, initial := .ok (store [0]),
    solve := fun _ rows => .ok (store ((List.range 10).filter (fun n => rows.all (fun q => decide (q.1 ≤ n ∧ n ≤ q.2))))),
    post := fun r => .ok r,
    add := fun _ st => do let b ← st.getBestFit; .ok [(b.1 - 2, b.1 + 2)],
    key := "range", toRemove := byKey "range", late := fun _ => false }

-- the fitness goes down by two in every iteration
example : okAnd (solveMilp near 5 none false) (fun out => decide (out.seen = [[(0, 2)], [(0, 4)], [(2, 6)], [(4, 8)], [(5, 9)]] ∧
    out.active.map Prod.snd = [(5, 9)] ∧ out.results.map (fun r => (r.sols.map Prod.snd).min?) = [some 5, some 3, some 1, some 0, some 0])) = true := by
  decide +kernel

-- the search stops after the second iteration that only repeats the best fitness
example : okAnd (solveMilp near 50 (some 1) false) (fun out => decide (out.results.length = 6 ∧ out.noImp = 2)) = true := by decide +kernel

-- the range of the last iteration stays in the program
example : okAnd (solveMilp near 1 none false) (fun out => decide (out.active = [(1, (0, 4))])) = true := by decide +kernel

-- with a skipped first iteration
example : solveMilp near 3 none true = .error .keyError :=
  (C116_skip_refuted rfl (by decide) 2 none).2 _ (7, 0) _ (7, 0) _ rfl rfl rfl rfl rfl

/-- The same search with a handler that finds its constraints also in the placeholder. -/
def nearOr : Milp Nat (Nat × Nat) := { near with toRemove := byKeyOr "range" }

example : okAnd (solveMilp nearOr 3 none true) (fun out => decide (out.seen = [[], [(5, 9)], [(5, 9)]])) = true := by decide +kernel

example : ∃ out, solveMilp nearOr 3 none true = .ok out ∧ (out.active.map Prod.fst).Nodup :=
  match h : solveMilp nearOr 3 none true with
  | .ok out => ⟨out, rfl, C116_identity h⟩
  | .error e => absurd h (by
    have : okAnd (solveMilp nearOr 3 none true) (fun _ => true) = true := by decide +kernel
    intro h
    rw [h] at this
    simp [okAnd] at this)

-- the hypotheses of `C116_constraints`
theorem near_removes (skip : Bool) : Removes nearOr skip :=
  ⟨fun rows => by simp [nearOr, byKeyOr, near, Dict.get?], fun _ => rfl⟩

-- the hypotheses of `C116_answer`
theorem near_fits : Fits nearOr (fun n => (((n : Int) - 7).natAbs : Int)) where
  initial := fun st h => by
    cases h
    exact ⟨⟨_, none, false, true, 1000, [], rfl⟩, rfl, fun p hp => by simp [Store.init] at hp; simp [hp]⟩
  result := fun i rows r0 r h1 h2 => by
    cases h1; cases h2
    refine ⟨⟨_, none, false, true, 1000, [], rfl⟩, rfl, fun p hp => ?_⟩
    simp only [Store.init, List.mem_map] at hp
    obtain ⟨n, _, rfl⟩ := hp
    rfl

-- the hypotheses of `C116_descent`
theorem near_exact : Exact nearOr (fun n => (((n : Int) - 7).natAbs : Int)) (fun n => n < 10)
    (fun rows n => n < 10 ∧ rows.all (fun q => decide (q.1 ≤ n ∧ n ≤ q.2)) = true) where
  solve := fun i rows r h s hs => by
    cases h
    refine ⟨(s, _), ?_, better_refl _ _⟩
    simp only [Store.init, List.mem_map]
    exact ⟨s, List.mem_filter.2 ⟨List.mem_range.2 hs.1, hs.2⟩, rfl⟩
  post := fun i rows r0 r b h0 h1 h2 p hp => by
    cases h0; cases h1
    exact (best_spec h2).2 p hp
  keep := fun i st rows b h1 h2 h3 => by
    simp only [nearOr, near, h2, bind_ok] at h1
    cases h1
    refine ⟨h3, ?_⟩
    simp
  initial := fun st b h1 h2 => by
    cases h1
    have := (best_spec h2).1
    simp [Store.init] at this
    simp [this]
  result := fun i rows r0 r b h1 h2 h3 => by
    cases h1; cases h2
    have := (best_spec h3).1
    simp only [Store.init, List.mem_map, List.mem_filter, List.mem_range] at this
    obtain ⟨n, ⟨hn, _⟩, rfl⟩ := this
    exact hn

/-- A solver that only finds a solution that is worse than the initial one: not even `nb_iteration_no_improvement = 0` ends
the search. -/
def stuck : Milp Nat Unit :=
  { maximize := true, initial := .ok (Store.init [(1, 5)] none true true 1000),
    solve := fun _ _ => .ok (Store.init [(0, 3)] none true true 1000), post := fun r => .ok r, add := fun _ _ => .ok [],
    key := "none", toRemove := byKey "none", late := fun _ => false }

example : okAnd (solveMilp stuck 40 (some 0) false) (fun out => decide (out.results.length = 40)) = true := by decide +kernel

-- the best is found again and again in a search that maximises and skips the first iteration
example : okAnd (solveMilp { stuck with toRemove := byKeyOr "none" } 40 (some 0) true)
    (fun out => decide (out.results.length = 40)) = true := by decide +kernel

-- the clock
example : okAnd (solveMilp { near with late := fun i => i == 2 } 50 none false) (fun out => decide (out.results.length = 3)) = true := by
  decide +kernel

end Verif.Lns
