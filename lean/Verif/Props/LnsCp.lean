import Verif.Lemmas.LnsCp
/-!
# Large neighbourhood search with a constraint solver (C117)

`LNS_CP.solve_lns`: what is returned, which constraints are present at every solve, when the search ends.
-/
set_option linter.unusedSectionVars false
namespace Verif.Lns
open Verif.Results
variable {σ κ : Type} [DecidableEq σ]

/-! ### Statements -/

/-- Stores come from the constructor and `add_solution`, are in the direction of the search, and rate every solution by `val`. -/
structure FitsCp (L : Cp σ κ) (val : σ → Int) : Prop where
  initial : ∀ st, L.initial = .ok st → Made st ∧ st.maximize = L.maximize ∧ ∀ p, p ∈ st.sols → p.2 = val p.1
  result : ∀ i rows r0 r, L.solve i rows = .ok r0 → L.post r0 = .ok r →
    Made r ∧ r.maximize = L.maximize ∧ ∀ p, p ∈ r.sols → p.2 = val p.1

/-- A solution with its fitness that is in the initial store or in one of the given results. -/
def FoundIn (L : Cp σ κ) (skip : Bool) (results : List (Option (Store σ))) (p : σ × Int) : Prop :=
  (skip = false ∧ ∃ st, L.initial = .ok st ∧ p ∈ st.sols) ∨ ∃ r, some r ∈ results ∧ p ∈ r.sols

/-- Iteration `j` found a solution that is strictly better than everything before. -/
def Improves (L : Cp σ κ) (skip : Bool) (results : List (Option (Store σ))) (j : Nat) : Prop :=
  ∃ r b, results[j]? = some (some r) ∧ r.getBestFit = .ok b ∧
    ∀ p, FoundIn L skip (results.take j) p → ¬ Better L.maximize p.2 b.2

/-! ### What is returned -/

/-- A store with exactly the solutions of some results. -/
private def Holds (L : Cp σ κ) (val : σ → Int) (skip : Bool) (results : List (Option (Store σ))) (st : Store σ) : Prop :=
  Covers st ∧ st.maximize = L.maximize ∧ st.sols ≠ [] ∧ (∀ p, p ∈ st.sols → p.2 = val p.1) ∧
    ∀ p, p ∈ st.sols ↔ FoundIn L skip results p

private theorem found_none {L : Cp σ κ} {skip : Bool} {results : List (Option (Store σ))} {p : σ × Int} :
    FoundIn L skip (results ++ [none]) p ↔ FoundIn L skip results p := by
  simp [FoundIn]

private theorem found_some {L : Cp σ κ} {skip : Bool} {results : List (Option (Store σ))} {r : Store σ} {p : σ × Int} :
    FoundIn L skip (results ++ [some r]) p ↔ FoundIn L skip results p ∨ p ∈ r.sols := by
  simp only [FoundIn, List.mem_append, List.mem_singleton, Option.some.injEq]
  constructor
  · rintro (h | ⟨q, h | rfl, hq⟩)
    · exact .inl (.inl h)
    · exact .inl (.inr ⟨q, h, hq⟩)
    · exact .inr hq
  · rintro ((h | ⟨q, h, hq⟩) | h)
    · exact .inl h
    · exact .inr ⟨q, .inl h, hq⟩
    · exact .inr ⟨r, .inr rfl, h⟩

/-- The store in the course of the search. -/
private def Kept (L : Cp σ κ) (val : σ → Int) (skip : Bool) (s : CpState σ κ) : Prop :=
  (skip = true ∧ s.store = none ∧ ∀ r, r ∈ s.results → r = none) ∨ ∃ st, s.store = some st ∧ Holds L val skip s.results st

private theorem start_kept {L : Cp σ κ} {val : σ → Int} (hf : FitsCp L val) {skip : Bool} {s : CpState σ κ}
    (hs : startCp L skip = .ok s) : Kept L val skip s := by
  rcases startCp_spec hs with ⟨hk, rfl⟩ | ⟨hk, st, b, h1, h2, rfl⟩
  · exact .inl ⟨hk, rfl, by simp⟩
  · obtain ⟨hm, hx, hv⟩ := hf.initial st h1
    refine .inr ⟨st, rfl, hm.covers, hx, best_ne h2, hv, fun p => ⟨fun hp => .inl ⟨hk, st, h1, hp⟩, ?_⟩⟩
    rintro (⟨_, st', h1', hp⟩ | ⟨r, hr, _⟩)
    · rw [h1] at h1'; cases h1'; exact hp
    · simp at hr

private theorem step_kept {L : Cp σ κ} {val : σ → Int} (hf : FitsCp L val) {skip : Bool} {i : Nat} {s s' : CpState σ κ}
    (hlen : s.results.length = i) (hp : Kept L val skip s) (hs : stepCp L skip i s = .ok s') : Kept L val skip s' := by
  obtain ⟨rows, hrows, rfl | ⟨r0, r, b, old, store, r', best, n, h1, h3, h4, h5, h6, h7, _, _, rfl⟩⟩ := stepCp_spec hs
  · rcases hp with ⟨a1, a2, a3⟩ | ⟨st, a1, a2, a3, a4, a5, a6⟩
    · refine .inl ⟨a1, a2, fun r hr => ?_⟩
      rcases List.mem_append.1 hr with hr | hr
      · exact a3 r hr
      · simpa using hr
    · exact .inr ⟨st, a1, a2, a3, a4, a5, fun p => by rw [a6]; exact found_none.symm⟩
  · obtain ⟨hm, hx, hv⟩ := hf.result i _ r0 r h1 h3
    right
    by_cases hc : (skip && i == 0) = true
    · simp only [hc, if_true, Option.some.injEq] at h5 h7
      simp only [Bool.and_eq_true, beq_iff_eq] at hc
      obtain ⟨hsk, hi⟩ := hc
      have hres : s.results = [] := List.length_eq_zero_iff.1 (hlen.trans hi)
      rw [← h5] at h6
      obtain ⟨a1, a2, _, _, _⟩ := addAll_sols hm.covers h6
      obtain ⟨b1, b2⟩ := addAll_mem hm.covers h6 hv hv
      refine ⟨store, rfl, a1, a2.trans hx, covers_ne_none hm.covers h6 (best_ne h4), b2, fun p => ?_⟩
      simp [FoundIn, hres, h7, hsk]
    · simp only [hc, if_false, Bool.false_eq_true] at h5 h7
      rcases hp with ⟨hp1, hp2, _⟩ | ⟨st, c1, c2, c3, c4, c5, c6⟩
      · rw [hp2] at h5; cases h5
      · rw [h5] at c1
        cases c1
        obtain ⟨a1, a2, _, _, _⟩ := addAll_sols c2 h6
        obtain ⟨b1, b2⟩ := addAll_mem c2 h6 c5 hv
        refine ⟨store, rfl, a1, a2.trans c3, covers_ne_none c2 h6 c4, b2, fun p => ?_⟩
        rw [b1, c6, h7]
        exact found_some.symm

/-- C117: the store that is returned has exactly the solutions of the initial store and of all results, and its best one is at
least as good as each of them.  Only a search that skips the first iteration and never finds a solution returns nothing. -/
theorem C117_answer {L : Cp σ κ} {skip : Bool} {val : σ → Int} (hf : FitsCp L val) {nb : Nat} {patience : Option Nat}
    {out : CpState σ κ} (h : solveCp L nb patience skip = .ok out) :
    (skip = true ∧ out.store = none ∧ ∀ r, r ∈ out.results → r = none) ∨
    ∃ st b, out.store = some st ∧ (∀ p, p ∈ st.sols ↔ FoundIn L skip out.results p) ∧ st.getBestFit = .ok b ∧
      FoundIn L skip out.results b ∧ ∀ p, FoundIn L skip out.results p → Better L.maximize b.2 p.2 := by
  obtain ⟨n, _, ⟨_, h2⟩, _⟩ := solveCp_inv h (fun n s => s.results.length = n ∧ Kept L val skip s)
    (fun s hs => ⟨by rw [startCp_length hs]; rfl, start_kept hf hs⟩)
    (fun i s s' hp _ hs => ⟨lengthCp_inv hp.1 hs, step_kept hf hp.1 hp.2 hs⟩)
  rcases h2 with h2 | ⟨st, c1, c2, c3, c4, c5, c6⟩
  · exact .inl h2
  · obtain ⟨b, hb⟩ := best_defined c4
    obtain ⟨hb1, hb2⟩ := best_spec hb
    refine .inr ⟨st, b, c1, c6, hb, (c6 b).1 hb1, fun p hp => ?_⟩
    rw [← c3]
    exact hb2 p ((c6 p).2 hp)

/-! ### The constraints at every solve -/

/-- C117: every solve has exactly the constraints that the handler makes of all solutions found before, none from earlier
iterations; when the first iteration is skipped it has none.  A result is that of the solver after the post-processing. -/
theorem C117_constraints {L : Cp σ κ} {skip : Bool} {val : σ → Int} (hf : FitsCp L val) {nb : Nat} {patience : Option Nat}
    {out : CpState σ κ} (h : solveCp L nb patience skip = .ok out) :
    out.seen.length = out.results.length ∧
    ∀ i, i < out.results.length → ∃ rows, out.seen[i]? = some rows ∧
      ((skip = true ∧ i = 0 ∧ rows = []) ∨
        (¬ (skip = true ∧ i = 0) ∧ ∃ st b, L.add i st = .ok rows ∧ st.getBestFit = .ok b ∧
          (∀ p, p ∈ st.sols ↔ FoundIn L skip (out.results.take i) p) ∧
          ∀ p, FoundIn L skip (out.results.take i) p → Better L.maximize b.2 p.2)) ∧
      ∀ r', out.results[i]? = some (some r') → ∃ r0 r b, L.solve i rows = .ok r0 ∧ L.post r0 = .ok r ∧ r.getBestFit = .ok b ∧
        (r' = r ∨ (skip = true ∧ i = 0 ∧ r.addAll r.sols = .ok r')) := by
  have key := solveCp_inv h (fun n s => s.results.length = n ∧ s.seen.length = n ∧ Kept L val skip s ∧
    ∀ i, i < n → ∃ rows, s.seen[i]? = some rows ∧
      ((skip = true ∧ i = 0 ∧ rows = []) ∨
        (¬ (skip = true ∧ i = 0) ∧ ∃ st b, L.add i st = .ok rows ∧ st.getBestFit = .ok b ∧
          (∀ p, p ∈ st.sols ↔ FoundIn L skip (s.results.take i) p) ∧
          ∀ p, FoundIn L skip (s.results.take i) p → Better L.maximize b.2 p.2)) ∧
      ∀ r', s.results[i]? = some (some r') → ∃ r0 r b, L.solve i rows = .ok r0 ∧ L.post r0 = .ok r ∧ r.getBestFit = .ok b ∧
        (r' = r ∨ (skip = true ∧ i = 0 ∧ r.addAll r.sols = .ok r'))) ?_ ?_
  · obtain ⟨n, _, ⟨h1, h2, h3, h4⟩, _⟩ := key
    subst h1
    exact ⟨h2, h4⟩
  · intro s hs
    refine ⟨by rw [startCp_length hs]; rfl, ?_, start_kept hf hs, fun i hi => by omega⟩
    rcases startCp_spec hs with ⟨_, rfl⟩ | ⟨_, st, b, _, _, rfl⟩ <;> rfl
  · intro i s s' ⟨p1, p2, p3, p4⟩ _ hs
    refine ⟨lengthCp_inv p1 hs, ?_, step_kept hf p1 p3 hs, ?_⟩
    · obtain ⟨rows, _, rfl | ⟨r0, r, b, old, store, r', best, n, _, _, _, _, _, _, _, _, rfl⟩⟩ := stepCp_spec hs <;> simp [p2]
    -- the constraints of the new iteration
    have hnew : ∀ rows, childRows L skip i s.store = .ok rows →
        ((skip = true ∧ i = 0 ∧ rows = []) ∨
        (¬ (skip = true ∧ i = 0) ∧ ∃ st b, L.add i st = .ok rows ∧ st.getBestFit = .ok b ∧
          (∀ p, p ∈ st.sols ↔ FoundIn L skip s.results p) ∧
          ∀ p, FoundIn L skip s.results p → Better L.maximize b.2 p.2)) := by
      intro rows hrows
      rcases childRows_ok hrows with hh | ⟨hh, st, q1, q2⟩
      · exact .inl hh
      · refine .inr ⟨hh, ?_⟩
        rcases p3 with ⟨_, a2, _⟩ | ⟨st', c1, c2, c3, c4, c5, c6⟩
        · rw [a2] at q1; cases q1
        · rw [q1] at c1; cases c1
          obtain ⟨b, hb⟩ := best_defined c4
          exact ⟨st, b, q2, hb, c6, fun p hp => by rw [← c3]; exact (best_spec hb).2 p ((c6 p).2 hp)⟩
    intro j hj
    obtain ⟨rows, hrows, hcase⟩ := stepCp_spec hs
    have hres : ∃ x, s'.results = s.results ++ [x] ∧ s'.seen = s.seen ++ [rows] ∧
        ∀ r', x = some r' → ∃ r0 r b, L.solve i rows = .ok r0 ∧ L.post r0 = .ok r ∧ r.getBestFit = .ok b ∧
        (r' = r ∨ (skip = true ∧ i = 0 ∧ r.addAll r.sols = .ok r')) := by
      rcases hcase with rfl | ⟨r0, r, b, old, store, r', best, n, g1, g2, g3, g4, g5, g6, _, _, rfl⟩
      · exact ⟨none, rfl, rfl, fun r' h => by cases h⟩
      · refine ⟨some r', rfl, rfl, fun r'' h => ?_⟩
        cases h
        refine ⟨r0, r, b, g1, g2, g3, ?_⟩
        by_cases hc : (skip && i == 0) = true
        · simp only [hc, if_true, Option.some.injEq] at g4 g6
          simp only [Bool.and_eq_true, beq_iff_eq] at hc
          rw [← g4] at g5
          exact .inr ⟨hc.1, hc.2, by rw [g6]; exact g5⟩
        · simp only [hc, if_false, Bool.false_eq_true] at g6
          exact .inl g6
    obtain ⟨x, e1, e2, e3⟩ := hres
    rw [e1, e2]
    by_cases hji : j < i
    · obtain ⟨rw1, w1, w2, w3⟩ := p4 j hji
      refine ⟨rw1, by rw [List.getElem?_append_left (by omega)]; exact w1, ?_, ?_⟩
      · rw [List.take_append_of_le_length (by omega)]; exact w2
      · rw [List.getElem?_append_left (by omega)]; exact w3
    · have hj' : j = i := by omega
      subst hj'
      refine ⟨rows, by rw [← p2]; simp, ?_, ?_⟩
      · rw [List.take_append_of_le_length (by omega), List.take_of_length_le (by omega)]
        exact hnew rows hrows
      · intro r' hr'
        rw [← p1] at hr'
        simp only [List.getElem?_concat_length, Option.some.injEq] at hr'
        exact e3 r' hr'

/-! ### Descent -/

/-- An exact solver and a handler that does not exclude the best solution of the store it is given. -/
structure ExactCp (L : Cp σ κ) (val : σ → Int) (Sol : σ → Prop) (Feas : List κ → σ → Prop) : Prop where
  solve : ∀ i rows r, L.solve i rows = .ok r → ∀ s, Feas rows s → ∃ p, p ∈ r.sols ∧ Better L.maximize p.2 (val s)
  post : ∀ i rows r0 r b, L.solve i rows = .ok r0 → L.post r0 = .ok r → r.getBestFit = .ok b → ∀ p, p ∈ r0.sols → Better L.maximize b.2 p.2
  keep : ∀ i st rows b, L.add i st = .ok rows → st.getBestFit = .ok b → Sol b.1 → Feas rows b.1
  initial : ∀ st p, L.initial = .ok st → p ∈ st.sols → Sol p.1
  result : ∀ i rows r0 r p, L.solve i rows = .ok r0 → L.post r0 = .ok r → p ∈ r.sols → Sol p.1

/-- C117: with an exact solver and a handler that keeps the best solution, every iteration that has a result is at least as good
as everything found before, failed iterations or not. -/
theorem C117_descent {L : Cp σ κ} {skip : Bool} {val : σ → Int} (hf : FitsCp L val) {Sol : σ → Prop}
    {Feas : List κ → σ → Prop} (he : ExactCp L val Sol Feas) {nb : Nat} {patience : Option Nat}
    {out : CpState σ κ} (h : solveCp L nb patience skip = .ok out) {j : Nat} {r' : Store σ} {b' : σ × Int}
    (hj : out.results[j]? = some (some r')) (hb' : r'.getBestFit = .ok b') {p : σ × Int}
    (hp : FoundIn L skip (out.results.take j) p) : Better L.maximize b'.2 p.2 := by
  obtain ⟨_, hall⟩ := C117_constraints hf h
  -- every solution found is one of the program
  have hsol : ∀ q, FoundIn L skip out.results q → Sol q.1 ∧ q.2 = val q.1 := by
    rintro q (⟨_, st, h1, h2⟩ | ⟨r, h1, h2⟩)
    · exact ⟨he.initial _ _ h1 h2, (hf.initial _ h1).2.2 q h2⟩
    · obtain ⟨i, hi⟩ := List.mem_iff_getElem?.1 h1
      obtain ⟨rows, _, _, h3⟩ := hall i (List.getElem?_eq_some_iff.1 hi).1
      obtain ⟨r0, r1, b, g1, g2, g3, g4⟩ := h3 r hi
      obtain ⟨hm, _, hv⟩ := hf.result _ _ _ _ g1 g2
      have hq : q ∈ r1.sols := by
        rcases g4 with rfl | ⟨_, _, g4⟩
        · exact h2
        · rcases (addAll_sols hm.covers g4).2.2.1 q h2 with h | h <;> exact h
      exact ⟨he.result _ _ _ _ _ g1 g2 hq, hv q hq⟩
  have hsub : ∀ q, FoundIn L skip (out.results.take j) q → FoundIn L skip out.results q := by
    rintro q (h1 | ⟨r, h1, h2⟩)
    · exact .inl h1
    · exact .inr ⟨r, List.mem_of_mem_take h1, h2⟩
  obtain ⟨rows, _, h2, h3⟩ := hall j (List.getElem?_eq_some_iff.1 hj).1
  obtain ⟨r0, r, b, g1, g2, g3, g4⟩ := h3 r' hj
  obtain ⟨hm, _, hv⟩ := hf.result _ _ _ _ g1 g2
  have hbest : r.getBestFit = .ok b' := by
    rcases g4 with rfl | ⟨_, _, g4⟩
    · exact hb'
    · rw [← addAll_self hm.covers g4, hb']
  rcases h2 with ⟨q1, q2, _⟩ | ⟨_, st, bs, q1, q2, q3, q4⟩
  · subst q2
    rcases hp with ⟨h5, _⟩ | ⟨r, h5, _⟩
    · rw [q1] at h5; cases h5
    · simp at h5
  · have hfound := (q3 bs).1 (best_spec q2).1
    obtain ⟨hs, hval⟩ := hsol bs (hsub _ hfound)
    obtain ⟨w, hw1, hw2⟩ := he.solve _ _ _ g1 bs.1 (he.keep _ _ _ _ q1 q2 hs)
    rw [← hval] at hw2
    exact better_trans (better_trans (he.post _ _ _ _ _ g1 g2 hbest w hw1) hw2) (q4 p hp)

/-! ### When the search ends -/

private theorem improves_append {L : Cp σ κ} {skip : Bool} {results more : List (Option (Store σ))} {j : Nat}
    (hj : j < results.length) : Improves L skip (results ++ more) j ↔ Improves L skip results j := by
  simp only [Improves, List.getElem?_append_left hj, List.take_append_of_le_length (Nat.le_of_lt hj)]

/-- `best_objective` is the best fitness found. -/
private def Tracks (L : Cp σ κ) (skip : Bool) (s : CpState σ κ) : Prop :=
  (∃ x p, s.best = .fin x ∧ FoundIn L skip s.results p ∧ p.2 = x ∧ ∀ p, FoundIn L skip s.results p → Better L.maximize x p.2) ∨
  ((∀ fit, s.best.improved L.maximize fit = true) ∧ ∀ p, ¬ FoundIn L skip s.results p)

private theorem start_tracks {L : Cp σ κ} {val : σ → Int} (hf : FitsCp L val) {skip : Bool} {s : CpState σ κ}
    (hs : startCp L skip = .ok s) : Tracks L skip s := by
  rcases startCp_spec hs with ⟨hk, rfl⟩ | ⟨hk, st, b, h1, h2, rfl⟩
  · refine .inr ⟨fun fit => ?_, fun p hp => ?_⟩
    · cases hm : L.maximize <;> simp [Obj.improved, Obj.above, Obj.below]
    · rcases hp with ⟨h, _⟩ | ⟨r, hr, _⟩
      · rw [hk] at h; cases h
      · simp at hr
  · refine .inl ⟨b.2, b, rfl, .inl ⟨hk, st, h1, (best_spec h2).1⟩, rfl, fun p hp => ?_⟩
    rcases hp with ⟨_, st', h1', hp⟩ | ⟨r, hr, _⟩
    · rw [h1] at h1'; cases h1'
      rw [← (hf.initial st h1).2.1]
      exact (best_spec h2).2 p hp
    · simp at hr

/-- The counter of the iterations without improvement: what one iteration with a result does. -/
private theorem step_tracks {L : Cp σ κ} {skip : Bool} {s : CpState σ κ} (ht : Tracks L skip s) {r' : Store σ} {b : σ × Int}
    (hx : r'.maximize = L.maximize) (hb : r'.getBestFit = .ok b) (store : Option (Store σ)) (best : Option σ) (n : Nat)
    (seen : List (List κ)) :
    Tracks L skip ⟨store, (countCp L.maximize b.2 s.best s.noImp).1, best, n, seen, s.results ++ [some r']⟩ ∧
    ((countCp L.maximize b.2 s.best s.noImp).2.2 = 0 ∧ Improves L skip (s.results ++ [some r']) s.results.length ∨
     (countCp L.maximize b.2 s.best s.noImp).2.2 = s.noImp + 1 ∧
       ¬ Improves L skip (s.results ++ [some r']) s.results.length) := by
  obtain ⟨hb1, hb2⟩ := best_spec hb
  rw [hx] at hb2
  have himp : Improves L skip (s.results ++ [some r']) s.results.length ↔
      ∀ p, FoundIn L skip s.results p → ¬ Better L.maximize p.2 b.2 := by
    simp only [Improves, List.getElem?_concat_length, Option.some.injEq, List.take_left']
    constructor
    · rintro ⟨r, b', rfl, h2, h3⟩
      rw [hb] at h2; cases h2
      exact h3
    · intro h
      exact ⟨r', b, rfl, hb, h⟩
  rw [himp]
  rcases ht with ⟨x, p0, e1, e2, e3, e4⟩ | ⟨e1, e2⟩
  · rw [e1]
    by_cases hi : (Obj.fin x).improved L.maximize b.2 = true
    · have hnb := improved_fin.1 hi
      have hbx : Better L.maximize b.2 x := (better_total _ _ _).resolve_right hnb
      simp only [countCp, hi, if_true]
      refine ⟨.inl ⟨b.2, b, rfl, found_some.2 (.inr hb1), rfl, fun p hp => ?_⟩, .inl ⟨trivial, fun p hp hbet => hnb ?_⟩⟩
      · rcases found_some.1 hp with hp | hp
        · exact better_trans hbx (e4 p hp)
        · exact hb2 p hp
      · exact better_trans (e4 p hp) hbet
    · have hbx : Better L.maximize x b.2 := by
        by_cases hh : Better L.maximize x b.2
        · exact hh
        · exact absurd (improved_fin.2 hh) hi
      have hi' := Bool.eq_false_iff.2 hi
      have hno : ¬ ∀ p, FoundIn L skip s.results p → ¬ Better L.maximize p.2 b.2 := fun h => h p0 e2 (by rw [e3]; exact hbx)
      by_cases heq : b.2 = x
      · simp only [countCp, Obj.is, heq, decide_true, if_true]
        have hi'' : (Obj.fin x).improved L.maximize x = false := by rw [← heq] at hi' ⊢; exact hi'
        simp only [hi'', Bool.false_eq_true, if_false]
        refine ⟨.inl ⟨x, p0, rfl, found_some.2 (.inl e2), e3, fun p hp => ?_⟩, .inr ⟨trivial, by rw [← heq]; exact hno⟩⟩
        rcases found_some.1 hp with hp | hp
        · exact e4 p hp
        · rw [← heq]; exact hb2 p hp
      · simp only [countCp, hi', Obj.is, heq, decide_false, Bool.false_eq_true, if_false]
        refine ⟨.inl ⟨x, p0, rfl, found_some.2 (.inl e2), e3, fun p hp => ?_⟩, .inr ⟨trivial, hno⟩⟩
        rcases found_some.1 hp with hp | hp
        · exact e4 p hp
        · exact better_trans hbx (hb2 p hp)
  · simp only [countCp, e1, if_true]
    refine ⟨.inl ⟨b.2, b, rfl, found_some.2 (.inr hb1), rfl, fun p hp => ?_⟩, .inl ⟨trivial, fun p hp => absurd hp (e2 p)⟩⟩
    rcases found_some.1 hp with hp | hp
    · exact absurd hp (e2 p)
    · exact hb2 p hp

/-- C117: the number of iterations is at most `nb_iteration_lns`; without `nb_iteration_no_improvement` only the clock ends the
search before. -/
theorem C117_default {L : Cp σ κ} {skip : Bool} {nb : Nat} {patience : Option Nat} {out : CpState σ κ}
    (h : solveCp L nb patience skip = .ok out) :
    out.results.length ≤ nb ∧
    (patience = none → out.results.length < nb → 0 < out.results.length ∧ L.late (out.results.length - 1) = true) := by
  have key := solveCp_inv h (fun n s => s.results.length = n ∧ s.noImp ≤ 2 * n) ?_ ?_
  · obtain ⟨n, h1, ⟨rfl, h3⟩, h4⟩ := key
    refine ⟨h1, fun hp hlt => ?_⟩
    obtain ⟨h5, h6⟩ := h4 hlt
    rcases h6 with h6 | h6
    · exact ⟨h5, h6⟩
    · rw [hp] at h6; simp only [Option.getD_none] at h6; omega
  · intro s hs
    refine ⟨by rw [startCp_length hs]; rfl, ?_⟩
    rcases startCp_spec hs with ⟨_, rfl⟩ | ⟨_, st, b, _, _, rfl⟩ <;> simp
  · intro i s s' ⟨p1, p2⟩ _ hs
    refine ⟨lengthCp_inv p1 hs, ?_⟩
    obtain ⟨rows, _, rfl | ⟨r0, r, b, old, store, r', best, n, _, _, _, _, _, _, _, hn, rfl⟩⟩ := stepCp_spec hs
    · simp only; omega
    · have hc : (countCp L.maximize b.2 s.best s.noImp).2.2 ≤ s.noImp + 1 := by
        simp only [countCp]; split
        · simp
        · split <;> simp
      simp only
      rcases hn with hn | ⟨hn, _⟩ <;> omega

/-- C117 (partial: the check `problem.satisfy` does not raise): the search ends before the last iteration only by the clock or
when the last `nb_iteration_no_improvement + 1` iterations brought no solution strictly better than all before; and it never
goes on after that many such iterations. -/
theorem C117_patience_partial {L : Cp σ κ} {skip : Bool} {val : σ → Int} (hf : FitsCp L val) {nb patience : Nat} {out : CpState σ κ}
    (hsat : ∀ x, ∃ v, L.satisfy x = .ok v) (h : solveCp L nb (some patience) skip = .ok out) :
    (out.results.length < nb → 0 < out.results.length ∧ (L.late (out.results.length - 1) = true ∨
      (patience < out.results.length ∧ ∀ j, j < out.results.length → out.results.length ≤ j + (patience + 1) →
        ¬ Improves L skip out.results j))) ∧
    ∀ m, patience < m → m < out.results.length → ∃ j, j < m ∧ m ≤ j + (patience + 1) ∧ Improves L skip out.results j := by
  have key := solveCp_inv h (fun n s => s.results.length = n ∧ Tracks L skip s ∧ (s.bestSol = none → skip = true ∧ ∀ r, r ∈ s.results → r = none) ∧
    s.noImp ≤ n ∧ (∀ j, j < n → n ≤ j + s.noImp → ¬ Improves L skip s.results j) ∧
    (s.noImp < n → Improves L skip s.results (n - s.noImp - 1)) ∧
    ∀ m, patience < m → m < n → ∃ j, j < m ∧ m ≤ j + (patience + 1) ∧ Improves L skip s.results j) ?_ ?_
  · obtain ⟨n, h1, ⟨rfl, _, _, h3, h4, _, h6⟩, h7⟩ := key
    refine ⟨fun hlt => ?_, h6⟩
    obtain ⟨h8, h9⟩ := h7 hlt
    simp only [Option.getD_some] at h9
    exact ⟨h8, h9.imp id (fun h9 => ⟨by omega, fun j hj1 hj2 => h4 j hj1 (by omega)⟩)⟩
  · intro s hs
    refine ⟨by rw [startCp_length hs]; rfl, start_tracks hf hs, ?_, ?_, fun j hj => by omega, ?_, fun m _ hm => by omega⟩
    · rcases startCp_spec hs with ⟨hk, rfl⟩ | ⟨_, st, b, _, _, rfl⟩
      · exact fun _ => ⟨hk, by simp⟩
      · intro h; cases h
    · rcases startCp_spec hs with ⟨_, rfl⟩ | ⟨_, st, b, _, _, rfl⟩ <;> simp
    · rcases startCp_spec hs with ⟨_, rfl⟩ | ⟨_, st, b, _, _, rfl⟩ <;> simp
  · intro i s s' ⟨p1, p2, p2b, p3, p4, p5, p6⟩ hpat hs
    have hlen := lengthCp_inv p1 hs
    -- the new case of the second part
    have hm6 : ∀ x, ∀ m, patience < m → m < i + 1 → ∃ j, j < m ∧ m ≤ j + (patience + 1) ∧ Improves L skip (s.results ++ [x]) j := by
      intro x m hm1 hm2
      by_cases hmi : m < i
      · obtain ⟨j, hj1, hj2, hj3⟩ := p6 m hm1 hmi
        exact ⟨j, hj1, hj2, (improves_append (by omega)).2 hj3⟩
      · have hmi : m = i := by omega
        subst hmi
        have hle := hpat (by omega)
        simp only [Option.getD_some] at hle
        have hlt : s.noImp < m := by omega
        exact ⟨m - s.noImp - 1, by omega, by omega, (improves_append (by omega)).2 (p5 hlt)⟩
    obtain ⟨rows, _, rfl | ⟨r0, r, b, old, store, r', best, n, g1, g2, g3, g4, g5, g6, g7, hn, rfl⟩⟩ := stepCp_spec hs
    · have hnot : ¬ Improves L skip (s.results ++ [none]) i := by
        rintro ⟨r, b, h1, _⟩
        rw [← p1] at h1
        simp at h1
      refine ⟨hlen, ?_, ?_, by simp only; omega, ?_, ?_, hm6 none⟩
      · rcases p2 with ⟨x, p, e1, e2, e3, e4⟩ | ⟨e1, e2⟩
        · exact .inl ⟨x, p, e1, found_none.2 e2, e3, fun p hp => e4 p (found_none.1 hp)⟩
        · exact .inr ⟨e1, fun p hp => e2 p (found_none.1 hp)⟩
      · intro hb
        obtain ⟨q1, q2⟩ := p2b hb
        refine ⟨q1, fun r hr => ?_⟩
        rcases List.mem_append.1 hr with hr | hr
        · exact q2 r hr
        · simpa using hr
      · intro j hj1 hj2
        simp only at hj2
        by_cases hji : j < i
        · rw [improves_append (by omega)]; exact p4 j hji (by omega)
        · have : j = i := by omega
          subst this; exact hnot
      · intro hlt
        simp only at hlt ⊢
        have : i + 1 - (s.noImp + 1) - 1 = i - s.noImp - 1 := by omega
        rw [this, improves_append (by omega)]
        exact p5 (by omega)
    · obtain ⟨hm, hx, _⟩ := hf.result _ _ _ _ g1 g2
      have hr' : r'.maximize = L.maximize ∧ r'.getBestFit = .ok b := by
        by_cases hc : (skip && i == 0) = true
        · simp only [hc, if_true, Option.some.injEq] at g4 g6
          rw [← g4] at g5
          rw [g6]
          exact ⟨(addAll_sols hm.covers g5).2.1.trans hx, by rw [addAll_self hm.covers g5]; exact g3⟩
        · simp only [hc, if_false, Bool.false_eq_true] at g6
          rw [g6]; exact ⟨hx, g3⟩
      obtain ⟨t1, t2⟩ := step_tracks p2 hr'.1 hr'.2 (some store) best n (s.seen ++ [rows])
      rw [p1] at t2
      -- the best solution is known after an iteration with a result
      have hbest : best ≠ none := by
        intro hb
        rw [g7] at hb
        split at hb
        · cases hb
        · rename_i hc
          obtain ⟨q1, q2⟩ := p2b hb
          rcases p2 with ⟨x, p, e1, e2, e3, e4⟩ | ⟨e1, e2⟩
          · -- everything before failed and nothing was given
            rcases e2 with ⟨e2, _⟩ | ⟨q, e2, e5⟩
            · rw [q1] at e2; cases e2
            · cases q2 _ e2
          · simp only [countCp, e1, if_true] at hc
            exact hc trivial
      have hn' : n = (countCp L.maximize b.2 s.best s.noImp).2.2 := by
        rcases hn with hn | ⟨_, hn | ⟨x, e, _, hn⟩⟩
        · exact hn
        · exact absurd hn hbest
        · obtain ⟨v, hv⟩ := hsat x
          rw [hv] at hn; cases hn
      refine ⟨hlen, t1, fun hb => absurd hb hbest, ?_, ?_, ?_, hm6 (some r')⟩
      · simp only
        rcases t2 with ⟨t2, _⟩ | ⟨t2, _⟩ <;> omega
      · intro j hj1 hj2
        simp only at hj2
        rcases t2 with ⟨t2, _⟩ | ⟨t2, t3⟩
        · omega
        · by_cases hji : j < i
          · rw [improves_append (by omega)]; exact p4 j hji (by omega)
          · have : j = i := by omega
            subst this; exact t3
      · intro hlt
        simp only at hlt ⊢
        rcases t2 with ⟨t2, t3⟩ | ⟨t2, _⟩
        · have : i + 1 - n - 1 = i := by omega
          rw [this]; exact t3
        · have : i + 1 - n - 1 = i - s.noImp - 1 := by omega
          rw [this, improves_append (by omega)]
          exact p5 (by omega)

/-- C117: a search that skips the first iteration and whose first solve finds nothing (or fails) ends with an `AttributeError` in
the next iteration, where the handler is given no store. -/
theorem C117_skip_refuted {L : Cp σ κ} {nb patience : Nat} (hlate : L.late 0 = false)
    (hfail : (∃ e, L.solve 0 [] = .error e) ∨ ∃ r, L.solve 0 [] = .ok r ∧ r.sols = []) :
    solveCp L (nb + 2) (some (patience + 1)) true = .error .attributeError := by
  have h1 : ∃ s, stepCp L true 0 ⟨none, if L.maximize then .negInf else .posInf, none, 0, [], []⟩ = .ok s ∧ s.noImp = 1 ∧ s.store = none := by
    rcases hfail with ⟨e, he⟩ | ⟨r, hr, hs⟩
    · exact ⟨_, by simp [stepCp, childRows, he]; rfl, rfl, rfl⟩
    · exact ⟨_, by simp [stepCp, childRows, hr, hs]; rfl, rfl, rfl⟩
  obtain ⟨s, h2, h3, h4⟩ := h1
  have h5 : ¬ (s.noImp > patience + 1) := by omega
  simp only [solveCp, startCp, if_true, bind_ok, Option.getD_some, loopCp, h2, hlate, Bool.false_eq_true, if_false, h5]
  simp [stepCp, childRows, h4, present]

/-! ### A search on numbers -/

/-- As `near`, with a child that finds nothing below 4 in the second iteration. -/
def nearCp : Cp Nat (Nat × Nat) :=
  let val : Nat → Int := fun n => ((n : Int) - 7).natAbs
  let store := fun l : List Nat => Store.init (l.map (fun n => (n, val n))) none false true 1000
  { maximize := false, initial := .ok (store [0]),
    solve := fun i rows => .ok (store ((List.range 10).filter (fun n => rows.all (fun q => decide (q.1 ≤ n ∧ n ≤ q.2) && (i != 1 || decide (4 < n)))))),
    post := fun r => .ok r,
    add := fun _ st => do let b ← st.getBestFit; .ok [(b.1 - 2, b.1 + 2)],
    satisfy := fun n => .ok (decide (n < 10)), late := fun _ => false }

-- the second iteration has no result and the third has the same constraints
example : okAnd (solveCp nearCp 5 none false) (fun out => decide (out.seen = [[(0, 2)], [(0, 4)], [(0, 4)], [(2, 6)], [(4, 8)]] ∧
    out.results.map (fun r => r.map (fun r => (r.sols.map Prod.snd).min?)) = [some (some 5), none, some (some 3), some (some 1), some (some 0)])) = true := by
  decide +kernel

-- the search ends after two iterations without improvement, the one without a result does not end it
example : okAnd (solveCp nearCp 50 (some 1) false) (fun out => decide (out.results.length = 7 ∧ out.noImp = 2)) = true := by decide +kernel

-- a skipped first iteration
example : okAnd (solveCp nearCp 3 none true) (fun out => decide (out.seen = [[], [(5, 9)], [(5, 9)]])) = true := by decide +kernel

-- the hypotheses of `C117_answer`
theorem nearCp_fits : FitsCp nearCp (fun n => (((n : Int) - 7).natAbs : Int)) where
  initial := fun st h => by
    cases h
    exact ⟨⟨_, none, false, true, 1000, [], rfl⟩, rfl, fun p hp => by simp [Store.init] at hp; simp [hp]⟩
  result := fun i rows r0 r h1 h2 => by
    cases h1; cases h2
    refine ⟨⟨_, none, false, true, 1000, [], rfl⟩, rfl, fun p hp => ?_⟩
    simp only [Store.init, List.mem_map] at hp
    obtain ⟨n, _, rfl⟩ := hp
    rfl

/-- The same search with an exact child. -/
def exactCp : Cp Nat (Nat × Nat) :=
  { nearCp with solve := fun _ rows => .ok (Store.init (((List.range 10).filter (fun n => rows.all (fun q => decide (q.1 ≤ n ∧ n ≤ q.2)))).map
      (fun n => (n, (((n : Int) - 7).natAbs : Int)))) none false true 1000) }

-- the hypotheses of `C117_descent`
theorem exactCp_exact : ExactCp exactCp (fun n => (((n : Int) - 7).natAbs : Int)) (fun n => n < 10)
    (fun rows n => n < 10 ∧ rows.all (fun q => decide (q.1 ≤ n ∧ n ≤ q.2)) = true) where
  solve := fun i rows r h s hs => by
    cases h
    refine ⟨(s, _), ?_, better_refl _ _⟩
    simp only [Store.init, List.mem_map]
    exact ⟨s, List.mem_filter.2 ⟨List.mem_range.2 hs.1, hs.2⟩, rfl⟩
  post := fun i rows r0 r b h0 h1 h2 p hp => by
    cases h0; cases h1
    exact (best_spec h2).2 p hp
  keep := fun i st rows b h1 h2 h3 => by
    simp only [exactCp, nearCp, h2, bind_ok] at h1
    cases h1
    refine ⟨h3, ?_⟩
    simp
  initial := fun st p h1 h2 => by
    cases h1
    simp [Store.init] at h2
    simp [h2]
  result := fun i rows r0 r p h1 h2 h3 => by
    cases h1; cases h2
    simp only [Store.init, List.mem_map, List.mem_filter, List.mem_range] at h3
    obtain ⟨n, ⟨hn, _⟩, rfl⟩ := h3
    exact hn

/-- C117: a check that raises makes every iteration count as one without improvement: the search for the best of ten numbers
ends after the first improvement; otherwise it finds the best one. -/
theorem C117_satisfy_refuted :
    (∀ nb, 1 ≤ nb → ∃ out, solveCp { exactCp with satisfy := fun n => if n = 0 then .ok true else .error .typeError } nb (some 0) false = .ok out ∧
      out.results.length = 1 ∧ Improves exactCp false out.results 0) ∧
    ∃ out, solveCp exactCp 50 (some 0) false = .ok out ∧ out.results.length = 5 ∧ ∃ b, (out.store.map Store.getBestFit) = some (.ok b) ∧ b.2 = 0 := by
  refine ⟨fun nb hnb => ?_, ?_⟩
  · obtain ⟨k, rfl⟩ : ∃ k, nb = k + 1 := ⟨nb - 1, by omega⟩
    refine ⟨_, rfl, rfl, _, (2, 5), rfl, rfl, ?_⟩
    rintro p (⟨_, st, h1, h2⟩ | ⟨r, h1, _⟩)
    · cases h1
      simp [Store.init] at h2
      subst h2
      simp [Better, exactCp, nearCp]
    · simp at h1
  · exact ⟨_, rfl, rfl, (7, 0), rfl, rfl⟩

-- a child that never finds anything
example : solveCp { nearCp with solve := fun _ _ => .error .runtimeError } 2 (some 1) true = .error .attributeError :=
  C117_skip_refuted (nb := 0) (patience := 0) rfl (.inl ⟨_, rfl⟩)

example : okAnd (solveCp { nearCp with solve := fun _ _ => .error .runtimeError } 1 (some 1) true) (fun out => out.store.isNone) = true := by
  decide +kernel

end Verif.Lns
