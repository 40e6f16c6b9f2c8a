import Verif.Model.LocalSearch
import Verif.Lemmas.Results
import Verif.Props.Results

/-!
C25: local search keeps the best it has seen.
-/
namespace Verif.LocalSearch
open Verif.Results
variable [DecidableEq σ]

/-- The objective reported by the mutation is the fitness of the new solution. -/
def Accurate (fit : σ → Int) (mutate : Nat → σ → Proposal σ) : Prop :=
  ∀ i s, (mutate i s).obj = fit (mutate i s).nv

/-- Undoing a move gives the solution before it. -/
def Undoes (mutate : Nat → σ → Proposal σ) : Prop := ∀ i s, (mutate i s).back = s

/-- The handler has no restart limit, or was built with a solution. -/
def Ready (h : Handler σ) : Prop := h.limit = none ∨ h.solution ≠ none

omit [DecidableEq σ] in
theorem ready_update {h : Handler σ} (hr : Ready h) (nv : σ) (f : Int) (a b : Bool) :
    Ready (h.update nv f a b) ∧ (h.update nv f a b).fitness = (if a then f else h.fitness) := by
  refine ⟨?_, rfl⟩
  rcases hr with hr | hr
  · exact .inl hr
  · cases a
    · exact .inr hr
    · exact .inr (by simp [Handler.update])

omit [DecidableEq σ] in
theorem restart_spec {h : Handler σ} (hr : Ready h) (cur : σ) (obj : Int) :
    ∃ h', Ready h' ∧ h'.fitness = h.fitness ∧ h'.solution = h.solution ∧ h'.limit = h.limit ∧
      (h.restart cur obj = .ok (h', cur, obj) ∨
        ∃ s, h.limit ≠ none ∧ h.solution = some s ∧ h.restart cur obj = .ok (h', s, h.fitness)) := by
  rw [Handler.restart]
  by_cases he : h.exhausted = true
  · rw [if_pos he]
    have hs : h.solution ≠ none := by
      rcases hr with hr | hr
      · rw [Handler.exhausted, hr] at he; cases he
      · exact hr
    obtain ⟨s, hs⟩ := Option.ne_none_iff_exists'.1 hs
    have hl : h.limit ≠ none := by
      intro hn; rw [Handler.exhausted, hn] at he; cases he
    refine ⟨{ h with noGlobal := 0, noLocal := 0 }, .inr (by simp [hs]), rfl, rfl, rfl, .inr ⟨s, hl, hs, ?_⟩⟩
    rw [hs]
  · rw [if_neg he]
    exact ⟨h, hr, rfl, rfl, rfl, .inl rfl⟩

/-- What holds before and after every iteration; `seen` is everything evaluated so far. -/
structure Inv (maximize : Bool) (fit : σ → Int) (r : Run σ) (seen : Int → Prop) : Prop where
  ready : Ready r.handler
  fitness : r.handler.fitness = r.bestObj
  cur : Better maximize r.bestObj r.curObj
  seen : ∀ x, seen x → Better maximize r.bestObj x
  best : fit r.best = r.bestObj
  store : ∃ given, StoreInv r.store given ∧ (∀ p ∈ given, p.2 = fit p.1) ∧ (r.best, r.bestObj) ∈ given
  dir : r.store.maximize = true

theorem better_refl (m : Bool) (a : Int) : Better m a a := by cases m <;> simp [Better]

theorem better_trans {m : Bool} {a b c : Int} (h1 : Better m a b) (h2 : Better m b c) : Better m a c := by
  cases m <;> simp [Better] at * <;> omega

theorem improves_iff {m : Bool} {a b : Int} : improves m a b = true ↔ ¬ Better m b a := by
  cases m <;> simp [improves, Better]

theorem improves_better {m : Bool} {a b : Int} (h : improves m a b = true) : Better m a b := by
  cases m <;> simp [improves, Better] at * <;> omega

theorem step_inv {maximize storeAll : Bool} {fit : σ → Int} {mutate : σ → Proposal σ} {chance : Bool}
    {r : Run σ} {seen : Int → Prop} (ha : ∀ s, (mutate s).obj = fit (mutate s).nv)
    (hi : Inv maximize fit r seen) :
    ∃ r', step maximize storeAll mutate chance r = .ok r' ∧
      Inv maximize fit r' (fun x => x = (mutate r.cur).obj ∨ seen x) ∧ Better maximize r'.bestObj r.bestObj ∧
      (chance = false → r.curObj = r.bestObj → r'.curObj = r'.bestObj) := by
  obtain ⟨hready, hfit, hcur, hseen, hbest, ⟨given, hs1, hs2, hs3⟩, hdir⟩ := hi
  generalize hp : mutate r.cur = p
  have hobj : p.obj = fit p.nv := by rw [← hp]; exact ha _
  generalize hl : improves maximize p.obj r.curObj = loc
  generalize hg : (loc && improves maximize p.obj r.bestObj) = glob
  generalize hc : (if (loc || chance) = true then p.nv else p.back) = cur'
  generalize hco : (if (loc || chance) = true then p.obj else r.curObj) = curObj'
  have hgl : glob = true → loc = true ∧ improves maximize p.obj r.bestObj = true := by
    intro h; rw [← hg] at h; simpa using h
  have hnv : glob = true → cur' = p.nv := by
    intro h; rw [← hc, (hgl h).1]; rfl
  -- the store
  obtain ⟨store', given', t1, t2, t3, t4, t5⟩ : ∃ store' given',
      keep storeAll glob p.nv cur' p.obj r.store = .ok store' ∧
      StoreInv store' given' ∧ (∀ p ∈ given', p.2 = fit p.1) ∧
      ((if glob = true then cur' else r.best), (if glob = true then p.obj else r.bestObj)) ∈ given' ∧
      store'.maximize = true := by
    rw [keep]
    by_cases hsa : storeAll = true
    · rw [if_pos hsa]
      obtain ⟨st', a1, a2, a3, _⟩ := add_inv hs1 p.nv p.obj
      refine ⟨st', _, a1, a2, ?_, ?_, a3.trans hdir⟩
      · intro q hq
        rcases List.mem_append.1 hq with hq | hq
        · exact hs2 q hq
        · simp only [List.mem_singleton] at hq; subst hq; exact hobj
      · by_cases hgg : glob = true
        · rw [if_pos hgg, if_pos hgg, hnv hgg]; simp
        · rw [if_neg hgg, if_neg hgg]; exact List.mem_append.2 (.inl hs3)
    · rw [if_neg hsa]
      by_cases hgg : glob = true
      · simp only [if_pos hgg]
        obtain ⟨st', a1, a2, a3, _⟩ := add_inv hs1 cur' p.obj
        refine ⟨st', _, a1, a2, ?_, by simp, a3.trans hdir⟩
        intro q hq
        rcases List.mem_append.1 hq with hq | hq
        · exact hs2 q hq
        · simp only [List.mem_singleton] at hq; subst hq
          show p.obj = fit cur'
          rw [hnv hgg]; exact hobj
      · simp only [if_neg hgg]
        exact ⟨r.store, given, rfl, hs1, hs2, hs3, hdir⟩
  -- the handler
  obtain ⟨u1, u2⟩ := ready_update hready p.nv p.obj glob loc
  obtain ⟨h', v1, v2, _, _, v5⟩ := restart_spec u1 cur' curObj'
  rw [u2] at v2
  have hb' : (if glob = true then p.obj else r.handler.fitness) = (if glob = true then p.obj else r.bestObj) := by
    rw [hfit]
  generalize hbo : (if glob = true then p.obj else r.bestObj) = bestObj' at *
  have hgrow : Better maximize bestObj' r.bestObj := by
    rw [← hbo]; split
    · rename_i h; exact improves_better (hgl h).2
    · exact better_refl _ _
  have hnew : Better maximize bestObj' p.obj := by
    rw [← hbo]; split
    · exact better_refl _ _
    · rename_i h
      by_cases hloc : loc = true
      · rw [hloc] at hg
        simp only [Bool.true_and] at hg
        rw [← hg, improves_iff, Classical.not_not] at h
        exact h
      · rw [← hl, improves_iff, Classical.not_not] at hloc
        exact better_trans hcur hloc
  have hcur' : Better maximize bestObj' curObj' := by
    rw [← hco]; split
    · exact hnew
    · exact better_trans hgrow hcur
  have hbest' : fit (if glob = true then cur' else r.best) = bestObj' := by
    rw [← hbo]; split
    · rename_i h; rw [hnv h, hobj]
    · exact hbest
  have hseen' : ∀ x, (x = p.obj ∨ seen x) → Better maximize bestObj' x := by
    rintro x (rfl | hx)
    · exact hnew
    · exact better_trans hgrow (hseen x hx)
  have hmono : chance = false → r.curObj = r.bestObj → curObj' = bestObj' := by
    intro hch heq
    rw [← hco, ← hbo, ← hg, hch, Bool.or_false, ← hl, heq, Bool.and_self]
  have hstep : ∀ cur'' obj'', ((r.handler.update p.nv p.obj glob loc).restart cur' curObj' = .ok (h', cur'', obj'')) →
      step maximize storeAll mutate chance r = .ok ⟨cur'', obj'', if glob = true then cur' else r.best, bestObj', h', store'⟩ := by
    intro c o hco'
    rw [step]
    simp only [hp, hl, hg, hc, hco, hbo, t1, bind_ok, hco']
    rfl
  rcases v5 with v5 | ⟨s, _, _, v5⟩
  · refine ⟨_, hstep _ _ v5, ⟨v1, v2.trans hb', hcur', hseen', hbest', ⟨given', t2, t3, t4⟩, t5⟩, hgrow, hmono⟩
  · refine ⟨_, hstep _ _ v5, ⟨v1, v2.trans hb', ?_, hseen', hbest', ⟨given', t2, t3, t4⟩, t5⟩, hgrow, ?_⟩
    · show Better maximize bestObj' (r.handler.update p.nv p.obj glob loc).fitness
      rw [u2, hb']; exact better_refl _ _
    · intro _ _
      show (r.handler.update p.nv p.obj glob loc).fitness = bestObj'
      rw [u2, hb']

theorem start_inv {maximize storeAll : Bool} {fit : σ → Int} {h : Handler σ} (hr : Ready h) (s : σ) :
    Inv maximize fit (start storeAll h s (fit s)) (fun x => x = fit s) := by
  have hst : Store.init [(s, fit s)] (some s) true true (if storeAll = true then 1000 else 1) =
      Store.init [(s, fit s)] none true true (if storeAll = true then 1000 else 1) := by
    cases storeAll <;> simp [Store.init, dedup, nlargest, sortAsc, insAsc, minMax, bestOf, pyMaxBy]
  refine ⟨hr, rfl, better_refl _ _, ?_, rfl, ⟨[(s, fit s)], ?_, ?_, by simp [start]⟩, rfl⟩
  · rintro x rfl; exact better_refl _ _
  · simp only [start]
    rw [hst]
    refine (init_inv [(s, fit s)] (by simp) true true _ ?_ ?_).1
    · intro _; split <;> omega
    · intro p hp q hq _; simp at hp hq; rw [hp, hq]
  · intro p hp; simp at hp; rw [hp]

/-- Everything evaluated in the first `n` iterations, the start included. -/
def Evaluated (maximize storeAll : Bool) (mutate : Nat → σ → Proposal σ) (chance : Nat → Bool)
    (r : Run σ) (n : Nat) (x : Int) : Prop :=
  x = r.curObj ∨ ∃ k r', k < n ∧ run maximize storeAll mutate chance r k = .ok r' ∧ x = (mutate k r'.cur).obj

theorem run_inv {maximize storeAll : Bool} {fit : σ → Int} {mutate : Nat → σ → Proposal σ}
    {chance : Nat → Bool} (ha : Accurate fit mutate) {h : Handler σ} (hr : Ready h) (s : σ) (n : Nat) :
    ∃ r', run maximize storeAll mutate chance (start storeAll h s (fit s)) n = .ok r' ∧
      Inv maximize fit r' (Evaluated maximize storeAll mutate chance (start storeAll h s (fit s)) n) ∧
      ((∀ k, chance k = false) → r'.curObj = r'.bestObj) := by
  induction n with
  | zero =>
    refine ⟨_, rfl, ?_, fun _ => rfl⟩
    have := start_inv (maximize := maximize) (storeAll := storeAll) (fit := fit) hr s
    refine ⟨this.ready, this.fitness, this.cur, ?_, this.best, this.store, this.dir⟩
    rintro x (hx | ⟨k, _, hk, _⟩)
    · exact this.seen x hx
    · omega
  | succ n ih =>
    obtain ⟨r1, h1, h2, h3⟩ := ih
    obtain ⟨r2, h4, h5, _, h7⟩ := step_inv (storeAll := storeAll) (chance := chance n) (ha n) h2
    refine ⟨r2, by rw [run, h1, bind_ok, h4], ?_, fun hc => h7 (hc n) (h3 hc)⟩
    refine ⟨h5.ready, h5.fitness, h5.cur, ?_, h5.best, h5.store, h5.dir⟩
    intro x hx
    refine h5.seen x ?_
    rcases hx with hx | ⟨k, r', hk, hr', hx⟩
    · exact .inr (.inl hx)
    · by_cases hkn : k = n
      · subst hkn
        rw [h1] at hr'; cases hr'
        exact .inl hx
      · exact .inr (.inr ⟨k, r', by omega, hr', hx⟩)

/-- Both directions: after any number of iterations the store returned by simulated annealing
holds a solution, with its true fitness, at least as good as the start and as everything
evaluated during the search. -/
theorem C25_stored (maximize storeAll : Bool) (fit : σ → Int) (mutate : Nat → σ → Proposal σ)
    (chance : Nat → Bool) (ha : Accurate fit mutate) (h : Handler σ) (hr : Ready h) (s : σ) (n : Nat) :
    ∃ r, anneal maximize storeAll mutate chance h s (fit s) n = .ok r ∧ ∃ b, (b, fit b) ∈ r.store.sols ∧
      ∀ x, Evaluated maximize storeAll mutate chance (start storeAll h s (fit s)) n x →
        Better maximize (fit b) x := by
  obtain ⟨r, h1, h2, _⟩ := run_inv (maximize := maximize) (storeAll := storeAll) (chance := chance) ha hr s n
  obtain ⟨given, g1, g2, g3⟩ := h2.store
  refine ⟨r, h1, r.best, ?_, ?_⟩
  · obtain ⟨q, q1, q2⟩ := g1.seen_all _ g3
    have q3 := g1.seen_sub q q1
    have q4 := g2 q (g1.sols_sub q q3)
    obtain ⟨a, b⟩ := q
    simp only at q2 q4
    subst q2
    rw [q4] at q3
    exact q3
  · intro x hx; rw [h2.best]; exact h2.seen x hx

/-- Maximising: the best solution the result reports (attribute and query) has its true fitness
and is at least as good as the start and everything evaluated.  Missing: minimising, where it
is false (see `C25_minimising_reports_worst`). -/
theorem C25_best_partial (storeAll : Bool) (fit : σ → Int) (mutate : Nat → σ → Proposal σ)
    (chance : Nat → Bool) (ha : Accurate fit mutate) (h : Handler σ) (hr : Ready h) (s : σ) (n : Nat) :
    ∃ r, anneal true storeAll mutate chance h s (fit s) n = .ok r ∧
      (∃ b, r.store.getBestFit = .ok (b, fit b) ∧
        ∀ x, Evaluated true storeAll mutate chance (start storeAll h s (fit s)) n x → x ≤ fit b) ∧
      (∃ b, r.store.best = some b ∧
        ∀ x, Evaluated true storeAll mutate chance (start storeAll h s (fit s)) n x → x ≤ fit b) := by
  obtain ⟨r, h1, h2, _⟩ := run_inv (maximize := true) (storeAll := storeAll) (chance := chance) ha hr s n
  obtain ⟨r', h1', b, b1, b2⟩ := C25_stored true storeAll fit mutate chance ha h hr s n
  have : r' = r := by have := h1.symm.trans h1'; cases this; rfl
  subst this
  obtain ⟨given, g1, g2, g3⟩ := h2.store
  refine ⟨r', h1', ?_, ?_⟩
  · have hne : r'.store.sols ≠ [] := by intro hn; rw [hn] at b1; simp at b1
    obtain ⟨c, hc⟩ := bestOf_defined true hne
    obtain ⟨c1, c2⟩ := bestOf_spec hc
    obtain ⟨c, f⟩ := c
    have hf : f = fit c := g2 _ (g1.sols_sub _ c1)
    subst hf
    refine ⟨c, ?_, ?_⟩
    · rw [Store.getBestFit, h2.dir]; exact hc
    · intro x hx
      exact Int.le_trans (b2 x hx) (c2 _ b1)
  · obtain ⟨mn, mx, m1, m2, c, m3, m4, m5⟩ := g1.mm
    rw [h2.dir] at m4 m5
    refine ⟨c, m3, ?_⟩
    intro x hx
    have hcx : mx = fit c := g2 _ m4
    have := m5 _ g3
    have h3 := h2.seen x hx
    simp only [Better, if_true] at this h3
    omega

/-- Hill climbing, both directions: the objective of the current solution never gets worse. -/
theorem C25_climb_monotone (maximize storeAll : Bool) (fit : σ → Int) (mutate : Nat → σ → Proposal σ)
    (ha : Accurate fit mutate) (h : Handler σ) (hr : Ready h) (s : σ) (n : Nat) :
    ∃ r r', climb maximize storeAll mutate h s (fit s) n = .ok r ∧
      climb maximize storeAll mutate h s (fit s) (n + 1) = .ok r' ∧ Better maximize r'.curObj r.curObj ∧
      Better maximize r'.curObj (mutate n r.cur).obj := by
  obtain ⟨r, h1, h2, h3⟩ := run_inv (maximize := maximize) (storeAll := storeAll) (chance := fun _ => false) ha hr s n
  obtain ⟨r', h4, h5, h6, h7⟩ := step_inv (storeAll := storeAll) (chance := false) (ha n) h2
  have e1 := h3 (fun _ => rfl)
  have e2 := h7 rfl e1
  refine ⟨r, r', h1, by rw [climb, run, h1, bind_ok, h4], by rw [e1, e2]; exact h6, ?_⟩
  rw [e2]; exact h5.seen _ (.inl rfl)

/-- The objective kept with the current solution is its fitness all along, if undoing a move
gives the solution before it and a handler with a restart limit was built with the start. -/
theorem C25_objective_matches (maximize storeAll : Bool) (fit : σ → Int) (mutate : Nat → σ → Proposal σ)
    (chance : Nat → Bool) (ha : Accurate fit mutate) (hu : Undoes mutate) (h : Handler σ) (s : σ)
    (hr : h.limit = none ∨ h.solution = some s) (n : Nat) :
    ∃ r, anneal maximize storeAll mutate chance h s (fit s) n = .ok r ∧ r.curObj = fit r.cur := by
  have hready : Ready h := by
    rcases hr with hr | hr
    · exact .inl hr
    · exact .inr (by rw [hr]; simp)
  have key : ∃ r, anneal maximize storeAll mutate chance h s (fit s) n = .ok r ∧ r.curObj = fit r.cur ∧
      (r.handler.limit ≠ none → ∃ b, r.handler.solution = some b ∧ fit b = r.handler.fitness) := by
    induction n with
    | zero =>
      refine ⟨_, rfl, rfl, ?_⟩
      intro hn
      rcases hr with hr | hr
      · exact absurd hr hn
      · exact ⟨s, hr, rfl⟩
    | succ n ih =>
      obtain ⟨r, h1, h2, h3⟩ := ih
      obtain ⟨r0, h0, hinv, _⟩ := run_inv (maximize := maximize) (storeAll := storeAll) (chance := chance) ha hready s n
      have : r0 = r := by have := h0.symm.trans h1; cases this; rfl
      subst this
      obtain ⟨r', h4, h5, _, _⟩ := step_inv (storeAll := storeAll) (chance := chance n) (ha n) hinv
      refine ⟨r', by rw [anneal, run, h0, bind_ok, h4], ?_⟩
      rw [step] at h4
      simp only [bind_eq_ok] at h4
      obtain ⟨store', _, ⟨h', c', o'⟩, h6, h7⟩ := h4
      cases h7
      simp only
      generalize hp : mutate n r0.cur = p at h6
      have hobj : p.obj = fit p.nv := by rw [← hp]; exact ha _ _
      have hback : p.back = r0.cur := by rw [← hp]; exact hu _ _
      generalize improves maximize p.obj r0.curObj = loc at h6
      generalize (loc && improves maximize p.obj r0.bestObj) = glob at h6
      have hkeep : ((r0.handler.update p.nv p.obj glob loc).limit ≠ none → ∃ b,
          (r0.handler.update p.nv p.obj glob loc).solution = some b ∧
          fit b = (r0.handler.update p.nv p.obj glob loc).fitness) := by
        intro hn
        cases glob with
        | true => exact ⟨p.nv, rfl, hobj.symm⟩
        | false => exact h3 hn
      have hcur : (if (loc || chance n) = true then p.obj else r0.curObj) =
          fit (if (loc || chance n) = true then p.nv else p.back) := by
        split
        · exact hobj
        · rw [hback, h2]
      obtain ⟨h'', _, w2, w3, w4, w5⟩ := restart_spec (ready_update hinv.ready p.nv p.obj glob loc).1
        (if (loc || chance n) = true then p.nv else p.back) (if (loc || chance n) = true then p.obj else r0.curObj)
      rcases w5 with w5 | ⟨b, hex, w6, w5⟩
      · rw [w5] at h6; cases h6
        refine ⟨hcur, ?_⟩
        rw [w2, w3, w4]; exact hkeep
      · rw [w5] at h6; cases h6
        refine ⟨?_, ?_⟩
        · obtain ⟨b', b1, b2⟩ := hkeep hex
          rw [w6] at b1; cases b1
          exact b2.symm
        · rw [w2, w3, w4]; exact hkeep
  obtain ⟨r, h1, h2, _⟩ := key
  exact ⟨r, h1, h2⟩

/-- Minimising, the store still thinks it maximises: after finding 3 from a start of 5 hill
climbing reports the start as its best, by the attribute and by the query. -/
theorem C25_minimising_reports_worst : ∃ r,
    climb false false (fun _ _ => ⟨3, 5, 3⟩) { limit := none, solution := none, fitness := 0 } (5 : Int) 5 1 = .ok r ∧
    (r.best = 3 ∧ r.store.getBestFit = .ok (5, 5) ∧ r.store.best = some 5) :=
  okAnd_spec (by decide +kernel)

/-- A handler with a restart limit built with another solution than the start pairs that solution
with the fitness of the start. -/
theorem C25_restart_mismatch : ∃ r,
    climb true false (fun _ s => ⟨s - 1, s, s - 1⟩) { limit := some 0, solution := some 7, fitness := 7 }
      (5 : Int) 5 1 = .ok r ∧ (r.cur = 7 ∧ r.curObj = 5) :=
  okAnd_spec (by decide +kernel)

/-- Up by one, then down by two, with an accepted worsening and a restart. -/
def wander : Nat → Int → Proposal Int := fun i s =>
  if i % 2 = 0 then ⟨s + 1, s, s + 1⟩ else ⟨s - 2, s, s - 2⟩

example : Accurate (fun x => x) wander ∧ Undoes wander ∧
    ∃ r, anneal true true wander (fun i => i == 1) { limit := some 1, solution := some 4, fitness := 4 } 4 4 6 = .ok r ∧
      (r.store.getBestFit = .ok (6, 6) ∧ r.best = 6 ∧ r.curObj = r.cur) := by
  refine ⟨?_, ?_, okAnd_spec (by decide +kernel)⟩
  · intro i s; unfold wander; split <;> rfl
  · intro i s; unfold wander; split <;> rfl

/-! ### Pareto hill climber -/

/-- The start and everything accepted in the first `n` iterations: what the current solution
does not dominate. -/
def VAccepted (mutate : Nat → σ → VProposal σ) (s : σ) (f : List Int) (n : Nat) (x : σ × List Int) : Prop :=
  x = (s, f) ∨ ∃ k < n, x = ((mutate k (vrun true mutate s f k).cur).nv, (mutate k (vrun true mutate s f k).cur).obj) ∧
    ¬ Dominates (vrun true mutate s f k).curObj x.2

theorem vaccept_iff {a b : List Int} (h : a.length = b.length) : vaccept true a b = true ↔ ¬ Dominates b a :=
  (C24_comparisons a b h).2.2.1

theorem vrun_spec (fit : σ → List Int) (d : Nat) (hd : ∀ s, (fit s).length = d) (mutate : Nat → σ → VProposal σ)
    (ha : ∀ i s, (mutate i s).obj = fit (mutate i s).nv) (s : σ) (n : Nat) :
    (vrun true mutate s (fit s) n).curObj.length = d ∧
    (∀ x, x ∈ (vrun true mutate s (fit s) n).sols ↔ VAccepted mutate s (fit s) n x) ∧
    ∀ x ∈ (vrun true mutate s (fit s) n).sols, x.2 = fit x.1 := by
  induction n with
  | zero =>
    refine ⟨hd s, ?_, by simp [vrun]⟩
    intro x
    simp [vrun, VAccepted]
  | succ n ih =>
    obtain ⟨h1, h2, h3⟩ := ih
    have hacc : ∀ x, VAccepted mutate s (fit s) (n + 1) x ↔ VAccepted mutate s (fit s) n x ∨
        (x = ((mutate n (vrun true mutate s (fit s) n).cur).nv, (mutate n (vrun true mutate s (fit s) n).cur).obj) ∧
          ¬ Dominates (vrun true mutate s (fit s) n).curObj x.2) := by
      intro x
      simp only [VAccepted]
      constructor
      · rintro (h | ⟨k, hk, hx⟩)
        · exact .inl (.inl h)
        · by_cases hkn : k = n
          · subst hkn; exact .inr hx
          · exact .inl (.inr ⟨k, by omega, hx⟩)
      · rintro ((h | ⟨k, hk, hx⟩) | h)
        · exact .inl h
        · exact .inr ⟨k, by omega, hx⟩
        · exact .inr ⟨n, by omega, h⟩
    simp only [vrun, vstep]
    generalize hr : vrun true mutate s (fit s) n = r at *
    generalize hp : mutate n r.cur = p at *
    have hobj : p.obj = fit p.nv := by rw [← hp]; exact ha _ _
    have hlen : p.obj.length = r.curObj.length := by rw [hobj, hd, h1]
    by_cases hv : vaccept true p.obj r.curObj = true
    · have hnd := (vaccept_iff hlen).1 hv
      rw [if_pos hv]
      refine ⟨by rw [hlen, h1], ?_, ?_⟩
      · intro x
        rw [hacc x, ← h2 x]
        simp only
        split
        · rename_i hc
          constructor
          · exact .inl
          · rintro (h | ⟨h, _⟩)
            · exact h
            · simp only [List.contains_eq_mem, List.mem_map, decide_eq_true_eq] at hc
              obtain ⟨y, y1, y2⟩ := hc
              have := h3 y y1
              rw [h]
              rw [y2] at this
              have e : y = (p.nv, p.obj) := Prod.ext y2 (by rw [this, hobj])
              rw [← e]; exact y1
        · rw [List.mem_append, List.mem_singleton]
          constructor
          · rintro (h | h)
            · exact .inl h
            · exact .inr ⟨h, by rw [h]; exact hnd⟩
          · rintro (h | ⟨h, _⟩)
            · exact .inl h
            · exact .inr h
      · intro x hx
        simp only at hx
        split at hx
        · exact h3 x hx
        · rcases List.mem_append.1 hx with hx | hx
          · exact h3 x hx
          · simp only [List.mem_singleton] at hx; rw [hx]; exact hobj
    · rw [if_neg hv]
      refine ⟨h1, ?_, h3⟩
      intro x
      rw [hacc x, ← h2 x]
      constructor
      · exact .inl
      · rintro (h | ⟨h, h'⟩)
        · exact h
        · rw [h] at h'
          exact absurd ((vaccept_iff hlen).2 h') hv

/-- Maximising, the Pareto hill climber returns exactly the solutions, among the start and all
accepted ones, that no other of them dominates, and every accepted solution is on the front
or dominated by a solution on the front.  Missing: minimising, where it is false
(see `C53_minimising_wrong_front`). -/
theorem C53_front_partial (fit : σ → List Int) (d : Nat) (hd : ∀ s, (fit s).length = d)
    (mutate : Nat → σ → VProposal σ) (ha : ∀ i s, (mutate i s).obj = fit (mutate i s).nv) (s : σ) (n : Nat) :
    (∀ x, x ∈ climbPareto true mutate s (fit s) n ↔ VAccepted mutate s (fit s) n x ∧
      ∀ y, VAccepted mutate s (fit s) n y → ¬ Dominates y.2 x.2) ∧
    ∀ x, VAccepted mutate s (fit s) n x →
      ∃ y ∈ climbPareto true mutate s (fit s) n, y = x ∨ Dominates y.2 x.2 := by
  obtain ⟨_, h2, h3⟩ := vrun_spec fit d hd mutate ha s n
  have hn : ∀ p ∈ (vrun true mutate s (fit s) n).sols, p.2.length = d := fun p hp => by rw [h3 p hp, hd]
  refine ⟨?_, ?_⟩
  · intro x
    rw [climbPareto, (C23_front_exact true d _ hn).1 x, h2 x]
    simp only [Beats, if_true]
    constructor
    · rintro ⟨h, h'⟩; exact ⟨h, fun y hy => h' y ((h2 y).2 hy)⟩
    · rintro ⟨h, h'⟩; exact ⟨h, fun y hy => h' y ((h2 y).1 hy)⟩
  · intro x hx
    obtain ⟨y, hy, h⟩ := C23_front_covers true d _ hn x ((h2 x).2 hx)
    exact ⟨y, hy, by simpa [Beats] using h⟩

/-- C53: in either direction, an iteration moves to the proposed solution and stores it unless the
present one is strictly better in that direction; else, when the move's undo gives the old solution
back, it stays where it was.  The vector kept is always that of the present solution. -/
theorem C53_moves (maximize : Bool) (fit : σ → List Int) (d : Nat) (hd : ∀ s, (fit s).length = d)
    (mutate : Nat → σ → VProposal σ) (ha : ∀ i s, (mutate i s).obj = fit (mutate i s).nv ∧ (mutate i s).back = s) (s : σ) (n : Nat) :
    (vrun maximize mutate s (fit s) n).curObj = fit (vrun maximize mutate s (fit s) n).cur ∧
    let cur := (vrun maximize mutate s (fit s) n).cur
    let new := (mutate n cur).nv
    let worse := if maximize then Dominates (fit cur) (fit new) else Dominates (fit new) (fit cur)
    (¬ worse → (vrun maximize mutate s (fit s) (n + 1)).cur = new ∧
      ∃ x ∈ (vrun maximize mutate s (fit s) (n + 1)).sols, x.1 = new) ∧
    (worse → (vrun maximize mutate s (fit s) (n + 1)).cur = cur ∧
      (vrun maximize mutate s (fit s) (n + 1)).sols = (vrun maximize mutate s (fit s) n).sols) := by
  have hobj : (vrun maximize mutate s (fit s) n).curObj = fit (vrun maximize mutate s (fit s) n).cur := by
    induction n with
    | zero => rfl
    | succ n ih =>
      rw [vrun, vstep]
      split
      · exact (ha _ _).1
      · show _ = fit (mutate n _).back
        rw [(ha _ _).2]; exact ih
  refine ⟨hobj, ?_⟩
  simp only
  have hlen : (mutate n (vrun maximize mutate s (fit s) n).cur).obj.length = (vrun maximize mutate s (fit s) n).curObj.length := by
    rw [(ha _ _).1, hobj, hd, hd]
  have hacc : vaccept maximize (mutate n (vrun maximize mutate s (fit s) n).cur).obj (vrun maximize mutate s (fit s) n).curObj = true ↔
      ¬ (if maximize then Dominates (fit (vrun maximize mutate s (fit s) n).cur) (fit (mutate n (vrun maximize mutate s (fit s) n).cur).nv)
        else Dominates (fit (mutate n (vrun maximize mutate s (fit s) n).cur).nv) (fit (vrun maximize mutate s (fit s) n).cur)) := by
    rw [← (ha n _).1, ← hobj]
    cases maximize with
    | true => exact (C24_comparisons _ _ hlen).2.2.1
    | false => exact (C24_comparisons _ _ hlen).2.2.2.1
  constructor
  · intro h
    have hv := hacc.2 h
    rw [vrun, vstep]
    simp only [hv, if_true, true_and]
    split
    · rename_i hc
      rw [List.contains_iff_mem] at hc
      obtain ⟨x, hx, he⟩ := List.mem_map.1 hc
      exact ⟨x, hx, he⟩
    · exact ⟨_, List.mem_append.2 (.inr (List.mem_singleton.2 rfl)), rfl⟩
  · intro h
    have hv : ¬ vaccept maximize (mutate n (vrun maximize mutate s (fit s) n).cur).obj (vrun maximize mutate s (fit s) n).curObj = true :=
      fun hv => (hacc.1 hv) h
    rw [vrun, vstep]
    simp only [hv, if_false, (ha n _).2, Bool.false_eq_true]
    exact ⟨trivial, trivial⟩

/-- Minimising: the worse proposal of round 1 is undone, the better ones are taken. -/
example : (vrun false (fun i (x : Int) => if i = 1 then ⟨x + 5, x, [x + 5]⟩ else ⟨x - 1, x, [x - 1]⟩) 9 [9] 3).cur = 7 ∧
    (vrun true (fun i (x : Int) => if i = 1 then ⟨x + 5, x, [x + 5]⟩ else ⟨x - 1, x, [x - 1]⟩) 9 [9] 3).cur = 14 := by decide

/-- Minimising, the returned front is computed in the wrong direction: the improvement (1, 1)
found from (2, 2) is dropped. -/
theorem C53_minimising_wrong_front :
    climbPareto false (fun _ _ => ⟨1, 2, [1, 1]⟩) (2 : Int) [2, 2] 1 = [(2, [2, 2])] := by decide

/-- The plane, moving right and down alternately. -/
def zigzag : Nat → Int × Int → VProposal (Int × Int) := fun i s =>
  if i % 2 = 0 then ⟨(s.1 + 1, s.2), s, [s.1 + 1, s.2]⟩ else ⟨(s.1, s.2 - 1), s, [s.1, s.2 - 1]⟩

example : (∀ i s, (zigzag i s).obj = (fun p : Int × Int => [p.1, p.2]) (zigzag i s).nv) ∧
    climbPareto true zigzag (0, 0) [0, 0] 4 = [((2, 0), [2, 0])] ∧
    climbPareto true (fun i s => if i = 0 then ⟨(s.1 + 1, s.2 - 1), s, [s.1 + 1, s.2 - 1]⟩ else zigzag i s)
      (0, 0) [0, 0] 4 = [((0, 0), [0, 0]), ((2, -1), [2, -1])] := by
  refine ⟨?_, by decide, by decide⟩
  intro i s; unfold zigzag; split <;> rfl

end Verif.LocalSearch
