import Verif.Lemmas.Pomcp

/-! Properties C130 and C131 of the partially observable Monte Carlo planner. -/
namespace Verif.Pomcp

set_option linter.unusedSectionVars false
variable {σ Act Obs : Type} [DecidableEq Act] [DecidableEq Obs]

/-- Two doors; the state says behind which one the prize is (`true` or `false`).  Opening a door costs 1; one
observes whether the prize was there.  Without an action nothing is observed. -/
def doors (maxIterations maxDepth : Nat) (c : Rat) : Problem Bool Bool (Option Bool) where
  actions := [false, true]
  applicable _ := [false, true]
  next _ s _ := s
  cost _ _ _ := c
  observe _ s a := a.map (· == s)
  goal o := o == some true
  randomAction k _ := k % 2 == 0
  unit k := ((k % 7 : Nat) : Rat) / 7
  bonus n m := (n : Rat) / (m + 1)
  maxIterations := maxIterations
  maxDepth := maxDepth

/-- The solver after the first observation. -/
def first (p : Problem Bool Bool (Option Bool)) : Except PyErr (Option Bool × Solver Bool Bool (Option Bool)) :=
  p.nextAction none (Solver.reset [true, false, true] 0)

/-- What the examples look at: the answer, the belief, and the visits and averages of the two actions. -/
def look (r : Except PyErr (Option Bool × Solver Bool Bool (Option Bool))) :
    Except PyErr (Option Bool × List Bool × Option Node × Option Node × Option Node) :=
  r.map (fun q => (q.1, q.2.belief, q.2.st.tree.get? ([none], [none]),
    q.2.st.tree.get? ([none, some false], [none]), q.2.st.tree.get? ([none, some true], [none])))

/-- **C130.** At any time the visits of a history that ends with an observation are one more than those of its
actions together. -/
theorem C130_visits {p : Problem σ Act Obs} (hnd : p.actions.Nodup) {belief : List σ} {k : Nat} {bs : List Obs}
    {z : Solver σ Act Obs} (e : p.run bs (Solver.reset belief k) = .ok z) {h : List (Option Act)} {o : List Obs}
    (hl : h.length = o.length) {nd : Node} (hg : z.st.tree.get? (h, o) = some nd) :
    nd.visits = 1 + (p.actions.map (fun a =>
      match z.st.tree.get? (h ++ [some a], o) with | some c => c.visits | none => 0)).sum := by
  have hC : Costs p (fun _ => True) := ⟨trivial, fun _ _ _ _ _ => trivial, fun _ _ _ _ _ => trivial⟩
  have hG := (Good.reset p _ belief k).run hC hnd e
  rw [hG.inv.visits h o nd hl hg]
  congr 2
  apply List.map_congr_left
  intro a _
  unfold visitsOf
  cases z.st.tree.get? (h ++ [some a], o) <;> rfl

example : look (first (doors 5 2 1)) =
    .ok (some true, [true, true, true], some ⟨5, 2⟩, some ⟨2, 5 / 2⟩, some ⟨2, 1⟩) := by decide +kernel

/-- **C130.** If the costs of the domain are between zero and twice the depth bound, the value of an action that
was tried is the average of as many simulated costs as the action has visits, all between zero and that bound;
an action that was not tried has the value zero. -/
theorem C130_mean {p : Problem σ Act Obs} (hnd : p.actions.Nodup)
    (hc : ∀ s a s', 0 ≤ p.cost s a s' ∧ p.cost s a s' ≤ 2 * (p.maxDepth : Rat)) {belief : List σ} {k : Nat}
    {bs : List Obs} {z : Solver σ Act Obs} (e : p.run bs (Solver.reset belief k) = .ok z) {h : List (Option Act)}
    {o : List Obs} (hl : h.length = o.length + 1) {nd : Node} (hg : z.st.tree.get? (h, o) = some nd) :
    (∃ costs : List Rat, costs.length = nd.visits ∧ nd.value * nd.visits = costs.sum ∧
      ∀ x ∈ costs, 0 ≤ x ∧ x ≤ 2 * (p.maxDepth : Rat)) ∧
    (nd.visits = 0 → nd.value = 0) ∧ 0 ≤ nd.value ∧ nd.value ≤ 2 * (p.maxDepth : Rat) := by
  have hC : Costs p (fun x => 0 ≤ x ∧ x ≤ 2 * (p.maxDepth : Rat)) :=
    ⟨⟨vlv_nonneg p, le_refl _⟩, fun _ s a s' _ => hc s a s', fun s a s' x hx =>
      ⟨le_min (add_nonneg (hc s a s').1 hx.1) (vlv_nonneg p), min_le_right _ _⟩⟩
  have hM := ((Good.reset p _ belief k).run hC hnd e).inv.mean h o nd hl hg
  obtain ⟨l, h1, h2, h3, h4⟩ := hM
  refine ⟨⟨l, h1, h2, h4⟩, h3, ?_, Mean.le ⟨l, h1, h2, h3, h4⟩ (fun x hx => hx.2) (vlv_nonneg p)⟩
  by_cases hz : nd.visits = 0
  · rw [h3 hz]
  · exact Mean.ge ⟨l, h1, h2, h3, h4⟩ (fun x hx => hx.1) hz

example : ∀ s a s', 0 ≤ (doors 5 2 1).cost s a s' ∧ (doors 5 2 1).cost s a s' ≤ 2 * ((doors 5 2 1).maxDepth : Rat) := by
  intro s a s'
  simp only [doors]
  norm_num

/-- The UCT score of a node below one with `n` visits: untried nodes first, then the average less the bonus for few visits, weighed by the depth
bound `d`; without depth only the average. -/
def score (d : Nat) (bonus : Nat → Nat → Rat) (n : Nat) (nd : Node) : Rat :=
  if d = 0 then nd.value else if nd.visits = 0 then -(2 * (d : Rat)) else nd.value - (d : Rat) * bonus n nd.visits

/-- **C130.** A simulation from a known history tries an action with the least UCT score, counts the history
and the action once, moves the average of the action by the simulated cost, and leaves the other actions of the
history alone. -/
theorem C130_update {p : Problem σ Act Obs} (hnd : p.actions.Nodup) {belief : List σ} {k : Nat} {bs : List Obs}
    {z : Solver σ Act Obs} (e : p.run bs (Solver.reset belief k) = .ok z) {left d : Nat} {s : σ}
    {h : List (Option Act)} {o : List Obs} {nd : Node} (hg : z.st.tree.get? (h, o) = some nd) {x : Rat}
    {st' : St Act Obs} (hs : p.search (left + 1) s h o ⟨z.st.tree, d⟩ = .ok (x, st')) :
    st'.tree.get? (h, o) = some ⟨nd.visits + 1, nd.value⟩ ∧
    ∃ a ∈ p.actions, ∃ old, z.st.tree.get? (h ++ [some a], o) = some old ∧
      (∀ c ∈ p.actions, ∀ other, z.st.tree.get? (h ++ [some c], o) = some other →
        score p.maxDepth p.bonus nd.visits old ≤ score p.maxDepth p.bonus nd.visits other) ∧
      (∃ new, st'.tree.get? (h ++ [some a], o) = some new ∧ new.visits = old.visits + 1 ∧
        new.value * (old.visits + 1) = old.value * old.visits + x) ∧
      ∀ c, c ≠ a → st'.tree.get? (h ++ [some c], o) = z.st.tree.get? (h ++ [some c], o) := by
  have hC : Costs p (fun _ => True) := ⟨trivial, fun _ _ _ _ _ => trivial, fun _ _ _ _ _ => trivial⟩
  have hG := (Good.reset p _ belief k).run hC hnd e
  rw [Problem.search] at hs
  by_cases hl : h.length = o.length
  swap
  · simp [hl] at hs
  simp only [hl, ne_eq, not_true_eq_false, if_false, hg] at hs
  cases hb : p.best z.st.tree h o (p.uct nd.visits) with
  | none => rw [hb] at hs; simp at hs
  | some a =>
    rw [hb] at hs
    simp only at hs
    obtain ⟨ha, old, hold, _, hmin⟩ := best_some hb
    have fin : ∀ (y : Rat) (q : St Act Obs), q.tree.get? (h, o) = some nd →
        (∀ c, q.tree.get? (h ++ [some c], o) = z.st.tree.get? (h ++ [some c], o)) →
        record h o a y q = .ok (x, st') →
        st'.tree.get? (h, o) = some ⟨nd.visits + 1, nd.value⟩ ∧
        (∃ new, st'.tree.get? (h ++ [some a], o) = some new ∧ new.visits = old.visits + 1 ∧
          new.value * (old.visits + 1) = old.value * old.visits + x) ∧
        ∀ c, c ≠ a → st'.tree.get? (h ++ [some c], o) = z.st.tree.get? (h ++ [some c], o) := by
      intro y q h1 h2 h3
      unfold record at h3
      rw [h1, h2 a, hold] at h3
      simp only [Except.ok.injEq, Prod.mk.injEq] at h3
      obtain ⟨rfl, rfl⟩ := h3
      have n1 : ¬ ((h, o) : Key Act Obs) = (h ++ [some a], o) := by intro e'; simp at e'
      refine ⟨?_, ⟨_, by simp only; rw [get?_record, if_pos rfl], rfl, ?_⟩, ?_⟩
      · simp only
        rw [get?_record, if_neg n1, if_pos rfl]
      · have : ((old.visits : Rat) + 1) ≠ 0 := by positivity
        simp only
        field_simp
      · intro c hc
        have n2 : ¬ ((h ++ [some c], o) : Key Act Obs) = (h ++ [some a], o) := by
          intro e'
          simp at e'
          exact hc e'
        have n3 : ¬ ((h ++ [some c], o) : Key Act Obs) = (h, o) := by intro e'; simp at e'
        simp only
        rw [get?_record, if_neg n2, if_neg n3, h2 c]
    split at hs
    · obtain ⟨f1, f2, f3⟩ := fin _ ⟨z.st.tree, d + 2⟩ hg (fun _ => rfl) hs
      exact ⟨f1, a, ha, old, hold, hmin, f2, f3⟩
    · cases hr : p.search left (p.next d s (some a)) (h ++ [some a]) (o ++ [p.observe (d + 1) s (some a)])
          ⟨z.st.tree, d + 2⟩ with
      | error er => rw [hr] at hs; simp at hs
      | ok q =>
        rw [hr] at hs
        have hA := search_after hC hnd left (st := ⟨z.st.tree, d + 2⟩) hG.inv hr
        obtain ⟨f1, f2, f3⟩ := fin _ q.2 ((hA.frame (h, o) (by simp)).trans hg)
          (fun c => hA.frame (h ++ [some c], o) (by simp)) hs
        exact ⟨f1, a, ha, old, hold, hmin, f2, f3⟩

/-- **C130.** A call runs as many simulations as the option says: the visits of the new history grow by it. -/
theorem C130_iterations {p : Problem σ Act Obs} (hnd : p.actions.Nodup) {belief : List σ} {k : Nat} {bs : List Obs}
    {z : Solver σ Act Obs} (e : p.run bs (Solver.reset belief k) = .ok z) {b : Obs}
    {r : Option Act × Solver σ Act Obs} (e' : p.nextAction b z = .ok r) :
    visitsOf r.2.st.tree (z.acts, z.obs ++ [b]) = visitsOf z.st.tree (z.acts, z.obs ++ [b]) + p.maxIterations := by
  have hC : Costs p (fun _ => True) := ⟨trivial, fun _ _ _ _ _ => trivial, fun _ _ _ _ _ => trivial⟩
  have hG := (Good.reset p _ belief k).run hC hnd e
  obtain ⟨bl, k', st, _, h2, rfl⟩ := nextAction_parts e'
  exact ((fun hI => iterate_after hC hnd hI h2) hG.inv).2

/-- **C130.** The answer is an action of the new history with the least value, provided that this value is below
twice the depth bound; otherwise the answer is `None`. -/
theorem C130_answer {p : Problem σ Act Obs} {z : Solver σ Act Obs} {b : Obs} {r : Option Act × Solver σ Act Obs}
    (e : p.nextAction b z = .ok r) :
    (∀ a, r.1 = some a → a ∈ p.actions ∧ ∃ nd, r.2.st.tree.get? (z.acts ++ [some a], z.obs ++ [b]) = some nd ∧
      nd.value < 2 * (p.maxDepth : Rat) ∧
      ∀ c ∈ p.actions, ∀ other, r.2.st.tree.get? (z.acts ++ [some c], z.obs ++ [b]) = some other →
        nd.value ≤ other.value) ∧
    (r.1 = none → ∀ c ∈ p.actions, ∀ other, r.2.st.tree.get? (z.acts ++ [some c], z.obs ++ [b]) = some other →
      2 * (p.maxDepth : Rat) ≤ other.value) ∧
    r.2.acts = z.acts ++ [r.1] ∧ r.2.obs = z.obs ++ [b] := by
  obtain ⟨bl, k', st, _, _, rfl⟩ := nextAction_parts e
  exact ⟨fun a ha => best_some ha, fun hn => best_none hn, rfl, rfl⟩

/-- **C130.** If no observation is a goal, an answer is an action that was never tried; when all have been tried
the answer is `None`. -/
theorem C130_no_goal {p : Problem σ Act Obs} (hnd : p.actions.Nodup) (hg : ∀ o, p.goal o = false)
    (hc : ∀ s a s', 0 ≤ p.cost s a s') {belief : List σ} {k : Nat} {bs : List Obs} {z : Solver σ Act Obs}
    (e : p.run bs (Solver.reset belief k) = .ok z) {b : Obs} {r : Option Act × Solver σ Act Obs}
    (e' : p.nextAction b z = .ok r) {a : Act} (ha : r.1 = some a) :
    visitsOf r.2.st.tree (z.acts ++ [some a], z.obs ++ [b]) = 0 := by
  have hC : Costs p (fun x => x = p.vlv) := by
    refine ⟨rfl, fun k s a s' h => ?_, fun s a s' x hx => ?_⟩
    · rw [hg] at h; simp at h
    · subst hx
      have := hc s a s'
      exact min_eq_right (by linarith)
  have hG := (Good.reset p _ belief k).run hC hnd e
  obtain ⟨_, nd, h1, h2, _⟩ := (C130_answer e').1 a ha
  have hG' := hG.next hC hnd e'
  have hM := hG'.inv.mean (z.acts ++ [some a]) (z.obs ++ [b]) nd (by simp [hG.len]) h1
  unfold visitsOf
  rw [h1]
  by_contra hz
  have h3 : p.vlv ≤ nd.value := hM.ge (c := p.vlv) (fun x hx => le_of_eq hx.symm) (by simpa using hz)
  unfold Problem.vlv at h3
  linarith

example : look (first { doors 5 2 1 with goal := fun _ => false }) =
    .ok (none, [true, true, true], some ⟨5, 4⟩, some ⟨2, 4⟩, some ⟨2, 4⟩) := by decide +kernel

/-- **C130.** With positive costs, an action of the new history that was never tried is preferred to all that
were: its value is the initial zero. -/
theorem C130_untried {p : Problem σ Act Obs} (hnd : p.actions.Nodup) (hd : 0 < p.maxDepth)
    (hc : ∀ s a s', 0 < p.cost s a s') {belief : List σ} {k : Nat} {bs : List Obs} {z : Solver σ Act Obs}
    (e : p.run bs (Solver.reset belief k) = .ok z) {b : Obs} {r : Option Act × Solver σ Act Obs}
    (e' : p.nextAction b z = .ok r) {c : Act} (hca : c ∈ p.actions) {nd : Node}
    (hs : r.2.st.tree.get? (z.acts ++ [some c], z.obs ++ [b]) = some nd) (hz : nd.visits = 0) :
    ∃ a, r.1 = some a ∧ visitsOf r.2.st.tree (z.acts ++ [some a], z.obs ++ [b]) = 0 := by
  have hdpos : (0 : Rat) < p.maxDepth := by exact_mod_cast hd
  have hv : 0 < p.vlv := by unfold Problem.vlv; linarith
  have hC : Costs p (fun x => 0 < x) :=
    ⟨hv, fun k s a s' _ => hc s a s', fun s a s' x hx => lt_min (add_pos (hc s a s') hx) hv⟩
  have hG := (Good.reset p _ belief k).run hC hnd e
  have hG' := hG.next hC hnd e'
  have h0 : nd.value = 0 := by
    obtain ⟨l, _, _, h3, _⟩ := hG'.inv.mean (z.acts ++ [some c]) (z.obs ++ [b]) nd (by simp [hG.len]) hs
    exact h3 hz
  cases hr : r.1 with
  | none =>
    have := (C130_answer e').2.1 hr c hca nd hs
    rw [h0] at this
    linarith
  | some a =>
    refine ⟨a, rfl, ?_⟩
    obtain ⟨_, na, h1, _, h3⟩ := (C130_answer e').1 a hr
    have h4 := h3 c hca nd hs
    rw [h0] at h4
    unfold visitsOf
    rw [h1]
    by_contra hz'
    obtain ⟨l, g1, g2, _, g4⟩ := hG'.inv.mean (z.acts ++ [some a]) (z.obs ++ [b]) na (by simp [hG.len]) h1
    have hne : na.visits ≠ 0 := by simpa using hz'
    have hpos : 0 < l.sum := by
      cases l with
      | nil => simp at g1; exact absurd g1.symm hne
      | cons y l =>
        have hy := g4 y (by simp)
        have : ∀ l : List Rat, (∀ x ∈ l, 0 < x) → 0 ≤ l.sum := by
          intro l hl
          induction l with
          | nil => simp
          | cons w l ih =>
            rw [List.sum_cons]
            have := hl w (by simp)
            have := ih (fun v hv => hl v (by simp [hv]))
            linarith
        have := this l (fun x hx => g4 x (by simp [hx]))
        rw [List.sum_cons]
        linarith
    rw [← g2] at hpos
    have hn : (0 : Rat) ≤ na.visits := by positivity
    nlinarith

/-- **C130 refuted**: with few simulations the answer is an action that was never tried, although another one
is known to reach the goal at once.  Here the prize is always behind the first door. -/
theorem C130_untried_refuted :
    ∃ p : Problem Bool Bool (Option Bool), ∃ z : Solver Bool Bool (Option Bool),
      p.nextAction none (Solver.reset [false, false] 0) = .ok (some true, z) ∧
      z.st.tree.get? ([none, some false], [none]) = some ⟨1, 1⟩ ∧
      z.st.tree.get? ([none, some true], [none]) = some ⟨0, 0⟩ ∧
      (∀ k, p.goal (p.observe k false (some false)) = true) ∧ ∀ k, p.goal (p.observe k false (some true)) = false := by
  have hd : look ((doors 2 2 1).nextAction none (Solver.reset [false, false] 0)) =
      .ok (some true, [false, false], some ⟨2, 1⟩, some ⟨1, 1⟩, some ⟨0, 0⟩) := by decide +kernel
  cases hr : (doors 2 2 1).nextAction none (Solver.reset [false, false] 0) with
  | error e => rw [hr] at hd; simp [look, Except.map] at hd
  | ok q =>
    rw [hr] at hd
    simp only [look, Except.map, Except.ok.injEq, Prod.mk.injEq] at hd
    obtain ⟨h1, h2, h3, h4, h5⟩ := hd
    refine ⟨doors 2 2 1, q.2, ?_, h4, h5, fun _ => rfl, fun _ => rfl⟩
    rw [hr, ← h1]

/-- **C131.** If the depth bound is positive, no cost exceeds twice that bound and every state has an applicable
action of the domain, a call, at any time of an episode, raises no exception as soon as some state of the belief
gives the observation in its hundred draws. -/
theorem C131_total {p : Problem σ Act Obs} (hnd : p.actions.Nodup) (hd : 0 < p.maxDepth)
    (hb : ∀ n m, 2 ≤ n → 1 ≤ m → 0 < p.bonus n m) (hu : ∀ k, 0 ≤ p.unit k ∧ p.unit k < 1)
    (hc : ∀ s a s', p.cost s a s' ≤ 2 * (p.maxDepth : Rat)) (ha : ∀ s, ∃ a ∈ p.applicable s, a ∈ p.actions)
    {belief : List σ} {k : Nat} {bs : List Obs} {z : Solver σ Act Obs}
    (e : p.run bs (Solver.reset belief k) = .ok z) {last : Option Act} (hlast : z.acts.getLast? = some last)
    (b : Obs) {i : Nat} (hi : i < z.belief.length) {j : Nat} (hj : j < 100)
    (ho : p.observe (z.st.draw + 100 * i + j) z.belief[i] last = b) :
    ∃ r, p.nextAction b z = .ok r := by
  have hF : Fine p (fun x => x ≤ p.vlv) :=
    ⟨⟨le_refl _, fun _ s a s' _ => hc s a s', fun _ _ _ _ _ => min_le_right _ _⟩, hnd, hd, hb, fun _ hx => hx, ha⟩
  have hG := Good.reset p (fun x => x ≤ p.vlv) belief k
  have hK : Kids p (Solver.reset (σ := σ) (Act := Act) (Obs := Obs) belief k).st.tree :=
    fun _ _ _ h => by simp [Solver.reset, Dict.get?] at h
  obtain ⟨r, hr, _⟩ := nextAction_ok hF hu (hG.run hF.costs hnd e) (run_kids hF hG hK e) b hi hj
    (by rw [hlast]; exact ho)
  exact ⟨r, hr⟩

/-- The hypotheses hold of the two doors and of their first observation. -/
example : ∃ r, (doors 5 2 1).nextAction none (Solver.reset [true, false] 3) = .ok r :=
  C131_total (p := doors 5 2 1) (bs := []) (by decide) (by decide)
    (fun n m h1 _ => by
      show (0 : Rat) < (n : Rat) / ((m : Rat) + 1)
      have : 0 < n := by omega
      positivity)
    (fun k => by
      show 0 ≤ ((k % 7 : Nat) : Rat) / 7 ∧ ((k % 7 : Nat) : Rat) / 7 < 1
      have h : k % 7 < 7 := Nat.mod_lt _ (by decide)
      have h' : ((k % 7 : Nat) : Rat) < 7 := by exact_mod_cast h
      refine ⟨by positivity, ?_⟩
      linarith)
    (fun _ _ _ => by simp only [doors]; norm_num) (fun _ => ⟨true, by simp [doors], by simp [doors]⟩)
    rfl (last := none) rfl none (i := 0) (by simp [Solver.reset]) (j := 0) (by decide) rfl

/-- One door, and the prize behind it. -/
def oneDoor (maxIterations maxDepth : Nat) (c : Rat) : Problem Bool Bool (Option Bool) :=
  { doors maxIterations maxDepth c with actions := [true], applicable := fun _ => [true], randomAction := fun _ _ => true }

/-- **C131 refuted**: a goal reached at a higher cost than twice the depth bound makes the third simulation
raise an AssertionError, because no action scores below that bound any more; with two simulations the answer is
`None`, although the only action reaches the goal. -/
theorem C131_large_costs_refuted :
    look (((oneDoor 3 1 20).nextAction none (Solver.reset [true] 0))) = .error .assertionError ∧
    look (((oneDoor 2 1 20).nextAction none (Solver.reset [true] 0))) =
      .ok (none, [true], some ⟨2, 20⟩, none, some ⟨1, 20⟩) ∧
    look (((oneDoor 3 1 2).nextAction none (Solver.reset [true] 0))) =
      .ok (none, [true], some ⟨3, 2⟩, none, some ⟨2, 2⟩) ∧
    look (((oneDoor 3 1 1).nextAction none (Solver.reset [true] 0))) =
      .ok (some true, [true], some ⟨3, 1⟩, none, some ⟨2, 1⟩) :=
  ⟨by decide +kernel, by decide +kernel, by decide +kernel, by decide +kernel⟩

/-- **C131 refuted**: with the depth bound 0 every second simulation raises an AssertionError, for all domains
without negative costs. -/
theorem C131_depth_zero_refuted {p : Problem σ Act Obs} (hnd : p.actions.Nodup) (hd : p.maxDepth = 0)
    (hm : 2 ≤ p.maxIterations) (hc : ∀ s a s', 0 ≤ p.cost s a s') {belief : List σ} {k : Nat} {b : Obs}
    {r : Option Act × Solver σ Act Obs} : p.nextAction b (Solver.reset belief k) ≠ .ok r := by
  intro e
  have hv : p.vlv = 0 := by unfold Problem.vlv; rw [hd]; simp
  obtain ⟨bl, k', st, _, h2, -⟩ := nextAction_parts e
  have hC : Costs p (fun x => 0 ≤ x) := by
    refine ⟨vlv_nonneg p, fun k s a s' _ => hc s a s', fun s a s' x hx => le_min (add_nonneg (hc s a s') hx) (vlv_nonneg p)⟩
  obtain ⟨m, hm'⟩ : ∃ m, p.maxIterations = m + 1 + 1 := ⟨p.maxIterations - 2, by omega⟩
  rw [hm', Problem.iterate] at h2
  obtain ⟨s, _, h2⟩ := bind_eq_ok.mp h2
  obtain ⟨q, hq, h2⟩ := bind_eq_ok.mp h2
  rw [Problem.iterate] at h2
  obtain ⟨s', _, h2⟩ := bind_eq_ok.mp h2
  obtain ⟨q', hq', h2⟩ := bind_eq_ok.mp h2
  have hA := search_after hC hnd _ (Inv.empty p _) hq
  have hvis := hA.visits (by omega)
  cases hg : q.2.tree.get? ((Solver.reset (Act := Act) (Obs := Obs) belief k).acts,
      (Solver.reset (σ := σ) (Act := Act) belief k).obs ++ [b]) with
  | none =>
    simp [visitsOf, hg] at hvis
  | some nd =>
    rw [Problem.search] at hq'
    simp only [Solver.reset, List.length_cons, List.length_nil, List.nil_append, ne_eq, not_true_eq_false,
      if_false] at hq' hg
    rw [hg] at hq'
    simp only at hq'
    cases hb : p.best q.2.tree [none] [b] (p.uct nd.visits) with
    | none => rw [hb] at hq'; simp at hq'
    | some a =>
      obtain ⟨_, na, h3, h4, _⟩ := best_some hb
      rw [hv] at h4
      unfold Problem.uct at h4
      rw [if_pos hd] at h4
      have hM := hA.inv.mean ([none] ++ [some a]) [b] na rfl h3
      by_cases hz : na.visits = 0
      · obtain ⟨l, _, _, h5, _⟩ := hM
        rw [h5 hz] at h4
        exact absurd h4 (lt_irrefl _)
      · have := hM.ge (c := 0) (fun x hx => hx) hz
        linarith

/-- **C131.** After an observation the belief has as many states as before, and each of them is drawn as a
successor, by the last action, of a state of the old belief that gave the observation in some draw. -/
theorem C131_belief {p : Problem σ Act Obs} (hu : ∀ k, 0 ≤ p.unit k ∧ p.unit k < 1) {z : Solver σ Act Obs} {b : Obs}
    {last : Option Act} (hlast : z.acts.getLast? = some last) {r : Option Act × Solver σ Act Obs}
    (e : p.nextAction b z = .ok r) :
    r.2.belief.length = z.belief.length ∧
    ∀ s' ∈ r.2.belief, ∃ s ∈ z.belief, (∃ i, p.observe i s last = b) ∧ ∃ i, s' = p.next i s last := by
  obtain ⟨bl, k', st, h1, _, rfl⟩ := nextAction_parts e
  rw [hlast] at h1 ⊢
  obtain ⟨h3, h4⟩ := filterBelief_ok hu h1
  refine ⟨by rw [← h3]; exact updateBelief_length _ _ _ _, ?_⟩
  intro s' hs'
  obtain ⟨s, hs, i, rfl⟩ := mem_updateBelief hs'
  exact ⟨s, (h4 s hs).1, (h4 s hs).2, i, rfl⟩

/-- **C131.** The errors of the belief: an IndexError without any sampled state; a ValueError when none of the
states gives the observation in its hundred draws, though it may be possible. -/
theorem C131_belief_errors {p : Problem σ Act Obs} {z : Solver σ Act Obs} {b : Obs} {last : Option Act}
    (hlast : z.acts.getLast? = some last) :
    (z.belief = [] → p.nextAction b z = .error .indexError) ∧
    (z.belief ≠ [] → (∀ i, ∀ hi : i < z.belief.length, ∀ j < 100,
      p.observe (z.st.draw + 100 * i + j) z.belief[i] last ≠ b) → p.nextAction b z = .error .valueError) := by
  constructor
  · intro h
    unfold Problem.nextAction
    simp only [hlast]
    have : p.filterBelief z.belief (some last).join b z.st.draw = .error .indexError := by
      unfold Problem.filterBelief
      simp [h]
    rw [this, bind_error]
  · intro h h2
    unfold Problem.nextAction
    simp only [hlast]
    have hne : ¬ z.belief.length = 0 := by simpa using h
    have : p.filterBelief z.belief (some last).join b z.st.draw = .error .valueError := by
      show p.filterBelief z.belief last b z.st.draw = .error .valueError
      unfold Problem.filterBelief
      simp only
      rw [if_neg hne, if_pos (total_zero.mpr h2)]
    rw [this, bind_error]

/-- A counter that can be seen: the observation is the state that is observed. -/
def counter : Problem Nat Unit Nat where
  actions := [()]
  applicable _ := [()]
  next _ s a := if a.isSome then s + 1 else s
  cost _ _ _ := 1
  observe _ s _ := s
  goal o := o == 3
  randomAction _ _ := ()
  unit _ := 0
  bonus n m := (n : Rat) / (m + 1)
  maxIterations := 2
  maxDepth := 5

/-- **C131 refuted**: the belief is compared with the observation before it is moved by the last action, whereas
the interface of the domains says that an observation is that of the state after the action.  A counter that
shows its state starts at 0 and the answer is to count; when it shows 1, the belief `0` does not give that
observation and the call raises a ValueError. -/
theorem C131_order_refuted :
    (∃ z, counter.nextAction 0 (Solver.reset [0] 0) = .ok (some (), z) ∧ z.belief = [0] ∧
      counter.nextAction (counter.observe 0 (counter.next 0 0 (some ())) (some ())) z = .error .valueError) := by
  have h1 : (counter.nextAction 0 (Solver.reset [0] 0)).map (fun q => (q.1, q.2.belief, q.2.acts)) =
      .ok (some (), [0], [none, some ()]) := by decide +kernel
  cases hr : counter.nextAction 0 (Solver.reset [0] 0) with
  | error e => rw [hr] at h1; simp [Except.map] at h1
  | ok q =>
    rw [hr] at h1
    simp only [Except.map, Except.ok.injEq, Prod.mk.injEq] at h1
    obtain ⟨e1, e2, e3⟩ := h1
    refine ⟨q.2, by rw [← e1], e2, ?_⟩
    refine (C131_belief_errors (last := some ()) (by rw [e3]; rfl)).2 (by rw [e2]; simp) ?_
    intro i hi j hj
    simp only [e2, List.length_singleton] at hi
    obtain rfl : i = 0 := by omega
    simp [e2, counter]

end Verif.Pomcp
