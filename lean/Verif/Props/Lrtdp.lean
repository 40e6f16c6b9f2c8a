import Verif.Lemmas.Lrtdp

/-!
Properties of the C++ LRTDP solver (/repo/cpp/src/hub/solver/lrtdp.hh): its values are lower
bounds (C67), its labels tell the truth (C68), labelled states are solved nearly optimally (C69)
and it neither crashes nor leaves its root without an action (C70).
-/
namespace Verif.Lrtdp

/-- The expected discounted cost of the action `a` when `v` is to be paid afterwards. -/
def mean (m : Mdp σ α) (γ : Rat) (v : σ → Rat) (s : σ) (a : α) : Rat :=
  ((m.outcomes s a).map fun o => o.1 * (o.2.1 + γ * v o.2.2)).sum

/-- The states of a solver object that is used with labels: calls of `solve` from states in `R`
that are no goals, each with its own random draws and its own clock, on which time that is over
stays over. -/
inductive Session [DecidableEq σ] (m : Mdp σ α) (c : Config σ) (R : σ → Prop) : St σ α → Prop
  | start : Session m c R {}
  | solve {st st' : St σ α} {s : σ} (left : Nat → Bool) (draw : Nat → Nat) : Session m c R st → R s →
      m.goal s = false → (∀ k, left (k + 1) = true → left k = true) →
      solve m { c with left := left, draw := draw } st s = .ok st' → Session m c R st'

/-- `U` is at least the heuristic, and at least what some action costs in terms of `U`: for
example the cost of any policy, or the optimal cost. -/
structure CostBound (m : Mdp σ α) (c : Config σ) (U : σ → Rat) : Prop where
  prob : ∀ s, ∀ a ∈ m.actions s, ∀ o ∈ m.outcomes s a, 0 ≤ o.1
  discount : 0 ≤ c.discount
  goal : ∀ s, m.goal s = true → 0 ≤ U s
  heuristic : ∀ s, m.goal s = false → c.h s ≤ U s
  action : ∀ s, m.goal s = false → ∃ a ∈ m.actions s, mean m c.discount U s a ≤ U s

/-- The states `S` are not left, no action in `s` has more than `B s` outcomes, and the maximal
depth is larger than all these numbers together. -/
structure Roomy (m : Mdp σ α) (c : Config σ) (S : List σ) (B : σ → Nat) : Prop where
  closed : ∀ s ∈ S, ∀ a ∈ m.actions s, ∀ o ∈ m.outcomes s a, o.2.2 ∈ S
  bound : ∀ s ∈ S, ∀ a ∈ m.actions s, (m.outcomes s a).length ≤ B s
  depth : 1 + (S.map B).sum ≤ c.maxDepth

section
variable [DecidableEq σ] {m : Mdp σ α} {c : Config σ}

omit [DecidableEq σ] in
theorem CostBound.holds {U : σ → Rat} (hU : CostBound m c U) : Holds m c (fun s v => v ≤ U s) := by
  refine ⟨hU.heuristic, fun s hg v hv a w h => ?_⟩
  obtain ⟨b, hb, hq⟩ := hU.action s hg
  refine ((Mdp.greedy_some h).2.2 b hb).trans (le_trans (m.q_mono hU.discount (hU.prob s b hb) fun o ho => ?_) hq)
  cases hgo : m.goal o.2.2 with
  | true => rw [(hv b hb o ho).1 hgo]; exact hU.goal _ hgo
  | false => exact (hv b hb o ho).2 hgo

omit [DecidableEq σ] in
theorem holds_true : Holds m c (fun _ _ => True) := ⟨fun _ _ => trivial, fun _ _ _ _ _ _ _ => trivial⟩

theorem Session.inv {P : σ → Rat → Prop} (hP : Holds m c P) (hlab : c.useLabels = true) {R : σ → Prop} {st : St σ α}
    (h : Session m c R st) : Inv m c P st.graph := by
  induction h with
  | start => exact ⟨(by intro s n e; cases e), (by intro s n e; cases e), (by intro s n e; cases e), (by intro s n e; cases e)⟩
  | @solve st st' s left draw _ hR hg ht hs ih =>
    have p := solve_spec (c := { c with left := left, draw := draw }) (S := [s]) (B := fun _ => 0) ⟨hP.h, hP.step⟩ hlab
      ⟨ih.goal, ih.other, ih.upper, ih.act⟩ (fun _ => List.mem_cons_self) hg hs
    exact ⟨p.inv.goal, p.inv.other, p.inv.upper, p.inv.act⟩

theorem Session.labels (hlab : c.useLabels = true) {S : List σ} {B : σ → Nat} (hr : Roomy m c S B) {st : St σ α}
    (h : Session m c (· ∈ S) st) : Labels m c st.graph := by
  induction h with
  | start => intro s hs; cases hs
  | @solve st st' s left draw hst hR hg ht hs ih =>
    have hi := hst.inv (holds_true (m := m) (c := c)) hlab
    have p := solve_spec (c := { c with left := left, draw := draw }) (S := S) (B := B) holds_true hlab
      ⟨hi.goal, hi.other, hi.upper, hi.act⟩ (fun _ => hR) hg hs
    exact p.labels ⟨ht, hr.closed, hr.bound, hr.depth⟩ ih

theorem bestValue_ok {st : St σ α} {s : σ} {v : Rat} :
    bestValue st s = .ok v ↔ ∃ n, st.graph.get? s = some n ∧ n.value = v := by
  unfold bestValue
  cases st.graph.get? s <;> simp

theorem bestAction_ok {st : St σ α} {s : σ} {a : α} :
    bestAction st s = .ok a ↔ ∃ n, st.graph.get? s = some n ∧ n.best = some a := by
  unfold bestAction
  cases h : st.graph.get? s with
  | none => simp
  | some n => cases h' : n.best <;> simp [h']

end

/-! ### Witnesses -/

/-- A worker who must finish task 0 (cost 1, fails with probability 1/2); state 1 is the goal,
where one could go on idling at cost 1. -/
def retry : Mdp Nat Nat where
  actions := fun _ => [0]
  outcomes := fun s _ => if s = 0 then [(1/2, 1, 0), (1/2, 1, 1)] else [(1, 1, 1)]
  goal := fun s => s == 1

/-- A straight road 0, 1, 2, 3, 4 whose last leg costs 100. -/
def road : Mdp Nat Nat where
  actions := fun _ => [0]
  outcomes := fun s _ => [(1, if s = 3 then 100 else 0, s + 1)]
  goal := fun s => s == 4

/-- State 1 is a dead end. -/
def trap : Mdp Nat Nat where
  actions := fun s => if s = 0 then [0] else []
  outcomes := fun _ _ => [(1/2, 1, 1), (1/2, 1, 2)]
  goal := fun s => s == 2

/-- The solver after a call. -/
def after (r : Except PyErr (St Nat Nat)) : St Nat Nat :=
  match r with
  | .ok st => st
  | .error _ => {}

def returns (r : Except PyErr (St Nat Nat)) : Bool :=
  match r with
  | .ok _ => true
  | .error _ => false

theorem after_ok {r : Except PyErr (St Nat Nat)} (h : returns r = true) : r = .ok (after r) := by
  cases r with
  | ok st => rfl
  | error e => cases h

/-- A single call on a new object, with time enough. -/
theorem one_call {m : Mdp Nat Nat} {c : Config Nat} {s : Nat} {R : Nat → Prop} (hR : R s) (hg : m.goal s = false)
    (hl : c.left = fun _ => true) (h : returns (solve m c {} s) = true) : Session m c R (after (solve m c {} s)) := by
  refine Session.solve (fun _ => true) c.draw Session.start hR hg (fun _ h => h) ?_
  rw [← hl]
  exact after_ok h

/-! ### C67: lower bounds -/

/-- With labels, whatever the draws and however often and from wherever (no goal) it is called:
the values never exceed `U`, in particular not the optimal cost if the heuristic does not, and
goals have value 0. -/
theorem C67_lower_bound [DecidableEq σ] {m : Mdp σ α} {c : Config σ} (hlab : c.useLabels = true) {U : σ → Rat}
    (hU : CostBound m c U) {st : St σ α} (h : Session m c (fun _ => True) st) {s : σ} {v : Rat}
    (hv : bestValue st s = .ok v) : v ≤ U s ∧ (m.goal s = true → v = 0) := by
  have hi := h.inv hU.holds hlab
  obtain ⟨n, e, rfl⟩ := bestValue_ok.1 hv
  cases hg : m.goal s with
  | true =>
    have := (hi.goal s n e hg).1
    exact ⟨by rw [this]; exact hU.goal s hg, fun _ => this⟩
  | false => exact ⟨hi.upper s n e hg, fun h => by cases h⟩

/-- Ten rollouts on `retry`, always drawing the second outcome. -/
def tenRollouts : Config Nat := { h := fun _ => 0, rollouts := 10, draw := fun _ => 1 }

theorem retry_bound : CostBound retry tenRollouts (fun s => if s = 1 then 0 else 2) := by
  refine ⟨?_, by decide +kernel, ?_, ?_, ?_⟩
  · intro s a _ o ho
    simp only [retry] at ho
    split at ho
    · simp only [List.mem_cons, List.not_mem_nil, or_false] at ho
      rcases ho with rfl | rfl <;> decide +kernel
    · simp only [List.mem_cons, List.not_mem_nil, or_false] at ho
      subst ho; decide +kernel
  · intro s _; split <;> decide +kernel
  · intro s _; dsimp only [tenRollouts]; split <;> decide +kernel
  · intro s hs
    have hs1 : s ≠ 1 := by simpa [retry] using hs
    refine ⟨0, by simp [retry], ?_⟩
    rw [if_neg hs1]
    by_cases h0 : s = 0
    · subst h0; decide +kernel
    · have : mean retry 1 (fun s => if s = 1 then 0 else 2) s 0 = 1 := by
        simp [mean, retry, h0]
      show mean retry 1 _ s 0 ≤ 2
      rw [this]; decide +kernel

/-- Before the label is given the value is below the true cost 2. -/
example : Session retry tenRollouts (fun _ => True) (after (solve retry tenRollouts {} 0)) ∧
    bestValue (after (solve retry tenRollouts {} 0)) 0 = .ok (2047/1024) :=
  ⟨one_call trivial rfl rfl (by decide +kernel), by decide +kernel⟩

/-- Without labels the goal is updated like any other state: after ten rollouts the value is 10,
far above the true cost 2, and the goal itself has a positive value. -/
theorem C67_no_labels_overestimates :
    bestValue (after (solve retry { tenRollouts with useLabels := false } {} 0)) 0 = .ok 10 ∧
    bestValue (after (solve retry { tenRollouts with useLabels := false } {} 0)) 1 = .ok 10 := by
  decide +kernel

/-- With labels, a first call from a goal does nothing visible, but from then on the goal is an
ordinary state for the solver: with more rollouts and depth its cost grows without bound. -/
theorem C67_goal_first_overestimates :
    bestValue (after (solve retry { tenRollouts with rollouts := 3, maxDepth := 5 }
      (after (solve retry tenRollouts {} 1)) 0)) 1 = .ok 15 ∧
    bestValue (after (solve retry { tenRollouts with rollouts := 3, maxDepth := 5 }
      (after (solve retry tenRollouts {} 1)) 0)) 0 = .ok 8 := by
  decide +kernel

/-! ### C68: what a label means -/

/-- If the maximal depth is large enough for the states that can be reached, a labelled state that
is no goal has an applicable best action whose expected cost, computed from the values now, is
within `epsilon` of the value, and all whose outcomes are labelled. -/
theorem C68_labels_right_partial [DecidableEq σ] {m : Mdp σ α} {c : Config σ} (hlab : c.useLabels = true)
    {S : List σ} {B : σ → Nat} (hr : Roomy m c S B) {st : St σ α} (h : Session m c (· ∈ S) st) {s : σ}
    (hs : isSolved st.graph s = true) (hg : m.goal s = false) :
    ∃ a v, bestAction st s = .ok a ∧ a ∈ m.actions s ∧ bestValue st s = .ok v ∧
      (∀ V : σ → Rat, (∀ x w, bestValue st x = .ok w → V x = w) → |v - mean m c.discount V s a| ≤ c.epsilon) ∧
      ∀ o ∈ m.outcomes s a, isSolved st.graph o.2.2 = true := by
  obtain ⟨n, a, e, hb, ha, hq, ho⟩ := h.labels hlab hr s hs hg
  refine ⟨a, n.value, bestAction_ok.2 ⟨n, e, hb⟩, ha, bestValue_ok.2 ⟨n, e, rfl⟩, ?_, fun o h => (ho o h).2⟩
  intro V hV
  have : mean m c.discount V s a = m.q c.discount (value st.graph) s a := by
    refine m.q_congr c.discount fun o h => ?_
    obtain ⟨n', hn'⟩ := Option.isSome_iff_exists.1 (ho o h).1
    rw [value_of hn']
    exact hV _ _ (bestValue_ok.2 ⟨n', hn', rfl⟩)
  rw [this]
  exact hq

/-- Once a state is labelled, later calls of `solve` change neither its value nor its action, and
the label stays. -/
theorem C68_label_final [DecidableEq σ] {m : Mdp σ α} {c : Config σ} (hlab : c.useLabels = true) {R : σ → Prop}
    {st st' : St σ α} (h : Session m c R st) {left : Nat → Bool} {draw : Nat → Nat} {s0 : σ} (hg : m.goal s0 = false)
    (h' : solve m { c with left := left, draw := draw } st s0 = .ok st') {s : σ} (hs : isSolved st.graph s = true) :
    isSolved st'.graph s = true ∧ bestAction st' s = bestAction st s ∧ bestValue st' s = bestValue st s := by
  have hi := h.inv (holds_true (m := m) (c := c)) hlab
  have p := solve_spec (P := fun _ _ => True) (c := { c with left := left, draw := draw }) (S := [s0]) (B := fun _ => 0)
    holds_true hlab ⟨hi.goal, hi.other, hi.upper, hi.act⟩ (fun _ => List.mem_cons_self) hg h'
  obtain ⟨h1, h2⟩ := p.keeps.solved hs
  refine ⟨h1, ?_, ?_⟩
  · unfold bestAction; rw [h2]
  · unfold bestValue; rw [h2]

theorem retry_roomy : Roomy retry tenRollouts [0, 1] (fun _ => 2) := by
  refine ⟨?_, ?_, by decide⟩
  · intro s hs a _ o ho
    simp only [retry] at ho
    split at ho
    · simp only [List.mem_cons, List.not_mem_nil, or_false] at ho
      rcases ho with rfl | rfl <;> decide
    · simp only [List.mem_cons, List.not_mem_nil, or_false] at ho
      subst ho; decide
  · intro s hs a _
    simp only [retry]
    split <;> decide

/-- State 0 of `retry` is labelled with value 2047/1024 ... -/
example : Session retry tenRollouts (· ∈ [0, 1]) (after (solve retry tenRollouts {} 0)) ∧
    isSolved (after (solve retry tenRollouts {} 0)).graph 0 = true ∧ retry.goal 0 = false :=
  ⟨one_call (by decide) rfl rfl (by decide +kernel), by decide +kernel, rfl⟩

/-- When the maximal depth is reached while there are still states to check, the check counts as
passed: with depth 2 the state 0 of `road`, whose true cost is 100, is labelled with value 0, and
so is state 2, whose best action leads to a state without label that was never looked at. -/
theorem C68_depth_labels_wrong :
    isSolved (after (solve road { h := fun _ => 0, maxDepth := 2 } {} 0)).graph 0 = true ∧
    bestValue (after (solve road { h := fun _ => 0, maxDepth := 2 } {} 0)) 0 = .ok 0 ∧
    isSolved (after (solve road { h := fun _ => 0, maxDepth := 2 } {} 0)).graph 2 = true ∧
    isSolved (after (solve road { h := fun _ => 0, maxDepth := 2 } {} 0)).graph 3 = false ∧
    bestAction (after (solve road { h := fun _ => 0, maxDepth := 2 } {} 0)) 3 = .error .runtimeError := by
  decide +kernel

/-! ### C69: labelled states are solved nearly optimally -/

/-- The best actions lead with positive probability to a goal. -/
inductive Leads [DecidableEq σ] (m : Mdp σ α) (st : St σ α) : σ → Prop
  | goal {s : σ} : m.goal s = true → Leads m st s
  | step {s : σ} {a : α} {o : Rat × Rat × σ} : bestAction st s = .ok a → o ∈ m.outcomes s a → 0 < o.1 →
      Leads m st o.2.2 → Leads m st s

/-- `W` is the cost of following `get_best_action` from the labelled states: 0 at goals, and the
equation of policy evaluation elsewhere. -/
structure PolicyCost [DecidableEq σ] (m : Mdp σ α) (γ : Rat) (st : St σ α) (W : σ → Rat) : Prop where
  goal : ∀ s, m.goal s = true → W s = 0
  step : ∀ s a, isSolved st.graph s = true → m.goal s = false → bestAction st s = .ok a → W s = mean m γ W s a

section
variable [DecidableEq σ] {m : Mdp σ α}

/-- A quantity that is at most its expected discounted successor is nowhere positive. -/
theorem max_principle {c : Config σ} {st : St σ α} (hl : Labels m c st.graph) (hγ0 : 0 ≤ c.discount) (hγ1 : c.discount ≤ 1)
    (hp : ∀ s, ∀ a ∈ m.actions s, ∀ o ∈ m.outcomes s a, 0 ≤ o.1)
    (hsum : ∀ s, ∀ a ∈ m.actions s, ((m.outcomes s a).map fun o => o.1).sum = 1)
    (D : σ → Rat) (hgoal : ∀ s, isSolved st.graph s = true → m.goal s = true → D s ≤ 0)
    (hstep : ∀ s a, isSolved st.graph s = true → m.goal s = false → bestAction st s = .ok a → a ∈ m.actions s →
      D s ≤ c.discount * ((m.outcomes s a).map fun o => o.1 * D o.2.2).sum)
    (hprog : c.discount < 1 ∨ ∀ s, isSolved st.graph s = true → Leads m st s) :
    ∀ s, isSolved st.graph s = true → D s ≤ 0 := by
  intro s hs
  by_contra hpos
  have hmem : ∀ x, isSolved st.graph x = true → x ∈ (st.graph.keys.filter fun x => isSolved st.graph x) := by
    intro x hx
    rw [List.mem_filter]
    refine ⟨?_, hx⟩
    obtain ⟨n, hn, -⟩ := isSolved_iff.1 hx
    exact (Dict.get?_isSome_iff_mem_keys _ _).1 (by rw [hn]; rfl)
  obtain ⟨s0, hs0, hmax⟩ := exists_max D _ (List.ne_nil_of_mem (hmem s hs))
  rw [List.mem_filter] at hs0
  have hM : 0 < D s0 := lt_of_lt_of_le (not_le.1 hpos) (hmax s (hmem s hs))
  -- at every maximal state no goal is near
  have key : ∀ x, isSolved st.graph x = true → D x = D s0 → m.goal x = false ∧ ∃ a, bestAction st x = .ok a ∧
      1 ≤ c.discount ∧ ∀ o ∈ m.outcomes x a, 0 < o.1 → isSolved st.graph o.2.2 = true ∧ D o.2.2 = D s0 := by
    intro x hx hD
    have hg : m.goal x = false := by
      cases hg : m.goal x with
      | false => rfl
      | true => have := hgoal x hx hg; linarith
    obtain ⟨n, a, e, hb, ha, hq, ho⟩ := hl x hx hg
    have hba : bestAction st x = .ok a := bestAction_ok.2 ⟨n, e, hb⟩
    have h1 := hstep x a hx hg hba ha
    have hle : ∀ o ∈ m.outcomes x a, D o.2.2 ≤ D s0 := fun o h => hmax _ (hmem _ (ho o h).2)
    have h2 := Mdp.sum_lin (m.outcomes x a) D (D s0)
    rw [hsum x a ha, mul_one] at h2
    have hnn : ∀ o ∈ m.outcomes x a, 0 ≤ o.1 * (D s0 - D o.2.2) := fun o h =>
      mul_nonneg (hp x a ha o h) (by linarith [hle o h])
    have h3 := Mdp.sum_nonneg (m.outcomes x a) hnn
    have h4 : c.discount * ((m.outcomes x a).map fun o => o.1 * D o.2.2).sum ≤ c.discount * D s0 :=
      mul_le_mul_of_nonneg_left (by linarith) hγ0
    have h5 : 1 ≤ c.discount := by
      by_contra h
      have := mul_lt_mul_of_pos_right (not_le.1 h) hM
      linarith
    have h6 : c.discount = 1 := le_antisymm hγ1 h5
    rw [h6, one_mul] at h1
    refine ⟨hg, a, hba, h5, fun o h hpo => ⟨(ho o h).2, ?_⟩⟩
    have h7 := Mdp.sum_zero_of_nonneg _ hnn (by linarith) o h
    have h8 : D s0 - D o.2.2 = 0 := by
      rcases mul_eq_zero.1 h7 with h | h
      · linarith
      · exact h
    linarith
  rcases hprog with h | h
  · obtain ⟨-, _, _, h', -⟩ := key s0 hs0.2 rfl
    linarith
  · have : ∀ x, Leads m st x → isSolved st.graph x = true → D x = D s0 → False := by
      intro x hx
      induction hx with
      | goal hg =>
        intro h1 h2
        rw [(key _ h1 h2).1] at hg; cases hg
      | @step x a o hb ho hpo _ ih =>
        intro h1 h2
        obtain ⟨-, a', hb', -, hall⟩ := key _ h1 h2
        rw [hb] at hb'; cases hb'
        exact ih (hall o ho hpo).1 (hall o ho hpo).2
    exact this s0 (h s0 hs0.2) hs0.2 rfl

omit [DecidableEq σ] in
theorem mean_sub (γ : Rat) (V W T : σ → Rat) (e : Rat) (s : σ) (a : α) :
    mean m γ W s a - mean m γ V s a - e * γ * ((m.outcomes s a).map fun o => o.1 * T o.2.2).sum =
    γ * ((m.outcomes s a).map fun o => o.1 * (W o.2.2 - V o.2.2 - e * T o.2.2)).sum := by
  unfold mean
  induction m.outcomes s a with
  | nil => simp
  | cons o l ih =>
    simp only [List.map_cons, List.sum_cons]
    linarith

end

/-- Costs may be undiscounted.  If following the best actions reaches a goal with positive
probability from every labelled state, the cost `W` of doing so is above the bound `U` (take the
optimal cost) by at most `epsilon` times the expected number of steps `T`. -/
theorem C69_near_optimal_partial [DecidableEq σ] {m : Mdp σ α} {c : Config σ} (hlab : c.useLabels = true)
    {S : List σ} {B : σ → Nat} (hr : Roomy m c S B) {U : σ → Rat} (hU : CostBound m c U) (hγ : c.discount ≤ 1)
    (hsum : ∀ s, ∀ a ∈ m.actions s, ((m.outcomes s a).map fun o => o.1).sum = 1)
    {st : St σ α} (h : Session m c (· ∈ S) st)
    (hlead : ∀ s, isSolved st.graph s = true → Leads m st s) {W T : σ → Rat} (hW : PolicyCost m c.discount st W)
    (hT0 : ∀ s, m.goal s = true → T s = 0)
    (hT : ∀ s a, isSolved st.graph s = true → m.goal s = false → bestAction st s = .ok a →
      T s = 1 + c.discount * ((m.outcomes s a).map fun o => o.1 * T o.2.2).sum)
    {s : σ} (hs : isSolved st.graph s = true) : W s ≤ U s + c.epsilon * T s := by
  have hl := h.labels hlab hr
  have hi := h.inv hU.holds hlab
  have hi' : Inv m c (fun s v => v ≤ U s) st.graph := hi
  have hD := max_principle hl hU.discount hγ hU.prob hsum (fun s => W s - value st.graph s - c.epsilon * T s) (by
    intro x hx hg
    obtain ⟨n, e, -⟩ := isSolved_iff.1 hx
    rw [hW.goal x hg, hT0 x hg, value_of e, (hi'.goal x n e hg).1]
    norm_num) (by
    intro x a hx hg hb _
    obtain ⟨n, a', e, hb', -, hq, -⟩ := hl x hx hg
    have : a' = a := by
      have := bestAction_ok.2 ⟨n, e, hb'⟩
      rw [hb] at this; cases this; rfl
    subst this
    have h1 := mean_sub (m := m) c.discount (value st.graph) W T c.epsilon x a'
    rw [← h1, hW.step x a' hx hg hb, hT x a' hx hg hb, value_of e]
    have h2 := (abs_le.1 hq).1
    change -c.epsilon ≤ n.value - mean m c.discount (value st.graph) x a' at h2
    linarith) (.inr hlead) s hs
  obtain ⟨n, e, -⟩ := isSolved_iff.1 hs
  have hv := (C67_lower_bound hlab hU (by
    have : ∀ {st : St σ α}, Session m c (· ∈ S) st → Session m c (fun _ => True) st := by
      intro st h
      induction h with
      | start => exact .start
      | solve left draw _ _ hg ht hs ih => exact .solve left draw ih trivial hg ht hs
    exact this h) (bestValue_ok.2 ⟨n, e, rfl⟩)).1
  rw [value_of e] at hD
  linarith

/-- With a discount below one, the cost of following the best actions from a labelled state is
above `U` by at most `epsilon / (1 - discount)`. -/
theorem C69_near_optimal_discounted_partial [DecidableEq σ] {m : Mdp σ α} {c : Config σ} (hlab : c.useLabels = true)
    {S : List σ} {B : σ → Nat} (hr : Roomy m c S B) {U : σ → Rat} (hU : CostBound m c U) (hγ : c.discount < 1)
    (hε : 0 ≤ c.epsilon)
    (hsum : ∀ s, ∀ a ∈ m.actions s, ((m.outcomes s a).map fun o => o.1).sum = 1)
    {st : St σ α} (h : Session m c (· ∈ S) st) {W : σ → Rat} (hW : PolicyCost m c.discount st W)
    {s : σ} (hs : isSolved st.graph s = true) : W s ≤ U s + c.epsilon / (1 - c.discount) := by
  have hl := h.labels hlab hr
  have hi : Inv m c (fun s v => v ≤ U s) st.graph := h.inv hU.holds hlab
  have hpos : 0 < 1 - c.discount := by linarith
  generalize hK : c.epsilon / (1 - c.discount) = K
  have hKe : c.epsilon = K * (1 - c.discount) := by rw [← hK, div_mul_cancel₀ _ hpos.ne']
  have hK0 : 0 ≤ K := by rw [← hK]; exact div_nonneg hε hpos.le
  have hD := max_principle hl hU.discount hγ.le hU.prob hsum (fun s => W s - value st.graph s - K * 1) (by
    intro x hx hg
    obtain ⟨n, e, -⟩ := isSolved_iff.1 hx
    rw [hW.goal x hg, value_of e, (hi.goal x n e hg).1]
    linarith) (by
    intro x a hx hg hb ha
    obtain ⟨n, a', e, hb', -, hq, -⟩ := hl x hx hg
    have : a' = a := by
      have := bestAction_ok.2 ⟨n, e, hb'⟩
      rw [hb] at this; cases this; rfl
    subst this
    have h1 := mean_sub (m := m) c.discount (value st.graph) W (fun _ => 1) K x a'
    rw [← h1, hW.step x a' hx hg hb, value_of e]
    simp only [mul_one]
    rw [hsum x a' ha]
    have h2 := (abs_le.1 hq).1
    change -c.epsilon ≤ n.value - mean m c.discount (value st.graph) x a' at h2
    rw [hKe] at h2
    linarith) (.inl hγ) s hs
  obtain ⟨n, e, -⟩ := isSolved_iff.1 hs
  cases hg : m.goal s with
  | true =>
    rw [hW.goal s hg]
    linarith [hU.goal s hg]
  | false =>
    have hv := hi.upper s n e hg
    rw [value_of e] at hD
    linarith

theorem retry_solved : Session retry tenRollouts (· ∈ [0, 1]) (after (solve retry tenRollouts {} 0)) :=
  one_call (by decide) rfl rfl (by decide +kernel)

/-- Only the two states are labelled. -/
theorem retry_labels {s : Nat} (h : isSolved (after (solve retry tenRollouts {} 0)).graph s = true) : s = 0 ∨ s = 1 := by
  obtain ⟨n, hn, -⟩ := isSolved_iff.1 h
  have hk : s ∈ (after (solve retry tenRollouts {} 0)).graph.keys :=
    (Dict.get?_isSome_iff_mem_keys _ _).1 (by rw [hn]; rfl)
  rw [show (after (solve retry tenRollouts {} 0)).graph.keys = [0, 1] by decide +kernel] at hk
  simpa using hk

/-- All hypotheses of `C69_near_optimal_partial` are met by `retry`, where following the best
action costs 2 and takes 2 steps. -/
example : Roomy retry tenRollouts [0, 1] (fun _ => 2) ∧
    CostBound retry tenRollouts (fun s => if s = 1 then 0 else 2) ∧
    Session retry tenRollouts (· ∈ [0, 1]) (after (solve retry tenRollouts {} 0)) ∧
    (∀ s, isSolved (after (solve retry tenRollouts {} 0)).graph s = true → Leads retry (after (solve retry tenRollouts {} 0)) s) ∧
    PolicyCost retry 1 (after (solve retry tenRollouts {} 0)) (fun s => if s = 1 then 0 else 2) ∧
    isSolved (after (solve retry tenRollouts {} 0)).graph 0 = true := by
  refine ⟨retry_roomy, retry_bound, retry_solved, ?_, ⟨?_, ?_⟩, by decide +kernel⟩
  · intro s hs
    rcases retry_labels hs with rfl | rfl
    · exact .step (a := 0) (o := (1/2, 1, 1)) (by decide +kernel) (by decide +kernel) (by decide +kernel) (.goal rfl)
    · exact .goal rfl
  · intro s hs
    have : s = 1 := by simpa [retry] using hs
    simp [this]
  · intro s a hs hg hb
    rcases retry_labels hs with rfl | rfl
    · have : bestAction (after (solve retry tenRollouts {} 0)) 0 = .ok 0 := by decide +kernel
      rw [this] at hb; cases hb
      decide +kernel
    · cases hg

/-- And those of `C69_near_optimal_discounted_partial` with discount 1/2. -/
example : Roomy retry { tenRollouts with discount := 1/2 } [0, 1] (fun _ => 2) ∧
    Session retry { tenRollouts with discount := 1/2 } (· ∈ [0, 1])
      (after (solve retry { tenRollouts with discount := 1/2 } {} 0)) ∧
    isSolved (after (solve retry { tenRollouts with discount := 1/2 } {} 0)).graph 0 = true ∧
    CostBound retry { tenRollouts with discount := 1/2 } (fun s => if s = 1 then 0 else 2) :=
  ⟨⟨retry_roomy.closed, retry_roomy.bound, retry_roomy.depth⟩, one_call (by decide) rfl rfl (by decide +kernel),
    by decide +kernel, by
      refine ⟨retry_bound.prob, by decide +kernel, retry_bound.goal, retry_bound.heuristic, fun s hs => ?_⟩
      have hs1 : s ≠ 1 := by simpa [retry] using hs
      refine ⟨0, by simp [retry], ?_⟩
      rw [if_neg hs1]
      by_cases h0 : s = 0
      · subst h0; decide +kernel
      · have : mean retry (1/2) (fun s => if s = 1 then 0 else 2) s 0 = 1 := by
          simp [mean, retry, h0]
        show mean retry (1/2) _ s 0 ≤ 2
        rw [this]; decide +kernel⟩

/-! ### C70: no crash -/

/-- With labels, if every state that is no goal has an action and every action an outcome, `solve`
never dereferences a null pointer. -/
theorem C70_no_crash [DecidableEq σ] {m : Mdp σ α} {c : Config σ} (hlab : c.useLabels = true)
    (ha : ∀ s, m.goal s = false → m.actions s ≠ [] ∧ ∀ a ∈ m.actions s, m.outcomes s a ≠ [])
    {R : σ → Prop} {st : St σ α} (h : Session m c R st) (left : Nat → Bool) (draw : Nat → Nat) {s : σ}
    (hg : m.goal s = false) : ∃ st', solve m { c with left := left, draw := draw } st s = .ok st' := by
  have hi := h.inv (holds_true (m := m) (c := c)) hlab
  exact solve_total (c := { c with left := left, draw := draw }) (P := fun _ _ => True) holds_true ha hlab st ⟨hi.goal, hi.other, hi.upper, hi.act⟩ hg

/-- After a call that had time for a step, `get_best_action` gives an applicable action for the
state the call was for. -/
theorem C70_root_has_action [DecidableEq σ] {m : Mdp σ α} {c : Config σ} (hlab : c.useLabels = true)
    {R : σ → Prop} {st st' : St σ α} (h : Session m c R st) {left : Nat → Bool} {draw : Nat → Nat} {s : σ}
    (hg : m.goal s = false) (h1 : left st.clock = true) (h2 : left (st.clock + 1) = true)
    (hd : c.maxDepth ≠ 0) (hr : c.rollouts ≠ 0)
    (h' : solve m { c with left := left, draw := draw } st s = .ok st') :
    ∃ a ∈ m.actions s, bestAction st' s = .ok a := by
  have hi := h.inv (holds_true (m := m) (c := c)) hlab
  have hi' : Inv m { c with left := left, draw := draw } (fun _ _ => True) st.graph := ⟨hi.goal, hi.other, hi.upper, hi.act⟩
  obtain ⟨n, e, hb⟩ := solve_best (c := { c with left := left, draw := draw }) holds_true hlab st hi' hg h1 h2 hd hr h'
  have p := solve_spec (c := { c with left := left, draw := draw }) (P := fun _ _ => True) (S := [s]) (B := fun _ => 0)
    holds_true hlab hi'
    (fun _ => List.mem_cons_self) hg h'
  obtain ⟨a, ea⟩ := Option.isSome_iff_exists.1 hb
  exact ⟨a, (p.inv.act s n e hg).1 a ea, bestAction_ok.2 ⟨n, e, ea⟩⟩

/-- The hypotheses are met by `retry`. -/
example : (∀ s, retry.goal s = false → retry.actions s ≠ [] ∧ ∀ a ∈ retry.actions s, retry.outcomes s a ≠ []) ∧
    Session retry tenRollouts (fun _ => True) (after (solve retry tenRollouts {} 0)) := by
  refine ⟨fun s _ => ⟨by simp [retry], fun a _ => ?_⟩, one_call trivial rfl rfl (by decide +kernel)⟩
  simp only [retry]
  split <;> simp

/-- Asking is safe in any state of the solver: a query is answered, or it raises `runtime_error`, and
it does so exactly if the state is not in the graph or, for the action, has none. -/
theorem C70_queries_safe [DecidableEq σ] (st : St σ α) (s : σ) :
    (∀ a, bestAction st s = .ok a ↔ ∃ n, st.graph.get? s = some n ∧ n.best = some a) ∧
    ((∀ n, st.graph.get? s = some n → n.best = none) → bestAction st s = .error .runtimeError) ∧
    (∀ v, bestValue st s = .ok v ↔ ∃ n, st.graph.get? s = some n ∧ n.value = v) ∧
    (st.graph.get? s = none → bestValue st s = .error .runtimeError) := by
  unfold bestAction bestValue
  cases hg : st.graph.get? s with
  | none => simp
  | some n => cases hb : n.best <;> simp [hb]

/-- Both kinds of answers occur. -/
example : bestAction (σ := Nat) (α := Nat) { graph := [(0, { value := 2, solved := false, best := some 7 }), (1, { value := 0, solved := true })] } 0 = .ok 7 ∧
    bestAction (σ := Nat) (α := Nat) { graph := [(0, { value := 2, solved := false, best := some 7 }), (1, { value := 0, solved := true })] } 1 = .error .runtimeError ∧
    bestValue (σ := Nat) (α := Nat) { graph := [(0, { value := 2, solved := false, best := some 7 }), (1, { value := 0, solved := true })] } 2 = .error .runtimeError := by
  decide +kernel

def crashes (r : Except PyErr (St Nat Nat)) : Bool :=
  match r with
  | .ok _ => false
  | .error e => e == .attributeError

/-- A dead end makes the solver dereference a null pointer. -/
theorem C70_dead_end_crashes : crashes (solve trap { h := fun _ => 0 } {} 0) = true := by
  decide +kernel

/-- A goal without actions does so when labels are off, even if the goal is all that was missing. -/
theorem C70_goal_without_action_crashes :
    crashes (solve (σ := Nat) (α := Nat) ⟨fun s => if s = 0 then [0] else [], fun _ _ => [(1, 1, 1)], fun s => s == 1⟩
      { h := fun _ => 0, useLabels := false } {} 0) = true ∧
    returns (solve (σ := Nat) (α := Nat) ⟨fun s => if s = 0 then [0] else [], fun _ _ => [(1, 1, 1)], fun s => s == 1⟩
      { h := fun _ => 0 } {} 0) = true := by
  decide +kernel

end Verif.Lrtdp
