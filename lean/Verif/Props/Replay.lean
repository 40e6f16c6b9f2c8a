import Verif.Lemmas.SchedFollow

/-!
C102: rolling out the Gantt policy of a feasible plan replays the plan exactly.
-/
namespace Verif.Sched

/-- Rolling out the Gantt policy that holds the start times and modes of a feasible plan, when the
durations drawn for the tasks in their planned modes, and the capacities, are those of the plan: for every iteration order of Python's sets and
every bound on the steps of at least the number of tasks plus the makespan, the rollout ends without
error in a goal state at the plan's makespan, and every task has started, ended and run in the mode
as planned.  Capacities may be any; resources may be renewable or not; plans need not be eager.
(Partial: constant needs, no skills, no units, no conditional tasks; durations below 10000, and
tasks of duration zero need nothing: longer tasks are completed early, and the refutation below
shows what happens to the latter.) -/
theorem C102_replay_partial (dom : Dom) (ho : Ordinary dom) (p : Plan) (cap : Res → Int)
    (hp : p.Feasible dom cap) (hs : p.Sound dom) (hu : ∀ r ∈ dom.resUnits, 0 ≤ cap r)
    (pol : Policy) (sched : Dict TaskId Int) (h1 : pol.schedule = some sched) (h2 : pol.alloc = none)
    (h3 : ∀ x ∈ dom.tasks, ∀ s, (x, s) ∈ sched ↔ s = p.start x)
    (h4 : ∀ x ∈ dom.tasks, pol.modes.get? x = some (p.mode x))
    (ord : List TaskId → List TaskId) (hord : ∀ l, (ord l).Perm l) (draw : State → Action → Draw)
    (hdr : ∀ st a, (∀ x ∈ dom.tasks, a.task = some x → a.mode = some (p.mode x) → (draw st a).duration = p.dur x) ∧
      ∀ r ∈ dom.resTypes ++ dom.resUnits, (draw st a).avail r = cap r)
    (d0 : Draw) (hd0 : ∀ r ∈ dom.resTypes ++ dom.resUnits, d0.avail r = cap r) (dT dI T : Int)
    (hT : ∀ x ∈ dom.tasks, p.start x + p.dur x ≤ T) (hT' : ∃ x ∈ dom.tasks, p.start x + p.dur x = T)
    (hH : T ≤ dom.horizon) (n : Nat) (hn : dom.tasks.length + T.toNat ≤ n) :
    ∃ st, pol.follow .gantt ord dT dI dom draw n (initState dom d0) = .ok st ∧ isGoal st = true ∧ st.t = T ∧
      ∀ x ∈ dom.tasks, x ∈ st.complete ∧ st.mode.get? x = some (p.mode x) ∧
        ∃ i, st.details.get? x = some i ∧ i.start = some (p.start x) ∧
          i.finish = some (p.start x + p.dur x) := by
  have hI := inv_init ho hp hs hu hd0
  have hrem : (initState dom d0).remaining = dom.tasks := ho.unconditional
  obtain ⟨x, hx, hxT⟩ := hT'
  have hT0 : 0 ≤ T := by
    have := hp.start x hx
    have := hp.dur x hx
    omega
  have hg : isGoal (initState dom d0) = false := by
    unfold isGoal
    rw [hrem]
    cases hd : dom.tasks with
    | nil => rw [hd] at hx; cases hx
    | cons y l => rfl
  obtain ⟨st, e1, e2, e3, e4⟩ := follow_plan ho hp hs hu h1 h2 h3 h4 hord hdr (dT := dT) (dI := dI) hT ⟨x, hx, hxT⟩ hH n
    (initState dom d0) hI hg hT0 (by rw [hrem]; show _ + (T - 0).toNat ≤ n; omega)
  refine ⟨st, e1, e3, e4, fun y hy => ?_⟩
  have hc : y ∈ st.complete := by
    simp only [isGoal, Bool.and_eq_true, List.isEmpty_iff] at e3
    have hmem := (e2.live.all y).2 (by rw [ho.unconditional]; exact hy)
    simpa [allOf, e3.1.1, e3.1.2, e3.2] using hmem
  obtain ⟨k1, _, k2⟩ := e2.record hp hs hy hc
  exact ⟨hc, k1, k2⟩

/-- Two resources, 0 renewable with two units and 1 not renewable with three; task 1 has two modes. -/
def reDom : Dom where
  tasks := [0, 1, 2, 3]
  modes := [(0, [(1, .constant [])]), (1, [(1, .constant [(0, 2)]), (2, .constant [(0, 1), (1, 1)])]),
    (2, [(1, .constant [(0, 1), (1, 2)])]), (3, [(1, .constant [(0, 2)])])]
  resTypes := [0, 1]
  renewable := [(0, true), (1, false)]
  returned := [(1, false)]
  preds := fun x => if x = 1 ∨ x = 2 then [0] else if x = 3 then [1] else []
  duration := fun x _ => if x = 1 then 2 else if x = 2 then 3 else if x = 3 then 1 else 0
  preempt := [(0, false), (1, false), (2, false), (3, false)]
  horizon := 5

def reCap (r : Res) : Int := if r = 0 then 2 else 3

/-- Task 2 could start at time 0 and task 3 could wait: the plan is not eager. -/
def rePlan : Plan where
  start := fun x => if x = 2 then 1 else if x = 3 then 4 else 0
  mode := fun x => if x = 1 then 2 else 1
  dur := fun x => if x = 1 then 2 else if x = 2 then 3 else if x = 3 then 1 else 0

def rePol : Policy where
  perm := [0, 1, 2, 3]
  modes := [(0, 1), (1, 2), (2, 1), (3, 1)]
  schedule := some [(0, 0), (1, 0), (2, 1), (3, 4)]

theorem reDom_constant : ConstantModes reDom := by
  have key : ∀ p ∈ reDom.modes, ∀ q ∈ p.2, ∃ dd, q.2 = Mode.constant dd ∧ ∀ e ∈ dd, 0 ≤ e.2 := by
    intro p hp q hq
    simp only [reDom, List.mem_cons, List.not_mem_nil, or_false] at hp
    rcases hp with rfl | rfl | rfl | rfl <;> simp only [List.mem_cons, List.not_mem_nil, or_false] at hq
    · subst hq; exact ⟨_, rfl, by simp⟩
    · rcases hq with rfl | rfl <;> exact ⟨_, rfl, by simp⟩
    · subst hq; exact ⟨_, rfl, by simp⟩
    · subst hq; exact ⟨_, rfl, by simp⟩
  intro x ms m md h1 h2
  obtain ⟨dd, h3, h4⟩ := key (x, ms) (Dict.mem_of_get? h1) (m, md) (Dict.mem_of_get? h2)
  refine ⟨dd, h3, fun r => ?_⟩
  unfold val
  cases hg : dd.get? r with
  | none => simp
  | some v => exact h4 (r, v) (Dict.mem_of_get? hg)

theorem reDom_ordinary : Ordinary reDom := by
  refine ⟨⟨by decide, ?_, by decide, by decide, by decide, nofun, fun h => absurd rfl h⟩, reDom_constant, by decide, rfl,
    by decide, id, by decide⟩
  intro x ms m md h1 h2
  obtain ⟨dd, h3, _⟩ := reDom_constant x ms m md h1 h2
  exact ⟨dd, h3⟩

/-- The hypotheses hold for a plan that is not eager, with both kinds of resources and a second mode. -/
theorem rePlan_feasible : rePlan.Feasible reDom reCap ∧ rePlan.Sound reDom := by
  refine ⟨⟨?_, by decide, by decide, by decide, ?_, by decide⟩, by decide, ?_⟩
  · intro x hx
    have hx : x = 0 ∨ x = 1 ∨ x = 2 ∨ x = 3 := by simpa [reDom] using hx
    rcases hx with rfl | rfl | rfl | rfl <;> exact ⟨_, _, rfl, rfl⟩
  · intro r hr hb t
    have hr : r = 0 ∨ r = 1 := by simpa [reDom] using hr
    rcases hr with rfl | rfl
    · have e0 : needOf reDom rePlan.mode 0 0 = 0 := by decide
      have e1 : needOf reDom rePlan.mode 0 1 = 1 := by decide
      have e2 : needOf reDom rePlan.mode 0 2 = 1 := by decide
      have e3 : needOf reDom rePlan.mode 0 3 = 2 := by decide
      have d0 : rePlan.start 0 = 0 ∧ rePlan.dur 0 = 0 := by decide
      have d1 : rePlan.start 1 = 0 ∧ rePlan.dur 1 = 2 := by decide
      have d2 : rePlan.start 2 = 1 ∧ rePlan.dur 2 = 3 := by decide
      have d3 : rePlan.start 3 = 4 ∧ rePlan.dur 3 = 1 := by decide
      show _ ≤ (2 : Int)
      have ht : reDom.tasks = [0, 1, 2, 3] := rfl
      simp only [Plan.running, ht, List.filter_cons, List.filter_nil, d0, d1, d2, d3]
      split <;> split <;> split <;> split <;> rename_i a1 a2 a3 a4 <;>
        simp only [Bool.and_eq_true, decide_eq_true_eq] at a1 a2 a3 a4 <;>
        simp only [List.map_cons, List.map_nil, List.sum_cons, List.sum_nil, e0, e1, e2, e3] <;> omega
    · simp [reDom, Dict.get?] at hb
  · intro x hx
    have hx : x = 0 ∨ x = 1 ∨ x = 2 ∨ x = 3 := by simpa [reDom] using hx
    rcases hx with rfl | rfl | rfl | rfl
    · intro _ r; rfl
    · exact fun h => absurd h (by decide)
    · exact fun h => absurd h (by decide)
    · exact fun h => absurd h (by decide)

/-- Draws the planned durations and the capacities. -/
def planDraw (p : Plan) (cap : Res → Int) (_ : State) (a : Action) : Draw :=
  ⟨match a.task with | some x => p.dur x | none => 0, cap⟩

example : (∀ st a, (∀ x ∈ reDom.tasks, a.task = some x → a.mode = some (rePlan.mode x) → (planDraw rePlan reCap st a).duration = rePlan.dur x) ∧
      ∀ r ∈ reDom.resTypes ++ reDom.resUnits, (planDraw rePlan reCap st a).avail r = reCap r) ∧
    (∀ x ∈ reDom.tasks, rePlan.start x + rePlan.dur x ≤ 5) ∧ (∃ x ∈ reDom.tasks, rePlan.start x + rePlan.dur x = 5) ∧
    (∀ x ∈ reDom.tasks, rePol.modes.get? x = some (rePlan.mode x)) ∧
    ∀ x ∈ reDom.tasks, ∀ s, (x, s) ∈ [((0 : TaskId), (0 : Int)), (1, 0), (2, 1), (3, 4)] ↔ s = rePlan.start x := by
  refine ⟨?_, by decide, by decide, by decide, ?_⟩
  · intro st a
    refine ⟨?_, fun _ _ => rfl⟩
    intro x _ hx _
    simp only [planDraw, hx]
  · intro x hx
    have hx : x = 0 ∨ x = 1 ∨ x = 2 ∨ x = 3 := by simpa [reDom] using hx
    rcases hx with rfl | rfl | rfl | rfl <;> simp [rePlan]

/-- What the rollout leaves: the state's time, the unfinished tasks and the recorded times. -/
structure Outcome where
  t : Int
  left : List TaskId
  times : List (TaskId × Option Int × Option Int)
  deriving DecidableEq

def outcome (r : Except PyErr State) : Option Outcome :=
  match r with
  | .ok st => some ⟨st.t, st.remaining ++ st.ongoing, st.details.map fun e => (e.1, e.2.start, e.2.finish)⟩
  | .error _ => none

example : outcome (rePol.follow .gantt id 0 0 reDom (planDraw rePlan reCap) 9 (initState reDom ⟨0, reCap⟩)) =
    some ⟨5, [], [(0, some 0, some 0), (1, some 0, some 2), (2, some 1, some 4), (3, some 4, some 5)]⟩ := by
  decide +kernel

/-! ### What does not hold -/

/-- Task 1 lasts no time and needs the only unit that task 2, planned at the same time, needs. -/
def zeDom : Dom where
  tasks := [1, 2]
  modes := [(1, exMode 1), (2, exMode 1)]
  resTypes := [0]
  renewable := [(0, true)]
  preds := fun _ => []
  duration := fun x _ => if x = 2 then 1 else 0
  preempt := [(1, false), (2, false)]
  horizon := 3

def zePlan : Plan := ⟨fun _ => 0, fun _ => 1, fun x => if x = 2 then 1 else 0⟩

theorem zePlan_feasible : zePlan.Feasible zeDom (fun _ => 1) := by
  refine ⟨?_, by decide, by decide, by decide, ?_, by decide⟩
  · intro x hx
    have hx : x = 1 ∨ x = 2 := by simpa [zeDom] using hx
    rcases hx with rfl | rfl <;> exact ⟨_, _, rfl, rfl⟩
  · intro r hr hb t
    have hr : r = 0 := by simpa [zeDom] using hr
    subst hr
    have e2 : needOf zeDom zePlan.mode 0 2 = 1 := by decide
    have d1 : zePlan.start 1 = 0 ∧ zePlan.dur 1 = 0 := by decide
    have d2 : zePlan.start 2 = 0 ∧ zePlan.dur 2 = 1 := by decide
    have ht : zeDom.tasks = [1, 2] := rfl
    simp only [Plan.running, ht, List.filter_cons, List.filter_nil, d1, d2]
    split <;> split <;> rename_i a1 a2 <;>
      simp only [Bool.and_eq_true, decide_eq_true_eq] at a1 a2 <;>
      simp only [List.map_cons, List.map_nil, List.sum_cons, List.sum_nil, e2] <;> omega

/-- A feasible plan with a task of duration zero that needs a resource is not replayed: the resource
is never given back, and the rollout ends beyond the horizon with task 2 not started. -/
theorem C102_zero_duration_refuted :
    zePlan.Feasible zeDom (fun _ => 1) ∧
    outcome ((⟨[1, 2], [(1, 1), (2, 1)], some [(1, 0), (2, 0)], none⟩ : Policy).follow .gantt id 0 0 zeDom
      (planDraw zePlan fun _ => 1) 10 (initState zeDom ⟨0, fun _ => 1⟩)) =
      some ⟨4, [2], [(1, some 0, some 0), (2, none, none)]⟩ :=
  ⟨zePlan_feasible, by decide +kernel⟩

/-- Task 2 (followed by 3) needs both units after task 1; task 4 can run at any time. -/
def anDom : Dom where
  tasks := [1, 2, 3, 4]
  modes := [(1, exMode 1), (2, exMode 2), (3, exMode 1), (4, exMode 1)]
  resTypes := [0]
  renewable := [(0, true)]
  preds := fun x => if x = 2 then [1] else if x = 3 then [2] else []
  duration := fun x _ => if x = 3 then 3 else if x = 4 then 2 else 1
  preempt := [(1, false), (2, false), (3, false), (4, false)]
  horizon := 20

/-- Task 4 waits for task 2. -/
def anPlan : Plan where
  start := fun x => if x = 1 then 0 else if x = 2 then 1 else 2
  mode := fun _ => 1
  dur := fun x => if x = 3 then 3 else if x = 4 then 2 else 1

def anPol : Policy where
  perm := [1, 2, 3, 4]
  modes := [(1, 1), (2, 1), (3, 1), (4, 1)]
  schedule := some [(1, 0), (2, 1), (3, 2), (4, 2)]

theorem anPlan_feasible : anPlan.Feasible anDom (fun _ => 2) ∧ anPlan.Sound anDom := by
  refine ⟨⟨?_, by decide, by decide, by decide, ?_, by decide⟩, by decide, ?_⟩
  · intro x hx
    have hx : x = 1 ∨ x = 2 ∨ x = 3 ∨ x = 4 := by simpa [anDom] using hx
    rcases hx with rfl | rfl | rfl | rfl <;> exact ⟨_, _, rfl, rfl⟩
  · intro r hr hb t
    have hr : r = 0 := by simpa [anDom] using hr
    subst hr
    have e1 : needOf anDom anPlan.mode 0 1 = 1 := by decide
    have e2 : needOf anDom anPlan.mode 0 2 = 2 := by decide
    have e3 : needOf anDom anPlan.mode 0 3 = 1 := by decide
    have e4 : needOf anDom anPlan.mode 0 4 = 1 := by decide
    have d1 : anPlan.start 1 = 0 ∧ anPlan.dur 1 = 1 := by decide
    have d2 : anPlan.start 2 = 1 ∧ anPlan.dur 2 = 1 := by decide
    have d3 : anPlan.start 3 = 2 ∧ anPlan.dur 3 = 3 := by decide
    have d4 : anPlan.start 4 = 2 ∧ anPlan.dur 4 = 2 := by decide
    have ht : anDom.tasks = [1, 2, 3, 4] := rfl
    simp only [Plan.running, ht, List.filter_cons, List.filter_nil, d1, d2, d3, d4]
    split <;> split <;> split <;> split <;> rename_i a1 a2 a3 a4 <;>
      simp only [Bool.and_eq_true, decide_eq_true_eq] at a1 a2 a3 a4 <;>
      simp only [List.map_cons, List.map_nil, List.sum_cons, List.sum_nil, e1, e2, e3, e4] <;> omega
  · intro x hx h
    have hx : x = 1 ∨ x = 2 ∨ x = 3 ∨ x = 4 := by simpa [anDom] using hx
    rcases hx with rfl | rfl | rfl | rfl <;> exact absurd h (by decide)

/-- The methods that follow the order of a plan need not reproduce it, even when durations and
capacities are as planned: the plan ends at 5, the Gantt policy ends at 5, but "ready",
"precedence ready", "strict", "time freedom" and "index freedom" with that plan's order and start
times start task 4 at once and end at 6. -/
theorem C102_order_refuted :
    anPlan.Feasible anDom (fun _ => 2) ∧ anPlan.Sound anDom ∧
    outcome (anPol.follow .gantt id 0 0 anDom (planDraw anPlan fun _ => 2) 20 (initState anDom ⟨0, fun _ => 2⟩)) =
      some ⟨5, [], [(1, some 0, some 1), (2, some 1, some 2), (3, some 2, some 5), (4, some 2, some 4)]⟩ ∧
    ∀ meth ∈ [Method.ready, .precedence, .strict, .timeFreedom, .indexFreedom],
      outcome (anPol.follow meth id 0 0 anDom (planDraw anPlan fun _ => 2) 20 (initState anDom ⟨0, fun _ => 2⟩)) =
        some ⟨6, [], [(1, some 0, some 1), (2, some 2, some 3), (3, some 3, some 6), (4, some 0, some 2)]⟩ :=
  ⟨anPlan_feasible.1, anPlan_feasible.2, by decide +kernel, by decide +kernel⟩

end Verif.Sched
