import Verif.Model.SchedRollout

/-!
More of the scheduling domains: time windows and time lags (builders/scheduling/time_windows.py, time_lag.py), transition values and the
transition function that returns distributions (scheduling_domains.py).
-/
namespace Verif.Sched

/-! ### Time windows and lags -/

/-- time_windows.py 7-14, `TimeWindow`. -/
structure Window where
  earliestStart : Int
  latestStart : Int
  earliestEnd : Int
  latestEnd : Int
  deriving DecidableEq, Repr

/-- Lines 17-24, `ClassicTimeWindow`. -/
def classic (earliestStart latestEnd horizon : Int) : Window := ⟨earliestStart, horizon, 0, latestEnd⟩

/-- Lines 27-34, `StartFromOnlyTimeWindow`. -/
def startFromOnly (earliestStart horizon : Int) : Window := ⟨earliestStart, horizon, 0, horizon⟩

/-- Lines 37-44, `StartBeforeOnlyTimeWindow`. -/
def startBeforeOnly (latestStart horizon : Int) : Window := ⟨0, latestStart, 0, horizon⟩

/-- Lines 47-54, `EndFromOnlyTimeWindow`. -/
def endFromOnly (earliestEnd horizon : Int) : Window := ⟨0, horizon, earliestEnd, horizon⟩

/-- Lines 57-64, `EndBeforeOnlyTimeWindow`. -/
def endBeforeOnly (latestEnd horizon : Int) : Window := ⟨0, horizon, 0, latestEnd⟩

/-- Lines 67-74, `StartTimeWindow`. -/
def startWindow (earliestStart latestStart horizon : Int) : Window := ⟨earliestStart, latestStart, 0, horizon⟩

/-- Lines 77-84, `EndTimeWindow`. -/
def endWindow (earliestEnd latestEnd horizon : Int) : Window := ⟨0, horizon, earliestEnd, latestEnd⟩

/-- Lines 87-94, `EmptyTimeWindow`. -/
def emptyWindow (horizon : Int) : Window := ⟨0, horizon, 0, horizon⟩

/-- Lines 138-153, `WithoutTimeWindow._get_time_window`. -/
def noWindows (dom : Dom) : Dict TaskId Window := dom.tasks.foldl (fun d x => Dict.set d x (emptyWindow dom.horizon)) []

/-- time_lag.py 7-12, `TimeLag`: times between the end of one task and the start of another. -/
structure Lag where
  minimum : Int
  maximum : Int
  deriving DecidableEq, Repr

/-- Lines 15-20, `MinimumOnlyTimeLag`: no class above it has `get_max_horizon`. -/
def minimumOnly (_minimum : Int) : Except PyErr Lag := .error .attributeError

/-- Lines 23-28, `MaximumOnlyTimeLag`. -/
def maximumOnly (maximum : Int) : Lag := ⟨0, maximum⟩

/-- Lines 83-90, `WithoutTimeLag._get_time_lags`. -/
def noLags : Dict TaskId (Dict TaskId Lag) := []

/-! ### Transition values -/

/-- What `_get_transition_value` asks the domain for (resource_costs.py and `get_objectives`). -/
structure Costs where
  /-- `SchedulingObjectiveEnum.MAKESPAN in get_objectives()` -/
  makespan : Bool
  /-- `SchedulingObjectiveEnum.COST in get_objectives()` -/
  cost : Bool
  /-- `get_mode_costs()` -/
  modeCosts : Dict TaskId (Dict ModeId Rat)
  /-- `get_resource_cost_per_time_unit()` -/
  perTime : Dict Res Rat

/-- scheduling_domains.py 782-786 and 789-793: one resource.  The memory of these Markovian domains is the state itself, which cannot
be indexed: `memory[-1]` raises `TypeError`. -/
def resourceCost (dom : Dom) (c : Costs) (st' : State) (r : Res) : Except PyErr Rat := do
  if (← isRenewable dom r) then
    let p ← c.perTime.get r
    let u ← st'.used.get r
    return p * u
  else
    let _ ← st'.used.get r
    .error .typeError

/-- Lines 780-793: the loops over the resources. -/
def resourceCosts (dom : Dom) (c : Costs) (st' : State) : List Res → Except PyErr Rat
  | [] => .ok 0
  | r :: rs => do
    let x ← resourceCost dom c st' r
    let y ← resourceCosts dom c st' rs
    return x + y

/-- Lines 775-777: the cost of the mode. -/
def modeCost (c : Costs) (a : Action) : Except PyErr Rat :=
  if a.kind = .start then do
    let d ← dgetO c.modeCosts a.task
    dgetO d a.mode
  else .ok 0

/-- Lines 764-799, `_get_transition_value`: its cost. -/
def transitionCost (dom : Dom) (c : Costs) (st : State) (a : Action) (st' : State) : Except PyErr Rat := do
  let mk : Rat := if c.makespan then (st'.t : Rat) - (st.t : Rat) else 0
  if c.cost then
    let m ← modeCost c a
    let x ← resourceCosts dom c st' dom.resTypes
    let y ← resourceCosts dom c st' dom.resUnits
    return mk + (m + x + y)
  else return mk

/-- The sum of the costs along a sequence of actions (deterministic transitions). -/
def runCost (dom : Dom) (c : Costs) : State → List (Action × Draw) → Except PyErr Rat
  | _, [] => .ok 0
  | st, (a, d) :: rest => do
    let st' ← nextState dom d st a
    let x ← transitionCost dom c st a st'
    let y ← runCost dom c st' rest
    return x + y

/-- resource_costs.py 26-36, `WithoutModeCosts`. -/
def noModeCosts (dom : Dom) : Dict TaskId (Dict ModeId Rat) := dom.modes.map fun p => (p.1, p.2.map fun q => (q.1, 0))

/-- resource_costs.py 53-60, `WithoutResourceCosts`. -/
def noResourceCosts (dom : Dom) : Dict Res Rat := (dom.resTypes ++ dom.resUnits).foldl (fun d r => Dict.set d r 0) []

/-! ### Transitions as distributions -/

/-- core.py 197-216: `DiscreteDistribution(values)`; without values `unzip_values[0]` raises `IndexError`. -/
def mkDist (l : List (State × Rat)) : Except PyErr (List (State × Rat)) :=
  if l = [] then .error .indexError else .ok l

/-- Apply a function to every state of a distribution, from left to right. -/
def mapStates (f : State → Except PyErr State) : List (State × Rat) → Except PyErr (List (State × Rat))
  | [] => .ok []
  | (s, p) :: rest => do
    let s' ← f s
    let l ← mapStates f rest
    return (s', p) :: l

/-- scheduling_domains.py 610-626: one state for each duration. -/
def startEach (dom : Dom) (avail : Res → Int) (st : State) (a : Action) : List (Int × Rat) → Except PyErr (List (State × Rat))
  | [] => .ok []
  | (d, p) :: rest => do
    let s ← updateStart dom ⟨d, avail⟩ st a
    let l ← startEach dom avail st a rest
    return (s, p) :: l

/-- Lines 597-628, `update_start_tasks_uncertain`; `dist` is `get_task_duration_distribution(...).get_values()`. -/
def startDist (dom : Dom) (dist : TaskId → ModeId → List (Int × Rat)) (avail : Res → Int) (st : State) (a : Action) :
    Except PyErr (List (State × Rat)) :=
  if a.kind = .start then do
    let (b, _) ← checkStart dom st a
    if b then
      match a.task, a.mode with
      | some task, some mode => do
        let l ← startEach dom avail st a (dist task mode)
        mkDist l
      | _, _ => .error .keyError
    else .ok [(st, 1)]
  else .ok [(st, 1)]

/-- Lines 361-409, `update_complete_tasks_uncertain` on one state: the states with their probabilities. -/
def completeEach (dom : Dom) (st : State) : Except PyErr (List (State × Rat)) := do
  let done ← finishing st.progress st.ongoing
  let st' ← updateComplete dom st
  return (combinations (done.filterMap (condEntries dom))).map fun comb =>
    ({ st' with conds := comb.foldl (fun cs e => sadd cs e.1) st'.conds }, comb.foldl (fun p e => p * e.2) 1)

/-- Lines 356-410: all states; the probability of the state itself is not used (line 363, `for next_state, _`). -/
def completeDist (dom : Dom) : List (State × Rat) → Except PyErr (List (State × Rat))
  | [] => .ok []
  | (s, _) :: rest => do
    let l ← completeEach dom s
    let l' ← completeDist dom rest
    return l ++ l'

/-- Lines 280-296 and 314-328: progress and consumption in one state. -/
def progressOne (dom : Dom) (st : State) : Except PyErr State := do
  let pr ← updateProgress dom st st.ongoing st.progress
  let st := { st with progress := pr }
  let (usedFor, used) ← updateCons dom st st.ongoing (st.usedFor, st.used)
  return { st with usedFor := usedFor, used := used }

/-- Lines 242-251, `update_time_uncertain`.  (The code updates the progress of all states before their consumption; the states do not
depend on each other.) -/
def timeDist (dom : Dom) (l : List (State × Rat)) (a : Action) : Except PyErr (List (State × Rat)) :=
  if a.timeProgress then do
    let l ← mapStates (progressOne dom) l
    let l ← completeDist dom l
    let l ← mkDist l
    return l.map fun q => ({ q.1 with t := q.1.t + 1 }, q.2)
  else .ok l

/-- Lines 109-124, `_get_next_state_distribution`.  Capacities at the next time are the same in all outcomes.  (The states made by one
start share the dictionary of the resources of the task, line 624; this only shows when the same action also lets time pass and the
needs of the task vary.) -/
def nextDist (dom : Dom) (dist : TaskId → ModeId → List (Int × Rat)) (avail : Res → Int) (st : State) (a : Action) :
    Except PyErr (List (State × Rat)) := do
  let st ← updatePause dom st a
  let st ← updateResume dom st a
  let l ← startDist dom dist avail st a
  let l ← mapStates (fun s => updateDummy s a) l
  let l := l.map fun q => (updateConditional dom q.1 a, q.2)
  let l ← timeDist dom l a
  return l.map fun q => (updateAvail dom ⟨0, avail⟩ q.1 a, q.2)

end Verif.Sched
