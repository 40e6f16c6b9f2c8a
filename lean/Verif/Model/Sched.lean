import Verif.Model.Py

/-
The stateful scheduling domain of `skdecide/builders/scheduling`.

Task ids, mode ids, resource names, skills and conditions are numbers (in the code task
ids are `int`, the rest are strings or enum members; only equality is used).  Progress is
an exact rational (a `float` in the code).  Python sets are duplicate-free lists; the code
iterates over sets of `int` in hash order, which the model replaces by list order.
Random draws (durations, availabilities, conditions) are parameters.
-/
namespace Verif.Sched

abbrev TaskId := Nat
abbrev ModeId := Nat
abbrev Res := Nat
abbrev Skill := Nat
abbrev Cond := Nat

/-- `l[i]` for any integer index; negative indices count from the end. -/
def pyIndex (l : List α) (i : Int) : Except PyErr α :=
  if 0 ≤ i then pyGet l i.toNat
  else if 0 ≤ i + l.length then pyGet l (i + l.length).toNat
  else .error .indexError

/-- `s.add(x)`. -/
def sadd (s : List TaskId) (x : TaskId) : List TaskId := if x ∈ s then s else s ++ [x]

/-- `s.remove(x)`: `KeyError` when absent. -/
def sremove (s : List TaskId) (x : TaskId) : Except PyErr (List TaskId) :=
  if x ∈ s then .ok (s.erase x) else .error .keyError

/-- `d[k]` where the key may be Python's `None`, which is never a key of the dictionaries
concerned. -/
def dgetO [DecidableEq κ] (d : Dict κ α) : Option κ → Except PyErr α
  | none => .error .keyError
  | some k => d.get k

/-- task.py lines 16-33, class `Task` (fields `id`, `mode` and `resources` are never read
by the modelled code and are left out). -/
structure Info where
  start : Option Int := none
  finish : Option Int := none
  sampled : Option Int := none
  paused : List Int := []
  resumed : List Int := []
  deriving DecidableEq, Repr

/-- task.py lines 42-44, `time_paused`: `resumed[i]` raises when a pause has no resume. -/
def pausedTotal : List Int → List Int → Except PyErr Int
  | [], _ => .ok 0
  | _ :: _, [] => .error .indexError
  | p :: ps, r :: rs => do
    let x ← pausedTotal ps rs
    return (r - p) + x

/-- task.py lines 35-46, `Task.get_task_active_time` (called with a time). -/
def Info.activeTime (d : Info) (t : Int) : Except PyErr Int :=
  let tt := match d.finish with
    | some e => min t e
    | none => t
  match d.start with
  | none => .ok 0
  | some s => do
    let p ← pausedTotal d.paused d.resumed
    return (tt - s) - p

/-- modes.py lines 31-48 (`VaryingModeConsumption`) and 51-72 (`ConstantModeConsumption`). -/
inductive Mode where
  | constant (d : Dict Res Int)
  | varying (d : Dict Res (List Int))
  deriving DecidableEq, Repr

/-- modes.py lines 36-42 and 65-72, `get_resource_need_at_time`. -/
def Mode.need (m : Mode) (r : Res) (time : Int) : Except PyErr Int :=
  match m with
  | .constant d => match d.get? r with
    | some v => .ok v
    | none => .ok 0
  | .varying d => match d.get? r with
    | some l => pyIndex l time
    | none => .ok 0

/-- The description of a scheduling domain: what the user supplies by subclassing
`SchedulingDomain` (scheduling_domains.py lines 63-86).  Time lags, time windows,
preallocations and costs are not consulted by the state updates and are left out. -/
structure Dom where
  /-- `get_tasks_ids()` -/
  tasks : List TaskId
  /-- `get_tasks_modes()` -/
  modes : Dict TaskId (Dict ModeId Mode)
  /-- `get_resource_types_names()` -/
  resTypes : List Res
  /-- `get_resource_units_names()` -/
  resUnits : List Res := []
  /-- `get_resource_renewability()` -/
  renewable : Dict Res Bool
  /-- `self.ancestors`, the direct predecessors (scheduling_domains.py line 204; it has an
  entry for every task, so a total function). -/
  preds : TaskId → List TaskId
  /-- `get_latest_sampled_duration(task, mode)` -/
  duration : TaskId → ModeId → Int
  /-- `get_task_preemptivity()` -/
  preempt : Dict TaskId Bool := []
  /-- `get_task_paused_non_renewable_resource_returned()`; documented as keyed by task,
  but looked up by resource name. -/
  returned : Dict Res Bool := []
  /-- `get_all_tasks_skills()`; `none` for domains `WithoutResourceSkills`. -/
  taskSkills : Option (Dict TaskId (Dict ModeId (Dict Skill Int))) := none
  /-- `get_all_resources_skills()` -/
  resSkills : Dict Res (Dict Skill Int) := []
  /-- `get_task_existence_conditions()` -/
  existence : Dict TaskId (List Cond) := []
  /-- `get_task_on_completion_added_conditions()`, each distribution as its value list -/
  onCompletion : Dict TaskId (List (List (Cond × Rat))) := []
  /-- `get_max_horizon()` -/
  horizon : Int := 0

/-- scheduling_domains_modelling.py lines 22-96, class `State` (`task_ids` and the unused
`resource_to_task` left out). -/
structure State where
  t : Int
  remaining : List TaskId
  ongoing : List TaskId := []
  complete : List TaskId := []
  paused : List TaskId := []
  progress : Dict TaskId Rat := []
  mode : Dict TaskId ModeId := []
  avail : Dict Res Int := []
  used : Dict Res Int := []
  usedFor : Dict TaskId (Dict Res Int) := []
  details : Dict TaskId Info := []
  conds : List Cond := []
  deriving DecidableEq

/-- scheduling_domains_modelling.py lines 8-19, `SchedulingActionEnum`. -/
inductive Kind where
  | start | pause | resume | timePr
  deriving DecidableEq, Repr

/-- scheduling_domains_modelling.py lines 154-193, `SchedulingAction`. -/
structure Action where
  task : Option TaskId
  kind : Kind
  mode : Option ModeId
  timeProgress : Bool
  units : Option (List Res) := none
  deriving DecidableEq, Repr

/-- The random values a step may draw: the duration sampled for a started task and the
availability of each resource at the next time. -/
structure Draw where
  duration : Int
  avail : Res → Int

/-- scheduling_domains.py lines 559-571, `get_resource_used`, the loop over resource types. -/
def usedTypes (dom : Dom) (task : TaskId) (mode : Option ModeId) (time : Int) :
    List Res → Dict Res Int → Except PyErr (Dict Res Int)
  | [], acc => .ok acc
  | r :: rs, acc => do
    let ms ← dom.modes.get task
    let m ← dgetO ms mode
    let n ← m.need r time
    usedTypes dom task mode time rs (Dict.set acc r n)

/-- scheduling_domains.py lines 559-571, `get_resource_used`. -/
def resourceUsed (dom : Dom) (task : TaskId) (mode : Option ModeId) (units : Option (List Res))
    (time : Int) : Except PyErr (Dict Res Int) := do
  let d ← usedTypes dom task mode time dom.resTypes []
  return ((units.getD []).foldl (fun d u => Dict.set d u 1) d)

/-- skills.py lines 55-59, `get_skills_of_task`. -/
def skillsOfTask (dom : Dom) (task : TaskId) (mode : Option ModeId) :
    Except PyErr (Dict Skill Int) :=
  match dom.taskSkills with
  | none => .ok []
  | some ts => do
    let tm ← ts.get task
    let sk ← dgetO tm mode
    return (sk.filter fun p => decide (p.2 > 0))

/-- skills.py lines 82-88: sum, per required skill, over the resources of the dictionary
(whatever the quantity used). -/
def addSkills (dom : Dom) : List Res → Dict Skill Int → Except PyErr (Dict Skill Int)
  | [], acc => .ok acc
  | r :: rs, acc => do
    let sr ← dom.resSkills.get r
    addSkills dom rs (acc.map fun p => (p.1, p.2 + (sr.get? p.1).getD 0))

/-- skills.py lines 77-91 and 115-116, `check_if_skills_are_fulfilled`. -/
def skillsOk (dom : Dom) (task : TaskId) (mode : Option ModeId) (used : Dict Res Int) :
    Except PyErr Bool :=
  match dom.taskSkills with
  | none => .ok true
  | some _ => do
    let need ← skillsOfTask dom task mode
    if need = [] then return true
    else do
      let have_ ← addSkills dom used.keys (need.map fun p => (p.1, 0))
      return need.all fun p => decide ((have_.get? p.1).getD 0 ≥ p.2)

/-- scheduling_domains.py lines 550-553: `any(resource_to_use[r] > availability - used)`,
left to right with short circuit. -/
def lacking (st : State) : Dict Res Int → Except PyErr Bool
  | [] => .ok false
  | (r, n) :: rs => do
    let a ← st.avail.get r
    let u ← st.used.get r
    if n > a - u then return true else lacking st rs

/-- scheduling_domains.py lines 539-557, `check_if_action_can_be_started`. -/
def checkStart (dom : Dom) (st : State) (a : Action) : Except PyErr (Bool × Dict Res Int) :=
  if a.kind = .start ∨ a.kind = .resume then do
    let info ← dgetO st.details a.task
    let time ← info.activeTime st.t
    match a.task with
    | none => .error .keyError
    | some task => do
      let use ← resourceUsed dom task a.mode a.units time
      if (← lacking st use) then return (false, use)
      else do
        let b ← skillsOk dom task a.mode use
        return (b, use)
  else .ok (true, [])

/-- `d[r] += x` for each `(r, x)`; `KeyError` when `r` is not a key. -/
def addAll (d : Dict Res Int) : Dict Res Int → Except PyErr (Dict Res Int)
  | [] => .ok d
  | (r, n) :: rs => do
    let u ← d.get r
    addAll (d.set r (u + n)) rs

/-- scheduling_domains.py lines 345-348 (completion) and 460-464 (pause): give back the
entries selected by `back`. -/
def releaseAll (back : Res → Except PyErr Bool) (d : Dict Res Int) :
    Dict Res Int → Except PyErr (Dict Res Int)
  | [] => .ok d
  | (r, n) :: rs => do
    if (← back r) then
      let u ← d.get r
      releaseAll back (d.set r (u - n)) rs
    else releaseAll back d rs

/-- resource_renewability.py lines 23-24, `is_renewable`. -/
def isRenewable (dom : Dom) (r : Res) : Except PyErr Bool := dom.renewable.get r

/-- `d.pop(k)`: `KeyError` when absent. -/
def dpop [DecidableEq κ] (d : Dict κ α) (k : κ) : Except PyErr (Dict κ α) :=
  match d.get? k with
  | some _ => .ok (d.erase k)
  | none => .error .keyError

/-- scheduling_domains.py lines 451-468, `update_pause_tasks`. -/
def updatePause (dom : Dom) (st : State) (a : Action) : Except PyErr State :=
  if a.kind = .pause then
    match a.task with
    | none => .error .keyError
    | some task => do
      let ongoing ← sremove st.ongoing task
      let uf ← st.usedFor.get task
      let used ← releaseAll (fun r => do
        if (← isRenewable dom r) then return true else dom.returned.get r) st.used uf
      let usedFor ← dpop st.usedFor task
      let info ← st.details.get task
      return { st with
        paused := sadd st.paused task, ongoing := ongoing, used := used, usedFor := usedFor
        details := st.details.set task { info with paused := info.paused ++ [st.t] } }
  else .ok st

/-- scheduling_domains.py lines 488-490: the mode of the action, or the previous one. -/
def resumeMode (st : State) (task : TaskId) : Option ModeId → Except PyErr ModeId
  | some m => .ok m
  | none => st.mode.get task

/-- scheduling_domains.py lines 482-501, `update_resume_tasks`: the task is moved to ongoing
before the resources are checked. -/
def updateResume (dom : Dom) (st : State) (a : Action) : Except PyErr State :=
  if a.kind = .resume then
    match a.task with
    | none => .error .keyError
    | some task => do
      let _ ← resumeMode st task a.mode
      let paused ← sremove st.paused task
      let info ← st.details.get task
      let st1 := { st with
        ongoing := sadd st.ongoing task, paused := paused
        details := st.details.set task { info with resumed := info.resumed ++ [st.t] } }
      let info1 ← st1.details.get task
      let _ ← info1.activeTime st1.t
      let (b, use) ← checkStart dom st1 a
      if b then do
        let used ← addAll st1.used use
        return { st1 with used := used, usedFor := st1.usedFor.set task use }
      else return st1
  else .ok st

/-- scheduling_domains.py lines 573-595, `update_start_tasks`.  (Simplification: an action without
mode on a domain without resource types raises in the model; the code stores `None`.) -/
def updateStart (dom : Dom) (d : Draw) (st : State) (a : Action) : Except PyErr State :=
  if a.kind = .start then do
    let (b, use) ← checkStart dom st a
    if b then
      match a.task, a.mode with
      | some task, some mode => do
        let remaining ← sremove st.remaining task
        let info ← st.details.get task
        let used ← addAll st.used use
        return { st with
          mode := st.mode.set task mode
          ongoing := sadd st.ongoing task, remaining := remaining
          details := st.details.set task { info with start := some st.t, sampled := some d.duration }
          used := used, usedFor := st.usedFor.set task use
          progress := st.progress.set task 0 }
      | _, _ => .error .keyError
    else return st
  else .ok st

/-- scheduling_domains.py lines 418-429, `update_complete_dummy_tasks`: the resources of the
task are forgotten without being given back. -/
def updateDummy (st : State) (a : Action) : Except PyErr State :=
  if a.kind = .start then
    match a.task with
    | none => .error .keyError
    | some task => do
      let info ← st.details.get task
      if info.sampled = some 0 then do
        let ongoing ← sremove st.ongoing task
        let usedFor ← dpop st.usedFor task
        return { st with
          complete := sadd st.complete task
          progress := st.progress.set task 1
          ongoing := ongoing
          details := st.details.set task { info with finish := some st.t }
          usedFor := usedFor }
      else return st
  else .ok st

/-- task_progress.py lines 31-42, `DeterministicTaskProgress._get_task_progress` over one
time unit. -/
def taskProgress (dom : Dom) (task : TaskId) (mode : ModeId) (sampled : Option Int) : Rat :=
  let dur := match sampled with
    | none => dom.duration task mode
    | some d => d
  if dur = 0 then 1 else 1 / (dur : Rat)

/-- scheduling_domains.py lines 301-312, `update_progress`, for the given tasks. -/
def updateProgress (dom : Dom) (st : State) : List TaskId → Dict TaskId Rat →
    Except PyErr (Dict TaskId Rat)
  | [], pr => .ok pr
  | task :: rest, pr => do
    let p ← pr.get task
    let mode ← st.mode.get task
    let info ← st.details.get task
    updateProgress dom st rest (pr.set task (p + taskProgress dom task mode info.sampled))

/-- scheduling_domains.py lines 273-277: replace the recorded consumption of one task. -/
def replaceUse : Dict Res Int → Dict Res Int × Dict Res Int →
    Except PyErr (Dict Res Int × Dict Res Int)
  | [], acc => .ok acc
  | (r, new) :: rs, (uf, used) => do
    let prev ← uf.get r
    let u ← used.get r
    replaceUse rs (uf.set r new, used.set r (u + (new - prev)))

/-- scheduling_domains.py lines 264-278, `update_res_consumption`, for the given tasks. -/
def updateCons (dom : Dom) (st : State) : List TaskId →
    Dict TaskId (Dict Res Int) × Dict Res Int →
    Except PyErr (Dict TaskId (Dict Res Int) × Dict Res Int)
  | [], acc => .ok acc
  | task :: rest, (usedFor, used) => do
    let mode ← st.mode.get task
    let info ← st.details.get task
    let time ← info.activeTime (st.t + 1)
    let use ← resourceUsed dom task (some mode) (some []) time
    if use = [] then updateCons dom st rest (usedFor, used)
    else do
      let uf ← usedFor.get task
      let (uf', used') ← replaceUse use (uf, used)
      updateCons dom st rest (usedFor.set task uf', used')

/-- The threshold of scheduling_domains.py line 340. -/
def threshold : Rat := 9999 / 10000

/-- scheduling_domains.py lines 339-342: the ongoing tasks whose progress reached the
threshold. -/
def finishing (pr : Dict TaskId Rat) : List TaskId → Except PyErr (List TaskId)
  | [] => .ok []
  | task :: rest => do
    let p ← pr.get task
    let l ← finishing pr rest
    return if threshold ≤ p then task :: l else l

/-- scheduling_domains.py lines 343-351: complete one task. -/
def completeOne (dom : Dom) (st : State) (task : TaskId) : Except PyErr State := do
  let ongoing ← sremove st.ongoing task
  let uf ← st.usedFor.get task
  let used ← releaseAll (isRenewable dom) st.used uf
  let usedFor ← dpop st.usedFor task
  let info ← st.details.get task
  return { st with
    complete := sadd st.complete task, ongoing := ongoing, used := used, usedFor := usedFor
    details := st.details.set task { info with finish := some (st.t + 1) } }

/-- scheduling_domains.py lines 334-354, `update_complete_tasks` (also 356-379, the part
common to the uncertain variant). -/
def updateComplete (dom : Dom) (st : State) : Except PyErr State := do
  let done ← finishing st.progress st.ongoing
  let st := { st with progress := done.foldl (fun d x => Dict.set d x 1) st.progress }
  done.foldlM (completeOne dom) st

/-- scheduling_domains.py lines 232-240, `update_time`. -/
def updateTime (dom : Dom) (st : State) (a : Action) : Except PyErr State :=
  if a.timeProgress then do
    let pr ← updateProgress dom st st.ongoing st.progress
    let st := { st with progress := pr }
    let (usedFor, used) ← updateCons dom st st.ongoing (st.usedFor, st.used)
    let st := { st with usedFor := usedFor, used := used }
    let st ← updateComplete dom st
    return { st with t := st.t + 1 }
  else .ok st

/-- scheduling_domains.py lines 700-714, `update_resource_availability`. -/
def updateAvail (dom : Dom) (d : Draw) (st : State) (a : Action) : State :=
  if a.timeProgress then
    { st with avail := (dom.resUnits ++ dom.resTypes).foldl (fun m r => m.set r (d.avail r)) st.avail }
  else st

/-- scheduling_domains.py lines 126-142, `_get_next_state` (on a copy of the state). -/
def nextState (dom : Dom) (d : Draw) (st : State) (a : Action) : Except PyErr State := do
  let st ← updatePause dom st a
  let st ← updateResume dom st a
  let st ← updateStart dom d st a
  let st ← updateDummy st a
  let st ← updateTime dom st a
  return updateAvail dom d st a

/-- conditional_tasks.py lines 147-155, `_get_all_unconditional_tasks`. -/
def unconditional (dom : Dom) : List TaskId :=
  dom.tasks.filter fun x => match dom.existence.get? x with
    | none => true
    | some cs => cs.isEmpty

/-- conditional_tasks.py lines 122-139, `_get_available_tasks`. -/
def availableTasks (dom : Dom) (conds : List Cond) : List TaskId :=
  dom.tasks.filter fun x => match dom.existence.get? x with
    | none => true
    | some cs => cs.all fun c => decide (c ∈ conds)

/-- scheduling_domains.py lines 144-158, `_get_initial_state_`. -/
def initState (dom : Dom) (d : Draw) : State :=
  let avail := (dom.resTypes ++ dom.resUnits).foldl (fun m r => Dict.set m r (d.avail r)) []
  { t := 0, remaining := unconditional dom, avail := avail
    used := avail.map fun p => (p.1, 0)
    details := dom.tasks.foldl (fun m x => Dict.set m x ({} : Info)) [] }

/-- scheduling_domains.py lines 748-752: the tasks that enter `tasks_remaining`. -/
def newTasks (dom : Dom) (st : State) : List TaskId :=
  let av := availableTasks dom st.conds
  let considered := st.remaining ++ st.ongoing ++ st.progress.keys ++ st.complete
  (av.filter fun x => decide (x ∉ considered)) ++ (considered.filter fun x => decide (x ∉ av))

/-- scheduling_domains.py lines 742-762, `update_conditional_tasks_uncertain` on one state
(and `_simulation`, whose distribution has one element). -/
def updateConditional (dom : Dom) (st : State) (a : Action) : State :=
  if a.timeProgress then { st with remaining := (newTasks dom st).foldl sadd st.remaining } else st

/-- scheduling_domains.py lines 126-142, run over a list of actions with their draws. -/
def run (dom : Dom) : State → List (Action × Draw) → Except PyErr State
  | st, [] => .ok st
  | st, (a, d) :: rest => do
    let st' ← nextState dom d st a
    run dom st' rest

/-! ### The simulated variant, with conditional tasks -/

/-- scheduling_domains.py lines 380-390: the (condition, probability) entries offered by one
completed task; all its distributions are flattened into one list. -/
def condEntries (dom : Dom) (task : TaskId) : Option (List (Cond × Rat)) :=
  (dom.onCompletion.get? task).map List.flatten

/-- scheduling_domains.py line 392: `product(*all_models.values())`, one entry for each
completed task that has conditions. -/
def combinations : List (List (Cond × Rat)) → List (List (Cond × Rat))
  | [] => [[]]
  | l :: ls => l.flatMap fun e => (combinations ls).map fun c => e :: c

/-- scheduling_domains.py lines 356-416, `update_complete_tasks_uncertain` on one state and
the sampling of `update_complete_tasks_simulation`; `pick` is the index drawn. -/
def updateCompleteSim (dom : Dom) (pick : Nat) (st : State) : Except PyErr State := do
  let done ← finishing st.progress st.ongoing
  let st' ← updateComplete dom st
  let combs := combinations (done.filterMap (condEntries dom))
  let comb ← pyGet combs pick
  return { st' with conds := comb.foldl (fun cs e => sadd cs e.1) st'.conds }

/-- scheduling_domains.py lines 253-262, `update_time_simulation`. -/
def updateTimeSim (dom : Dom) (pick : Nat) (st : State) (a : Action) : Except PyErr State :=
  if a.timeProgress then do
    let pr ← updateProgress dom st st.ongoing st.progress
    let st := { st with progress := pr }
    let (usedFor, used) ← updateCons dom st st.ongoing (st.usedFor, st.used)
    let st := { st with usedFor := usedFor, used := used }
    let st ← updateCompleteSim dom pick st
    return { st with t := st.t + 1 }
  else .ok st

/-- scheduling_domains.py lines 88-107, `_state_sample`, the next state. -/
def simState (dom : Dom) (d : Draw) (pick : Nat) (st : State) (a : Action) : Except PyErr State := do
  let st ← updatePause dom st a
  let st ← updateResume dom st a
  let st ← updateStart dom d st a
  let st ← updateDummy st a
  let st := updateConditional dom st a
  let st ← updateTimeSim dom pick st a
  return updateAvail dom d st a

/-- A simulated trajectory: actions with their draws. -/
def simRun (dom : Dom) : State → List (Action × Draw × Nat) → Except PyErr State
  | st, [] => .ok st
  | st, (a, d, k) :: rest => do
    let st' ← simState dom d k st a
    simRun dom st' rest

/-! ### Possible actions -/

/-- precedence.py lines 65-71, `task_possible_to_launch_precedence`. -/
def possiblePrecedence (dom : Dom) (st : State) : List TaskId :=
  st.remaining.filter fun n => (dom.preds n).all fun m => decide (m ∈ st.complete)

/-- scheduling_domains.py lines 636-643: remaining tasks all of whose available direct
predecessors are complete, with each of their modes. -/
def possiblePairs (dom : Dom) (st : State) : List TaskId → Except PyErr (List (TaskId × ModeId))
  | [] => .ok []
  | n :: rest => do
    let ms ← dom.modes.get n
    let l ← possiblePairs dom st rest
    if ((dom.preds n).all fun m =>
        decide (m ∈ availableTasks dom st.conds → m ∈ st.complete)) = true then
      return ms.keys.map (fun m => (n, m)) ++ l
    else return l

/-- scheduling_domains.py lines 665-672: enough of every resource type (the need is taken at
`time = state.t`). -/
def enough (dom : Dom) (st : State) (n : TaskId) (mode : ModeId) : List Res → Except PyErr Bool
  | [] => .ok true
  | r :: rs => do
    let a ← st.avail.get r
    let u ← st.used.get r
    let ms ← dom.modes.get n
    let m ← ms.get mode
    let need ← m.need r st.t
    if a - u - need ≥ 0 then enough dom st n mode rs else return false

/-- scheduling_domains.py lines 665-672, filter of the pairs. -/
def enoughPairs (dom : Dom) (st : State) : List (TaskId × ModeId) →
    Except PyErr (List (TaskId × ModeId))
  | [] => .ok []
  | (n, m) :: rest => do
    let b ← enough dom st n m dom.resTypes
    let l ← enoughPairs dom st rest
    return if b then (n, m) :: l else l

/-- scheduling_domains.py lines 636-676, `get_possible_starting_tasks`: a dictionary from
task to its *last* possible mode (the inner dictionary is overwritten for each mode). -/
def possibleStarting (dom : Dom) (st : State) : Except PyErr (Dict TaskId ModeId) := do
  let ps ← possiblePairs dom st st.remaining
  let ps ← enoughPairs dom st ps
  return ps.foldl (fun d p => Dict.set d p.1 p.2) []

/-- scheduling_domains.py lines 697-698, `state_is_overconsuming`. -/
def overconsuming (st : State) : Dict Res Int → Except PyErr Bool
  | [] => .ok false
  | (r, u) :: rs => do
    let a ← st.avail.get r
    if u > a then return true else overconsuming st rs

/-- scheduling_domains.py lines 913-920: the pause actions of preemptive ongoing tasks. -/
def pauseActions (dom : Dom) : List TaskId → Except PyErr (List Action)
  | [] => .ok []
  | t :: rest => do
    let b ← dom.preempt.get t
    let l ← pauseActions dom rest
    return if b then ⟨some t, .pause, none, false, none⟩ :: l else l

/-- scheduling_domains.py lines 921-926: the resume actions of paused tasks. -/
def resumeActions (st : State) : List TaskId → Except PyErr (List Action)
  | [] => .ok []
  | t :: rest => do
    let m ← st.mode.get t
    let l ← resumeActions st rest
    return ⟨some t, .resume, some m, false, none⟩ :: l

/-- The pure time-progress action (scheduling_domains.py lines 928-931). -/
def timeAction : Action := ⟨none, .timePr, none, true, none⟩

/-- scheduling_domains.py lines 894-932, `SchedulingActionSpace._get_elements`. -/
def actionSpace (dom : Dom) (st : State) : Except PyErr (List Action) := do
  let over ← overconsuming st st.used
  let starts ← if over then pure [] else do
    let d ← possibleStarting dom st
    pure (d.map fun p => (⟨some p.1, .start, some p.2, false, none⟩ : Action))
  let pauses ← pauseActions dom st.ongoing
  let resumes ← if over then pure [] else resumeActions st st.paused
  return starts ++ pauses ++ resumes ++ [timeAction]

/-- scheduling_domains.py lines 185-189, `_get_goals_`. -/
def isGoal (st : State) : Bool :=
  st.remaining.isEmpty && st.ongoing.isEmpty && st.paused.isEmpty

end Verif.Sched
