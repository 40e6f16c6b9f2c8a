import Verif.Model.Sched

/-!
Model of the schedule-following policies of skdecide/hub/solver/sgs_policies/sgs_policies.py.
-/
namespace Verif.Sched

/-- sgs_policies.py lines 27-51, the data of a `PolicyRCPSP`.  `schedule` keeps only the
start times, the only entries read. -/
structure Policy where
  /-- `permutation_task` -/
  perm : List TaskId
  /-- `modes_dictionnary` -/
  modes : Dict TaskId ModeId
  /-- `schedule`, task to `"start_time"` -/
  schedule : Option (Dict TaskId Int) := none
  /-- `resource_allocation` -/
  alloc : Option (Dict TaskId (List Res)) := none

/-- The start action built for a task, e.g. sgs_policies.py lines 190-196:
`modes_dictionnary[task]` raises when missing; units are taken from the allocation if there
is one for the task. -/
def Policy.startAction (p : Policy) (x : TaskId) : Except PyErr Action := do
  let m ← p.modes.get x
  return ⟨some x, .start, some m, false, p.alloc.bind fun al => al.get? x⟩

/-- The loop of lines 146-161, 189-199, 229-247, 275-293 and 318-336: the first task whose
start action passes the check, else the time-progress action. -/
def Policy.tryTasks (p : Policy) (dom : Dom) (st : State) : List TaskId → Except PyErr Action
  | [] => .ok timeAction
  | x :: rest => do
    let a ← p.startAction x
    let r ← checkStart dom st a
    if r.1 then return a else p.tryTasks dom st rest

/-- Lines 126-129: remaining tasks of the permutation with their index.  (`sorted` by index
leaves the list as built.) -/
def Policy.notDone (p : Policy) (st : State) : List (TaskId × Nat) :=
  p.perm.zipIdx.filter fun e => decide (e.1 ∈ st.remaining)

/-- Lines 220-225: those among them that may be launched. -/
def Policy.ready (p : Policy) (dom : Dom) (st : State) : List (TaskId × Nat) :=
  p.perm.zipIdx.filter fun e => decide (e.1 ∈ st.remaining) && decide (e.1 ∈ possiblePrecedence dom st)

/-- `[x for x in l if test(schedule[x])]`, raising at the first missing task. -/
def keepBy (sched : Dict TaskId Int) (test : Int → Bool) : List TaskId → Except PyErr (List TaskId)
  | [] => .ok []
  | x :: rest => do
    let s ← sched.get x
    let l ← keepBy sched test rest
    return if test s then x :: l else l

/-- Lines 139-142: `task_id != next and schedule[task_id] == start and task_id in possible`,
evaluated left to right. -/
def keepOthers (sched : Dict TaskId Int) (next : TaskId) (start : Int) (possible : List TaskId) :
    List TaskId → Except PyErr (List TaskId)
  | [] => .ok []
  | x :: rest =>
    if x = next then keepOthers sched next start possible rest
    else do
      let s ← sched.get x
      let l ← keepOthers sched next start possible rest
      return if s = start ∧ x ∈ possible then x :: l else l

/-- Lines 40-47 and 92-95: the tasks scheduled to start at `t`, in the iteration order `ord`
of a Python set. -/
def startingAt (ord : List TaskId → List TaskId) (sched : Dict TaskId Int) (t : Int) : List TaskId :=
  ord ((sched.filter fun e => decide (e.2 = t)).map Prod.fst)

/-- sgs_policies.py lines 79-116, `next_action_follow_static_gantt`: only the first candidate
is tried. -/
def Policy.gantt (p : Policy) (ord : List TaskId → List TaskId) (dom : Dom) (st : State) :
    Except PyErr Action :=
  let starts := match p.schedule with
    | none => []
    | some sched => startingAt ord sched st.t
  let tasks := starts.filter fun x =>
    decide (x ∉ st.ongoing) && decide (x ∉ st.complete) && decide (x ∈ possiblePrecedence dom st)
  match tasks with
  | [] => .ok timeAction
  | x :: _ => p.tryTasks dom st [x]

/-- sgs_policies.py lines 119-174, `next_action_sgs_first_task_precedence_ready`. -/
def Policy.precedenceReady (p : Policy) (dom : Dom) (st : State) : Except PyErr Action :=
  let possible := possiblePrecedence dom st
  let l := (p.notDone st).map Prod.fst
  match l.find? fun x => decide (x ∈ possible) with
  | none => .ok timeAction
  | some next =>
    match p.schedule with
    | none => p.tryTasks dom st [next]
    | some sched => do
      let s ← sched.get next
      let others ← keepOthers sched next s possible l
      p.tryTasks dom st (next :: others)

/-- sgs_policies.py lines 177-210, `next_action_sgs_first_task_ready`. -/
def Policy.firstReady (p : Policy) (dom : Dom) (st : State) : Except PyErr Action :=
  let possible := possiblePrecedence dom st
  p.tryTasks dom st (((p.notDone st).map Prod.fst).filter fun x => decide (x ∈ possible))

/-- sgs_policies.py lines 213-255, `next_action_sgs_strict`. -/
def Policy.strict (p : Policy) (dom : Dom) (st : State) : Except PyErr Action :=
  match (p.ready dom st).map Prod.fst with
  | [] => .ok timeAction
  | x :: rest =>
    match p.schedule with
    | none => p.tryTasks dom st [x]
    | some sched => do
      let s ← sched.get x
      let l ← keepBy sched (fun s' => decide (s' = s)) (x :: rest)
      p.tryTasks dom st l

/-- sgs_policies.py lines 258-301, `next_action_sgs_time_freedom`. -/
def Policy.timeFreedom (p : Policy) (delta : Int) (dom : Dom) (st : State) : Except PyErr Action :=
  match (p.ready dom st).map Prod.fst with
  | [] => .ok timeAction
  | x :: rest =>
    match p.schedule with
    | none => p.tryTasks dom st [x]
    | some sched => do
      let s ← sched.get x
      let l ← keepBy sched (fun s' => decide (s ≤ s') && decide (s' ≤ s + delta)) (x :: rest)
      p.tryTasks dom st l

/-- sgs_policies.py lines 304-344, `next_action_sgs_index_freedom`. -/
def Policy.indexFreedom (p : Policy) (delta : Int) (dom : Dom) (st : State) : Except PyErr Action :=
  match p.ready dom st with
  | [] => .ok timeAction
  | (x, i) :: rest =>
    p.tryTasks dom st
      ((((x, i) :: rest).filter fun e => decide ((e.2 : Int) ≤ (i : Int) + delta)).map Prod.fst)

/-- sgs_policies.py lines 9-16, `BasePolicyMethod`. -/
inductive Method where
  | gantt | precedence | ready | strict | timeFreedom | indexFreedom | pile
  deriving DecidableEq, Repr

/-- sgs_policies.py lines 56-67 and 347-352: the function selected by the method; `PILE` has
no entry in the map (raised when the policy is built). -/
def Policy.next (p : Policy) (meth : Method) (ord : List TaskId → List TaskId) (dTime dIndex : Int)
    (dom : Dom) (st : State) : Except PyErr Action :=
  match meth with
  | .gantt => p.gantt ord dom st
  | .precedence => p.precedenceReady dom st
  | .ready => p.firstReady dom st
  | .strict => p.strict dom st
  | .timeFreedom => p.timeFreedom dTime dom st
  | .indexFreedom => p.indexFreedom dIndex dom st
  | .pile => .error .keyError

end Verif.Sched
