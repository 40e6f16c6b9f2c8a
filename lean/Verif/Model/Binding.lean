import Verif.Model.Rcpsp
import Verif.Model.SchedRollout

/-!
The binding between scheduling domains and discrete-optimisation problems:
skdecide/hub/solver/do_solver/sk_to_do_binding.py, the policy of do_solver_scheduling.py and the domain
classes of skdecide/hub/domain/rcpsp/rcpsp_sk.py, for projects without skills.

Simplifications: the entry `duration` of a mode is a field of its own (no resource has that name);
resource names are listed once each; durations and the horizon are natural numbers; needs and
capacities are integers.  The graph library keeps nodes and neighbours in the order in which they were
added, each once.
-/
namespace Verif.Binding
open Verif.Rcpsp (Problem Capacity permOf)
open Verif.Sched (sadd Dom Policy)

/-- What an object of class `MRCPSP` holds (rcpsp_sk.py lines 17-44).  A `ConstantModeConsumption` is the
dictionary of its numbers; `successors` and `preds` are those of `initialize_domain`
(scheduling_domains.py lines 204-205), which replace the ones given. -/
structure Project where
  /-- `resource_names` -/
  resources : List String
  /-- `task_ids` -/
  tasks : List Nat
  /-- `task_mode_dict` -/
  modes : Dict Nat (Dict Nat (Dict String Int))
  /-- `duration_dict` -/
  durations : Dict Nat (Dict Nat Nat)
  successors : Dict Nat (List Nat)
  /-- `ancestors` -/
  preds : Dict Nat (List Nat)
  /-- `max_horizon` -/
  horizon : Nat
  /-- `resource_availability` -/
  avail : Dict String Int
  /-- `resource_renewable` -/
  renewable : Dict String Bool
  deriving DecidableEq

/-- Each element once, in the order of first occurrence. -/
def distinct (l : List Nat) : List Nat := l.foldl sadd []

/-- precedence.py lines 50-53: the edges of the graph. -/
def edges (succ : Dict Nat (List Nat)) : List (Nat × Nat) := succ.flatMap fun p => p.2.map fun b => (p.1, b)

/-- graph_toolbox.py lines 65-69: the nodes of the graph; the ends of edges become nodes too. -/
def nodes (tasks : List Nat) (succ : Dict Nat (List Nat)) : List Nat :=
  distinct (tasks ++ (edges succ).flatMap fun e => [e.1, e.2])

/-- graph_toolbox.py lines 89-91, `successors_map`. -/
def successorsMap (tasks : List Nat) (succ : Dict Nat (List Nat)) : Dict Nat (List Nat) :=
  (nodes tasks succ).map fun n => (n, distinct (((edges succ).filter fun e => decide (e.1 = n)).map (·.2)))

/-- graph_toolbox.py lines 93-95, `predecessors_map`. -/
def predecessorsMap (tasks : List Nat) (succ : Dict Nat (List Nat)) : Dict Nat (List Nat) :=
  (nodes tasks succ).map fun n => (n, distinct (((edges succ).filter fun e => decide (e.2 = n)).map (·.1)))

/-- precedence.py lines 46-49: the modes and durations of every task are read to build the graph. -/
def checkTasks (tasksMode : Dict Nat (Dict Nat Rcpsp.Mode)) : List Nat → Except PyErr Unit
  | [] => .ok ()
  | n :: rest => do
    let _ ← tasksMode.get n
    checkTasks tasksMode rest

/-- rcpsp_sk.py lines 17-44, the constructor of `MRCPSP`: of the needs only those of known resources are
kept (lines 33-35). -/
def newMrcpsp (resources : List String) (tasks : List Nat) (tasksMode : Dict Nat (Dict Nat Rcpsp.Mode))
    (successors : Dict Nat (List Nat)) (horizon : Nat) (avail : Dict String Int) (renewable : Dict String Bool) :
    Except PyErr Project := do
  checkTasks tasksMode tasks
  return {
    resources := resources, tasks := tasks
    modes := tasksMode.map fun p => (p.1, p.2.map fun q => (q.1, q.2.needs.filter fun e => decide (e.1 ∈ resources)))
    durations := tasksMode.map fun p => (p.1, p.2.map fun q => (q.1, q.2.duration))
    successors := successorsMap tasks successors, preds := predecessorsMap tasks successors
    horizon := horizon, avail := avail, renewable := renewable }

/-- sk_to_do_binding.py lines 76-81 for the modes of one task. -/
def modesDo (durations : Dict Nat (Dict Nat Nat)) (t : Nat) : Dict Nat (Dict String Int) → Except PyErr (Dict Nat Rcpsp.Mode)
  | [] => .ok []
  | (m, needs) :: rest => do
    let ds ← durations.get t
    let d ← ds.get m
    let r ← modesDo durations t rest
    return (m, ⟨d, needs⟩) :: r

/-- sk_to_do_binding.py lines 73-81: `mode_details_do`. -/
def detailsDo (durations : Dict Nat (Dict Nat Nat)) : Dict Nat (Dict Nat (Dict String Int)) →
    Except PyErr (Dict Nat (Dict Nat Rcpsp.Mode))
  | [] => .ok []
  | (t, ms) :: rest => do
    let d ← modesDo durations t ms
    let r ← detailsDo durations rest
    return (t, d) :: r

/-- sk_to_do_binding.py lines 82-83: `resources`. -/
def resourcesDo (avail : Dict String Int) : List String → Except PyErr (Dict String Capacity)
  | [] => .ok []
  | r :: rest => do
    let c ← avail.get r
    let d ← resourcesDo avail rest
    return (r, .const c) :: d

/-- sk_to_do_binding.py lines 72-90, `build_do_domain` for a `MultiModeRCPSP` (and lines 34-52 for a
`SingleModeRCPSP`). -/
def buildDo (P : Project) : Except PyErr Problem := do
  let md ← detailsDo P.durations P.modes
  let res ← resourcesDo P.avail P.resources
  return {
    resources := res
    nonRenewable := (P.renewable.filter fun e => !e.2).map (·.1)
    modes := md, successors := P.successors, horizon := P.horizon, multiplier := 1 }

/-- `sorted(mode_details.keys())`. -/
def sortedIds (l : List Nat) : List Nat := sortBy (fun n : Nat => (n : Int)) l

/-- sk_to_do_binding.py line 191 (`max` of a calendar) and lines 204, 214 (the number itself). -/
def capacitySk : Dict String Capacity → Except PyErr (Dict String Int)
  | [] => .ok []
  | (r, .const c) :: rest => do
    let d ← capacitySk rest
    return (r, c) :: d
  | (r, .calendar l) :: rest => do
    let c ← match l.max? with
      | some c => Except.ok c
      | none => .error .valueError
    let d ← capacitySk rest
    return (r, c) :: d

/-- sk_to_do_binding.py lines 184-194 and 207-216, `build_sk_domain` with `varying_ressource=False`. -/
def buildSk (pb : Problem) : Except PyErr Project := do
  let avail ← capacitySk pb.resources
  newMrcpsp pb.resources.keys (sortedIds pb.modes.keys) pb.modes pb.successors pb.horizon avail
    (pb.resources.keys.map fun r => (r, !pb.nonRenewable.contains r))

/-- The scheduling domain that the project object is, with resources numbered by `num`: no units, no skills,
no conditions, no task may be paused (the dictionary of line 463 of scheduling_domains.py has the tasks as
keys, hence no resource). -/
def Project.dom (P : Project) (num : String → Nat) : Dom where
  tasks := P.tasks
  modes := P.modes.map fun p => (p.1, p.2.map fun q => (q.1, .constant (q.2.map fun e => (num e.1, e.2))))
  resTypes := P.resources.map num
  renewable := P.renewable.map fun e => (num e.1, e.2)
  preds := fun x => (P.preds.get? x).getD []
  duration := fun x m => match (P.durations.get? x).bind fun d => d.get? m with | some d => (d : Int) | none => 0
  preempt := P.tasks.map fun x => (x, false)
  horizon := P.horizon

/-- do_solver_scheduling.py lines 90-93: `modes_dictionnary`; `n` is `n_jobs + 2`. -/
def modesPolicy (n : Nat) (modes : List Nat) : Dict Nat Nat :=
  (modes.zipIdx.foldl (fun d e => d.set (e.2 + 2) e.1) (Dict.set [(1, 1)] n 1))

/-- do_solver_scheduling.py lines 76-121, `from_solution_to_policy` for an `RCPSPSolution`.  Sorting by
(start, number) is two stable sorts. -/
def fromSolution (pb : Problem) (modes : List Nat) (sch : Dict Nat (Int × Int)) : Policy where
  perm := (sortBy (fun p : Nat × (Int × Int) => p.2.1) (sortBy (fun p : Nat × (Int × Int) => (p.1 : Int)) sch)).map (·.1)
  modes := modesPolicy pb.sink modes
  schedule := some (sch.map fun p => (p.1, p.2.1))

/-- What the constructor of `RCPSPSolution` stores when it is given a schedule (rcpsp_model.py lines 31-69). -/
structure Solution where
  problem : Problem
  perm : List Int
  modes : List Nat
  schedule : Dict Nat (Int × Int)

/-- The recorded times of all tasks.  A task that has not started has no start time: sorting by start times
raises (when there is another task; a schedule of one task fails in the next step). -/
def recorded : Dict Nat Sched.Info → Except PyErr (Dict Nat (Int × Int))
  | [] => .ok []
  | (x, i) :: rest =>
    match i.start, i.finish with
    | some s, some e => do
      let r ← recorded rest
      return (x, (s, e)) :: r
    | _, _ => .error .typeError

/-- sk_to_do_binding.py lines 14-23, `from_last_state_to_solution`.  (Simplification: an ongoing task, with a
start but no end, raises here; the code stores `None` as its end.) -/
def toSolution (P : Project) (st : Sched.State) : Except PyErr Solution := do
  let modes := ((sortedIds P.tasks).map fun j => (st.mode.get? j).getD 1).tail.dropLast
  let pb ← buildDo P
  let sch ← recorded st.details
  let perm ← permOf sch
  return { problem := pb, perm := perm, modes := modes, schedule := sch }

end Verif.Binding
