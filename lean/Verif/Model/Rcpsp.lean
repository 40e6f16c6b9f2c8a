import Verif.Model.Py
import Verif.Model.Sort
/-
Model of `skdecide/builders/discrete_optimization/rcpsp/rcpsp_model.py`: serial schedule generation, the
check of a schedule, the permutation of a schedule and the resource consumption.

Simplifications: activity numbers are natural numbers from 1 on (so that `modes_extended[act_id-1]` never has
a negative index); durations, horizons and the times found by schedule generation are natural numbers;
requirements and capacities are integers; lists and dictionaries are values (the deep copies and slices of the
code make the copies that the model makes implicitly); `print` calls are left out, but not the look-ups in
their arguments.
-/
namespace Verif.Rcpsp

/-- One entry `mode_details[act][mode]`: the key `duration` and one key per resource (lines 478-479). -/
structure Mode where
  duration : Nat
  needs : Dict String Int
  deriving DecidableEq

/-- `resources[res]`: a number (`RCPSPModel`, 474) or a list indexed by time (`RCPSPModelCalendar`, 691). -/
inductive Capacity where
  | const (c : Int)
  | calendar (l : List Int)
  deriving DecidableEq

/-- `RCPSPModel` (472-499), `RCPSPModelCalendar` (679-711). -/
structure Problem where
  resources : Dict String Capacity
  nonRenewable : List String
  modes : Dict Nat (Dict Nat Mode)
  successors : Dict Nat (List Nat)
  horizon : Nat
  multiplier : Nat

/-- `n_jobs + 2` (494): the last activity. -/
def Problem.sink (pb : Problem) : Nat := pb.modes.length

/-- `new_horizon` (158). -/
def Problem.newHorizon (pb : Problem) : Nat := pb.horizon * pb.multiplier

/-- `mode_details[act_id][modes_extended[act_id-1]]`. -/
def details (pb : Problem) (ext : List Nat) (act : Nat) : Except PyErr Mode := do
  let ms ← pb.modes.get act
  let m ← pyGet ext (act - 1)
  ms.get m

/-- One row of `resource_avail_in_time` (163-166). -/
def initRow (H : Nat) : Capacity → List Int
  | .const c => List.replicate H c
  | .calendar l => l.take (H + 1)

/-- `resource_avail_in_time` (161-166). -/
def initRows (pb : Problem) : Dict String (List Int) := pb.resources.map (fun p => (p.1, initRow pb.newHorizon p.2))

/-- The correction of unknown modes (182-188), from position `i` on. -/
def fixModes (pb : Problem) : Nat → List Nat → Except PyErr (List Nat)
  | _, [] => .ok []
  | i, m :: ms => do
    let d ← pb.modes.get (i + 1)
    let rest ← fixModes pb (i + 1) ms
    .ok ((if d.contains m then m else 1) :: rest)

/-- The first activity of the list all of whose predecessors have left it (195-203); `none` when the `for`
loop ends without `break`. -/
def pick (succs : Dict Nat (List Nat)) (perm : List Nat) : Option Nat :=
  perm.find? (fun id => succs.all (fun kv => !(kv.2.contains id && perm.contains kv.1)))

/-- `act_id` after the loop of lines 195-203: when no activity qualifies the variable keeps the value of the
previous iteration, and is unbound in the first one. -/
def pickStale (prev : Option Nat) : Option Nat → Except PyErr Nat
  | some a => .ok a
  | none => match prev with
    | some a => .ok a
    | none => .error .nameError

/-- Lines 216-227 for one time `t`: the pair is (`valid`, `unfeasible_non_renewable_resources`). -/
def checkRes (H t : Nat) (m : Mode) : Dict String (List Int) → Bool × Bool → Except PyErr (Bool × Bool)
  | [], v => .ok v
  | (res, row) :: rest, v =>
    if t < H then do
      let a ← pyGet row t
      let n ← m.needs.get res
      checkRes H t m rest (v.1 && !decide (a < n), v.2)
    else checkRes H t m rest (v.1, true)

/-- Lines 212-227: `n` times from `t` on. -/
def checkWindow (H : Nat) (m : Mode) (rows : Dict String (List Int)) : Nat → Nat → Bool × Bool → Except PyErr (Bool × Bool)
  | 0, _, v => .ok v
  | n + 1, t, v => do
    let v' ← checkRes H t m rows v
    checkWindow H m rows n (t + 1) v'

/-- Lines 208-229.  The `while` loop ends at the horizon at the latest (a window beyond it is never invalid), so
`H` further rounds are enough: the error at fuel 0 never occurs (`search_fuel`). -/
def search (H : Nat) (m : Mode) (rows : Dict String (List Int)) : Nat → Nat → Bool → Except PyErr (Nat × Bool)
  | fuel, c, flag => do
    let v ← checkWindow H m rows m.duration c (true, flag)
    if v.1 then .ok (c, v.2) else
      match fuel with
      | 0 => .error .runtimeError
      | fuel + 1 => search H m rows fuel (c + 1) v.2

/-- Lines 240-243: the rest of the row after the end of an activity. -/
def drain (n : Int) : Nat → Nat → List Int → Bool → Except PyErr (List Int × Bool)
  | 0, _, row, f => .ok (row, f)
  | k + 1, tt, row, f => do
    let a ← pyGet row tt
    let row' ← pySet row tt (a - n)
    drain n k (tt + 1) row' (f || decide (a - n < 0))

/-- Lines 238-243 for one resource. -/
def bookRow (nr : Bool) (H endT t : Nat) (n : Int) (row : List Int) (f : Bool) : Except PyErr (List Int × Bool) := do
  let a ← pyGet row t
  let row' ← pySet row t (a - n)
  if nr && decide (t = endT) then drain n (H - (endT + 1)) (endT + 1) row' f else .ok (row', f)

/-- Lines 237-243 for one time. -/
def bookRes (pb : Problem) (H endT t : Nat) (m : Mode) : Dict String (List Int) → Bool → Except PyErr (Dict String (List Int) × Bool)
  | [], f => .ok ([], f)
  | (res, row) :: rest, f => do
    let n ← m.needs.get res
    let r ← bookRow (pb.nonRenewable.contains res) H endT t n row f
    let q ← bookRes pb H endT t m rest r.2
    .ok ((res, r.1) :: q.1, q.2)

/-- Lines 236-243. -/
def bookWindow (pb : Problem) (H endT : Nat) (m : Mode) : Nat → Nat → Dict String (List Int) → Bool → Except PyErr (Dict String (List Int) × Bool)
  | 0, _, rows, f => .ok (rows, f)
  | k + 1, t, rows, f => do
    let r ← bookRes pb H endT t m rows f
    bookWindow pb H endT m k (t + 1) r.1 r.2

/-- Lines 250-251. -/
def bump (e : Nat) : List Nat → Dict Nat Nat → Except PyErr (Dict Nat Nat)
  | [], ms => .ok ms
  | s :: ss, ms => do
    let old ← ms.get s
    bump e ss (ms.set s (max old e))

/-- `perm_extended.remove(act_id)` (248). -/
def pyRemove (l : List Nat) (x : Nat) : Except PyErr (List Nat) :=
  if x ∈ l then .ok (l.erase x) else .error .valueError

/-- The variables of the main loop. -/
structure St where
  rows : Dict String (List Int)
  minStart : Dict Nat Nat
  ends : Dict Nat Nat
  perm : List Nat
  flag : Bool
  prev : Option Nat

/-- The second half of the loop body (230-251): the activity is placed at `c`. -/
def place (pb : Problem) (act : Nat) (m : Mode) (c : Nat) (st : St) : Except PyErr St := do
  let r ← bookWindow pb pb.newHorizon (c + m.duration - 1) m m.duration c st.rows false
  let perm ← pyRemove st.perm act
  let ss ← pb.successors.get act
  let ms ← bump (c + m.duration) ss st.minStart
  .ok { rows := r.1, minStart := ms, ends := st.ends.set act (c + m.duration), perm := perm, flag := r.2, prev := some act }

/-- The loop body (192-251). -/
def step (pb : Problem) (ext : List Nat) (st : St) : Except PyErr St := do
  let act ← pickStale st.prev (pick pb.successors st.perm)
  let c0 ← st.minStart.get act
  let m ← details pb ext act
  let r ← search pb.newHorizon m st.rows pb.newHorizon c0 st.flag
  if r.2 then .ok { st with flag := true, prev := some act } else place pb act m r.1 st

/-- The main loop (192-251).  Every round that does not set the flag removes one activity, so as many rounds as
activities are enough. -/
def loop (pb : Problem) (ext : List Nat) : Nat → St → Except PyErr St
  | 0, st => .ok st
  | n + 1, st => if st.perm.isEmpty || st.flag then .ok st else do
    let st' ← step pb ext st
    loop pb ext n st'

/-- `rcpsp_schedule` from `activity_end_times` (254-258). -/
def times (pb : Problem) (ext : List Nat) : Dict Nat Nat → Except PyErr (Dict Nat (Int × Int))
  | [] => .ok []
  | (a, e) :: rest => do
    let m ← details pb ext a
    let r ← times pb ext rest
    .ok ((a, ((e : Int) - m.duration, (e : Int))) :: r)

/-- `list(self.problem.successors.keys())[-1]` (261). -/
def lastKey (pb : Problem) : Except PyErr Nat :=
  match pb.successors.getLast? with
  | some p => .ok p.1
  | none => .error .indexError

/-- Lines 259-267: the schedule and the flag; an infeasible schedule gets a sentinel for the last activity. -/
def finish (pb : Problem) (flag : Bool) (sch : Dict Nat (Int × Int)) : Except PyErr (Dict Nat (Int × Int) × Bool) :=
  if flag then do
    let l ← lastKey pb
    if sch.contains l then .ok (sch, false) else .ok (sch.set l (99999999, 9999999), false)
  else .ok (sch, true)

/-- What schedule generation leaves in the solution: schedule, feasibility flag and corrected modes. -/
structure Result where
  schedule : Dict Nat (Int × Int)
  feasible : Bool
  ext : List Nat
  deriving DecidableEq

/-- `[x+2 for x in perm]` between 1 and `n_jobs + 2` (172-174). -/
def extended (pb : Problem) (perm : List Nat) : List Nat := 1 :: perm.map (· + 2) ++ [pb.sink]

/-- The state before the main loop (155-174, 273-296), with the list of activities and their minimum starting times. -/
def initFrom (pb : Problem) (acts : List Nat) (base : Nat → Nat) : St :=
  { rows := initRows pb, minStart := pb.successors.map (fun p => (p.1, base p.1)), ends := [], perm := acts, flag := false, prev := none }

/-- The state before the main loop (155-174). -/
def initSt (pb : Problem) (perm : List Nat) : St := initFrom pb (extended pb perm) (fun _ => 0)

/-- `generate_schedule_from_permutation_serial_sgs` (153-268).  The corrected modes are returned with the dummy
modes of the first and last activity; `rcpsp_modes` becomes the part between them (188). -/
def sgs (pb : Problem) (perm modes : List Nat) : Except PyErr Result := do
  let ext ← fixModes pb 0 (1 :: modes ++ [1])
  let st ← loop pb ext (extended pb perm).length (initSt pb perm)
  let sch ← times pb ext st.ends
  let r ← finish pb st.flag sch
  .ok { schedule := r.1, feasible := r.2, ext := ext }

/-- `minimum_starting_time` of line 285-290: the given start of a task that runs, the current time for the others. -/
def baseOf (now : Nat) (started : Dict Nat Nat) (act : Nat) : Nat :=
  match started.get? act with
  | some s => s
  | none => now

/-- Lines 384-387: the completed tasks are added to the schedule. -/
def addCompleted : Dict Nat (Int × Int) → Dict Nat (Int × Int) → Dict Nat (Int × Int)
  | sch, [] => sch
  | sch, (a, p) :: rest => addCompleted (sch.set a p) rest

/-- `generate_schedule_from_permutation_serial_sgs_2` (271-398): `done` are the completed tasks with start and end, `started` the
start times of the tasks that have started. -/
def sgs2 (pb : Problem) (perm modes : List Nat) (now : Nat) (done : Dict Nat (Int × Int)) (started : Dict Nat Nat) : Except PyErr Result := do
  let ext ← fixModes pb 0 (1 :: modes ++ [1])
  let acts := (extended pb perm).filter (fun x => !done.keys.contains x)
  let st ← loop pb ext acts.length (initFrom pb acts (baseOf now started))
  let sch ← times pb ext st.ends
  let r ← finish pb st.flag (addCompleted sch done)
  .ok { schedule := r.1, feasible := r.2, ext := ext }

/-- `max(list(rcpsp_schedule.keys()))`. -/
def maxKey (sch : Dict Nat (Int × Int)) : Except PyErr Nat :=
  match sch.keys.max? with
  | some a => .ok a
  | none => .error .valueError

/-- The makespan (521-522, 552-553). -/
def makespan (sch : Dict Nat (Int × Int)) : Except PyErr Int := do
  let a ← maxKey sch
  let p ← sch.get a
  .ok p.2

/-- Lines 563-569 for one activity that runs: add its requirements. -/
def addNeeds (pb : Problem) (act mode : Nat) : Dict String Int → Except PyErr (Dict String Int)
  | [] => .ok []
  | (res, u) :: rest => do
    let ms ← pb.modes.get act
    let m ← ms.get mode
    let n ← m.needs.get res
    let r ← addNeeds pb act mode rest
    .ok ((res, u + n) :: r)

/-- Lines 555-569: `resource_usage` at time `t`. -/
def usageLoop (pb : Problem) (ext : List Nat) (sch : Dict Nat (Int × Int)) (t : Int) : List Nat → Dict String Int → Except PyErr (Dict String Int)
  | [], u => .ok u
  | act :: rest, u => do
    let p ← sch.get act
    let mode ← pyGet ext (act - 1)
    if p.1 ≤ t ∧ t < p.2 then do
      let u' ← addNeeds pb act mode u
      usageLoop pb ext sch t rest u'
    else usageLoop pb ext sch t rest u

/-- `self.resources[res]` (572) or `self.resources[res][t]` (751). -/
def capAt (t : Nat) : Capacity → Except PyErr Int
  | .const c => .ok c
  | .calendar l => pyGet l t

/-- Lines 571-575: true when no violation is found. -/
def withinCaps (t : Nat) (usage : Dict String Int) : Dict String Capacity → Except PyErr Bool
  | [] => .ok true
  | (res, cap) :: rest => do
    let u ← usage.get res
    let c ← capAt t cap
    if c < u then .ok false else withinCaps t usage rest

/-- Lines 554-575: `n` times from `t` on. -/
def checkTimes (pb : Problem) (ext : List Nat) (sch : Dict Nat (Int × Int)) : Nat → Nat → Except PyErr Bool
  | 0, _ => .ok true
  | n + 1, t => do
    let u ← usageLoop pb ext sch t pb.successors.keys (pb.resources.map (fun p => (p.1, (0 : Int))))
    let ok ← withinCaps t u pb.resources
    if ok then checkTimes pb ext sch n (t + 1) else .ok false

/-- Lines 579-582: the total requirement of a non-renewable resource. -/
def totalNeed (pb : Problem) (ext : List Nat) (res : String) : List Nat → Except PyErr Int
  | [] => .ok 0
  | act :: rest => do
    let mode ← pyGet ext (act - 1)
    let ms ← pb.modes.get act
    let m ← ms.get mode
    let n ← m.needs.get res
    let r ← totalNeed pb ext res rest
    .ok (n + r)

/-- Lines 578-585.  `anyTime` says whether the loop over time ran: otherwise `resource_usage` in the message of line
584 is unbound. -/
def checkNonRenewable (pb : Problem) (ext : List Nat) (anyTime : Bool) : List String → Except PyErr Bool
  | [] => .ok true
  | res :: rest => do
    let u ← totalNeed pb ext res pb.successors.keys
    let cap ← pb.resources.get res
    let c ← capAt 0 cap
    if c < u then (if anyTime then .ok false else .error .nameError) else checkNonRenewable pb ext anyTime rest

/-- Lines 589-594 for one activity. -/
def checkSuccs (sch : Dict Nat (Int × Int)) (act : Nat) : List Nat → Except PyErr Bool
  | [] => .ok true
  | s :: rest => do
    let ps ← sch.get s
    let pa ← sch.get act
    if ps.1 < pa.2 then .ok false else checkSuccs sch act rest

/-- Lines 588-594. -/
def checkPrecedence (sch : Dict Nat (Int × Int)) : Dict Nat (List Nat) → Except PyErr Bool
  | [] => .ok true
  | (act, ss) :: rest => do
    let ok ← checkSuccs sch act ss
    if ok then checkPrecedence sch rest else .ok false

/-- `RCPSPModel.satisfy` (542-596) and `RCPSPModelCalendar.satisfy` (722-775): `flag` is `rcpsp_schedule_feasible`, `modes`
is `rcpsp_modes`. -/
def satisfy (pb : Problem) (flag : Option Bool) (modes : List Nat) (sch : Dict Nat (Int × Int)) : Except PyErr Bool :=
  if flag = some false then .ok false else do
    let ext := 1 :: modes ++ [1]
    let ms ← makespan sch
    let ok1 ← checkTimes pb ext sch ms.toNat 0
    if !ok1 then .ok false else do
      let ok2 ← checkNonRenewable pb ext (decide (0 < ms)) pb.nonRenewable
      if !ok2 then .ok false else checkPrecedence sch pb.successors

/-- `generate_permutation_from_schedule` (106-111): activities by start time, numbered from -1; -1 and the largest
number are taken out. -/
def permOf (sch : Dict Nat (Int × Int)) : Except PyErr (List Int) := do
  let sorted := (sortBy (fun p : Nat × (Int × Int) => p.2.1) sch).map (fun p => (p.1 : Int) - 2)
  if (-1 : Int) ∈ sorted then
    let l := sorted.erase (-1)
    match l.max? with
    | some x => .ok (l.erase x)
    | none => .error .valueError
  else .error .valueError

end Verif.Rcpsp
