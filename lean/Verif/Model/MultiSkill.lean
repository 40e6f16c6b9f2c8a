import Mathlib.Data.Rat.Defs
import Verif.Model.Rcpsp
/-
Model of `skdecide/builders/discrete_optimization/rcpsp_multiskill/rcpsp_multiskill.py` (multi-skill project scheduling): schedule
generation with workers and the check of a schedule.

Simplifications: activities and workers are natural numbers, activities from 1 on; durations, horizons and times are natural numbers;
requirements and capacities are integers; skill values are rational numbers (the code has floating-point numbers); `resources_set` is the
set of keys of `resources_availability`; no skill is called "duration"; dictionaries and lists are values (the slices, `list(...)` and deep
copies of the code make the copies that the model makes implicitly), sets are lists without repetition; `print` calls are left out, but not
the look-ups in their arguments.  The parts of schedule generation that repeat `rcpsp_model.py` word by word use its model.
-/
namespace Verif.MultiSkill
open Verif.Rcpsp (Mode fixModes pick bookWindow bump pyRemove addNeeds withinCaps)

/-- `Employee` (324-332) with the `skill_value` of its `SkillDetail`s (306-316). -/
structure Employee where
  skills : Dict String Rat
  calendar : List Bool
  deriving DecidableEq

/-- `MS_RCPSPModel` (350-399). -/
structure Problem where
  skills : List String
  resources : Dict String (List Int)
  nonRenewable : List String
  employees : Dict Nat Employee
  modes : Dict Nat (Dict Nat Mode)
  successors : Dict Nat (List Nat)
  horizon : Nat
  multiplier : Nat
  source : Nat
  sink : Nat
  oneUnit : Bool

/-- `self.tasks` (398): the sorted keys of `mode_details`. -/
def Problem.tasks (pb : Problem) : List Nat := sortBy (fun a => (a : Int)) pb.modes.keys

/-- `new_horizon` (129). -/
def Problem.newHorizon (pb : Problem) : Nat := pb.horizon * pb.multiplier

/-- The instance without workers, for the parts of the code shared with `rcpsp_model.py`. -/
def Problem.base (pb : Problem) : Rcpsp.Problem :=
  { resources := pb.resources.map (fun p => (p.1, .calendar p.2)), nonRenewable := pb.nonRenewable, modes := pb.modes,
    successors := pb.successors, horizon := pb.horizon, multiplier := pb.multiplier }

/-- Start and end of the scheduled activities. -/
abbrev Schedule := Dict Nat (Nat × Nat)

/-- `employee_usage`: activity, worker, skills. -/
abbrev Usage := Dict Nat (Dict Nat (List String))

/-- The workers with `worker_avail_in_time` (135-137); both dictionaries have the same keys. -/
abbrev Workers := Dict Nat (Employee × List Bool)

/-- `worker_avail_in_time` (135-137). -/
def initWorkers (pb : Problem) : Workers := pb.employees.map (fun p => (p.1, (p.2, p.2.calendar)))

/-- `problem.mode_details[act_id][modes_extended[act_id-1]]` (182-185). -/
def details (pb : Problem) (ext : List Nat) (act : Nat) : Except PyErr Mode := do
  let k ← pyGet ext (act - 1)
  let d ← pb.modes.get act
  d.get k

/-- Lines 191-203 for one time: the pair is (`valid`, `unfeasible_non_renewable_resources` newly set). -/
def checkRes (H t : Nat) (m : Mode) : Dict String (List Int) → Except PyErr (Bool × Bool)
  | [] => .ok (true, false)
  | (res, row) :: rest =>
    if t < H then do
      let a ← pyGet row t
      let n ← m.needs.get res
      if a < n then .ok (false, false) else checkRes H t m rest
    else .ok (false, true)

/-- Lines 189-205: `n` times from `t` on. -/
def checkWindow (H : Nat) (m : Mode) (rows : Dict String (List Int)) : Nat → Nat → Except PyErr (Bool × Bool)
  | 0, _ => .ok (true, false)
  | n + 1, t => do
    let v ← checkRes H t m rows
    if v.1 then checkWindow H m rows n (t + 1) else .ok v

/-- `required_skills` (207-209, 475-477). -/
def required (pb : Problem) (m : Mode) : Dict String Int := m.needs.filter (fun p => pb.skills.contains p.1 && decide (0 < p.2))

/-- `all(worker_avail_in_time[worker][t] for t in range_time)` (213): `n` times from `t` on. -/
def allTrue (cal : List Bool) : Nat → Nat → Except PyErr Bool
  | 0, _ => .ok true
  | n + 1, t => do
    let b ← pyGet cal t
    if b then allTrue cal n (t + 1) else .ok false

/-- `worker_ids` of lines 212-213, with their data. -/
def freeWorkers (n c : Nat) : Workers → Except PyErr (List (Nat × Employee))
  | [] => .ok []
  | (w, (e, cal)) :: rest => do
    let b ← allTrue cal n c
    let r ← freeWorkers n c rest
    .ok (if b then (w, e) :: r else r)

/-- The negation of the condition of lines 218-220: one worker has all the skills at the required level. -/
def covers (req : Dict String Int) (e : Employee) : Bool :=
  req.all (fun p => match e.skills.get? p.1 with
    | some v => decide ((p.2 : Rat) ≤ v)
    | none => false)

/-- The sum of lines 230-232: how much of skill `s` a group has. -/
def level (s : String) : List (Nat × Employee) → Rat
  | [] => 0
  | (_, e) :: rest => (match e.skills.get? s with
    | some v => v
    | none => 0) + level s rest

/-- Lines 206-234: (`valid`, `worker_ids`). -/
def staff (pb : Problem) (m : Mode) (ws : Workers) (c : Nat) : Except PyErr (Bool × Option (List Nat)) :=
  if (required pb m).isEmpty then .ok (true, none) else do
    let ids ← freeWorkers m.duration c ws
    if pb.oneUnit then
      match ids.find? (fun p => covers (required pb m) p.2) with
      | some p => .ok (true, some [p.1])
      | none => .ok (false, none)
    else if (required pb m).all (fun p => decide ((p.2 : Rat) ≤ level p.1 ids)) then .ok (true, some (ids.map Prod.fst))
    else .ok (false, none)

/-- What the search for a starting time finds: the time, the two flags and the workers at hand. -/
structure Found where
  time : Nat
  nr : Bool
  late : Bool
  ids : Option (List Nat)
  deriving DecidableEq

/-- Lines 189-234 for one starting time: (`valid`, `unfeasible_non_renewable_resources` newly set, `worker_ids`). -/
def trial (pb : Problem) (m : Mode) (rows : Dict String (List Int)) (ws : Workers) (c : Nat) : Except PyErr (Bool × Bool × Option (List Nat)) := do
  let v ← checkWindow pb.newHorizon m rows m.duration c
  if v.1 then do
    let s ← staff pb m ws c
    .ok (s.1, v.2, s.2)
  else .ok (false, v.2, none)

/-- The body of the loop of lines 179-239; the first component tells whether the loop ends. -/
def attempt (pb : Problem) (m : Mode) (rows : Dict String (List Int)) (ws : Workers) (c : Nat) (nr : Bool) : Except PyErr (Bool × Found) :=
  if pb.horizon ≤ c + m.duration then .ok (true, ⟨c, nr, true, none⟩) else do
    let v ← trial pb m rows ws c
    if v.1 then .ok (true, ⟨c, nr || v.2.1, decide (pb.newHorizon < c), v.2.2⟩)
    else if pb.newHorizon < c + 1 then .ok (true, ⟨c + 1, nr || v.2.1, true, none⟩)
    else .ok (false, ⟨c + 1, nr || v.2.1, false, none⟩)

/-- Lines 178-239.  The `while` loop ends at the horizon at the latest (186-188), so `horizon + 1` rounds are enough: the error at fuel 0
never occurs (`search_fuel`). -/
def search (pb : Problem) (m : Mode) (rows : Dict String (List Int)) (ws : Workers) : Nat → Nat → Bool → Except PyErr Found
  | 0, _, _ => .error .runtimeError
  | fuel + 1, c, nr => do
    let r ← attempt pb m rows ws c nr
    if r.1 then .ok r.2 else search pb m rows ws fuel r.2.time r.2.nr

/-- `set.add`. -/
def addTo (l : List String) (s : String) : List String := if s ∈ l then l else l ++ [s]

/-- Lines 263-270: the skills of worker `w`; the pair is (`current_skills`, `employee_usage[act_id]`). -/
def addSkills (w : Nat) : Dict String Rat → Dict String Rat × Dict Nat (List String) → Dict String Rat × Dict Nat (List String)
  | [], st => st
  | (s, v) :: rest, (cur, us) => match cur.get? s with
    | some x => addSkills w rest (cur.set s (x + v), us.set w (addTo ((us.get? w).getD []) s))
    | none => addSkills w rest (cur, us)

/-- Lines 271-274: the times from `c` on, `n` of them, are set to `False` (they exist, since the worker was found to be free). -/
def busy (n c : Nat) (cal : List Bool) : List Bool := cal.mapIdx (fun i b => b && !(decide (c ≤ i) && decide (i < c + n)))

/-- The variables of the loop over workers. -/
structure Asg where
  current : Dict String Rat
  usage : Dict Nat (List String)
  ws : Workers

/-- Lines 262-274: worker `w` is engaged. -/
def engage (n c : Nat) (st : Asg) (w : Nat) : Asg :=
  match st.ws.get? w with
  | some (e, cal) =>
    let r := addSkills w e.skills (st.current, st.usage)
    { current := r.1, usage := r.2, ws := st.ws.set w (e, busy n c cal) }
  | none => st

/-- Lines 261-274 for one worker of the priority list. -/
def useWorker (ids : List Nat) (n c w : Nat) (st : Asg) : Asg := if w ∈ ids then engage n c st w else st

/-- Line 275. -/
def met (req : Dict String Int) (cur : Dict String Rat) : Bool :=
  req.all (fun p => match cur.get? p.1 with
    | some x => decide ((p.2 : Rat) ≤ x)
    | none => false)

/-- Lines 260-276. -/
def assign (req : Dict String Int) (ids : List Nat) (n c : Nat) : List Nat → Asg → Asg
  | [], st => st
  | w :: rest, st =>
    let st' := useWorker ids n c w st
    if met req st'.current then st' else assign req ids n c rest st'

/-- `solution.priority_worker_per_task[act_id-2]` (257); the index of activity 1 is -1, which is the last entry. -/
def prioOf (prio : List (List Nat)) (act : Nat) : Except PyErr (List Nat) :=
  if act < 2 then
    match prio.getLast? with
    | some l => .ok l
    | none => .error .indexError
  else pyGet prio (act - 2)

/-- The variables of the main loop. -/
structure St where
  rows : Dict String (List Int)
  ws : Workers
  minStart : Dict Nat Nat
  ends : Dict Nat Nat
  usage : Usage
  perm : List Nat
  nr : Bool
  late : Bool

/-- `current_skills` (259). -/
def zeros (req : Dict String Int) : Dict String Rat := req.map (fun p => (p.1, 0))

/-- Lines 256-276.  `employee_usage` gets an entry only when some skill of some worker is used. -/
def staffing (pb : Problem) (prio : List (List Nat)) (act : Nat) (m : Mode) (c : Nat) (ids : Option (List Nat)) (ws : Workers) (us : Usage) :
    Except PyErr (Workers × Usage) :=
  match ids with
  | none => .ok (ws, us)
  | some ids => do
    let l ← prioOf prio act
    let r := assign (required pb m) ids m.duration c l
      { current := zeros (required pb m), usage := (us.get? act).getD [], ws := ws }
    .ok (r.ws, if r.usage.isEmpty then us else us.set act r.usage)

/-- The second half of the loop body (244-282): the activity is placed at `c`. -/
def place (pb : Problem) (prio : List (List Nat)) (act : Nat) (m : Mode) (f : Found) (st : St) : Except PyErr St := do
  let r ← bookWindow pb.base pb.newHorizon (f.time + m.duration - 1) m m.duration f.time st.rows false
  let w ← staffing pb prio act m f.time f.ids st.ws st.usage
  let perm ← pyRemove st.perm act
  let ss ← pb.successors.get act
  let ms ← bump (f.time + m.duration) ss st.minStart
  .ok { rows := r.1, ws := w.1, minStart := ms, ends := st.ends.set act (f.time + m.duration), usage := w.2, perm := perm,
        nr := r.2, late := false }

/-- The loop body (160-283).  When no activity qualifies `act_id` is `None`, and line 176 raises `KeyError`. -/
def step (pb : Problem) (prio : List (List Nat)) (ext : List Nat) (st : St) : Except PyErr St :=
  match pick pb.successors st.perm with
  | none => .error .keyError
  | some act => do
    let c0 ← st.minStart.get act
    let m ← details pb ext act
    let f ← search pb m st.rows st.ws (pb.horizon + 1) c0 st.nr
    if f.nr || f.late then .ok { st with nr := f.nr, late := f.late } else place pb prio act m f st

/-- The main loop (160-283).  Every round that does not set a flag removes one activity, so as many rounds as activities are enough. -/
def loop (pb : Problem) (prio : List (List Nat)) (ext : List Nat) : Nat → St → Except PyErr St
  | 0, st => .ok st
  | n + 1, st => if st.perm.isEmpty || st.nr || st.late then .ok st else do
    let st' ← step pb prio ext st
    loop pb prio ext n st'

/-- `rcpsp_schedule` from `activity_end_times` (285-291); the ends are at least the durations. -/
def times (pb : Problem) (ext : List Nat) : Dict Nat Nat → Except PyErr Schedule
  | [] => .ok []
  | (a, e) :: rest => do
    let m ← details pb ext a
    let r ← times pb ext rest
    .ok ((a, (e - m.duration, e)) :: r)

/-- Lines 292-300: an infeasible schedule gets a sentinel for the last activity. -/
def finish (pb : Problem) (bad : Bool) (sch : Schedule) : Except PyErr Schedule :=
  if bad then
    match pb.successors.keys.max? with
    | none => .error .valueError
    | some l => if sch.contains l then .ok sch else .ok (sch.set l (99999999, 9999999))
  else .ok sch

/-- The result of schedule generation: what `sgs_multi_skill` returns (303), and the local variable `rcpsp_schedule_feasible` (293, 300),
which it does not return. -/
structure Result where
  schedule : Schedule
  ext : List Nat
  usage : Usage
  modes : Dict Nat Nat
  feasible : Bool
  deriving DecidableEq

/-- `perm_extended` (143-145). -/
def extended (pb : Problem) (perm : List Nat) : List Nat := 1 :: perm.map (· + 2) ++ [pb.modes.length]

/-- `modes_dict` (150), made before the modes are corrected. -/
def modesDict (modes : List Nat) : Dict Nat Nat := (1 :: modes ++ [1]).zipIdx.map (fun p : Nat × Nat => (p.2 + 1, p.1))

/-- The state before the main loop (123-159). -/
def initSt (pb : Problem) (perm : List Nat) : St :=
  { rows := pb.resources.map (fun p => (p.1, p.2.take (pb.newHorizon + 1))), ws := initWorkers pb,
    minStart := pb.successors.map (fun p => (p.1, 0)), ends := [], usage := [], perm := extended pb perm, nr := false, late := false }

/-- `sgs_multi_skill` (122-303). -/
def sgs (pb : Problem) (perm modes : List Nat) (prio : List (List Nat)) : Except PyErr Result := do
  let ext ← fixModes pb.base 0 (1 :: modes ++ [1])
  let st ← loop pb prio ext (extended pb perm).length (initSt pb perm)
  let sch ← times pb ext st.ends
  let sch' ← finish pb (st.nr || st.late) sch
  .ok { schedule := sch', ext := ext, usage := st.usage, modes := modesDict modes, feasible := !(st.nr || st.late) }

/-! ### The check (469-559) -/

/-- `MS_RCPSPSolution` (25-34). -/
structure Solution where
  modes : Dict Nat Nat
  schedule : Schedule
  usage : Usage

/-- A loop that stops at the first `return False`. -/
def allM (f : α → Except PyErr Bool) : List α → Except PyErr Bool
  | [] => .ok true
  | x :: xs => do
    let b ← f x
    if b then allM f xs else .ok false

/-- A sum of looked-up values. -/
def sumM [Zero β] [Add β] (f : α → Except PyErr β) : List α → Except PyErr β
  | [] => .ok 0
  | x :: xs => do
    let v ← f x
    let r ← sumM f xs
    .ok (v + r)

/-- `self.mode_details[task][rcpsp_sol.modes[task]]` (474-476). -/
def modeOf (pb : Problem) (sol : Solution) (task : Nat) : Except PyErr Mode := do
  let k ← sol.modes.get task
  let d ← pb.modes.get task
  d.get k

/-- `self.employees[emp].dict_skill[skill].skill_value` (481). -/
def skillOf (pb : Problem) (skill : String) (w : Nat) : Except PyErr Rat := do
  let e ← pb.employees.get w
  e.skills.get skill

/-- Lines 480-486 for one skill. -/
def skillMet (pb : Problem) (sol : Solution) (task : Nat) (p : String × Int) : Except PyErr Bool := do
  let us ← sol.usage.get task
  let v ← sumM (fun q => skillOf pb p.1 q.1) (us.filter (fun q => q.2.contains p.1))
  .ok (decide ((p.2 : Rat) ≤ v))

/-- The look-ups of the message of lines 498-500, which do not stop at the first `False`. -/
def report (cal : List Bool) : Nat → Nat → Except PyErr Unit
  | 0, _ => .ok ()
  | n + 1, t => do
    let _ ← pyGet cal t
    report cal n (t + 1)

/-- Lines 493-502 for one worker. -/
def workerFree (pb : Problem) (sol : Solution) (task w : Nat) : Except PyErr Bool := do
  let p ← sol.schedule.get task
  let e ← if p.1 < p.2 then pb.employees.get w else .ok ⟨[], []⟩
  let b ← allTrue e.calendar (p.2 - p.1) p.1
  if b then .ok true else do
    report e.calendar (p.2 - p.1) p.1
    .ok false

/-- Lines 474-502 for one task. -/
def checkTask (pb : Problem) (sol : Solution) (task : Nat) : Except PyErr Bool := do
  let m ← modeOf pb sol task
  let b ← allM (skillMet pb sol task) (required pb m)
  if b then
    match sol.usage.get? task with
    | some us => allM (workerFree pb sol task) us.keys
    | none => .ok true
  else .ok false

/-- `intersect` (340-347), whether the result is not `None`. -/
def intersects (a b : Nat × Nat) : Bool := !(decide (a.2 ≤ b.1) || decide (b.2 ≤ a.1))

/-- The look-ups and the test of the comprehension of lines 503-508. -/
def overlap (sol : Solution) (t1 t2 : Nat) : Except PyErr Bool :=
  if t1 < t2 then do
    let a ← sol.schedule.get t1
    let b ← sol.schedule.get t2
    .ok (intersects a b)
  else .ok false

/-- The comprehension of lines 503-508. -/
def overlapsFrom (sol : Solution) (t1 : Nat) : List Nat → Except PyErr (List (Nat × Nat))
  | [] => .ok []
  | t2 :: rest => do
    let b ← overlap sol t1 t2
    let r ← overlapsFrom sol t1 rest
    .ok (if b then (t1, t2) :: r else r)

/-- The comprehension of lines 503-508. -/
def overlaps (sol : Solution) (all : List Nat) : List Nat → Except PyErr (List (Nat × Nat))
  | [] => .ok []
  | t1 :: rest => do
    let a ← overlapsFrom sol t1 all
    let r ← overlaps sol all rest
    .ok (a ++ r)

/-- Lines 509-513 for one pair: no worker in common. -/
def apart (sol : Solution) (p : Nat × Nat) : Bool :=
  !(((sol.usage.get? p.1).getD []).keys.any (fun k => ((sol.usage.get? p.2).getD []).contains k))

/-- Lines 517-531: `resource_usage` at time `t`. -/
def usageAt (pb : Problem) (sol : Solution) (t : Nat) : List Nat → Dict String Int → Except PyErr (Dict String Int)
  | [], u => .ok u
  | act :: rest, u => do
    let p ← sol.schedule.get act
    let k ← sol.modes.get act
    if p.1 ≤ t ∧ t < p.2 then do
      let u' ← addNeeds pb.base act k u
      usageAt pb sol t rest u'
    else usageAt pb sol t rest u

/-- Lines 517-538 for one time. -/
def checkTime (pb : Problem) (sol : Solution) (t : Nat) : Except PyErr Bool := do
  let u ← usageAt pb sol t pb.tasks (pb.resources.map (fun p => (p.1, (0 : Int))))
  withinCaps t u pb.base.resources

/-- Lines 542-549 for one non-renewable resource. -/
def checkTotal (pb : Problem) (sol : Solution) (res : String) : Except PyErr Bool := do
  let u ← sumM (fun act => do
    let m ← modeOf pb sol act
    m.needs.get res) pb.tasks
  let row ← pb.resources.get res
  let c ← pyGet row 0
  .ok (decide (u ≤ c))

/-- Lines 552-558 for one activity. -/
def checkSuccs (sol : Solution) (p : Nat × List Nat) : Except PyErr Bool :=
  allM (fun s => do
    let b ← sol.schedule.get s
    let a ← sol.schedule.get p.1
    .ok (decide (a.2 ≤ b.1))) p.2

/-- `satisfy` (469-559). -/
def satisfy (pb : Problem) (sol : Solution) : Except PyErr Bool :=
  if sol.schedule.length ≠ pb.modes.length then .ok false else do
    let b1 ← allM (checkTask pb sol) pb.tasks
    if b1 then do
      let os ← overlaps sol pb.tasks pb.tasks
      if os.all (apart sol) then do
        let e ← sol.schedule.get pb.sink
        let b2 ← allM (checkTime pb sol) (List.range e.2)
        if b2 then do
          let b3 ← allM (checkTotal pb sol) pb.nonRenewable
          if b3 then allM (checkSuccs sol) pb.successors else .ok false
        else .ok false
      else .ok false
    else .ok false

end Verif.MultiSkill
