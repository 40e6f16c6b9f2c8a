import Verif.Model.MultiSkill
/-
Model of the left shift of multi-skill schedules, `sgs_variant` in
`skdecide/builders/discrete_optimization/rcpsp_multiskill/solvers/lns_post_process_rcpsp.py` (46-92).

Simplifications: as for `Verif.Model.MultiSkill`; no activity of the schedule ends before it starts.  `resource_avail_in_time` (52-55) is
computed and never read; it is left out (the slices of existing rows cannot raise).
-/
namespace Verif.MultiSkill

/-- `employee_used` (62-63). -/
def usedBy (sol : Solution) (task : Nat) : List Nat := (((sol.usage.get? task).getD []).filter (fun p => !p.2.isEmpty)).map (·.1)

/-- `worker_avail_in_time` (56-58). -/
abbrev Calendars := Dict Nat (List Bool)

/-- `worker_avail_in_time` (56-58). -/
def initCals (pb : Problem) : Calendars := pb.employees.map (fun p => (p.1, p.2.calendar))

/-- `sorted_tasks` (59-60): by start and then by number, as two stable sorts. -/
def shiftOrder (sch : Schedule) : List Nat :=
  (sortBy (fun p : Nat × (Nat × Nat) => (p.2.1 : Int)) (sortBy (fun p : Nat × (Nat × Nat) => (p.1 : Int)) sch)).map (·.1)

/-- The new times of a predecessor if there are any, else the old ones (64-66). -/
def timesOf (old new : Schedule) (t : Nat) : Except PyErr (Nat × Nat) :=
  match new.get? t with
  | some p => .ok p
  | none => old.get t

/-- `times_predecessors` (64-67). -/
def predEnds (old new : Schedule) : List Nat → Except PyErr (List Nat)
  | [] => .ok []
  | t :: rest => do
    let p ← timesOf old new t
    let r ← predEnds old new rest
    .ok (p.2 :: r)

/-- `min_time` (68-71). -/
def minTime (l : List Nat) : Nat := l.foldl max 0

/-- `worker_avail_in_time[emp]` (74); without any time nothing is looked up. -/
def calOf (cals : Calendars) (n w : Nat) : Except PyErr (List Bool) := if n = 0 then .ok [] else cals.get w

/-- The test of lines 74-77: all workers are free at the `n` times from `t` on. -/
def allFree (cals : Calendars) (n t : Nat) : List Nat → Except PyErr Bool
  | [] => .ok true
  | w :: ws => do
    let cal ← calOf cals n w
    let b ← allTrue cal n t
    if b then allFree cals n t ws else .ok false

/-- Lines 73-79: the first of `k` times from `t` on at which the test succeeds. -/
def firstFree (cals : Calendars) (n : Nat) (ws : List Nat) : Nat → Nat → Except PyErr (Option Nat)
  | 0, _ => .ok none
  | k + 1, t => do
    let b ← allFree cals n t ws
    if b then .ok (some t) else firstFree cals n ws k (t + 1)

/-- Lines 84-85 for one time. -/
def block (t : Nat) : List Nat → Calendars → Except PyErr Calendars
  | [], cals => .ok cals
  | w :: ws, cals => do
    let cal ← cals.get w
    let cal' ← pySet cal t false
    block t ws (cals.set w cal')

/-- Lines 83-85: `n` times from `t` on. -/
def blockAll (ws : List Nat) : Nat → Nat → Calendars → Except PyErr Calendars
  | 0, _, cals => .ok cals
  | n + 1, t, cals => do
    let cals' ← block t ws cals
    blockAll ws n (t + 1) cals'

/-- The loop body (61-85). -/
def shiftStep (sol : Solution) (preds : Dict Nat (List Nat)) (task : Nat) (new : Schedule) (cals : Calendars) : Except PyErr (Schedule × Calendars) := do
  let ps ← preds.get task
  let es ← predEnds sol.schedule new ps
  let p ← sol.schedule.get task
  let f ← firstFree cals (p.2 - p.1) (usedBy sol task) (p.1 + 1 - minTime es) (minTime es)
  let s := f.getD p.1
  let cals' ← blockAll (usedBy sol task) (p.2 - p.1) s cals
  .ok (new.set task (s, s + (p.2 - p.1)), cals')

/-- The loop (61-85). -/
def shiftLoop (sol : Solution) (preds : Dict Nat (List Nat)) : List Nat → Schedule → Calendars → Except PyErr Schedule
  | [], new, _ => .ok new
  | task :: rest, new, cals => do
    let r ← shiftStep sol preds task new cals
    shiftLoop sol preds rest r.1 r.2

/-- `sgs_variant` (46-92). -/
def leftShift (pb : Problem) (preds : Dict Nat (List Nat)) (sol : Solution) : Except PyErr Solution := do
  let sch ← shiftLoop sol preds (shiftOrder sol.schedule) [] (initCals pb)
  .ok { modes := sol.modes, schedule := sch, usage := sol.usage }

end Verif.MultiSkill
