import Verif.Model.FacilityLp
import Verif.Model.ColoringLp
import Verif.Model.RcpspLp
/-
Model of the neighbourhoods of the large neighbourhood searches with linear programs (directory
`skdecide/builders/discrete_optimization`): `facility/solvers/facility_lp_lns_solver.py` `ConstraintHandlerFacility`,
`coloring/solvers/coloring_lp_lns_solvers.py` `ConstraintHandlerFixColorsGrb` and `ConstraintHandlerFixColorsPyMip` (the same
rows), `rcpsp/solver/rcpsp_lp_lns_solver.py` `ConstraintHandlerFixStartTime`, `ConstraintHandlerStartTimeInterval` and
`ConstraintHandlerStartTimeIntervalMRCPSP`.

The random samples are parameters, the incumbent is the best solution of the result storage.  Simplification: the MIP start (a
hint to the library) is left out, except for the dictionary look-ups of the incumbent that may raise.
-/
namespace Verif.LpLns
open Verif.Milp

/-- `model.add_constr(...)` for all rows of a handler. -/
def withRows {V : Type} (p : Program V) (rows : List (Row V)) : Program V := { p with rows := p.rows ++ rows }

/-- `add_constr(v == value)`. -/
def fixed {V : Type} (v : V) (value : Int) : Row V := ⟨[(1, v)], .eq, value⟩

/-- The rows of `ConstraintHandlerFacility.adding_constraint_from_results_store` (56-87): `sub` are the customers drawn;
a pruned pair has no variable and no row. -/
def facilityRows (p : Facility.Problem) (keep : Nat → Nat → Bool) (assign : List Int) (sub : List Nat) :
    Except PyErr (List (Row FacilityLp.Var)) := do
  let start ← mapE (fun c => pyGet assign c) (List.range p.customers.length)
  .ok (((List.range p.facilities.length).flatMap (fun f => (List.range p.customers.length).map (fun c => (f, c)))).filterMap (fun k =>
    if sub.contains k.2 && keep k.1 k.2 then some (fixed (.x k.1 k.2) (if (k.1 : Int) = start.getD k.2 0 then 1 else 0)) else none))

/-- `adding_constraint_from_results_store` (49-87) with the counter of the handler: the first call adds nothing when
`skip_first_iter`. -/
def facilityHandler (skipFirst : Bool) (iter : Nat) (p : Facility.Problem) (keep : Nat → Nat → Bool) (assign : List Int) (sub : List Nat) :
    Except PyErr (List (Row FacilityLp.Var) × Nat) :=
  if iter == 0 && skipFirst then .ok ([], iter + 1)
  else do
    let rows ← facilityRows p keep assign sub
    .ok (rows, iter)

/-- `max` of a list of numbers; of an empty one: `ValueError`. -/
def maxInt : List Int → Except PyErr Int
  | [] => .error .valueError
  | x :: xs => .ok (xs.foldl max x)

/-- The rows of `ConstraintHandlerFixColors...adding_constraint_from_results_store` (49-76, 92-121): the nodes drawn keep their
colour, unless it is the highest one. -/
def colorRows (g : Coloring.Graph) (nb : Nat) (colors : List Int) (sub : List Int) : Except PyErr (List (Row ColoringLp.Var)) := do
  let top ← maxInt colors
  let start ← mapE (fun n => do let i ← g.index.get n; let c ← pyGet colors i; .ok (n, c)) g.names
  let kept : Dict Int Int := start.filter (fun q => sub.contains q.1 && decide (q.2 ≤ top - 1))
  .ok ((ColoringLp.keys g nb).filterMap (fun k =>
    (kept.get? k.1).map (fun v => fixed (.x k.1 k.2) (if (k.2 : Int) = v then 1 else 0))))

/-- A schedule: task, start and end. -/
abbrev Schedule := Dict Nat (Int × Int)

/-- The list `x[job - 1]` of one variable per time, for `n` tasks. -/
def row (n job : Nat) : Except PyErr Nat := if job - 1 < n then .ok (job - 1) else .error .indexError

/-- `ConstraintHandlerFixStartTime.adding_constraint_from_results_store` (99-131): the tasks drawn keep their start. -/
def fixStartRows (n H : Nat) (sch : Schedule) (jobs : List Nat) : Except PyErr (List (Row (Nat × Nat))) := do
  let _ ← mapE (fun j => sch.get (j + 1)) (List.range n)
  let rows ← mapE (fun job => do
    let s ← sch.get job
    let j ← row n job
    .ok ((List.range (H + 1)).map (fun (t : Nat) => fixed (j, t) (if s.1 = (t : Int) then 1 else 0)))) jobs
  .ok rows.flatten

/-- `max_time` (167, 227). -/
def maxEnd (sch : Schedule) : Except PyErr Int := maxInt (sch.map (fun q => q.2.2))

/-- `jobs_to_fix` without `last_jobs` (169-176, 229-236): tasks that end within five of the end are free. -/
def bound (sch : Schedule) (top : Int) (jobs : List Nat) : List Nat :=
  jobs.filter (fun job => !(((sch.filter (fun q => decide (q.2.2 ≥ top - 5))).map Prod.fst).contains job))

/-- `t < min_st or t > max_st` (179-182, 239-243). -/
def outside (s minus plus top : Int) (t : Nat) : Bool :=
  decide ((t : Int) < max (s - minus) 0) || decide ((t : Int) > min (s + plus) top)

/-- `ConstraintHandlerStartTimeInterval.adding_constraint_from_results_store` (151-187). -/
def intervalRows (n H : Nat) (sch : Schedule) (jobs : List Nat) (minus plus : Int) : Except PyErr (List (Row (Nat × Nat))) := do
  let _ ← mapE (fun j => sch.get (j + 1)) (List.range n)
  let top ← maxEnd sch
  let rows ← mapE (fun job => do
    let s ← sch.get job
    let j ← row n job
    .ok (((List.range (H + 1)).filter (outside s.1 minus plus top)).map (fun t => fixed (j, t) 0))) (bound sch top jobs)
  .ok rows.flatten

/-- The incumbent of `ConstraintHandlerStartTimeIntervalMRCPSP` (209-212): the start solution of the solver if its makespan is
smaller. -/
def incumbent (makespanStart makespanBest : Int) (start best : Schedule) : Schedule :=
  if makespanStart < makespanBest then start else best

/-- The rows of `ConstraintHandlerStartTimeIntervalMRCPSP.adding_constraint_from_results_store` (225-248); `vd` is
`variable_per_task`. -/
def intervalRowsMulti (vd : Dict Nat (List RcpspLp.Key)) (sch : Schedule) (jobs : List Nat) (minus plus : Int) :
    Except PyErr (List (Row RcpspLp.Var)) := do
  let top ← maxEnd sch
  let rows ← mapE (fun job => do
    let s ← sch.get job
    let ks ← vd.get job
    .ok ((ks.filter (fun k => outside s.1 minus plus top k.2.2)).map (fun k => fixed (.x k) 0))) (bound sch top jobs)
  .ok rows.flatten

end Verif.LpLns
