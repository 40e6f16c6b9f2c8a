import Verif.Model.MsLp
/-
Model of `rcpsp_multiskill/solvers/ms_rcpsp_lp_lns_solver.py` (directory `skdecide/builders/discrete_optimization`): the two constraint
handlers `ConstraintHandlerFixStartTime` and `ConstraintHandlerStartTimeIntervalMRCPSP`.

The best solution is a parameter, and so are the tasks drawn by `random.sample`.  Rows are removed by the library; this is not modelled.
-/
namespace Verif.MsLpLns
open Verif.Milp Verif.MultiSkill Verif.MsLp

/-- The pairs of `model.start` for one task (71-77, 115-121). -/
def hintsOf (pb : Problem) (sol : Solution) (q : Nat × Nat × Nat) : Except PyErr (List (Var × Int)) := do
  let m ← sol.modes.get q.1
  if q.1 ∈ pb.modes.keys ∧ m ∈ (modesOf pb q.1).keys then
    .ok ((.startT q.1, (q.2.1 : Int)) :: (.mode q.1 m, 1) :: (modesOf pb q.1).keys.map (fun m' => (.mode q.1 m', if m = m' then 1 else 0)))
  else .error .keyError

/-- `model.start` (70-78, 114-122). -/
def hints (pb : Problem) (sol : Solution) : Except PyErr (List (Var × Int)) := do
  let l ← mapE (hintsOf pb sol) sol.schedule
  .ok l.flatten

/-- `random.sample(schedule.keys(), int(fraction * nb_jobs))` (130-131); fractions are not negative: the tasks drawn, unless more are asked for than there are. -/
def sample (sol : Solution) (fraction : Rat) (n : Nat) (drawn : List Nat) : Except PyErr (List Nat) :=
  if (sol.schedule.length : Int) < (fraction * n).floor then .error .valueError else .ok drawn

/-- `jobs_to_fix` without `last_jobs` (127-134). -/
def bound (sol : Solution) (top : Nat) (jobs : List Nat) : List Nat :=
  jobs.filter (fun job => !((sol.schedule.filter (fun q => decide (top ≤ q.2.2 + 5))).map Prod.fst).contains job)

/-- The two rows of a task (135-142). -/
def nearRows (pb : Problem) (sol : Solution) (top : Nat) (minus plus : Int) (job : Nat) : Except PyErr (List (Row Var)) := do
  let s ← sol.schedule.get job
  if job ∈ pb.modes.keys then
    .ok [⟨[(1, .startT job)], .le, min ((s.1 : Int) + plus) top⟩, ⟨[(1, .startT job)], .ge, max ((s.1 : Int) - minus) 0⟩]
  else .error .keyError

/-- `ConstraintHandlerStartTimeIntervalMRCPSP.adding_constraint_from_results_store` (108-145): the hints and the rows. -/
def interval (pb : Problem) (sol : Solution) (fraction : Rat) (drawn : List Nat) (minus plus : Int) :
    Except PyErr (List (Var × Int) × List (Row Var)) := do
  let h ← hints pb sol
  let top ← maxOf (sol.schedule.map (fun q => q.2.2))
  let jobs ← sample sol fraction pb.modes.length drawn
  let rows ← mapE (nearRows pb sol top minus plus) (bound sol top jobs)
  .ok (h, rows.flatten)

/-- `ConstraintHandlerFixStartTime.adding_constraint_from_results_store` (63-88): solutions of multi-skill projects have no
`rcpsp_schedule` (80). -/
def fixStart (pb : Problem) (sol : Solution) : Except PyErr (List (Var × Int) × List (Row Var)) := do
  let _ ← hints pb sol
  .error .attributeError

/-- The program with further rows. -/
def withRows (p : Prog) (rows : List (Row Var)) : Prog := { p with base := { p.base with rows := p.base.rows ++ rows } }

end Verif.MsLpLns
