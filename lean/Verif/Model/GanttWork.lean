import Verif.Model.GanttLp
/-
Model of `rcpsp/solver/rcpsp_lp_solver_gantt.py` (directory `skdecide/builders/discrete_optimization`): what `LP_MRCPSP_GANTT_GUROBI` adds to the
program of `GanttLp` (its `init_model`, 219-272, is the same).

The names of the constraints are left out.
-/
namespace Verif.GanttLp
open Verif.Milp

/-- The variables of the program. -/
def varsOf (p : Program Var) : List Var := p.vars.map Prod.fst

/-- `adding_constraint` (274-287) for `ConstraintTaskIndividual`. -/
def addTasks (p : Program Var) (l : List (Var × Bool)) : Program Var :=
  { p with rows := p.rows ++ l.filterMap (fun x => if x.1 ∈ varsOf p then some ⟨[(1, x.1)], .eq, if x.2 then 1 else 0⟩ else none) }

/-- `tasks_of_interest` (293-299). -/
def interest (D : Data) (p : Program Var) (k : String) (i lo hi : Nat) : List Nat :=
  D.jobs.filter (fun t => (k, i, t) ∈ varsOf p ∧
    ((lo ≤ (D.time t).1 ∧ (D.time t).1 ≤ hi) ∨ (lo ≤ (D.time t).2 ∧ (D.time t).2 ≤ hi)))

/-- The factor of an activity (304-307). -/
def part (D : Data) (lo hi t : Nat) : Int := min (hi : Int) ((D.time t).2 : Int) - max (lo : Int) ((D.time t).1 : Int)

/-- `adding_constraint` (288-310) for `ConstraintWorkDuration`. -/
def addWork (D : Data) (p : Program Var) (k : String) (i lo hi : Nat) (bound : Int) : Program Var :=
  { p with rows := p.rows ++ [⟨(interest D p k i lo hi).map (fun t => (part D lo hi t, (k, i, t))), .le, bound⟩] }

/-- The loops of `build_objective_function_from_a_solution` (351-357); an entry says whether the value is at least 0.5.  `pass` does nothing. -/
def objective (p : Program Var) (ignore : List Var) : List (Var × Bool) → Except PyErr (Int × Lin Var)
  | [] => .ok (0, [])
  | (v, b) :: u =>
    let _ := if v ∈ ignore then () else ()
    if b then
      if v ∈ varsOf p then
        match objective p ignore u with
        | .error e => .error e
        | .ok r => .ok (1 + r.1, (-1, v) :: r.2)
      else .error .keyError
    else objective p ignore u

end Verif.GanttLp
