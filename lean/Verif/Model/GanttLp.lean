import Verif.Model.Milp
/-
Model of `rcpsp/solver/rcpsp_lp_solver_gantt.py` (directory `skdecide/builders/discrete_optimization`): the program of
`LP_MRCPSP_GANTT`, which gives the individuals of resources to the activities of a schedule.

Schedule and requirements are total functions (the look-ups of activities are not modelled).  The maximal cliques of the graph of activities
that meet (`nx.find_cliques`) are a parameter.  The random objective is left out.
-/
namespace Verif.GanttLp
open Verif.Milp

/-- The project with its schedule (54-90): activities, start and end, `calendar_details`, requirements in the chosen mode. -/
structure Data where
  jobs : List Nat
  time : Nat → Nat × Nat
  units : Dict String (List (List Bool))
  need : Nat → String → Int

/-- A key of the variables (110): resource, individual, activity. -/
abbrev Var := String × Nat × Nat

/-- `intersect` (24-31) of the times of two activities is not `None`. -/
def meets (D : Data) (t t' : Nat) : Bool := !(decide ((D.time t').1 ≥ (D.time t).2) || decide ((D.time t).1 ≥ (D.time t').2))

/-- `available` (107-108): the whole list is built before `all`. -/
def free (cal : List Bool) (s e : Nat) : Except PyErr Bool := do
  let bs ← mapE (fun d => pyGet cal (s + d)) (List.range (e - s))
  .ok (bs.all id)

/-- The loop over the individuals from `i` on (106-121): the new variables. -/
def keysFrom (D : Data) (k : String) (task : Nat) : Nat → List (List Bool) → Except PyErr (List Var)
  | _, [] => .ok []
  | i, cal :: cals => do
    let b ← free cal (D.time task).1 (D.time task).2
    let r ← keysFrom D k task (i + 1) cals
    .ok (if b then (k, i, task) :: r else r)

/-- The loop over the resources (103-133) for an activity: `variables_per_task[task]` and the rows. -/
def taskLoop (D : Data) (task : Nat) : Dict String (List (List Bool)) → List Var → List (Row Var) → Except PyErr (List Var × List (Row Var))
  | [], vs, rows => .ok (vs, rows)
  | (k, cals) :: us, vs, rows =>
    if 0 < D.need task k then
      match keysFrom D k task 0 cals with
      | .error e => .error e
      | .ok new =>
        if vs ++ new = [] then .error .keyError
        else taskLoop D task us (vs ++ new)
          (rows ++ [⟨((vs ++ new).filter (fun v => v.1 = k)).map (fun v => (1, v)), .eq, D.need task k⟩])
    else taskLoop D task us vs rows

/-- The loop over the activities (100-133). -/
def jobsLoop (D : Data) : List Nat → List Var → List (Row Var) → Except PyErr (List Var × List (Row Var))
  | [], vs, rows => .ok (vs, rows)
  | t :: ts, vs, rows => do
    let r ← taskLoop D t D.units [] []
    jobsLoop D ts (vs ++ r.1) (rows ++ r.2)

/-- The row of a clique and an individual (140-146). -/
def overlapRow (vs : List Var) (c : List Nat) (q : String × Nat) : Option (Row Var) :=
  let keys := vs.filter (fun v => v.1 = q.1 ∧ v.2.1 = q.2 ∧ v.2.2 ∈ c)
  if keys = [] then none else some ⟨keys.map (fun v => (1, v)), .le, 1⟩

/-- `overlaps_constraints` (134-146); the row of an individual is repeated here for each of its variables. -/
def overlapRows (cliques : List (List Nat)) (vs : List Var) : List (Row Var) :=
  cliques.flatMap (fun c => (vs.map (fun v => (v.1, v.2.1))).filterMap (overlapRow vs c))

/-- `init_model` (91-146). -/
def init (D : Data) (cliques : List (List Nat)) : Except PyErr (Program Var) := do
  let r ← jobsLoop D D.jobs [] []
  .ok { vars := r.1.map (fun v => (v, .binary)), rows := r.2 ++ overlapRows cliques r.1, objective := [] }

end Verif.GanttLp
