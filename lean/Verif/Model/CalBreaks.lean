import Verif.Model.Rcpsp
/-
Model of `rcpsp/solver/calendar_solver_iterative.py`: `get_ressource_breaks` (23-78), `PostProcessSolutionNonFeasible` (81-134) and the
constraints of `ConstraintHandlerAddCalendarConstraint` (137-231).

Starts and ends are natural numbers (a negative slice index would count from the end).  Arrays are lists indexed by time; the array of
usages per activity is replaced by the test it is read for.  Constraint strings are modelled by what they say about the starts of the
program.  `random.random() < 0.1` is a parameter for each break.  Prints are left out.
-/
namespace Verif.CalBreaks
open Rcpsp

/-- `rcpsp_schedule`: start and end of each activity. -/
abbrev Sched := Dict Nat (Nat × Nat)

/-- `problem_calendar.resources[r]` read as a list: a number has no length. -/
def calOf : Capacity → Except PyErr (List Int)
  | .calendar l => .ok l
  | .const _ => .error .typeError

/-- `ressource_arrays` before the loop (27-30). -/
def zeros : Dict String Capacity → Except PyErr (Dict String (List Int))
  | [] => .ok []
  | (r, c) :: rest => do
    let l ← calOf c
    let z ← zeros rest
    .ok ((r, List.replicate l.length 0) :: z)

/-- `row[s:e] += x` (47-48): slices are cut off at the end of the row. -/
def rowAdd (row : List Int) (s e : Nat) (x : Int) : List Int := row.mapIdx (fun t v => if s ≤ t ∧ t < e then v + x else v)

/-- One requirement (34-48): keys `"None"`, requirements of 0 and activities without duration are skipped. -/
def addOne (se : Nat × Nat) (A : Dict String (List Int)) (p : String × Int) : Except PyErr (Dict String (List Int)) :=
  if p.1 = "None" ∨ p.2 = 0 ∨ se.2 = se.1 then .ok A else do
    let row ← A.get p.1
    .ok (A.set p.1 (rowAdd row se.1 se.2 p.2))

/-- The requirements of an activity. -/
def addAll (se : Nat × Nat) : Dict String (List Int) → List (String × Int) → Except PyErr (Dict String (List Int))
  | A, [] => .ok A
  | A, p :: ps => do
    let A' ← addOne se A p
    addAll se A' ps

/-- `problem_calendar.mode_details[j][1]` (34): mode 1, whatever mode was chosen. -/
def first (pb : Problem) (j : Nat) : Except PyErr Mode := do
  let ms ← pb.modes.get j
  ms.get 1

/-- The loop over the activities (32-48). -/
def fill (pb : Problem) (sched : Sched) : Dict String (List Int) → List Nat → Except PyErr (Dict String (List Int))
  | A, [] => .ok A
  | A, j :: js => do
    let m ← first pb j
    let se ← sched.get j
    let A' ← addAll se A m.needs
    fill pb sched A' js

/-- `sorted_keys_schedule` (31). -/
def order (sched : Sched) : List Nat := sortBy (fun k => (k : Int)) sched.keys

/-- `index` (53): the times at which more is required than there is. -/
def indexOf (row cal : List Int) : List Nat := (List.range cal.length).filter (fun t => decide (cal.getD t 0 < row.getD t 0))

/-- Whether an activity is concerned (56-59): it requires something of the resource at a break with capacity 0. -/
def concerned (pb : Problem) (sched : Sched) (r : String) (cal : List Int) (index : List Nat) (j : Nat) : Bool :=
  match first pb j, sched.get? j with
  | .ok m, some se => decide (r ≠ "None" ∧ (m.needs.get? r).getD 0 ≠ 0) && index.any (fun t => decide (cal.getD t 0 = 0 ∧ se.1 ≤ t ∧ t < se.2))
  | _, _ => false

/-- `first_possible_start_future` (65-68). -/
def future (cal : List Int) (x : Int) (cur : Nat) : Option Nat := (List.range' cur (cal.length - cur)).find? (fun t => decide (x ≤ cal.getD t 0))

/-- `first_possible_start_before` (69-72). -/
def before (cal : List Int) (x : Int) (cur : Nat) : Option Nat := (List.range (cur + 1)).reverse.find? (fun t => decide (x ≤ cal.getD t 0))

/-- `constraints[r]` (62-77). -/
def cuts (pb : Problem) (sched : Sched) (r : String) (cal : List Int) (index : List Nat) : List (Nat × (Option Nat × Option Nat)) :=
  ((order sched).filter (concerned pb sched r cal index)).map (fun j =>
    let cur := ((sched.get? j).getD (0, 0)).1
    let x := match first pb j with
      | .ok m => (m.needs.get? r).getD 0
      | .error _ => 0
    (j, before cal x cur, future cal x cur))

/-- What is found for one resource: `index_ressource[r]` and `constraints[r]`. -/
structure Found where
  index : List Nat
  cuts : List (Nat × (Option Nat × Option Nat))
  deriving DecidableEq

/-- The loop over the resources (52-77). -/
def found (pb : Problem) (sched : Sched) (A : Dict String (List Int)) : Dict String Capacity → Except PyErr (Dict String Found)
  | [] => .ok []
  | (r, c) :: rest => do
    let cal ← calOf c
    let row ← A.get r
    let d ← found pb sched A rest
    .ok ((r, ⟨indexOf row cal, cuts pb sched r cal (indexOf row cal)⟩) :: d)

/-- `get_ressource_breaks` (23-78). -/
def breaks (pb : Problem) (sched : Sched) : Except PyErr (Dict String Found) := do
  let Z ← zeros pb.resources
  let A ← fill pb sched Z (order sched)
  found pb sched A pb.resources

/-- The constraint on a start that is added for a cut (158-180); none if neither bound is known. -/
def CutHolds (c : Option Nat × Option Nat) (s : Nat) : Prop :=
  match c with
  | (some b, some f) => s ≤ b ∨ f ≤ s
  | (none, some f) => f ≤ s
  | (some b, none) => s ≤ b
  | (none, none) => True

/-- A solution in the store: its schedule and the attribute `satisfy`, if set. -/
structure Sol where
  sched : Sched
  satisfy : Option Bool
  deriving DecidableEq

/-- One solution (117-122): the attribute is set by the breaks unless there is one. -/
def judge (pb : Problem) (s : Sol) : Except PyErr Sol :=
  match s.satisfy with
  | some _ => .ok s
  | none => do
    let d ← breaks pb s.sched
    .ok { s with satisfy := some (!(d.any (fun p => decide (0 < p.2.index.length)))) }

/-- `build_other_solution` (116-134) from position `i` on: the loop runs over the list it extends.  `repair` is the solution that the
project with calendar builds from permutation and modes; with a partial solution nothing is added. -/
def build (pb : Problem) (partialSol : Bool) (repair : Sol → Sched) : Nat → Nat → List Sol → Except PyErr (List Sol)
  | 0, _, _ => .error .runtimeError
  | fuel + 1, i, l =>
    match l[i]? with
    | none => .ok l
    | some s => do
      let s' ← judge pb s
      let l' := l.set i s'
      if s'.satisfy = some false ∧ partialSol = false then
        build pb partialSol repair fuel (i + 1) (l' ++ [⟨repair s', some true⟩])
      else build pb partialSol repair fuel (i + 1) l'

end Verif.CalBreaks
