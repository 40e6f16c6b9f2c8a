import Verif.Model.Facility
import Verif.Model.FacilityLp
/-
Model of the constraint program `facility/minizinc/facility_int.mzn` (`facility_int_lns.mzn` has the same constraints and no
solve item) and of `FacilityCP` in `facility/solvers/facility_cp_solvers.py` (directory
`skdecide/builders/discrete_optimization`).

The program is the predicate `Solves` on the values of its variables; an answer of the solver is any value that satisfies it.
The search annotations, the time limits and the prints are not modelled.
-/
namespace Verif.CpFacility
open Facility FacilityLp

/-- `int(x)`: towards zero. -/
def trunc (q : Rat) : Int := q.num.tdiv q.den

/-- A `FacilityProblem` with its real numbers: (setup cost, capacity) of the facilities, demands, connection costs. -/
structure Raw where
  facilities : List (Rat × Rat)
  customers : List Rat
  cost : Int → Nat → Rat

/-- The data of the program (`facility_cp_solvers.py` 47-57): every number is truncated. -/
def data (r : Raw) : Problem :=
  { customerCount := r.customers.length
    facilities := r.facilities.map (fun f => { setup := trunc f.1, capacity := trunc f.2 })
    customers := r.customers.map trunc
    cost := fun f c => trunc (r.cost f c) }

/-- The variables of the program: `facility_for_customer` (numbers from 1), `capacity_used_by_facility` and `used_facility`
(here for facilities numbered from 0), `objective`. -/
structure Vars where
  facility : List Nat
  load : Nat → Int
  opened : Nat → Bool
  objective : Int

/-- The constraints (`facility_int.mzn` 9-26). -/
structure Solves (p : Problem) (v : Vars) : Prop where
  len : v.facility.length = p.customerCount
  dom : ∀ f ∈ v.facility, 1 ≤ f ∧ f ≤ p.facilities.length
  load : ∀ f < p.facilities.length, ((List.range p.customerCount).map (fun c => if v.facility[c]? = some (f + 1) then demandOf p c else 0)).sum = v.load f
  cap : ∀ f < p.facilities.length, v.load f ≤ capOf p f
  opened : ∀ f < p.facilities.length, (v.opened f = true ↔ 0 < v.load f)
  objective : v.objective = ((List.range p.facilities.length).map (fun f => (if v.opened f then 1 else 0) * setupOf p f)).sum +
    ((List.range p.customerCount).map (fun c => p.cost ((v.facility.getD c 0 : Nat) - 1 : Int) c)).sum

/-- `[f-1 for f in result["facility_for_customer"]]` (77-78, 121-122). -/
def decode (v : Vars) : List Int := v.facility.map (fun (f : Nat) => (f : Int) - 1)

/-- `minimize(objective)` (`facility_int.mzn` 27). -/
def Least (p : Problem) (v : Vars) : Prop := Solves p v ∧ ∀ v', Solves p v' → v.objective ≤ v'.objective

/-- `aggreg(evaluate(...))` with the default weights -1, -1 and -10000 (`facility_model.py` 117-120). -/
def fitness (p : Problem) (assign : List Int) : Except PyErr Int := do
  let e ← evaluate p assign
  .ok (- e.cost - e.setup - 10000 * e.violation)

/-- The variables of `solve_lns`: `dict_color` is `current` moved by one. -/
structure State where
  current : List Int
  objective : Int
  deriving DecidableEq

/-- The program of an iteration: `facility_for_customer[i] == dict_color[i]` for the fixed customers (111-115). -/
def Child (p : Problem) (current : List Int) (fixed : List Nat) (v : Vars) : Prop :=
  Solves p v ∧ ∀ i ∈ fixed, (decode v)[i]? = current[i]?

/-- What an iteration does with the answer of the solver (118-127). -/
def lnsStep (st : State) : Option Vars → State
  | none => st
  | some v => if - v.objective > st.objective then ⟨decode v, - v.objective⟩ else st

/-- `solve_lns` (96-138) from a first solution, for the answers of the iterations. -/
def lns (p : Problem) (first : List Int) (answers : List (Option Vars)) : Except PyErr State := do
  let o ← fitness p first
  .ok (answers.foldl lnsStep ⟨first, o⟩)

end Verif.CpFacility
