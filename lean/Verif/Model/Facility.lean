import Verif.Model.Py
/-
Model of `facility/facility_model.py` and `facility/solvers/greedy_solvers.py`
(directory `skdecide/builders/discrete_optimization`).

Demands, capacities and costs are exact integers.  Locations are abstracted into the connection
cost `evaluate_customer_facility`, a parameter.  `dict_details` is absent from a solution (no modelled
function sets it; `evaluate` returns it unchanged when given, line 59).  The set `customers` of
the details is dropped.
-/
namespace Verif.Facility

/-- `l[i]` with Python's negative indices. -/
def pyGetI (l : List α) (i : Int) : Except PyErr α :=
  if 0 ≤ i then pyGet l i.toNat
  else if 0 ≤ i + l.length then pyGet l (i + l.length).toNat
  else .error .indexError

/-- `Facility` (10) without index and location. -/
structure Fac where
  setup : Int
  capacity : Int

/-- `FacilityProblem` (43-51); `cost f i` is `evaluate_customer_facility` of the facility at
(non-negative) position `f` and customer `i`; `customers` are the demands. -/
structure Problem where
  customerCount : Nat
  facilities : List Fac
  customers : List Int
  cost : Int → Nat → Int

/-- An entry of `facility_details` (85-88). -/
structure Detail where
  used : Int
  cost : Int
  setup : Int
  deriving DecidableEq

/-- The accumulators of `evaluate_cost`. -/
structure Acc where
  cost : Int := 0
  setup : Int := 0
  details : Dict Int Detail := []

/-- The entry of facility `f`, opened if it is new (84-89). -/
def openFac (p : Problem) (acc : Acc) (f : Int) : Except PyErr Acc :=
  if acc.details.contains f then .ok acc
  else do
    let fac ← pyGetI p.facilities f
    .ok { acc with
      details := acc.details.set f { used := 0, cost := 0, setup := fac.setup }
      setup := acc.setup + fac.setup }

/-- One customer of the loop in `evaluate_cost` (82-95). -/
def stepCost (p : Problem) (assign : List Int) (acc : Acc) (i : Nat) : Except PyErr Acc := do
  let f ← pyGet assign i
  let acc ← openFac p acc f
  let d ← acc.details.get f
  let demand ← pyGet p.customers i
  let _ ← pyGetI p.facilities f
  .ok { acc with
    details := acc.details.set f { d with used := d.used + demand, cost := d.cost + p.cost f i }
    cost := acc.cost + p.cost f i }

/-- The loop `for i in range(self.customer_count)` from customer `i` on, `n` customers left. -/
def costLoop (p : Problem) (assign : List Int) : Nat → Nat → Acc → Except PyErr Acc
  | 0, _, acc => .ok acc
  | n + 1, i, acc => do
    let acc ← stepCost p assign acc i
    costLoop p assign n (i + 1) acc

/-- `evaluate_cost` (78-96). -/
def evaluateCost (p : Problem) (assign : List Int) : Except PyErr Acc :=
  costLoop p assign p.customerCount 0 {}

/-- The loop of `evaluate` (62-64): the variable is overwritten for each facility. -/
def violationLoop (p : Problem) : Dict Int Detail → Int → Except PyErr Int
  | [], v => .ok v
  | (f, d) :: ds, _ => do
    let fac ← pyGetI p.facilities f
    violationLoop p ds (max (d.used - fac.capacity) 0)

/-- What `evaluate` (58-66) returns. -/
structure Eval where
  cost : Int
  setup : Int
  details : Dict Int Detail
  violation : Int

/-- `evaluate` (58-66). -/
def evaluate (p : Problem) (assign : List Int) : Except PyErr Eval := do
  let a ← evaluateCost p assign
  let v ← violationLoop p a.details 0
  .ok { cost := a.cost, setup := a.setup, details := a.details, violation := v }

/-- `satisfy` (98-100). -/
def satisfy (p : Problem) (assign : List Int) : Except PyErr Bool := do
  let e ← evaluate p assign
  .ok (decide (e.violation = 0))

/-- Variables of the greedy loop (`greedy_solvers.py` 20-22). -/
structure Greedy where
  solution : List Int
  remaining : List Int
  index : Nat

/-- Put customer `i` in facility `f` (26-27 and 31-32). -/
def place (g : Greedy) (i f : Nat) (rem demand : Int) : Except PyErr Greedy := do
  let sol ← pySet g.solution i (f : Int)
  let remaining ← pySet g.remaining f (rem - demand)
  .ok { solution := sol, remaining := remaining, index := f }

/-- One customer (23-32): the current facility if it has room, else the next, which must have. -/
def greedyStep (g : Greedy) (i : Nat) (demand : Int) : Except PyErr Greedy := do
  let rem ← pyGet g.remaining g.index
  if rem ≥ demand then place g i g.index rem demand
  else do
    let rem' ← pyGet g.remaining (g.index + 1)
    if rem' ≥ demand then place g i (g.index + 1) rem' demand
    else .error .assertionError

/-- The loop over the customers. -/
def greedyLoop : List Int → Nat → Greedy → Except PyErr Greedy
  | [], _, g => .ok g
  | d :: ds, i, g => do
    let g ← greedyStep g i d
    greedyLoop ds (i + 1) g

/-- `GreedySolverFacility.solve` (19-37), the assignment. -/
def greedy (p : Problem) : Except PyErr (List Int) := do
  let g ← greedyLoop p.customers 0
    { solution := List.replicate p.customerCount (-1), remaining := p.facilities.map Fac.capacity, index := 0 }
  .ok g.solution

end Verif.Facility
