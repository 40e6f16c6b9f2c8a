import Verif.Model.Py
import Verif.Model.Sort
/-
Model of `vrp/vrp_model.py` (directory `skdecide/builders/discrete_optimization`).

Demands, capacities and distances are exact integers; customers are their demands, indices are
natural numbers.  The distance `evaluate_function_indexes` is a parameter.  A set of customers is the list
of its elements in increasing order.
The numba variant `compute_length_np` (266-283), used by no other function of the file, is not modelled.
-/
namespace Verif.Vrp

/-- `VrpProblem` (62-76). -/
structure Problem where
  vehicleCount : Nat
  capacities : List Int
  customerCount : Nat
  demands : List Int
  starts : List Nat
  ends : List Nat
  dist : Nat → Nat → Int

/-- The demand of `end`, unless it is the start (178-179, 252-253, 259-260). -/
def endDemand (p : Problem) (start fin : Nat) : Except PyErr Int :=
  if fin ≠ start then pyGet p.demands fin else .ok 0

/-- First loop of `trivial_solution` (172-183) from vehicle `v` on: capacity left after the depots, and
the customers that are no depot. -/
def depots (p : Problem) : Nat → Nat → List Nat → Except PyErr (List Int × List Nat)
  | 0, _, rem => .ok ([], rem)
  | n + 1, v, rem => do
    let start ← pyGet p.starts v
    let fin ← pyGet p.ends v
    let cap ← pyGet p.capacities v
    let a ← pyGet p.demands start
    let b ← endDemand p start fin
    let r ← depots p n (v + 1) (rem.filter (fun c => c ≠ start && c ≠ fin))
    .ok ((cap - a - b) :: r.1, r.2)

/-- The customers of a list with their demands. -/
def withDemand (p : Problem) : List Nat → Except PyErr (List (Nat × Int))
  | [] => .ok []
  | c :: cs => do
    let d ← pyGet p.demands c
    let r ← withDemand p cs
    .ok ((c, d) :: r)

/-- The `for customer in order` loop (191-196): capacity left and customers added, in order. -/
def addAll : Int → List (Nat × Int) → Int × List Nat
  | cap, [] => (cap, [])
  | cap, (c, d) :: cs =>
    if cap ≥ d then ((addAll (cap - d) cs).1, c :: (addAll (cap - d) cs).2) else addAll cap cs

/-- The `while` loop of one vehicle (186-197).  The fuel is the number of customers left: each round
removes at least one, and with none left the condition of the loop is false. -/
def fill (p : Problem) : Nat → Int → List Nat → Except PyErr (List Nat × List Nat)
  | 0, _, rem => .ok ([], rem)
  | n + 1, cap, rem => do
    let ds ← withDemand p rem
    if ds.any (fun q => cap ≥ q.2) then do
      let r := addAll cap (sortBy (fun q => -q.2 * p.customerCount + q.1) ds)
      let rest ← fill p n r.1 (rem.filter (fun c => !r.2.contains c))
      .ok (r.2 ++ rest.1, rest.2)
    else .ok ([], rem)

/-- Second loop of `trivial_solution` (184-197): the tours and the customers left at the end. -/
def fillAll (p : Problem) : List Int → List Nat → Except PyErr (List (List Nat) × List Nat)
  | [], rem => .ok ([], rem)
  | cap :: caps, rem => do
    let r ← fill p rem.length cap rem
    let rest ← fillAll p caps r.2
    .ok (r.1 :: rest.1, rest.2)

/-- `trivial_solution` (165-197): the tours, with the customers left over. -/
def trivialFull (p : Problem) : Except PyErr (List (List Nat) × List Nat) := do
  let r ← depots p p.vehicleCount 0 (List.range p.customerCount)
  fillAll p r.1 r.2

/-- `trivial_solution` (165-203) without the evaluation. -/
def trivial (p : Problem) : Except PyErr (List (List Nat)) := do
  let r ← trivialFull p
  .ok r.1

/-- `stupid_solution` (206-233) without the evaluation: everything in the first vehicle. -/
def stupid (p : Problem) : Except PyErr (List (List Nat)) := do
  let r ← depots p p.vehicleCount 0 (List.range p.customerCount)
  pySet (List.replicate p.vehicleCount []) 0 r.2

/-- The inner loop of `compute_length` (246-250) after customer `prev`: the legs, the length and load
added up, and the last customer. -/
def legsFrom (p : Problem) : Nat → Int → Int → List Nat → Except PyErr (List Int × Int × Int × Nat)
  | prev, obj, load, [] => .ok ([], obj, load, prev)
  | prev, obj, load, c :: cs => do
    let d ← pyGet p.demands c
    let r ← legsFrom p c (obj + p.dist prev c) (load + d) cs
    .ok (p.dist prev c :: r.1, r.2)

/-- `compute_length` (236-261): legs, total length, load.  The last leg is measured from the end depot to
the last customer (251). -/
def computeLength (p : Problem) (start fin : Nat) (path : List Nat) : Except PyErr (List Int × Int × Int) :=
  match path with
  | [] => do
    let a ← pyGet p.demands start
    let b ← endDemand p start fin
    .ok ([p.dist start fin], p.dist start fin, a + b)
  | c :: cs => do
    let a ← pyGet p.demands start
    let d ← pyGet p.demands c
    let r ← legsFrom p c (p.dist start c) (a + d) cs
    let b ← endDemand p start fin
    .ok (p.dist start c :: r.1 ++ [p.dist fin r.2.2.2], r.2.1 + p.dist fin r.2.2.2, r.2.2.1 + b)

/-- The loop of `sequential_computing` (286-301) over the paths from vehicle `i` on: per-path legs,
lengths and loads. -/
def sequential (p : Problem) (starts ends : List Nat) : Nat → List (List Nat) →
    Except PyErr (List (List Int × Int × Int))
  | _, [] => .ok []
  | i, path :: paths => do
    let s ← pyGet starts i
    let e ← pyGet ends i
    let r ← computeLength p s e path
    let rest ← sequential p starts ends (i + 1) paths
    .ok (r :: rest)

/-- The loop of `evaluate` (92-94): total excess load over the vehicles `i, i+1, …`. -/
def violation (p : Problem) (loads : List Int) : Nat → Nat → Except PyErr Int
  | 0, _ => .ok 0
  | n + 1, i => do
    let l ← pyGet loads i
    let c ← pyGet p.capacities i
    let r ← violation p loads n (i + 1)
    .ok (max (l - c) 0 + r)

/-- `evaluate` (86-95) of a solution without cached lengths: total length and capacity violation. -/
def evaluate (p : Problem) (starts ends : List Nat) (paths : List (List Nat)) : Except PyErr (Int × Int) := do
  let rs ← sequential p starts ends 0 paths
  let v ← violation p (rs.map (fun r => r.2.2)) p.vehicleCount 0
  .ok ((rs.map (fun r => r.2.1)).sum, v)

/-- `satisfy` (97-99). -/
def satisfy (p : Problem) (starts ends : List Nat) (paths : List (List Nat)) : Except PyErr Bool := do
  let e ← evaluate p starts ends paths
  .ok (decide (e.2 = 0))

end Verif.Vrp
