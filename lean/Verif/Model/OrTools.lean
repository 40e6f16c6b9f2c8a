import Verif.Model.Vrp
import Verif.Model.VrpTools
/-
Model of `vrp/solver/solver_ortools.py` and `tsp/solver/solver_ortools.py` (directory `skdecide/builders/discrete_optimization`): the
costs given to the routing library and the reading of its assignment.

The library is a parameter: the node of an index (`IndexToNode`), the first index of a vehicle (`Start`), which indices are ends
(`IsEnd`), and the assignment (`NextVar`).  The `while` loops take fuel; without fuel the result is `none`.  The printed numbers, the
parameters of the search and its time limit are not modelled.  `np.int` is taken as `int`.
-/
namespace Verif.OrTools
open VrpTools (cut matrix)

/-- The routing model of the library, with an assignment. -/
structure Routing where
  node : Nat → Nat
  start : Nat → Nat
  isEnd : Nat → Bool
  next : Nat → Nat

/-- `matrix_distance_int` (`vrp` 128-129), with the matrix of `compute_length_matrix`. -/
def vrpCost (ev : Nat → Nat → Rat) (f c : Nat) : Int := cut (10 ^ 5 * matrix ev f c)

/-- What `evaluate_function_indexes` of `TSPModel2D` (`tsp_model.py` 231-232) is called with: an index, or a point, which is no
index of a list. -/
inductive Arg
  | index (i : Nat)
  | point (i : Nat)

/-- `evaluate_function_indexes` of `TSPModel2D` (`tsp_model.py` 231-232). -/
def evalArgs (ev : Nat → Nat → Rat) : Arg → Arg → Except PyErr Rat
  | .index i, .index j => .ok (ev i j)
  | _, _ => .error .typeError

/-- `distance_callback` (`tsp` 28-42) on nodes; the matrix of `build_matrice_distance` is that of `compute_length_matrix`. -/
def tspCost (ev : Nat → Nat → Rat) (n f c : Nat) : Except PyErr Int :=
  if n < 1000 then .ok (10 ^ 6 * cut (matrix ev f c))
  else do
    let d ← evalArgs ev (.point f) (.point c)
    .ok (cut (10 ^ 6 * d))

/-- The `while` loop of `retrieve` (`vrp` 189-201) for one vehicle: `vehicle_tours[-1]`; `cnt` as in the code. -/
def walk (R : Routing) (demands : List Int) : Nat → Nat → Nat → List Nat → Except PyErr (Option (List Nat))
  | 0, _, _, _ => .ok none
  | fuel + 1, i, cnt, tour =>
    if R.isEnd i then .ok (some tour)
    else
      let tour := if cnt ≠ 0 then tour ++ [R.node i] else tour
      do
        let _ ← pyGet demands (R.node i)
        walk R demands fuel (R.next i) (cnt + 1) tour

/-- `retrieve` (`vrp` 175-214): `list_paths`, for `n` vehicles from `v` on. -/
def retrieveFrom (R : Routing) (demands : List Int) (fuel : Nat) : Nat → Nat → Except PyErr (Option (List (List Nat)))
  | 0, _ => .ok (some [])
  | n + 1, v => do
    let t ← walk R demands fuel (R.start v) 0 []
    match t with
    | none => .ok none
    | some t => do
      let r ← retrieveFrom R demands fuel n (v + 1)
      .ok (r.map (t :: ·))

/-- `retrieve` (`vrp` 175-214). -/
def retrieve (p : Vrp.Problem) (R : Routing) (fuel : Nat) : Except PyErr (Option (List (List Nat))) :=
  retrieveFrom R p.demands fuel p.vehicleCount 0

/-- The `while` loop of `solve` (`tsp` 73-78): `sol`. -/
def tspWalk (R : Routing) : Nat → Nat → List Nat → Option (List Nat)
  | 0, _, _ => none
  | fuel + 1, i, sol => if R.isEnd i then some sol else tspWalk R fuel (R.next i) (sol ++ [R.node (R.next i)])

/-- `solve` (`tsp` 65-84): the permutation `sol[1:-1]`. -/
def tspSolve (R : Routing) (fuel : Nat) : Option (List Nat) :=
  (tspWalk R fuel (R.start 0) [R.node (R.start 0)]).map (fun sol => (sol.drop 1).dropLast)

end Verif.OrTools
