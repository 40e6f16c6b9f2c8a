import Verif.Model.Py
/-
Model of `tsp/common_tools_tsp.py` (directory `skdecide/builders/discrete_optimization`): `compute_length`, `baseline_in_order`,
`build_matrice_distance_np`, `closest_greedy`.

The length of a pair of points is a parameter.  `np.argsort` leaves the order of equal distances open; its rows are a parameter.  The
overflow of numbers of 32 bits is left out.
-/
namespace Verif.TspTools

/-- `Point2D`. -/
abbrev Point := Rat × Rat

/-- `int(x)` cuts off. -/
def cut (q : Rat) : Int := if 0 ≤ q then q.floor else q.ceil

/-- An entry of `distances` (72-78): of coordinates that are cut off. -/
def gap (p q : Point) : Nat := (cut p.1 - cut q.1).natAbs + (cut p.2 - cut q.2).natAbs

/-- `length(points[i], points[j])`. -/
def leg (len : Point → Point → Rat) (points : List Point) (i j : Nat) : Except PyErr Rat := do
  let p ← pyGet points i
  let q ← pyGet points j
  .ok (len p q)

/-- `solution[-1]`. -/
def lastOf (sol : List Nat) : Except PyErr Nat :=
  match sol.getLast? with
  | some x => .ok x
  | none => .error .indexError

/-- The loop of lines 34-37 and 49-50: the first argument is the number of turns left, the second `index`. -/
def legs (len : Point → Point → Rat) (points : List Point) (sol : List Nat) : Nat → Nat → Except PyErr (List Rat)
  | 0, _ => .ok []
  | k + 1, i => do
    let a ← pyGet sol i
    let b ← pyGet sol (i + 1)
    let l ← leg len points a b
    let r ← legs len points sol k (i + 1)
    .ok (l :: r)

/-- `compute_length` (30-39). -/
def computeLength (len : Point → Point → Rat) (points : List Point) (sol : List Nat) (n : Nat) : Except PyErr (List Rat × Rat) := do
  let z ← lastOf sol
  let a ← pyGet sol 0
  let pp ← leg len points z a
  let ls ← legs len points sol (n - 1) 0
  .ok (ls ++ [pp], pp + ls.sum)

/-- `baseline_in_order` (42-51), without the constant 0. -/
def baseline (len : Point → Point → Rat) (points : List Point) (n : Nat) : Except PyErr (List Nat × Rat) := do
  let r ← computeLength len points (List.range n) n
  .ok (List.range n, r.2)

/-- The loop of lines 96-102: `s` is the table of the sorted rows without their first column. -/
def walk (len : Point → Point → Rat) (points : List Point) (s : Nat → List Nat) : Nat → Nat → List Nat → Rat → Except PyErr (List Nat × Nat × Rat)
  | 0, cur, sol, total => .ok (sol, cur, total)
  | k + 1, cur, sol, total =>
    match (s cur).find? (fun p => decide (p ∉ sol)) with
    | none => .error .stopIteration
    | some m => do
      let l ← leg len points cur m
      walk len points s k m (sol ++ [m]) (total + l)

/-- `closest_greedy` (84-104), without the constant 0; `order` are the rows of `np.argsort`. -/
def greedy (len : Point → Point → Rat) (points : List Point) (order : Nat → List Nat) (n : Nat) : Except PyErr (List Nat × Rat) :=
  if points.length < n then .error .indexError
  else do
    let r ← walk len points (fun i => (order i).drop 1) (n - 1) 0 [0] 0
    let l ← leg len points r.2.1 0
    .ok (r.1, r.2.2 + l)

end Verif.TspTools
