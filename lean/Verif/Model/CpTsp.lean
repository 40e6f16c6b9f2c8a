import Verif.Model.Tsp
/-
Model of `tsp/solver/tsp_cp_solver.py`, of `build_matrice_distance` (`tsp/common_tools_tsp.py`) and of the programs
`tsp/minizinc/tsp_int.mzn` and `tsp_float.mzn` (directory `skdecide/builders/discrete_optimization`).

A MiniZinc program is modelled as a predicate on the values of its variables; what a solver returns is any value that satisfies
it.  Distances are the exact integers of `Tsp.Model`, read as multiples of `1 / u`: the program over integers cuts off the
fractions, so it is given the distances divided by `u`; the program over floats is `u = 1`.  Time limits, statuses and search
annotations are left out.
-/
namespace Verif.CpTsp
open Tsp

/-- `build_matrice_distance` (`common_tools_tsp.py` 52-61): one call for each pair, the smaller index first. -/
def matrix (m : Model) (i j : Nat) : Int :=
  if i < j then m.dist i j else if j < i then m.dist j i else 0

/-- `distance_list_2d` (`tsp_cp_solver.py` 32-37): no distance from the end to the start; `int(x)` cuts off. -/
def entry (m : Model) (u : Nat) (i j : Nat) : Int :=
  if i = m.fin ∧ j = m.start then 0 else (matrix m i j).tdiv u

/-- The constructor (21-40): writing the entry of the end and the start raises beyond the matrix. -/
def init (m : Model) (u : Nat) : Except PyErr (Nat → Nat → Int) :=
  if m.fin < m.nodeCount ∧ m.start < m.nodeCount then .ok (entry m u) else .error .indexError

/-- Each node of the list is followed by the next one; `x` is numbered from 1. -/
def Follows (x : List Nat) : List Nat → Prop
  | a :: b :: l => x[a]? = some (b + 1) ∧ Follows x (b :: l)
  | _ => True

/-- `circuit(x)`, spelled out as `circuit_me` (`tsp_int.mzn` 24-45): the orbit of a node visits all nodes and returns. -/
def Circuit (n : Nat) (x : List Nat) : Prop :=
  ∃ s rest, (s :: rest).Perm (List.range n) ∧ Follows x (s :: rest ++ [s])

/-- The constraints of both programs on `x`, `d` and `distance` (`tsp_int.mzn` 50-73). -/
structure Solves (m : Model) (dist : Nat → Nat → Int) (x : List Nat) (d : List Int) (obj : Int) : Prop where
  len : x.length = m.nodeCount
  dom : ∀ v ∈ x, 1 ≤ v ∧ v ≤ m.nodeCount
  /-- `array[NODES] of var min_val..max_val: d` -/
  range : d.length = m.nodeCount ∧ ∀ v ∈ d,
    (∃ i j : Nat, i < m.nodeCount ∧ j < m.nodeCount ∧ 0 ≤ dist i j ∧ dist i j ≤ v) ∧
    ∃ i j : Nat, i < m.nodeCount ∧ j < m.nodeCount ∧ v ≤ dist i j
  /-- `if end!=start then x[end]=start endif` -/
  close : m.fin ≠ m.start → x[m.fin]? = some (m.start + 1)
  diff : x.Nodup
  circuit : Circuit m.nodeCount x
  /-- `distances[i, x[i]] = d[i]` -/
  legs : ∀ (i v : Nat), x[i]? = some v → d[i]? = some (dist i (v - 1))
  obj : obj = d.sum

/-- The loop of `solve` (66-75) that reads off the path; the first argument bounds the number of turns. -/
def decodeLoop (x : List Nat) (fin : Nat) : Nat → Nat → Bool → List Nat → Except PyErr (List Nat)
  | 0, _, _, _ => .error .runtimeError
  | fuel + 1, cur, started, path =>
    if cur = fin ∧ started = true then .ok path
    else do
      let v ← pyGet x cur
      decodeLoop x fin fuel (v - 1) true (path ++ [v - 1])

/-- `path[:-1]` (79). -/
def decode (m : Model) (x : List Nat) : Except PyErr (List Nat) := do
  let path ← decodeLoop x m.fin (x.length + 1) m.start false []
  .ok path.dropLast

/-- `solve` (60-85): the constructor of the solution evaluates it. -/
def solve (m : Model) (x : List Nat) : Except PyErr Solution := do
  let perm ← decode m x
  build m computeLength perm

end Verif.CpTsp
