import Verif.Model.Milp
import Verif.Model.Knapsack
import Verif.Model.Sort
/-
Model of `knapsack/solvers/lp_solvers.py` (directory `skdecide/builders/discrete_optimization`): the
program of `LPKnapsackGurobi`, `LPKnapsackCBC` and `LPKnapsack`, the rows that fix decisions, and the reading of a
solution.

A variable is named by the position of the item for which it was added, so that the model also covers repeated
indices, where the dictionary keeps the last variable only.  Items as in `Knapsack`.
-/
namespace Verif.KnapsackLp
open Verif.Milp Verif.Knapsack

/-- `x` (43-53, 196-204, 270-279): the variable (position) under each item index; the dictionaries `weight`,
`value` and `index_to_item` have the item of that position under the same index. -/
def xDict (items : List Item) : Dict Nat Nat :=
  items.zipIdx.foldl (fun d q => d.set q.1.index q.2) []

/-- The item at a position of the list. -/
def itemAt (items : List Item) (p : Nat) : Item := items.getD p ⟨0, 0, 0⟩

/-- `init_model` of `LPKnapsackGurobi` (32-63) and `LPKnapsack` (255-286): every added variable counts in the
objective, the capacity row goes over the dictionary. -/
def initModel (items : List Item) (cap : Int) : Program Nat :=
  { vars := (List.range items.length).map (fun p => (p, .binary)),
    rows := [⟨(xDict items).map (fun q => ((itemAt items q.2).weight, q.2)), .le, cap⟩],
    objective := (List.range items.length).map (fun p => ((itemAt items p).value, p)) }

/-- `fix_decision` (153-157, 369-373): `x[i] == list_taken[i]`, the item index taken as a position. -/
def fixRows (items : List Item) (taken : List Int) (fixed : List Nat) : Except PyErr (List (Row Nat)) :=
  mapE (fun i => do
    let p ← (xDict items).get i
    let v ← pyGet taken i
    .ok ⟨[(1, p)], .eq, v⟩) fixed

/-- The program with the rows of `fix_decision`. -/
def withRows (p : Program Nat) (rows : List (Row Nat)) : Program Nat := { p with rows := p.rows ++ rows }

/-- `xs` (73-80, 295-305): 0 when the value is at most 0.1, else 1. -/
def readX (items : List Item) (a : Nat → Int) : Dict Nat Int :=
  (xDict items).map (fun q => (q.1, if 10 * a q.2 ≤ 1 then 0 else 1))

/-- `retrieve_solutions` of `LPKnapsack` (288-314) for one solution: `list_taken` in the order of the indices, value and
weight summed over the taken items. -/
def retrieve (items : List Item) (a : Nat → Int) : Sol :=
  let chosen := (xDict items).filter (fun q => !decide (10 * a q.2 ≤ 1))
  { taken := (sortBy (fun q => (q.1 : Int)) (readX items a)).map Prod.snd,
    value := some (chosen.map (fun q => (itemAt items q.2).value)).sum,
    weight := some (chosen.map (fun q => (itemAt items q.2).weight)).sum }

end Verif.KnapsackLp
