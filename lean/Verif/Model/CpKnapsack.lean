import Verif.Model.Knapsack
import Verif.Model.Milp
/-
Model of `knapsack/solvers/cp_solvers.py` (directory `skdecide/builders/discrete_optimization`) and the programs
`knapsack/minizinc/knapsack_mzn.mzn` and `knapsack_global.mzn`.

A MiniZinc program is modelled as a predicate on the values of its variables; what a solver returns is any value that
satisfies it.  Values, weights and capacities are exact integers, as in `Knapsack`.

Simplifications: time limits, statuses, intermediate solutions, fitness values and the lists `results` of `solve_lns` are
left out; the random choice of the fixed items is a parameter.
-/
namespace Verif.CpKnapsack
open Knapsack

/-- `([0] + [item.<f> …])[x]` (62-65), in the program `values[x+1]` and `weights[x+1]`. -/
def at0 (f : Item → Int) (items : List Item) (x : Nat) : Int := ((0 : Int) :: items.map f).getD x 0

/-- The constraints of `knapsack_mzn.mzn` on `list_items` and `value`. -/
structure Listed (items : List Item) (cap : Int) (l : List Nat) (value : Int) : Prop where
  /-- 3, 8 -/
  len : l.length = items.length + 1
  /-- 4, 8 -/
  dom : ∀ x ∈ l, x ≤ items.length
  /-- 12 -/
  decreasing : l.Pairwise (fun x y => y ≤ x)
  /-- 13 -/
  different : l.Pairwise (fun x y => x = y → x = 0)
  /-- 15 -/
  value_eq : (l.map (at0 Item.value items)).sum = value
  /-- 16 -/
  fits : (l.map (at0 Item.weight items)).sum ≤ cap

/-- The loop of `CPKnapsackMZN.retrieve_solutions` (40-44): taken, weight, value. -/
def readItems (items : List Item) : List Nat → List Int × Int × Int → Except PyErr (List Int × Int × Int)
  | [], st => .ok st
  | x :: xs, (t, w, v) =>
    if x ≠ 0 then do
      let it ← pyGet items (x - 1)
      let t' ← pySet t it.index 1
      readItems items xs (t', w + it.weight, v + it.value)
    else readItems items xs (t, w, v)

/-- `CPKnapsackMZN.retrieve_solutions` for one solution (37-48). -/
def retrieveList (items : List Item) (l : List Nat) : Except PyErr Sol := do
  let (t, w, v) ← readItems items l (List.replicate items.length 0, 0, 0)
  .ok ⟨t, some v, some w⟩

/-- The constraints of `knapsack_global.mzn` on `taken`, `weight` and `value`. -/
structure Globals (items : List Item) (cap : Int) (ts : List Int) (weight value : Int) : Prop where
  /-- 5, 11 -/
  len : ts.length = items.length
  /-- 5, 11 -/
  dom : ∀ x ∈ ts, x = 0 ∨ x = 1
  /-- 12 -/
  fits : weight ≤ cap
  /-- 13: `knapsack(weights, values, taken, weight, value)` -/
  weight_eq : weight = (List.zipWith (fun it x => it.weight * x) items ts).sum
  /-- 13 -/
  value_eq : value = (List.zipWith (fun it x => it.value * x) items ts).sum

/-- The loop of `CPKnapsackMZN2.retrieve_solutions` and `retrieve` (115-119, 136-140). -/
def readTaken (items : List Item) : List (Int × Nat) → List Int × Int × Int → Except PyErr (List Int × Int × Int)
  | [], st => .ok st
  | (x, i) :: xs, (t, w, v) =>
    if x ≠ 0 then do
      let it ← pyGet items i
      let t' ← pySet t it.index 1
      readTaken items xs (t', w + it.weight, v + it.value)
    else readTaken items xs (t, w, v)

/-- `CPKnapsackMZN2.retrieve` (132-142). -/
def retrieveTaken (items : List Item) (ts : List Int) : Except PyErr Sol := do
  let (t, w, v) ← readTaken items ts.zipIdx (List.replicate items.length 0, 0, 0)
  .ok ⟨t, some v, some w⟩

/-- What `solve_lns` keeps between iterations (149-153). -/
structure State where
  current : List Int
  objective : Option Int
  solution : Sol
  deriving DecidableEq

/-- `[list_taken[item.index] for item in list_items]` (149, 172-173, 183). -/
def inOrder (items : List Item) (t : List Int) : Except PyErr (List Int) := Milp.mapE (fun it => pyGet t it.index) items

/-- The start of `solve_lns` (149-153). -/
def lnsInit (items : List Item) (init : Sol) : Except PyErr State := do
  let c ← inOrder items init.taken
  .ok ⟨c, init.value, init⟩

/-- The program of an iteration: `taken[i+1] == taken_current_solution[i]` for the fixed items (160-163). -/
def Child (items : List Item) (cap : Int) (current : List Int) (fixed : List Nat) (ts : List Int) (weight value : Int) : Prop :=
  Globals items cap ts weight value ∧ ∀ i ∈ fixed, ts[i]? = current[i]?

/-- What an iteration does with the answer `taken`, `objective` of the solver (165-187).  Comparison of `None` raises
`TypeError`. -/
def lnsStep (items : List Item) (st : State) : Option (List Int × Int) → Except PyErr State
  | none => .ok st
  | some (ts, obj) => do
    let sol ← retrieveTaken items ts
    match st.objective with
    | none => .error .typeError
    | some o => do
      let c ← inOrder items sol.taken
      if obj > o then .ok ⟨c, some obj, sol⟩ else .ok st

/-- `solve_lns` (144-188) for the answers of the iterations. -/
def lns (items : List Item) (init : Sol) (answers : List (Option (List Int × Int))) : Except PyErr State := do
  let st ← lnsInit items init
  answers.foldlM (lnsStep items) st

end Verif.CpKnapsack
