import Verif.Model.Py
import Verif.Model.Core
/-
Model of `skdecide/builders/discrete_optimization/knapsack/` : `knapsack_model.py`,
`solvers/dyn_prog_knapsack.py`, `solvers/greedy_solvers.py`,
`mutation/mutation_knapsack.py`.

Values, weights and capacities are exact integers (Python floats in general); the aggregated
fitness stored with the solution is not modelled here (see the objective model).
-/
namespace Verif.Knapsack
open Verif.Core (mapE)

/-- `Item` (`knapsack_model.py` 8-11); indices are taken non-negative. -/
structure Item where
  index : Nat
  value : Int
  weight : Int
  deriving DecidableEq, Repr

/-- `KnapsackSolution` (17-26); `None` is `none`. -/
structure Sol where
  taken : List Int
  value : Option Int
  weight : Option Int
  deriving DecidableEq, Repr

/-! ## Evaluation (`knapsack_model.py`) -/

/-- `sum([list_taken[i]*list_items[i].<f> for i in range(nb_items)])` (110-113). -/
def sumTaken (f : Item → Int) (items : List Item) (taken : List Int) : Except PyErr Int := do
  let terms ← mapE (fun i => do
    let x ← pyGet taken i
    let it ← pyGet items i
    return x * f it) (List.range items.length)
  return terms.sum

/-- `KnapsackModel.evaluate_value` (109-117): stores value and weight, returns the value. -/
def evaluateValue (items : List Item) (s : Sol) : Except PyErr (Sol × Int) := do
  let v ← sumTaken Item.value items s.taken
  let w ← sumTaken Item.weight items s.taken
  let v' ← sumTaken Item.value items s.taken
  return ({ s with value := some v, weight := some w }, v')

/-- `KnapsackModel.evaluate` (101-107), with `evaluate_weight_violation` (119-121): the
solution afterwards, the value and the violation.  `None - capacity` is a `TypeError`. -/
def evaluate (items : List Item) (cap : Int) (force : Bool) (s : Sol) :
    Except PyErr (Sol × Int × Int) := do
  let (s', val) ← (match s.value with
    | none => evaluateValue items s
    | some v => if force then evaluateValue items s else .ok (s, v))
  match s'.weight with
  | none => .error .typeError
  | some w => .ok (s', val, max 0 (w - cap))

/-- `KnapsackModel.satisfy` (123-126). -/
def satisfy (items : List Item) (cap : Int) (force : Bool) (s : Sol) : Except PyErr (Sol × Bool) := do
  let s' ← (match s.value with
    | none => do
      let (s', _, _) ← evaluate items cap force s
      return s'
    | some _ => .ok s)
  match s'.weight with
  | none => .error .typeError
  | some w => .ok (s', decide (w ≤ cap))

/-! ## Moves (`mutation_knapsack.py`) -/

/-- `SingleBitFlipMove.apply_local_move` (19-23): a fresh solution with unset value. -/
def singleFlip (i : Nat) (s : Sol) : Except PyErr Sol := do
  let x ← pyGet s.taken i
  let t ← pySet s.taken i ((x - 1).natAbs : Int)
  return ⟨t, none, none⟩

/-- `KnapsackMutationSingleBitFlip.mutate_and_compute_obj` (38-55) for the drawn index `i`:
the new solution and the reported value and violation.  The last branch evaluates the
argument, not the new solution. -/
def singleFlipMutate (items : List Item) (cap : Int) (force : Bool) (i : Nat) (s : Sol) :
    Except PyErr (Sol × Int × Int) := do
  let s' ← singleFlip i s
  match s.weight, s.value with
  | some w, some v => do
    let it ← pyGet items i
    let x ← pyGet s'.taken i
    let nw := if x = 0 then w - it.weight else w + it.weight
    let nv := if x = 0 then v - it.value else v + it.value
    return (s', nv, max 0 (nw - cap))
  | some _, none => .error .typeError
  | none, _ => do
    let (_, v, viol) ← evaluate items cap force s
    return (s', v, viol)

/-- The loop of `BitFlipMoveKP.apply_local_move` (77-84). -/
def flipLoop (items : List Item) : List Nat → (List Int × Int × Int) →
    Except PyErr (List Int × Int × Int)
  | [], st => .ok st
  | i :: is, (l, w, v) => do
    let x ← pyGet l i
    let l' ← pySet l i (1 - x)
    let it ← pyGet items i
    if 1 - x = 0 then flipLoop items is (l', w - it.weight, v - it.value)
    else flipLoop items is (l', w + it.weight, v + it.value)

/-- `BitFlipMoveKP.apply_local_move` (71-87); `backtrack_local_move` (89-90) is the same
call. -/
def flipMove (items : List Item) (cap : Int) (force : Bool) (is : List Nat) (s : Sol) :
    Except PyErr Sol := do
  let s1 ← (match s.weight with
    | none => do
      let (s1, _, _) ← evaluate items cap force s
      return s1
    | some _ => .ok s)
  match s1.weight, s1.value with
  | some w, some v => do
    let (l, w', v') ← flipLoop items is (s1.taken, w, v)
    return ⟨l, some v', some w'⟩
  | _, _ => if is = [] then .ok s1 else .error .typeError

/-- `MutationKnapsack.switch_on`'s candidate list `not_used` (113-114). -/
def notUsed (items : List Item) (cap : Int) (taken : List Int) (w : Int) : List Nat :=
  (List.range items.length).filter (fun i =>
    match taken[i]?, items[i]? with
    | some x, some it => decide (x = 0) && decide (w + it.weight ≤ cap)
    | _, _ => false)

/-- `MutationKnapsack.switch_off`'s candidate list `used` (131). -/
def used (items : List Item) (taken : List Int) : List Nat :=
  (List.range items.length).filter (fun i =>
    match taken[i]? with
    | some x => decide (x = 1)
    | none => false)

/-- `MutationKnapsack.mutate_and_compute_obj` (151-158) with `switch_on`/`switch_off`
(112-145): `on` tells which branch `random.random()` selects, `k` is the position drawn by
`np.random.choice` among the candidates (reduced modulo their number).  The probabilities
are not modelled; the two functions call each other once when they have no candidate. -/
def mutate (items : List Item) (cap : Int) (force : Bool) (on : Bool) (k : Nat) (s : Sol) :
    Except PyErr (Sol × Int × Int) := do
  let s1 ← (match s.weight with
    | none => do
      let (s1, _, _) ← evaluate items cap force s
      return s1
    | some _ => .ok s)
  match s1.weight, s1.value with
  | some w, some v =>
    let onC := notUsed items cap s1.taken w
    let offC := used items s1.taken
    let cands := if on then (if onC = [] then offC else onC) else (if offC = [] then onC else offC)
    match cands[k % cands.length]? with
    | none => .ok (s1, v, max 0 (w - cap))
    | some i => do
      let s2 ← flipMove items cap force [i] s1
      match s2.value, s2.weight with
      | some v2, some w2 => .ok (s2, v2, max 0 (w2 - cap))
      | _, _ => .error .typeError
  | _, _ => .error .typeError

/-! ## Dynamic programming (`dyn_prog_knapsack.py`) -/

/-- `index_to_index_list[idx]` (`knapsack_model.py` 71): the last position holding an item
of that index. -/
def indexToPos (items : List Item) (idx : Nat) : Except PyErr Nat :=
  match ((List.range items.length).filter (fun i => (items[i]?.map Item.index) = some idx)).getLast? with
  | some p => .ok p
  | none => .error .keyError

/-- The rows of `self.table` after the items of `os` were processed in order (47-59); a row
is a function of the capacity column.  Row 0 is zero. -/
def row (os : List Item) : Nat → Int → Int
  | 0, _ => 0
  | k + 1, c =>
    match os[k]? with
    | none => row os k c
    | some it =>
      if it.weight > c then row os k c
      else max (row os k c) (row os k (c - it.weight) + it.value)

/-- The row `cur_indexes[0]` from which the back-tracking starts (46, 60-61): the last
processed item that is not heavier than the full capacity, `0` if there is none. -/
def startRow (os : List Item) (cap : Int) : Nat → Nat
  | 0 => 0
  | k + 1 =>
    match os[k]? with
    | none => startRow os cap k
    | some it => if it.weight > cap then startRow os cap k else k + 1

/-- The back-tracking loop (68-79) from row `k` and column `c`, given the list of items in
processing order; returns `taken`, `value`, `weight`. -/
def backtrack (os : List Item) : (k : Nat) → (c : Int) → (List Int × Int × Int) →
    Except PyErr (List Int × Int × Int)
  | 0, _, acc => .ok acc
  | k + 1, c, (taken, value, weight) =>
    if row os (k + 1) c ≠ row os k c then do
      let it ← pyGet os k
      let taken' ← pySet taken it.index 1
      backtrack os k (c - it.weight) (taken', value + it.value, weight + it.weight)
    else backtrack os k c (taken, value, weight)

/-- `KnapsackDynProg.solve` (25-86) for the index list `order` (`index_promising`) and
`iters` executed iterations of the outer loop (`max_items - 1`, fewer if the time limit
breaks the loop).  Looking up `index_promising` past its end is an `IndexError`.  The start
column is the full capacity, or 0 when no processed item fits (46). -/
def dpSolve (items : List Item) (cap : Int) (order : List Nat) (iters : Nat) :
    Except PyErr (List Int × Int × Int) := do
  let os ← mapE (fun k => do
    let idx ← pyGet order k
    let p ← indexToPos items idx
    pyGet items p) (List.range iters)
  let k0 := startRow os cap iters
  backtrack os k0 (if k0 = 0 then 0 else cap) (List.replicate items.length 0, 0, 0)

/-- The default order (43). -/
def defaultOrder (items : List Item) : List Nat := items.map Item.index

/-- A row of the table of `solve_np` (112-118): `ind != 0` compares a list with `0` and is
`True`, so the item value is added in every column, with the column clipped at 0. -/
def npRow (os : List Item) : Nat → Int → Int
  | 0, _ => 0
  | k + 1, c =>
    match os[k]? with
    | none => npRow os k c
    | some it => max (npRow os k c) (npRow os k (max (c - it.weight) 0) + it.value)

/-- numpy column index: negative columns count from the end, `IndexError` outside. -/
def npCol (cap c : Int) : Except PyErr Int :=
  if 0 ≤ c ∧ c ≤ cap then .ok c
  else if -(cap + 1) ≤ c ∧ c < 0 then .ok (c + (cap + 1))
  else .error .indexError

/-- The back-tracking loop of `solve_np` (124-136), reading the table with numpy indices.
The read after each step (136) is performed at the head of the next round. -/
def npBacktrack (os : List Item) (cap : Int) : (k : Nat) → (c : Int) → (List Int × Int × Int) →
    Except PyErr (List Int × Int × Int)
  | 0, c, acc => do
    let _ ← npCol cap c
    return acc
  | k + 1, c, (taken, value, weight) => do
    let c' ← npCol cap c
    if npRow os (k + 1) c' ≠ npRow os k c' then do
      let it ← pyGet os k
      let taken' ← pySet taken it.index 1
      npBacktrack os cap k (c - it.weight) (taken', value + it.value, weight + it.weight)
    else npBacktrack os cap k c (taken, value, weight)

/-- `KnapsackDynProg.solve_np` (88-143) with the default order and all items. -/
def dpSolveNp (items : List Item) (cap : Int) : Except PyErr (List Int × Int × Int) := do
  let os ← mapE (fun k => do
    let idx ← pyGet (defaultOrder items) k
    let p ← indexToPos items idx
    pyGet items p) (List.range items.length)
  npBacktrack os cap items.length (if items.length = 0 then 0 else cap)
    (List.replicate items.length 0, 0, 0)

/-! ## Sorting by density (`greedy_solvers.py` 7-19, `dyn_prog_knapsack.py` 37-41) -/

/-- Insert keeping a descending order, before the first element whose key is not greater. -/
def insDesc (key : Item → Rat) (x : Item) : List Item → List Item
  | [] => [x]
  | y :: ys => if key y ≤ key x then x :: y :: ys else y :: insDesc key x ys

/-- Stable `sorted(l, key=key, reverse=True)`. -/
def sortDesc (key : Item → Rat) : List Item → List Item
  | [] => []
  | x :: xs => insDesc key x (sortDesc key xs)

/-- `compute_density` (7-12): items no heavier than the capacity by decreasing
value/weight; `ZeroDivisionError` on a zero weight. -/
def computeDensity (items : List Item) (cap : Int) : Except PyErr (List Item) :=
  let l := items.filter (fun it => decide (it.weight ≤ cap))
  if l.any (fun it => decide (it.weight = 0)) then .error .zeroDivisionError
  else .ok (sortDesc (fun it => (it.value : Rat) / it.weight) l)

/-- `compute_density_and_penalty` (15-19). -/
def computeDensityPenalty (items : List Item) (cap : Int) : Except PyErr (List Item) :=
  let l := items.filter (fun it => decide (it.weight ≤ cap))
  if l.any (fun it => decide (it.weight = 0)) then .error .zeroDivisionError
  else .ok (sortDesc (fun it => (it.value : Rat) / it.weight - it.weight) l)

/-- The loop of `greedy_using_queue` (29-35) over `i` in a list of indices. -/
def greedyLoop (cap : Int) (queue : List Item) : List Nat → (List Int × Int × Int) →
    Except PyErr (List Int × Int × Int)
  | [], acc => .ok acc
  | i :: is, (taken, value, weight) => do
    let it ← pyGet queue i
    if it.weight + weight ≤ cap then do
      let taken' ← pySet taken it.index 1
      greedyLoop cap queue is (taken', value + it.value, weight + it.weight)
    else greedyLoop cap queue is (taken, value, weight)

/-- `greedy_using_queue` (22-36): `queue` is the result of `method_queue`. -/
def greedy (items : List Item) (cap : Int) (queue : List Item) : Except PyErr (List Int × Int × Int) :=
  greedyLoop cap queue (List.range items.length) (List.replicate items.length 0, 0, 0)

/-- `best_of_greedy` (39-42). -/
def bestOfGreedy (items : List Item) (cap : Int) : Except PyErr (List Int × Int × Int) := do
  let q1 ← computeDensity items cap
  let r1 ← greedy items cap q1
  let q2 ← computeDensityPenalty items cap
  let r2 ← greedy items cap q2
  return if r1.2.1 > r2.2.1 then r1 else r2

/-- `dyn_prog_knapsack.py` 37-41: the order with `greedy_start`. -/
def greedyOrder (items : List Item) (cap : Int) : Except PyErr (List Nat) := do
  let q ← computeDensity items cap
  return q.map Item.index

end Verif.Knapsack
