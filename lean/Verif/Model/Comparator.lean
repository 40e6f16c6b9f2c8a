import Verif.Model.Results
/-
Model of `generic_tools/result_storage/resultcomparator.py` and of `remove_duplicate_solutions`, `get_best_solution` and
`result_storage_to_pareto_front` (`result_storage.py`) for fitness vectors (directory `skdecide/builders/discrete_optimization`).

Fitness vectors are lists of exact integers.  Stores are objects without an equality of their own: `id` tells them apart.  Plots and
prints are left out.
-/
namespace Verif.Comparator
open Results

/-- A store of solutions with fitness vectors. -/
structure Storage (σ : Type) where
  id : Nat
  sols : List (σ × List Int)
  maximize : Bool

/-- The arguments of the constructor (23-34). -/
structure Comp (σ : Type) where
  stores : List (Storage σ)
  names : List String
  objectives : List String
  weights : List Int

variable {σ : Type}

/-- `list.index(x)`: the first position. -/
def indexOf [DecidableEq α] (l : List α) (x : α) : Except PyErr Nat :=
  if x ∈ l then .ok (l.idxOf x) else .error .valueError

/-- `fit_array` (73-74). -/
def column (k : Nat) : List (σ × List Int) → Except PyErr (List Int)
  | [] => .ok []
  | p :: l => do
    let x ← pyGet p.2 k
    let xs ← column k l
    .ok (x :: xs)

/-- Lines 73-83 for one store. -/
def bestAt (k : Nat) (s : Storage σ) : Except PyErr (σ × List Int) := do
  let fits ← column k s.sols
  let b ← (if s.maximize then pyMaxBy else pyMinBy) (fun x => x) fits
  let i ← indexOf fits b
  pyGet s.sols i

/-- The loop of lines 72-86 over the stores from number `i` on. -/
def bestLoop (names : List String) (k : Nat) : List (Storage σ) → Nat → Dict String (σ × List Int) →
    Except PyErr (Dict String (σ × List Int))
  | [], _, val => .ok val
  | s :: l, i, val => do
    let b ← bestAt k s
    let name ← pyGet names i
    bestLoop names k l (i + 1) (val.set name b)

/-- `get_best_by_objective_by_result_storage` (68-87). -/
def getBest (c : Comp σ) (objective : String) : Except PyErr (Dict String (σ × List Int)) := do
  let k ← indexOf c.objectives objective
  bestLoop c.names k c.stores 0 []

/-- `generate_super_pareto` (89-99): the store is made without a direction, so the default, maximisation, is taken. -/
def superPareto (c : Comp σ) : List (σ × List Int) :=
  finalizePareto true (c.stores.map Storage.sols).flatten

/-- `get_best_solution` (`result_storage.py` 102-106): `max` and `min` compare by `>` and `<` and keep the first. -/
def bestSolution (s : Storage σ) : Option σ :=
  match s.sols with
  | [] => none
  | p :: l => some (l.foldl (fun b q => if (if s.maximize then tgt q.2 b.2 else tlt q.2 b.2) then q else b) p).1

/-- Lines 42-50: the values of a solution in the scenarios, for each objective; `None` has no method to change its problem. -/
def reevaluateOne (eval : τ → σ → String → Int) (tests : List τ) (objectives : List String) (s : Storage σ) :
    Except PyErr (Dict String (List Int)) :=
  match bestSolution s with
  | some x => .ok (objectives.foldl (fun d o => d.set o (tests.map (fun t => eval t x o))) [])
  | none => if objectives = [] ∨ tests = [] then .ok (objectives.foldl (fun d o => d.set o []) []) else .error .attributeError

/-- `reevaluate_result_storages` (39-51): stores are looked up by `index`. -/
def reevaluate (eval : τ → σ → String → Int) (tests : List τ) (objectives : List String) (all : List (Storage σ)) :
    List (Storage σ) → Dict Nat (Dict String (List Int)) → Except PyErr (Dict Nat (Dict String (List Int)))
  | [], d => .ok d
  | s :: l, d => do
    let e ← reevaluateOne eval tests objectives s
    let i ← indexOf (all.map Storage.id) s.id
    reevaluate eval tests objectives all l (d.set i e)

/-- The comparison of lines 120-124 of `result_storage.py`: all entries of the first, one after another. -/
def similar : List Int → List Int → Except PyErr Bool
  | [], _ => .ok true
  | _ :: _, [] => .error .indexError
  | x :: l, y :: m => if x = y then similar l m else .ok false

/-- Lines 113-127: the later ones that equal the first. -/
def duplicatesOf (x : List Int) : List (Nat × List Int) → Except PyErr (List Nat)
  | [] => .ok []
  | (j, y) :: l => do
    let b ← similar x y
    let r ← duplicatesOf x l
    .ok (if b then j :: r else r)

/-- All numbers to remove. -/
def allDuplicates : List (Nat × List Int) → Except PyErr (List Nat)
  | [] => .ok []
  | (_, x) :: l => do
    let r ← duplicatesOf x l
    let r' ← allDuplicates l
    .ok (r ++ r')

/-- `remove_duplicate_solutions` (113-131); `var` reads the attribute. -/
def removeDuplicates (var : σ → List Int) (l : List (σ × List Int)) : Except PyErr (List (σ × List Int)) := do
  let r ← allDuplicates ((l.zipIdx).map (fun p => (p.2, var p.1.1)))
  .ok ((l.zipIdx.filter (fun p => p.2 ∉ r)).map Prod.fst)

end Verif.Comparator
