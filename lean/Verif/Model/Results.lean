import Verif.Model.Py
/-
Model of `generic_tools/result_storage/multiobj_utils.py` and
`generic_tools/result_storage/result_storage.py`
(directory `skdecide/builders/discrete_optimization`).

Scalar fitnesses are exact integers; fitness vectors are lists of exact integers of one
common length (numpy broadcasting of different shapes is not modelled).
-/
namespace Verif.Results

/-! ## Fitness vectors -/

/-- `TupleFitness.__lt__` (`multiobj_utils.py` 26-28): all components `<=` and some `<`. -/
def tlt (a b : List Int) : Bool :=
  (List.zipWith (fun x y => decide (x ≤ y)) a b).all id &&
  (List.zipWith (fun x y => decide (x < y)) a b).any id

/-- `TupleFitness.__gt__` (30-32). -/
def tgt (a b : List Int) : Bool :=
  (List.zipWith (fun x y => decide (x ≥ y)) a b).all id &&
  (List.zipWith (fun x y => decide (x > y)) a b).any id

/-- `TupleFitness.__eq__` (17-18): neither dominates the other. -/
def teq (a b : List Int) : Bool := !(tlt a b) && !(tgt a b)

/-- `TupleFitness.__le__` (20-21). -/
def tle (a b : List Int) : Bool := tlt a b || teq a b

/-- `TupleFitness.__ge__` (23-24). -/
def tge (a b : List Int) : Bool := tgt a b || teq a b

/-- `TupleFitness.__mul__` (37-38) with a scalar. -/
def tmul (k : Int) (a : List Int) : List Int := a.map (k * ·)

/-! ## Pareto front -/

/-- `ParetoFront.add_point` (`result_storage.py` 172-195): the list `self.paretos`
afterwards. -/
def addPoint (maximize : Bool) (paretos : List (σ × List Int)) (p : σ × List Int) :
    List (σ × List Int) :=
  if maximize then
    if paretos.all (fun t => tge p.2 t.2) then
      (paretos ++ [p]).filter (fun q => !(tlt q.2 p.2))
    else paretos
  else
    if paretos.all (fun t => tle p.2 t.2) then
      (paretos ++ [p]).filter (fun q => !(tgt q.2 p.2))
    else paretos

/-- `ParetoFront.finalize` (200-208): rebuild `self.paretos` from `list_solution_fits`. -/
def finalizePareto (maximize : Bool) (l : List (σ × List Int)) : List (σ × List Int) :=
  l.foldl (addPoint maximize) []

/-- Python `max(l, key=key)`: the first element of greatest key; `ValueError` if empty. -/
def pyMaxBy (key : α → Int) : List α → Except PyErr α
  | [] => .error .valueError
  | x :: xs => .ok (xs.foldl (fun best y => if key y > key best then y else best) x)

/-- Python `min(l, key=key)`: the first element of least key; `ValueError` if empty. -/
def pyMinBy (key : α → Int) : List α → Except PyErr α
  | [] => .error .valueError
  | x :: xs => .ok (xs.foldl (fun best y => if key y < key best then y else best) x)

/-- One extreme point of `ParetoFront.compute_extreme_points` (210-217): the pareto point
with the best `i`-th coordinate (`i` below the vector size, so `vector_fitness[i]`
exists). -/
def extremePoint (maximize : Bool) (paretos : List (σ × List Int)) (i : Nat) :
    Except PyErr (σ × List Int) :=
  (if maximize then pyMaxBy else pyMinBy) (fun p => p.2.getD i 0) paretos

/-! ## Result store -/

/-- The fields of a `ResultStorage` (13-49).  `minmax` is `none` while the attributes
`self.min`/`self.max` do not exist (empty heap at construction); the heap is represented
by the list of its elements. -/
structure Store (σ : Type) where
  sols : List (σ × Int)
  best : Option σ
  maximize : Bool
  limit : Bool
  nbBest : Nat
  heap : List Int
  minmax : Option (Int × Int)
  seen : List (σ × Int)

/-- Insert into an ascending list. -/
def insAsc (x : Int) : List Int → List Int
  | [] => [x]
  | y :: ys => if x ≤ y then x :: y :: ys else y :: insAsc x ys

/-- `sorted(l)`. -/
def sortAsc : List Int → List Int
  | [] => []
  | x :: xs => insAsc x (sortAsc xs)

/-- `nsmallest(n, l)`. -/
def nsmallest (n : Nat) (l : List Int) : List Int := (sortAsc l).take n

/-- `nlargest(n, l)`. -/
def nlargest (n : Nat) (l : List Int) : List Int := (sortAsc l).reverse.take n

/-- `heappushpop(heap, x)` (CPython `heapq`): if the heap is non-empty and its smallest
element is `< x`, that element is replaced by `x`; otherwise the heap is unchanged.  The
heap is kept here as an ascending list. -/
def heappushpop (heap : List Int) (x : Int) : List Int :=
  match sortAsc heap with
  | [] => []
  | m :: rest => if m < x then insAsc x rest else m :: rest

/-- The loop 34-38 of the constructor: distinct solutions, first fitness kept. -/
def dedup [DecidableEq σ] : List (σ × Int) → List (σ × Int) → List (σ × Int)
  | [], acc => acc
  | (s, f) :: l, acc => if (acc.map Prod.fst).contains s then dedup l acc else dedup l (acc ++ [(s, f)])

/-- `min(l)`/`max(l)` of the heap, `none` when empty. -/
def minMax : List Int → Option (Int × Int)
  | [] => none
  | x :: xs => some (xs.foldl min x, xs.foldl max x)

/-- `f(self.list_solution_fits, key=lambda x: x[1])` with `f` the direction (48-49, 75-76). -/
def bestOf (maximize : Bool) (l : List (σ × Int)) : Except PyErr (σ × Int) :=
  (if maximize then pyMaxBy else pyMinBy) (fun p => p.2) l

/-- `ResultStorage.__init__` (18-49). -/
def Store.init [DecidableEq σ] (l : List (σ × Int)) (best : Option σ) (maximize limit : Bool)
    (nbBest : Nat) : Store σ :=
  let seen := dedup l []
  let heap0 := seen.map Prod.snd
  let heap :=
    if heap0.length ≥ nbBest ∧ limit = true then
      (if maximize then nlargest nbBest heap0 else nsmallest nbBest heap0)
    else heap0
  let mm := minMax heap
  let best' := match mm, best with
    | some _, none => (match bestOf maximize l with | .ok p => some p.1 | .error _ => none)
    | _, b => b
  ⟨l, best', maximize, limit, nbBest, heap, mm, seen⟩

/-- `ResultStorage.add_solution` (51-69); `AttributeError` when `self.min`/`self.max` were
never set (the list and dictionary are already updated then, the exception aborts the
rest).  `size_heap` equals the number of heap elements throughout and is not kept
separately. -/
def Store.add [DecidableEq σ] (st : Store σ) (s : σ) (f : Int) : Except PyErr (Store σ) :=
  let isNew := !(st.seen.map Prod.fst).contains s
  let sols := if isNew then st.sols ++ [(s, f)] else st.sols
  let seen := if isNew then st.seen ++ [(s, f)] else st.seen
  match st.minmax with
  | none => .error .attributeError
  | some (mn, mx) =>
    let best := if (st.maximize = true ∧ f > mx) ∨ (st.maximize = false ∧ f < mn)
      then some s else st.best
    if (st.maximize = true ∧ f ≥ mn) ∨ (st.maximize = false ∧ f ≤ mx) then
      let heap := if st.heap.length ≥ st.nbBest ∧ st.limit = true
        then heappushpop st.heap f else f :: st.heap
      .ok { st with sols, seen, best, heap, minmax := some (min f mn, max f mx) }
    else .ok { st with sols, seen, best }

/-- A sequence of `add_solution` calls. -/
def Store.addAll [DecidableEq σ] (st : Store σ) : List (σ × Int) → Except PyErr (Store σ)
  | [] => .ok st
  | (s, f) :: l => do
    let st' ← st.add s f
    st'.addAll l

/-- `get_best_solution_fit` (74-76). -/
def Store.getBestFit (st : Store σ) : Except PyErr (σ × Int) := bestOf st.maximize st.sols

/-- `get_best_solution` (102-106): `None` on an empty list. -/
def Store.getBest (st : Store σ) : Option σ :=
  match bestOf st.maximize st.sols with
  | .ok p => some p.1
  | .error _ => none

/-- `get_last_best_solution` (78-84). -/
def Store.getLastBest (st : Store σ) : Except PyErr (σ × Int) := do
  let b ← bestOf st.maximize st.sols
  match (st.sols.filter (fun p => decide (p.2 = b.2))).getLast? with
  | some p => .ok p
  | none => .error .valueError

/-- `finalize` (71-72): the heap sorted, best first. -/
def Store.finalHeap (st : Store σ) : List Int :=
  if st.maximize then (sortAsc st.heap).reverse else sortAsc st.heap

end Verif.Results
