import Verif.Model.Py
import Mathlib.Algebra.Order.Ring.Rat

/-!
`skdecide/builders/discrete_optimization/ttp/ttp_model.py` and `ttp/solver/mutation_ttp.py`.
Profits, weights, speeds and distances are exact numbers; the distance of two cities is a function of their numbers
(`math.sqrt` of the coordinates, lines 181-182). The compiled functions do not check indices; tours and packings have
the cities and the length of the problem.
-/
namespace Verif.Ttp
open Verif

/-- Columns 1 and 2 of `items_array` and `node_index` of an item. -/
structure Item where
  profit : Rat
  weight : Rat
  node : Int
  deriving DecidableEq, Repr

/-- `ttp_model.py` lines 66-97: what the functions read of the problem. -/
structure Problem where
  capacity : Rat
  rent : Rat
  vmin : Rat
  vmax : Rat
  nodes : Nat
  items : List Item
  dist : Int → Int → Rat

/-- What `evaluate` (and `evaluate_with_details`) return. -/
structure Score where
  objective : Rat
  profit : Rat
  distance : Rat
  time : Rat
  used : Rat
  left : Rat
  weights : List Rat
  deriving DecidableEq, Repr

/-- Line 170: the items that the packing takes in a city; lines 174-176 only leave a loop that does nothing. -/
def selected (p : Problem) (packing : List Int) (city : Int) : List Item :=
  (p.items.zip packing).filterMap fun x => if x.2 = city then some x.1 else none

/-- The variables of the loop of lines 169-184 (and `weight_array`, lines 208-221). -/
structure Walk where
  weight : Rat := 0
  time : Rat := 0
  profit : Rat := 0
  distance : Rat := 0
  weights : List Rat := []
  deriving DecidableEq, Repr

/-- Lines 184, 225: the speed with the weight `w`. -/
def speed (p : Problem) (w : Rat) : Rat := p.vmax - w * (p.vmax - p.vmin) / p.capacity

/-- Lines 169-184: from a city to the next one. -/
def leg (p : Problem) (packing : List Int) (w : Walk) (here there : Int) : Except PyErr Walk :=
  let items := selected p packing here
  let weight := w.weight + (items.map Item.weight).sum
  if p.capacity = 0 ∨ speed p weight = 0 then .error .zeroDivisionError
  else .ok {
    weight := weight
    profit := w.profit + (items.map Item.profit).sum
    distance := w.distance + p.dist here there
    time := w.time + p.dist here there / speed p weight
    weights := w.weights ++ [weight] }

/-- Lines 169-184, 209-225: the loop. -/
def walk (p : Problem) (packing : List Int) : List Int → Walk → Except PyErr Walk
  | here :: there :: tour, w => do
    let w ← leg p packing w here there
    walk p packing (there :: tour) w
  | _, w => .ok w

/-- Lines 154-188, 192-229, `evaluate` and `evaluate_with_details`; `none` is the bare `return` of lines 164 and 202. -/
def score (p : Problem) (tour packing : List Int) : Except PyErr (Option Score) :=
  match tour.head?, tour.getLast? with
  | some first, some last =>
    if first ≠ last then .ok none
    else do
      let w ← walk p packing tour {}
      pure (some { objective := w.profit - w.time * p.rent, profit := w.profit, distance := w.distance, time := w.time, used := w.weight, left := p.capacity - w.weight, weights := w.weights })
  | _, _ => .error .indexError

/-- Lines 9-28: a solution. -/
structure Solution where
  tour : List Int
  packing : List Int
  used : Rat := 0
  objective : Rat := 0
  deriving DecidableEq, Repr

/-- Lines 99-108, `TTPModel.evaluate`: the solution with its attributes; unpacking `None` raises `TypeError`. What is returned is the
dictionary `{"obj": objective}`. -/
def evaluate (p : Problem) (s : Solution) : Except PyErr Solution :=
  match score p s.tour s.packing with
  | .error e => .error e
  | .ok none => .error .typeError
  | .ok (some r) => .ok { s with used := r.used, objective := r.objective }

/-! ### Mutations -/

/-- Lines 60-61: the items that may be taken, by the weight that is noted in the solution. -/
def notUsed (p : Problem) (s : Solution) : List Nat :=
  (List.range p.items.length).filter fun i => match p.items[i]?, s.packing[i]? with
    | some x, some c => decide (c = -1) && decide (s.used + x.weight ≤ p.capacity)
    | _, _ => false

/-- Line 73: the items that are taken. -/
def usedItems (p : Problem) (s : Solution) : List Nat :=
  (List.range p.items.length).filter fun i => match s.packing[i]? with
    | some c => decide (c ≠ -1)
    | none => false

/-- Lines 66-67: the item is taken in its city; a new solution without noted weight. -/
def take (p : Problem) (s : Solution) (i : Nat) : Solution :=
  { tour := s.tour, packing := s.packing.set i ((p.items[i]?.map Item.node).getD (-1)) }

/-- Lines 78-79. -/
def leave (s : Solution) (i : Nat) : Solution := { tour := s.tour, packing := s.packing.set i (-1) }

/-- Lines 59-82, `MutationTTPKnapsack.switch_on` (`on`) and `switch_off`, which call each other, for at most `depth` frames;
`draw` chooses the item (`np.random.choice`; profits and weights are positive). The recursion error is a `RuntimeError`. -/
def switch (p : Problem) (draw : Nat → Nat) (s : Solution) : Bool → Nat → Except PyErr Solution
  | _, 0 => .error .runtimeError
  | true, depth + 1 =>
    match (notUsed p s)[draw depth % (notUsed p s).length]? with
    | some i => .ok (take p s i)
    | none => switch p draw s false depth
  | false, depth + 1 =>
    match (usedItems p s)[draw depth % (usedItems p s).length]? with
    | some i => .ok (leave s i)
    | none => switch p draw s true depth

/-- Lines 111-137, `MutationTTPKnapsackBest.switch_on`: the first of the 50 draws is `draw`. The first candidate shares its packing with
the solution, and the comparison of line 126 has a dictionary and a number. The answer (`none` is the solution itself) and the packing
of the given solution afterwards. -/
def bestOn (p : Problem) (draw : Nat) (s : Solution) : Except PyErr Unit × List Int :=
  match (notUsed p s)[draw % (notUsed p s).length]? with
  | none => (.ok (), s.packing)
  | some i =>
    let packing := (take p s i).packing
    match evaluate p { tour := s.tour, packing := packing } with
    | .error e => (.error e, packing)
    | .ok _ => (.error .typeError, packing)

/-- Lines 141-168, `MutationTTPKnapsackBest.switch_off`, likewise. -/
def bestOff (p : Problem) (draw : Nat) (s : Solution) : Except PyErr Unit × List Int :=
  match (usedItems p s)[draw % (usedItems p s).length]? with
  | none => (.ok (), s.packing)
  | some i =>
    let packing := (leave s i).packing
    match evaluate p { tour := s.tour, packing := packing } with
    | .error e => (.error e, packing)
    | .ok _ => (.error .typeError, packing)

/-- Line 232: the tour with the part from `i` to `j` reversed. -/
def reversed (tour : List Int) (i j : Nat) : List Int := tour.take i ++ ((tour.take (j + 1)).drop i).reverse ++ tour.drop (j + 1)

/-- Lines 212-221: the pairs if all are tested. -/
def allPairs (n : Nat) : List (Nat × Nat) := (List.range' 1 (n - 1)).flatMap fun i => (List.range' (i + 1) (n - 1 - (i + 1))).map fun j => (i, j)

/-- Lines 225-247, `Mutation2Opt.mutate_and_compute_obj`: `pairs` are those of `compute_i_j`; without `test_all`, line 229 samples
`nb_test` of `nb_node - 1` numbers. Line 235 subtracts a number from a dictionary. The answer is the solution itself. -/
def twoOpt (p : Problem) (testAll : Bool) (nbTest : Nat) (pairs : List (Nat × Nat)) (s : Solution) : Except PyErr Unit :=
  if testAll = false ∧ nbTest > p.nodes - 1 then .error .valueError
  else match pairs with
    | [] => .ok ()
    | (i, j) :: _ =>
      match evaluate p { tour := reversed s.tour i j, packing := s.packing } with
      | .error e => .error e
      | .ok _ => .error .typeError

end Verif.Ttp
