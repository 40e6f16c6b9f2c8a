import Verif.Model.Py
import Verif.Model.Sort
/-
Model of `coloring/coloring_model.py` and `coloring/solvers/greedy_coloring.py`
(directory `skdecide/builders/discrete_optimization`), with the part of
`generic_tools/graph_api.py` they use.

Node names are integers (any sortable hashable in the code).  Attributes of nodes and edges are
dropped.  The colourings computed by `networkx` are a parameter.
-/
namespace Verif.Coloring

/-- The parts of `Graph` used (`graph_api.py` 6-21): the node list and the edge list as given. -/
structure Graph where
  nodes : List Int
  edges : List (Int × Int)

/-- `nodes_infos_dict` keys (`graph_api.py` 28-30): the distinct nodes. -/
def distinct (l : List Int) : List Int :=
  l.foldl (fun acc x => if x ∈ acc then acc else acc ++ [x]) []

/-- `sorted(...)` of a list of integers. -/
def pySorted (l : List Int) : List Int := sortBy id l

/-- `nodes_name = sorted(self.nodes_infos_dict)` (`graph_api.py` 20). -/
def Graph.names (g : Graph) : List Int := pySorted (distinct g.nodes)

/-- `index_nodes_name` (`coloring_model.py` 77): position of each name, filled by a loop. -/
def Graph.index (g : Graph) : Dict Int Nat := g.names.zipIdx

/-- `variable.colors[self.index_nodes_name[n]]` (95-96, 133): `KeyError` for an unknown node,
`IndexError` for a colour vector that is too short. -/
def colorOf (g : Graph) (colors : List Int) (n : Int) : Except PyErr Int := do
  let i ← g.index.get n
  pyGet colors i

/-- `satisfy` (93-98) from the given edges on: stops at the first edge with equal colours. -/
def satisfyFrom (g : Graph) (colors : List Int) : List (Int × Int) → Except PyErr Bool
  | [] => .ok true
  | e :: es => do
    let a ← colorOf g colors e.1
    let b ← colorOf g colors e.2
    if a = b then .ok false else satisfyFrom g colors es

/-- `ColoringProblem.satisfy` (93-98). -/
def satisfy (g : Graph) (colors : List Int) : Except PyErr Bool := satisfyFrom g colors g.edges

/-- `count_violations` (130-135) from the given edges on, adding to `val`. -/
def countFrom (g : Graph) (colors : List Int) : List (Int × Int) → Nat → Except PyErr Nat
  | [], val => .ok val
  | e :: es, val => do
    let a ← colorOf g colors e.1
    let b ← colorOf g colors e.2
    countFrom g colors es (if a = b then val + 1 else val)

/-- `ColoringProblem.count_violations` (130-135). -/
def countViolations (g : Graph) (colors : List Int) : Except PyErr Nat := countFrom g colors g.edges 0

/-- `ColoringSolution` (9-20): the colours and the cached counts. -/
structure Solution where
  colors : List Int
  nbColor : Option Nat := none
  nbViolations : Option Nat := none
  deriving DecidableEq

/-- `ColoringProblem.evaluate` (87-91): fills the cache when `nb_color` is absent; returns the
cached pair and the solution with the cache. -/
def evaluate (g : Graph) (s : Solution) : Except PyErr ((Option Nat × Option Nat) × Solution) :=
  match s.nbColor with
  | none => do
    let v ← countViolations g s.colors
    let s' := { s with nbColor := some (distinct s.colors).length, nbViolations := some v }
    .ok ((s'.nbColor, s'.nbViolations), s')
  | some _ => .ok ((s.nbColor, s.nbViolations), s)

/-- The loop of `transform_color_values_to_value_precede` (60-69) over the rest of the vector:
`index` maps a colour to its new value, `new_value` is the number of entries of `index`. -/
def renumberFrom : List Int → Dict Int Nat → Nat → Except PyErr (List Nat)
  | [], _, _ => .ok []
  | c :: cs, index, newValue => do
    let index' := if index.contains c then index else index.set c newValue
    let newValue' := if index.contains c then newValue else newValue + 1
    let v ← index'.get c
    let rest ← renumberFrom cs index' newValue'
    .ok (v :: rest)

/-- `transform_color_values_to_value_precede` (60-69). -/
def renumber (colors : List Int) : Except PyErr (List Nat) := renumberFrom colors [] 0

/-- `get_dummy_solution` (124-128). -/
def dummy (g : Graph) : Except PyErr Solution := do
  let r ← evaluate g { colors := (List.range (distinct g.nodes).length).map Int.ofNat }
  .ok r.2

/-- `[colors[i] for i in sorted_nodes]` (`greedy_coloring.py` 59-61). -/
def readColors (colors : Dict Int Int) : List Int → Except PyErr (List Int)
  | [] => .ok []
  | n :: ns => do
    let c ← colors.get n
    let rest ← readColors colors ns
    .ok (c :: rest)

/-- One strategy of `GreedyColoring.solve` (54-70): `none` when `networkx` raises.  The pair is
`(best_nb_color, best_solution)`, absent before the first success (`float('inf')`, `None`). -/
def tryStrategy (best : Option (Nat × List Int)) (res : Option (Dict Int Int)) : Option (Nat × List Int) :=
  match res with
  | none => best
  | some colors =>
    match readColors colors (pySorted colors.keys) with
    | .error _ => best
    | .ok sol =>
      let k := (distinct (colors.map Prod.snd)).length
      match best with
      | none => some (k, sol)
      | some (b, s) => if k < b then some (k, sol) else some (b, s)

/-- `GreedyColoring.solve` (43-81) up to the fitness: `results` are the answers of `networkx` for
the strategies tried, in order.  Without any answer `len(None)` raises `TypeError`. -/
def greedy (results : List (Option (Dict Int Int))) : Except PyErr (List Nat) :=
  match results.foldl tryStrategy none with
  | none => .error .typeError
  | some (_, sol) => renumber sol

end Verif.Coloring
