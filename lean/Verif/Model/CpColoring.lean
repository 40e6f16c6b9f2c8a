import Verif.Model.Coloring
import Verif.Model.Milp
/-
Model of `coloring/solvers/coloring_cp_solvers.py`, `coloring/coloring_toolbox.py`, the neighbourhoods and the post-processing of
`coloring/solvers/coloring_cp_lns_solvers.py` (directory `skdecide/builders/discrete_optimization`), and of the programs
`coloring/minizinc/coloring.mzn`, `coloring_clique.mzn` and `coloring_for_lns.mzn`.

A MiniZinc program is modelled as a predicate on the values of its variables; what a solver returns is any value that satisfies
it.  The maximal cliques `networkx` finds, the number of colours of the start and the random choice of fixed nodes are parameters.
Time limits, statuses, search annotations, intermediate solutions and prints are left out.
-/
namespace Verif.CpColoring
open Coloring Milp

/-- Without repetitions, as the keys of a dictionary. -/
def once {α : Type} [DecidableEq α] (l : List α) : List α :=
  l.foldl (fun acc x => if x ∈ acc then acc else acc ++ [x]) []

/-- The keys of `edges_infos_dict` (`graph_api.py` 32-50). -/
def edgeKeys (g : Graph) (undirected : Bool) : List (Int × Int) :=
  once (g.edges.flatMap (fun e => if undirected then [e, (e.2, e.1)] else [e]))

/-- The three files (`coloring_cp_solvers.py` 20-29). -/
inductive Kind where
  | cliques
  | default
  | lns
  deriving DecidableEq

/-- The data of the programs; nodes are numbered from 1. -/
structure Data where
  n : Nat
  nEdges : Nat
  nb : Nat
  edges : List (Nat × Nat)
  cliques : List (List Nat)
  allCliques : Bool
  deriving DecidableEq

/-- `compute_cliques` (`coloring_toolbox.py` 4-14): `not_all` is bound only where the loop breaks. -/
def computeCliques (found : List (List Nat)) (nbMax : Option Nat) : Except PyErr (List (List Nat) × Bool) :=
  match nbMax with
  | none => .error .nameError
  | some m =>
    if found = [] then .error .nameError
    else if m = 0 then .ok (found.take 1, true)
    else if m ≤ found.length then .ok (found.take m, true)
    else .error .nameError

/-- The numbers of an edge (64-66). -/
def edgeOf (g : Graph) (e : Int × Int) : Except PyErr (Nat × Nat) := do
  let i ← g.index.get e.1
  let j ← g.index.get e.2
  .ok (i + 1, j + 1)

/-- `init_model` (48-83); `found` are the maximal cliques. -/
def init (g : Graph) (undirected : Bool) (nb : Nat) (kind : Kind) (found : List (List Nat)) : Except PyErr Data := do
  let edges ← mapE (edgeOf g) g.edges
  let base : Data := ⟨g.names.length, (edgeKeys g undirected).length / 2, nb, edges, [], false⟩
  match kind with
  | .cliques => do
    let (cs, notAll) ← computeCliques found (some 200)
    .ok { base with cliques := cs, allCliques := !notAll }
  | _ => .ok base

/-- `graph[n]` (`coloring.mzn` 8-9). -/
def around (D : Data) (n : Nat) : List Nat :=
  D.edges.filterMap (fun e => if e.1 = n then some e.2 else none) ++ D.edges.filterMap (fun e => if e.2 = n then some e.1 else none)

/-- `color_graph[n]`. -/
def colorAt (cs : List Nat) (n : Nat) : Option Nat := cs[n - 1]?

/-- `value_precede_chain([c | c in COLORS], color_graph)`: the first node of colour `c + 1` follows one of colour `c`. -/
def Chain (nb : Nat) (cs : List Nat) : Prop :=
  ∀ c, 1 ≤ c → c + 1 ≤ nb → ∀ i : Nat, cs[i]? = some (c + 1) → ∃ j, j < i ∧ cs[j]? = some c

/-- The constraints of the programs on `color_graph` and `obj`. -/
structure Solves (kind : Kind) (D : Data) (cs : List Nat) (obj : Nat) : Prop where
  /-- `array[EDGES, 1..2] of NODES: list_edges`: another number of edges is refused -/
  size : D.edges.length = D.nEdges
  /-- `array[NODES] of var COLORS: color_graph` -/
  len : cs.length = D.n
  dom : ∀ c ∈ cs, 1 ≤ c ∧ c ≤ D.nb
  /-- `coloring.mzn` 15, `coloring_for_lns.mzn` 14, `coloring_clique.mzn` 24-28 -/
  edges : (kind = .cliques → D.allCliques = false) → ∀ n, 1 ≤ n → n ≤ D.n → ∀ m ∈ around D n, n < m → colorAt cs n ≠ colorAt cs m
  /-- `coloring_clique.mzn` 23 -/
  cliques : kind = .cliques → ∀ c ∈ D.cliques, c.Pairwise (fun n m => colorAt cs n ≠ colorAt cs m)
  /-- `coloring_clique.mzn` 21-22, `coloring_for_lns.mzn` 12-13; commented out in `coloring.mzn` 13-14 -/
  chain : kind ≠ .default → Chain D.nb cs
  /-- `obj=max(color_graph)` -/
  obj : obj ∈ cs ∧ ∀ c ∈ cs, c ≤ obj

/-- `retrieve_solutions` for one solution (105-107). -/
def retrieve (g : Graph) (cs : List Nat) : Except PyErr (List Int) :=
  mapE (fun n => do
    let i ← g.index.get n
    let c ← pyGet cs i
    .ok ((c : Int) - 1)) g.names

/-- The program of an iteration of `ConstraintHandlerFixColorsCP` (`coloring_cp_lns_solvers.py` 52-66): `current` are the colours from
0, `fixed` positions of nodes; the greatest colour is not fixed. -/
def Child (kind : Kind) (D : Data) (current : List Int) (fixed : List Nat) (cs : List Nat) (obj : Nat) : Prop :=
  Solves kind D cs obj ∧ ∃ top : Int, (top ∈ current ∧ ∀ c ∈ current, c ≤ top) ∧
    (∀ i ∈ fixed, ∀ c, current[i]? = some c → c < top → ∃ x, cs[i]? = some x ∧ (x : Int) = c + 1) ∧ ∀ x ∈ cs, (x : Int) ≤ top + 1

/-- `PostProcessSolutionColoring.build_other_solution` (77-89): each colour becomes its position among the sorted colours. -/
def squeeze (colors : List Int) : Except PyErr (List Int) :=
  mapE (fun c => do
    let i ← Dict.get ((pySorted (distinct colors)).zipIdx : Dict Int Nat) c
    .ok (i : Int)) colors

/-- What the deprecated `solve_lns` (151-204) keeps: best colours and their number. -/
structure State where
  colors : List Int
  nbColor : Nat
  deriving DecidableEq

/-- An iteration of `solve_lns` for the answer `cs` of the solver (187-196). -/
def lnsStep (g : Graph) (st : State) (cs : List Nat) : Except PyErr State := do
  let sol ← retrieve g cs
  if (distinct sol).length < st.nbColor then .ok ⟨sol, (distinct sol).length⟩ else .ok st

/-- `solve_lns` from a first solution, for the answers of the iterations. -/
def lns (g : Graph) (first : List Int) (answers : List (List Nat)) : Except PyErr State :=
  answers.foldlM (lnsStep g) ⟨first, (distinct first).length⟩

end Verif.CpColoring
