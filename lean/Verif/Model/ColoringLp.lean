import Verif.Model.Milp
import Verif.Model.Coloring
/-
Model of `coloring/solvers/coloring_lp_solvers.py` (directory
`skdecide/builders/discrete_optimization`): the program built by `ColoringLP.init_model` (gurobi) and by
`ColoringLP_MIP.init_model` (mip), which is the same, and the reading of a solution.

The cliques of `networkx` and the colour count of the start solution are parameters.
`g.edges()` of the `networkx` graph is the list of given edges (a repeated edge only repeats rows).
-/
namespace Verif.ColoringLp
open Verif.Milp Verif.Coloring

/-- The variables: `colors_var[node, color]` (57-61, 176-180) and `opt` (76, 194). -/
inductive Var where
  | x (node : Int) (color : Nat)
  | opt
  deriving DecidableEq

/-- The keys of `colors_var` in insertion order (57-61, 176-180). -/
def keys (g : Graph) (nb : Nat) : List (Int × Nat) :=
  g.names.flatMap (fun n => (List.range nb).map (fun c => (n, c)))

/-- `colors_var[n, c]`: a `KeyError` for a name that is not a node. -/
def look (g : Graph) (n : Int) (c : Nat) : Except PyErr Var :=
  if n ∈ g.names then .ok (.x n c) else .error .keyError

/-- `one_color_constraints[n]` (62-64, 181-183): the sum over the colours is one. -/
def oneColor (g : Graph) (nb : Nat) (n : Int) : Except PyErr (Row Var) := do
  let vs ← mapE (look g n) (List.range nb)
  .ok ⟨vs.map (fun v => (1, v)), .eq, 1⟩

/-- `[... colors_var[node, color_i] for node in c for color_i in range_color]` (78-86, 196-204) with
the coefficient given by the colour. -/
def cliqueTerms (g : Graph) (nb : Nat) (coef : Nat → Int) (c : List Int) : Except PyErr (Lin Var) :=
  mapE (fun k => do let v ← look g k.1 k.2; .ok (coef k.2, v))
    (c.flatMap (fun n => (List.range nb).map (fun i => (n, i))))

/-- The two rows of a clique (78-86, 196-204). -/
def cliqueRows (g : Graph) (nb : Nat) (c : List Int) : Except PyErr (List (Row Var)) := do
  let weighted ← cliqueTerms g nb (fun i => (i : Int) + 1) c
  let plain ← cliqueTerms g nb (fun _ => 1) c
  .ok [⟨weighted, .ge, ((List.range c.length).map (fun (i : Nat) => (i : Int) + 1)).sum⟩,
       ⟨plain ++ [(-1, .opt)], .le, 0⟩]

/-- `constraints_neighbors[e[0], e[1], c]` (89-93, 207-211). -/
def edgeRow (g : Graph) (e : Int × Int) (c : Nat) : Except PyErr (Row Var) := do
  let a ← look g e.1 c
  let b ← look g e.2 c
  .ok ⟨[(1, a), (1, b)], .le, 1⟩

/-- `sum (color_i + 1) * colors_var[n, color_i] <= opt` (94-95, 212-213). -/
def topRow (g : Graph) (nb : Nat) (n : Int) : Except PyErr (Row Var) := do
  let ts ← cliqueTerms g nb (fun i => (i : Int) + 1) [n]
  .ok ⟨ts ++ [(-1, .opt)], .le, 0⟩

/-- `range_node`. -/
def rangeNode (g : Graph) : List Int := (List.range (distinct g.nodes).length).map Int.ofNat

/-- `init_model` (36-113, 153-224): `nb` is `start_solution.nb_color`, `cliques` what
`networkx` finds, sorted (empty without `use_cliques`: the edges are then listed as cliques but not used). -/
def initModel (g : Graph) (nb : Nat) (cliques : List (List Int)) : Except PyErr (Program Var) := do
  let ones ← mapE (oneColor g nb) (rangeNode g)
  let cl ← mapE (cliqueRows g nb) (cliques.take 100)
  let es ← mapE (fun e => mapE (edgeRow g e) (List.range nb)) g.edges
  let tops ← mapE (topRow g nb) (rangeNode g)
  .ok { vars := (keys g nb).map (fun k => (.x k.1 k.2, .binary)) ++ [(.opt, .integer 0 (some nb))],
        rows := ones ++ cl.flatten ++ es.flatten ++ tops,
        objective := [(1, .opt)] }

/-- The loop of `retrieve_solutions` (116-123, 226-233) over the rest of the keys: `value >= 0.5` sets the entry
of the node. -/
def readFrom (g : Graph) (a : Var → Int) : List (Int × Nat) → List Int → Except PyErr (List Int)
  | [], sol => .ok sol
  | (n, c) :: ks, sol =>
    if 1 ≤ 2 * a (.x n c) then do
      let i ← g.index.get n
      let sol' ← pySet sol i (c : Int)
      readFrom g a ks sol'
    else readFrom g a ks sol

/-- The colours of `retrieve_solutions` (116-123, 226-233). -/
def retrieve (g : Graph) (nb : Nat) (a : Var → Int) : Except PyErr (List Int) :=
  readFrom g a (keys g nb) (List.replicate (distinct g.nodes).length 0)

end Verif.ColoringLp
