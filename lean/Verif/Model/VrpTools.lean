import Verif.Model.Imopse
/-
Model of `vrp/vrp_toolbox.py` (directory `skdecide/builders/discrete_optimization`): `compute_length_matrix`, `prune_search_space`,
`build_graph`, `recompute_output`, `output_result`.

Matrices are functions of row and column.  `np.argsort` leaves the order of equal distances open; its rows are a parameter.  `np.int` is
taken as `int`, as in the versions of numpy that have it.  The text of `'%.2f' % obj` is a parameter.
-/
namespace Verif.VrpTools

/-- `int(x)` cuts off. -/
def cut (q : Rat) : Int := if 0 ≤ q then q.floor else q.ceil

/-- `matrix_distance` (13-17). -/
def matrix (ev : Nat → Nat → Rat) (f c : Nat) : Rat := if f < c then ev f c else if c < f then ev c f else 0

/-- `matrix_adjacency` of `prune_search_space` (22-33): assigned to a matrix of integers if it is pruned. -/
def prune (ev : Nat → Nat → Rat) (order : Nat → List Nat) (n nShortest : Nat) (f c : Nat) : Rat :=
  if nShortest < n then
    if c ∈ (order f).take nShortest ∨ c = 0 then (cut (matrix ev f c) : Rat) else 0
  else matrix ev f c

/-- `build_graph` (36-41): the edges with their weights.  `from_numpy_matrix` makes an edge of every entry that is not 0. -/
def graph (ev : Nat → Nat → Rat) (order : Nat → List Nat) (n : Nat) : Dict (Nat × Nat) Rat :=
  Dict.set (((List.range n).flatMap (fun f => (List.range n).map (fun c => (f, c)))).filterMap (fun e =>
    if prune ev order n n e.1 e.2 = 0 then none else some (e, prune ev order n n e.1 e.2))) (0, 0) 0

/-- `Customer` (8), of which only the index is used here. -/
structure Customer where
  index : Int
  x : Rat
  y : Rat
  deriving DecidableEq

/-- The lengths of line 71 along a path. -/
def legs (len : Customer → Customer → Rat) (customers : List Customer) : List (Nat × Nat) → Except PyErr Rat
  | [] => .ok 0
  | (i, j) :: l => do
    let a ← pyGet customers i
    let b ← pyGet customers j
    let r ← legs len customers l
    .ok (len a b + r)

/-- `[customers[j] for j in path]` (72). -/
def pick (customers : List Customer) : List Nat → Except PyErr (List Customer)
  | [] => .ok []
  | j :: l => do
    let a ← pyGet customers j
    let r ← pick customers l
    .ok (a :: r)

/-- The loop of lines 68-72. -/
def recomputeLoop (len : Customer → Customer → Rat) (customers : List Customer) : List (List Nat) → List (List Customer) → Rat →
    Except PyErr (List (List Customer) × Rat)
  | [], tours, obj => .ok (tours, obj)
  | p :: ps, tours, obj => do
    let path := p ++ [0]
    let o ← legs len customers (path.dropLast.zip (path.drop 1))
    let t ← pick customers (path.drop 1).dropLast
    recomputeLoop len customers ps (tours ++ [t]) (obj + o)

/-- `recompute_output` (65-73), without the constant 0. -/
def recompute (len : Customer → Customer → Rat) (customers : List Customer) (paths : Dict Int (List Nat)) :
    Except PyErr (List (List Customer) × Rat) := recomputeLoop len customers (paths.map Prod.snd) [] 0

/-- `' '.join(words)`. -/
def join : List (List Char) → List Char
  | [] => []
  | [a] => a
  | a :: b :: l => a ++ ' ' :: join (b :: l)

/-- A line of the result (81). -/
def line (depot : Int) (tour : List Int) : List Char :=
  Imopse.str depot ++ ' ' :: (join (tour.map Imopse.str) ++ ' ' :: Imopse.str depot) ++ ['\n']

/-- The loop of lines 80-81: the turns left, and `v`. -/
def linesFrom (tours : List (List Int)) (depot : Int) : Nat → Nat → Except PyErr (List Char)
  | 0, _ => .ok []
  | k + 1, v => do
    let t ← pyGet tours v
    let r ← linesFrom tours depot k (v + 1)
    .ok (line depot t ++ r)

/-- `output_result` (76-82); tours by the indices of their customers. -/
def output (obj : List Char) (opt : Int) (tours : List (List Int)) (vehicles : Nat) (depot : Int) : Except PyErr (List Char) := do
  let r ← linesFrom tours depot vehicles 0
  .ok (obj ++ ' ' :: Imopse.str opt ++ '\n' :: r)

end Verif.VrpTools
