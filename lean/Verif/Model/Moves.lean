import Verif.Model.Py
import Verif.Model.Core
/-
Model of the generic local moves
(`skdecide/builders/discrete_optimization/generic_tools/mutations/*.py`,
`generic_tools/do_mutation.py`).

A solution is represented by the value of the one attribute the move works on (the
`self.attribute` of the Python classes); the other attributes are not modelled.
Moves that alter the attribute list in place and moves that replace it are both state
passing: the model returns the list the attribute holds afterwards.
-/
namespace Verif.Moves
open Verif.Core (mapE)

/-- A shuffle move (`permutation_mutations.py` 13-19): the new and previous list. -/
structure ShuffleMove (α : Type) where
  new : List α
  prev : List α

/-- `ShuffleMove.apply_local_move` (21-23). -/
def ShuffleMove.apply (m : ShuffleMove α) (_current : List α) : List α := m.new

/-- `ShuffleMove.backtrack_local_move` (25-27). -/
def ShuffleMove.backtrack (m : ShuffleMove α) (_current : List α) : List α := m.prev

/-- `PermutationShuffleMutation.mutate` (51-57).  `rangeInt` is `self.range_int` after
`random.shuffle`, i.e. any rearrangement of `range(len(range))`.  `previous` is a copy,
and the result is set on a copy of the solution, so the argument keeps its list. -/
def shuffleMutate (previous : List α) (rangeInt : List Nat) :
    Except PyErr (List α × ShuffleMove α) := do
  let new ← mapE (pyGet previous) rangeInt
  return (new, ⟨new, previous⟩)

/-- The loop of `PermutationPartialShuffleMutation.mutate` (120-122), from index `k`:
`new[int_to_move[k]] = previous[int_to_move[range_int[k]]]`. -/
def partialShuffleLoop (previous : List α) (intToMove : List Nat) :
    (dst src : List Nat) → (new : List α) → Except PyErr (List α)
  | d :: ds, r :: rs, new => do
    let i ← pyGet intToMove r
    let v ← pyGet previous i
    let new' ← pySet new d v
    partialShuffleLoop previous intToMove ds rs new'
  | _, _, new => .ok new

/-- `PermutationPartialShuffleMutation.mutate` (114-127).  `intToMove` is the slice
`range_int_total[:n_to_move]` after shuffling, `rangeInt` the shuffled
`range(n_to_move)`.  The loop writes into the attribute list of the solution given as
argument (line 119 takes it without copying), so the list returned is also what the
argument holds afterwards. -/
def partialShuffleMutate (current : List α) (intToMove rangeInt : List Nat) :
    Except PyErr (List α × ShuffleMove α) := do
  let new ← partialShuffleLoop current intToMove intToMove rangeInt current
  return (new, ⟨new, current⟩)

/-- One exchange `current[i1], current[i2] = current[i2], current[i1]` (143-144). -/
def swap1 (l : List α) (p : Nat × Nat) : Except PyErr (List α) := do
  let v1 ← pyGet l p.1
  let v2 ← pyGet l p.2
  let l1 ← pySet l p.1 v2
  pySet l1 p.2 v1

/-- `SwapsLocalMove.apply_local_move` (140-145). -/
def swapsApply (swaps : List (Nat × Nat)) (l : List α) : Except PyErr (List α) :=
  match swaps with
  | [] => .ok l
  | p :: ps => do
    let l' ← swap1 l p
    swapsApply ps l'

/-- `SwapsLocalMove.backtrack_local_move` (147-152): the loop runs over the swaps in the
*same* order as `apply_local_move`. -/
def swapsBacktrack (swaps : List (Nat × Nat)) (l : List α) : Except PyErr (List α) :=
  match swaps with
  | [] => .ok l
  | p :: ps => do
    let l' ← swap1 l p
    swapsBacktrack ps l'

/-- `PermutationSwap.mutate` (180-184): `np.random.randint(low=0, high=length-1)` raises
`ValueError` when the range is empty, otherwise every draw is `< length-1`.  `draws` are
the rows drawn. -/
def permutationSwapMutate (length : Nat) (draws : List (Nat × Nat)) (l : List α) :
    Except PyErr (List α) :=
  if length ≤ 1 then .error .valueError else swapsApply draws l

/-- The rows `np.random.randint(low=0, high=length-1, size=(nb, 2))` can return (181). -/
def SwapDraws (length : Nat) (draws : List (Nat × Nat)) : Prop :=
  ∀ p ∈ draws, p.1 < length - 1 ∧ p.2 < length - 1

/-- `current[:i]+current[i:j+1][::-1]+current[j+1:]` (199) for non-negative `i`, `j`. -/
def twoOpt1 (l : List α) (p : Nat × Nat) : List α :=
  l.take p.1 ++ ((l.take (p.2 + 1)).drop p.1).reverse ++ l.drop (p.2 + 1)

/-- `TwoOptMove.apply_local_move` (196-201). -/
def twoOptApply (moves : List (Nat × Nat)) (l : List α) : List α := moves.foldl twoOpt1 l

/-- `TwoOptMove.backtrack_local_move` (202-207): reversed move list. -/
def twoOptBacktrack (moves : List (Nat × Nat)) (l : List α) : List α :=
  moves.reverse.foldl twoOpt1 l

/-- The pairs `TwoOptMutation.mutate` can draw (234-235): `i` in `0..length-2`, `j` in
`i+1..length-1`. -/
def TwoOptDraw (length : Nat) (p : Nat × Nat) : Prop := p.1 < p.2 ∧ p.2 < length

/-- `TwoOptMutation.mutate` (233-238): `random.randint(0, length-2)` raises `ValueError`
for `length ≤ 1`. -/
def twoOptMutate (length : Nat) (draw : Nat × Nat) (l : List α) : Except PyErr (List α) :=
  if length ≤ 1 then .error .valueError else .ok (twoOptApply [draw] l)

/-- `BitFlipMove.apply_local_move` (`mutation_bool.py` 18-22). -/
def bitFlipApply (indexes : List Nat) (l : List Int) : Except PyErr (List Int) :=
  match indexes with
  | [] => .ok l
  | i :: is => do
    let v ← pyGet l i
    let l' ← pySet l i (1 - v)
    bitFlipApply is l'

/-- `BitFlipMove.backtrack_local_move` (`mutation_bool.py` 24-25). -/
def bitFlipBacktrack (indexes : List Nat) (l : List Int) : Except PyErr (List Int) :=
  bitFlipApply indexes l

/-- The loop of `MutationIntegerSpecificArrity.mutate` (`mutation_integer.py` 46-49), on
the copy `s2` of the solution.  For each position `k`, `draws[k]` is `none` when
`random.random() > probability_flip`, otherwise `some c` with `c` the index drawn by
`random.choice` in `range_arrities[k] = [1, …, arrities[k]]`; `random.choice` of an empty
list raises `IndexError`. -/
def integerMutateLoop : (k : Nat) → (arities : List Nat) → (draws : List (Option Nat)) →
    (vector : List Nat) → Except PyErr (List Nat)
  | k, a :: as, d :: ds, vector =>
    match d with
    | none => integerMutateLoop (k + 1) as ds vector
    | some c => do
      let v ← pyGet ((List.range a).map (· + 1)) c
      let vector' ← pySet vector k v
      integerMutateLoop (k + 1) as ds vector'
  | _, _, _, vector => .ok vector

/-- `MutationIntegerSpecificArrity.mutate` (43-51) with `LocalMoveDefault`
(`do_mutation.py` 16-31): the new vector, and the pair (previous, new) the move holds. -/
def integerMutate (arities : List Nat) (draws : List (Option Nat)) (vector : List Nat) :
    Except PyErr (List Nat × (List Nat × List Nat)) := do
  let v ← integerMutateLoop 0 arities draws vector
  return (v, (vector, v))

end Verif.Moves
