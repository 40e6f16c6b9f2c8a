import Verif.Model.Search

/-!
What the C++ solvers iw.hh and bfws.hh (/repo/cpp/src/hub/solver) share: the nodes of the search
graph, the walk back along the parents, the queries and the priority queue.

Costs are exact rationals, `none` is infinity (for sizes: the largest number).  The callbacks into
the domain do not raise.  Nodes are identified by their state (hashing policy `DomainStateHash`),
so a pointer to a node is its state.  Logging is left out.
-/
namespace Verif.PlanGraph

/-- `Node` without the state (the key) and the features (a function of the state), iw.hh lines
225-255 and bfws.hh lines 272-299.  `depth` and `pruned` are only used by iw.hh, `heuristic` only
by bfws.hh. -/
structure Node (σ α : Type) where
  gscore : Option Rat := none
  fscore : Option Rat := none
  novelty : Option Nat := none
  depth : Option Nat := none
  heuristic : Rat := 0
  /-- default constructed (so a null pointer) at first -/
  bestParent : Option (σ × α × Rat) := none
  /-- the *address* of the action inside `best_parent` of the next node on the path (iw.hh line
  352, bfws.hh line 173), so it is that node here -/
  bestAction : Option σ := none
  pruned : Bool := false
  solved : Bool := false
  deriving DecidableEq

abbrev Graph (σ α : Type) := Dict σ (Node σ α)

/-- `x < y` on doubles. -/
def less : Option Rat → Option Rat → Bool
  | some a, some b => decide (a < b)
  | some _, none => true
  | none, _ => false

/-- `x + y` on doubles, one summand possibly infinite. -/
def plus : Option Rat → Rat → Option Rat
  | some a, b => some (a + b)
  | none, _ => none

/-- A node of the graph; the code only follows pointers to existing nodes. -/
def node [DecidableEq σ] (g : Graph σ α) (s : σ) : Node σ α := (g.get? s).getD {}

/-- The walk back from `cur` to `root` that writes the plan into the nodes, iw.hh lines 350-356
and bfws.hh lines 171-177, at most `fuel` steps (`none`: not finished).  A null parent is
dereferenced (`attributeError`). -/
def mark [DecidableEq σ] (root : σ) : Nat → σ → Graph σ α → Option (Except PyErr (Graph σ α))
  | fuel, cur, g =>
    if cur = root then some (.ok g)
    else match fuel with
      | 0 => none
      | fuel + 1 =>
        match (node g cur).bestParent with
        | none => some (.error .attributeError)
        | some (par, _, c) =>
          mark root fuel par (g.set par
            { node g par with
              bestAction := some cur
              fscore := plus (node g cur).fscore c
              solved := true })

/-- `is_solution_defined_for`, iw.hh lines 170-177 and bfws.hh lines 236-243. -/
def isSolutionDefined [DecidableEq σ] (g : Graph σ α) (s : σ) : Bool :=
  match g.get? s with
  | none => false
  | some n => n.bestAction.isSome && n.solved

/-- `get_best_action`, iw.hh lines 179-186 and bfws.hh lines 245-251: what the address holds
now. -/
def bestAction [DecidableEq σ] (g : Graph σ α) (s : σ) : Except PyErr α :=
  match g.get? s with
  | none => .error .runtimeError
  | some n => match n.bestAction with
    | none => .error .runtimeError
    | some child => match (node g child).bestParent with
      | none => .error .attributeError
      | some (_, a, _) => .ok a

/-- `get_best_value`, iw.hh lines 188-195 and bfws.hh lines 253-259; the inner `none` is
infinity. -/
def bestValue [DecidableEq σ] (g : Graph σ α) (s : σ) : Except PyErr (Option Rat) :=
  match g.get? s with
  | none => .error .runtimeError
  | some n => .ok n.fscore

/-! ### The priority queue of the C++ library -/

/-- What the solvers need of `std::priority_queue`, given the comparison *now* (the queue stores
pointers, and the nodes are read through them): `worse a b` says that `b` goes before `a`. -/
structure Queue (σ : Type) where
  push : (σ → σ → Bool) → List σ → σ → List σ
  pop : (σ → σ → Bool) → List σ → Option (σ × List σ)

/-- `std::__push_heap` (libstdc++ bits/stl_heap.h). -/
def siftUp (worse : σ → σ → Bool) (x : σ) : Nat → Nat → List σ → List σ
  | fuel, i, l =>
    match fuel with
    | 0 => l.set i x
    | fuel + 1 =>
      if i = 0 then l.set i x
      else
        match l[(i - 1) / 2]? with
        | none => l.set i x
        | some par => if worse par x then siftUp worse x fuel ((i - 1) / 2) (l.set i par) else l.set i x

/-- The first half of `std::__adjust_heap`: the hole moves to the bottom. -/
def siftHole (worse : σ → σ → Bool) : Nat → Nat → List σ → Nat × List σ
  | 0, i, l => (i, l)
  | fuel + 1, i, l =>
    match l[2 * i + 1]?, l[2 * i + 2]? with
    | some a, some b => if worse b a then siftHole worse fuel (2 * i + 1) (l.set i a)
        else siftHole worse fuel (2 * i + 2) (l.set i b)
    | some a, none => (2 * i + 1, l.set i a)
    | none, _ => (i, l)

/-- `std::priority_queue` on `std::vector`. -/
def heap : Queue σ where
  push worse l x := siftUp worse x (l.length + 1) l.length (l ++ [x])
  pop worse l :=
    match l with
    | [] => none
    | [x] => some (x, [])
    | x :: y :: rest =>
      let last := (y :: rest).getLast (by simp)
      let body := x :: (y :: rest).dropLast
      let r := siftHole worse body.length 0 body
      some (x, siftUp worse last r.2.length r.1 r.2)

end Verif.PlanGraph
