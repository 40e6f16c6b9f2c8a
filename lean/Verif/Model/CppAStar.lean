import Verif.Model.Py
import Verif.Model.Search

/-!
Model of the C++ solver /repo/cpp/src/hub/solver/astar.hh (sequential execution policy).

Costs and heuristics are exact rationals; `none` is `infinity`.  The callbacks into the domain
do not raise.  Nodes are identified by their state (the graph is a set keyed by the state), so a
pointer to a node is its state here.  Logging and timing are left out.
-/
namespace Verif.CppAStar
open Verif.Search (Problem)

/-- astar.hh lines 188-206, `Node`, without the state (the key). -/
structure Node (σ α : Type) where
  gscore : Option Rat := none
  fscore : Option Rat := none
  /-- `best_parent`, default constructed (so a null pointer) at first -/
  bestParent : Option (σ × α × Rat) := none
  /-- `best_action` is the *address* of the action inside `best_parent` of the next node on the
  path (line 96), so it is that node here -/
  bestAction : Option σ := none
  solved : Bool := false
  deriving DecidableEq

/-- astar.hh lines 214-215, `_graph`. -/
abbrev Graph (σ α : Type) := Dict σ (Node σ α)

/-- `x < y` on doubles, `none` being infinity. -/
def less : Option Rat → Option Rat → Bool
  | some a, some b => decide (a < b)
  | some _, none => true
  | none, _ => false

/-- `x + y` on doubles, one summand possibly infinite. -/
def plus : Option Rat → Rat → Option Rat
  | some a, b => some (a + b)
  | none, _ => none

/-- A node of the graph; the code only follows pointers to existing nodes. -/
def node [DecidableEq σ] (g : Graph σ α) (s : σ) : Node σ α := (g.get? s).getD {}

/-- What the solver needs of `std::priority_queue`: given the keys *now* (the queue stores
pointers, the keys are read through them), `push`, and `pop` giving the top and the rest. -/
structure Queue (σ : Type) where
  push : (σ → Option Rat) → List σ → σ → List σ
  pop : (σ → Option Rat) → List σ → Option (σ × List σ)

/-- The variables of `solve`: graph, `open_queue`, `closed_set`. -/
structure St (σ α : Type) where
  graph : Graph σ α
  queue : List σ
  closed : List σ

/-- The comparison key of lines 208-212, `NodeCompare`. -/
def key [DecidableEq σ] (g : Graph σ α) (s : σ) : Option Rat := (node g s).fscore

/-- astar.hh lines 112-146: one applicable action of the node `cur` being expanded. -/
def tryAction [DecidableEq σ] (p : Problem σ α) (h : σ → Rat) (Q : Queue σ) (cur : σ)
    (st : St σ α) (a : α) : St σ α :=
  let n := p.next cur a
  let isNew := !st.graph.contains n
  let graph := if isNew then st.graph.set n {} else st.graph
  let st := { st with graph := graph }
  if n ∈ st.closed then st
  else
    let c := p.cost cur a n
    let tentative := plus (node st.graph cur).gscore c
    let nd := node st.graph n
    if isNew || less tentative nd.gscore then
      let graph := st.graph.set n
        { nd with gscore := tentative, fscore := plus tentative (h n), bestParent := some (cur, a, c) }
      { st with graph := graph, queue := Q.push (key graph) st.queue n }
    else st

/-- astar.hh lines 108-147: closing and expanding the best tip node. -/
def expand [DecidableEq σ] (p : Problem σ α) (h : σ → Rat) (Q : Queue σ) (cur : σ) (st : St σ α) : St σ α :=
  (p.actions cur).foldl (tryAction p h Q cur) { st with closed := cur :: st.closed }

/-- astar.hh lines 94-100: back from the goal to the root, `fuel` steps at most
(`runtimeError` when they do not suffice; a null parent is a crash, `attributeError`). -/
def walk [DecidableEq σ] (root : σ) : Nat → σ → Graph σ α → Except PyErr (Graph σ α)
  | fuel, cur, g =>
    if cur = root then .ok g
    else match fuel with
      | 0 => .error .runtimeError
      | fuel + 1 =>
        match (node g cur).bestParent with
        | none => .error .attributeError
        | some (par, _, c) =>
          walk root fuel par (g.set par
            { node g par with
              bestAction := some cur
              fscore := plus (node g cur).fscore c
              solved := true })

/-- astar.hh lines 74-149: the main loop, at most `fuel` pops (`runtimeError` when they do not
suffice).  The result says whether a goal (or solved node) was reached. -/
def loop [DecidableEq σ] (p : Problem σ α) (h : σ → Rat) (Q : Queue σ) (root : σ) :
    Nat → St σ α → Except PyErr (Bool × Graph σ α)
  | 0, _ => .error .runtimeError
  | fuel + 1, st =>
    match Q.pop (key st.graph) st.queue with
    | none => .ok (false, st.graph)
    | some (cur, q) =>
      let st := { st with queue := q }
      if cur ∈ st.closed then loop p h Q root fuel st
      else if p.goal cur || (node st.graph cur).solved then do
        let nd := node st.graph cur
        let g := if nd.solved then st.graph else st.graph.set cur { nd with fscore := some 0 }
        let g ← walk root st.graph.length cur g
        return (true, g)
      else loop p h Q root fuel (expand p h Q cur st)

/-- astar.hh lines 53-154, `solve(s)` on the graph left by earlier calls (`[]` after `clear`). -/
def solve [DecidableEq σ] (p : Problem σ α) (h : σ → Rat) (Q : Queue σ) (graph : Graph σ α) (s : σ)
    (fuel : Nat) : Except PyErr (Bool × Graph σ α) :=
  let graph := if graph.contains s then graph else graph.set s {}
  if (node graph s).solved || p.goal s then .ok (true, graph)
  else
    let graph := graph.set s { node graph s with gscore := some 0, fscore := some (h s) }
    loop p h Q s fuel { graph := graph, queue := Q.push (key graph) [] s, closed := [] }

/-- astar.hh lines 156-163. -/
def isSolutionDefined [DecidableEq σ] (g : Graph σ α) (s : σ) : Bool :=
  match g.get? s with
  | none => false
  | some n => n.bestAction.isSome && n.solved

/-- astar.hh lines 165-171, `get_best_action`: what the address holds *now*. -/
def bestAction [DecidableEq σ] (g : Graph σ α) (s : σ) : Except PyErr α :=
  match g.get? s with
  | none => .error .runtimeError
  | some n => match n.bestAction with
    | none => .error .runtimeError
    | some child => match (node g child).bestParent with
      | none => .error .attributeError
      | some (_, a, _) => .ok a

/-- astar.hh lines 173-179, `get_best_value`; the inner `none` is infinity. -/
def bestValue [DecidableEq σ] (g : Graph σ α) (s : σ) : Except PyErr (Option Rat) :=
  match g.get? s with
  | none => .error .runtimeError
  | some n => .ok n.fscore

/-! ### The heap of the C++ library -/

/-- `std::__push_heap` (libstdc++ bits/stl_heap.h): the value `x` moves up from the hole `i` as
long as the parent is larger. -/
def siftUp (k : σ → Option Rat) (x : σ) : Nat → Nat → List σ → List σ
  | fuel, i, l =>
    match fuel with
    | 0 => l.set i x
    | fuel + 1 =>
      if i = 0 then l.set i x
      else
        match l[(i - 1) / 2]? with
        | none => l.set i x
        | some par => if less (k x) (k par) then siftUp k x fuel ((i - 1) / 2) (l.set i par) else l.set i x

/-- The first half of `std::__adjust_heap`: the hole `i` of a heap of length `n` moves to the
bottom, each time to the smaller child (the right one when equal). -/
def siftHole (k : σ → Option Rat) : Nat → Nat → List σ → Nat × List σ
  | 0, i, l => (i, l)
  | fuel + 1, i, l =>
    match l[2 * i + 1]?, l[2 * i + 2]? with
    | some a, some b => if less (k a) (k b) then siftHole k fuel (2 * i + 1) (l.set i a)
        else siftHole k fuel (2 * i + 2) (l.set i b)
    | some a, none => (2 * i + 1, l.set i a)
    | none, _ => (i, l)

/-- `std::priority_queue` on `std::vector` with `NodeCompare`: `push_back` + `push_heap`, and
`pop_heap` + `pop_back`. -/
def heap : Queue σ where
  push k l x := siftUp k x (l.length + 1) l.length (l ++ [x])
  pop k l :=
    match l with
    | [] => none
    | [x] => some (x, [])
    | x :: y :: rest =>
      let last := (y :: rest).getLast (by simp)
      let body := x :: (y :: rest).dropLast
      let r := siftHole k body.length 0 body
      some (x, siftUp k last r.2.length r.1 r.2)

end Verif.CppAStar
