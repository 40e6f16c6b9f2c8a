import Verif.Model.Mdp

/-!
Model of the C++ solver /repo/cpp/src/hub/solver/ilaostar.hh (sequential execution policy).

A pointer to a state node is its state; an action node is its action, because its outcomes are
what the domain answers, the same each time.  Loops that need not end take a number of rounds;
running out of them stops the run.  Logging is left out.
-/
namespace Verif.Ilao

/-- Why a run has no result: a loop was not finished within the rounds given, or an exception. -/
inductive Stop
  | unfinished
  | raised (e : PyErr)
  deriving DecidableEq

/-- ilaostar.hh lines 176-197, `StateNode`, without the state.  The action nodes are either all
there or none is, so `expanded` stands for them.  No value and no residual is infinity. -/
structure Node (α : Type) where
  expanded : Bool := false
  best : Option α := none
  value : Option Rat := none
  fpt : Rat := 0
  residual : Option Rat := none
  goal : Bool := false
  reach : Bool := true
  solved : Bool := false
  deriving DecidableEq

abbrev Graph (σ α : Type) := Dict σ (Node α)

/-- The parameters of the constructor (lines 37-50).  `arrange` is the order in which a set of
pointers is walked. -/
structure Config (σ : Type) where
  h : σ → Rat
  discount : Rat := 1
  epsilon : Rat := 1/1000
  arrange : List σ → List σ := id

/-- The node a pointer leads to; it always exists. -/
def node [DecidableEq σ] (g : Graph σ α) (s : σ) : Node α := (g.get? s).getD {}

/-- `actions.empty()`. -/
def isEmpty [DecidableEq σ] (m : Mdp σ α) (g : Graph σ α) (s : σ) : Bool := !(node g s).expanded || (m.actions s).isEmpty

/-- ilaostar.hh lines 224-243: a successor, new or not. -/
def addNode [DecidableEq σ] (m : Mdp σ α) (c : Config σ) (g : Graph σ α) (s : σ) : Graph σ α :=
  if g.contains s then g
  else if m.goal s then g.set s { value := some 0, goal := true, solved := true }
  else g.set s { value := some (c.h s) }

/-- ilaostar.hh lines 212-247, `expand`. -/
def expand [DecidableEq σ] (m : Mdp σ α) (c : Config σ) (g : Graph σ α) (s : σ) : Graph σ α :=
  let g := (m.actions s).foldl (fun g a => (m.outcomes s a).foldl (fun g o => addNode m c g o.2.2) g) g
  g.set s { node g s with expanded := true }

/-- The value of an action is finite if that of each outcome is (lines 329-331; a product of zero
and infinity compares like infinity). -/
def finite [DecidableEq σ] (m : Mdp σ α) (g : Graph σ α) (s : σ) (a : α) : Bool :=
  (m.outcomes s a).all fun o => (node g o.2.2).value.isSome

/-- `std::fabs(x - y)`; the difference of infinities, which is not a number and compares as not
larger than anything, is 0 here. -/
def distance : Option Rat → Option Rat → Option Rat
  | some x, some y => some (if x - y < 0 then y - x else x - y)
  | none, none => some 0
  | _, _ => none

/-- ilaostar.hh lines 321-343, `update`; the residual is read from the node afterwards. -/
def update [DecidableEq σ] (m : Mdp σ α) (c : Config σ) (g : Graph σ α) (s : σ) : Graph σ α :=
  let n := node g s
  let acts := if n.expanded then m.actions s else []
  let r := Mdp.greedy (fun a => m.q c.discount (fun t => (node g t).value.getD 0) s a) (acts.filter (finite m g s))
  g.set s { n with best := r.map (·.1), value := r.map (·.2), residual := distance (r.map (·.2)) n.value }

/-- ilaostar.hh lines 249-287, the loop of `depth_first_search`; the top of the stack is the head
of the list.  A null best action is dereferenced (`attributeError`). -/
def dfs [DecidableEq σ] (m : Mdp σ α) (c : Config σ) (root : σ) : Nat → List σ → List σ → Graph σ α → Except Stop (Graph σ α)
  | _, [], _, g => .ok g
  | 0, _ :: _, _, _ => .error .unfinished
  | n + 1, cs :: rest, visited, g =>
    if (node g cs).solved then dfs m c root n rest visited g
    else if (node g cs).goal then dfs m c root n rest visited (g.set cs { node g cs with value := some 0 })
    else if isEmpty m g cs then
      let g := g.set root { node g root with reach := true }
      dfs m c root n rest visited (update m c (expand m c g cs) cs)
    else if cs ∈ visited then dfs m c root n rest visited (update m c g cs)
    else match (node g cs).best with
      | none => .error (.raised .attributeError)
      | some a =>
        let visited := cs :: visited
        dfs m c root n ((m.outcomes cs a).foldl (fun op o => if o.2.2 ∈ visited then op else o.2.2 :: op) (cs :: rest)) visited g

/-- ilaostar.hh lines 81-83: searches until no tip is reached. -/
def dfsAll [DecidableEq σ] (m : Mdp σ α) (c : Config σ) (root : σ) (inner : Nat) : Nat → Graph σ α → Except Stop (Graph σ α)
  | n, g =>
    if (node g root).reach then
      match n with
      | 0 => .error .unfinished
      | n + 1 => do
        let g ← dfs m c root inner [root] [] (g.set root { node g root with reach := false })
        dfsAll m c root inner n g
    else .ok g

/-- ilaostar.hh lines 302-313: one outcome of the best action of a node on the frontier; the graph,
the best solution graph and the new frontier. -/
def visit [DecidableEq σ] (m : Mdp σ α) (r : Graph σ α × List σ × List σ) (t : σ) : Graph σ α × List σ × List σ :=
  let (g, best, nf) := r
  if (node g t).goal || (node g t).solved then (g.set t { node g t with reach := false }, best, nf)
  else if isEmpty m g t then (g.set t { node g t with reach := true }, best, nf)
  else if t ∈ best then r
  else (g.set t { node g t with reach := false }, best ++ [t], nf ++ [t])

/-- ilaostar.hh lines 299-315: the walk over a frontier. -/
def frontier [DecidableEq σ] (m : Mdp σ α) (r : Graph σ α × List σ × List σ) (fs : σ) : Graph σ α × List σ × List σ :=
  match (node r.1 fs).best with
  | none => r
  | some a => ((m.outcomes fs a).map fun o => o.2.2).foldl (visit m) r

/-- ilaostar.hh lines 289-319, the loop of `compute_best_solution_graph`. -/
def bestGraph [DecidableEq σ] (m : Mdp σ α) (c : Config σ) : Nat → List σ → List σ → Graph σ α → Except Stop (Graph σ α × List σ)
  | _, [], best, g => .ok (g, best)
  | 0, _ :: _, _, _ => .error .unfinished
  | n + 1, f :: fs, best, g =>
    let r := (c.arrange (f :: fs)).foldl (frontier m) (g, best, [])
    bestGraph m c n r.2.2 r.2.1 r.1

/-- `std::max(x, y)`. -/
def larger : Option Rat → Option Rat → Option Rat
  | some x, some y => some (if x < y then y else x)
  | _, _ => none

/-- `x > y`. -/
def exceeds : Option Rat → Rat → Bool
  | some x, y => decide (y < x)
  | none, _ => true

/-- ilaostar.hh lines 350-354: one sweep over the states, and the largest residual. -/
def sweep [DecidableEq σ] (m : Mdp σ α) (c : Config σ) (l : List σ) (g : Graph σ α) : Graph σ α × Option Rat :=
  l.foldl (fun r s => let g := update m c r.1 s; (g, larger r.2 (node g s).residual)) (g, some 0)

/-- ilaostar.hh lines 345-358, `value_iteration`. -/
def valueIteration [DecidableEq σ] (m : Mdp σ α) (c : Config σ) (l : List σ) : Nat → Graph σ α → Except Stop (Graph σ α)
  | 0, _ => .error .unfinished
  | n + 1, g =>
    let r := sweep m c l g
    if exceeds r.2 c.epsilon then valueIteration m c l n r.1 else .ok r.1

/-- ilaostar.hh lines 360-373, `update_reachability`; also whether something changed. -/
def updateReach [DecidableEq σ] (m : Mdp σ α) (g : Graph σ α) (s : σ) : Except Stop (Graph σ α × Bool) :=
  match (node g s).best with
  | none => .error (.raised .attributeError)
  | some a =>
    let r := (m.outcomes s a).any fun o => (node g o.2.2).reach
    .ok (g.set s { node g s with reach := r }, (node g s).reach != r)

/-- ilaostar.hh lines 380-383: one sweep. -/
def reachSweep [DecidableEq σ] (m : Mdp σ α) : List σ → Graph σ α → Bool → Except Stop (Graph σ α × Bool)
  | [], g, changes => .ok (g, changes)
  | s :: l, g, changes => do
    let (g, ch) ← updateReach m g s
    reachSweep m l g (ch || changes)

/-- ilaostar.hh lines 375-387, `compute_reachability`. -/
def reachability [DecidableEq σ] (m : Mdp σ α) (l : List σ) : Nat → Graph σ α → Except Stop (Graph σ α)
  | 0, _ => .error .unfinished
  | n + 1, g => do
    let (g, changes) ← reachSweep m l g false
    if changes then reachability m l n g else .ok g

/-- ilaostar.hh lines 389-402, `update_mfpt`; also the change. -/
def updateFpt [DecidableEq σ] (m : Mdp σ α) (g : Graph σ α) (s : σ) : Except Stop (Graph σ α × Rat) :=
  match (node g s).best with
  | none => .error (.raised .attributeError)
  | some a =>
    let t := ((m.outcomes s a).map fun o => o.1 * (1 + (node g o.2.2).fpt)).sum
    let d := t - (node g s).fpt
    .ok (g.set s { node g s with fpt := t }, if d < 0 then -d else d)

/-- ilaostar.hh lines 414-418: one sweep, and the largest change. -/
def fptSweep [DecidableEq σ] (m : Mdp σ α) : List σ → Graph σ α → Rat → Except Stop (Graph σ α × Rat)
  | [], g, res => .ok (g, res)
  | s :: l, g, res => do
    let (g, d) ← updateFpt m g s
    fptSweep m l g (if res < d then d else res)

/-- ilaostar.hh lines 404-422, `compute_mfpt`. -/
def passageTimes [DecidableEq σ] (m : Mdp σ α) (c : Config σ) (l : List σ) : Nat → Graph σ α → Except Stop (Graph σ α)
  | 0, _ => .error .unfinished
  | n + 1, g => do
    let (g, res) ← fptSweep m l g 0
    if c.epsilon < res then passageTimes m c l n g else .ok g

/-- ilaostar.hh lines 424-443, `update_solved_bits`.  An infinite residual makes no state solved
(the time is positive then). -/
def solvedBits [DecidableEq σ] (c : Config σ) (l : List σ) (g : Graph σ α) : Graph σ α :=
  l.foldl (fun g s => g.set s { node g s with
    solved := !(node g s).reach && match (node g s).residual with
      | some r => decide ((node g s).fpt * r < c.epsilon)
      | none => false }) g

/-- ilaostar.hh lines 80-100: one round of the main loop; `fuel` bounds the rounds of each inner
loop. -/
def round [DecidableEq σ] (m : Mdp σ α) (c : Config σ) (fuel : Nat) (root : σ) (g : Graph σ α) : Except Stop (Graph σ α) := do
  let g ← dfsAll m c root fuel fuel g
  let (g, best) ← bestGraph m c fuel [root] [root] g
  let g ← valueIteration m c (c.arrange best) fuel g
  let (g, best) ← bestGraph m c fuel [root] [root] g
  let g ← reachability m (c.arrange best) fuel g
  let g ← passageTimes m c (c.arrange best) fuel g
  return solvedBits c (c.arrange best) g

/-- ilaostar.hh lines 79-109, the main loop. -/
def rounds [DecidableEq σ] (m : Mdp σ α) (c : Config σ) (fuel : Nat) (root : σ) : Nat → Graph σ α → Except Stop (Graph σ α)
  | n, g =>
    if (node g root).solved then .ok g
    else match n with
      | 0 => .error .unfinished
      | n + 1 => do
        let g ← round m c fuel root g
        rounds m c fuel root n g

/-- ilaostar.hh lines 59-115, `solve(s)`, on the graph left by earlier calls (`[]` after
`clear`). -/
def solve [DecidableEq σ] (m : Mdp σ α) (c : Config σ) (fuel : Nat) (g : Graph σ α) (s : σ) : Except Stop (Graph σ α) :=
  let g := if g.contains s then g else g.set s { value := some (c.h s) }
  if (node g s).solved || m.goal s then .ok g
  else rounds m c fuel s fuel g

/-- ilaostar.hh lines 117-124, `is_solution_defined_for`. -/
def isSolutionDefined [DecidableEq σ] (g : Graph σ α) (s : σ) : Bool :=
  match g.get? s with
  | none => false
  | some n => n.best.isSome

/-- ilaostar.hh lines 126-132, `get_best_action`. -/
def bestAction [DecidableEq σ] (g : Graph σ α) (s : σ) : Except PyErr α :=
  match g.get? s with
  | none => .error .runtimeError
  | some n => match n.best with
    | none => .error .runtimeError
    | some a => .ok a

/-- ilaostar.hh lines 134-140, `get_best_value`; the inner `none` is infinity. -/
def bestValue [DecidableEq σ] (g : Graph σ α) (s : σ) : Except PyErr (Option Rat) :=
  match g.get? s with
  | none => .error .runtimeError
  | some n => .ok n.value

/-- ilaostar.hh lines 150-160, `policy`: the states with an action, the action and the value. -/
def policy (g : Graph σ α) : List (σ × α × Option Rat) :=
  g.filterMap fun e => e.2.best.map fun a => (e.1, a, e.2.value)

end Verif.Ilao
