import Verif.Model.SchedRollout

/-!
The greedy policy for scheduling domains, skdecide/hub/solver/pile_policy/pile_policy.py.

The graph of the domain (precedence.py lines 41-52) has the tasks as nodes and an edge from each direct predecessor; `Dom.preds`
holds the direct predecessors.  The policy keeps its own copy of the domain (line 26); it is taken to be the same as the one played.
-/
namespace Verif.Sched

/-- networkx `descendants`, one level of the search: the tasks already found (`l`), and those with a direct predecessor among them. -/
def level (dom : Dom) (l : List TaskId) : List TaskId :=
  dom.tasks.filter fun y => decide (y ∈ l) || (dom.preds y).any fun x => decide (x ∈ l)

/-- networkx `descendants`: `k` levels from `l`. -/
def levels (dom : Dom) : Nat → List TaskId → List TaskId
  | 0, l => l
  | k + 1, l => levels dom k (level dom l)

/-- Lines 32-36: `successors[n]`, the tasks reached from `n` apart from `n` itself (as many levels as there are tasks reach all). -/
def descendants (dom : Dom) (n : TaskId) : List TaskId :=
  (levels dom dom.tasks.length (dom.tasks.filter fun y => decide (n ∈ dom.preds y))).filter fun y => decide (y ≠ n)

/-- pile_policy.py lines 12-16. -/
inductive Greedy where
  | mostSuccessors | sampleMostSuccessors | fastest | totallyRandom
  deriving DecidableEq, Repr

/-- What the policy draws in one call: the duration sampled for each task in mode 1 (line 77), the index drawn with the given
probabilities (lines 71-73) and the index drawn uniformly (line 79). -/
structure Luck where
  duration : TaskId → Int
  weighted : List Rat → Nat
  uniform : Nat → Nat

/-- The start of a task in mode 1 (lines 54-58 and 80-83). -/
def pileStart (x : TaskId) : Action := ⟨some x, .start, some 1, false, none⟩

/-- Lines 85-87: the time step (with mode 1, unlike the one of the action space). -/
def pileTime : Action := ⟨none, .timePr, some 1, true, none⟩

/-- Lines 51-59: the tasks that can be started in mode 1. -/
def startable (dom : Dom) (st : State) : List TaskId → Except PyErr (List TaskId)
  | [] => .ok []
  | x :: rest => do
    let r ← checkStart dom st (pileStart x)
    let l ← startable dom st rest
    return if r.1 then x :: l else l

/-- Python `max(l, key=f)` for `l = x :: rest`: the first one with the greatest key. -/
def firstMax (f : TaskId → Int) (x : TaskId) : List TaskId → TaskId
  | [] => x
  | y :: rest => if f x < f y then firstMax f y rest else firstMax f x rest

/-- Lines 65-70: the probabilities with which the tasks are drawn. -/
def probs (dom : Dom) (l : List TaskId) : List Rat :=
  let nb := l.map fun x => ((descendants dom x).length : Rat)
  if nb.sum ≠ 0 then nb.map (· / nb.sum) else l.map fun _ => 1 / (l.length : Rat)

/-- Lines 61-79: the choice among the tasks `x :: rest` that can start; a draw outside the list raises. -/
def choose (dom : Dom) (g : Greedy) (luck : Luck) (x : TaskId) (rest : List TaskId) : Except PyErr TaskId :=
  match g with
  | .mostSuccessors => .ok (firstMax (fun y => (descendants dom y).length) x rest)
  | .fastest => .ok (firstMax (fun y => - luck.duration y) x rest)
  | .sampleMostSuccessors => ((x :: rest)[luck.weighted (probs dom (x :: rest))]?).elim (.error .indexError) .ok
  | .totallyRandom => ((x :: rest)[luck.uniform (rest.length + 1)]?).elim (.error .indexError) .ok

/-- Lines 43-87, `_get_next_action`. -/
def pileNext (dom : Dom) (g : Greedy) (luck : Luck) (st : State) : Except PyErr Action := do
  match ← startable dom st (possiblePrecedence dom st) with
  | [] => return pileTime
  | x :: rest => do
    let y ← choose dom g luck x rest
    return pileStart y

/-- utils.py lines 174-204, `rollout` of the policy for `max_steps` steps, as `Policy.follow`; `luck` gives what the policy draws in
each state and `draw` what the domain draws. -/
def pileFollow (dom : Dom) (g : Greedy) (luck : State → Luck) (draw : State → Action → Draw) : Nat → State → Except PyErr State
  | 0, st => .ok st
  | n + 1, st => do
    let a ← pileNext dom g (luck st) st
    let st' ← nextState dom (draw st a) st a
    let b ← isTerminal dom st'
    if b then return st' else pileFollow dom g luck draw n st'

end Verif.Sched
