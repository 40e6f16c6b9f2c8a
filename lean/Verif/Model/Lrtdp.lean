import Verif.Model.Mdp

/-!
Model of the C++ solver /repo/cpp/src/hub/solver/lrtdp.hh (sequential execution policy, one
rollout at a time, no online garbage collection).

A pointer to a node is its state.  The action nodes below a state node hold what the domain
answers, which is the same each time, so they are not stored: `expand` just adds the missing
successor nodes.  Time checks and random draws are oracles.  Logging is left out.
-/
namespace Verif.Lrtdp

/-- lrtdp.hh lines 202-219, `StateNode`, without state and actions.  `best_value` is set as soon
as the node exists, so it is a number. -/
structure Node (α : Type) where
  value : Rat
  best : Option α := none
  goal : Bool := false
  solved : Bool := false
  deriving DecidableEq

/-- The parameters of the constructor (lines 41-64) and the oracles: `left k` tells whether the
`k`-th check finds time left, `draw k` is the `k`-th random index. -/
structure Config (σ : Type) where
  h : σ → Rat
  useLabels : Bool := true
  rollouts : Nat := 100000
  maxDepth : Nat := 1000
  discount : Rat := 1
  epsilon : Rat := 1/1000
  left : Nat → Bool := fun _ => true
  draw : Nat → Nat := fun _ => 0

/-- The graph, and how many time checks and random draws were made. -/
structure St (σ α : Type) where
  graph : Dict σ (Node α) := []
  clock : Nat := 0
  draws : Nat := 0

/-- The value a pointer to the state's node leads to; such a node always exists. -/
def value [DecidableEq σ] (g : Dict σ (Node α)) (s : σ) : Rat := ((g.get? s).map Node.value).getD 0

def isSolved [DecidableEq σ] (g : Dict σ (Node α)) (s : σ) : Bool := ((g.get? s).map Node.solved).getD false

/-- The node `s` changed by `f`. -/
def modify [DecidableEq σ] (g : Dict σ (Node α)) (s : σ) (f : Node α → Node α) : Dict σ (Node α) :=
  match g.get? s with
  | none => g
  | some n => g.set s (f n)

/-- lrtdp.hh lines 259-282: a successor, new or not. -/
def addNode [DecidableEq σ] (m : Mdp σ α) (c : Config σ) (g : Dict σ (Node α)) (s : σ) : Dict σ (Node α) :=
  if g.contains s then g
  else if m.goal s then g.set s { value := 0, goal := true, solved := true }
  else g.set s { value := c.h s }

/-- lrtdp.hh lines 248-286, `expand`. -/
def expand [DecidableEq σ] (m : Mdp σ α) (c : Config σ) (g : Dict σ (Node α)) (s : σ) : Dict σ (Node α) :=
  (m.actions s).foldl (fun g a => (m.outcomes s a).foldl (fun g o => addNode m c g o.2.2) g) g

/-- lrtdp.hh lines 288-321, `q_value` and `greedy_action`. -/
def greedyAction [DecidableEq σ] (m : Mdp σ α) (c : Config σ) (g : Dict σ (Node α)) (s : σ) : Option (α × Rat) :=
  Mdp.greedy (fun a => m.q c.discount (value g) s a) (m.actions s)

/-- lrtdp.hh lines 323-328, `update`.  A null best action is dereferenced (`attributeError`). -/
def update [DecidableEq σ] (m : Mdp σ α) (c : Config σ) (st : St σ α) (s : σ) : Except PyErr (St σ α) :=
  let g := expand m c st.graph s
  match greedyAction m c g s with
  | none => .error .attributeError
  | some (a, v) => .ok { st with graph := modify g s fun n => { n with best := some a, value := v } }

/-- lrtdp.hh lines 341-348, `residual`: the best action is stored, the value is not. -/
def residual [DecidableEq σ] (m : Mdp σ α) (c : Config σ) (st : St σ α) (s : σ) : Except PyErr (α × Rat × St σ α) :=
  let g := expand m c st.graph s
  match greedyAction m c g s with
  | none => .error .attributeError
  | some (a, v) =>
    let d := value g s - v
    .ok (a, if d < 0 then -d else d, { st with graph := modify g s fun n => { n with best := some a } })

/-- A check of the elapsed time. -/
def tick (c : Config σ) (st : St σ α) : Bool × St σ α := (c.left st.clock, { st with clock := st.clock + 1 })

/-- The variables of `check_solved`; the top of a stack is the head of the list. -/
structure Check (σ α : Type) where
  open_ : List σ
  closed : List σ
  visited : List σ
  rv : Bool
  st : St σ α

/-- lrtdp.hh lines 371-394, the loop of `check_solved`, `n` more rounds being allowed by the
maximal depth. -/
def checkLoop [DecidableEq σ] (m : Mdp σ α) (c : Config σ) : Nat → Check σ α → Except PyErr (Check σ α)
  | n, k =>
    match k.open_ with
    | [] => .ok k
    | cs :: rest =>
      let (left, st) := tick c k.st
      if !left then .ok { k with st := st }
      else match n with
        | 0 => .ok { k with st := st }
        | n + 1 => do
          let (a, res, st) ← residual m c st cs
          let k := { k with open_ := rest, closed := cs :: k.closed, visited := cs :: k.visited, st := st }
          if c.epsilon < res then checkLoop m c n { k with rv := false }
          else checkLoop m c n { k with
            open_ := (m.outcomes cs a).foldl (fun op o =>
              if !isSolved st.graph o.2.2 && !decide (o.2.2 ∈ k.visited) then o.2.2 :: op else op) rest }

/-- lrtdp.hh lines 400-404: every closed state is labelled. -/
def labelAll [DecidableEq σ] (g : Dict σ (Node α)) (closed : List σ) : Dict σ (Node α) :=
  closed.foldl (fun g s => modify g s fun n => { n with solved := true }) g

/-- lrtdp.hh lines 405-412: the closed states are updated while there is time. -/
def updateAll [DecidableEq σ] (m : Mdp σ α) (c : Config σ) : List σ → St σ α → Except PyErr (St σ α)
  | [], st => .ok st
  | s :: closed, st =>
    let (left, st) := tick c st
    if left then do
      let st ← update m c st s
      updateAll m c closed st
    else .ok st

/-- lrtdp.hh lines 350-422, `check_solved`. -/
def checkSolved [DecidableEq σ] (m : Mdp σ α) (c : Config σ) (st : St σ α) (s : σ) : Except PyErr (Bool × St σ α) := do
  let first := !isSolved st.graph s
  let k ← checkLoop m c c.maxDepth
    { open_ := if first then [s] else [], closed := [], visited := if first then [s] else [], rv := true, st := st }
  let (left, st) := tick c k.st
  let rv := k.rv && (left || k.open_.isEmpty)
  if rv then return (true, { st with graph := labelAll st.graph k.closed })
  else
    let st ← updateAll m c k.closed st
    return (false, st)

/-- lrtdp.hh lines 330-339, `pick_next_state` (an empty list of outcomes is read out of range). -/
def pickNext (m : Mdp σ α) (c : Config σ) (st : St σ α) (s : σ) (a : α) : Except PyErr (σ × St σ α) :=
  match (m.outcomes s a)[c.draw st.draws % (m.outcomes s a).length]? with
  | none => .error .indexError
  | some o => .ok (o.2.2, { st with draws := st.draws + 1 })

/-- lrtdp.hh lines 427-448, the first loop of `trial`; the result is the stack of visited states. -/
def trialLoop [DecidableEq σ] (m : Mdp σ α) (c : Config σ) :
    Nat → σ → Bool → List σ → St σ α → Except PyErr (List σ × St σ α)
  | n, cs, found, visited, st =>
    if (!c.useLabels || !isSolved st.graph cs) && !found then
      let (left, st) := tick c st
      if !left then .ok (visited, st)
      else match n with
        | 0 => .ok (visited, st)
        | n + 1 => do
          let found := ((st.graph.get? cs).map Node.goal).getD false
          let st ← update m c st cs
          match (st.graph.get? cs).bind Node.best with
          | none => .error .attributeError
          | some a =>
            let (ns, st) ← pickNext m c st cs a
            trialLoop m c n ns found (cs :: visited) st
    else .ok (visited, st)

/-- lrtdp.hh lines 450-457, the second loop of `trial` (only with labels). -/
def labelLoop [DecidableEq σ] (m : Mdp σ α) (c : Config σ) : List σ → St σ α → Except PyErr (St σ α)
  | [], st => .ok st
  | s :: visited, st =>
    let (left, st) := tick c st
    if !left then .ok st
    else do
      let (solved, st) ← checkSolved m c st s
      if solved then labelLoop m c visited st else return st

/-- lrtdp.hh lines 424-458, `trial`. -/
def trial [DecidableEq σ] (m : Mdp σ α) (c : Config σ) (st : St σ α) (s : σ) : Except PyErr (St σ α) := do
  let (visited, st) ← trialLoop m c c.maxDepth s false [] st
  if c.useLabels then labelLoop m c visited st else return st

/-- lrtdp.hh lines 96-102: the rollouts. -/
def rolloutLoop [DecidableEq σ] (m : Mdp σ α) (c : Config σ) (s : σ) : Nat → St σ α → Except PyErr (St σ α)
  | n, st =>
    if !c.useLabels || !isSolved st.graph s then
      let (left, st) := tick c st
      if !left then .ok st
      else match n with
        | 0 => .ok st
        | n + 1 => do
          let st ← trial m c st s
          rolloutLoop m c s n st
    else .ok st

/-- lrtdp.hh lines 73-115, `solve(s)`. -/
def solve [DecidableEq σ] (m : Mdp σ α) (c : Config σ) (st : St σ α) (s : σ) : Except PyErr (St σ α) :=
  let st := if st.graph.contains s then st else { st with graph := st.graph.set s { value := c.h s } }
  if isSolved st.graph s || m.goal s then .ok st
  else rolloutLoop m c s c.rollouts st

/-- lrtdp.hh lines 127-149, `get_best_action`. -/
def bestAction [DecidableEq σ] (st : St σ α) (s : σ) : Except PyErr α :=
  match (st.graph.get? s).bind Node.best with
  | none => .error .runtimeError
  | some a => .ok a

/-- lrtdp.hh lines 151-157, `get_best_value`. -/
def bestValue [DecidableEq σ] (st : St σ α) (s : σ) : Except PyErr Rat :=
  match st.graph.get? s with
  | none => .error .runtimeError
  | some n => .ok n.value

end Verif.Lrtdp
