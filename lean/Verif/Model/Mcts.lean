import Verif.Model.Py
import Mathlib.Algebra.Order.Field.Basic

/-!
Model of the C++ Monte Carlo tree search (cpp/src/hub/solver/mcts.hh) with its default options, that is UCT:
`SequentialExecution`, `DistributionTransitionMode` (108-133), `DefaultTreePolicy` (138-194), `FullExpand`
(205-430), `UCB1ActionSelector` (678-716), `BestQValueActionSelector` (721-747), `DefaultRolloutPolicy`
(752-813), `GraphBackup` (818-861), `MCTSSolver` (902-1112).

Simplifications: numbers are those of an ordered field; the random generator and the iteration orders of the
unordered sets are parameters; a distribution lists every next state once, all with positive probability, so
that of the probabilities only the choice remains; actions are listed once; the reward kept with an outcome is
that of the domain; the elapsed time is not modelled (the number of rollouts is a parameter); no garbage
collection of nodes (`online_node_garbage` false), so that pointers stay valid; logs are left out.
-/
namespace Verif.Mcts

/-- The domain and the parameters of the solver.  `bonus n m` is the second summand of line 696 for a node
visited `n` times and an action visited `m` times; `draws` are the answers of the random generator; `order` and
`orderP` are the iteration orders of a frontier and of a set of parents. -/
structure Problem (σ Act F : Type) where
  actions : σ → List Act
  dist : σ → Act → List σ
  reward : σ → Act → σ → F
  terminal : σ → Bool
  heuristic : σ → F × Nat
  maxDepth : Nat
  discount : F
  bonus : Nat → Nat → F
  draws : Nat → Nat
  order : List σ → List σ
  orderP : List (σ × Act) → List (σ × Act)

/-- `ActionNode` (927-951). -/
structure ANode (σ F : Type) where
  outcomes : List σ
  value : F
  visits : Nat
  deriving DecidableEq

/-- `StateNode` (953-977); its action nodes are kept in a table of their own. -/
structure Node (σ Act F : Type) where
  terminal : Bool
  expanded : Bool
  actions : List Act
  value : F
  visits : Nat
  parents : List (σ × Act)
  deriving DecidableEq

/-- `_graph`, and how often the random generator has been asked. -/
structure St (σ Act F : Type) where
  graph : Dict σ (Node σ Act F)
  acts : Dict (σ × Act) (ANode σ F)
  draw : Nat
  deriving DecidableEq

variable {σ Act F : Type} [DecidableEq σ] [DecidableEq Act] [Field F] [LinearOrder F]

/-- A new solver. -/
def St.empty : St σ Act F := ⟨[], [], 0⟩

/-- The node of a state (that of a new node if there is none). -/
def St.node (st : St σ Act F) (s : σ) : Node σ Act F := (Dict.get? st.graph s).getD ⟨false, false, [], 0, 0, []⟩

/-- The node of an action (that of a new node if there is none). -/
def St.act (st : St σ Act F) (s : σ) (a : Act) : ANode σ F := (Dict.get? st.acts (s, a)).getD ⟨[], 0, 0⟩

def St.setNode (st : St σ Act F) (s : σ) (n : Node σ Act F) : St σ Act F := { st with graph := Dict.set st.graph s n }

def St.setAct (st : St σ Act F) (s : σ) (a : Act) (n : ANode σ F) : St σ Act F := { st with acts := Dict.set st.acts (s, a) n }

/-- `_graph.emplace(s)`: a new node unless there is one. -/
def St.emplace (st : St σ Act F) (s : σ) : St σ Act F := if Dict.contains st.graph s then st else st.setNode s ⟨false, false, [], 0, 0, []⟩

variable (p : Problem σ Act F)

/-- A random element. -/
def pick {α : Type} (k : Nat) : List α → Option α
  | [] => none
  | l => l[p.draws k % l.length]?

/-- Lines 237-253: the applicable actions, if not already done. -/
def generate (st : St σ Act F) (s : σ) : St σ Act F :=
  if (st.node s).actions = [] then st.setNode s { st.node s with actions := p.actions s } else st

/-- Lines 255-284: the actions without outcomes and the outcomes without visits. -/
def untried (st : St σ Act F) (s : σ) : List (Act × Option σ) :=
  (st.node s).actions.flatMap fun a =>
    if (st.act s a).outcomes = [] then [(a, none)]
    else ((st.act s a).outcomes.filter fun t => (st.node t).visits = 0).map fun t => (a, some t)

/-- Lines 337-386, one next state. -/
def addOutcome (s : σ) (a : Act) (st : St σ Act F) (t : σ) : St σ Act F :=
  if Dict.contains st.graph t then
    st.setNode t { st.node t with parents := if (s, a) ∈ (st.node t).parents then (st.node t).parents else (st.node t).parents ++ [(s, a)] }
  else st.setNode t ⟨p.terminal t, false, [], (p.heuristic t).1, (p.heuristic t).2, [(s, a)]⟩

/-- Lines 325-428, `expand_action`; the outcomes whose actions are not yet generated are preferred.  Without any
next state line 406 reads beyond the end of a vector. -/
def expandAction (st : St σ Act F) (s : σ) (a : Act) : Except PyErr (St σ Act F × σ) :=
  let st := (p.dist s a).foldl (addOutcome p s a) st
  let st := st.setAct s a { st.act s a with outcomes := p.dist s a }
  let fresh := (p.dist s a).filter fun t => (st.node t).actions = []
  match pick p st.draw (if fresh = [] then p.dist s a else fresh) with
  | none => .error .attributeError
  | some t => .ok ({ st with draw := st.draw + 1 }, t)

/-- Lines 219-321, `FullExpand`. -/
def expand (st : St σ Act F) (s : σ) : Except PyErr (St σ Act F × Option σ) :=
  if (st.node s).expanded then .ok (st, none)
  else
    let st := generate p st s
    match pick p st.draw (untried st s) with
    | none => .ok (st.setNode s { st.node s with expanded := true }, none)
    | some (a, none) => do
      let (st, t) ← expandAction p { st with draw := st.draw + 1 } s a
      .ok (st, some t)
    | some (_, some t) => .ok ({ st with draw := st.draw + 1 }, some t)

/-- The first visited action with the largest key (687-704, 727-739). -/
def best (key : Act → F) (visits : Act → Nat) : List Act → Option Act → Option Act
  | [], b => b
  | a :: l, b => best key visits l (if visits a > 0 ∧ b.all (fun b => key b < key a) then some a else b)

/-- `UCB1ActionSelector`. -/
def ucb (st : St σ Act F) (s : σ) : Option Act :=
  best (fun a => (st.act s a).value + p.bonus (st.node s).visits (st.act s a).visits) (fun a => (st.act s a).visits) (st.node s).actions none

/-- `BestQValueActionSelector`. -/
def bestQ (st : St σ Act F) (s : σ) : Option Act :=
  best (fun a => (st.act s a).value) (fun a => (st.act s a).visits) (st.node s).actions none

/-- Lines 154-185, `DefaultTreePolicy`, with `n` steps left to `max_depth`: the node reached and the steps left. -/
def treePolicy : Nat → St σ Act F → σ → Except PyErr (St σ Act F × σ × Nat)
  | 0, st, s => .ok (st, s, 0)
  | n + 1, st, s =>
    if (st.node s).terminal then .ok (st, s, n + 1)
    else do
      let (st, next) ← expand p st s
      match next with
      | some t => .ok (st, t, n)
      | none =>
        match ucb p st s with
        | none => .ok (st, s, n)
        | some a =>
          match pick p st.draw (st.act s a).outcomes with
          | none => .error .attributeError
          | some t => treePolicy n { st with draw := st.draw + 1 } t

/-- Lines 777-794: the discounted reward of a random walk with `n` steps left; `r` and `g` are `reward` and
`gamma_n`.  The policy raises if there is no applicable action. -/
def walk : Nat → Nat → σ → F → F → Except PyErr (F × Nat)
  | 0, k, _, r, _ => .ok (r, k)
  | n + 1, k, s, r, g =>
    match pick p k (p.actions s) with
    | none => .error .runtimeError
    | some a =>
      match pick p (k + 1) (p.dist s a) with
      | none => .error .runtimeError
      | some t =>
        let r := r + g * p.reward s a t
        if p.terminal t then .ok (r, k + 2) else walk n (k + 2) t r (g * p.discount)

/-- The mean with one value more. -/
def mean (visits : Nat) (value x : F) : F := ((visits : F) * value + x) / ((visits : F) + 1)

/-- Lines 764-812, `DefaultRolloutPolicy`. -/
def rollout (n : Nat) (st : St σ Act F) (s : σ) : Except PyErr (St σ Act F) := do
  let (r, k) ← walk p n st.draw s 0 1
  let st := { st with draw := k }
  .ok (st.setNode s { st.node s with value := mean (st.node s).visits (st.node s).value r, visits := (st.node s).visits + 1 })

/-- Lines 850-857, one parent action of `f`. -/
def backupParent (f : σ) (st : St σ Act F) (pa : σ × Act) : St σ Act F :=
  let q := p.reward pa.1 pa.2 f + p.discount * (st.node f).value
  let an := st.act pa.1 pa.2
  let v := mean an.visits an.value q
  let st := st.setAct pa.1 pa.2 { an with value := v, visits := an.visits + 1 }
  let n := st.node pa.1
  st.setNode pa.1 { n with value := mean n.visits n.value v, visits := n.visits + 1 }

/-- Lines 845-863, `update_frontier`. -/
def updateFrontier (x : St σ Act F × List σ) (f : σ) : St σ Act F × List σ :=
  (p.orderP (x.1.node f).parents).foldl (fun x pa => (backupParent p f x.1 pa, if pa.1 ∈ x.2 then x.2 else x.2 ++ [pa.1])) x

/-- Lines 819-843, `GraphBackup`, `n` rounds. -/
def backup : Nat → St σ Act F → List σ → St σ Act F
  | 0, st, _ => st
  | n + 1, st, frontier =>
    let x := (p.order frontier).foldl (updateFrontier p) (st, [])
    backup n x.1 x.2

/-- Lines 1040-1044: one rollout. -/
def iteration (st : St σ Act F) (root : σ) : Except PyErr (St σ Act F) := do
  let (st, s, n) ← treePolicy p p.maxDepth st root
  let st ← rollout p n st s
  .ok (backup p (p.maxDepth + 1) st [s])

def iterate (root : σ) : Nat → St σ Act F → Except PyErr (St σ Act F)
  | 0, st => .ok st
  | n + 1, st => do
    let st ← iteration p st root
    iterate root n st

/-- Lines 1024-1059, `solve`, with `n` rollouts. -/
def solve (st : St σ Act F) (root : σ) (n : Nat) : Except PyErr (St σ Act F) := iterate p root n (st.emplace root)

/-- Lines 1061-1068. -/
def isSolutionDefined (st : St σ Act F) (s : σ) : Bool := Dict.contains st.graph s && (bestQ st s).isSome

/-- Lines 1070-1098. -/
def bestAction (st : St σ Act F) (s : σ) : Except PyErr Act :=
  match if Dict.contains st.graph s then bestQ st s else none with
  | none => .error .runtimeError
  | some a => .ok a

/-- Lines 1100-1112. -/
def bestValue (st : St σ Act F) (s : σ) : Except PyErr F :=
  match if Dict.contains st.graph s then bestQ st s else none with
  | none => .error .runtimeError
  | some a => .ok (st.act s a).value

end Verif.Mcts
