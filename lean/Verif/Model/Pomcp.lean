import Verif.Model.Py
import Mathlib.Algebra.Order.Ring.Rat

/-!
Model of the partially observable Monte Carlo planner (skdecide/hub/solver/pomcp/pomcp.py).

Simplifications: floats are rationals; every answer of a random generator is a parameter indexed by a running
number `k` of the draw; the root and the logarithm of the UCT formula are a parameter `bonus`; a node keeps its
count and its average, not the list of states that nothing reads; `random.choices` is that of Python 3.9 and
later, which raises a ValueError when the weights add up to zero (older versions return the last element).
-/
namespace Verif.Pomcp

/-- The domain, the options of the solver (26-29) and the random draws.  `next k s a` and `observe k s a` are
the `k`-th draw when it is made from the distributions of the next state and of the observation;
`randomAction k s` is the draw from the applicable actions; `unit k` is a draw of `random.random()`;
`bonus n m` is `math.sqrt(math.log(n) / m)` of line 121. -/
structure Problem (σ Act Obs : Type) where
  actions : List Act
  applicable : σ → List Act
  next : Nat → σ → Option Act → σ
  cost : σ → Act → σ → Rat
  observe : Nat → σ → Option Act → Obs
  goal : Obs → Bool
  randomAction : Nat → σ → Act
  unit : Nat → Rat
  bonus : Nat → Nat → Rat
  maxIterations : Nat
  maxDepth : Nat

/-- A node of the tree: visit count and average cost (116). -/
structure Node where
  visits : Nat
  value : Rat
  deriving DecidableEq

/-- The keys of the tree: the actions and the observations so far. -/
abbrev Key (Act Obs : Type) := List (Option Act) × List Obs

/-- The tree, and the number of random draws made so far. -/
structure St (Act Obs : Type) where
  tree : Dict (Key Act Obs) Node
  draw : Nat

variable {σ Act Obs : Type} [DecidableEq Act] [DecidableEq Obs]

instance : DecidableEq (St Act Obs) := fun a b =>
  decidable_of_iff (a.tree = b.tree ∧ a.draw = b.draw) (by cases a; cases b; simp)

/-- `_VLV` (42). -/
def Problem.vlv (p : Problem σ Act Obs) : Rat := 2 * (p.maxDepth : Rat)

/-- One turn of the loop of `_get_best_action` (112-126); `score` is what is computed in 117-123. -/
def pickStep (t : Dict (Key Act Obs) Node) (h : List (Option Act)) (o : List Obs) (score : Node → Rat)
    (b : Option Act × Rat) (a : Act) : Option Act × Rat :=
  match t.get? (h ++ [some a], o) with
  | none => b
  | some nd => if score nd < b.2 then (some a, score nd) else b

/-- `_get_best_action` (102-127). -/
def Problem.best (p : Problem σ Act Obs) (t : Dict (Key Act Obs) Node) (h : List (Option Act)) (o : List Obs)
    (score : Node → Rat) : Option Act :=
  (p.actions.foldl (pickStep t h o score) (none, p.vlv)).1

/-- The score of lines 117-123 with the weight `w = max_depth` (149), for a parent visited `n` times. -/
def Problem.uct (p : Problem σ Act Obs) (n : Nat) (nd : Node) : Rat :=
  if p.maxDepth = 0 then nd.value
  else if nd.visits = 0 then -p.vlv
  else nd.value - (p.maxDepth : Rat) * p.bonus n nd.visits

/-- `_rollout` (169-182); `left` is `max_depth + 1 - depth`.  The next state is drawn before the observation. -/
def Problem.rollout (p : Problem σ Act Obs) : Nat → σ → Nat → Rat × Nat
  | 0, _, k => (p.vlv, k)
  | left + 1, s, k =>
    let a := p.randomAction k s
    let s' := p.next (k + 1) s (some a)
    let c := p.cost s a s'
    if p.goal (p.observe (k + 2) s (some a)) then (c, k + 3)
    else
      let r := p.rollout left s' (k + 3)
      (min (c + r.1) p.vlv, r.2)

/-- The new children of a node (140-142). -/
def Problem.children (p : Problem σ Act Obs) (s : σ) (h : List (Option Act)) (o : List Obs)
    (t : Dict (Key Act Obs) Node) : Dict (Key Act Obs) Node :=
  (p.applicable s).foldl (fun t a => t.set (h ++ [some a], o) ⟨0, 0⟩) t

/-- Lines 160-166: the averages and counts after a simulation of cost `x`. -/
def record (h : List (Option Act)) (o : List Obs) (a : Act) (x : Rat) (st : St Act Obs) :
    Except PyErr (Rat × St Act Obs) :=
  match st.tree.get? (h, o), st.tree.get? (h ++ [some a], o) with
  | some this, some succ =>
    .ok (x, ⟨(st.tree.set (h, o) ⟨this.visits + 1, this.value⟩).set (h ++ [some a], o)
      ⟨succ.visits + 1, (succ.value * succ.visits + x) / (succ.visits + 1)⟩, st.draw⟩)
  | _, _ => .error .keyError

/-- `_tree_search` (129-167); `left` is `max_depth + 1 - depth`. -/
def Problem.search (p : Problem σ Act Obs) : Nat → σ → List (Option Act) → List Obs → St Act Obs →
    Except PyErr (Rat × St Act Obs)
  | left, s, h, o, st =>
    if h.length ≠ o.length then .error .assertionError
    else match left with
    | 0 => .ok (p.vlv, st)
    | left + 1 =>
      match st.tree.get? (h, o) with
      | none =>
        let r := p.rollout (left + 1) s st.draw
        .ok (r.1, ⟨(p.children s h o st.tree).set (h, o) ⟨1, r.1⟩, r.2⟩)
      | some this =>
        match p.best st.tree h o (p.uct this.visits) with
        | none => .error .assertionError
        | some a =>
          let s' := p.next st.draw s (some a)
          let c := p.cost s a s'
          let b := p.observe (st.draw + 1) s (some a)
          if p.goal b then record h o a c ⟨st.tree, st.draw + 2⟩
          else
            match p.search left s' (h ++ [some a]) (o ++ [b]) ⟨st.tree, st.draw + 2⟩ with
            | .error e => .error e
            | .ok (x, st') => record h o a (min (c + x) p.vlv) st'

/-- `random.choice(belief)` (72) with a draw of `random.random()`. -/
def choice (belief : List σ) (u : Rat) : Except PyErr σ :=
  match belief[(u * belief.length).floor.toNat]? with
  | some s => .ok s
  | none => .error .indexError

/-- The loop of lines 69-74. -/
def Problem.iterate (p : Problem σ Act Obs) (belief : List σ) (h : List (Option Act)) (o : List Obs) :
    Nat → St Act Obs → Except PyErr (St Act Obs)
  | 0, st => .ok st
  | m + 1, st => do
    let s ← choice belief (p.unit st.draw)
    let r ← p.search (p.maxDepth + 1) s h o ⟨st.tree, st.draw + 1⟩
    p.iterate belief h o m r.2

/-- `get_probability` (189-202) times its 100 samples. -/
def Problem.freq (p : Problem σ Act Obs) (k : Nat) (s : σ) (a : Option Act) (b : Obs) : Nat :=
  (List.range 100).countP (fun i => p.observe (k + i) s a = b)

/-- The weights of lines 87-90. -/
def Problem.weights (p : Problem σ Act Obs) (a : Option Act) (b : Obs) : List σ → Nat → List (σ × Nat)
  | [], _ => []
  | s :: l, k => (s, p.freq k s a b) :: p.weights a b l (k + 100)

/-- What `random.choices` takes for the draw `x = random() * total`: the first element whose cumulative weight
exceeds `x`, at the latest the last one. -/
def draw (x : Rat) : List (σ × Nat) → Option σ
  | [] => none
  | [(s, _)] => some s
  | (s, w) :: q :: l => if x < w then some s else draw (x - w) (q :: l)

/-- `_filter_belief_state` (86-92). -/
def Problem.filterBelief (p : Problem σ Act Obs) (belief : List σ) (a : Option Act) (b : Obs) (k : Nat) :
    Except PyErr (List σ × Nat) :=
  let ws := p.weights a b belief k
  let total := (ws.map (·.2)).sum
  let k' := k + 100 * belief.length
  if belief.length = 0 then .error .indexError
  else if total = 0 then .error .valueError
  else .ok ((List.range belief.length).filterMap (fun j => draw (p.unit (k' + j) * total) ws), k' + belief.length)

/-- `_update_belief_state` (94-100). -/
def Problem.updateBelief (p : Problem σ Act Obs) (a : Option Act) : List σ → Nat → List σ
  | [], _ => []
  | s :: l, k => p.next k s a :: p.updateBelief a l (k + 1)

/-- The solver between two calls (31-42): belief, histories, tree, draws. -/
structure Solver (σ Act Obs : Type) where
  belief : List σ
  acts : List (Option Act)
  obs : List Obs
  st : St Act Obs

/-- `_reset` (31-42) with the initial belief of `_solve_domain` (44-50). -/
def Solver.reset (belief : List σ) (k : Nat) : Solver σ Act Obs := ⟨belief, [none], [], ⟨[], k⟩⟩

/-- `_get_next_action` (52-81). -/
def Problem.nextAction (p : Problem σ Act Obs) (b : Obs) (z : Solver σ Act Obs) :
    Except PyErr (Option Act × Solver σ Act Obs) := do
  let last := (z.acts.getLast?).join
  let (belief, k) ← p.filterBelief z.belief last b z.st.draw
  let obs := z.obs ++ [b]
  let belief := p.updateBelief last belief k
  let st ← p.iterate belief z.acts obs p.maxIterations ⟨z.st.tree, k + belief.length⟩
  let a := p.best st.tree z.acts obs (·.value)
  return (a, ⟨belief, z.acts ++ [a], obs, st⟩)

/-- Several calls. -/
def Problem.run (p : Problem σ Act Obs) : List Obs → Solver σ Act Obs → Except PyErr (Solver σ Act Obs)
  | [], z => .ok z
  | b :: bs, z => do
    let r ← p.nextAction b z
    p.run bs r.2

end Verif.Pomcp
