import Verif.Model.Iw

/-!
Model of the C++ solver /repo/cpp/src/hub/solver/riw.hh (rollout IW), sequential execution policy.

A node is named by its position in the graph (the code uses pointers, which stay valid as nodes are
only added; `online_node_garbage` is off, its default).  `best_action` points to an action inside
`children` and is the position of that child here.  Unordered sets are lists that are iterated through
`Config.order`; random picks and clock readings are parameters.  Rewards are exact rationals; the
largest double as the first `_min_reward` and the lowest as the first `value` are `none`.
-/
namespace Verif.Riw
open Verif.Iw (Tuple tuplesOf)

/-- A deterministic domain as the rollouts see it (`progress` and `advance`, riw.hh lines 20-100: the
simulation policy samples from the state of the node, the environment policy from its own state, which is
the same one as the rollout starts at the root), with the state features. -/
structure Domain (σ α φ : Type) where
  actions : σ → List α
  next : σ → α → σ
  reward : σ → α → Rat
  terminal : σ → α → Bool
  features : σ → List φ

/-- The parameters of the constructor (riw.hh lines 156-185), the hashing policy `key`, and what the code does
not determine: `late k` says whether the `k`-th reading of the clock is past the budget, `pick k` is the
`k`-th random draw, `order` the iteration order of unordered sets. -/
structure Config (σ κ : Type) where
  key : σ → κ
  maxDepth : Nat := 1000
  discount : Rat := 1
  budget : Nat := 100000
  late : Nat → Bool := fun _ => false
  pick : Nat → Nat := fun _ => 0
  order : List Nat → List Nat := id

/-- riw.hh lines 350-390: a node; a child is an action, a reward and the node that was reached. -/
structure Node (σ α : Type) where
  state : σ
  children : List (α × Rat × Option Nat) := []
  parents : List Nat := []
  value : Option Rat := none
  depth : Nat
  novelty : Nat := 2 ^ 64 - 1
  best : Option Nat := none
  terminal : Bool := false
  pruned : Bool := false
  solved : Bool := false

abbrev Graph (σ α : Type) := List (Node σ α)

/-- riw.hh lines 395-396: the tuples seen so far with the least depth at which they were reached. -/
abbrev Table (φ : Type) := Dict (Tuple φ) Nat

/-- The variables of the solver and of the search of one width. -/
structure St (σ α φ : Type) where
  graph : Graph σ α := []
  minReward : Option Rat := none
  changed : Bool := false
  table : Table φ := []
  rollouts : Nat := 0
  statesPruned : Bool := false
  reachedEnd : Bool := false
  ticks : Nat := 0
  draws : Nat := 0

/-- `_graph.find` and the look-up of `_graph.emplace`. -/
def locate [DecidableEq κ] (key : σ → κ) (g : Graph σ α) (s : σ) : Option Nat :=
  g.findIdx? fun n => key n.state = key s

/-- Insertion into an unordered set. -/
def insertNew (l : List Nat) (x : Nat) : List Nat := if x ∈ l then l else l ++ [x]

/-! ### Novelty -/

/-- riw.hh lines 665-679: one tuple of size `k`. -/
def novStep [DecidableEq φ] (depth : Nat) (nn : Bool) (k : Nat) (r : Bool × Nat × Table φ) (t : Tuple φ) : Bool × Nat × Table φ :=
  match r.2.2.get? t with
  | none => (true, min r.2.1 k, r.2.2.set t depth)
  | some e => (r.1 || (nn && decide (depth < e)) || (!nn && decide (e = depth)), r.2.1, r.2.2.set t (min e depth))

/-- riw.hh lines 656-684, `novelty`; `generate_tuples` (lines 687-713) is the same as in iw.hh. -/
def novelty [DecidableEq φ] (width : Nat) (table : Table φ) (fs : List φ) (depth : Nat) (nn : Bool) : Bool × Nat × Table φ :=
  (List.range' 1 (min width fs.length)).foldl (fun r k => (tuplesOf fs k).foldl (novStep depth nn k) r) (false, fs.length + 1, table)

/-! ### Values -/

/-- Subtraction of `std::size_t`. -/
def sizeSub (a b : Nat) : Nat := if b ≤ a then a - b else 2 ^ 64 + a - b

/-- riw.hh lines 892-895: `k` times the least reward, discounted. -/
def repeated (γ m : Rat) : Nat → Rat
  | 0 => 0
  | k + 1 => m + γ * repeated γ m k

/-- riw.hh lines 891-896. -/
def pruneValue (c : Config σ κ) (minReward : Option Rat) (g : Graph σ α) (i : Nat) : Graph σ α :=
  g.modify i fun n => if n.pruned then { n with value := minReward.map fun m => repeated c.discount m (sizeSub c.maxDepth n.depth) } else n

/-- The solved bit and the value of node `m` while node `p` is given its value again: `acc` holds `p->solved`,
`p->value` and `p->best_action`, which a child that is the parent itself reads as they are then. -/
def childNow (g : Graph σ α) (p : Nat) (acc : Bool × Option Rat × Option Nat) (m : Nat) : Bool × Option Rat :=
  if m = p then (acc.1, acc.2.1) else
    match g[m]? with
    | none => (false, none)
    | some n => (n.solved, n.value)

/-- riw.hh lines 920-924: the child at position `k` with value `t` is compared with the best one so far. -/
def improve (acc : Option Rat × Option Nat) (t : Rat) (k : Nat) : Option Rat × Option Nat :=
  match acc.1 with
  | none => (some t, some k)
  | some w => if w < t then (some t, some k) else acc

/-- riw.hh lines 917-926: one child, at position `x.2`, of the parent `p`. -/
def weigh (γ : Rat) (g : Graph σ α) (p : Nat) (acc : Bool × Option Rat × Option Nat) (x : (α × Rat × Option Nat) × Nat) :
    Bool × Option Rat × Option Nat :=
  match x.1.2.2 with
  | none => (false, acc.2)
  | some m =>
    let now := childNow g p acc m
    match now.2 with
    | none => (acc.1 && now.1, acc.2)
    | some v => (acc.1 && now.1, improve acc.2 (x.1.2.1 + γ * v) x.2)

/-- riw.hh lines 914-926: a parent is given its value again. -/
def backupParent (γ : Rat) (g : Graph σ α) (p : Nat) : Graph σ α :=
  match g[p]? with
  | none => g
  | some n =>
    let r := n.children.zipIdx.foldl (weigh γ g p) (true, none, none)
    g.modify p fun n => { n with solved := r.1, value := r.2.1, best := r.2.2 }

/-- riw.hh lines 910-929, `update_frontier`. -/
def updateFrontier (c : Config σ κ) (r : Graph σ α × List Nat) (i : Nat) : Graph σ α × List Nat :=
  match r.1[i]? with
  | none => r
  | some n => (c.order n.parents).foldl (fun r p => (backupParent c.discount r.1 p, insertNew r.2 p)) r

/-- riw.hh lines 900-907: at most `k` rounds. -/
def backupLoop (c : Config σ κ) : Nat → List Nat → Graph σ α → Graph σ α
  | 0, _, g => g
  | k + 1, frontier, g =>
    match frontier with
    | [] => g
    | _ =>
      let r := (c.order frontier).foldl (updateFrontier c) (g, [])
      backupLoop c k r.2 r.1

/-- riw.hh lines 887-908, `backup_values`. -/
def backupValues (c : Config σ κ) (minReward : Option Rat) (frontier : List Nat) (g : Graph σ α) : Graph σ α :=
  backupLoop c (c.maxDepth + 1) frontier ((c.order frontier).foldl (pruneValue c minReward) g)

/-- The nodes without children. -/
def leaves (g : Graph σ α) (among : List Nat) : List Nat :=
  among.filter fun i => match g[i]? with
    | none => false
    | some n => n.children.isEmpty

/-- riw.hh lines 796-816, `update_node`. -/
def updateNode (c : Config σ κ) (st : St σ α φ) (i : Nat) (solved : Bool) : St σ α φ :=
  let g := st.graph.modify i fun n => { n with solved := solved, value := some 0 }
  let frontier := if st.changed then leaves g (List.range g.length) else [i]
  { st with graph := backupValues c st.minReward frontier g, changed := false }

/-! ### Rollouts -/

/-- riw.hh lines 739-742: a reward is compared with the least one so far. -/
def lowerMin (st : St σ α φ) (r : Rat) : St σ α φ :=
  match st.minReward with
  | none => { st with minReward := some r, changed := true }
  | some m => if r < m then { st with minReward := some r, changed := true } else st

/-- riw.hh lines 755-758: a terminal state makes the least reward at most zero. -/
def terminalMin (st : St σ α φ) (t : Bool) : St σ α φ :=
  match st.minReward with
  | none => if t then { st with minReward := some 0, changed := true } else st
  | some m => if t && decide (0 < m) then { st with minReward := some 0, changed := true } else st

/-- riw.hh lines 717-794, `fill_child_node`, for the child at position `k` of node `i`: the node that is reached
and whether it is new. -/
def fillChild [DecidableEq κ] (d : Domain σ α φ) (c : Config σ κ) (st : St σ α φ) (i k : Nat) : St σ α φ × Nat × Bool :=
  match st.graph[i]? with
  | none => (st, i, false)
  | some n =>
    match n.children[k]? with
    | none => (st, i, false)
    | some (_, _, some j) =>
      ({ st with graph := st.graph.modify j fun m => { m with depth := min m.depth (n.depth + 1) } }, j, false)
    | some (a, _, none) =>
      let s := d.next n.state a
      let r := d.reward n.state a
      match locate c.key st.graph s with
      | some j =>
        let g := st.graph.modify i fun n => { n with children := n.children.set k (a, r, some j) }
        let g := g.modify j fun m => { m with parents := insertNew m.parents i, depth := min m.depth (n.depth + 1) }
        (lowerMin { st with graph := g } r, j, false)
      | none =>
        let j := st.graph.length
        let g := st.graph.modify i fun n => { n with children := n.children.set k (a, r, some j) }
        let g := g ++ [{ state := s, parents := [i], depth := n.depth + 1, terminal := d.terminal n.state a }]
        (terminalMin (lowerMin { st with graph := g } r) (d.terminal n.state a), j, true)

/-- riw.hh lines 549-556: the applicable actions of a node that has no children yet. -/
def expand (d : Domain σ α φ) (g : Graph σ α) (i : Nat) : Graph σ α :=
  g.modify i fun n => if n.children.isEmpty then { n with children := (d.actions n.state).map fun a => (a, 0, none) } else n

/-- riw.hh lines 559-568: the positions of the children of node `i` that are not visited or not solved. -/
def unsolved (g : Graph σ α) (i : Nat) : List Nat :=
  match g[i]? with
  | none => []
  | some n => (List.range n.children.length).filter fun k =>
    match n.children[k]? with
    | some (_, _, some j) => match g[j]? with
      | some m => !m.solved
      | none => false
    | some (_, _, none) => true
    | none => false

/-- riw.hh lines 589-650: the rollout has arrived at node `j`; the node of the next round, if there is one. -/
def arrive [DecidableEq φ] (d : Domain σ α φ) (c : Config σ κ) (width : Nat) (st : St σ α φ) (j : Nat) (isNew : Bool) : St σ α φ × Option Nat :=
  match st.graph[j]? with
  | none => (st, none)
  | some m =>
    if m.terminal || m.solved then ({ updateNode c st j true with reachedEnd := true }, none)
    else
      let (novel, nov, table) := novelty width st.table (d.features m.state) m.depth isNew
      let st := { st with table := table, graph := st.graph.modify j fun m => { m with novelty := nov } }
      if !novel then
        (updateNode c { st with statesPruned := true, graph := st.graph.modify j fun m => { m with pruned := true } } j true, none)
      else if c.maxDepth ≤ m.depth then ({ updateNode c st j true with reachedEnd := true }, none)
      else if c.late st.ticks then
        if m.children.isEmpty then (updateNode c { st with ticks := st.ticks + 1 } j false, none)
        else ({ st with ticks := st.ticks + 1 }, none)
      else ({ st with ticks := st.ticks + 1 }, some j)

/-- riw.hh lines 544-650: one round of the loop of a rollout at node `i`. -/
def step [DecidableEq κ] [DecidableEq φ] (d : Domain σ α φ) (c : Config σ κ) (width : Nat) (st : St σ α φ) (i : Nat) :
    Except PyErr (St σ α φ × Option Nat) :=
  match st.graph[i]? with
  | none => .ok (st, none)
  | some n =>
    if n.solved then .ok (st, none)
    else
      let g := expand d st.graph i
      let un := unsolved g i
      match un[c.pick st.draws % un.length]? with
      | none => .error .runtimeError
      | some k =>
        let (st, j, isNew) := fillChild d c { st with graph := g, draws := st.draws + 1 } i k
        .ok (arrive d c width st j isNew)

/-- riw.hh lines 544-651: the loop of a rollout, for at most `fuel` rounds. -/
def walk [DecidableEq κ] [DecidableEq φ] (d : Domain σ α φ) (c : Config σ κ) (width : Nat) : Nat → Nat → St σ α φ → Option (Except PyErr (St σ α φ))
  | 0, _, _ => none
  | fuel + 1, i, st =>
    match step d c width st i with
    | .error e => some (.error e)
    | .ok (st, none) => some (.ok st)
    | .ok (st, some j) => walk d c width fuel j st

/-- riw.hh lines 523-652, `rollout`. -/
def rollout [DecidableEq κ] [DecidableEq φ] (d : Domain σ α φ) (c : Config σ κ) (width fuel root : Nat) (st : St σ α φ) : Option (Except PyErr (St σ α φ)) :=
  walk d c width fuel root { st with rollouts := st.rollouts + 1 }

/-- riw.hh lines 466-473: rollouts until the root is solved or a budget is consumed; the first argument is
the number of rollouts that the budget leaves. -/
def rollouts [DecidableEq κ] [DecidableEq φ] (d : Domain σ α φ) (c : Config σ κ) (width fuel root : Nat) : Nat → St σ α φ → Option (Except PyErr (St σ α φ))
  | left, st =>
    match st.graph[root]? with
    | none => some (.ok st)
    | some n =>
      if n.solved then some (.ok st)
      else if c.late st.ticks then some (.ok { st with ticks := st.ticks + 1 })
      else match left with
        | 0 => some (.ok { st with ticks := st.ticks + 1 })
        | left + 1 =>
          match rollout d c width fuel root { st with ticks := st.ticks + 1 } with
          | none => none
          | some (.error e) => some (.error e)
          | some (.ok st) => rollouts d c width fuel root left st

/-- riw.hh lines 445-449: the bits are cleared. -/
def clearBits (g : Graph σ α) : Graph σ α := g.map fun n => { n with solved := false, pruned := false }

/-- riw.hh lines 451-454: the root is put into the graph. -/
def putRoot [DecidableEq κ] (key : σ → κ) (g : Graph σ α) (s : σ) : Graph σ α × Nat :=
  match locate key g s with
  | some i => (g.modify i fun n => { n with depth := 0 }, i)
  | none => (g ++ [{ state := s, depth := 0 }], g.length)

/-- riw.hh lines 445-463; the features are those of the node. -/
def enter [DecidableEq κ] [DecidableEq φ] (d : Domain σ α φ) (c : Config σ κ) (width : Nat) (s : σ) (st : St σ α φ) : St σ α φ × Nat :=
  let (g, root) := putRoot c.key (clearBits st.graph) s
  let fs := match g[root]? with
    | none => []
    | some n => d.features n.state
  let (_, nov, table) := novelty width st.table fs 0 true
  ({ st with graph := g.modify root fun n => { n with novelty := nov }, table := table, changed := false, statesPruned := false, reachedEnd := false }, root)

/-- riw.hh lines 435-497, `WidthSolver::solve`. -/
def solveWidth [DecidableEq κ] [DecidableEq φ] (d : Domain σ α φ) (c : Config σ κ) (fuel width : Nat) (s : σ) (st : St σ α φ) :
    Option (Except PyErr (St σ α φ × Bool)) :=
  let (st, root) := enter d c width s st
  match rollouts d c width fuel root (c.budget - st.rollouts) st with
  | none => none
  | some (.error e) => some (.error e)
  | some (.ok st) =>
    let inTime := !c.late st.ticks
    let st := { st with ticks := st.ticks + 1 }
    some (.ok (st, !(inTime && decide (st.rollouts < c.budget) && !st.reachedEnd && st.statesPruned)))

/-- riw.hh lines 204-213: the widths from `w` on, `k` of them. -/
def widths [DecidableEq κ] [DecidableEq φ] (d : Domain σ α φ) (c : Config σ κ) (fuel : Nat) (s : σ) : Nat → Nat → St σ α φ → Option (Except PyErr (St σ α φ × Bool))
  | 0, _, st => some (.ok (st, false))
  | k + 1, w, st =>
    match solveWidth d c fuel w s st with
    | none => none
    | some (.error e) => some (.error e)
    | some (.ok (st, true)) => some (.ok (st, true))
    | some (.ok (st, false)) => widths d c fuel s k (w + 1) st

/-- riw.hh lines 193-229, `solve`: the solver afterwards and `found_solution`, which is only logged. -/
def solve [DecidableEq κ] [DecidableEq φ] (d : Domain σ α φ) (c : Config σ κ) (fuel : Nat) (s : σ) (st : St σ α φ) : Option (Except PyErr (St σ α φ × Bool)) :=
  widths d c fuel s (d.features s).length 1 { st with rollouts := 0, table := [] }

/-! ### Answers -/

/-- riw.hh lines 231-238, `is_solution_defined_for`. -/
def isSolutionDefined [DecidableEq κ] (c : Config σ κ) (g : Graph σ α) (s : σ) : Bool :=
  match locate c.key g s with
  | none => false
  | some i => match g[i]? with
    | none => false
    | some n => n.best.isSome

/-- riw.hh lines 274-281, `get_best_value`. -/
def bestValue [DecidableEq κ] (c : Config σ κ) (g : Graph σ α) (s : σ) : Except PyErr (Option Rat) :=
  match (locate c.key g s).bind (g[·]?) with
  | none => .error .runtimeError
  | some n => .ok n.value

/-- riw.hh lines 831-849, `compute_reachable_subgraph`, without the null pointer; every round adds a node, so
that there are at most as many rounds as nodes. -/
def reachLoop (g : Graph σ α) : Nat → List Nat → List Nat → List Nat
  | 0, _, sub => sub
  | k + 1, frontier, sub =>
    match frontier with
    | [] => sub
    | _ =>
      let succs := frontier.flatMap fun i => match g[i]? with
        | none => []
        | some n => n.children.filterMap (·.2.2)
      let fresh := (succs.filter (· ∉ sub)).eraseDups
      reachLoop g k fresh (sub ++ fresh)

def reachable (g : Graph σ α) (i : Nat) : List Nat := reachLoop g (g.length + 1) [i] [i]

/-- riw.hh lines 853-884, `update_graph`, without garbage collection. -/
def updateGraph (c : Config σ κ) (st : St σ α φ) (sub : List Nat) : St σ α φ :=
  let g := (c.order sub).foldl (fun g i => g.modify i fun n => { n with depth := sizeSub n.depth 1 }) st.graph
  { st with graph := backupValues c st.minReward (leaves g sub) g }

/-- riw.hh lines 240-272, `get_best_action`. -/
def getBestAction [DecidableEq κ] (c : Config σ κ) (st : St σ α φ) (s : σ) : Except PyErr (α × St σ α φ) :=
  match locate c.key st.graph s with
  | none => .error .runtimeError
  | some i =>
    match st.graph[i]? with
    | none => .error .runtimeError
    | some n =>
      match n.best with
      | none => .error .runtimeError
      | some k =>
        match n.children[k]? with
        | none => .error .runtimeError
        | some (_, _, none) => .error .runtimeError
        | some (a, _, some _) => .ok (a, updateGraph c st (reachable st.graph i))

end Verif.Riw
