import Verif.Model.Py
/-!
The graph explorers in `skdecide/hub/solver/graph_explorer/`: `DFSExploration.py`, `FullSpaceExploration.py`,
`DFS_Uncertain_Exploration.py` and the domains built from their results in `GraphDomain.py`.

Simplifications: states and actions are values of types with decidable equality (hashable objects), the domain is a
collection of total functions (what it answers to the calls made; some calls pass a state, some a memory with that
state).  The paths on the stack of the depth-first explorer are left out: nothing returned depends on them.  Printing
is left out.  The stack has its top at the head of the list.  Loops take fuel; `none` means that it ran out.
-/
namespace Verif.Explore

/-- What the deterministic explorers ask of a domain; `info s a s'` is what `transition_extractor` gives. -/
structure Dom (σ α ν : Type) where
  acts : σ → List α
  next : σ → α → σ
  goal : σ → Bool
  info : σ → α → σ → ν

/-- The local variables of `build_graph_domain`: `next_state_map`, `next_state_attributes`, `stack`, `nb_nodes`,
`nb_edges`, `nb_path`. -/
structure St (σ α ν : Type) where
  map : Dict σ (Dict α σ)
  attrs : Dict σ (Dict α ν)
  stack : List σ
  nodes : Nat
  edges : Nat
  paths : Nat

/-- `max_edges`, `max_nodes`, `max_path`; `None` by default. -/
structure Limits where
  edges : Option Nat
  nodes : Option Nat
  path : Option Nat

/-- `n > limit`: comparing with `None` raises `TypeError`. -/
def over (n : Nat) : Option Nat → Except PyErr Bool
  | none => .error .typeError
  | some m => .ok (decide (n > m))

variable {σ α ν : Type} [DecidableEq σ] [DecidableEq α]

/-- The test after each vertex (DFSExploration.py 66-68, FullSpaceExploration.py 54-56), with Python's short circuits. -/
def stop (l : Limits) (st : St σ α ν) : Except PyErr Bool := do
  let p ← over st.paths l.path
  if p then .ok true else do
    let n ← over st.nodes l.nodes
    if n && decide (st.paths ≥ 1) then .ok true else do
      let e ← over st.edges l.edges
      .ok (e && decide (st.paths ≥ 1))

/-- `m[v][a] = x`. -/
def put {κ : Type} (m : Dict σ (Dict α κ)) (v : σ) (a : α) (x : κ) : Except PyErr (Dict σ (Dict α κ)) := do
  let e ← m.get v
  .ok (m.set v (e.set a x))

/-- One turn of the loop over the actions of `vertex` (DFSExploration.py 40-65). -/
def act (d : Dom σ α ν) (v : σ) (st : St σ α ν) (a : α) : Except PyErr (St σ α ν) := do
  let n := d.next v a
  let e ← st.map.get v
  if e.contains a then .ok st else do
    let m ← put st.map v a n
    let t ← put st.attrs v a (d.info v a n)
    let fresh := !m.contains n
    .ok { map := if fresh then m.set n [] else m
          attrs := if fresh then t.set n [] else t
          stack := if !d.goal n && fresh then n :: st.stack else st.stack
          nodes := if fresh then st.nodes + 1 else st.nodes
          edges := st.edges + 1
          paths := if d.goal n then st.paths + 1 else st.paths }

/-- The loop `while stack` (DFSExploration.py 37-68). -/
def loop (d : Dom σ α ν) (l : Limits) : Nat → St σ α ν → Except PyErr (Option (St σ α ν))
  | 0, _ => .ok none
  | fuel + 1, st => match st.stack with
    | [] => .ok (some st)
    | v :: rest => do
      let st' ← (d.acts v).foldlM (act d v) { st with stack := rest }
      let b ← stop l st'
      if b then .ok (some st') else loop d l fuel st'

/-- Lines 26-36 (FullSpaceExploration.py 21-30). -/
def first (init : σ) : St σ α ν := ⟨[(init, [])], [(init, [])], [init], 1, 0, 0⟩

/-- `DFSExploration.build_graph_domain` (DFSExploration.py 18-71): what is known at the end. -/
def explore (d : Dom σ α ν) (l : Limits) (fuel : Nat) (init : σ) : Except PyErr (Option (St σ α ν)) := loop d l fuel (first init)

/-- One turn of the loop over the actions of `vertex` (FullSpaceExploration.py 34-53): the next state is entered in the map
before it is looked up there. -/
def fullAct (d : Dom σ α ν) (v : σ) (st : St σ α ν) (a : α) : Except PyErr (St σ α ν) := do
  let n := d.next v a
  let fresh := !st.map.contains n
  let m0 := if fresh then st.map.set n [] else st.map
  let t0 := if fresh then st.attrs.set n [] else st.attrs
  let e ← m0.get v
  let m ← put m0 v a n
  let t ← put t0 v a (d.info v a n)
  .ok { map := m, attrs := t
        stack := if !d.goal n && !m.contains n then n :: st.stack else st.stack
        nodes := if fresh then st.nodes + 1 else st.nodes
        edges := if e.contains a then st.edges else st.edges + 1
        paths := if d.goal n then st.paths + 1 else st.paths }

/-- The loop `while stack` (FullSpaceExploration.py 31-56). -/
def fullLoop (d : Dom σ α ν) (l : Limits) : Nat → St σ α ν → Except PyErr (Option (St σ α ν))
  | 0, _ => .ok none
  | fuel + 1, st => match st.stack with
    | [] => .ok (some st)
    | v :: rest => do
      let st' ← (d.acts v).foldlM (fullAct d v) { st with stack := rest }
      let b ← stop l st'
      if b then .ok (some st') else fullLoop d l fuel st'

/-- `FullSpaceExploration.build_graph_domain` (FullSpaceExploration.py 20-59). -/
def full (d : Dom σ α ν) (l : Limits) (fuel : Nat) (init : σ) : Except PyErr (Option (St σ α ν)) := fullLoop d l fuel (first init)

/-- `GraphDomain` (GraphDomain.py 122-133).  The attributes of a transition are a dictionary; `weight` is
`attribute_weight`, `None` when built by an explorer. -/
structure Graph (σ α : Type) where
  map : Dict σ (Dict α σ)
  attrs : Dict σ (Dict α (Dict (Option String) Int))
  targets : List σ
  weight : Option String

/-- What the explorers return (DFSExploration.py 69-71): no targets, no name for the weight. -/
def result (st : St σ α (Dict (Option String) Int)) : Graph σ α := ⟨st.map, st.attrs, [], none⟩

/-- `_get_next_state` (GraphDomain.py 135-136); `s` is the last element of the memory. -/
def Graph.next (g : Graph σ α) (s : σ) (a : α) : Except PyErr σ := do
  let e ← g.map.get s
  e.get a

/-- `_get_transition_value` (GraphDomain.py 138-142): the cost. -/
def Graph.cost (g : Graph σ α) (s : σ) (a : α) : Except PyErr Int := do
  let e ← g.attrs.get s
  let t ← e.get a
  t.get g.weight

/-- `_get_applicable_actions_from` (GraphDomain.py 150-151). -/
def Graph.acts (g : Graph σ α) (s : σ) : Except PyErr (List α) := do
  let e ← g.map.get s
  .ok e.keys

/-- `is_goal`, `is_terminal` (GraphDomain.py 144-145, 156-157). -/
def Graph.goal (g : Graph σ α) (s : σ) : Bool := decide (s ∈ g.targets)

/-- The loop over the actions of `k` in `merge` (GraphDomain.py 116-119). -/
def mergeActs (other : Graph σ α) (k : σ) : List (α × σ) → Graph σ α → Except PyErr (Graph σ α)
  | [], g => .ok g
  | (a, n) :: rest, g => do
    let e ← g.map.get k
    if e.contains a then mergeActs other k rest g else do
      let m ← put g.map k a n
      let oe ← other.attrs.get k
      let x ← oe.get a
      let t ← put g.attrs k a x
      mergeActs other k rest { g with map := m, attrs := t }

/-- `merge` (GraphDomain.py 108-120).  The maps of the domain itself are changed and used by the result. -/
def merge (g other : Graph σ α) : Except PyErr (Graph σ α) :=
  other.map.foldlM (fun g q =>
    if g.map.contains q.1 then mergeActs other q.1 q.2 g
    else do
      let t ← other.attrs.get q.1
      .ok { g with map := g.map.set q.1 q.2, attrs := g.attrs.set q.1 t }) g

/-! ### Uncertain transitions -/

/-- What the explorer of uncertain domains asks; probabilities are exact. -/
structure MDom (σ α : Type) where
  acts : σ → List α
  dist : σ → α → List (σ × Rat)
  cost : σ → α → σ → Int
  goal : σ → Bool
  terminal : σ → Bool

/-- The local variables of `build_graph_domain` (DFS_Uncertain_Exploration.py 26-45).  The heap is a list in the order of
pushing. -/
structure MSt (σ α : Type) where
  map : Dict σ (Dict α (Dict σ (Rat × Int)))
  terminal : Dict σ Bool
  goal : Dict σ Bool
  heap : List σ
  seen : List σ
  states : Nat
  edges : Nat

/-- One successor (64-77). -/
def succStep (d : MDom σ α) (s : σ) (a : α) (st : MSt σ α) (q : σ × Rat) : Except PyErr (MSt σ α) := do
  let m1 := if st.map.contains s then st.map else st.map.set s []
  let e ← m1.get s
  let m2 := if e.contains a then m1 else m1.set s (e.set a [])
  if q.2 ≠ 0 ∧ q.1 ∉ st.seen then do
    let e2 ← m2.get s
    let f ← e2.get a
    .ok { map := m2.set s (e2.set a (f.set q.1 (q.2, d.cost s a q.1)))
          terminal := st.terminal.set q.1 (d.terminal q.1)
          goal := st.goal.set q.1 (d.goal q.1)
          heap := st.heap ++ [q.1], seen := q.1 :: st.seen, states := st.states + 1, edges := st.edges + 1 }
  else .ok { st with map := m2 }

/-- The loops over the actions and the successors (60-77). -/
def expand (d : MDom σ α) (s : σ) (st : MSt σ α) : Except PyErr (MSt σ α) :=
  (d.acts s).foldlM (fun st a => (d.dist s a).foldlM (succStep d s a) st) st

/-- The limits of the uncertain explorer (78-80). -/
def mstop (l : Limits) (st : MSt σ α) : Except PyErr Bool := do
  let n ← over st.states l.nodes
  if n then .ok true else over st.edges l.edges

/-- The loop `while len(stack) > 0` (46-80): `pick` says which entry of the heap is least.  With the default scores, a
counter, it is the oldest one: `pick` is constantly 0. -/
def mloop (d : MDom σ α) (l : Limits) (pick : List σ → Nat) : Nat → MSt σ α → Except PyErr (Option (MSt σ α))
  | 0, _ => .ok none
  | fuel + 1, st =>
    if st.heap = [] then .ok (some st) else do
      let st1 := if st.seen.length % 100 = 0 ∧ st.seen.length > st.states then { st with states := st.seen.length } else st
      let i := pick st1.heap % st1.heap.length
      let s ← pyGet st1.heap i
      let st2 := { st1 with heap := st1.heap.eraseIdx i }
      if d.goal s || d.terminal s then mloop d l pick fuel st2
      else do
        let st3 ← expand d s st2
        let b ← mstop l st3
        if b then .ok (some st3) else mloop d l pick fuel st3

/-- Lines 31-45. -/
def mfirst (d : MDom σ α) (init : σ) : MSt σ α :=
  ⟨[], [(init, d.terminal init)], [(init, d.goal init)], [init], [init], 1, 0⟩

/-- `DFSExploration.build_graph_domain` (DFS_Uncertain_Exploration.py 26-83). -/
def mexplore (d : MDom σ α) (l : Limits) (pick : List σ → Nat) (fuel : Nat) (init : σ) : Except PyErr (Option (MSt σ α)) :=
  mloop d l pick fuel (mfirst d init)

/-- `GraphDomainUncertain` (GraphDomain.py 47-53). -/
structure MGraph (σ α : Type) where
  map : Dict σ (Dict α (Dict σ (Rat × Int)))
  terminal : Dict σ Bool
  goal : Dict σ Bool

/-- What the explorer returns (81-83). -/
def mresult (st : MSt σ α) : MGraph σ α := ⟨st.map, st.terminal, st.goal⟩

/-- `_get_applicable_actions_from` (GraphDomain.py 83-84). -/
def MGraph.acts (g : MGraph σ α) (s : σ) : List α := ((g.map.get? s).getD []).keys

/-- `_is_terminal` (GraphDomain.py 77-78). -/
def MGraph.isTerminal (g : MGraph σ α) (s : σ) : Except PyErr Bool := do
  let b ← g.terminal.get s
  .ok (b || decide ((g.acts s).length = 0))

/-- `_get_transition_value` (GraphDomain.py 71-75): the cost. -/
def MGraph.cost (g : MGraph σ α) (s : σ) (a : α) (n : σ) : Except PyErr Int := do
  let e ← g.map.get s
  let f ← e.get a
  let x ← f.get n
  .ok x.2

/-- `_get_next_state_distribution` (GraphDomain.py 92-96): not a distribution but one drawn pair; `random.choices` from nothing
raises `IndexError`. -/
def MGraph.draw (g : MGraph σ α) (s : σ) (a : α) (pos : Nat) : Except PyErr (σ × Rat) := do
  let e ← g.map.get s
  let f ← e.get a
  pyGet (f.map fun q => (q.1, q.2.1)) pos

/-- The loop of `reachable_states` (FullSpaceExploration.py 68-81). -/
def reachLoop (d : MDom σ α) : Nat → List σ → List σ → Option (List σ)
  | 0, _, _ => none
  | _ + 1, [], seen => some seen
  | fuel + 1, s :: rest, seen =>
    if d.terminal s then reachLoop d fuel rest seen
    else
      let r := (d.acts s).foldl (fun r a => (d.dist s a).foldl (fun (r : List σ × List σ) q =>
        if q.2 ≠ 0 ∧ q.1 ∉ r.2 then (q.1 :: r.1, q.1 :: r.2) else r) r) (rest, seen)
      reachLoop d fuel r.1 r.2

/-- `reachable_states` (FullSpaceExploration.py 62-82). -/
def reachable (d : MDom σ α) (fuel : Nat) (s0 : σ) : Option (List σ) := reachLoop d fuel [s0] [s0]

end Verif.Explore
