import Verif.Model.PlanGraph

/-!
Model of the C++ solver /repo/cpp/src/hub/solver/iw.hh (sequential execution policy, hashing
policy `DomainStateHash`).
-/
namespace Verif.Iw
open Verif.Search (Problem)
open Verif.PlanGraph

/-- The domain and the state features. -/
structure Domain (σ α φ : Type) extends Problem σ α where
  terminal : σ → Bool
  features : σ → List φ

/-- What `_node_ordering` reads of a node. -/
abbrev Score := Option Rat × Option Nat × Option Nat

/-- The parameters of the constructor (lines 101-121), the library's queue, and the clock:
`left k` says whether the `k`-th time that the code asks, the time is still within the budget. -/
structure Config (σ : Type) where
  ordering : Score → Score → Bool := fun a b => less b.1 a.1
  queue : Queue σ := heap
  left : Nat → Bool := fun _ => false

/-! ### Tuples of features -/

/-- iw.hh lines 499-512: the loop over `i` from `k` down to 1; `none` if there are no more
combinations. -/
def nextFrom (n k : Nat) (cv : List Nat) : Nat → Option (List Nat)
  | 0 => none
  | i + 1 =>
    match cv[i]? with
    | none => none
    | some c => if c < n - k + i then some (cv.take i ++ List.range' (c + 1) (k - i)) else nextFrom n k cv i

/-- iw.hh lines 495-513: the combinations from `cv` on. -/
def run (n k : Nat) : Nat → List Nat → List (List Nat)
  | 0, cv => [cv]
  | fuel + 1, cv => cv :: match nextFrom n k cv k with
    | none => []
    | some cv => run n k fuel cv

/-- iw.hh lines 487-514, `generate_tuples`: the indices for which `f` is called.  There are at
most `n ^ k` combinations. -/
def generateTuples (k n : Nat) : List (List Nat) := run n k (n ^ k) (List.range k)

/-- A tuple of features with their indices. -/
abbrev Tuple (φ : Type) := List (Nat × Option φ)

/-- iw.hh lines 472-480: the tuples of size `k` of a state. -/
def tuplesOf (fs : List φ) (k : Nat) : List (Tuple φ) :=
  (generateTuples k fs.length).map fun cv => cv.map fun i => (i, fs[i]?)

/-- iw.hh lines 464-485, `novelty`: the sets of tuples of each size are kept in one list. -/
def novelty [DecidableEq φ] (width : Nat) (seen : List (Tuple φ)) (fs : List φ) : Nat × List (Tuple φ) :=
  (List.range' 1 (min width fs.length)).foldl (fun r k =>
    (tuplesOf fs k).foldl (fun r t => if t ∈ r.2 then r else (min r.1 k, t :: r.2)) r) (fs.length + 1, seen)

/-! ### The search of one width -/

/-- The variables of the solver and of the search. -/
structure St (σ α φ : Type) where
  graph : Graph σ α
  queue : List σ := []
  closed : List σ := []
  seen : List (Tuple φ) := []
  pruned : Bool := false
  found : Bool := false
  scores : List (Nat × Option Rat) := []
  /-- how often the clock was read -/
  ticks : Nat := 0

/-- iw.hh lines 301-304: the comparison of nodes. -/
def worse [DecidableEq σ] (c : Config σ) (g : Graph σ α) (a b : σ) : Bool :=
  let score := fun s => ((node g s).gscore, (node g s).novelty, (node g s).depth)
  c.ordering (score a) (score b)

/-- iw.hh lines 384-430: one applicable action of the node `cur` being expanded. -/
def tryAction [DecidableEq σ] [DecidableEq φ] (d : Domain σ α φ) (c : Config σ) (width : Nat) (cur : σ)
    (st : St σ α φ) (a : α) : St σ α φ :=
  let n := d.next cur a
  let isNew := !st.graph.contains n
  let graph := if isNew then st.graph.set n {} else st.graph
  let cost := d.cost cur a n
  let tentative := plus (node graph cur).gscore cost
  let tentativeDepth := (node graph cur).depth.map (· + 1)
  let nd := node graph n
  let nd := if isNew || less tentative nd.gscore then { nd with gscore := tentative, bestParent := some (cur, a, cost) } else nd
  let shallower := match tentativeDepth, nd.depth with
    | some x, some y => decide (x < y)
    | some _, none => true
    | none, _ => false
  let nd := if isNew || shallower then { nd with depth := tentativeDepth } else nd
  let (nov, seen) := novelty width st.seen (d.features n)
  let nd := { nd with novelty := some nov }
  if width < nov then
    { st with graph := graph.set n { nd with pruned := true }, seen := seen, pruned := true }
  else
    let graph := graph.set n nd
    { st with graph := graph, seen := seen, queue := c.queue.push (worse c graph) st.queue n }

/-- iw.hh lines 336-343: the cost of the path from the root to `cur`. -/
def pathCost [DecidableEq σ] (root : σ) (g : Graph σ α) : Nat → σ → Rat → Option (Except PyErr Rat)
  | fuel, cur, acc =>
    if cur = root then some (.ok acc)
    else match fuel with
      | 0 => none
      | fuel + 1 =>
        match (node g cur).bestParent with
        | none => some (.error .attributeError)
        | some (par, _, c) => pathCost root g fuel par (acc + c)

/-- iw.hh lines 335-365: a goal or solved node `cur` was taken from the queue. -/
def reach [DecidableEq σ] (root : σ) (width : Nat) (cur : σ) (st : St σ α φ) : Option (Except PyErr (St σ α φ)) :=
  match pathCost root st.graph st.graph.length cur 0 with
  | none => none
  | some (.error e) => some (.error e)
  | some (.ok tentative) =>
    let finish := fun (g : Graph σ α) =>
      some (.ok { st with graph := g, found := true, scores := st.scores ++ [(width, (node g root).fscore)] })
    if !st.found || less (some tentative) (node st.graph root).fscore then
      let nd := node st.graph cur
      let g := st.graph.set cur (if nd.solved then nd else { nd with fscore := some 0, solved := true })
      match mark root st.graph.length cur g with
      | none => none
      | some (.error e) => some (.error e)
      | some (.ok g) => finish g
    else finish st.graph

/-- iw.hh lines 317-432: the main loop, at most `fuel` pops (`none`: not finished). -/
def loop [DecidableEq σ] [DecidableEq φ] (d : Domain σ α φ) (c : Config σ) (width : Nat) (root : σ) :
    Nat → St σ α φ → Option (Except PyErr (St σ α φ))
  | 0, _ => none
  | fuel + 1, st =>
    match c.queue.pop (worse c st.graph) st.queue with
    | none => some (.ok st)
    | some (cur, q) =>
      let st := { st with queue := q }
      if cur ∈ st.closed then loop d c width root fuel st
      else
        let st := { st with closed := cur :: st.closed }
        if d.goal cur || (node st.graph cur).solved then
          match reach root width cur st with
          | none => none
          | some (.error e) => some (.error e)
          | some (.ok st) =>
            let stp := { st with ticks := st.ticks + 1 }
            if c.left st.ticks then loop d c width root fuel stp else some (.ok stp)
        else if d.terminal cur then loop d c width root fuel st
        else loop d c width root fuel ((d.actions cur).foldl (tryAction d c width cur) st)

/-- iw.hh lines 282-447, `WidthSolver::solve`; of `st` only the graph, `found`, the scores and the
clock are used.  The Boolean is the first of the returned pair, the second is `pruned`. -/
def solveWidth [DecidableEq σ] [DecidableEq φ] (d : Domain σ α φ) (c : Config σ) (fuel width : Nat) (s : σ)
    (st : St σ α φ) : Option (Except PyErr (Bool × St σ α φ)) :=
  let graph := if st.graph.contains s then st.graph else st.graph.set s {}
  let st := { st with graph := graph, queue := [], closed := [], seen := [], pruned := false }
  if (node graph s).solved || d.goal s then some (.ok (true, st))
  else if d.terminal s then some (.ok (false, st))
  else
    let (nov, seen) := novelty width [] (d.features s)
    let graph := graph.set s { node graph s with depth := some 0, gscore := some 0 }
    let queue := c.queue.push (worse c graph) [] s
    let graph := graph.set s { node graph s with novelty := some nov }
    match loop d c width s fuel { st with graph := graph, queue := queue, seen := seen } with
    | none => none
    | some (.error e) => some (.error e)
    | some (.ok st) => some (.ok (st.found, st))

/-- iw.hh lines 138-161: the loop over the widths. -/
def widths [DecidableEq σ] [DecidableEq φ] (d : Domain σ α φ) (c : Config σ) (fuel : Nat) (s : σ) :
    List Nat → St σ α φ → Option (Except PyErr (St σ α φ))
  | [], st => some (.ok st)
  | w :: ws, st =>
    match solveWidth d c fuel w s st with
    | none => none
    | some (.error e) => some (.error e)
    | some (.ok (res, st)) =>
      if res then
        let stp := { st with ticks := st.ticks + 1 }
        if c.left st.ticks then widths d c fuel s ws stp else some (.ok stp)
      else if st.found then some (.ok st)
      else if !st.pruned then some (.ok st)
      else widths d c fuel s ws st

/-- iw.hh lines 129-168, `solve(s)` on the graph left by earlier calls (`[]` after `clear`). -/
def solve [DecidableEq σ] [DecidableEq φ] (d : Domain σ α φ) (c : Config σ) (fuel : Nat) (g : Graph σ α) (s : σ) :
    Option (Except PyErr (St σ α φ)) :=
  widths d c fuel s (List.range' 1 (d.features s).length) { graph := g }

end Verif.Iw
