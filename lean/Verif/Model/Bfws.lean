import Verif.Model.PlanGraph

/-!
Model of the C++ solver /repo/cpp/src/hub/solver/bfws.hh (sequential execution policy, hashing
policy `DomainStateHash`).  Heuristic values are exact and finite.
-/
namespace Verif.Bfws
open Verif.Search (Problem)
open Verif.PlanGraph

/-- The domain, the termination checker (as `goal`), the state features and the heuristic (the
arguments of the constructor, lines 103-115). -/
structure Domain (σ α φ : Type) extends Problem σ α where
  features : σ → List φ
  heuristic : σ → Rat

/-- bfws.hh lines 269-270, `PairMap`: for each heuristic value, the features met with it. -/
abbrev PairMap (φ : Type) := Dict Rat (List (Nat × φ))

/-- bfws.hh lines 303-318, `novelty`. -/
def novelty [DecidableEq φ] (map : PairMap φ) (h : Rat) (fs : List φ) : Nat × PairMap φ :=
  let isNew := (map.get? h).isNone
  let r := fs.zipIdx.foldl (fun (r : Nat × List (Nat × φ)) e =>
    if (e.2, e.1) ∈ r.2 then r else (r.1 + 1, (e.2, e.1) :: r.2)) (0, (map.get? h).getD [])
  (if isNew then 0 else if r.1 = 0 then fs.length + 1 else r.1, map.set h r.2)

/-- The variables of the search. -/
structure St (σ α φ : Type) where
  graph : Graph σ α
  queue : List σ := []
  closed : List σ := []
  map : PairMap φ := []

/-- `x > y` on sizes, `none` being the largest. -/
def larger : Option Nat → Option Nat → Bool
  | some a, some b => decide (b < a)
  | none, some _ => true
  | _, none => false

/-- bfws.hh lines 320-327, `NodeCompare`. -/
def worse [DecidableEq σ] (g : Graph σ α) (a b : σ) : Bool :=
  decide ((node g b).heuristic < (node g a).heuristic) ||
    (decide ((node g a).heuristic = (node g b).heuristic) && larger (node g a).novelty (node g b).novelty)

/-- bfws.hh lines 190-225: one applicable action of the node `cur` being expanded. -/
def tryAction [DecidableEq σ] [DecidableEq φ] (d : Domain σ α φ) (Q : Queue σ) (cur : σ) (st : St σ α φ) (a : α) : St σ α φ :=
  let n := d.next cur a
  let isNew := !st.graph.contains n
  let graph := if isNew then st.graph.set n {} else st.graph
  if n ∈ st.closed then { st with graph := graph }
  else
    let cost := d.cost cur a n
    let tentative := plus (node graph cur).gscore cost
    let nd := node graph n
    let nd := if isNew || less tentative nd.gscore then { nd with gscore := tentative, bestParent := some (cur, a, cost) } else nd
    let r := novelty st.map (d.heuristic n) (d.features n)
    let graph := graph.set n { nd with heuristic := d.heuristic n, novelty := some r.1 }
    { st with graph := graph, map := r.2, queue := Q.push (worse graph) st.queue n }

/-- bfws.hh lines 151-227: the main loop, at most `fuel` pops (`none`: not finished). -/
def loop [DecidableEq σ] [DecidableEq φ] (d : Domain σ α φ) (Q : Queue σ) (root : σ) :
    Nat → St σ α φ → Option (Except PyErr (St σ α φ))
  | 0, _ => none
  | fuel + 1, st =>
    match Q.pop (worse st.graph) st.queue with
    | none => some (.ok st)
    | some (cur, q) =>
      let st := { st with queue := q }
      if cur ∈ st.closed then loop d Q root fuel st
      else if d.goal cur || (node st.graph cur).solved then
        let nd := node st.graph cur
        let g := st.graph.set cur (if nd.solved then nd else { nd with fscore := some 0 })
        match mark root st.graph.length cur g with
        | none => none
        | some (.error e) => some (.error e)
        | some (.ok g) => some (.ok { st with graph := g })
      else
        let st := { st with closed := cur :: st.closed }
        loop d Q root fuel ((d.actions cur).foldl (tryAction d Q cur) st)

/-- bfws.hh lines 124-234, `solve(s)` on the graph left by earlier calls (`[]` after `clear`). -/
def solve [DecidableEq σ] [DecidableEq φ] (d : Domain σ α φ) (Q : Queue σ) (fuel : Nat) (g : Graph σ α) (s : σ) :
    Option (Except PyErr (Graph σ α)) :=
  let graph := if g.contains s then g else g.set s {}
  if (node graph s).solved || d.goal s then some (.ok graph)
  else
    let r := novelty [] (d.heuristic s) (d.features s)
    let graph := graph.set s { node graph s with gscore := some 0, heuristic := d.heuristic s, novelty := some r.1 }
    match loop d Q s fuel { graph := graph, queue := Q.push (worse graph) [] s, map := r.2 } with
    | none => none
    | some (.error e) => some (.error e)
    | some (.ok st) => some (.ok st.graph)

end Verif.Bfws
