import Verif.Model.Tsp
import Verif.Model.Milp
import Verif.Model.Sort
/-
Model of `tsp/solver/solver_lp_iterative.py` (directory `skdecide/builders/discrete_optimization`):
the program over the edges of a graph, the rows added for the components of each answer, the path read off a
component and the joining of the paths into one tour.

Simplifications: weights are the exact integers `dist` (the graphs carry `evaluate_function_indexes` on every edge);
Python sets are lists in an arbitrary order (the theorems hold for every order); hints given to the library
(`SetHint`, `start`, `varhintval`), plots and prints are left out; what the library and
`nx.weakly_connected_components` return are parameters.  The evaluation of a tour is `computeLength` (the array
version gives the same total, see C31).
-/
namespace Verif.TspLp
open Verif.Milp Verif.Tsp

/-- A directed edge `(i, j)`. -/
abbrev Edge := Nat × Nat

/-- `g.add_edge`: edges are kept once. -/
def addEdge (g : List Edge) (e : Edge) : List Edge := if e ∈ g then g else g ++ [e]

/-- One turn of the inner loops of the graph builders (33-36, 43-46, 53-56, 81-84, 91-94). -/
def addPair (i : Nat) (g : List Edge) (n : Nat) : List Edge :=
  if n = i then g else addEdge (addEdge g (i, n)) (n, i)

/-- `build_graph_complete` (67-102): the edges; `sd` is the result of `np.argsort`, one row for each node. -/
def completeGraph (fin : Nat) (sd : List (List Nat)) : List Edge :=
  sd.zipIdx.foldl (fun g r => (r.1.drop 1 ++ [fin]).foldl (addPair r.2) g) []

/-- `build_graph_pruned` (20-64): the edges; `sd` is the result of `np.argsort`. -/
def prunedGraph (count fin : Nat) (sd : List (List Nat)) : List Edge :=
  sd.zipIdx.foldl (fun g r =>
    ((r.1.take 50).drop 1 ++ (List.range (min (r.2 + 5) count)).drop r.2 ++ [fin]).foldl (addPair r.2) g) []

/-- `flow_in[n]` (151-159, 218-226). -/
def inE (edges : List Edge) (n : Nat) : List Edge := edges.filter (fun e => e.2 == n)

/-- `flow_out[n]` (151-159, 218-226). -/
def outE (edges : List Edge) (n : Nat) : List Edge := edges.filter (fun e => e.1 == n)

/-- The keys of `flow_in` in the order of insertion. -/
def targets (edges : List Edge) : List Nat :=
  edges.foldl (fun l e => if e.2 ∈ l then l else l ++ [e.2]) []

/-- `[x_var[i] for i in l]`. -/
def ones (l : List Edge) : Lin Edge := l.map (fun e => (1, e))

/-- `[-x_var[i] for i in l]`. -/
def negs (l : List Edge) : Lin Edge := l.map (fun e => (-1, e))

/-- `constraint_tour_2length` (167-172, 233-238). -/
def pairRows (edges : List Edge) : List (Row Edge) :=
  (edges.filter (fun e => decide ((e.2, e.1) ∈ edges))).map (fun e => ⟨[(1, e), (1, (e.2, e.1))], .le, 1⟩)

/-- The rows for one key of `flow_in` (176-195, 242-257).  Every case reads `flow_out[n]`. -/
def nodeRows (m : Model) (edges : List Edge) (n : Nat) : Except PyErr (List (Row Edge)) :=
  if outE edges n = [] then .error .keyError
  else .ok (
    (if n ≠ m.start ∧ n ≠ m.fin then [⟨ones (inE edges n) ++ negs (outE edges n), .eq, 0⟩] else []) ++
    (if n ≠ m.start then [⟨ones (inE edges n), .eq, 1⟩] else []) ++
    (if n = m.start then
      ⟨ones (outE edges n), .eq, 1⟩ :: (if n ≠ m.fin then [⟨ones (inE edges n), .eq, 0⟩] else []) else []) ++
    (if n = m.fin then
      ⟨ones (inE edges n), .eq, 1⟩ :: (if n ≠ m.start then [⟨ones (outE edges n), .eq, 0⟩] else []) else []))

/-- `init_model_cbc`, `init_model_gurobi` (135-202, 204-261): the dummy tour is evaluated, then the program is
built. -/
def init (m : Model) (edges : List Edge) : Except PyErr (Program Edge) := do
  let _ ← build m computeLength m.inner
  let rows ← mapE (nodeRows m edges) (targets edges)
  .ok ⟨edges.map (fun e => (e, .binary)), pairRows edges ++ rows.flatten,
    edges.map (fun e => (m.dist e.1 e.2, e))⟩

/-- `retrieve_results` (263-285): the edges with value at least one half (the values are integers). -/
def chosen (edges : List Edge) (a : Edge → Int) : List Edge := edges.filter (fun e => decide (a e ≥ 1))

/-- No chosen edge joins the set with the rest. -/
def Closed (sel : List Edge) (s : List Nat) : Prop := ∀ e, e ∈ sel → (e.1 ∈ s ↔ e.2 ∈ s)

/-- What `nx.weakly_connected_components` returns for the graph with nodes `0 … n-1` and the chosen edges: the smallest
non-empty sets closed under the edges, each once. -/
def Components (n : Nat) (sel : List Edge) (comps : List (List Nat)) : Prop :=
  (∀ v, v < n → ∃ s, s ∈ comps ∧ v ∈ s) ∧
  comps.Pairwise (fun s t => ∀ v, v ∈ s → v ∉ t) ∧
  ∀ s, s ∈ comps → s ≠ [] ∧ s.Nodup ∧ (∀ v, v ∈ s → v < n) ∧ Closed sel s ∧
    ∀ t : List Nat, (∃ v, v ∈ t) → (∀ v, v ∈ t → v ∈ s) → Closed sel t → ∀ v, v ∈ s → v ∈ t

/-- `sorted(..., key=lambda x: x[1], reverse=True)` (326). -/
def sorted (comps : List (List Nat)) : List (List Nat) := sortBy (fun s => -(s.length : Int)) comps

/-- The rows added for a component (347-356). -/
def cutRows (edges : List Edge) (s : List Nat) : List (Row Edge) :=
  [⟨ones (edges.filter (fun e => decide (e.2 ∈ s) && decide (e.1 ∉ s))), .ge, 1⟩,
    ⟨ones (edges.filter (fun e => decide (e.1 ∈ s) && decide (e.2 ∉ s))), .ge, 1⟩]

/-- The loop of `build_the_cycles` (452-456); the first argument bounds the number of turns. -/
def cycleLoop (outt : Dict Nat Edge) (endNode : Nat) : Nat → Edge → List Nat → Dict Nat Nat → Nat →
    Except PyErr (List Nat × Dict Nat Nat × Nat)
  | 0, _, _, _, _ => .error .runtimeError
  | fuel + 1, cur, path, indexes, k =>
    if cur.2 = endNode then .ok (path, indexes, k)
    else do
      let nxt ← outt.get cur.2
      cycleLoop outt endNode fuel nxt (path ++ [cur.2]) (indexes.set cur.2 k) (k + 1)

/-- `build_the_cycles` (439-460): the path through a component and the positions in it. -/
def cycle (sel : List Edge) (s : List Nat) (start fin : Nat) : Except PyErr (List Nat × Dict Nat Nat) := do
  let here := sel.filter (fun e => decide (e.2 ∈ s) && decide (e.1 ∈ s))
  let innn : Dict Nat Edge := here.foldl (fun d e => d.set e.2 e) []
  let outt : Dict Nat Edge := here.foldl (fun d e => d.set e.1 e) []
  let some ← if outt.contains start then .ok start else
    match here with
    | [] => .error .stopIteration
    | e :: _ => .ok e.1
  let endNode := if innn.contains fin then fin else some
  let cur ← outt.get some
  let r ← cycleLoop outt endNode (here.length + 1) cur [some] [(some, 0)] 1
  .ok (if innn.contains fin then (r.1 ++ [endNode], r.2.1.set endNode r.2.2) else (r.1, r.2.1))

/-- A candidate for joining a component: `min_component`, `min_out_edge`, `min_in_edge`, `min_index_in_path`,
`min_dist` (497-506). -/
structure Cand where
  comp : Nat
  out : Edge
  inn : Edge
  index : Nat
  dist : Int
  deriving DecidableEq

/-- `cost < min_dist`, infinite at first. -/
def betterThan (cost : Int) : Option Cand → Bool
  | none => true
  | some c => decide (cost < c.dist)

/-- `graph[a][b]["weight"]`: `KeyError` for a missing edge. -/
def weight (m : Model) (g : List Edge) (a b : Nat) : Except PyErr Int :=
  if (a, b) ∈ g then .ok (m.dist a b) else .error .keyError

/-- What `rebuild_tsp_routine` is given: `paths_component`, `indexes_component`, `node_to_component`. -/
structure Parts where
  paths : List (List Nat)
  indexes : List (Dict Nat Nat)
  comp : Dict Nat Nat

/-- `index_path` (488). -/
def positions (path : List Nat) : Dict Nat Nat :=
  path.zipIdx.foldl (fun (d : Dict Nat Nat) (x : Nat × Nat) => d.set x.1 x.2) []

/-- One turn of the loop over `edge_out_of_interest` (507-540): the best candidate and the backup so far. -/
def scan (m : Model) (p : Parts) (g edges : List Edge) (count compEnd joined : Nat) (path : List Nat)
    (b : Option Cand × Option Cand) (e : Edge) : Except PyErr (Option Cand × Option Cand) := do
  let i ← (positions path).get e.1
  if i = path.length - 1 then .ok b
  else do
    let next1 ← pyGet path (i + 1)
    let c ← p.comp.get e.2
    if c = compEnd ∧ joined < count - 1 then .ok b
    else do
      let idx ← pyGet p.indexes c
      let k ← idx.get e.2
      let pc ← pyGet p.paths c
      let nextC ← pyGet pc (if k + 1 ≥ pc.length then 0 else k + 1)
      if (nextC, next1) ∈ edges ∧ nextC ∉ path ∧ next1 ∈ path then do
        let w1 ← weight m g e.1 e.2
        let w2 ← weight m g nextC next1
        let w3 ← weight m g e.1 next1
        let cost := w1 + w2 - w3
        .ok (if betterThan cost b.1 then (some ⟨c, e, (nextC, next1), i, cost⟩, b.2) else b)
      else do
        let cost ← weight m g e.1 e.2
        .ok (if betterThan cost b.2 then (b.1, some ⟨c, e, (nextC, next1), i, cost⟩) else b)

/-- `new_component` (558-560): the path of the component read backwards from position `k`. -/
def backwards (pc : List Nat) (k : Nat) : Except PyErr (List Nat) :=
  mapE (fun (j : Nat) => pyGet pc ((((k : Int) - (j : Int)) % (pc.length : Int)).toNat)) (List.range pc.length)

/-- `zip(l[:-1], l[1:])`. -/
def legs (l : List Nat) : List Edge := l.dropLast.zip l.tail

/-- The loop of `rebuild_tsp_routine` (481-570); the first argument bounds the number of turns.  The graph is changed
by the function and kept by the solver. -/
def joinLoop (m : Model) (p : Parts) (edges : List Edge) (count compStart compEnd : Nat) :
    Nat → List Edge → List Nat → List Nat → Except PyErr (List Edge × List Nat)
  | 0, _, _, _ => .error .runtimeError
  | fuel + 1, g, path, joined =>
    if joined.length < count then
      if joined.length = count - 1 ∧ m.fin ≠ m.start ∧ compEnd ≠ compStart then do
        let pe ← pyGet p.paths compEnd
        joinLoop m p edges count compStart compEnd fuel g (path ++ pe) (if compEnd ∈ joined then joined else compEnd :: joined)
      else do
        let outs := edges.filter (fun e => decide (e.1 ∈ path) && decide (e.2 ∉ path))
        let best ← outs.foldlM (scan m p g edges count compEnd joined.length path) (none, none)
        let cg ← match best.1, best.2 with
          | some c, _ => .ok (c, g)
          | none, some c => .ok (c, addEdge (addEdge g c.inn) (c.inn.2, c.inn.1))
          | none, none => .error .typeError
        let idx ← pyGet p.indexes cg.1.comp
        let k ← idx.get cg.1.out.2
        let pc ← pyGet p.paths cg.1.comp
        let new ← backwards pc k
        joinLoop m p edges count compStart compEnd fuel ((legs new).foldl addEdge cg.2)
          (path.take (cg.1.index + 1) ++ new ++ path.drop (cg.1.index + 1))
          (if cg.1.comp ∈ joined then joined else cg.1.comp :: joined)
    else .ok (g, path)

/-- `rebuild_tsp_routine` (463-575): the graph, the path and the tour built from the inner part of the path. -/
def rebuild (m : Model) (p : Parts) (g edges : List Edge) (count : Nat) : Except PyErr (List Edge × List Nat × Solution) := do
  let cs ← p.comp.get m.start
  let path ← pyGet p.paths cs
  let ce ← p.comp.get m.fin
  let r ← joinLoop m p edges count cs ce (count + 1) g path [cs]
  let sol ← build m computeLength r.2.tail.dropLast
  .ok (r.1, r.2, sol)

/-- What one call of the library gives: the values of the variables, and the components of the chosen edges. -/
structure Answer where
  value : Edge → Int
  comps : List (List Nat)

/-- The loop over the components (336-356), without the rows. -/
def parts (m : Model) (sel : List Edge) (comps : List (List Nat)) : Except PyErr Parts := do
  let r ← mapE (fun s => cycle sel s m.start m.fin) comps
  .ok ⟨r.map (·.1), r.map (·.2),
    r.zipIdx.foldl (fun (d : Dict Nat Nat) x => x.1.1.foldl (fun (d : Dict Nat Nat) v => d.set v x.2) d) []⟩

/-- The program of round `k`: the rows for the components of all the answers before it. -/
def programAt (p : Program Edge) (edges : List Edge) (ans : Nat → Answer) (k : Nat) : Program Edge :=
  { p with rows := p.rows ++ (List.range k).flatMap (fun j => (sorted (ans j).comps).flatMap (cutRows edges)) }

/-- `if objective < best_solution_rebuilt` (368-370), infinite at first. -/
def keepBest (best : Option Solution) (s : Solution) : Option Solution :=
  match best with
  | none => some s
  | some b => if s.length.getD 0 < b.length.getD 0 then some s else some b

/-- The loop of `solve` (318-407): `left` rounds remain, the next is round `k`; the best tour so far, if any.  The
objective is the length (the default `params_objective_function`). -/
def rounds (m : Model) (edges : List Edge) (ans : Nat → Answer) : Nat → Nat → List Edge → Option Solution →
    Except PyErr (Option Solution)
  | left, k, g, best => do
    let comps := sorted (ans k).comps
    let ps ← parts m (chosen edges (ans k).value) comps
    let r ← rebuild m ps g edges comps.length
    let best' := keepBest best r.2.2
    match left with
    | 0 => .ok best'
    | left + 1 =>
      if comps.length > 1 ∧ left ≠ 0 then rounds m edges ans left (k + 1) r.1 best' else .ok best'

/-- `solve` (287-435) with `nb_iteration_max = limit`: the tour returned. -/
def solve (m : Model) (edges : List Edge) (ans : Nat → Answer) (limit : Nat) : Except PyErr Solution := do
  let b ← rounds m edges ans limit 0 edges none
  match b with
  | some s => build m computeLength s.perm
  | none => .error .indexError

end Verif.TspLp
