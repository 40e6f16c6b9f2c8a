import Verif.Model.Py
import Verif.Model.Sort
import Verif.Model.Rcpsp
/-
Model of `skdecide/builders/discrete_optimization/generic_tools/graph_api.py` and
`skdecide/builders/scheduling/graph_toolbox.py` (the class `Graph`), and of the graphs that
`discrete_optimization/rcpsp/rcpsp_model.py` (507-515) and `rcpsp_utils.py` (366-383) make of a project.

Simplifications: nodes are natural numbers and values of attributes are integers; a Python set is a list without
repetition; of networkx only what the class uses is modelled: `add_nodes_from` and `add_edges_from` (attributes
of a node or of an edge given again are merged into the old ones, and the ends of an edge become nodes),
`neighbors`, `predecessors`, `ancestors` and `descendants`; the exceptions of networkx itself are written
`runtimeError`.  `check_loop` is not modelled.
-/
namespace Verif.GraphApi

/-- The attributes of a node or an edge (`Dict[str, Any]`, graph_api.py 7-8). -/
abbrev Attrs (κ : Type) := Dict κ Int

/-- One element `(n1, n2, d)` of `edges` (graph_api.py 8). -/
structure Edge (κ : Type) where
  src : Nat
  dst : Nat
  attrs : Attrs κ
  deriving DecidableEq

/-- The arguments of the constructor (graph_api.py 6-9). -/
structure Input (κ : Type) where
  nodes : List (Nat × Attrs κ)
  edges : List (Edge κ)
  undirected : Bool

/-- `build_nodes_infos_dict` (graph_api.py 28-30). -/
def nodeInfos (nodes : List (Nat × Attrs κ)) : Dict Nat (Attrs κ) := nodes.foldl (fun d p => d.set p.1 p.2) []

/-- `if k not in d: d[k] = set()` and `d[k].add(v)` (graph_api.py 35-40). -/
def addTo (d : Dict Nat (List Nat)) (k v : Nat) : Dict Nat (List Nat) :=
  let s := (d.get? k).getD []
  d.set k (if s.contains v then s else s ++ [v])

/-- The three dictionaries that `build_edges` fills (graph_api.py 13-15). -/
structure Maps (κ : Type) where
  neighbors : Dict Nat (List Nat)
  predecessors : Dict Nat (List Nat)
  infos : Dict (Nat × Nat) (Attrs κ)

/-- The body of the loop of `build_edges` (graph_api.py 34-48). -/
def addEdge (undirected : Bool) (m : Maps κ) (e : Edge κ) : Maps κ :=
  let m1 : Maps κ :=
    { infos := m.infos.set (e.src, e.dst) e.attrs
      predecessors := addTo m.predecessors e.dst e.src
      neighbors := addTo m.neighbors e.src e.dst }
  if undirected then
    { predecessors := addTo m1.predecessors e.src e.dst
      neighbors := addTo m1.neighbors e.dst e.src
      infos := m1.infos.set (e.dst, e.src) e.attrs }
  else m1

/-- `build_edges` (graph_api.py 32-48). -/
def buildEdges (undirected : Bool) (edges : List (Edge κ)) : Maps κ :=
  edges.foldl (addEdge undirected) { neighbors := [], predecessors := [], infos := [] }

/-- `get_neighbors` (graph_api.py 50-51). -/
def getNeighbors (g : Input κ) (n : Nat) : List Nat := ((buildEdges g.undirected g.edges).neighbors.get? n).getD []

/-- `get_predecessors` (graph_api.py 53-54). -/
def getPredecessors (g : Input κ) (n : Nat) : List Nat :=
  ((buildEdges g.undirected g.edges).predecessors.get? n).getD []

/-- `get_edges` (graph_api.py 22-23). -/
def getEdges (g : Input κ) : List (Nat × Nat) := (buildEdges g.undirected g.edges).infos.keys

/-- `get_nodes` (graph_api.py 18, 25-26). -/
def getNodes (g : Input κ) : List Nat := sortBy (fun n => (n : Int)) (nodeInfos g.nodes).keys

/-- `get_attr_node` (graph_api.py 56-57). -/
def attrNode [DecidableEq κ] (g : Input κ) (n : Nat) (a : κ) : Option Int :=
  ((nodeInfos g.nodes).get? n).bind (fun d => d.get? a)

/-- `get_attr_edge` (graph_api.py 59-60). -/
def attrEdge [DecidableEq κ] (g : Input κ) (u v : Nat) (a : κ) : Option Int :=
  ((buildEdges g.undirected g.edges).infos.get? (u, v)).bind (fun d => d.get? a)

/-- A graph of networkx: the attributes of the nodes and of the pairs of nodes joined. -/
structure Nx (κ : Type) where
  directed : Bool
  nodes : Dict Nat (Attrs κ)
  edges : Dict (Nat × Nat) (Attrs κ)

/-- `dict.update`. -/
def update [DecidableEq κ] (d e : Attrs κ) : Attrs κ := e.foldl (fun d p => d.set p.1 p.2) d

/-- `add_node(n, **d)` of networkx. -/
def nxAddNode [DecidableEq κ] (nodes : Dict Nat (Attrs κ)) (n : Nat) (d : Attrs κ) : Dict Nat (Attrs κ) :=
  nodes.set n (update ((nodes.get? n).getD []) d)

/-- `add_edge(u, v, **d)` of networkx; in a `Graph` both directions share their attributes. -/
def nxAddEdge [DecidableEq κ] (g : Nx κ) (e : Edge κ) : Nx κ :=
  let d := update ((g.edges.get? (e.src, e.dst)).getD []) e.attrs
  let es := g.edges.set (e.src, e.dst) d
  { directed := g.directed
    nodes := nxAddNode (nxAddNode g.nodes e.src []) e.dst []
    edges := if g.directed then es else es.set (e.dst, e.src) d }

/-- `to_networkx` (graph_api.py 62-66). -/
def toNetworkx [DecidableEq κ] (g : Input κ) : Nx κ :=
  g.edges.foldl nxAddEdge
    { directed := !g.undirected, nodes := g.nodes.foldl (fun d p => nxAddNode d p.1 p.2) [], edges := [] }

/-- `graph_nx.neighbors(n)`. -/
def nxSucc (g : Nx κ) (n : Nat) : List Nat := (g.edges.keys.filter (fun p => p.1 == n)).map Prod.snd

/-- The nodes with an edge to `n` (`graph_nx.predecessors(n)` of a directed graph). -/
def nxPred (g : Nx κ) (n : Nat) : List Nat := (g.edges.keys.filter (fun p => p.2 == n)).map Prod.fst

/-- One round of the search: the nodes found so far and their neighbours. -/
def grow (next : Nat → List Nat) (s : List Nat) : List Nat := (s ++ s.flatMap next).eraseDups

/-- `k` rounds. -/
def reach (next : Nat → List Nat) : Nat → List Nat → List Nat
  | 0, s => s
  | k + 1, s => reach next k (grow next s)

/-- `nx.ancestors(graph_nx, n)`; networkx raises for a node that the graph has not. -/
def nxAncestors (g : Nx κ) (n : Nat) : Except PyErr (List Nat) :=
  if g.nodes.contains n then .ok ((reach (nxPred g) g.nodes.length [n]).filter (fun u => u != n))
  else .error .runtimeError

/-- `nx.descendants(graph_nx, n)`. -/
def nxDescendants (g : Nx κ) (n : Nat) : Except PyErr (List Nat) :=
  if g.nodes.contains n then .ok ((reach (nxSucc g) g.nodes.length [n]).filter (fun u => u != n))
  else .error .runtimeError

/-- `precedessors_nodes` (graph_api.py 75-76). -/
def predecessorsNodes [DecidableEq κ] (g : Input κ) (n : Nat) : Except PyErr (List Nat) := nxAncestors (toNetworkx g) n

/-- A dictionary with one entry per node of the networkx graph (graph_toolbox.py 82-96). -/
def nodeMap (f : Nat → Except PyErr (List Nat)) : List Nat → Except PyErr (Dict Nat (List Nat))
  | [] => .ok []
  | n :: ns => do
    let v ← f n
    let rest ← nodeMap f ns
    .ok ((n, v) :: rest)

/-- `ancestors_map` (graph_toolbox.py 82-84). -/
def ancestorsMap [DecidableEq κ] (g : Input κ) : Except PyErr (Dict Nat (List Nat)) :=
  nodeMap (nxAncestors (toNetworkx g)) (toNetworkx g).nodes.keys

/-- `descendants_map` (graph_toolbox.py 86-88). -/
def descendantsMap [DecidableEq κ] (g : Input κ) : Except PyErr (Dict Nat (List Nat)) :=
  nodeMap (nxDescendants (toNetworkx g)) (toNetworkx g).nodes.keys

/-- `successors_map` (graph_toolbox.py 90-92). -/
def successorsMap [DecidableEq κ] (g : Input κ) : Except PyErr (Dict Nat (List Nat)) :=
  nodeMap (fun n => .ok (nxSucc (toNetworkx g) n)) (toNetworkx g).nodes.keys

/-- `predecessors_map` (graph_toolbox.py 94-96); `nx.Graph` has no attribute `predecessors`. -/
def predecessorsMap [DecidableEq κ] (g : Input κ) : Except PyErr (Dict Nat (List Nat)) :=
  nodeMap (fun n => if g.undirected then .error .attributeError else .ok (nxPred (toNetworkx g) n))
    (toNetworkx g).nodes.keys

/-- The keys of the attributes in `compute_graph_rcpsp`: modes and names (rcpsp_utils.py 367-381). -/
inductive Key where
  | mode (m : Nat)
  | name (s : String)
  deriving DecidableEq

/-- `{mode: mode_details[n][mode]["duration"] for mode in mode_details[n]}` (rcpsp_model.py 508-509). -/
def durations (modes : Dict Nat Rcpsp.Mode) : Attrs Key := modes.map (fun p => (Key.mode p.1, (p.2.duration : Int)))

/-- The list `nodes` (rcpsp_model.py 508-510, rcpsp_utils.py 367-369), `n` entries from `i` on. -/
def graphNodes (pb : Rcpsp.Problem) : Nat → Nat → Except PyErr (List (Nat × Attrs Key))
  | 0, _ => .ok []
  | n + 1, i => do
    let ms ← pb.modes.get i
    let rest ← graphNodes pb n (i + 1)
    .ok ((i, durations ms) :: rest)

/-- `compute_graph` (rcpsp_model.py 507-515). -/
def computeGraph (pb : Rcpsp.Problem) : Except PyErr (Input Key) := do
  let nodes ← graphNodes pb pb.modes.length 1
  .ok { nodes := nodes
        edges := pb.successors.flatMap (fun p => p.2.map (fun s => { src := p.1, dst := s, attrs := [] }))
        undirected := false }

/-- `min(dict_transition.values())`, which raises for an empty dictionary (rcpsp_utils.py 375). -/
def minValue (d : Attrs Key) : Except PyErr Int :=
  match (d.map Prod.snd).min? with
  | some x => .ok x
  | none => .error .valueError

/-- `max(dict_transition.values())` (rcpsp_utils.py 376). -/
def maxValue (d : Attrs Key) : Except PyErr Int :=
  match (d.map Prod.snd).max? with
  | some x => .ok x
  | none => .error .valueError

/-- `dict_transition` (rcpsp_utils.py 373-381). -/
def transition (pb : Rcpsp.Problem) (n : Nat) : Except PyErr (Attrs Key) := do
  let ms ← pb.modes.get n
  let d := durations ms
  let lo ← minValue d
  let hi ← maxValue d
  .ok (((((d.set (.name "min_duration") lo).set (.name "max_duration") hi).set (.name "minus_min_duration") (-lo)).set
    (.name "minus_max_duration") (-hi)).set (.name "link") 1)

/-- The edges from one activity (rcpsp_utils.py 372-382). -/
def edgesFrom (pb : Rcpsp.Problem) (n : Nat) : List Nat → Except PyErr (List (Edge Key))
  | [] => .ok []
  | s :: ss => do
    let d ← transition pb n
    let rest ← edgesFrom pb n ss
    .ok ({ src := n, dst := s, attrs := d } :: rest)

/-- The edges from all activities (rcpsp_utils.py 370-382). -/
def allEdges (pb : Rcpsp.Problem) : Dict Nat (List Nat) → Except PyErr (List (Edge Key))
  | [] => .ok []
  | (n, ss) :: rest => do
    let es ← edgesFrom pb n ss
    let r ← allEdges pb rest
    .ok (es ++ r)

/-- `compute_graph_rcpsp` (rcpsp_utils.py 366-383). -/
def computeGraphRcpsp (pb : Rcpsp.Problem) : Except PyErr (Input Key) := do
  let nodes ← graphNodes pb pb.modes.length 1
  let edges ← allEdges pb pb.successors
  .ok { nodes := nodes, edges := edges, undirected := false }

end Verif.GraphApi
