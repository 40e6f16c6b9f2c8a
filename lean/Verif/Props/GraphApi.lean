import Verif.Lemmas.GraphApi
/- Properties of the class `Graph` (C172) and of the graphs of projects (C173). -/
namespace Verif.GraphApi

/-- C172: `get_neighbors(u)` holds exactly the nodes that a given edge leads to from `u` (from either end when the
graph is undirected), `get_predecessors(v)` exactly the nodes that it comes from, both without repetition;
`get_edges()` lists exactly the joined pairs. -/
theorem C172_neighbors (g : Input κ) (u v : Nat) :
    (v ∈ getNeighbors g u ↔ Joined g.undirected g.edges u v) ∧
    (u ∈ getPredecessors g v ↔ Joined g.undirected g.edges u v) ∧
    (getNeighbors g u).Nodup ∧ (getPredecessors g v).Nodup ∧
    ((u, v) ∈ getEdges g ↔ Joined g.undirected g.edges u v) := by
  refine ⟨?_, ?_, ?_, ?_, ?_⟩
  · unfold getNeighbors buildEdges
    rw [fold_neighbors]
    simp
  · unfold getPredecessors buildEdges
    rw [fold_predecessors]
    simp
  · exact (fold_nodup g.undirected g.edges { neighbors := [], predecessors := [], infos := [] }
      ⟨by simp, by simp⟩).1 u
  · exact (fold_nodup g.undirected g.edges { neighbors := [], predecessors := [], infos := [] }
      ⟨by simp, by simp⟩).2 v
  · unfold getEdges
    rw [← Dict.get?_isSome_iff_mem_keys]
    by_cases hj : ∃ e ∈ g.edges, Joins g.undirected e u v
    · have hs : ∀ (es : List (Edge κ)) (m : Maps κ), (∃ e ∈ es, Joins g.undirected e u v) ∨
          (m.infos.get? (u, v)).isSome = true →
          ((es.foldl (addEdge g.undirected) m).infos.get? (u, v)).isSome = true := by
        intro es
        induction es with
        | nil =>
          intro m h
          rcases h with ⟨e, he, -⟩ | h
          · simp at he
          · exact h
        | cons e es ih =>
          intro m h
          rw [List.foldl_cons]
          apply ih
          by_cases he : Joins g.undirected e u v
          · right
            rw [infos_addEdge_of _ _ _ _ _ he]
            rfl
          · rcases h with ⟨e', he', hj'⟩ | h
            · rcases List.mem_cons.1 he' with rfl | he'
              · exact absurd hj' he
              · exact .inl ⟨e', he', hj'⟩
            · right
              rw [infos_addEdge_ne _ _ _ _ _ he]
              exact h
      constructor
      · intro _; exact hj
      · intro _; exact hs _ _ (.inl hj)
    · constructor
      · intro h
        exfalso
        unfold buildEdges at h
        rw [fold_infos_ne _ _ _ _ _ (fun e he hj' => hj ⟨e, he, hj'⟩)] at h
        simp at h
      · intro h
        exact absurd h hj

/-- C172: in an undirected graph the neighbours of a node are its predecessors, and it is a neighbour of each of
them. -/
theorem C172_symmetric (g : Input κ) (hu : g.undirected = true) (u v : Nat) :
    (v ∈ getNeighbors g u ↔ u ∈ getNeighbors g v) ∧ (v ∈ getNeighbors g u ↔ v ∈ getPredecessors g u) := by
  have hs : ∀ a b, Joined g.undirected g.edges a b → Joined g.undirected g.edges b a := by
    rintro a b ⟨e, he, h | ⟨-, h1, h2⟩⟩
    · exact ⟨e, he, .inr ⟨hu, h.1, h.2⟩⟩
    · exact ⟨e, he, .inl ⟨h1, h2⟩⟩
  rw [(C172_neighbors g u v).1, (C172_neighbors g v u).1, (C172_neighbors g v u).2.1]
  exact ⟨⟨hs _ _, hs _ _⟩, ⟨hs _ _, hs _ _⟩⟩

/-- C172: an attribute of an edge is the one of the last given edge that joins the pair, whatever the earlier ones
were; without such an edge there is none. -/
theorem C172_attr_edge [DecidableEq κ] (g : Input κ) (u v : Nat) (a : κ) :
    (∀ pre e post, g.edges = pre ++ e :: post → Joins g.undirected e u v →
      (∀ e' ∈ post, ¬ Joins g.undirected e' u v) → attrEdge g u v a = e.attrs.get? a) ∧
    ((∀ e ∈ g.edges, ¬ Joins g.undirected e u v) → attrEdge g u v a = none) := by
  constructor
  · intro pre e post hg he hp
    unfold attrEdge buildEdges
    rw [hg, fold_infos_last _ _ _ _ _ _ _ he hp]
    rfl
  · intro h
    unfold attrEdge buildEdges
    rw [fold_infos_ne _ _ _ _ _ h]
    rfl

/-- C172: in an undirected graph an edge and its reverse have the same attributes. -/
theorem C172_attr_symmetric [DecidableEq κ] (g : Input κ) (hu : g.undirected = true) (u v : Nat) (a : κ) :
    attrEdge g u v a = attrEdge g v u a := by
  have hs : ∀ e : Edge κ, Joins g.undirected e u v ↔ Joins g.undirected e v u := by
    intro e
    simp only [Joins, hu, true_and]
    exact Or.comm
  have hm : ∀ (es : List (Edge κ)) (m : Maps κ), m.infos.get? (u, v) = m.infos.get? (v, u) →
      (es.foldl (addEdge g.undirected) m).infos.get? (u, v) =
        (es.foldl (addEdge g.undirected) m).infos.get? (v, u) := by
    intro es
    induction es with
    | nil => intro m h; exact h
    | cons e es ih =>
      intro m h
      rw [List.foldl_cons]
      apply ih
      by_cases he : Joins g.undirected e u v
      · rw [infos_addEdge_of _ _ _ _ _ he, infos_addEdge_of _ _ _ _ _ ((hs e).1 he)]
      · rw [infos_addEdge_ne _ _ _ _ _ he, infos_addEdge_ne _ _ _ _ _ (fun h' => he ((hs e).2 h')), h]
  unfold attrEdge buildEdges
  rw [hm _ _ rfl]

/-- C172: `get_nodes()` lists the given nodes, each once, in increasing order; the attributes of a node are those
given last. -/
theorem C172_nodes [DecidableEq κ] (g : Input κ) :
    (getNodes g).Pairwise (· < ·) ∧ (∀ n, n ∈ getNodes g ↔ n ∈ g.nodes.map Prod.fst) ∧
    (∀ pre n d post, g.nodes = pre ++ (n, d) :: post → (∀ p ∈ post, p.1 ≠ n) → ∀ a : κ,
      attrNode g n a = d.get? a) ∧
    (∀ n, n ∉ g.nodes.map Prod.fst → ∀ a : κ, attrNode g n a = none) := by
  obtain ⟨hnd, hmem⟩ := foldl_set_keys g.nodes [] (by simp [Dict.keys])
  have hperm := sortBy_perm (fun n : Nat => (n : Int)) (nodeInfos g.nodes).keys
  refine ⟨?_, ?_, ?_, ?_⟩
  · have h1 := sortBy_sorted (fun n : Nat => (n : Int)) (nodeInfos g.nodes).keys
    have h2 : (getNodes g).Nodup := hperm.nodup_iff.2 hnd
    have h3 := h1.and h2
    exact h3.imp (fun ⟨ha, hb⟩ => by omega)
  · intro n
    show n ∈ sortBy _ _ ↔ _
    rw [hperm.mem_iff]
    show n ∈ (nodeInfos g.nodes).keys ↔ _
    unfold nodeInfos
    rw [hmem]
    simp [Dict.keys]
  · intro pre n d post hg hp a
    unfold attrNode
    rw [hg, nodeInfos_last _ _ _ _ hp]
    rfl
  · intro n hn a
    unfold attrNode nodeInfos
    rw [nodeInfos_ne]
    · rfl
    · intro p hp he
      exact hn (List.mem_map.2 ⟨p, hp, he⟩)

/-- A node given twice and one edge. -/
def g1 : Input String :=
  { nodes := [(3, [("a", 1)]), (1, []), (3, [("b", 2)])]
    edges := [{ src := 1, dst := 3, attrs := [("w", 5)] }]
    undirected := false }

example : getNodes g1 = [1, 3] ∧ getNeighbors g1 1 = [3] ∧ getNeighbors g1 3 = [] ∧ attrNode g1 3 "a" = none ∧
    attrEdge g1 1 3 "w" = some 5 ∧ { g1 with undirected := true }.undirected = true :=
  ⟨by decide +kernel, by decide +kernel, by decide +kernel, by decide +kernel, by decide +kernel, rfl⟩

/-- C172 refuted: neighbours need not be nodes of the graph.  An edge may name a node that was not given: it is
among the neighbours, `get_nodes()` lacks it, and the networkx graph has it. -/
theorem C172_closed_refuted :
    ∃ (g : Input String) (u v : Nat), u ∈ getNodes g ∧ v ∈ getNeighbors g u ∧ v ∉ getNodes g ∧
      v ∈ (toNetworkx g).nodes.keys :=
  ⟨{ nodes := [(1, [])], edges := [{ src := 1, dst := 2, attrs := [] }], undirected := false }, 1, 2,
    by decide +kernel, by decide +kernel, by decide +kernel, by decide +kernel⟩

/-- C172 refuted: the networkx graph need not have the attributes of the graph.  An edge given twice keeps in
networkx the attributes of the first time that the second time does not name, while `get_attr_edge` forgets them;
likewise for nodes. -/
theorem C172_merge_refuted :
    ∃ (g : Input String), attrEdge g 1 2 "a" = none ∧
      ((toNetworkx g).edges.get? (1, 2)).bind (fun d => d.get? "a") = some 7 ∧
      attrNode g 1 "b" = none ∧ ((toNetworkx g).nodes.get? 1).bind (fun d => d.get? "b") = some 3 :=
  ⟨{ nodes := [(1, [("b", 3)]), (2, []), (1, [])],
     edges := [{ src := 1, dst := 2, attrs := [("a", 7)] }, { src := 1, dst := 2, attrs := [] }],
     undirected := false }, by decide +kernel, by decide +kernel, by decide +kernel, by decide +kernel⟩

/-- C172 refuted: in an undirected graph given with both directions of an edge, the attributes of the first
direction are lost: `get_attr_edge(1, 2, "w")` answers with what was given for `(2, 1)`. -/
theorem C172_reverse_refuted :
    ∃ (g : Input String), g.undirected = true ∧
      ({ src := 1, dst := 2, attrs := [("w", 5)] } : Edge String) ∈ g.edges ∧
      (∀ e ∈ g.edges, e.src = 1 → e.attrs.get? "w" = some 5) ∧ attrEdge g 1 2 "w" = some 9 :=
  ⟨{ nodes := [(1, []), (2, [])],
     edges := [{ src := 1, dst := 2, attrs := [("w", 5)] }, { src := 2, dst := 1, attrs := [("w", 9)] }],
     undirected := true }, rfl, by decide +kernel, by decide +kernel, by decide +kernel⟩

/-- C172: the nodes of the networkx graph are the given ones and the ends of the given edges, and it joins the same
pairs as the graph. -/
theorem C172_networkx [DecidableEq κ] (g : Input κ) :
    (∀ n, n ∈ (toNetworkx g).nodes.keys ↔ n ∈ g.nodes.map Prod.fst ∨ ∃ e ∈ g.edges, e.src = n ∨ e.dst = n) ∧
    (∀ u v, v ∈ nxSucc (toNetworkx g) u ↔ v ∈ getNeighbors g u) ∧
    (∀ u v, u ∈ nxPred (toNetworkx g) v ↔ u ∈ getPredecessors g v) :=
  ⟨toNetworkx_nodes g, fun u v => by rw [mem_nxSucc, (C172_neighbors g u v).1],
    fun u v => by rw [mem_nxPred, (C172_neighbors g u v).2.1]⟩

/-- C172: `precedessors_nodes(n)` is, without repetition, the set of other nodes from which a path of given edges
leads to `n`; for a node that is neither given nor an end of an edge it raises. -/
theorem C172_ancestors [DecidableEq κ] (g : Input κ) (n : Nat) :
    (n ∈ (toNetworkx g).nodes.keys → ∃ l, predecessorsNodes g n = .ok l ∧ l.Nodup ∧ ∀ u, u ∈ l ↔
      u ≠ n ∧ Relation.TransGen (fun a b => b ∈ getNeighbors g a) u n) ∧
    (n ∉ (toNetworkx g).nodes.keys → predecessorsNodes g n = .error .runtimeError) := by
  have heq : (fun a b => b ∈ getNeighbors g a) = Joined g.undirected g.edges := by
    funext a b
    exact propext (C172_neighbors g a b).1
  rw [heq]
  constructor
  · exact nxAncestors_ok g n
  · intro hn
    unfold predecessorsNodes nxAncestors
    rw [if_neg]
    rw [Dict.contains_iff, Dict.get?_isSome_iff_mem_keys]
    exact hn

/-- A cycle of three nodes and one more behind it. -/
def g2 : Input String :=
  { nodes := [(1, []), (2, []), (3, []), (4, [])]
    edges := [{ src := 1, dst := 2, attrs := [] }, { src := 2, dst := 3, attrs := [] },
      { src := 3, dst := 1, attrs := [] }, { src := 3, dst := 4, attrs := [] }]
    undirected := false }

example : predecessorsNodes g2 2 = .ok [1, 3] ∧ predecessorsNodes g2 4 = .ok [3, 2, 1] ∧
    predecessorsNodes g2 5 = .error .runtimeError ∧ descendantsMap g2 = .ok [(1, [2, 3, 4]), (2, [3, 1, 4]),
      (3, [1, 4, 2]), (4, [])] :=
  ⟨by decide +kernel, by decide +kernel, by decide +kernel, by decide +kernel⟩

/-- C172: `ancestors_map`, `descendants_map`, `successors_map` and (for directed graphs) `predecessors_map` return,
with one entry per node of the networkx graph: the nodes with a path to it, the nodes with a path from it, its
neighbours, its predecessors. -/
theorem C172_maps [DecidableEq κ] (g : Input κ) :
    (∃ d, ancestorsMap g = .ok d ∧ d.keys = (toNetworkx g).nodes.keys ∧ ∀ n l, d.get? n = some l → ∀ u, u ∈ l ↔
      u ≠ n ∧ Relation.TransGen (fun a b => b ∈ getNeighbors g a) u n) ∧
    (∃ d, descendantsMap g = .ok d ∧ d.keys = (toNetworkx g).nodes.keys ∧ ∀ n l, d.get? n = some l → ∀ u, u ∈ l ↔
      u ≠ n ∧ Relation.TransGen (fun a b => b ∈ getNeighbors g a) n u) ∧
    (∃ d, successorsMap g = .ok d ∧ d.keys = (toNetworkx g).nodes.keys ∧ ∀ n l, d.get? n = some l → ∀ v, v ∈ l ↔
      v ∈ getNeighbors g n) ∧
    (g.undirected = false → ∃ d, predecessorsMap g = .ok d ∧ d.keys = (toNetworkx g).nodes.keys ∧
      ∀ n l, d.get? n = some l → ∀ u, u ∈ l ↔ u ∈ getPredecessors g n) := by
  have heq : (fun a b => b ∈ getNeighbors g a) = Joined g.undirected g.edges := by
    funext a b
    exact propext (C172_neighbors g a b).1
  rw [heq]
  refine ⟨?_, ?_, ?_, ?_⟩
  · exact nodeMap_ok _ (fun n hn => (nxAncestors_ok g n hn).imp (fun l h => ⟨h.1, h.2.2⟩))
  · exact nodeMap_ok _ (fun n hn => (nxDescendants_ok g n hn).imp (fun l h => ⟨h.1, h.2.2⟩))
  · exact nodeMap_ok _ (fun n hn => ⟨_, rfl, fun v => (C172_networkx g).2.1 n v⟩)
  · intro hu
    unfold predecessorsMap
    rw [hu]
    exact nodeMap_ok _ (fun n hn => ⟨_, rfl, fun u => (C172_networkx g).2.2 u n⟩)

/-- C172 refuted: `predecessors_map` does not work for every graph.  For an undirected graph with a node it raises
`AttributeError`, although `get_predecessors` answers. -/
theorem C172_undirected_refuted [DecidableEq κ] (g : Input κ) (hu : g.undirected = true)
    (hn : (toNetworkx g).nodes ≠ []) : predecessorsMap g = .error .attributeError := by
  unfold predecessorsMap
  rw [hu]
  cases h : (toNetworkx g).nodes with
  | nil => exact absurd h hn
  | cons p ps => rfl

example : (toNetworkx ({ nodes := [(1, [])], edges := [], undirected := true } : Input String)).nodes ≠ [] := by
  decide +kernel

/-- C173: when the activities are numbered from 1 on, `compute_graph` returns a directed graph whose nodes are the
activities, with the duration of each mode as attribute, and whose neighbours are the successors; when a number
is missing it raises `KeyError`. -/
theorem C173_graph (pb : Rcpsp.Problem) :
    ((∀ k, 1 ≤ k → k ≤ pb.modes.length → ∃ ms, pb.modes.get? k = some ms) →
      ∃ g, computeGraph pb = .ok g ∧ getNodes g = List.range' 1 pb.modes.length ∧
        (∀ k ms m, 1 ≤ k → k ≤ pb.modes.length → pb.modes.get? k = some ms →
          attrNode g k (.mode m) = (ms.get? m).map (fun x => (x.duration : Int))) ∧
        ∀ u v, v ∈ getNeighbors g u ↔ ∃ ss, (u, ss) ∈ pb.successors ∧ v ∈ ss) ∧
    (∀ k, 1 ≤ k → k ≤ pb.modes.length → pb.modes.get? k = none →
      computeGraph pb = .error .keyError ∧ computeGraphRcpsp pb = .error .keyError) := by
  constructor
  · intro h
    obtain ⟨l, hl, hr, hd⟩ := graphNodes_ok pb pb.modes.length 1 (fun k h1 h2 => h k h1 (by omega))
    have hn : (l.map Prod.fst).Nodup := by rw [hr]; exact List.nodup_range'
    refine ⟨_, by simp only [computeGraph, hl, bind_ok]; rfl, ?_, ?_, ?_⟩
    · apply List.Perm.eq_of_pairwise (le := fun a b : Nat => a < b)
      · intro a b _ _ h1 h2; omega
      · exact (C172_nodes _).1
      · exact List.pairwise_lt_range'
      · rw [List.perm_ext_iff_of_nodup ((C172_nodes _).1.imp (fun h => Nat.ne_of_lt h)) List.nodup_range']
        intro a
        rw [(C172_nodes _).2.1]
        show a ∈ l.map Prod.fst ↔ _
        rw [hr]
    · intro k ms m h1 h2 hk
      show ((nodeInfos l).get? k).bind _ = _
      rw [nodup_last hn (hd k ms hk h1 (by omega))]
      exact get_durations ms m
    · intro u v
      rw [(C172_neighbors _ u v).1]
      simp only [Joined, Bool.false_eq_true, false_and, or_false, List.mem_flatMap, List.mem_map]
      constructor
      · rintro ⟨e, ⟨p, hp, s, hs, rfl⟩, rfl, rfl⟩
        exact ⟨p.2, hp, hs⟩
      · rintro ⟨ss, hss, hv⟩
        exact ⟨_, ⟨(u, ss), hss, v, hv, rfl⟩, rfl, rfl⟩
  · intro k h1 h2 hk
    have := graphNodes_error pb pb.modes.length 1 k h1 (by omega) hk
    constructor
    · simp only [computeGraph, this]
      rfl
    · simp only [computeGraphRcpsp, this]
      rfl

/-- Two activities with two modes and one. -/
def pb1 : Rcpsp.Problem :=
  { resources := [], nonRenewable := [],
    modes := [(1, [(1, ⟨4, []⟩), (2, ⟨3, []⟩)]), (2, [(1, ⟨0, []⟩)])],
    successors := [(1, [2]), (2, [])], horizon := 9, multiplier := 1 }

example : ∀ k, 1 ≤ k → k ≤ pb1.modes.length → ∃ ms, pb1.modes.get? k = some ms := by
  intro k h1 h2
  have : k = 1 ∨ k = 2 := by simp [pb1] at h2; omega
  rcases this with rfl | rfl <;> exact ⟨_, rfl⟩

/-- C173: when the activities are numbered from 1 on and every activity with successors has a mode,
`compute_graph_rcpsp` returns the same nodes and neighbours, and each edge carries the duration of each mode of the
activity it leaves, the smallest and the largest of them, both negated, and `link` 1. -/
theorem C173_rcpsp (pb : Rcpsp.Problem)
    (h : ∀ k, 1 ≤ k → k ≤ pb.modes.length → ∃ ms, pb.modes.get? k = some ms)
    (hs : ∀ n ss, (n, ss) ∈ pb.successors → ss ≠ [] → ∃ ms, pb.modes.get? n = some ms ∧ ms ≠ []) :
    ∃ g g', computeGraphRcpsp pb = .ok g ∧ computeGraph pb = .ok g' ∧ getNodes g = getNodes g' ∧
      (∀ u v, v ∈ getNeighbors g u ↔ v ∈ getNeighbors g' u) ∧
      ∀ u v ms, v ∈ getNeighbors g u → pb.modes.get? u = some ms →
        ∃ lo hi : Nat, (lo ∈ ms.map (fun p => p.2.duration) ∧ ∀ p ∈ ms, lo ≤ p.2.duration) ∧
          (hi ∈ ms.map (fun p => p.2.duration) ∧ ∀ p ∈ ms, p.2.duration ≤ hi) ∧
          attrEdge g u v (.name "min_duration") = some (lo : Int) ∧
          attrEdge g u v (.name "max_duration") = some (hi : Int) ∧
          attrEdge g u v (.name "minus_min_duration") = some (-(lo : Int)) ∧
          attrEdge g u v (.name "minus_max_duration") = some (-(hi : Int)) ∧
          attrEdge g u v (.name "link") = some 1 ∧
          ∀ m, attrEdge g u v (.mode m) = (ms.get? m).map (fun x => (x.duration : Int)) := by
  obtain ⟨g', hg', hnodes', -, hnb'⟩ := (C173_graph pb).1 h
  obtain ⟨es, hes, hmem⟩ := allEdges_ok pb pb.successors (fun n ss hn hne => by
    obtain ⟨ms, hms, hne'⟩ := hs n ss hn hne
    obtain ⟨d, lo, hi, hd, -⟩ := transition_ok pb n hms hne'
    exact ⟨d, hd⟩)
  obtain ⟨l, hl, hr, hd⟩ := graphNodes_ok pb pb.modes.length 1 (fun k h1 h2 => h k h1 (by omega))
  have hgn : g' = { nodes := l, edges := g'.edges, undirected := g'.undirected } := by
    simp only [computeGraph, hl, bind_ok] at hg'
    rw [← Except.ok.inj hg']
  have hnb : ∀ u v, v ∈ getNeighbors ({ nodes := l, edges := es, undirected := false } : Input Key) u ↔
      ∃ e ∈ es, e.src = u ∧ e.dst = v := by
    intro u v
    rw [(C172_neighbors _ u v).1]
    simp only [Joined, Bool.false_eq_true, false_and, or_false]
  refine ⟨{ nodes := l, edges := es, undirected := false }, g', ?_, hg', ?_, ?_, ?_⟩
  · simp only [computeGraphRcpsp, hl, bind_ok, hes]
  · rw [hgn]
    rfl
  · intro u v
    rw [hnb, hnb']
    constructor
    · rintro ⟨e, he, rfl, rfl⟩
      obtain ⟨n, ss, hss, h1, h2, -⟩ := (hmem e).1 he
      subst h1
      exact ⟨ss, hss, h2⟩
    · rintro ⟨ss, hss, hv⟩
      obtain ⟨ms, hms, hne⟩ := hs u ss hss (List.ne_nil_of_mem hv)
      obtain ⟨d, lo, hi, hd, -⟩ := transition_ok pb u hms hne
      exact ⟨{ src := u, dst := v, attrs := d }, (hmem _).2 ⟨u, ss, hss, rfl, hv, hd⟩, rfl, rfl⟩
  · intro u v ms hv hms
    obtain ⟨pre, e, post, hsplit, he, hpost⟩ := last_split (fun e => e.src = u ∧ e.dst = v) es ((hnb u v).1 hv)
    obtain ⟨n, ss, hss, h1, h2, h3⟩ := (hmem e).1 (by rw [hsplit]; simp)
    rw [he.1] at h1
    subst h1
    obtain ⟨ms', hms', hne⟩ := hs u ss hss (List.ne_nil_of_mem h2)
    rw [hms] at hms'
    cases hms'
    obtain ⟨d, lo, hi, hd, hlo, hhi, a1, a2, a3, a4, a5, a6⟩ := transition_ok pb u hms hne
    rw [hd] at h3
    have hde := Except.ok.inj h3
    have hattr : ∀ a, attrEdge ({ nodes := l, edges := es, undirected := false } : Input Key) u v a = d.get? a := by
      intro a
      rw [(C172_attr_edge _ u v a).1 pre e post hsplit (.inl he)
        (fun e' he' hj => hpost e' he' (by simpa [Joins] using hj)), ← hde]
    refine ⟨lo, hi, hlo, hhi, ?_, ?_, ?_, ?_, ?_, ?_⟩
    · rw [hattr, a1]
    · rw [hattr, a2]
    · rw [hattr, a3]
    · rw [hattr, a4]
    · rw [hattr, a5]
    · intro m; rw [hattr, a6]

example : (∀ n ss, (n, ss) ∈ pb1.successors → ss ≠ [] → ∃ ms, pb1.modes.get? n = some ms ∧ ms ≠ []) ∧
    (computeGraphRcpsp pb1).map (fun g => (attrEdge g 1 2 (.name "min_duration"), attrEdge g 1 2 (.name "max_duration"),
      attrEdge g 2 1 (.name "link"))) = .ok (some 3, some 4, none) := by
  constructor
  · intro n ss hn hne
    simp only [pb1, List.mem_cons, Prod.mk.injEq, List.not_mem_nil, or_false] at hn
    rcases hn with ⟨rfl, rfl⟩ | ⟨rfl, rfl⟩
    · exact ⟨[(1, ⟨4, []⟩), (2, ⟨3, []⟩)], rfl, by simp⟩
    · exact absurd rfl hne
  · decide +kernel

/-- C173: an activity with successors but without modes (or without an entry in the mode table) makes
`compute_graph_rcpsp` raise `ValueError` or `KeyError`, while `compute_graph` does not look at its modes. -/
theorem C173_errors (pb : Rcpsp.Problem)
    (h : ∀ k, 1 ≤ k → k ≤ pb.modes.length → ∃ ms, pb.modes.get? k = some ms)
    (hs : ∃ n ss, (n, ss) ∈ pb.successors ∧ ss ≠ [] ∧ ¬ ∃ ms, pb.modes.get? n = some ms ∧ ms ≠ []) :
    (computeGraphRcpsp pb = .error .keyError ∨ computeGraphRcpsp pb = .error .valueError) ∧
      ∃ g, computeGraph pb = .ok g := by
  obtain ⟨l, hl, -, -⟩ := graphNodes_ok pb pb.modes.length 1 (fun k h1 h2 => h k h1 (by omega))
  constructor
  · rcases allEdges_error pb pb.successors hs with he | he
    · left; simp only [computeGraphRcpsp, hl, bind_ok, he, bind_error]
    · right; simp only [computeGraphRcpsp, hl, bind_ok, he, bind_error]
  · exact ⟨_, by simp only [computeGraph, hl, bind_ok]; rfl⟩

example : (computeGraphRcpsp { pb1 with modes := [(1, []), (2, [(1, ⟨0, []⟩)])] }).map (fun g => g.nodes) =
    .error .valueError := by decide +kernel

end Verif.GraphApi
