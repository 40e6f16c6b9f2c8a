import Verif.Model.GraphApi
import Mathlib.Data.List.Perm.Subperm
import Mathlib.Logic.Relation
/- Lemmas about the class `Graph`. -/
namespace Verif.GraphApi

theorem nodup_eraseDups_aux (n : Nat) : ∀ l : List Nat, l.length ≤ n → l.eraseDups.Nodup := by
  induction n with
  | zero =>
    intro l hl
    have : l = [] := List.length_eq_zero_iff.1 (by omega)
    subst this
    simp
  | succ n ih =>
    intro l hl
    cases l with
    | nil => simp
    | cons a as =>
      rw [List.eraseDups_cons, List.nodup_cons]
      constructor
      · rw [List.mem_eraseDups]
        intro h
        have := (List.mem_filter.1 h).2
        simp at this
      · apply ih
        have := List.length_filter_le (fun b => !b == a) as
        simp only [List.length_cons] at hl
        omega

theorem nodup_eraseDups (l : List Nat) : l.eraseDups.Nodup := nodup_eraseDups_aux l.length l (Nat.le_refl _)

theorem mem_grow {next : Nat → List Nat} {s : List Nat} {v : Nat} :
    v ∈ grow next s ↔ v ∈ s ∨ ∃ u ∈ s, v ∈ next u := by
  simp [grow, List.mem_flatMap]

theorem reach_succ (next : Nat → List Nat) (k : Nat) (s : List Nat) :
    reach next (k + 1) s = grow next (reach next k s) := by
  induction k generalizing s with
  | zero => rfl
  | succ k ih =>
    show reach next (k + 1) (grow next s) = _
    rw [ih]
    rfl

/-- A list all of whose neighbours are in it. -/
def Closed (next : Nat → List Nat) (s : List Nat) : Prop := ∀ u ∈ s, ∀ v ∈ next u, v ∈ s

theorem nodup_reach {next : Nat → List Nat} (k n : Nat) : (reach next k [n]).Nodup := by
  cases k with
  | zero => simp [reach]
  | succ k =>
    rw [reach_succ]
    exact nodup_eraseDups _

theorem reach_closed {next : Nat → List Nat} (n : Nat) (k : Nat) :
    Closed next (reach next k [n]) ∨ k < (reach next k [n]).length := by
  induction k with
  | zero => right; simp [reach]
  | succ k ih =>
    by_cases hc : Closed next (reach next k [n])
    · left
      rw [reach_succ]
      intro u hu v hv
      rw [mem_grow] at hu ⊢
      have hu' : u ∈ reach next k [n] := by
        rcases hu with h | ⟨w, hw, hwu⟩
        · exact h
        · exact hc w hw u hwu
      exact .inl (hc u hu' v hv)
    · right
      have hk : k < (reach next k [n]).length := by
        rcases ih with h | h
        · exact absurd h hc
        · exact h
      have hex : ∃ u ∈ reach next k [n], ∃ v ∈ next u, v ∉ reach next k [n] := by
        apply Classical.byContradiction
        intro h
        apply hc
        intro u hu v hv
        apply Classical.byContradiction
        intro hv'
        exact h ⟨u, hu, v, hv, hv'⟩
      obtain ⟨u, hu, v, hv, hnv⟩ := hex
      rw [reach_succ]
      have hsub : (v :: reach next k [n]).Subperm (grow next (reach next k [n])) := by
        apply List.Nodup.subperm
        · rw [List.nodup_cons]
          exact ⟨hnv, nodup_reach k n⟩
        · intro x hx
          rw [mem_grow]
          rcases List.mem_cons.1 hx with rfl | hx
          · exact .inr ⟨u, hu, hv⟩
          · exact .inl hx
      have := hsub.length_le
      simp only [List.length_cons] at this
      omega

theorem reach_sound {next : Nat → List Nat} {n : Nat} (k : Nat) {v : Nat} (h : v ∈ reach next k [n]) :
    v = n ∨ Relation.TransGen (fun a b => b ∈ next a) n v := by
  induction k generalizing v with
  | zero => left; simpa [reach] using h
  | succ k ih =>
    rw [reach_succ, mem_grow] at h
    rcases h with h | ⟨u, hu, hv⟩
    · exact ih h
    · rcases ih hu with rfl | hu
      · exact .inr (.single hv)
      · exact .inr (hu.tail hv)

theorem self_mem_reach {next : Nat → List Nat} (n k : Nat) : n ∈ reach next k [n] := by
  induction k with
  | zero => simp [reach]
  | succ k ih => rw [reach_succ, mem_grow]; exact .inl ih

/-- After as many rounds as there are nodes, exactly the nodes on paths from `n` have been found. -/
theorem mem_reach {next : Nat → List Nat} {nodes : List Nat} {n : Nat} (hn : n ∈ nodes)
    (hnext : ∀ u v, v ∈ next u → v ∈ nodes) (v : Nat) :
    v ∈ reach next nodes.length [n] ↔ v = n ∨ Relation.TransGen (fun a b => b ∈ next a) n v := by
  constructor
  · exact reach_sound _
  · have hcl : Closed next (reach next nodes.length [n]) := by
      rcases reach_closed (next := next) n nodes.length with h | h
      · exact h
      · exfalso
        have hsub : (reach next nodes.length [n]).Subperm nodes := by
          apply List.Nodup.subperm (nodup_reach _ _)
          intro x hx
          rcases reach_sound _ hx with rfl | hx
          · exact hn
          · cases hx with
            | single h => exact hnext _ _ h
            | tail _ h => exact hnext _ _ h
        have := hsub.length_le
        omega
    rintro (rfl | h)
    · exact self_mem_reach _ _
    · induction h with
      | single h => exact hcl _ (self_mem_reach _ _) _ h
      | tail _ h ih => exact hcl _ ih _ h

/-- The edge from `u` to `v` is among the given ones, in either direction when the graph is undirected. -/
def Joined (undirected : Bool) (edges : List (Edge κ)) (u v : Nat) : Prop :=
  ∃ e ∈ edges, (e.src = u ∧ e.dst = v) ∨ (undirected = true ∧ e.src = v ∧ e.dst = u)

theorem mem_addTo (d : Dict Nat (List Nat)) (k v a b : Nat) :
    b ∈ ((addTo d k v).get? a).getD [] ↔ b ∈ (d.get? a).getD [] ∨ (a = k ∧ b = v) := by
  unfold addTo
  by_cases hak : a = k
  · subst hak
    rw [Dict.get?_set_self]
    simp only [Option.getD_some]
    split
    · rename_i h
      simp only [List.contains_iff_mem] at h
      constructor
      · exact .inl
      · rintro (h' | ⟨-, rfl⟩)
        · exact h'
        · exact h
    · simp
  · rw [Dict.get?_set_ne _ _ hak]
    simp [hak]

theorem nodup_addTo {d : Dict Nat (List Nat)} {k v : Nat} (h : ∀ a, ((d.get? a).getD []).Nodup) (a : Nat) :
    (((addTo d k v).get? a).getD []).Nodup := by
  unfold addTo
  by_cases hak : a = k
  · subst hak
    rw [Dict.get?_set_self]
    simp only [Option.getD_some]
    split
    · exact h a
    · rename_i hv
      rw [List.nodup_append]
      refine ⟨h a, by simp, ?_⟩
      intro x hx y hy
      simp only [List.mem_singleton] at hy
      subst hy
      rintro rfl
      exact hv (List.contains_iff_mem.2 hx)
  · rw [Dict.get?_set_ne _ _ hak]
    exact h a

theorem fold_neighbors (und : Bool) (edges : List (Edge κ)) (m : Maps κ) (u v : Nat) :
    v ∈ (((edges.foldl (addEdge und) m).neighbors.get? u).getD []) ↔
      v ∈ ((m.neighbors.get? u).getD []) ∨ Joined und edges u v := by
  induction edges generalizing m with
  | nil => simp [Joined]
  | cons e es ih =>
    rw [List.foldl_cons, ih]
    cases und with
    | false =>
      simp only [addEdge, Bool.false_eq_true, if_false, mem_addTo, Joined, List.mem_cons, exists_eq_or_imp, false_and,
        or_false]
      constructor
      · rintro ((h | ⟨rfl, rfl⟩) | h)
        · exact .inl h
        · exact .inr (.inl ⟨rfl, rfl⟩)
        · exact .inr (.inr h)
      · rintro (h | ⟨rfl, rfl⟩ | h)
        · exact .inl (.inl h)
        · exact .inl (.inr ⟨rfl, rfl⟩)
        · exact .inr h
    | true =>
      simp only [addEdge, if_true, mem_addTo, Joined, List.mem_cons, exists_eq_or_imp, true_and]
      constructor
      · rintro (((h | ⟨rfl, rfl⟩) | ⟨rfl, rfl⟩) | h)
        · exact .inl h
        · exact .inr (.inl (.inl ⟨rfl, rfl⟩))
        · exact .inr (.inl (.inr ⟨rfl, rfl⟩))
        · exact .inr (.inr h)
      · rintro (h | (⟨rfl, rfl⟩ | ⟨rfl, rfl⟩) | h)
        · exact .inl (.inl (.inl h))
        · exact .inl (.inl (.inr ⟨rfl, rfl⟩))
        · exact .inl (.inr ⟨rfl, rfl⟩)
        · exact .inr h

theorem fold_predecessors (und : Bool) (edges : List (Edge κ)) (m : Maps κ) (u v : Nat) :
    u ∈ (((edges.foldl (addEdge und) m).predecessors.get? v).getD []) ↔
      u ∈ ((m.predecessors.get? v).getD []) ∨ Joined und edges u v := by
  induction edges generalizing m with
  | nil => simp [Joined]
  | cons e es ih =>
    rw [List.foldl_cons, ih]
    cases und with
    | false =>
      simp only [addEdge, Bool.false_eq_true, if_false, mem_addTo, Joined, List.mem_cons, exists_eq_or_imp, false_and,
        or_false]
      constructor
      · rintro ((h | ⟨rfl, rfl⟩) | h)
        · exact .inl h
        · exact .inr (.inl ⟨rfl, rfl⟩)
        · exact .inr (.inr h)
      · rintro (h | ⟨rfl, rfl⟩ | h)
        · exact .inl (.inl h)
        · exact .inl (.inr ⟨rfl, rfl⟩)
        · exact .inr h
    | true =>
      simp only [addEdge, if_true, mem_addTo, Joined, List.mem_cons, exists_eq_or_imp, true_and]
      constructor
      · rintro (((h | ⟨rfl, rfl⟩) | ⟨rfl, rfl⟩) | h)
        · exact .inl h
        · exact .inr (.inl (.inl ⟨rfl, rfl⟩))
        · exact .inr (.inl (.inr ⟨rfl, rfl⟩))
        · exact .inr (.inr h)
      · rintro (h | (⟨rfl, rfl⟩ | ⟨rfl, rfl⟩) | h)
        · exact .inl (.inl (.inl h))
        · exact .inl (.inl (.inr ⟨rfl, rfl⟩))
        · exact .inl (.inr ⟨rfl, rfl⟩)
        · exact .inr h

theorem fold_nodup (und : Bool) (edges : List (Edge κ)) (m : Maps κ)
    (h : (∀ a, ((m.neighbors.get? a).getD []).Nodup) ∧ ∀ a, ((m.predecessors.get? a).getD []).Nodup) :
    (∀ a, (((edges.foldl (addEdge und) m).neighbors.get? a).getD []).Nodup) ∧
      ∀ a, (((edges.foldl (addEdge und) m).predecessors.get? a).getD []).Nodup := by
  induction edges generalizing m with
  | nil => exact h
  | cons e es ih =>
    rw [List.foldl_cons]
    apply ih
    cases und with
    | false =>
      simp only [addEdge, Bool.false_eq_true, if_false]
      exact ⟨nodup_addTo h.1, nodup_addTo h.2⟩
    | true =>
      simp only [addEdge, if_true]
      exact ⟨nodup_addTo (nodup_addTo h.1), nodup_addTo (nodup_addTo h.2)⟩

/-- The edge `e` joins `u` to `v`. -/
def Joins (undirected : Bool) (e : Edge κ) (u v : Nat) : Prop :=
  (e.src = u ∧ e.dst = v) ∨ (undirected = true ∧ e.src = v ∧ e.dst = u)

theorem infos_addEdge_of (und : Bool) (m : Maps κ) (e : Edge κ) (u v : Nat) (h : Joins und e u v) :
    (addEdge und m e).infos.get? (u, v) = some e.attrs := by
  cases und with
  | false =>
    simp only [Joins, Bool.false_eq_true, false_and, or_false] at h
    obtain ⟨rfl, rfl⟩ := h
    simp [addEdge, Dict.get?_set_self]
  | true =>
    simp only [addEdge, if_true, Dict.get?_set]
    rcases h with ⟨rfl, rfl⟩ | ⟨-, rfl, rfl⟩
    · split <;> simp
    · simp

theorem infos_addEdge_ne (und : Bool) (m : Maps κ) (e : Edge κ) (u v : Nat) (h : ¬ Joins und e u v) :
    (addEdge und m e).infos.get? (u, v) = m.infos.get? (u, v) := by
  cases und with
  | false =>
    simp only [Joins, Bool.false_eq_true, false_and, or_false] at h
    simp only [addEdge, Bool.false_eq_true, if_false]
    rw [Dict.get?_set_ne]
    simp only [ne_eq, Prod.mk.injEq]
    rintro ⟨rfl, rfl⟩
    exact h ⟨rfl, rfl⟩
  | true =>
    simp only [Joins, true_and, not_or] at h
    simp only [addEdge, if_true]
    rw [Dict.get?_set_ne, Dict.get?_set_ne]
    · simp only [ne_eq, Prod.mk.injEq]
      rintro ⟨rfl, rfl⟩
      exact h.1 ⟨rfl, rfl⟩
    · simp only [ne_eq, Prod.mk.injEq]
      rintro ⟨rfl, rfl⟩
      exact h.2 ⟨rfl, rfl⟩

theorem fold_infos_ne (und : Bool) (edges : List (Edge κ)) (m : Maps κ) (u v : Nat)
    (h : ∀ e ∈ edges, ¬ Joins und e u v) :
    (edges.foldl (addEdge und) m).infos.get? (u, v) = m.infos.get? (u, v) := by
  induction edges generalizing m with
  | nil => rfl
  | cons e es ih =>
    rw [List.foldl_cons, ih _ (fun e he => h e (List.mem_cons_of_mem _ he)),
      infos_addEdge_ne _ _ _ _ _ (h e List.mem_cons_self)]

theorem fold_infos_last (und : Bool) (pre post : List (Edge κ)) (e : Edge κ) (m : Maps κ) (u v : Nat)
    (he : Joins und e u v) (h : ∀ e ∈ post, ¬ Joins und e u v) :
    ((pre ++ e :: post).foldl (addEdge und) m).infos.get? (u, v) = some e.attrs := by
  rw [List.foldl_append, List.foldl_cons, fold_infos_ne _ _ _ _ _ h, infos_addEdge_of _ _ _ _ _ he]

theorem nodeInfos_ne (nodes : List (Nat × Attrs κ)) (d : Dict Nat (Attrs κ)) (n : Nat)
    (h : ∀ p ∈ nodes, p.1 ≠ n) :
    (nodes.foldl (fun d p => d.set p.1 p.2) d).get? n = d.get? n := by
  induction nodes generalizing d with
  | nil => rfl
  | cons p ps ih =>
    rw [List.foldl_cons, ih _ (fun q hq => h q (List.mem_cons_of_mem _ hq)),
      Dict.get?_set_ne _ _ (fun he => h p List.mem_cons_self he.symm)]

theorem nodeInfos_last (pre post : List (Nat × Attrs κ)) (n : Nat) (d : Attrs κ) (h : ∀ p ∈ post, p.1 ≠ n) :
    (nodeInfos (pre ++ (n, d) :: post)).get? n = some d := by
  unfold nodeInfos
  rw [List.foldl_append, List.foldl_cons, nodeInfos_ne _ _ _ h, Dict.get?_set_self]

theorem foldl_set_keys (nodes : List (Nat × Attrs κ)) (d : Dict Nat (Attrs κ)) (hn : d.keys.Nodup) :
    (nodes.foldl (fun d p => d.set p.1 p.2) d).keys.Nodup ∧
      ∀ n, n ∈ (nodes.foldl (fun d p => d.set p.1 p.2) d).keys ↔ n ∈ d.keys ∨ n ∈ nodes.map Prod.fst := by
  induction nodes generalizing d with
  | nil => exact ⟨hn, by simp⟩
  | cons p ps ih =>
    obtain ⟨h1, h2⟩ := ih (d.set p.1 p.2) (Dict.nodup_keys_set p.1 p.2 hn)
    refine ⟨h1, ?_⟩
    intro n
    rw [List.foldl_cons, h2, ← Dict.get?_isSome_iff_mem_keys, Dict.get?_set, ← Dict.get?_isSome_iff_mem_keys]
    by_cases h : n = p.1
    · subst h; simp
    · simp [h]

theorem mem_keys_nxAddNode [DecidableEq κ] (nodes : Dict Nat (Attrs κ)) (k : Nat) (d : Attrs κ) (n : Nat) :
    n ∈ (nxAddNode nodes k d).keys ↔ n ∈ nodes.keys ∨ n = k := by
  unfold nxAddNode
  rw [← Dict.get?_isSome_iff_mem_keys, Dict.get?_set, ← Dict.get?_isSome_iff_mem_keys]
  by_cases h : n = k
  · subst h; simp
  · simp [h]

theorem fold_nxAddNode [DecidableEq κ] (nodes : List (Nat × Attrs κ)) (d : Dict Nat (Attrs κ)) (n : Nat) :
    n ∈ (nodes.foldl (fun d p => nxAddNode d p.1 p.2) d).keys ↔ n ∈ d.keys ∨ n ∈ nodes.map Prod.fst := by
  induction nodes generalizing d with
  | nil => simp
  | cons p ps ih =>
    rw [List.foldl_cons, ih, mem_keys_nxAddNode]
    simp only [List.map_cons, List.mem_cons]
    constructor
    · rintro ((h | h) | h)
      · exact .inl h
      · exact .inr (.inl h)
      · exact .inr (.inr h)
    · rintro (h | h | h)
      · exact .inl (.inl h)
      · exact .inl (.inr h)
      · exact .inr h

theorem fold_nx_directed [DecidableEq κ] (edges : List (Edge κ)) (g : Nx κ) :
    (edges.foldl nxAddEdge g).directed = g.directed := by
  induction edges generalizing g with
  | nil => rfl
  | cons e es ih => rw [List.foldl_cons, ih]; rfl

theorem fold_nx_nodes [DecidableEq κ] (edges : List (Edge κ)) (g : Nx κ) (n : Nat) :
    n ∈ (edges.foldl nxAddEdge g).nodes.keys ↔ n ∈ g.nodes.keys ∨ ∃ e ∈ edges, e.src = n ∨ e.dst = n := by
  induction edges generalizing g with
  | nil => simp
  | cons e es ih =>
    rw [List.foldl_cons, ih]
    simp only [nxAddEdge, mem_keys_nxAddNode, List.mem_cons, exists_eq_or_imp]
    constructor
    · rintro (((h | rfl) | rfl) | h)
      · exact .inl h
      · exact .inr (.inl (.inl rfl))
      · exact .inr (.inl (.inr rfl))
      · exact .inr (.inr h)
    · rintro (h | (rfl | rfl) | h)
      · exact .inl (.inl (.inl h))
      · exact .inl (.inl (.inr rfl))
      · exact .inl (.inr rfl)
      · exact .inr h

theorem mem_keys_set (d : Dict (Nat × Nat) (Attrs κ)) (k p : Nat × Nat) (v : Attrs κ) :
    p ∈ (d.set k v).keys ↔ p ∈ d.keys ∨ p = k := by
  rw [← Dict.get?_isSome_iff_mem_keys, Dict.get?_set, ← Dict.get?_isSome_iff_mem_keys]
  by_cases h : p = k
  · subst h; simp
  · simp [h]

theorem fold_nx_edges [DecidableEq κ] (edges : List (Edge κ)) (g : Nx κ) (u v : Nat) :
    (u, v) ∈ (edges.foldl nxAddEdge g).edges.keys ↔ (u, v) ∈ g.edges.keys ∨ Joined (!g.directed) edges u v := by
  induction edges generalizing g with
  | nil => simp [Joined]
  | cons e es ih =>
    rw [List.foldl_cons, ih]
    cases hd : g.directed with
    | true =>
      simp only [nxAddEdge, hd, if_true, mem_keys_set, Joined, List.mem_cons, exists_eq_or_imp, Bool.not_true,
        Bool.false_eq_true, false_and, or_false, Prod.mk.injEq]
      constructor
      · rintro ((h | ⟨rfl, rfl⟩) | h)
        · exact .inl h
        · exact .inr (.inl ⟨rfl, rfl⟩)
        · exact .inr (.inr h)
      · rintro (h | ⟨rfl, rfl⟩ | h)
        · exact .inl (.inl h)
        · exact .inl (.inr ⟨rfl, rfl⟩)
        · exact .inr h
    | false =>
      simp only [nxAddEdge, hd, Bool.false_eq_true, if_false, mem_keys_set, Joined, List.mem_cons, exists_eq_or_imp,
        Bool.not_false, true_and, Prod.mk.injEq]
      constructor
      · rintro (((h | ⟨rfl, rfl⟩) | ⟨rfl, rfl⟩) | h)
        · exact .inl h
        · exact .inr (.inl (.inl ⟨rfl, rfl⟩))
        · exact .inr (.inl (.inr ⟨rfl, rfl⟩))
        · exact .inr (.inr h)
      · rintro (h | (⟨rfl, rfl⟩ | ⟨rfl, rfl⟩) | h)
        · exact .inl (.inl (.inl h))
        · exact .inl (.inl (.inr ⟨rfl, rfl⟩))
        · exact .inl (.inr ⟨rfl, rfl⟩)
        · exact .inr h

theorem toNetworkx_nodes [DecidableEq κ] (g : Input κ) (n : Nat) :
    n ∈ (toNetworkx g).nodes.keys ↔ n ∈ g.nodes.map Prod.fst ∨ ∃ e ∈ g.edges, e.src = n ∨ e.dst = n := by
  unfold toNetworkx
  rw [fold_nx_nodes, fold_nxAddNode]
  simp [Dict.keys]

theorem toNetworkx_edges [DecidableEq κ] (g : Input κ) (u v : Nat) :
    (u, v) ∈ (toNetworkx g).edges.keys ↔ Joined g.undirected g.edges u v := by
  unfold toNetworkx
  rw [fold_nx_edges]
  simp [Dict.keys]

theorem mem_nxSucc [DecidableEq κ] (g : Input κ) (u v : Nat) :
    v ∈ nxSucc (toNetworkx g) u ↔ Joined g.undirected g.edges u v := by
  rw [← toNetworkx_edges]
  simp only [nxSucc, List.mem_map, List.mem_filter, beq_iff_eq]
  constructor
  · rintro ⟨⟨a, b⟩, ⟨h, rfl⟩, rfl⟩
    exact h
  · intro h
    exact ⟨(u, v), ⟨h, rfl⟩, rfl⟩

theorem mem_nxPred [DecidableEq κ] (g : Input κ) (u v : Nat) :
    u ∈ nxPred (toNetworkx g) v ↔ Joined g.undirected g.edges u v := by
  rw [← toNetworkx_edges]
  simp only [nxPred, List.mem_map, List.mem_filter, beq_iff_eq]
  constructor
  · rintro ⟨⟨a, b⟩, ⟨h, rfl⟩, rfl⟩
    exact h
  · intro h
    exact ⟨(u, v), ⟨h, rfl⟩, rfl⟩

theorem joined_nodes [DecidableEq κ] {g : Input κ} {u v : Nat} (h : Joined g.undirected g.edges u v) :
    u ∈ (toNetworkx g).nodes.keys ∧ v ∈ (toNetworkx g).nodes.keys := by
  obtain ⟨e, he, ⟨rfl, rfl⟩ | ⟨-, rfl, rfl⟩⟩ := h
  · exact ⟨(toNetworkx_nodes _ _).2 (.inr ⟨e, he, .inl rfl⟩), (toNetworkx_nodes _ _).2 (.inr ⟨e, he, .inr rfl⟩)⟩
  · exact ⟨(toNetworkx_nodes _ _).2 (.inr ⟨e, he, .inr rfl⟩), (toNetworkx_nodes _ _).2 (.inr ⟨e, he, .inl rfl⟩)⟩

theorem nxAncestors_ok [DecidableEq κ] (g : Input κ) (n : Nat) (hn : n ∈ (toNetworkx g).nodes.keys) :
    ∃ l, nxAncestors (toNetworkx g) n = .ok l ∧ l.Nodup ∧ ∀ u, u ∈ l ↔
      u ≠ n ∧ Relation.TransGen (Joined g.undirected g.edges) u n := by
  unfold nxAncestors
  rw [if_pos ((Dict.contains_iff _ _).2 ((Dict.get?_isSome_iff_mem_keys _ _).2 hn))]
  refine ⟨_, rfl, List.Pairwise.filter _ (nodup_reach _ _), ?_⟩
  intro u
  have hl : (toNetworkx g).nodes.length = (toNetworkx g).nodes.keys.length := by simp [Dict.keys]
  rw [List.mem_filter, hl, mem_reach hn (fun a b h => (joined_nodes ((mem_nxPred g b a).1 h)).1)]
  have heq : (fun a b => b ∈ nxPred (toNetworkx g) a) = Function.swap (Joined g.undirected g.edges) := by
    funext a b
    exact propext (mem_nxPred g b a)
  rw [heq, Relation.transGen_swap]
  simp only [bne_iff_ne, ne_eq]
  constructor
  · rintro ⟨h | h, hne⟩
    · exact absurd h hne
    · exact ⟨hne, h⟩
  · rintro ⟨hne, h⟩
    exact ⟨.inr h, hne⟩

theorem nxDescendants_ok [DecidableEq κ] (g : Input κ) (n : Nat) (hn : n ∈ (toNetworkx g).nodes.keys) :
    ∃ l, nxDescendants (toNetworkx g) n = .ok l ∧ l.Nodup ∧ ∀ u, u ∈ l ↔
      u ≠ n ∧ Relation.TransGen (Joined g.undirected g.edges) n u := by
  unfold nxDescendants
  rw [if_pos ((Dict.contains_iff _ _).2 ((Dict.get?_isSome_iff_mem_keys _ _).2 hn))]
  refine ⟨_, rfl, List.Pairwise.filter _ (nodup_reach _ _), ?_⟩
  intro u
  have hl : (toNetworkx g).nodes.length = (toNetworkx g).nodes.keys.length := by simp [Dict.keys]
  rw [List.mem_filter, hl, mem_reach hn (fun a b h => (joined_nodes ((mem_nxSucc g a b).1 h)).2)]
  have heq : (fun a b => b ∈ nxSucc (toNetworkx g) a) = Joined g.undirected g.edges := by
    funext a b
    exact propext (mem_nxSucc g a b)
  rw [heq]
  simp only [bne_iff_ne, ne_eq]
  constructor
  · rintro ⟨h | h, hne⟩
    · exact absurd h hne
    · exact ⟨hne, h⟩
  · rintro ⟨hne, h⟩
    exact ⟨.inr h, hne⟩

theorem nodeMap_ok {f : Nat → Except PyErr (List Nat)} {P : Nat → List Nat → Prop} (ns : List Nat)
    (h : ∀ n ∈ ns, ∃ l, f n = .ok l ∧ P n l) :
    ∃ d, nodeMap f ns = .ok d ∧ d.keys = ns ∧ ∀ n l, d.get? n = some l → P n l := by
  induction ns with
  | nil => exact ⟨[], rfl, rfl, by simp⟩
  | cons n ns ih =>
    obtain ⟨l, hl, hp⟩ := h n List.mem_cons_self
    obtain ⟨d, hd, hk, hP⟩ := ih (fun m hm => h m (List.mem_cons_of_mem _ hm))
    refine ⟨(n, l) :: d, ?_, ?_, ?_⟩
    · simp only [nodeMap, hl, hd, bind_ok]
    · simp only [Dict.keys, List.map_cons]
      rw [← hk]
      rfl
    · intro m l' hm
      by_cases hmn : n = m
      · subst hmn
        simp only [Dict.get?] at hm
        simp at hm
        subst hm
        exact hp
      · simp only [Dict.get?] at hm
        simp [hmn] at hm
        exact hP m l' (by simpa [Dict.get?] using hm)

/-- The numbers `i`, …, `i + n - 1` are keys of the mode table. -/
theorem graphNodes_ok (pb : Rcpsp.Problem) (n i : Nat)
    (h : ∀ k, i ≤ k → k < i + n → ∃ ms, pb.modes.get? k = some ms) :
    ∃ l, graphNodes pb n i = .ok l ∧ l.map Prod.fst = List.range' i n ∧
      ∀ k ms, pb.modes.get? k = some ms → i ≤ k → k < i + n → (k, durations ms) ∈ l := by
  induction n generalizing i with
  | zero => exact ⟨[], rfl, rfl, fun k ms _ h1 h2 => by omega⟩
  | succ n ih =>
    obtain ⟨ms, hms⟩ := h i (by omega) (by omega)
    obtain ⟨l, hl, hr, hd⟩ := ih (i + 1) (fun k h1 h2 => h k (by omega) (by omega))
    refine ⟨(i, durations ms) :: l, ?_, ?_, ?_⟩
    · simp only [graphNodes, Dict.get, hms, bind_ok, hl]
    · simp [hr, List.range'_succ]
    · intro k ms' hk h1 h2
      by_cases hki : k = i
      · subst hki
        rw [hms] at hk
        cases hk
        exact List.mem_cons_self
      · exact List.mem_cons_of_mem _ (hd k ms' hk (by omega) (by omega))

theorem graphNodes_error (pb : Rcpsp.Problem) (n i k : Nat) (h1 : i ≤ k) (h2 : k < i + n)
    (h : pb.modes.get? k = none) : graphNodes pb n i = .error .keyError := by
  induction n generalizing i with
  | zero => omega
  | succ n ih =>
    simp only [graphNodes, Dict.get]
    cases hi : pb.modes.get? i with
    | none => rfl
    | some ms =>
      have hki : k ≠ i := by
        rintro rfl
        rw [h] at hi
        cases hi
      simp only [bind_ok]
      rw [ih (i + 1) (by omega) (by omega)]
      rfl

theorem nodup_last {l : List (Nat × Attrs Key)} (hn : (l.map Prod.fst).Nodup) {k : Nat} {d : Attrs Key} (h : (k, d) ∈ l) :
    (nodeInfos l).get? k = some d := by
  obtain ⟨pre, post, rfl⟩ := List.append_of_mem h
  apply nodeInfos_last
  intro p hp he
  rw [List.map_append, List.nodup_append] at hn
  have := (List.nodup_cons.1 hn.2.1).1
  exact this (List.mem_map.2 ⟨p, hp, he⟩)

theorem get_durations (ms : Dict Nat Rcpsp.Mode) (m : Nat) :
    (durations ms).get? (.mode m) = (ms.get? m).map (fun x => (x.duration : Int)) := by
  induction ms with
  | nil => rfl
  | cons p ps ih =>
    simp only [durations, List.map_cons, Dict.get?, Key.mode.injEq]
    split
    · rfl
    · exact ih

theorem transition_ok (pb : Rcpsp.Problem) (n : Nat) {ms : Dict Nat Rcpsp.Mode} (h : pb.modes.get? n = some ms)
    (hne : ms ≠ []) :
    ∃ (d : Attrs Key) (lo hi : Nat), transition pb n = .ok d ∧
      (lo ∈ ms.map (fun p => p.2.duration) ∧ ∀ p ∈ ms, lo ≤ p.2.duration) ∧
      (hi ∈ ms.map (fun p => p.2.duration) ∧ ∀ p ∈ ms, p.2.duration ≤ hi) ∧
      d.get? (.name "min_duration") = some (lo : Int) ∧ d.get? (.name "max_duration") = some (hi : Int) ∧
      d.get? (.name "minus_min_duration") = some (-(lo : Int)) ∧
      d.get? (.name "minus_max_duration") = some (-(hi : Int)) ∧ d.get? (.name "link") = some 1 ∧
      ∀ m, d.get? (.mode m) = (ms.get? m).map (fun x => (x.duration : Int)) := by
  have hne' : (durations ms).map Prod.snd ≠ [] := by
    intro h
    apply hne
    simpa [durations] using h
  cases hmin : ((durations ms).map Prod.snd).min? with
  | none => exact absurd (List.min?_eq_none_iff.1 hmin) hne'
  | some lo =>
  cases hmax : ((durations ms).map Prod.snd).max? with
  | none => exact absurd (List.max?_eq_none_iff.1 hmax) hne'
  | some hi =>
  obtain ⟨h1, h2⟩ := List.min?_eq_some_iff.1 hmin
  obtain ⟨h3, h4⟩ := List.max?_eq_some_iff.1 hmax
  simp only [durations, List.map_map, List.mem_map, Function.comp] at h1 h3
  obtain ⟨p, hp, rfl⟩ := h1
  obtain ⟨q, hq, rfl⟩ := h3
  refine ⟨(((((durations ms).set (.name "min_duration") (p.2.duration : Int)).set (.name "max_duration")
    (q.2.duration : Int)).set (.name "minus_min_duration") (-(p.2.duration : Int))).set
    (.name "minus_max_duration") (-(q.2.duration : Int))).set (.name "link") 1, p.2.duration, q.2.duration, ?_, ⟨List.mem_map.2 ⟨p, hp, rfl⟩, ?_⟩, ⟨List.mem_map.2 ⟨q, hq, rfl⟩, ?_⟩,
    ?_, ?_, ?_, ?_, ?_, ?_⟩
  · simp only [transition, Dict.get, h, bind_ok, minValue, hmin, maxValue, hmax]
  · intro r hr
    have := h2 (r.2.duration : Int) (by simp [durations]; exact ⟨_, _, hr, rfl⟩)
    omega
  · intro r hr
    have := h4 (r.2.duration : Int) (by simp [durations]; exact ⟨_, _, hr, rfl⟩)
    omega
  · simp [Dict.get?_set]
  · simp [Dict.get?_set]
  · simp [Dict.get?_set]
  · simp [Dict.get?_set]
  · simp [Dict.get?_set]
  · intro m
    simp only [Dict.get?_set, reduceCtorEq, if_false]
    exact get_durations ms m

theorem edgesFrom_ok (pb : Rcpsp.Problem) (n : Nat) {d : Attrs Key} (h : transition pb n = .ok d) (ss : List Nat) :
    edgesFrom pb n ss = .ok (ss.map (fun s => { src := n, dst := s, attrs := d })) := by
  induction ss with
  | nil => rfl
  | cons s ss ih => simp only [edgesFrom, h, ih, bind_ok, List.map_cons]

theorem allEdges_ok (pb : Rcpsp.Problem) (l : Dict Nat (List Nat))
    (h : ∀ n ss, (n, ss) ∈ l → ss ≠ [] → ∃ d, transition pb n = .ok d) :
    ∃ es, allEdges pb l = .ok es ∧ ∀ e, e ∈ es ↔ ∃ n ss, (n, ss) ∈ l ∧ e.src = n ∧ e.dst ∈ ss ∧
      transition pb n = .ok e.attrs := by
  induction l with
  | nil => exact ⟨[], rfl, by simp⟩
  | cons p ps ih =>
    obtain ⟨n, ss⟩ := p
    obtain ⟨es, hes, hmem⟩ := ih (fun n ss hn => h n ss (List.mem_cons_of_mem _ hn))
    have hfrom : ∃ fs, edgesFrom pb n ss = .ok fs ∧ ∀ e, e ∈ fs ↔ e.src = n ∧ e.dst ∈ ss ∧
        transition pb n = .ok e.attrs := by
      cases ss with
      | nil => exact ⟨[], rfl, by simp⟩
      | cons s ss =>
        obtain ⟨d, hd⟩ := h n (s :: ss) List.mem_cons_self (by simp)
        refine ⟨_, edgesFrom_ok pb n hd _, ?_⟩
        intro e
        rw [List.mem_map]
        constructor
        · rintro ⟨s', hs', rfl⟩
          exact ⟨rfl, hs', hd⟩
        · rintro ⟨h1, h2, h3⟩
          rw [hd] at h3
          refine ⟨e.dst, h2, ?_⟩
          have h3 := Except.ok.inj h3
          cases e
          simp_all
    obtain ⟨fs, hfs, hfmem⟩ := hfrom
    refine ⟨fs ++ es, by simp only [allEdges, hfs, hes, bind_ok], ?_⟩
    intro e
    rw [List.mem_append, hfmem, hmem]
    constructor
    · rintro (⟨h1, h2, h3⟩ | ⟨n', ss', hn', h⟩)
      · exact ⟨n, ss, List.mem_cons_self, h1, h2, h3⟩
      · exact ⟨n', ss', List.mem_cons_of_mem _ hn', h⟩
    · rintro ⟨n', ss', hn', hx⟩
      rcases List.mem_cons.1 hn' with heq | hn'
      · simp only [Prod.mk.injEq] at heq
        obtain ⟨rfl, rfl⟩ := heq
        exact .inl hx
      · exact .inr ⟨n', ss', hn', hx⟩

theorem last_split (P : Edge Key → Prop) (es : List (Edge Key)) (h : ∃ e ∈ es, P e) :
    ∃ pre e post, es = pre ++ e :: post ∧ P e ∧ ∀ e' ∈ post, ¬ P e' := by
  induction es with
  | nil => obtain ⟨e, he, -⟩ := h; simp at he
  | cons x xs ih =>
    by_cases hx : ∃ e ∈ xs, P e
    · obtain ⟨pre, e, post, rfl, h1, h2⟩ := ih hx
      exact ⟨x :: pre, e, post, rfl, h1, h2⟩
    · refine ⟨[], x, xs, rfl, ?_, fun e he hp => hx ⟨e, he, hp⟩⟩
      obtain ⟨e, he, hp⟩ := h
      rcases List.mem_cons.1 he with rfl | he
      · exact hp
      · exact absurd ⟨e, he, hp⟩ hx

theorem transition_error (pb : Rcpsp.Problem) (n : Nat)
    (h : ¬ ∃ ms, pb.modes.get? n = some ms ∧ ms ≠ []) :
    transition pb n = .error .keyError ∨ transition pb n = .error .valueError := by
  cases hn : pb.modes.get? n with
  | none => left; simp only [transition, Dict.get, hn]; rfl
  | some ms =>
    right
    have : ms = [] := Classical.byContradiction (fun hne => h ⟨ms, hn, hne⟩)
    subst this
    simp only [transition, Dict.get, hn, bind_ok]
    rfl

theorem allEdges_error (pb : Rcpsp.Problem) (l : Dict Nat (List Nat))
    (h : ∃ n ss, (n, ss) ∈ l ∧ ss ≠ [] ∧ ¬ ∃ ms, pb.modes.get? n = some ms ∧ ms ≠ []) :
    allEdges pb l = .error .keyError ∨ allEdges pb l = .error .valueError := by
  induction l with
  | nil => obtain ⟨n, ss, hm, -⟩ := h; simp at hm
  | cons p ps ih =>
    obtain ⟨n, ss⟩ := p
    by_cases hbad : ss ≠ [] ∧ ¬ ∃ ms, pb.modes.get? n = some ms ∧ ms ≠ []
    · cases ss with
      | nil => exact absurd rfl hbad.1
      | cons s ss =>
        rcases transition_error pb n hbad.2 with ht | ht
        · left; simp only [allEdges, edgesFrom, ht, bind_error]
        · right; simp only [allEdges, edgesFrom, ht, bind_error]
    · have hfs : ∃ fs, edgesFrom pb n ss = .ok fs := by
        cases ss with
        | nil => exact ⟨[], rfl⟩
        | cons s ss =>
          have hms : ∃ ms, pb.modes.get? n = some ms ∧ ms ≠ [] :=
            Classical.byContradiction (fun hc => hbad ⟨by simp, hc⟩)
          obtain ⟨ms, hms, hne⟩ := hms
          obtain ⟨d, lo, hi, hd, -⟩ := transition_ok pb n hms hne
          exact ⟨_, edgesFrom_ok pb n hd _⟩
      obtain ⟨fs, hfs⟩ := hfs
      have h' : ∃ n ss, (n, ss) ∈ ps ∧ ss ≠ [] ∧ ¬ ∃ ms, pb.modes.get? n = some ms ∧ ms ≠ [] := by
        obtain ⟨n', ss', hm, h1⟩ := h
        rcases List.mem_cons.1 hm with heq | hm
        · simp only [Prod.mk.injEq] at heq
          obtain ⟨rfl, rfl⟩ := heq
          exact absurd h1 hbad
        · exact ⟨n', ss', hm, h1⟩
      rcases ih h' with he | he
      · left; simp only [allEdges, hfs, bind_ok, he, bind_error]
      · right; simp only [allEdges, hfs, bind_ok, he, bind_error]

end Verif.GraphApi
