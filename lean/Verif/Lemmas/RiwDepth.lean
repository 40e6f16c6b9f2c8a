import Verif.Lemmas.RiwRun

namespace Verif.Riw

variable {σ α φ κ : Type}

/-- What arriving at a node does not touch. -/
def frame (n : Node σ α) : σ × List (α × Rat × Option Nat) × List Nat × Nat × Bool := (n.state, n.children, n.parents, n.depth, n.terminal)

theorem frame_of_bare {g g' : Graph σ α} (h : g'.map bare = g.map bare) : g'.map frame = g.map frame := by
  have : (g'.map bare).map frame = (g.map bare).map frame := by rw [h]
  rw [List.map_map, List.map_map] at this
  exact this

theorem arrive_frame [DecidableEq φ] (d : Domain σ α φ) (c : Config σ κ) (w : Nat) (st : St σ α φ) (j : Nat) (b : Bool) :
    (arrive d c w st j b).1.graph.map frame = st.graph.map frame := by
  have hnov : ∀ x : Nat, (st.graph.modify j fun m => { m with novelty := x }).map frame = st.graph.map frame := by
    intro x
    refine map_modify_of frame (fun n => ?_) _ _
    rfl
  have hpr : ∀ g : Graph σ α, (g.modify j fun m => { m with pruned := true }).map frame = g.map frame := by
    intro g
    refine map_modify_of frame (fun n => ?_) _ _
    rfl
  have hup : ∀ (st : St σ α φ) (b : Bool), (updateNode c st j b).graph.map frame = st.graph.map frame := fun st b => frame_of_bare (updateNode_bare c st j b)
  unfold arrive
  split
  · rfl
  · split
    · exact hup _ _
    · dsimp only
      split
      · rw [hup, hpr, hnov]
      · split
        · rw [hup, hnov]
        · split
          · split
            · rw [hup, hnov]
            · rw [hnov]
          · rw [hnov]

/-- A rollout goes on only from a node that is not deep. -/
theorem arrive_some [DecidableEq φ] {d : Domain σ α φ} {c : Config σ κ} {w : Nat} {st : St σ α φ} {j j' : Nat} {b : Bool}
    (h : (arrive d c w st j b).2 = some j') : j' = j ∧ ∃ m, st.graph[j]? = some m ∧ m.terminal = false ∧ m.solved = false ∧ m.depth < c.maxDepth := by
  unfold arrive at h
  split at h
  · simp at h
  · rename_i m hm
    split at h
    · simp at h
    · rename_i hts
      dsimp only at h
      split at h
      · simp at h
      · split at h
        · simp at h
        · rename_i hd
          have hr : m.terminal = false ∧ m.solved = false := by
            cases h1 : m.terminal <;> cases h2 : m.solved <;> simp_all
          split at h
          · split at h
            · simp at h
            · simp at h
          · simp at h
            exact ⟨h.symm, m, hm, hr.1, hr.2, by omega⟩

theorem expand_get {d : Domain σ α φ} {g : Graph σ α} {i x : Nat} {n : Node σ α} (h : (expand d g i)[x]? = some n) :
    ∃ n0, g[x]? = some n0 ∧ n.state = n0.state ∧ n.depth = n0.depth ∧ n.terminal = n0.terminal ∧ n.solved = n0.solved ∧ n.pruned = n0.pruned ∧ n.value = n0.value ∧
      n.best = n0.best ∧ n.parents = n0.parents ∧
      (n.children = if i = x ∧ n0.children = [] then (d.actions n0.state).map (fun a => (a, 0, none)) else n0.children) := by
  unfold expand at h
  rw [getElem?_modify'] at h
  cases hg : g[x]? with
  | none => rw [hg] at h; simp at h
  | some m =>
    rw [hg] at h
    simp only [Option.map_some, Option.some.injEq] at h
    subst h
    refine ⟨m, rfl, ?_⟩
    by_cases h1 : i = x <;> by_cases h2 : m.children = [] <;> simp [h1, h2]

theorem expand_put {d : Domain σ α φ} {g : Graph σ α} {i x : Nat} {n0 : Node σ α} (h : g[x]? = some n0) : ∃ n, (expand d g i)[x]? = some n := by
  unfold expand
  rw [getElem?_modify', h]
  exact ⟨_, rfl⟩

theorem mem_unsolved {g : Graph σ α} {i k : Nat} : k ∈ unsolved g i ↔ ∃ n a r o, g[i]? = some n ∧ n.children[k]? = some (a, r, o) ∧
    ∀ j, o = some j → ∃ m, g[j]? = some m ∧ m.solved = false := by
  unfold unsolved
  cases hg : g[i]? with
  | none => simp
  | some n =>
    simp only [List.mem_filter, List.mem_range]
    constructor
    · rintro ⟨hk, h⟩
      have hx := List.getElem?_eq_getElem hk
      generalize n.children[k] = y at hx
      obtain ⟨a, r, o⟩ := y
      rw [hx] at h
      refine ⟨n, a, r, o, rfl, hx, ?_⟩
      rintro j rfl
      simp only at h
      cases hj : g[j]? with
      | none => rw [hj] at h; simp at h
      | some m => rw [hj] at h; exact ⟨m, rfl, by simpa using h⟩
    · rintro ⟨n', a, r, o, hn', hk, h⟩
      cases hn'
      refine ⟨(List.getElem?_eq_some_iff.mp hk).1, ?_⟩
      rw [hk]
      cases o with
      | none => rfl
      | some j =>
        obtain ⟨m, hm, hs⟩ := h j rfl
        simp [hm, hs]

/-- The node that is reached. -/
theorem fill_target [DecidableEq κ] {d : Domain σ α φ} {c : Config σ κ} {st : St σ α φ} (h : True' d c.key st.graph) {i k : Nat} {n : Node σ α} {a : α} {r : Rat} {o : Option Nat}
    (hn : st.graph[i]? = some n) (hk : n.children[k]? = some (a, r, o)) :
    a ∈ d.actions n.state ∧ ∃ m, (fillChild d c st i k).1.graph[(fillChild d c st i k).2.1]? = some m ∧ c.key m.state = c.key (d.next n.state a) := by
  have ha : a ∈ d.actions n.state := by
    rcases h.kids i n hn with h0 | h0
    · rw [h0] at hk; simp at hk
    · rw [← h0, List.mem_map]; exact ⟨_, List.mem_of_getElem? hk, rfl⟩
  refine ⟨ha, ?_⟩
  rcases fillChild_cases d c st i k hn hk with ⟨j, rfl, e1, e⟩ | ⟨rfl, j, hl, e1, e⟩ | ⟨rfl, hl, e1, e⟩
  · obtain ⟨_, m, hm, hkey, _⟩ := h.edge i n k a r j hn hk
    rw [e1, e]
    refine ⟨{ m with depth := min m.depth (n.depth + 1) }, ?_, hkey⟩
    simp only [getElem?_modify', hm, Option.map_some, if_true]
  · rw [e1, e, lowerMin_graph]
    obtain ⟨m, hm, hkey⟩ := locate_some hl
    simp only [link_get, hm, Option.map_some]
    exact ⟨_, rfl, hkey⟩
  · rw [e1, e, terminalMin_graph, lowerMin_graph]
    simp only [link_get, List.getElem?_append_right (Nat.le_refl _), Nat.sub_self, List.getElem?_cons_zero, Option.map_some]
    exact ⟨_, rfl, rfl⟩

/-- Where the nodes and their depths after a visit come from. -/
theorem fill_depth [DecidableEq κ] {d : Domain σ α φ} {c : Config σ κ} {st : St σ α φ} (h : True' d c.key st.graph) {i k : Nat} {n : Node σ α} {a : α} {r : Rat} {o : Option Nat}
    (hn : st.graph[i]? = some n) (hk : n.children[k]? = some (a, r, o)) {x : Nat} {m : Node σ α} (hm : (fillChild d c st i k).1.graph[x]? = some m) :
    (∃ m0, st.graph[x]? = some m0 ∧ m.state = m0.state ∧ m.depth ≤ m0.depth ∧ m.terminal = m0.terminal ∧
      (m.depth = m0.depth ∨ (m.depth = n.depth + 1 ∧ c.key m.state = c.key (d.next n.state a)))) ∨
    (x = st.graph.length ∧ m.state = d.next n.state a ∧ m.depth = n.depth + 1 ∧ m.terminal = d.terminal n.state a ∧ (fillChild d c st i k).2.1 = x) := by
  have hmin : ∀ p q : Nat, min p q ≤ p ∧ (min p q = p ∨ min p q = q) := by intro p q; omega
  rcases fillChild_cases d c st i k hn hk with ⟨j, rfl, e1, e⟩ | ⟨rfl, j, hl, e1, e⟩ | ⟨rfl, hl, e1, e⟩
  · left
    rw [e] at hm
    simp only [getElem?_modify'] at hm
    cases hg : st.graph[x]? with
    | none => rw [hg] at hm; simp at hm
    | some m0 =>
      rw [hg] at hm
      simp only [Option.map_some, Option.some.injEq] at hm
      refine ⟨m0, rfl, ?_⟩
      by_cases hj : j = x
      · rw [if_pos hj] at hm
        subst hm
        subst hj
        obtain ⟨_, m, hm, hkey, _⟩ := h.edge i n k a r j hn hk
        rw [hg] at hm
        cases hm
        refine ⟨rfl, (hmin _ _).1, rfl, ?_⟩
        rcases (hmin m0.depth (n.depth + 1)).2 with h | h
        · exact Or.inl h
        · exact Or.inr ⟨h, hkey⟩
      · rw [if_neg hj] at hm
        subst hm
        exact ⟨rfl, Nat.le_refl _, rfl, Or.inl rfl⟩
  · left
    rw [e, lowerMin_graph] at hm
    simp only [link_get] at hm
    cases hg : st.graph[x]? with
    | none => rw [hg] at hm; simp at hm
    | some m0 =>
      rw [hg] at hm
      simp only [Option.map_some, Option.some.injEq] at hm
      refine ⟨m0, rfl, ?_⟩
      subst hm
      by_cases hj : j = x
      · subst hj
        obtain ⟨m, hm, hkey⟩ := locate_some hl
        rw [hg] at hm
        cases hm
        simp only [if_true]
        refine ⟨trivial, (hmin _ _).1, trivial, ?_⟩
        rcases (hmin m0.depth (n.depth + 1)).2 with h | h
        · exact Or.inl h
        · exact Or.inr ⟨h, hkey⟩
      · simp [hj]
  · rw [e, terminalMin_graph, lowerMin_graph] at hm
    simp only [link_get] at hm
    by_cases hx : x < st.graph.length
    · left
      rw [List.getElem?_append_left hx] at hm
      cases hg : st.graph[x]? with
      | none => rw [hg] at hm; simp at hm
      | some m0 =>
        rw [hg] at hm
        simp only [Option.map_some, Option.some.injEq] at hm
        refine ⟨m0, rfl, ?_⟩
        subst hm
        have : ¬ st.graph.length = x := by omega
        simp [this]
    · right
      by_cases hx' : x = st.graph.length
      · subst hx'
        rw [List.getElem?_append_right (Nat.le_refl _)] at hm
        simp only [Nat.sub_self, List.getElem?_cons_zero, Option.map_some, Option.some.injEq] at hm
        subst hm
        rw [e1]
        simp [newNode]
      · rw [List.getElem?_eq_none (by simp; omega)] at hm
        simp at hm

/-- A state is reached from `s0` by `k` transitions, states with the same key being told apart by nothing. -/
inductive Walk (d : Domain σ α φ) (key : σ → κ) (s0 : σ) : Nat → σ → Prop
  | start (s : σ) : key s = key s0 → Walk d key s0 0 s
  | next (k : Nat) (s : σ) (a : α) (s' : σ) : Walk d key s0 k s → a ∈ d.actions s → key s' = key (d.next s a) → Walk d key s0 (k + 1) s'

/-- All nodes are as deep as they say, and not too deep. -/
def Deep (d : Domain σ α φ) (key : σ → κ) (bound : Nat) (s0 : σ) (g : Graph σ α) : Prop :=
  ∀ (i : Nat) (n : Node σ α), g[i]? = some n → Walk d key s0 n.depth n.state ∧ n.depth ≤ max 1 bound

theorem Deep.of_frame {d : Domain σ α φ} {key : σ → κ} {b : Nat} {s0 : σ} {g g' : Graph σ α} (h : Deep d key b s0 g) (hf : g'.map frame = g.map frame) : Deep d key b s0 g' := by
  intro i n hn
  obtain ⟨n0, hn0, e⟩ := map_get hf hn
  simp only [frame, Prod.mk.injEq] at e
  rw [e.1, e.2.2.2.1]
  exact h i n0 hn0

theorem Deep.step [DecidableEq κ] [DecidableEq φ] {d : Domain σ α φ} {c : Config σ κ} {w : Nat} {s0 : σ} {st st' : St σ α φ} {i : Nat} {o : Option Nat}
    (ht : Good d c.key st.graph) (h : Deep d c.key c.maxDepth s0 st.graph) (hi : ∀ n, st.graph[i]? = some n → n.depth < c.maxDepth ∨ n.depth = 0)
    (hs : step d c w st i = .ok (st', o)) :
    Deep d c.key c.maxDepth s0 st'.graph ∧ (∀ (j : Nat) (n : Node σ α), o = some j → st'.graph[j]? = some n → n.depth < c.maxDepth ∨ n.depth = 0) ∧
    (∀ (x : Nat) (n : Node σ α), st.graph[x]? = some n → n.depth = 0 → ∃ n' : Node σ α, st'.graph[x]? = some n' ∧ n'.depth = 0) := by
  rcases step_ok hs with ⟨rfl, rfl, _⟩ | ⟨n, k, hn, hsol, hk, e⟩
  · exact ⟨h, by simp, fun x n hx h0 => ⟨n, hx, h0⟩⟩
  · generalize hst1 : ({ st with graph := expand d st.graph i, draws := st.draws + 1 } : St σ α φ) = st1 at e
    have hg1 : st1.graph = expand d st.graph i := by rw [← hst1]
    rw [← hg1] at hk
    obtain ⟨n1, a, r, o1, hn1, hc, _⟩ := mem_unsolved.1 hk
    have ht1 : True' d c.key st1.graph := by rw [hg1]; exact ht.1.expand i
    obtain ⟨n0, hn0, es, ed, _⟩ := expand_get (by rw [← hg1]; exact hn1)
    rw [hn] at hn0
    cases hn0
    obtain ⟨ha, _⟩ := fill_target ht1 hn1 hc
    have hD1 : Deep d c.key c.maxDepth s0 st1.graph := by
      intro x m hm
      rw [hg1] at hm
      obtain ⟨m0, hm0, es, ed, _⟩ := expand_get hm
      rw [es, ed]
      exact h x m0 hm0
    have hnext : Walk d c.key s0 (n1.depth + 1) (d.next n1.state a) :=
      Walk.next _ _ a _ (hD1 i n1 hn1).1 ha rfl
    have hnlt : n1.depth + 1 ≤ max 1 c.maxDepth := by
      rw [ed]
      rcases hi n hn with h | h <;> omega
    have hD2 : Deep d c.key c.maxDepth s0 (fillChild d c st1 i k).1.graph := by
      intro x m hm
      rcases fill_depth ht1 hn1 hc hm with ⟨m0, hm0, es, hle, _, hd⟩ | ⟨_, es, ed, _⟩
      · have hw := hD1 x m0 hm0
        refine ⟨?_, by omega⟩
        rcases hd with hd | ⟨hd, hkey⟩
        · rw [es, hd]; exact hw.1
        · rw [hd]
          exact Walk.next _ _ a _ (hD1 i n1 hn1).1 ha hkey
      · rw [es, ed]; exact ⟨hnext, hnlt⟩
    have hf := arrive_frame d c w (fillChild d c st1 i k).1 (fillChild d c st1 i k).2.1 (fillChild d c st1 i k).2.2
    rw [← e] at hf
    refine ⟨hD2.of_frame hf, ?_, ?_⟩
    · intro j m ho hm
      have ha := arrive_some (d := d) (c := c) (w := w) (st := (fillChild d c st1 i k).1) (j := (fillChild d c st1 i k).2.1) (b := (fillChild d c st1 i k).2.2)
        (j' := j) (by rw [← e]; exact ho)
      obtain ⟨hj, m1, hm1, _, _, hlt⟩ := ha
      obtain ⟨m2, hm2, e2⟩ := map_get hf hm
      rw [← hj, hm2] at hm1
      cases hm1
      simp only [frame, Prod.mk.injEq] at e2
      rw [e2.2.2.2.1]
      exact Or.inl hlt
    · intro x m hx h0
      obtain ⟨m1, hm1⟩ := expand_put (d := d) (i := i) hx
      have hm1' := hm1
      rw [← hg1] at hm1'
      obtain ⟨m0, hm0, _, ed', _⟩ := expand_get hm1
      rw [hx] at hm0
      cases hm0
      have hlen : x < (fillChild d c st1 i k).1.graph.length := by
        have hx1 := (List.getElem?_eq_some_iff.mp hm1').1
        rcases fillChild_cases d c st1 i k hn1 hc with ⟨j, _, _, e⟩ | ⟨_, j, _, _, e⟩ | ⟨_, _, _, e⟩
        · rw [e]; simpa using hx1
        · rw [e, lowerMin_graph]; simpa [link] using hx1
        · rw [e, terminalMin_graph, lowerMin_graph]; simp [link]; omega
      have hm2 := List.getElem?_eq_getElem hlen
      have hd2 : (fillChild d c st1 i k).1.graph[x].depth = 0 := by
        rcases fill_depth ht1 hn1 hc hm2 with ⟨m0, hm0, _, hle, _⟩ | ⟨hlen', _⟩
        · rw [hm1'] at hm0
          cases hm0
          rw [ed', h0] at hle
          omega
        · have hx1 := (List.getElem?_eq_some_iff.mp hm1').1
          omega
      obtain ⟨m3, hm3, e3⟩ := map_get hf.symm hm2
      simp only [frame, Prod.mk.injEq] at e3
      exact ⟨m3, hm3, by rw [← e3.2.2.2.1]; exact hd2⟩

theorem Deep.rollouts [DecidableEq κ] [DecidableEq φ] {d : Domain σ α φ} {c : Config σ κ} {w fuel root left : Nat} {s0 : σ} {st st' : St σ α φ}
    (ht : Good d c.key st.graph) (h : Deep d c.key c.maxDepth s0 st.graph) (hroot : ∃ n, st.graph[root]? = some n ∧ n.depth = 0)
    (hs : rollouts d c w fuel root left st = some (.ok st')) : Good d c.key st'.graph ∧ Deep d c.key c.maxDepth s0 st'.graph := by
  have := rollouts_ind (fun st => Good d c.key st.graph ∧ Deep d c.key c.maxDepth s0 st.graph ∧ ∃ n, st.graph[root]? = some n ∧ n.depth = 0)
    (fun st hp => hp) ?_ left st st' ⟨ht, h, hroot⟩ hs
  · exact ⟨this.1, this.2.1⟩
  · intro st st' n hp _ _ hr
    unfold rollout at hr
    refine walk_ind (fun st => Good d c.key st.graph ∧ Deep d c.key c.maxDepth s0 st.graph ∧ ∃ n, st.graph[root]? = some n ∧ n.depth = 0)
      (fun st i => ∀ n, st.graph[i]? = some n → n.depth < c.maxDepth ∨ n.depth = 0) ?_ ?_ fuel root { st with rollouts := st.rollouts + 1 } st' hp ?_ hr
    · intro st i st' ⟨p1, p2, n, p3, p4⟩ hq hs
      obtain ⟨q1, _, q3⟩ := p2.step p1 hq hs
      exact ⟨p1.step hs, q1, q3 root n p3 p4⟩
    · intro st i st' j ⟨p1, p2, n, p3, p4⟩ hq hs
      obtain ⟨q1, q2, q3⟩ := p2.step p1 hq hs
      exact ⟨⟨p1.step hs, q1, q3 root n p3 p4⟩, fun n hn => q2 j n rfl hn⟩
    · obtain ⟨_, _, n, p3, p4⟩ := hp
      intro m hm
      rw [p3] at hm
      cases hm
      exact Or.inr p4

theorem Deep.enter [DecidableEq κ] [DecidableEq φ] {d : Domain σ α φ} {c : Config σ κ} {st : St σ α φ} {s : σ}
    (h : Deep d c.key c.maxDepth s st.graph) (w : Nat) :
    Deep d c.key c.maxDepth s (enter d c w s st).1.graph ∧ ∃ n, (enter d c w s st).1.graph[(enter d c w s st).2]? = some n ∧ n.depth = 0 := by
  have h0 : Deep d c.key c.maxDepth s (clearBits st.graph) := by
    refine h.of_frame ?_
    unfold clearBits
    refine map_get_of (fun n => ?_) _
    rfl
  obtain ⟨nov, table, g', root, e, h1⟩ := enter_cases d c w s st
  rw [e]
  have h2 : Deep d c.key c.maxDepth s g' ∧ ∃ n, g'[root]? = some n ∧ n.depth = 0 := by
    rcases h1 with ⟨hl, rfl⟩ | ⟨hl, rfl, rfl⟩
    · obtain ⟨n, hn, hkey⟩ := locate_some hl
      refine ⟨?_, { n with depth := 0 }, by simp [hn], rfl⟩
      intro x m hm
      rw [getElem?_modify'] at hm
      cases hg : (clearBits st.graph)[x]? with
      | none => rw [hg] at hm; simp at hm
      | some m0 =>
        rw [hg] at hm
        simp only [Option.map_some, Option.some.injEq] at hm
        subst hm
        by_cases hx : root = x
        · subst hx
          rw [hn] at hg
          cases hg
          simp only [if_true]
          exact ⟨Walk.start _ hkey, by omega⟩
        · rw [if_neg hx]
          exact h0 x m0 hg
    · refine ⟨?_, { state := s, depth := 0 }, by simp, rfl⟩
      intro x m hm
      rw [List.getElem?_append] at hm
      split at hm
      · exact h0 x m hm
      · have := List.mem_of_getElem? hm
        simp at this
        subst this
        exact ⟨Walk.start _ rfl, by simp⟩
  have hf : (g'.modify root fun n => { n with novelty := nov }).map frame = g'.map frame := by
    refine map_modify_of frame (fun n => ?_) _ _
    rfl
  refine ⟨h2.1.of_frame hf, ?_⟩
  obtain ⟨n, hn, hd⟩ := h2.2
  exact ⟨{ n with novelty := nov }, by simp [hn], hd⟩

theorem Deep.solve [DecidableEq κ] [DecidableEq φ] {d : Domain σ α φ} {c : Config σ κ} {fuel : Nat} {s : σ} {st st' : St σ α φ} {b : Bool}
    (h : Good d c.key st.graph) (hd : Deep d c.key c.maxDepth s st.graph) (hs : solve d c fuel s st = some (.ok (st', b))) : Deep d c.key c.maxDepth s st'.graph := by
  unfold Riw.solve at hs
  have := widths_ind (fun st => Good d c.key st.graph ∧ Deep d c.key c.maxDepth s st.graph) ?_ _ _ { st with rollouts := 0, table := [] } st' b ⟨h, hd⟩ hs
  · exact this.2
  · intro w st st' b ⟨p1, p2⟩ hw
    obtain ⟨st1, h1, rfl, _⟩ := solveWidth_ok hw
    obtain ⟨q1, q2⟩ := p2.enter w
    have := Deep.rollouts (p1.enter w s) q1 q2 h1
    exact this

end Verif.Riw
