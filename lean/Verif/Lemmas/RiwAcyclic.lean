import Verif.Lemmas.RiwBackup

namespace Verif.Riw
open Relation (TransGen)

variable {σ α φ κ : Type}

theorem set_same {β : Type} {l : List β} {k : Nat} {x : β} (h : l[k]? = some x) : l.set k x = l := by
  apply List.ext_getElem?
  intro y
  rw [List.getElem?_set]
  split
  · rename_i e
    subst e
    rw [h, if_pos (List.getElem?_eq_some_iff.mp h).1]
  · rfl

/-- Where the nodes after a visit come from. -/
theorem fill_get [DecidableEq κ] {d : Domain σ α φ} {c : Config σ κ} {st : St σ α φ} (h : True' d c.key st.graph) {i k : Nat} {n : Node σ α} {a : α} {r : Rat} {o : Option Nat}
    (hn : st.graph[i]? = some n) (hk : n.children[k]? = some (a, r, o)) {x : Nat} {m : Node σ α} (hm : (fillChild d c st i k).1.graph[x]? = some m) :
    (∃ m0, st.graph[x]? = some m0 ∧ m.state = m0.state ∧ m.terminal = m0.terminal ∧ m.solved = m0.solved ∧ m.pruned = m0.pruned ∧ m.value = m0.value ∧ m.best = m0.best ∧
      m.children = if i = x then m0.children.set k (a, d.reward n.state a, some (fillChild d c st i k).2.1) else m0.children) ∨
    (x = st.graph.length ∧ m = { newNode d n a with parents := [i] } ∧ (fillChild d c st i k).2.1 = x ∧ (fillChild d c st i k).2.2 = true) := by
  have hi := (List.getElem?_eq_some_iff.mp hn).1
  rcases fillChild_cases d c st i k hn hk with ⟨j, rfl, e1, e⟩ | ⟨rfl, j, hl, e1, e⟩ | ⟨rfl, hl, e1, e⟩
  · left
    rw [e] at hm
    simp only [getElem?_modify'] at hm
    cases hg : st.graph[x]? with
    | none => rw [hg] at hm; simp at hm
    | some m0 =>
      rw [hg] at hm
      simp only [Option.map_some, Option.some.injEq] at hm
      have hch : m0.children = if i = x then m0.children.set k (a, d.reward n.state a, some (fillChild d c st i k).2.1) else m0.children := by
        by_cases hix : i = x
        · subst hix
          rw [hn] at hg
          cases hg
          rw [if_pos rfl, e1, ← (h.edge i n k a r j hn hk).1, set_same hk]
        · rw [if_neg hix]
      refine ⟨m0, rfl, ?_⟩
      by_cases hj : j = x
      · rw [if_pos hj] at hm; subst hm; exact ⟨rfl, rfl, rfl, rfl, rfl, rfl, hch⟩
      · rw [if_neg hj] at hm; subst hm; exact ⟨rfl, rfl, rfl, rfl, rfl, rfl, hch⟩
  · left
    rw [e, lowerMin_graph] at hm
    simp only [link_get] at hm
    cases hg : st.graph[x]? with
    | none => rw [hg] at hm; simp at hm
    | some m0 =>
      rw [hg] at hm
      simp only [Option.map_some, Option.some.injEq] at hm
      subst hm
      rw [e1]
      exact ⟨m0, rfl, rfl, rfl, rfl, rfl, rfl, rfl, rfl⟩
  · rw [e, terminalMin_graph, lowerMin_graph] at hm
    simp only [link_get] at hm
    by_cases hx : x < st.graph.length
    · left
      rw [List.getElem?_append_left hx] at hm
      cases hg : st.graph[x]? with
      | none => rw [hg] at hm; simp at hm
      | some m0 =>
        rw [hg] at hm
        simp only [Option.map_some, Option.some.injEq] at hm
        subst hm
        rw [e1]
        exact ⟨m0, rfl, rfl, rfl, rfl, rfl, rfl, rfl, rfl⟩
    · right
      by_cases hx' : x = st.graph.length
      · subst hx'
        rw [List.getElem?_append_right (Nat.le_refl _)] at hm
        simp only [Nat.sub_self, List.getElem?_cons_zero, Option.map_some, Option.some.injEq] at hm
        have hne : ¬ i = st.graph.length := by omega
        refine ⟨rfl, ?_, by rw [e1], by rw [e1]⟩
        rw [← hm]
        simp [newNode, insertNew, hne]
      · rw [List.getElem?_eq_none (by simp; omega)] at hm
        simp at hm

theorem fill_put [DecidableEq κ] {d : Domain σ α φ} {c : Config σ κ} {st : St σ α φ} {i k : Nat} {n : Node σ α} {a : α} {r : Rat} {o : Option Nat}
    (hn : st.graph[i]? = some n) (hk : n.children[k]? = some (a, r, o)) {x : Nat} {m0 : Node σ α} (hx : st.graph[x]? = some m0) :
    ∃ m, (fillChild d c st i k).1.graph[x]? = some m := by
  have hx1 := (List.getElem?_eq_some_iff.mp hx).1
  have hlen : x < (fillChild d c st i k).1.graph.length := by
    rcases fillChild_cases d c st i k hn hk with ⟨j, _, _, e⟩ | ⟨_, j, _, _, e⟩ | ⟨_, _, _, e⟩
    · rw [e]; simpa using hx1
    · rw [e, lowerMin_graph]; simpa [link] using hx1
    · rw [e, terminalMin_graph, lowerMin_graph]; simp [link]; omega
  exact ⟨_, List.getElem?_eq_getElem hlen⟩

/-- A node that is not solved though all its children are. -/
def BadS (g : Graph σ α) (q : Nat) : Prop :=
  ∃ n, g[q]? = some n ∧ n.children ≠ [] ∧ n.solved = false ∧
    ∀ (k : Nat) (a : α) (r : Rat) (o : Option Nat), n.children[k]? = some (a, r, o) → ∃ (j : Nat) (m : Node σ α), o = some j ∧ g[j]? = some m ∧ m.solved = true

/-- What the rollouts keep of an acyclic domain. -/
structure Sane (d : Domain σ α φ) (c : Config σ κ) (rank : σ → Nat) (g : Graph σ α) : Prop where
  good : Good d c.key g
  rank : ∀ (i : Nat) (n : Node σ α), g[i]? = some n → rank n.state ≤ c.maxDepth
  live : ∀ (i : Nat) (n : Node σ α), g[i]? = some n → n.terminal = false → d.actions n.state ≠ []
  fill : ∀ (i : Nat) (n : Node σ α), g[i]? = some n → n.children ≠ [] → ∃ j, Edge g i j

/-- What `Sane` looks at besides `Good`. -/
def core (n : Node σ α) : σ × List (α × Rat × Option Nat) × Bool := (n.state, n.children, n.terminal)

theorem Sane.of_core {d : Domain σ α φ} {c : Config σ κ} {rank : σ → Nat} {g g' : Graph σ α} (h : Sane d c rank g) (hg : Good d c.key g') (hf : g'.map core = g.map core) :
    Sane d c rank g' := by
  have hget : ∀ {i : Nat} {n : Node σ α}, g'[i]? = some n → ∃ n0, g[i]? = some n0 ∧ n.state = n0.state ∧ n.children = n0.children ∧ n.terminal = n0.terminal := by
    intro i n hn
    obtain ⟨n0, hn0, e⟩ := map_get hf hn
    simp only [core, Prod.mk.injEq] at e
    exact ⟨n0, hn0, e.1, e.2.1, e.2.2⟩
  refine ⟨hg, ?_, ?_, ?_⟩
  · intro i n hn
    obtain ⟨n0, hn0, e1, _⟩ := hget hn
    rw [e1]; exact h.rank i n0 hn0
  · intro i n hn ht
    obtain ⟨n0, hn0, e1, _, e3⟩ := hget hn
    rw [e1]; exact h.live i n0 hn0 (by rw [← e3]; exact ht)
  · intro i n hn hc
    obtain ⟨n0, hn0, _, e2, _⟩ := hget hn
    obtain ⟨j, m, k, a, r, hm, hk⟩ := h.fill i n0 hn0 (by rw [← e2]; exact hc)
    rw [hn0] at hm
    cases hm
    exact ⟨j, n, k, a, r, hn, by rw [e2]; exact hk⟩

theorem core_of_frame {g g' : Graph σ α} (h : g'.map frame = g.map frame) : g'.map core = g.map core := by
  have : (g'.map frame).map (fun t => (t.1, t.2.1, t.2.2.2.2)) = (g.map frame).map (fun t => (t.1, t.2.1, t.2.2.2.2)) := by rw [h]
  rw [List.map_map, List.map_map] at this
  exact this

/-- Every node that has children is above a node that has none. -/
theorem Sane.leaf_below {d : Domain σ α φ} {c : Config σ κ} {rank : σ → Nat} (ha : Acyclic d c.key rank) {g : Graph σ α} (h : Sane d c rank g) :
    ∀ (b i : Nat) (n : Node σ α), g[i]? = some n → rank n.state ≤ b → n.children ≠ [] →
      ∃ (x : Nat) (m : Node σ α), TransGen (Edge g) i x ∧ g[x]? = some m ∧ m.children = [] := by
  intro b
  induction b with
  | zero =>
    intro i n hn hr hc
    obtain ⟨j, n', k, a, r, hn', hk⟩ := h.fill i n hn hc
    rw [hn] at hn'
    cases hn'
    obtain ⟨_, _, m, _, _, hlt⟩ := edge_next ha h.good.1 hn hk
    omega
  | succ b ih =>
    intro i n hn hr hc
    obtain ⟨j, n', k, a, r, hn', hk⟩ := h.fill i n hn hc
    rw [hn] at hn'
    cases hn'
    obtain ⟨_, _, m, hm, _, hlt⟩ := edge_next ha h.good.1 hn hk
    have hedge : Edge g i j := ⟨n, k, a, r, hn, hk⟩
    by_cases hmc : m.children = []
    · exact ⟨j, m, TransGen.single hedge, hm, hmc⟩
    · obtain ⟨x, m', ht, hx, hl⟩ := ih j m hm (by omega) hmc
      exact ⟨x, m', TransGen.head hedge ht, hx, hl⟩

theorem mem_leaves {g : Graph σ α} {x : Nat} : x ∈ leaves g (List.range g.length) ↔ ∃ n, g[x]? = some n ∧ n.children = [] := by
  unfold leaves
  rw [List.mem_filter, List.mem_range]
  constructor
  · rintro ⟨hlt, h⟩
    rw [List.getElem?_eq_getElem hlt] at h ⊢
    exact ⟨_, rfl, by simpa using h⟩
  · rintro ⟨n, hn, hc⟩
    refine ⟨(List.getElem?_eq_some_iff.mp hn).1, ?_⟩
    rw [hn]
    simp [hc]

/-- The repair after a node is updated, for any notion of disorder that a backup removes. -/
theorem updateNode_clean {d : Domain σ α φ} {c : Config σ κ} {rank : σ → Nat} (ha : Acyclic d c.key rank) (ho : ∀ l x, x ∈ c.order l ↔ x ∈ l)
    {st : St σ α φ} (h : Sane d c rank st.graph) {j : Nat} {m : Node σ α} (hm : st.graph[j]? = some m) (b : Bool)
    (Bad : Graph σ α → Nat → Prop)
    (B1 : ∀ g p, g.map bare = st.graph.map bare → ¬ Bad (backupParent c.discount g p) p)
    (B2 : ∀ g p q, g.map bare = st.graph.map bare → Bad (backupParent c.discount g p) q → Bad g q ∨ Edge st.graph q p)
    (B3 : ∀ g p q, g.map bare = st.graph.map bare → Bad (pruneValue c st.minReward g p) q → Bad g q ∨ Edge st.graph q p)
    (B4 : ∀ q, Bad (st.graph.modify j fun n => { n with solved := b, value := some 0 }) q → Edge st.graph q j) :
    ∀ q, ¬ Bad (updateNode c st j b).graph q := by
  have hb0 : (st.graph.modify j fun n => { n with solved := b, value := some 0 }).map bare = st.graph.map bare := by
    refine map_modify_of bare (fun n => ?_) _ _
    rfl
  have hlen : (st.graph.modify j fun n => { n with solved := b, value := some 0 }).length = st.graph.length := by simp
  -- the frontier
  generalize hF : (if st.changed then leaves (st.graph.modify j fun n => { n with solved := b, value := some 0 })
    (List.range (st.graph.modify j fun n => { n with solved := b, value := some 0 }).length) else [j]) = F
  have hFn : ∀ x ∈ F, ∃ n, st.graph[x]? = some n := by
    intro x hx
    rw [← hF] at hx
    split at hx
    · obtain ⟨n, hn, _⟩ := mem_leaves.1 hx
      obtain ⟨n0, hn0, _⟩ := map_get hb0 hn
      exact ⟨n0, hn0⟩
    · simp at hx; subst hx; exact ⟨m, hm⟩
  have hcover : ∀ q, Edge st.graph q j → ∃ x ∈ F, TransGen (Edge st.graph) q x := by
    intro q hq
    rw [← hF]
    split
    · by_cases hc : m.children = []
      · refine ⟨j, mem_leaves.2 ?_, TransGen.single hq⟩
        obtain ⟨n, hn, e⟩ := bare_children hb0.symm hm
        exact ⟨n, hn, by rw [← e.1]; exact hc⟩
      · obtain ⟨x, mx, ht, hx, hl⟩ := h.leaf_below ha (rank m.state) j m hm (Nat.le_refl _) hc
        refine ⟨x, mem_leaves.2 ?_, TransGen.head hq ht⟩
        obtain ⟨n, hn, e⟩ := bare_children hb0.symm hx
        exact ⟨n, hn, by rw [← e.1]; exact hl⟩
    · exact ⟨j, List.mem_cons_self, TransGen.single hq⟩
  -- the pruned values
  have hprune : ∀ (l : List Nat) (g : Graph σ α), (∀ x ∈ l, x ∈ F) → g.map bare = st.graph.map bare → (∀ q, Bad g q → ∃ x ∈ F, TransGen (Edge st.graph) q x) →
      (l.foldl (pruneValue c st.minReward) g).map bare = st.graph.map bare ∧ ∀ q, Bad (l.foldl (pruneValue c st.minReward) g) q → ∃ x ∈ F, TransGen (Edge st.graph) q x := by
    intro l
    induction l with
    | nil => intro g _ hb hI; exact ⟨hb, hI⟩
    | cons y l ih =>
      intro g hl hb hI
      refine ih _ (fun x hx => hl x (List.mem_cons_of_mem _ hx)) (by rw [pruneValue_bare]; exact hb) ?_
      intro q hq
      rcases B3 g y q hb hq with h | h
      · exact hI q h
      · exact ⟨y, hl y List.mem_cons_self, TransGen.single h⟩
  obtain ⟨p1, p2⟩ := hprune (c.order F) _ (fun x hx => (ho _ _).1 hx) hb0 (fun q hq => hcover q (B4 q hq))
  intro q hq
  unfold updateNode at hq
  simp only at hq
  rw [hF] at hq
  unfold backupValues at hq
  refine loop_clean ha ho h.good.1 h.rank Bad B1 B2 (c.maxDepth + 1) F _ p1 p2 ?_ q hq
  intro x hx
  obtain ⟨n, hn⟩ := hFn x hx
  exact ⟨n, hn, by omega⟩

theorem child_ne {d : Domain σ α φ} {key : σ → κ} {rank : σ → Nat} (ha : Acyclic d key rank) {g : Graph σ α} (h : True' d key g) {p : Nat} {n : Node σ α} (hn : g[p]? = some n) :
    ∀ (k : Nat) (a : α) (r : Rat) (m : Nat), n.children[k]? = some (a, r, some m) → m ≠ p := by
  intro k a r m hk e
  subst e
  exact no_loop ha h ⟨n, k, a, r, hn, hk⟩

theorem badS_backup1 {d : Domain σ α φ} {key : σ → κ} {rank : σ → Nat} (ha : Acyclic d key rank) {γ : Rat} {g : Graph σ α} (h : True' d key g) (p : Nat) :
    ¬ BadS (backupParent γ g p) p := by
  rintro ⟨n, hn, hc, hs, hall⟩
  obtain ⟨n0, hn0, e⟩ := backupParent_get hn
  rw [if_pos rfl] at e
  have hne := child_ne ha h hn0
  have : (recalc γ g p n0).1 = true := by
    rw [recalc_solved hne]
    intro k a r o hk
    obtain ⟨j, m, rfl, hj, hm⟩ := hall k a r o (by rw [e]; exact hk)
    rw [backupParent_other (hne k a r j hk)] at hj
    exact ⟨j, m, rfl, hj, hm⟩
  rw [e] at hs
  simp only at hs
  rw [this] at hs
  simp at hs

theorem badS_backup2 {γ : Rat} {g : Graph σ α} {p q : Nat} (hq : BadS (backupParent γ g p) q) (hqp : q ≠ p) : BadS g q ∨ Edge g q p := by
  obtain ⟨n, hn, hc, hs, hall⟩ := hq
  rw [backupParent_other hqp] at hn
  by_cases he : Edge g q p
  · exact Or.inr he
  · left
    refine ⟨n, hn, hc, hs, ?_⟩
    intro k a r o hk
    obtain ⟨j, m, rfl, hj, hm⟩ := hall k a r o hk
    have hjp : j ≠ p := by
      intro e
      subst e
      exact he ⟨n, k, a, r, hn, hk⟩
    rw [backupParent_other hjp] at hj
    exact ⟨j, m, rfl, hj, hm⟩

/-- Disorder of the solved bits depends on the children and the solved bits only. -/
theorem badS_congr {g g' : Graph σ α} (h : g'.map (fun n => (n.children, n.solved)) = g.map (fun n => (n.children, n.solved))) {q : Nat} (hq : BadS g' q) : BadS g q := by
  obtain ⟨n, hn, hc, hs, hall⟩ := hq
  obtain ⟨n0, hn0, e⟩ := map_get (q := fun n : Node σ α => (n.children, n.solved)) h hn
  simp only [Prod.mk.injEq] at e
  refine ⟨n0, hn0, by rw [← e.1]; exact hc, by rw [← e.2]; exact hs, ?_⟩
  intro k a r o hk
  obtain ⟨j, m, rfl, hj, hm⟩ := hall k a r o (by rw [e.1]; exact hk)
  obtain ⟨m0, hm0, e'⟩ := map_get (q := fun n : Node σ α => (n.children, n.solved)) h hj
  simp only [Prod.mk.injEq] at e'
  exact ⟨j, m0, rfl, hm0, by rw [← e'.2]; exact hm⟩

theorem updateNode_tidy {d : Domain σ α φ} {c : Config σ κ} {rank : σ → Nat} (ha : Acyclic d c.key rank) (ho : ∀ l x, x ∈ c.order l ↔ x ∈ l)
    {st : St σ α φ} (h : Sane d c rank st.graph) {j : Nat} {m : Node σ α} (hm : st.graph[j]? = some m) {b : Bool} (hb : b = false → m.children = [])
    (hbad : ∀ q, BadS st.graph q → Edge st.graph q j) : ∀ q, ¬ BadS (updateNode c st j b).graph q := by
  refine updateNode_clean ha ho h hm b BadS ?_ ?_ ?_ ?_
  · intro g p hg
    exact badS_backup1 ha (h.good.1.of_skel (skel_of_bare hg)) p
  · intro g p q hg hq
    by_cases hqp : q = p
    · subst hqp
      exact absurd hq (badS_backup1 ha (h.good.1.of_skel (skel_of_bare hg)) q)
    · rcases badS_backup2 hq hqp with h | h
      · exact Or.inl h
      · exact Or.inr ((edge_bare hg).1 h)
  · intro g p q hg hq
    left
    refine badS_congr ?_ hq
    unfold pruneValue
    refine map_modify_of (fun n : Node σ α => (n.children, n.solved)) (fun n => ?_) _ _
    split <;> rfl
  · rintro q ⟨n, hn, hc, hs, hall⟩
    by_cases he : Edge st.graph q j
    · exact he
    · rw [getElem?_modify'] at hn
      cases hg : st.graph[q]? with
      | none => rw [hg] at hn; simp at hn
      | some n0 =>
        rw [hg] at hn
        simp only [Option.map_some, Option.some.injEq] at hn
        by_cases hjq : j = q
        · subst hjq
          rw [hm] at hg
          cases hg
          rw [if_pos rfl] at hn
          subst hn
          simp only at hs hc
          exact absurd (hb hs) hc
        · rw [if_neg hjq] at hn
          subst hn
          refine hbad q ⟨n0, hg, hc, hs, ?_⟩
          intro k a r o hk
          obtain ⟨x, y, rfl, hx, hy⟩ := hall k a r o hk
          have hxj : ¬ j = x := by
            intro e
            subst e
            exact he ⟨n0, k, a, r, hg, hk⟩
          rw [getElem?_modify'] at hx
          cases hgx : st.graph[x]? with
          | none => rw [hgx] at hx; simp at hx
          | some z =>
            rw [hgx] at hx
            simp only [Option.map_some, Option.some.injEq, if_neg hxj] at hx
            subst hx
            exact ⟨x, z, rfl, hgx, hy⟩

/-- One visit, before the node that is reached is looked at. -/
theorem Sane.visit [DecidableEq κ] {d : Domain σ α φ} {c : Config σ κ} {rank : σ → Nat} (ha : Acyclic d c.key rank)
    (hlive : ∀ s, ∀ a ∈ d.actions s, d.terminal s a = false → d.actions (d.next s a) ≠ [])
    {st st1 : St σ α φ} (h : Sane d c rank st.graph) (htidy : ∀ q, ¬ BadS st.graph q) {i k : Nat} {n : Node σ α} (hn : st.graph[i]? = some n)
    (hg1 : st1.graph = expand d st.graph i) (hk : k ∈ unsolved st1.graph i) :
    Sane d c rank (fillChild d c st1 i k).1.graph ∧
    (∃ m, (fillChild d c st1 i k).1.graph[(fillChild d c st1 i k).2.1]? = some m ∧ rank m.state < rank n.state) ∧
    (∀ q, BadS (fillChild d c st1 i k).1.graph q → Edge (fillChild d c st1 i k).1.graph q (fillChild d c st1 i k).2.1 ∧
      ∀ m, (fillChild d c st1 i k).1.graph[(fillChild d c st1 i k).2.1]? = some m → m.solved = true) ∧
    (∀ (x : Nat) (m0 : Node σ α), st.graph[x]? = some m0 → ∃ m : Node σ α, (fillChild d c st1 i k).1.graph[x]? = some m ∧ m.state = m0.state ∧ m.terminal = m0.terminal) := by
  obtain ⟨n1, a, r, o1, hn1, hc, _⟩ := mem_unsolved.1 hk
  have hG1 : Good d c.key st1.graph := by rw [hg1]; exact h.good.expand i
  have ht1 := hG1.1
  obtain ⟨n0, hn0, es, _, et, eso, _, _, _, _, ech⟩ := expand_get (by rw [← hg1]; exact hn1)
  rw [hn] at hn0
  cases hn0
  obtain ⟨hact, m, hm, hmk⟩ := fill_target ht1 hn1 hc
  have hms := ha.inj _ _ hmk
  have hG2 : Good d c.key (fillChild d c st1 i k).1.graph := ⟨True'.fill ht1 i k, BestOk.fill hG1.2 i k⟩
  have hdown : rank (d.next n1.state a) < rank n.state := by
    have := ha.down n1.state a hact
    rw [es] at this ⊢
    exact this
  -- the origin of each node
  have hget : ∀ (x : Nat) (m : Node σ α), (fillChild d c st1 i k).1.graph[x]? = some m →
      (∃ m0 : Node σ α, st.graph[x]? = some m0 ∧ m.state = m0.state ∧ m.terminal = m0.terminal ∧ m.solved = m0.solved ∧ (x ≠ i → m.children = m0.children)) ∨
      (m.state = d.next n1.state a ∧ m.terminal = d.terminal n1.state a ∧ m.children = [] ∧ m.solved = false) := by
    intro x m hm
    rcases fill_get ht1 hn1 hc hm with ⟨m1, hm1, e1, e2, e3, _, _, _, e7⟩ | ⟨_, e, _⟩
    · left
      obtain ⟨m0, hm0, f1, _, f3, f4, _, _, _, _, f9⟩ := expand_get (by rw [← hg1]; exact hm1)
      refine ⟨m0, hm0, e1.trans f1, e2.trans f3, e3.trans f4, ?_⟩
      intro hxi
      have hix : ¬ i = x := fun e => hxi e.symm
      rw [e7, if_neg hix, f9, if_neg (fun e => hix e.1)]
    · right
      rw [e]
      exact ⟨rfl, rfl, rfl, rfl⟩
  -- the node that is left
  have hleft : ∃ n2, (fillChild d c st1 i k).1.graph[i]? = some n2 ∧ n2.children = n1.children.set k (a, d.reward n1.state a, some (fillChild d c st1 i k).2.1) := by
    obtain ⟨n2, hn2⟩ := fill_put (d := d) (c := c) hn1 hc hn1
    refine ⟨n2, hn2, ?_⟩
    rcases fill_get ht1 hn1 hc hn2 with ⟨m1, hm1, _, _, _, _, _, _, e7⟩ | ⟨e, _⟩
    · rw [hn1] at hm1
      cases hm1
      rw [e7, if_pos rfl]
    · have := (List.getElem?_eq_some_iff.mp hn1).1
      omega
  obtain ⟨n2, hn2, hn2c⟩ := hleft
  have hk2 : n2.children[k]? = some (a, d.reward n1.state a, some (fillChild d c st1 i k).2.1) := by
    rw [hn2c, List.getElem?_set, if_pos rfl, if_pos (List.getElem?_eq_some_iff.mp hc).1]
  have hedge : Edge (fillChild d c st1 i k).1.graph i (fillChild d c st1 i k).2.1 := ⟨n2, k, _, _, hn2, hk2⟩
  have hkeep : ∀ (x : Nat) (m0 : Node σ α), st.graph[x]? = some m0 → ∃ m : Node σ α, (fillChild d c st1 i k).1.graph[x]? = some m ∧ m.state = m0.state ∧ m.terminal = m0.terminal ∧ m.solved = m0.solved ∧ (x ≠ i → m.children = m0.children) := by
    intro x m0 hx
    obtain ⟨m1, hm1⟩ := expand_put (d := d) (i := i) hx
    rw [← hg1] at hm1
    obtain ⟨m, hm⟩ := fill_put (d := d) (c := c) hn1 hc hm1
    rcases fill_get ht1 hn1 hc hm with ⟨m1', hm1', e1, e2, e3, _, _, _, e7⟩ | ⟨e, _⟩
    · obtain ⟨m0', hm0', f1, _, f3, f4, _, _, _, _, f9⟩ := expand_get (by rw [← hg1]; exact hm1')
      rw [hx] at hm0'
      cases hm0'
      refine ⟨m, hm, e1.trans f1, e2.trans f3, e3.trans f4, ?_⟩
      intro hxi
      have hix : ¬ i = x := fun e => hxi e.symm
      rw [e7, if_neg hix, f9, if_neg (fun e => hix e.1)]
    · have := (List.getElem?_eq_some_iff.mp hm1).1
      omega
  refine ⟨⟨hG2, ?_, ?_, ?_⟩, ⟨m, hm, by rw [hms]; exact hdown⟩, ?_, ?_⟩
  · intro x m hm
    rcases hget x m hm with ⟨m0, hm0, e1, _⟩ | ⟨e1, _⟩
    · rw [e1]; exact h.rank x m0 hm0
    · rw [e1]
      have := h.rank i n hn
      omega
  · intro x m hm hterm
    rcases hget x m hm with ⟨m0, hm0, e1, e2, _⟩ | ⟨e1, e2, _⟩
    · rw [e1]; exact h.live x m0 hm0 (by rw [← e2]; exact hterm)
    · rw [e1]; exact hlive _ a hact (by rw [← e2]; exact hterm)
  · intro x m hm hch
    by_cases hxi : x = i
    · subst hxi; exact ⟨_, hedge⟩
    · rcases hget x m hm with ⟨m0, hm0, _, _, _, e4⟩ | ⟨_, _, e3, _⟩
      · rw [e4 hxi] at hch
        obtain ⟨y, m0', k', a', r', hm0', hk'⟩ := h.fill x m0 hm0 hch
        rw [hm0] at hm0'
        cases hm0'
        exact ⟨y, m, k', a', r', hm, by rw [e4 hxi]; exact hk'⟩
      · exact absurd e3 hch
  · rintro q ⟨m, hm, hch, hsol, hall⟩
    by_cases hqi : q = i
    · subst hqi
      refine ⟨hedge, ?_⟩
      rw [hn2] at hm
      cases hm
      obtain ⟨j, mj, ej, hj, hsj⟩ := hall _ _ _ _ hk2
      cases ej
      intro m' hm'
      rw [hj] at hm'
      cases hm'
      exact hsj
    · exfalso
      rcases hget q m hm with ⟨m0, hm0, _, _, e3, e4⟩ | ⟨_, _, e3, _⟩
      · refine htidy q ⟨m0, hm0, by rw [← e4 hqi]; exact hch, by rw [← e3]; exact hsol, ?_⟩
        intro k' a' r' o' hk'
        obtain ⟨j, mj, ej, hj, hsj⟩ := hall k' a' r' o' (by rw [e4 hqi]; exact hk')
        subst ej
        obtain ⟨_, mj0, hmj0, _⟩ := h.good.1.edge q m0 k' a' r' j hm0 hk'
        obtain ⟨mj', hmj', _, _, f3, _⟩ := hkeep j mj0 hmj0
        rw [hj] at hmj'
        cases hmj'
        exact ⟨j, mj0, rfl, hmj0, by rw [← f3]; exact hsj⟩
      · exact hch e3
  · intro x m0 hx
    obtain ⟨m, hm, e1, e2, _⟩ := hkeep x m0 hx
    exact ⟨m, hm, e1, e2⟩

theorem Sane.modify {d : Domain σ α φ} {c : Config σ κ} {rank : σ → Nat} {g : Graph σ α} (h : Sane d c rank g) {f : Node σ α → Node σ α}
    (hf : ∀ n, skel (f n) = skel n ∧ (f n).best = n.best) (ht : ∀ n, core (f n) = core n) (i : Nat) : Sane d c rank (g.modify i f) :=
  h.of_core (h.good.modify hf i) (map_modify_of core ht _ _)

theorem not_badS_modify {g : Graph σ α} (h : ∀ q, ¬ BadS g q) {f : Node σ α → Node σ α} (hf : ∀ n, (f n).children = n.children ∧ (f n).solved = n.solved) (i : Nat) :
    ∀ q, ¬ BadS (g.modify i f) q := by
  intro q hq
  refine h q (badS_congr ?_ hq)
  refine map_modify_of (fun n : Node σ α => (n.children, n.solved)) (fun n => ?_) _ _
  exact Prod.ext (hf n).1 (hf n).2

/-- The node that is reached is looked at. -/
theorem Sane.arrive [DecidableEq φ] {d : Domain σ α φ} {c : Config σ κ} {rank : σ → Nat} (ha : Acyclic d c.key rank) (ho : ∀ l x, x ∈ c.order l ↔ x ∈ l)
    {w : Nat} {st : St σ α φ} {j : Nat} {b : Bool} (h : Sane d c rank st.graph)
    (hbad : ∀ q, BadS st.graph q → Edge st.graph q j ∧ ∀ m, st.graph[j]? = some m → m.solved = true) (hj : ∃ m, st.graph[j]? = some m) :
    Sane d c rank (arrive d c w st j b).1.graph ∧ ∀ q, ¬ BadS (arrive d c w st j b).1.graph q := by
  refine ⟨h.of_core (h.good.arrive j b) (core_of_frame (arrive_frame d c w st j b)), ?_⟩
  obtain ⟨m, hm⟩ := hj
  unfold Riw.arrive
  rw [hm]
  dsimp only
  split
  · exact updateNode_tidy ha ho h hm (by simp) (fun q hq => (hbad q hq).1)
  · rename_i hts
    have hms : m.solved = false := by
      cases hs : m.solved
      · rfl
      · simp [hs] at hts
    have hno : ∀ q, ¬ BadS st.graph q := by
      intro q hq
      have := (hbad q hq).2 m hm
      rw [hms] at this
      simp at this
    have hnov : ∀ x : Nat, Sane d c rank (st.graph.modify j fun m => { m with novelty := x }) ∧ (∀ q, ¬ BadS (st.graph.modify j fun m => { m with novelty := x }) q) ∧
        ∃ m', (st.graph.modify j fun m => { m with novelty := x })[j]? = some m' ∧ m'.children = m.children := by
      intro x
      refine ⟨h.modify (fun n => ?_) (fun n => ?_) j, not_badS_modify hno (fun n => ?_) j, ?_⟩
      · exact ⟨rfl, rfl⟩
      · rfl
      · exact ⟨rfl, rfl⟩
      · rw [getElem?_modify', hm]
        exact ⟨_, rfl, by simp⟩
    obtain ⟨h1, h2, m', hm', hc'⟩ := hnov (novelty w st.table (d.features m.state) m.depth b).2.1
    split
    · refine updateNode_tidy (m := { m' with pruned := true }) ha ho ?_ ?_ (by simp) ?_
      · refine h1.modify (fun n => ?_) (fun n => ?_) j
        · exact ⟨rfl, rfl⟩
        · rfl
      · rw [getElem?_modify', hm']; simp
      · intro q hq
        refine absurd hq (not_badS_modify h2 (fun n => ?_) j q)
        exact ⟨rfl, rfl⟩
    · split
      · exact updateNode_tidy (m := m') ha ho h1 hm' (by simp) (fun q hq => absurd hq (h2 q))
      · split
        · split
          · rename_i hemp
            refine updateNode_tidy (m := m') ha ho h1 hm' (fun _ => ?_) (fun q hq => absurd hq (h2 q))
            rw [hc']
            simpa using hemp
          · exact h2
        · exact h2

/-- No child is left to visit only where there is disorder, or no action. -/
theorem Sane.some_unsolved {d : Domain σ α φ} {c : Config σ κ} {rank : σ → Nat} {g : Graph σ α} (h : Sane d c rank g) (htidy : ∀ q, ¬ BadS g q)
    {i : Nat} {n : Node σ α} (hn : g[i]? = some n) (ht : n.terminal = false) (hs : n.solved = false) : unsolved (expand d g i) i ≠ [] := by
  intro hnil
  have hno : ∀ k, k ∉ unsolved (expand d g i) i := by rw [hnil]; simp
  obtain ⟨n1, hn1⟩ := expand_put (d := d) (i := i) hn
  obtain ⟨n0, hn0, es, _, et, eso, _, _, _, _, ech⟩ := expand_get hn1
  rw [hn] at hn0
  cases hn0
  by_cases hc : n.children = []
  · have hact := h.live i n hn ht
    rw [if_pos ⟨rfl, hc⟩] at ech
    obtain ⟨a, l, hal⟩ := List.exists_cons_of_ne_nil hact
    refine hno 0 (mem_unsolved.2 ⟨n1, a, 0, none, hn1, ?_, by simp⟩)
    rw [ech, hal]
    rfl
  · rw [if_neg (fun e => hc e.2)] at ech
    refine htidy i ⟨n, hn, hc, hs, ?_⟩
    intro k a r o hk
    have hk1 : n1.children[k]? = some (a, r, o) := by rw [ech]; exact hk
    cases o with
    | none => exact absurd (mem_unsolved.2 ⟨n1, a, r, none, hn1, hk1, by simp⟩) (hno k)
    | some j =>
      obtain ⟨_, m, hm, _⟩ := h.good.1.edge i n k a r j hn hk
      refine ⟨j, m, rfl, hm, ?_⟩
      cases hms : m.solved
      · exfalso
        refine hno k (mem_unsolved.2 ⟨n1, a, r, some j, hn1, hk1, ?_⟩)
        intro j' e
        cases e
        obtain ⟨m1, hm1⟩ := expand_put (d := d) (i := i) hm
        obtain ⟨m0, hm0, _, _, _, e4, _⟩ := expand_get hm1
        rw [hm] at hm0
        cases hm0
        exact ⟨m1, hm1, by rw [e4]; exact hms⟩
      · rfl

/-- One round of a rollout. -/
theorem Sane.step [DecidableEq κ] [DecidableEq φ] {d : Domain σ α φ} {c : Config σ κ} {rank : σ → Nat} (ha : Acyclic d c.key rank) (ho : ∀ l x, x ∈ c.order l ↔ x ∈ l)
    (hlive : ∀ s, ∀ a ∈ d.actions s, d.terminal s a = false → d.actions (d.next s a) ≠ []) (w : Nat)
    {st : St σ α φ} (h : Sane d c rank st.graph) (htidy : ∀ q, ¬ BadS st.graph q) {i : Nat} {n : Node σ α} (hn : st.graph[i]? = some n) (ht : n.terminal = false) :
    ∃ st' o, Riw.step d c w st i = .ok (st', o) ∧ Sane d c rank st'.graph ∧ (∀ q, ¬ BadS st'.graph q) ∧
      (∀ j, o = some j → ∃ m : Node σ α, st'.graph[j]? = some m ∧ m.terminal = false ∧ rank m.state < rank n.state) ∧
      (∀ (x : Nat) (m0 : Node σ α), st.graph[x]? = some m0 → ∃ m : Node σ α, st'.graph[x]? = some m ∧ m.state = m0.state ∧ m.terminal = m0.terminal) := by
  cases hs : Riw.step d c w st i with
  | error e =>
    obtain ⟨n', hn', hsol, hun⟩ := step_error hs
    rw [hn] at hn'
    cases hn'
    exact absurd hun (h.some_unsolved htidy hn ht hsol)
  | ok r =>
    obtain ⟨st', o⟩ := r
    refine ⟨st', o, rfl, ?_⟩
    rcases step_ok hs with ⟨rfl, rfl, _⟩ | ⟨n', k, hn', hsol, hk, e⟩
    · exact ⟨h, htidy, by simp, fun x m0 hx => ⟨m0, hx, rfl, rfl⟩⟩
    · generalize hst1 : ({ st with graph := expand d st.graph i, draws := st.draws + 1 } : St σ α φ) = st1 at e
      have hg1 : st1.graph = expand d st.graph i := by rw [← hst1]
      rw [← hg1] at hk
      obtain ⟨v1, ⟨mj, hmj, hlt⟩, v3, v4⟩ := h.visit ha hlive htidy hn hg1 hk
      obtain ⟨a1, a2⟩ := Sane.arrive ha ho (w := w) (b := (fillChild d c st1 i k).2.2) v1 v3 ⟨mj, hmj⟩
      have hf := arrive_frame d c w (fillChild d c st1 i k).1 (fillChild d c st1 i k).2.1 (fillChild d c st1 i k).2.2
      rw [← e] at a1 a2 hf
      have hkeep : ∀ (x : Nat) (m0 : Node σ α), (fillChild d c st1 i k).1.graph[x]? = some m0 → ∃ m : Node σ α, st'.graph[x]? = some m ∧ m.state = m0.state ∧ m.terminal = m0.terminal := by
        intro x m0 hx
        obtain ⟨m, hm, e3⟩ := map_get hf.symm hx
        simp only [frame, Prod.mk.injEq] at e3
        exact ⟨m, hm, e3.1.symm, e3.2.2.2.2.symm⟩
      refine ⟨a1, a2, ?_, ?_⟩
      · intro j ho
        obtain ⟨hj, m1, hm1, ht1, _⟩ := arrive_some (d := d) (c := c) (w := w) (st := (fillChild d c st1 i k).1) (j := (fillChild d c st1 i k).2.1)
          (b := (fillChild d c st1 i k).2.2) (j' := j) (by rw [← e]; exact ho)
        obtain ⟨m, hm, e1, e2⟩ := hkeep _ _ hmj
        rw [hmj] at hm1
        cases hm1
        rw [hj]
        exact ⟨m, hm, by rw [e2]; exact ht1, by rw [e1]; exact hlt⟩
      · intro x m0 hx
        obtain ⟨m1, hm1, e1, e2⟩ := v4 x m0 hx
        obtain ⟨m, hm, f1, f2⟩ := hkeep x m1 hm1
        exact ⟨m, hm, f1.trans e1, f2.trans e2⟩

/-- A rollout comes to its end. -/
theorem Sane.walk [DecidableEq κ] [DecidableEq φ] {d : Domain σ α φ} {c : Config σ κ} {rank : σ → Nat} (ha : Acyclic d c.key rank) (ho : ∀ l x, x ∈ c.order l ↔ x ∈ l)
    (hlive : ∀ s, ∀ a ∈ d.actions s, d.terminal s a = false → d.actions (d.next s a) ≠ []) (w : Nat) :
    ∀ (fuel : Nat) (st : St σ α φ) (i : Nat) (n : Node σ α), Sane d c rank st.graph → (∀ q, ¬ BadS st.graph q) → st.graph[i]? = some n → n.terminal = false → rank n.state < fuel →
    ∃ st', Riw.walk d c w fuel i st = some (.ok st') ∧ Sane d c rank st'.graph ∧ (∀ q, ¬ BadS st'.graph q) ∧
      (∀ (x : Nat) (m0 : Node σ α), st.graph[x]? = some m0 → ∃ m : Node σ α, st'.graph[x]? = some m ∧ m.state = m0.state ∧ m.terminal = m0.terminal) := by
  intro fuel
  induction fuel with
  | zero => intro st i n _ _ _ _ h; omega
  | succ fuel ih =>
    intro st i n h htidy hn ht hr
    obtain ⟨st', o, hs, s1, s2, s3, s4⟩ := h.step ha ho hlive w htidy hn ht
    unfold Riw.walk
    rw [hs]
    cases o with
    | none => exact ⟨st', rfl, s1, s2, s4⟩
    | some j =>
      obtain ⟨m, hm, hmt, hlt⟩ := s3 j rfl
      obtain ⟨st'', hw, w1, w2, w3⟩ := ih st' j m s1 s2 hm hmt (by omega)
      refine ⟨st'', hw, w1, w2, ?_⟩
      intro x m0 hx
      obtain ⟨m1, hm1, e1, e2⟩ := s4 x m0 hx
      obtain ⟨m2, hm2, f1, f2⟩ := w3 x m1 hm1
      exact ⟨m2, hm2, f1.trans e1, f2.trans e2⟩

theorem Sane.rollouts [DecidableEq κ] [DecidableEq φ] {d : Domain σ α φ} {c : Config σ κ} {rank : σ → Nat} (ha : Acyclic d c.key rank) (ho : ∀ l x, x ∈ c.order l ↔ x ∈ l)
    (hlive : ∀ s, ∀ a ∈ d.actions s, d.terminal s a = false → d.actions (d.next s a) ≠ []) (w fuel root : Nat) (s : σ) (hfuel : rank s < fuel) :
    ∀ (left : Nat) (st : St σ α φ) (n : Node σ α), Sane d c rank st.graph → (∀ q, ¬ BadS st.graph q) → st.graph[root]? = some n → n.terminal = false → n.state = s →
    ∃ st', Riw.rollouts d c w fuel root left st = some (.ok st') ∧ Sane d c rank st'.graph ∧
      ∃ n' : Node σ α, st'.graph[root]? = some n' ∧ n'.terminal = false ∧ n'.state = s := by
  intro left
  induction left with
  | zero =>
    intro st n h htidy hn ht hs
    unfold Riw.rollouts
    rw [hn]
    dsimp only
    split
    · exact ⟨st, rfl, h, n, hn, ht, hs⟩
    · split
      · exact ⟨_, rfl, h, n, hn, ht, hs⟩
      · exact ⟨_, rfl, h, n, hn, ht, hs⟩
  | succ left ih =>
    intro st n h htidy hn ht hs
    unfold Riw.rollouts
    rw [hn]
    dsimp only
    split
    · exact ⟨st, rfl, h, n, hn, ht, hs⟩
    · split
      · exact ⟨_, rfl, h, n, hn, ht, hs⟩
      · obtain ⟨st', hw, w1, w2, w3⟩ := Sane.walk ha ho hlive w fuel { { st with ticks := st.ticks + 1 } with rollouts := st.rollouts + 1 } root n h htidy hn ht (by rw [hs]; exact hfuel)
        obtain ⟨n', hn', e1, e2⟩ := w3 root n hn
        unfold rollout
        rw [hw]
        exact ih st' n' w1 w2 hn' (by rw [e2]; exact ht) (by rw [e1]; exact hs)

theorem not_badS_clear {g : Graph σ α} (h : ∀ (i : Nat) (n : Node σ α), g[i]? = some n → n.solved = false) : ∀ q, ¬ BadS g q := by
  rintro q ⟨n, hn, hc, hs, hall⟩
  obtain ⟨⟨a, r, o⟩, l, e⟩ := List.exists_cons_of_ne_nil hc
  obtain ⟨j, m, _, hm, hms⟩ := hall 0 a r o (by rw [e]; rfl)
  rw [h j m hm] at hms
  simp at hms

/-- The start of the search of one width. -/
theorem Sane.enter [DecidableEq κ] [DecidableEq φ] {d : Domain σ α φ} {c : Config σ κ} {rank : σ → Nat} (ha : Acyclic d c.key rank) {s : σ} (hr : rank s ≤ c.maxDepth) (hl : d.actions s ≠ [])
    (w : Nat) {st : St σ α φ} (h : Sane d c rank st.graph) (hterm : ∀ (i : Nat) (n : Node σ α), st.graph[i]? = some n → n.state = s → n.terminal = false) :
    Sane d c rank (enter d c w s st).1.graph ∧ (∀ q, ¬ BadS (enter d c w s st).1.graph q) ∧
      ∃ n : Node σ α, (enter d c w s st).1.graph[(enter d c w s st).2]? = some n ∧ n.terminal = false ∧ n.state = s := by
  have hgood := h.good.enter w s
  have hclear : ∀ (i : Nat) (n : Node σ α), (clearBits st.graph)[i]? = some n → n.solved = false ∧ ∃ n0, st.graph[i]? = some n0 ∧ core n = core n0 := by
    intro i n hn
    unfold clearBits at hn
    rw [List.getElem?_map] at hn
    cases hg : st.graph[i]? with
    | none => rw [hg] at hn; simp at hn
    | some n0 => rw [hg] at hn; simp at hn; subst hn; exact ⟨rfl, n0, rfl, rfl⟩
  have hcoreC : (clearBits st.graph).map core = st.graph.map core := by
    unfold clearBits
    refine map_get_of (fun n => ?_) _
    rfl
  obtain ⟨nov, table, g', root, e, hcase⟩ := enter_cases d c w s st
  rw [e] at hgood ⊢
  dsimp only at hgood ⊢
  rcases hcase with ⟨hloc, rfl⟩ | ⟨hloc, rfl, rfl⟩
  · obtain ⟨n, hn, hkey⟩ := locate_some hloc
    have hns := ha.inj _ _ hkey
    obtain ⟨hsol, n0, hn0, hcore⟩ := hclear root n hn
    simp only [core, Prod.mk.injEq] at hcore
    have hcore2 : (((clearBits st.graph).modify root fun n => { n with depth := 0 }).modify root fun n => { n with novelty := nov }).map core = st.graph.map core := by
      rw [← hcoreC]
      rw [map_modify_of core (f := fun n : Node σ α => { n with novelty := nov }) (fun n => rfl), map_modify_of core (f := fun n : Node σ α => { n with depth := 0 }) (fun n => rfl)]
    refine ⟨h.of_core hgood hcore2, not_badS_clear ?_, ?_⟩
    · intro i m hm
      rw [getElem?_modify', getElem?_modify'] at hm
      cases hg : (clearBits st.graph)[i]? with
      | none => rw [hg] at hm; simp at hm
      | some m0 =>
        rw [hg] at hm
        simp only [Option.map_some, Option.some.injEq] at hm
        have := (hclear i m0 hg).1
        subst hm
        split <;> simpa using this
    · rw [getElem?_modify', getElem?_modify', hn]
      refine ⟨_, rfl, ?_, ?_⟩
      · simp only [if_pos]
        rw [hcore.2.2]
        exact hterm root n0 hn0 (by rw [← hcore.1]; exact hns)
      · simp only [if_pos]
        exact hns
  · have hg2 : ((clearBits st.graph ++ [({ state := s, depth := 0 } : Node σ α)]).modify (clearBits st.graph).length fun n => { n with novelty := nov }) =
        clearBits st.graph ++ [({ state := s, depth := 0, novelty := nov } : Node σ α)] := by
      apply List.ext_getElem?
      intro x
      rw [getElem?_modify']
      by_cases hx : x < (clearBits st.graph).length
      · rw [List.getElem?_append_left hx, List.getElem?_append_left hx]
        have : ¬ (clearBits st.graph).length = x := by omega
        simp [this]
      · rw [List.getElem?_append_right (by omega), List.getElem?_append_right (by omega)]
        by_cases hx' : x = (clearBits st.graph).length
        · subst hx'; simp
        · have : x - (clearBits st.graph).length ≠ 0 := by omega
          obtain ⟨y, hy⟩ := Nat.exists_eq_succ_of_ne_zero this
          rw [hy]; rfl
    rw [hg2] at hgood ⊢
    have hsane : Sane d c rank (clearBits st.graph) := h.of_core (by
      refine ⟨h.good.1.of_skel ?_, h.good.2.map (fun n => ?_)⟩
      · unfold clearBits
        refine map_get_of (fun n => ?_) _
        rfl
      · exact ⟨rfl, rfl⟩) hcoreC
    have hnew : ∀ {i : Nat} {n : Node σ α}, (clearBits st.graph ++ [{ state := s, depth := 0, novelty := nov }])[i]? = some n →
        (clearBits st.graph)[i]? = some n ∨ n = { state := s, depth := 0, novelty := nov } := by
      intro i n hn
      rw [List.getElem?_append] at hn
      split at hn
      · exact Or.inl hn
      · have := List.mem_of_getElem? hn
        simp at this
        exact Or.inr this
    refine ⟨⟨hgood, ?_, ?_, ?_⟩, not_badS_clear ?_, ?_⟩
    · intro i n hn
      rcases hnew hn with h | rfl
      · exact hsane.rank i n h
      · exact hr
    · intro i n hn ht
      rcases hnew hn with h | rfl
      · exact hsane.live i n h ht
      · exact hl
    · intro i n hn hc
      rcases hnew hn with h | rfl
      · obtain ⟨j, n', k, a, r, hn', hk⟩ := hsane.fill i n h hc
        rw [h] at hn'
        cases hn'
        exact ⟨j, n, k, a, r, hn, hk⟩
      · exact absurd rfl hc
    · intro i n hn
      rcases hnew hn with h | rfl
      · exact (hclear i n h).1
      · rfl
    · refine ⟨{ state := s, depth := 0, novelty := nov }, ?_, rfl, rfl⟩
      rw [List.getElem?_append_right (Nat.le_refl _)]
      simp

/-- In an acyclic domain whose states all have actions unless they are terminal a search returns. -/
theorem Sane.solve [DecidableEq κ] [DecidableEq φ] {d : Domain σ α φ} {c : Config σ κ} {rank : σ → Nat} (ha : Acyclic d c.key rank) (ho : ∀ l x, x ∈ c.order l ↔ x ∈ l)
    (hlive : ∀ s, ∀ a ∈ d.actions s, d.terminal s a = false → d.actions (d.next s a) ≠ []) {s : σ} (hr : rank s ≤ c.maxDepth) (hl : d.actions s ≠ []) {fuel : Nat} (hfuel : rank s < fuel)
    {st : St σ α φ} (h : Sane d c rank st.graph) (hterm : ∀ (i : Nat) (n : Node σ α), st.graph[i]? = some n → n.state = s → n.terminal = false) :
    ∃ st' b, Riw.solve d c fuel s st = some (.ok (st', b)) := by
  have hw : ∀ (k w : Nat) (st : St σ α φ), Sane d c rank st.graph → (∀ (i : Nat) (n : Node σ α), st.graph[i]? = some n → n.state = s → n.terminal = false) →
      ∃ st' b, widths d c fuel s k w st = some (.ok (st', b)) := by
    intro k
    induction k with
    | zero => intro w st _ _; exact ⟨st, false, rfl⟩
    | succ k ih =>
      intro w st h hterm
      obtain ⟨e1, e2, n, hn, ht, hs⟩ := Sane.enter ha hr hl w h hterm
      obtain ⟨st', hro, r1, n', hn', ht', hs'⟩ := Sane.rollouts ha ho hlive w fuel (Riw.enter d c w s st).2 s hfuel (c.budget - (Riw.enter d c w s st).1.rollouts) _ n e1 e2 hn ht hs
      have hterm' : ∀ (i : Nat) (n : Node σ α), st'.graph[i]? = some n → n.state = s → n.terminal = false := by
        intro i m hm hms
        have := r1.good.1.keys i _ m n' hm hn' (by rw [hms, hs'])
        subst this
        rw [hn'] at hm
        cases hm
        exact ht'
      unfold widths
      unfold solveWidth
      dsimp only
      rw [hro]
      dsimp only
      split
      · rename_i heq; simp at heq
      · rename_i heq; simp at heq
      · exact ⟨_, _, rfl⟩
      · rename_i st2 heq
        simp only [Option.some.injEq, Except.ok.injEq, Prod.mk.injEq] at heq
        refine ih (w + 1) st2 ?_ ?_
        · rw [← heq.1]; exact r1
        · rw [← heq.1]; exact hterm'
  exact hw _ _ { st with rollouts := 0, table := [] } h hterm

end Verif.Riw
