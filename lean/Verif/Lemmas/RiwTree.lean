import Verif.Lemmas.RiwStop

namespace Verif.Riw
open Relation (TransGen)

variable {σ α φ κ : Type}

/-- A domain whose states are the nodes of a tree. -/
structure Treelike (d : Domain σ α φ) : Prop where
  one : ∀ s s' a a', a ∈ d.actions s → a' ∈ d.actions s' → d.next s a = d.next s' a' → s = s' ∧ a = a'
  nodup : ∀ s, (d.actions s).Nodup

/-- What is known of a graph that grows as a tree from `s0`. -/
structure Grown (d : Domain σ α φ) (rank : σ → Nat) (s0 : σ) (g : Graph σ α) : Prop where
  low : ∀ (i : Nat) (n : Node σ α), g[i]? = some n → n.depth + rank n.state ≤ rank s0
  up : ∀ (i : Nat) (n : Node σ α), g[i]? = some n → n.state = s0 ∨ ∃ p, Edge g p i
  flag : ∀ (i : Nat) (n : Node σ α) (k : Nat) (a : α) (r : Rat) (j : Nat) (m : Node σ α), g[i]? = some n → n.children[k]? = some (a, r, some j) → g[j]? = some m → m.terminal = d.terminal n.state a
  tleaf : ∀ (i : Nat) (n : Node σ α), g[i]? = some n → n.terminal = true → n.children = []

/-- Solved leaves are terminal and worth nothing, unless they were pruned. -/
def LeafOk (g : Graph σ α) : Prop := ∀ (i : Nat) (n : Node σ α), g[i]? = some n → n.solved = true → n.pruned = false → n.children = [] → n.terminal = true ∧ n.value = some 0

/-- A solved inner node whose value is not that of its children. -/
def BadV (γ : Rat) (g : Graph σ α) (q : Nat) : Prop :=
  ∃ n, g[q]? = some n ∧ n.children ≠ [] ∧ n.solved = true ∧ n.pruned = false ∧ (n.solved, n.value, n.best) ≠ recalc γ g q n

theorem recalc_children {γ : Rat} {g : Graph σ α} {p : Nat} {n n' : Node σ α} (h : n'.children = n.children) : recalc γ g p n' = recalc γ g p n := by
  unfold recalc
  rw [h]

/-- Disorder at a node moves to another graph in which the node and its children have the same bits and values. -/
theorem BadV.move {d : Domain σ α φ} {key : σ → κ} {rank : σ → Nat} (ha : Acyclic d key rank) {γ : Rat} {g g' : Graph σ α} (hT : True' d key g) {q : Nat} (h : BadV γ g' q)
    {n' n : Node σ α} (hn' : g'[q]? = some n') (hn : g[q]? = some n) (e : n'.children = n.children ∧ n'.solved = n.solved ∧ n'.pruned = n.pruned ∧ n'.value = n.value ∧ n'.best = n.best)
    (hch : ∀ j, Edge g q j → (g'[j]?).map (fun n => (n.solved, n.value)) = (g[j]?).map (fun n => (n.solved, n.value))) : BadV γ g q := by
  obtain ⟨m, hm, h1, h2, h3, h4⟩ := h
  rw [hn'] at hm
  cases hm
  obtain ⟨e1, e2, e3, e4, e5⟩ := e
  refine ⟨n, hn, by rw [← e1]; exact h1, by rw [← e2]; exact h2, by rw [← e3]; exact h3, ?_⟩
  rw [← e2, ← e4, ← e5]
  intro heq
  apply h4
  rw [heq, recalc_children e1]
  symm
  refine recalc_congr ?_
  intro k a r m hk
  have hedge : Edge g q m := ⟨n, k, a, r, hn, hk⟩
  refine ⟨?_, hch m hedge⟩
  intro e
  subst e
  exact no_loop ha hT hedge

theorem badV_backup1 {d : Domain σ α φ} {key : σ → κ} {rank : σ → Nat} (ha : Acyclic d key rank) {γ : Rat} {g : Graph σ α} (h : True' d key g) (p : Nat) :
    ¬ BadV γ (backupParent γ g p) p := by
  rintro ⟨n, hn, hc, hs, _, hne⟩
  obtain ⟨n0, hn0, e⟩ := backupParent_get hn
  rw [if_pos rfl] at e
  apply hne
  have hch := child_ne ha h hn0
  have e1 : n.children = n0.children := by rw [e]
  have h1 : recalc γ (backupParent γ g p) p n = recalc γ g p n0 := by
    rw [recalc_children e1]
    refine recalc_congr ?_
    intro k a r m hk
    refine ⟨hch k a r m hk, ?_⟩
    rw [backupParent_other (hch k a r m hk)]
  rw [h1, e]

theorem badV_backup2 {d : Domain σ α φ} {key : σ → κ} {rank : σ → Nat} (ha : Acyclic d key rank) {γ : Rat} {g : Graph σ α} (hT : True' d key g) {p q : Nat}
    (hq : BadV γ (backupParent γ g p) q) (hqp : q ≠ p) : BadV γ g q ∨ Edge g q p := by
  by_cases he : Edge g q p
  · exact Or.inr he
  · left
    obtain ⟨n, hn, _⟩ := id hq
    have hn2 := hn
    rw [backupParent_other hqp] at hn2
    refine hq.move ha hT hn hn2 ⟨rfl, rfl, rfl, rfl, rfl⟩ ?_
    intro j hj
    have : j ≠ p := by intro e; subst e; exact he hj
    rw [backupParent_other this]

theorem badV_prune {d : Domain σ α φ} {c : Config σ κ} {rank : σ → Nat} (ha : Acyclic d c.key rank) {γ : Rat} {g : Graph σ α} (hT : True' d c.key g) {mr : Option Rat} {p q : Nat}
    (hq : BadV γ (pruneValue c mr g p) q) : BadV γ g q ∨ Edge g q p := by
  by_cases he : Edge g q p
  · exact Or.inr he
  · left
    obtain ⟨n, hn, h1, h2, h3, h4⟩ := id hq
    unfold pruneValue at hn
    have hn0 := hn
    rw [getElem?_modify'] at hn
    cases hg : g[q]? with
    | none => rw [hg] at hn; simp at hn
    | some n0 =>
      rw [hg] at hn
      simp only [Option.map_some, Option.some.injEq] at hn
      have hsame : n = n0 := by
        rw [← hn]
        split
        · rename_i hpq
          split
          · rename_i hpr
            exfalso
            rw [if_pos hpq, if_pos hpr] at hn
            rw [← hn] at h3
            rw [hpr] at h3
            simp at h3
          · rfl
        · rfl
      subst hsame
      refine hq.move ha hT (by unfold pruneValue; exact hn0) hg ⟨rfl, rfl, rfl, rfl, rfl⟩ ?_
      intro j hj
      have : ¬ p = j := by intro e; subst e; exact he hj
      unfold pruneValue
      rw [getElem?_modify']
      simp [this]

theorem updateNode_exact {d : Domain σ α φ} {c : Config σ κ} {rank : σ → Nat} (ha : Acyclic d c.key rank) (ho : ∀ l x, x ∈ c.order l ↔ x ∈ l)
    {st : St σ α φ} (h : Sane d c rank st.graph) {j : Nat} {m : Node σ α} (hm : st.graph[j]? = some m) {b : Bool} (hb : b = false ∨ m.children = [] ∨ m.pruned = true)
    (hbad : ∀ q, ¬ BadV c.discount st.graph q) : ∀ q, ¬ BadV c.discount (updateNode c st j b).graph q := by
  refine updateNode_clean ha ho h hm b (BadV c.discount) ?_ ?_ ?_ ?_
  · intro g p hg
    exact badV_backup1 ha (h.good.1.of_skel (skel_of_bare hg)) p
  · intro g p q hg hq
    have hT := h.good.1.of_skel (skel_of_bare hg)
    by_cases hqp : q = p
    · subst hqp
      exact absurd hq (badV_backup1 ha hT q)
    · rcases badV_backup2 ha hT hq hqp with h | h
      · exact Or.inl h
      · exact Or.inr ((edge_bare hg).1 h)
  · intro g p q hg hq
    have hT := h.good.1.of_skel (skel_of_bare hg)
    rcases badV_prune ha hT hq with h | h
    · exact Or.inl h
    · exact Or.inr ((edge_bare hg).1 h)
  · intro q hq
    by_cases he : Edge st.graph q j
    · exact he
    · exfalso
      obtain ⟨n, hn, h1, h2, h3, h4⟩ := id hq
      have hn' := hn
      rw [getElem?_modify'] at hn
      cases hg : st.graph[q]? with
      | none => rw [hg] at hn; simp at hn
      | some n0 =>
        rw [hg] at hn
        simp only [Option.map_some, Option.some.injEq] at hn
        by_cases hjq : j = q
        · subst hjq
          rw [hm] at hg
          cases hg
          rw [if_pos rfl] at hn
          subst hn
          simp only at h1 h2 h3
          rcases hb with hb | hb | hb
          · rw [hb] at h2; simp at h2
          · exact h1 hb
          · rw [hb] at h3; simp at h3
        · rw [if_neg hjq] at hn
          subst hn
          refine hbad q (hq.move ha h.good.1 hn' hg ⟨rfl, rfl, rfl, rfl, rfl⟩ ?_)
          intro x hx
          have hxj : ¬ j = x := by intro e; subst e; exact he hx
          rw [getElem?_modify']
          simp [hxj]

theorem updateNode_leafOk {d : Domain σ α φ} {c : Config σ κ} (ho : ∀ l x, x ∈ c.order l → x ∈ l) {st : St σ α φ} (hT : True' d c.key st.graph) (h : LeafOk st.graph) {j : Nat} {b : Bool}
    (hj : ∀ m, st.graph[j]? = some m → b = true → m.pruned = false → m.terminal = true) : LeafOk (updateNode c st j b).graph := by
  unfold Riw.updateNode
  refine backup_ind_parent (d := d) ho hT st.minReward LeafOk ?_ ?_ _ _ ?_ ?_
  · intro g p n hb hn hc hA x m hm hs hp hcm
    obtain ⟨m0, hm0, e⟩ := backupParent_get hm
    by_cases hpx : p = x
    · subst hpx
      rw [hn] at hm0
      cases hm0
      rw [if_pos rfl] at e
      rw [e] at hcm
      exact absurd hcm hc
    · rw [if_neg hpx] at e
      subst e
      exact hA x m hm0 hs hp hcm
  · intro g i _ hA x m hm hs hp hcm
    unfold pruneValue at hm
    rw [getElem?_modify'] at hm
    cases hg : g[x]? with
    | none => rw [hg] at hm; simp at hm
    | some m0 =>
      rw [hg] at hm
      simp only [Option.map_some, Option.some.injEq] at hm
      have : m = m0 := by
        rw [← hm]
        split
        · rename_i hpq
          split
          · rename_i hpr
            exfalso
            rw [if_pos hpq, if_pos hpr] at hm
            rw [← hm] at hp
            rw [hpr] at hp
            simp at hp
          · rfl
        · rfl
      subst this
      exact hA x m hg hs hp hcm
  · refine map_modify_of bare (fun n => ?_) _ _
    rfl
  · intro x m hm hs hp hcm
    rw [getElem?_modify'] at hm
    cases hg : st.graph[x]? with
    | none => rw [hg] at hm; simp at hm
    | some m0 =>
      rw [hg] at hm
      simp only [Option.map_some, Option.some.injEq] at hm
      by_cases hjx : j = x
      · subst hjx
        rw [if_pos rfl] at hm
        subst hm
        simp only at hs hp hcm ⊢
        exact ⟨hj m0 hg hs hp, trivial⟩
      · rw [if_neg hjx] at hm
        subst hm
        exact h x m0 hg hs hp hcm

theorem Grown.of_frame {d : Domain σ α φ} {rank : σ → Nat} {s0 : σ} {g g' : Graph σ α} (h : Grown d rank s0 g) (hf : g'.map frame = g.map frame) : Grown d rank s0 g' := by
  have hget : ∀ {i : Nat} {n : Node σ α}, g'[i]? = some n → ∃ n0, g[i]? = some n0 ∧ n.state = n0.state ∧ n.children = n0.children ∧ n.depth = n0.depth ∧ n.terminal = n0.terminal := by
    intro i n hn
    obtain ⟨n0, hn0, e⟩ := map_get hf hn
    simp only [frame, Prod.mk.injEq] at e
    exact ⟨n0, hn0, e.1, e.2.1, e.2.2.2.1, e.2.2.2.2⟩
  have hedge : ∀ {p i : Nat}, Edge g p i → Edge g' p i := by
    rintro p i ⟨n, k, a, r, hn, hk⟩
    obtain ⟨n0, hn0, e⟩ := map_get hf.symm hn
    simp only [frame, Prod.mk.injEq] at e
    exact ⟨n0, k, a, r, hn0, by rw [← e.2.1]; exact hk⟩
  refine ⟨?_, ?_, ?_, ?_⟩
  · intro i n hn
    obtain ⟨n0, hn0, e1, _, e3, _⟩ := hget hn
    rw [e1, e3]; exact h.low i n0 hn0
  · intro i n hn
    obtain ⟨n0, hn0, e1, _⟩ := hget hn
    rw [e1]
    rcases h.up i n0 hn0 with h | ⟨p, hp⟩
    · exact Or.inl h
    · exact Or.inr ⟨p, hedge hp⟩
  · intro i n k a r j m hn hk hm
    obtain ⟨n0, hn0, e1, e2, _⟩ := hget hn
    obtain ⟨m0, hm0, _, _, _, f4⟩ := hget hm
    rw [e1, f4]
    exact h.flag i n0 k a r j m0 hn0 (by rw [← e2]; exact hk) hm0
  · intro i n hn ht
    obtain ⟨n0, hn0, _, e2, _, e4⟩ := hget hn
    rw [e2]; exact h.tleaf i n0 hn0 (by rw [← e4]; exact ht)

/-- In a tree a state that is visited for the first time from its parent is not known. -/
theorem Grown.unknown [DecidableEq κ] {d : Domain σ α φ} {c : Config σ κ} {rank : σ → Nat} {s0 : σ} (ha : Acyclic d c.key rank) (htree : Treelike d) {g : Graph σ α}
    (hG : True' d c.key g) (h : Grown d rank s0 g) {i k : Nat} {n : Node σ α} {a : α} {r : Rat} (hn : g[i]? = some n) (hk : (n.children[k]? = some (a, r, none)) ∨ (n.children = [] ∧ a ∈ d.actions n.state)) :
    locate c.key g (d.next n.state a) = none := by
  have hact : a ∈ d.actions n.state := by
    rcases hk with hk | hk
    · rcases hG.kids i n hn with h0 | h0
      · rw [h0] at hk; simp at hk
      · rw [← h0, List.mem_map]; exact ⟨_, List.mem_of_getElem? hk, rfl⟩
    · exact hk.2
  cases hl : locate c.key g (d.next n.state a) with
  | none => rfl
  | some x =>
    exfalso
    obtain ⟨m, hm, hkey⟩ := locate_some hl
    have hms := ha.inj _ _ hkey
    rcases h.up x m hm with h0 | ⟨p, n', k', a', r', hn', hk'⟩
    · have h1 := h.low i n hn
      have h2 := ha.down n.state a hact
      rw [← hms, h0] at h2
      omega
    · obtain ⟨hact', _, m', hm', hms', _⟩ := edge_next ha hG hn' hk'
      rw [hm] at hm'
      cases hm'
      obtain ⟨e1, e2⟩ := htree.one _ _ _ _ hact' hact (hms'.symm.trans hms)
      have := hG.keys p i n' n hn' hn (by rw [e1])
      subst this
      rw [hn] at hn'
      cases hn'
      subst e2
      rcases hk with hk | hk
      · rcases hG.kids p n hn with h0 | h0
        · rw [h0] at hk; simp at hk
        · have hnd := htree.nodup n.state
          rw [← h0] at hnd
          have hlt := (List.getElem?_eq_some_iff.mp hk).1
          have hlt' := (List.getElem?_eq_some_iff.mp hk').1
          have e3 : (n.children.map (·.1))[k]? = (n.children.map (·.1))[k']? := by
            rw [List.getElem?_map, List.getElem?_map, hk, hk']; rfl
          have := (List.getElem?_inj (by simpa using hlt) hnd).1 e3
          subst this
          rw [hk] at hk'
          simp at hk'
      · rw [hk.1] at hk'
        simp at hk'

end Verif.Riw
