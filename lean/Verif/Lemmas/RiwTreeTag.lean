import Verif.Lemmas.RiwTreeSolve
import Verif.Lemmas.RiwNovelty

namespace Verif.Riw
open Verif.Iw (Tuple Holds)

variable {σ α φ κ : Type}

/-- A tuple of features for each state, which no other state has. -/
structure Tag (d : Domain σ α φ) (tag : σ → Tuple φ) : Prop where
  len : ∀ s, (tag s).length = 1
  holds : ∀ s, Holds (d.features s) (tag s)
  only : ∀ s s', Holds (d.features s') (tag s) → s' = s

/-- The table knows the depths of the nodes and nothing has been pruned. -/
structure Tagged [DecidableEq φ] (tag : σ → Tuple φ) (st : St σ α φ) : Prop where
  depth : ∀ (i : Nat) (n : Node σ α) (k : Nat) (a : α) (r : Rat) (j : Nat) (m : Node σ α), st.graph[i]? = some n → n.children[k]? = some (a, r, some j) → st.graph[j]? = some m → m.depth = n.depth + 1
  known : ∀ s e, st.table.get? (tag s) = some e → ∃ (i : Nat) (n : Node σ α), st.graph[i]? = some n ∧ n.state = s ∧ n.depth = e
  clean : ∀ (i : Nat) (n : Node σ α), st.graph[i]? = some n → n.pruned = false
  none : st.statesPruned = false

theorem terminalMin_table (st : St σ α φ) (t : Bool) : (terminalMin st t).table = st.table ∧ (terminalMin st t).statesPruned = st.statesPruned := by
  unfold terminalMin
  split
  · split <;> exact ⟨rfl, rfl⟩
  · split <;> exact ⟨rfl, rfl⟩

theorem lowerMin_table (st : St σ α φ) (r : Rat) : (lowerMin st r).table = st.table ∧ (lowerMin st r).statesPruned = st.statesPruned := by
  unfold lowerMin
  split
  · exact ⟨rfl, rfl⟩
  · split <;> exact ⟨rfl, rfl⟩

theorem fillChild_table [DecidableEq κ] (d : Domain σ α φ) (c : Config σ κ) (st : St σ α φ) (i k : Nat) {n : Node σ α} {a : α} {r : Rat} {o : Option Nat}
    (hn : st.graph[i]? = some n) (hk : n.children[k]? = some (a, r, o)) :
    (fillChild d c st i k).1.table = st.table ∧ (fillChild d c st i k).1.statesPruned = st.statesPruned ∧
      ((fillChild d c st i k).2.2 = true → locate c.key st.graph (d.next n.state a) = none ∧ (fillChild d c st i k).2.1 = st.graph.length) := by
  rcases fillChild_cases d c st i k hn hk with ⟨j, _, e1, e⟩ | ⟨_, j, _, e1, e⟩ | ⟨_, hl, e1, e⟩
  · rw [e, e1]
    exact ⟨rfl, rfl, by simp⟩
  · rw [e, e1]
    exact ⟨(lowerMin_table _ _).1, (lowerMin_table _ _).2, by simp⟩
  · rw [e, e1]
    exact ⟨(terminalMin_table _ _).1.trans (lowerMin_table _ _).1, (terminalMin_table _ _).2.trans (lowerMin_table _ _).2, fun _ => ⟨hl, rfl⟩⟩

theorem Tagged.visit [DecidableEq κ] [DecidableEq φ] {d : Domain σ α φ} {c : Config σ κ} {rank : σ → Nat} {s0 : σ} (ha : Acyclic d c.key rank) (htree : Treelike d) {tag : σ → Tuple φ}
    {st st1 : St σ α φ} (hG : Good d c.key st.graph) (hgr : Grown d rank s0 st.graph) (h : Tagged tag st) {i k : Nat} {n : Node σ α} (hn : st.graph[i]? = some n)
    (hg1 : st1.graph = expand d st.graph i) (ht1 : st1.table = st.table) (hp1 : st1.statesPruned = st.statesPruned) (hk : k ∈ unsolved st1.graph i) :
    Tagged tag (fillChild d c st1 i k).1 ∧
      ∀ m, (fillChild d c st1 i k).1.graph[(fillChild d c st1 i k).2.1]? = some m → (fillChild d c st1 i k).2.2 = true → (fillChild d c st1 i k).1.table.get? (tag m.state) = Option.none := by
  obtain ⟨n1, a1, r1, o1, hn1, hc, _⟩ := mem_unsolved.1 hk
  obtain ⟨n0, hn0, es, ed, _, _, _, _, _, _, ech⟩ := expand_get (by rw [← hg1]; exact hn1)
  rw [hn] at hn0
  cases hn0
  have hG1 : Good d c.key st1.graph := by rw [hg1]; exact hG.expand i
  obtain ⟨a, j, hact, hj, _, hkind, hput, hget⟩ := visit_get (c := c) ha htree hG hgr hn hg1 hk
  obtain ⟨t1, t2, t3⟩ := fillChild_table d c st1 i k hn1 hc
  obtain ⟨hact1, mj, hmj, hmk⟩ := fill_target hG1.1 hn1 hc
  have hlen : st1.graph.length = st.graph.length := by rw [hg1]; simp [expand]
  -- the old nodes keep their depths
  have hdep : ∀ (x : Nat) (m0 m : Node σ α), st.graph[x]? = some m0 → (fillChild d c st1 i k).1.graph[x]? = some m → m.depth = m0.depth := by
    intro x m0 m hm0 hm
    rcases fill_depth hG1.1 hn1 hc hm with ⟨m1, hm1, f1, f2, _, f4⟩ | ⟨f1, _⟩
    · obtain ⟨m0', hm0', g1, g2, _⟩ := expand_get (by rw [← hg1]; exact hm1)
      rw [hm0] at hm0'
      cases hm0'
      rcases f4 with f4 | ⟨f4, f5⟩
      · rw [f4, g2]
      · rw [f4, ed]
        have hst : m0.state = d.next n.state a1 := by rw [← g1, ← f1, ← es]; exact ha.inj _ _ f5
        by_cases hold : ∃ y, n.children[k]? = some (a1, r1, some y)
        · obtain ⟨y, hy⟩ := hold
          obtain ⟨_, my, hmy, hky, _⟩ := hG.1.edge i n k a1 r1 y hn hy
          have hxy := hG.1.keys y x my m0 hmy hm0 (by rw [hky, hst])
          subst hxy
          rw [hmy] at hm0
          cases hm0
          exact (h.depth i n k a1 r1 _ _ hn hy hmy).symm
        · exfalso
          have hun : n.children[k]? = some (a1, r1, Option.none) ∨ (n.children = [] ∧ a1 ∈ d.actions n.state) := by
            by_cases hnc : n.children = []
            · exact Or.inr ⟨hnc, by rw [← es]; exact hact1⟩
            · left
              rw [ech, if_neg (fun e => hnc e.2)] at hc
              cases o1 with
              | none => exact hc
              | some y => exact absurd ⟨y, hc⟩ hold
          have hl := hgr.unknown (k := k) (r := r1) ha htree hG.1 hn hun
          exact locate_none hl hm0 (by rw [hst])
    · have := (List.getElem?_eq_some_iff.mp hm0).1
      omega
  refine ⟨⟨?_, ?_, ?_, ?_⟩, ?_⟩
  · intro p np k' a' r' y m hnp hk' hm
    rcases hget p np hnp with ⟨np0, hnp0, _, _, _, _, _, _, _, e8, e9, _⟩ | ⟨_, _, e⟩
    · have hcase : np0.children[k']? = some (a', r', some y) → m.depth = np.depth + 1 := by
        intro hold
        obtain ⟨_, m0, hm0, _⟩ := hG.1.edge p np0 k' a' r' y hnp0 hold
        rw [hdep y m0 m hm0 hm, hdep p np0 np hnp0 hnp]
        exact h.depth p np0 k' a' r' y m0 hnp0 hold hm0
      by_cases hpi : p = i
      · subst hpi
        rw [hn] at hnp0
        cases hnp0
        obtain ⟨g1, g2⟩ := e9 rfl
        by_cases hkk : k' = k
        · subst hkk
          rw [g1] at hk'
          simp only [Option.some.injEq, Prod.mk.injEq] at hk'
          obtain ⟨_, _, ey⟩ := hk'
          subst ey
          rcases hkind with ⟨r0, h0⟩ | ⟨hl, _⟩
          · obtain ⟨_, m0, hm0, _⟩ := hG.1.edge p n k' a r0 j hn h0
            rw [hdep j m0 m hm0 hm, hdep p n np hn hnp]
            exact h.depth p n k' a r0 j m0 hn h0 hm0
          · rcases hget j m hm with ⟨m0', hm0', _⟩ | ⟨_, _, e⟩
            · have := (List.getElem?_eq_some_iff.mp hm0').1
              omega
            · rw [e, hdep p n np hn hnp]
              rfl
        · exact hcase (g2 k' a' r' y hkk hk')
      · exact hcase (by rw [← e8 hpi]; exact hk')
    · rw [e] at hk'
      simp [newNode] at hk'
  · intro s e he
    rw [t1, ht1] at he
    obtain ⟨x, m0, hm0, e1, e2⟩ := h.known s e he
    obtain ⟨m, hm⟩ := hput x m0 hm0
    refine ⟨x, m, hm, ?_, by rw [hdep x m0 m hm0 hm]; exact e2⟩
    rcases hget x m hm with ⟨m0', hm0', f1, _⟩ | ⟨f1, _⟩
    · rw [hm0] at hm0'
      cases hm0'
      rw [f1]; exact e1
    · have := (List.getElem?_eq_some_iff.mp hm0).1
      omega
  · intro x m hm
    rcases hget x m hm with ⟨m0, hm0, _, _, _, f4, _⟩ | ⟨_, _, e⟩
    · rw [f4]; exact h.clean x m0 hm0
    · rw [e]; rfl
  · rw [t2, hp1]; exact h.none
  · intro m hm hnew
    obtain ⟨hl, _⟩ := t3 hnew
    rw [hmj] at hm
    cases hm
    cases hg : (fillChild d c st1 i k).1.table.get? (tag mj.state) with
    | none => rfl
    | some e =>
      exfalso
      rw [t1, ht1] at hg
      obtain ⟨x, m0, hm0, e1, _⟩ := h.known _ e hg
      obtain ⟨m1, hm1⟩ := expand_put (d := d) (i := i) hm0
      obtain ⟨m0', hm0', f1, _⟩ := expand_get hm1
      rw [hm0] at hm0'
      cases hm0'
      rw [← hg1] at hm1
      exact locate_none hl hm1 (by rw [f1, e1]; exact hmk)

/-- The pruned bits of the nodes. -/
theorem updateNode_pruned {c : Config σ κ} {st : St σ α φ} {j : Nat} {b : Bool} (h : ∀ (i : Nat) (n : Node σ α), st.graph[i]? = some n → n.pruned = false) :
    ∀ (i : Nat) (n : Node σ α), (updateNode c st j b).graph[i]? = some n → n.pruned = false := by
  intro i n hn
  obtain ⟨n0, hn0, e⟩ := map_get (updateNode_bare c st j b) hn
  have := congrArg Node.pruned e
  simp only [bare] at this
  rw [this]
  exact h i n0 hn0

/-- A node that is reached is novel. -/
theorem Tagged.novel [DecidableEq φ] {d : Domain σ α φ} {c : Config σ κ} {tag : σ → Tuple φ} (htag : Tag d tag) {w : Nat} (hw : 1 ≤ w) {st : St σ α φ} {j : Nat} {b : Bool}
    (hT : True' d c.key st.graph) (h : Tagged tag st) {m : Node σ α} (hm : st.graph[j]? = some m) (hb : b = true → st.table.get? (tag m.state) = Option.none) :
    (novelty w st.table (d.features m.state) m.depth b).1 = true ∧
      ∀ s e, (novelty w st.table (d.features m.state) m.depth b).2.2.get? (tag s) = some e → (s = m.state ∧ e = m.depth) ∨ st.table.get? (tag s) = some e := by
  have hlook : ∀ s, tag s ∈ looked w (d.features m.state) ↔ s = m.state := by
    intro s
    rw [mem_looked, htag.len]
    constructor
    · rintro ⟨_, hh⟩
      exact (htag.only s m.state hh).symm
    · rintro rfl
      exact ⟨⟨Nat.le_refl 1, hw⟩, htag.holds _⟩
  have hold : ∀ e, st.table.get? (tag m.state) = some e → e = m.depth := by
    intro e he
    obtain ⟨x, n, hn, e1, e2⟩ := h.known _ e he
    have := hT.keys x j n m hn hm (by rw [e1])
    subst this
    rw [hm] at hn
    cases hn
    exact e2.symm
  rw [novelty_looked]
  have key := novStep_fold m.depth b (looked w (d.features m.state)) (false, (d.features m.state).length + 1, st.table) (nodup_looked _ _)
  refine ⟨key.1.2 (Or.inr ⟨tag m.state, (hlook _).2 rfl, ?_⟩), ?_⟩
  · cases hg : st.table.get? (tag m.state) with
    | none => exact Or.inl hg
    | some e =>
      right
      refine ⟨e, hg, ?_⟩
      cases hbb : b with
      | true => rw [hb hbb] at hg; simp at hg
      | false => simpa using hold e hg
  · intro s e he
    rw [key.2.1] at he
    split at he
    · rename_i hs
      have hs' := (hlook s).1 hs
      left
      refine ⟨hs', ?_⟩
      subst hs'
      cases hg : st.table.get? (tag m.state) with
      | none => rw [hg] at he; simpa using he.symm
      | some e' =>
        rw [hg] at he
        simp only [Option.some.injEq] at he
        rw [← he, hold e' hg]
        exact Nat.min_self _
    · exact Or.inr he

theorem Tagged.arrive [DecidableEq φ] {d : Domain σ α φ} {c : Config σ κ} {tag : σ → Tuple φ} (htag : Tag d tag) {w : Nat} (hw : 1 ≤ w) {st : St σ α φ} {j : Nat} {b : Bool}
    (hT : True' d c.key st.graph) (h : Tagged tag st) {m : Node σ α} (hm : st.graph[j]? = some m) (hb : b = true → st.table.get? (tag m.state) = Option.none) :
    Tagged tag (Riw.arrive d c w st j b).1 := by
  obtain ⟨hnov, htab⟩ := h.novel (c := c) htag hw hT hm hb
  have hframe := arrive_frame d c w st j b
  suffices hs : (∀ s e, (Riw.arrive d c w st j b).1.table.get? (tag s) = some e → (s = m.state ∧ e = m.depth) ∨ st.table.get? (tag s) = some e) ∧
      (∀ (i : Nat) (n : Node σ α), (Riw.arrive d c w st j b).1.graph[i]? = some n → n.pruned = false) ∧ (Riw.arrive d c w st j b).1.statesPruned = false by
    refine ⟨?_, ?_, hs.2.1, hs.2.2⟩
    · intro i n k a r x m' hn hk hm'
      obtain ⟨n0, hn0, e⟩ := map_get hframe hn
      obtain ⟨m0, hm0, e'⟩ := map_get hframe hm'
      simp only [frame, Prod.mk.injEq] at e e'
      rw [e.2.2.2.1, e'.2.2.2.1]
      exact h.depth i n0 k a r x m0 hn0 (by rw [← e.2.1]; exact hk) hm0
    · intro s e he
      have hback : ∀ (x : Nat) (n : Node σ α), st.graph[x]? = some n → ∃ n', (Riw.arrive d c w st j b).1.graph[x]? = some n' ∧ n'.state = n.state ∧ n'.depth = n.depth := by
        intro x n hn
        obtain ⟨n', hn', e⟩ := map_get hframe.symm hn
        simp only [frame, Prod.mk.injEq] at e
        exact ⟨n', hn', e.1.symm, e.2.2.2.1.symm⟩
      rcases hs.1 s e he with ⟨rfl, rfl⟩ | he
      · obtain ⟨n', hn', e1, e2⟩ := hback j m hm
        exact ⟨j, n', hn', e1, e2⟩
      · obtain ⟨x, n, hn, e1, e2⟩ := h.known s e he
        obtain ⟨n', hn', f1, f2⟩ := hback x n hn
        exact ⟨x, n', hn', f1.trans e1, f2.trans e2⟩
  have hpr : ∀ x : Nat, ∀ (i : Nat) (n : Node σ α), (st.graph.modify j fun m => { m with novelty := x })[i]? = some n → n.pruned = false := by
    intro x i n hn
    rw [getElem?_modify'] at hn
    cases hg : st.graph[i]? with
    | none => rw [hg] at hn; simp at hn
    | some n0 =>
      rw [hg] at hn
      simp only [Option.map_some, Option.some.injEq] at hn
      have := h.clean i n0 hg
      subst hn
      split <;> simpa using this
  unfold Riw.arrive
  rw [hm]
  dsimp only
  split
  · exact ⟨fun s e he => Or.inr he, updateNode_pruned h.clean, h.none⟩
  · rw [hnov]
    simp only [Bool.not_true, Bool.false_eq_true, if_false]
    split
    · exact ⟨htab, updateNode_pruned (hpr _), h.none⟩
    · split
      · split
        · exact ⟨htab, updateNode_pruned (hpr _), h.none⟩
        · exact ⟨htab, hpr _, h.none⟩
      · exact ⟨htab, hpr _, h.none⟩

theorem Tagged.walk [DecidableEq κ] [DecidableEq φ] {d : Domain σ α φ} {c : Config σ κ} {rank : σ → Nat} {s0 : σ} (ha : Acyclic d c.key rank) (htree : Treelike d) (ho : ∀ l x, x ∈ c.order l ↔ x ∈ l)
    (hlive : ∀ s, ∀ a ∈ d.actions s, d.terminal s a = false → d.actions (d.next s a) ≠ []) (hr : rank s0 ≤ c.maxDepth) {tag : σ → Tuple φ} (htag : Tag d tag) {w : Nat} (hw : 1 ≤ w) :
    ∀ (fuel : Nat) (st st' : St σ α φ) (i : Nat) (n : Node σ α), Exact d c rank s0 st.graph → Tagged tag st → st.graph[i]? = some n → n.terminal = false →
      Riw.walk d c w fuel i st = some (.ok st') → Tagged tag st' := by
  intro fuel
  induction fuel with
  | zero => intro st st' i n _ _ _ _ h; simp [Riw.walk] at h
  | succ fuel ih =>
    intro st st' i n h htg hn ht hwk
    obtain ⟨st1, o, hs, _, _, s3, _⟩ := h.sane.step ha ho hlive w h.tidy hn ht
    have he : Exact d c rank s0 st1.graph := by
      refine h.step ha htree ho hlive hr ?_ hs
      intro n' hn'
      rw [hn] at hn'
      cases hn'
      exact ht
    have htg1 : Tagged tag st1 := by
      rcases step_ok hs with ⟨rfl, rfl, _⟩ | ⟨n', k, hn', hsol, hk, e⟩
      · exact htg
      · rw [hn] at hn'
        cases hn'
        generalize hst2 : ({ st with graph := expand d st.graph i, draws := st.draws + 1 } : St σ α φ) = st2 at e
        have hg1 : st2.graph = expand d st.graph i := by rw [← hst2]
        have hg2 : st2.table = st.table := by rw [← hst2]
        have hg3 : st2.statesPruned = st.statesPruned := by rw [← hst2]
        rw [← hg1] at hk
        obtain ⟨v1, v2⟩ := htg.visit (c := c) ha htree h.sane.good h.grown hn hg1 hg2 hg3 hk
        obtain ⟨w1, m, hm, _⟩ := h.visit ha htree hlive hn ht hsol hg1 hk
        have := v1.arrive (c := c) htag hw w1.sane.good.1 (b := (fillChild d c st2 i k).2.2) hm (v2 m hm)
        rw [← e] at this
        exact this
    unfold Riw.walk at hwk
    rw [hs] at hwk
    cases o with
    | none =>
      simp only [Option.some.injEq, Except.ok.injEq] at hwk
      rw [← hwk]
      exact htg1
    | some j =>
      obtain ⟨m, hm, hmt, _⟩ := s3 j rfl
      exact ih st1 st' j m he htg1 hm hmt hwk

/-- With a tag for each state a search prunes nothing. -/
theorem Tagged.solve [DecidableEq κ] [DecidableEq φ] {d : Domain σ α φ} {c : Config σ κ} {rank : σ → Nat} (ha : Acyclic d c.key rank) (htree : Treelike d) (ho : ∀ l x, x ∈ c.order l ↔ x ∈ l)
    (hlive : ∀ s, ∀ a ∈ d.actions s, d.terminal s a = false → d.actions (d.next s a) ≠ []) {s : σ} (hr : rank s ≤ c.maxDepth) (hl : d.actions s ≠ []) (hf : d.features s ≠ [])
    (hgood : Good d c.key ([] : Graph σ α)) {tag : σ → Tuple φ} (htag : Tag d tag)
    {fuel : Nat} {st : St σ α φ} {b : Bool} (hs : Riw.solve d c fuel s {} = some (.ok (st, b))) :
    ∀ (i : Nat) (n : Node σ α), st.graph[i]? = some n → n.pruned = false := by
  have he0 : Exact d c rank s ([] : Graph σ α) := by
    refine ⟨⟨hgood, ?_, ?_, ?_⟩, ?_, ⟨?_, ?_, ?_, ?_⟩, ?_, ?_⟩
    · intro i n hn; simp at hn
    · intro i n hn; simp at hn
    · intro i n hn; simp at hn
    · rintro q ⟨n, hn, _⟩; simp at hn
    · intro i n hn; simp at hn
    · intro i n hn; simp at hn
    · intro i n k a r j m hn; simp at hn
    · intro i n hn; simp at hn
    · intro i n hn; simp at hn
    · rintro q ⟨n, hn, _⟩; simp at hn
  unfold Riw.solve at hs
  obtain ⟨k, hk⟩ : ∃ k, (d.features s).length = k + 1 := by
    cases h : (d.features s).length with
    | zero => exact absurd (List.eq_nil_of_length_eq_zero h) hf
    | succ k => exact ⟨k, rfl⟩
  rw [hk] at hs
  unfold widths at hs
  unfold solveWidth at hs
  dsimp only at hs
  generalize hst0 : (({ rollouts := 0, table := [] } : St σ α φ)) = st0 at hs
  have hg0 : st0.graph = [] := by rw [← hst0]
  have htb0 : st0.table = [] := by rw [← hst0]
  obtain ⟨e1, hroot⟩ := Exact.enter (st := st0) ha hr hl 1 (by rw [hg0]; exact he0) (by rw [hg0]; intro i n hn; simp at hn)
  have htg : Tagged tag (Riw.enter d c 1 s st0).1 := by
    have hgraph : ∃ nov, (Riw.enter d c 1 s st0).1.graph = [({ state := s, depth := 0, novelty := nov } : Node σ α)] ∧
        (Riw.enter d c 1 s st0).1.table = (novelty 1 [] (d.features s) 0 true).2.2 ∧ (Riw.enter d c 1 s st0).1.statesPruned = false := by
      unfold Riw.enter
      rw [hg0, htb0]
      exact ⟨(novelty 1 [] (d.features s) 0 true).2.1, rfl, rfl, rfl⟩
    obtain ⟨nov, hgr, htb, hsp⟩ := hgraph
    refine ⟨?_, ?_, ?_, hsp⟩
    · intro i n k a r j m hn hk' _
      rw [hgr] at hn
      have := List.mem_of_getElem? hn
      simp only [List.mem_singleton] at this
      subst this
      simp at hk'
    · intro s' e he
      rw [htb, novelty_looked] at he
      have key := (novStep_fold 0 true (looked 1 (d.features s)) (false, (d.features s).length + 1, []) (nodup_looked _ _)).2.1 (tag s')
      rw [key] at he
      split at he
      · rename_i hmem
        have := htag.only s' s (mem_looked.1 hmem).2
        refine ⟨0, { state := s, depth := 0, novelty := nov }, by rw [hgr]; rfl, this, ?_⟩
        simpa using he
      · simp at he
    · intro i n hn
      rw [hgr] at hn
      have := List.mem_of_getElem? hn
      simp only [List.mem_singleton] at this
      subst this
      rfl
  cases hro : Riw.rollouts d c 1 fuel (Riw.enter d c 1 s st0).2 (c.budget - (Riw.enter d c 1 s st0).1.rollouts) (Riw.enter d c 1 s st0).1 with
  | none => rw [hro] at hs; simp at hs
  | some x =>
    cases x with
    | error e => rw [hro] at hs; simp at hs
    | ok st1 =>
      rw [hro] at hs
      dsimp only at hs
      have htg1 : Tagged tag st1 := by
        refine (rollouts_ind (fun st => Tagged tag st ∧ Exact d c rank s st.graph ∧ ∃ n : Node σ α, st.graph[(Riw.enter d c 1 s st0).2]? = some n ∧ n.terminal = false ∧ n.state = s)
          ?_ ?_ _ _ st1 ⟨htg, e1, hroot⟩ hro).1
        · rintro st ⟨h1, h2⟩
          exact ⟨⟨h1.depth, h1.known, h1.clean, h1.none⟩, h2⟩
        · rintro st st' n ⟨h1, h2, n0, hn0, ht, hst⟩ _ _ hw
          have h3 := Tagged.walk ha htree ho hlive hr htag (Nat.le_refl 1) fuel { st with rollouts := st.rollouts + 1 } st' _ n0 h2 ⟨h1.depth, h1.known, h1.clean, h1.none⟩ hn0 ht hw
          obtain ⟨w1, w2⟩ := Exact.walk ha htree ho hlive hr 1 fuel { st with rollouts := st.rollouts + 1 } st' _ n0 h2 hn0 ht hw
          obtain ⟨m, hm, e1, e2⟩ := w2 _ n0 hn0
          exact ⟨h3, w1, m, hm, by rw [e2]; exact ht, by rw [e1]; exact hst⟩
      have hsp := htg1.none
      split at hs
      · rename_i heq; simp at heq
      · rename_i heq; simp at heq
      · rename_i st2 heq
        simp only [Option.some.injEq, Except.ok.injEq, Prod.mk.injEq] at heq hs
        rw [← hs.1, ← heq.1]
        exact htg1.clean
      · rename_i st2 heq
        simp [hsp] at heq

end Verif.Riw
