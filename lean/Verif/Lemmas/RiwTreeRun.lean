import Verif.Lemmas.RiwTree

namespace Verif.Riw

variable {σ α φ κ : Type}

/-- The invariant of the rollouts in a tree. -/
structure Exact (d : Domain σ α φ) (c : Config σ κ) (rank : σ → Nat) (s0 : σ) (g : Graph σ α) : Prop where
  sane : Sane d c rank g
  tidy : ∀ q, ¬ BadS g q
  grown : Grown d rank s0 g
  leaf : LeafOk g
  exact : ∀ q, ¬ BadV c.discount g q

/-- What the visit of a child does to the nodes, in a tree. -/
theorem visit_get [DecidableEq κ] {d : Domain σ α φ} {c : Config σ κ} {rank : σ → Nat} {s0 : σ} (ha : Acyclic d c.key rank) (htree : Treelike d)
    {st st1 : St σ α φ} (hG : Good d c.key st.graph) (hgr : Grown d rank s0 st.graph) {i k : Nat} {n : Node σ α} (hn : st.graph[i]? = some n)
    (hg1 : st1.graph = expand d st.graph i) (hk : k ∈ unsolved st1.graph i) :
    ∃ a j, a ∈ d.actions n.state ∧ (fillChild d c st1 i k).2.1 = j ∧
      (∃ m : Node σ α, (fillChild d c st1 i k).1.graph[j]? = some m ∧ m.solved = false) ∧
      ((∃ r, n.children[k]? = some (a, r, some j)) ∨ (j = st.graph.length ∧ ∀ x r, n.children[k]? ≠ some (a, r, some x))) ∧
      (∀ (x : Nat) (m0 : Node σ α), st.graph[x]? = some m0 → ∃ m, (fillChild d c st1 i k).1.graph[x]? = some m) ∧
      (∀ (x : Nat) (m : Node σ α), (fillChild d c st1 i k).1.graph[x]? = some m →
        (∃ m0 : Node σ α, st.graph[x]? = some m0 ∧ m.state = m0.state ∧ m.terminal = m0.terminal ∧ m.solved = m0.solved ∧ m.pruned = m0.pruned ∧ m.value = m0.value ∧ m.best = m0.best ∧
          m.depth ≤ m0.depth ∧ (x ≠ i → m.children = m0.children) ∧
          (x = i → m.children[k]? = some (a, d.reward n.state a, some j) ∧ ∀ (k' : Nat) (a' : α) (r' : Rat) (y : Nat), k' ≠ k → m.children[k']? = some (a', r', some y) → m0.children[k']? = some (a', r', some y)) ∧
          (∀ (k' : Nat) (a' : α) (r' : Rat) (y : Nat), m0.children[k']? = some (a', r', some y) → m.children[k']? = some (a', r', some y))) ∨
        (x = st.graph.length ∧ j = x ∧ m = { newNode d n a with parents := [i] })) := by
  obtain ⟨n1, a, r, o1, hn1, hc, hun⟩ := mem_unsolved.1 hk
  have hG1 : Good d c.key st1.graph := by rw [hg1]; exact hG.expand i
  have ht1 := hG1.1
  obtain ⟨n0, hn0, es, ed, et, eso, epr, ev, ebe, epa, ech⟩ := expand_get (by rw [← hg1]; exact hn1)
  rw [hn] at hn0
  cases hn0
  obtain ⟨hact, mj, hmj, hmk⟩ := fill_target ht1 hn1 hc
  have hlen : st1.graph.length = st.graph.length := by rw [hg1]; simp [expand]
  rw [es] at hact hmk
  -- the children of the node that is left, before
  have hold : ∀ (k' : Nat) (a' : α) (r' : Rat) (y : Nat), n1.children[k']? = some (a', r', some y) → n.children[k']? = some (a', r', some y) := by
    intro k' a' r' y h
    rw [ech] at h
    split at h
    · rw [List.getElem?_map] at h
      cases hx : (d.actions n.state)[k']? with
      | none => rw [hx] at h; simp at h
      | some z => rw [hx] at h; simp at h
    · exact h
  have hnew : ∀ (k' : Nat) (a' : α) (r' : Rat) (y : Nat), n.children[k']? = some (a', r', some y) → n1.children[k']? = some (a', r', some y) := by
    intro k' a' r' y h
    rw [ech, if_neg]
    · exact h
    · rintro ⟨_, e⟩
      rw [e] at h
      simp at h
  have hgrow : ∀ (x : Nat) (m0 : Node σ α), st.graph[x]? = some m0 → ∃ m, (fillChild d c st1 i k).1.graph[x]? = some m := by
    intro x m0 hx
    obtain ⟨m1, hm1⟩ := expand_put (d := d) (i := i) hx
    rw [← hg1] at hm1
    exact fill_put (d := d) (c := c) hn1 hc hm1
  have hkind : (∃ j, o1 = some j ∧ (fillChild d c st1 i k).2.1 = j) ∨ (o1 = none ∧ (fillChild d c st1 i k).2.1 = st1.graph.length) := by
    rcases fillChild_cases d c st1 i k hn1 hc with ⟨j, rfl, e1, _⟩ | ⟨rfl, j, hl, _, _⟩ | ⟨rfl, _, e1, _⟩
    · exact Or.inl ⟨j, rfl, by rw [e1]⟩
    · exfalso
      have : locate c.key st1.graph (d.next n1.state a) = none := by
        have h0 : locate c.key st.graph (d.next n.state a) = none := by
          refine hgr.unknown (k := k) (r := r) ha htree hG.1 hn ?_
          by_cases hnc : n.children = []
          · exact Or.inr ⟨hnc, hact⟩
          · left
            rw [ech, if_neg (fun e => hnc e.2)] at hc
            exact hc
        rw [es]
        cases hl2 : locate c.key st1.graph (d.next n.state a) with
        | none => rfl
        | some x =>
          obtain ⟨m1, hm1, hkey⟩ := locate_some hl2
          obtain ⟨m0, hm0, e0, _⟩ := expand_get (by rw [← hg1]; exact hm1)
          exact absurd (by rw [← e0]; exact hkey) (locate_none h0 hm0)
      rw [hl] at this
      simp at this
    · exact Or.inr ⟨rfl, by rw [e1]⟩
  refine ⟨a, (fillChild d c st1 i k).2.1, hact, rfl, ?_, ?_, hgrow, ?_⟩
  · refine ⟨mj, hmj, ?_⟩
    rcases fill_get ht1 hn1 hc hmj with ⟨m1, hm1, _, _, e3, _⟩ | ⟨_, e, _⟩
    · rw [e3]
      rcases hkind with ⟨j, hj, ej⟩ | ⟨_, ej⟩
      · obtain ⟨m, hm, hms⟩ := hun j hj
        rw [ej, hm] at hm1
        cases hm1
        exact hms
      · rw [ej] at hm1
        have := (List.getElem?_eq_some_iff.mp hm1).1
        omega
    · rw [e]; rfl
  · rcases hkind with ⟨j, hj, ej⟩ | ⟨ho, ej⟩
    · left
      rw [ej]
      exact ⟨r, hold k a r j (by rw [← hj]; exact hc)⟩
    · right
      refine ⟨by rw [ej, hlen], ?_⟩
      intro x r' hx
      have := hnew k a r' x hx
      rw [hc, ho] at this
      simp at this
  · intro x m hm
    rcases fill_depth ht1 hn1 hc hm with ⟨m1', hm1', _, hde, _⟩ | hx2
    · rcases fill_get ht1 hn1 hc hm with ⟨m1, hm1, e1, e2, e3, e4, e5, e6, e7⟩ | ⟨ex, _⟩
      · left
        rw [hm1] at hm1'
        cases hm1'
        obtain ⟨m0, hm0, f1, f2, f3, f4, f5, f6, f7, _, f9⟩ := expand_get (by rw [← hg1]; exact hm1)
        refine ⟨m0, hm0, e1.trans f1, e2.trans f3, e3.trans f4, e4.trans f5, e5.trans f6, e6.trans f7, by rw [← f2]; exact hde, ?_, ?_, ?_⟩
        · intro hxi
          have hix : ¬ i = x := fun e => hxi e.symm
          rw [e7, if_neg hix, f9, if_neg (fun e => hix e.1)]
        · intro hxi
          subst hxi
          rw [hn1] at hm1
          cases hm1
          rw [hn] at hm0
          cases hm0
          rw [e7, if_pos rfl, es]
          refine ⟨?_, ?_⟩
          · rw [List.getElem?_set, if_pos rfl, if_pos (List.getElem?_eq_some_iff.mp hc).1]
          · intro k' a' r' y hkk h
            rw [List.getElem?_set, if_neg (fun e => hkk e.symm)] at h
            exact hold k' a' r' y h
        · intro k' a' r' y h
          by_cases hix : i = x
          · subst hix
            rw [hn1] at hm1
            cases hm1
            rw [hn] at hm0
            cases hm0
            have h1 := hnew k' a' r' y h
            rw [e7, if_pos rfl, List.getElem?_set]
            by_cases hkk : k = k'
            · subst hkk
              rw [if_pos rfl, if_pos (List.getElem?_eq_some_iff.mp hc).1]
              rw [hc] at h1
              simp only [Option.some.injEq, Prod.mk.injEq] at h1
              obtain ⟨rfl, rfl, rfl⟩ := h1
              rcases hkind with ⟨j, hj, ej⟩ | ⟨ho, _⟩
              · cases hj
                rw [ej, (ht1.edge i n1 k a r _ hn1 hc).1]
              · simp at ho
            · rw [if_neg hkk]; exact h1
          · rw [e7, if_neg hix, f9, if_neg (fun e => hix e.1)]
            exact h
      · have := (List.getElem?_eq_some_iff.mp hm1').1
        omega
    · right
      rcases fill_get ht1 hn1 hc hm with ⟨m1, hm1, _⟩ | ⟨ex, e, ej, _⟩
      · have := (List.getElem?_eq_some_iff.mp hm1).1
        have := hx2.1
        omega
      · refine ⟨by rw [ex, hlen], ej, ?_⟩
        rw [e]
        simp only [newNode, es, ed]

theorem Exact.visit [DecidableEq κ] {d : Domain σ α φ} {c : Config σ κ} {rank : σ → Nat} {s0 : σ} (ha : Acyclic d c.key rank) (htree : Treelike d)
    (hlive : ∀ s, ∀ a ∈ d.actions s, d.terminal s a = false → d.actions (d.next s a) ≠ [])
    {st st1 : St σ α φ} (h : Exact d c rank s0 st.graph) {i k : Nat} {n : Node σ α} (hn : st.graph[i]? = some n) (hnt : n.terminal = false) (hns : n.solved = false)
    (hg1 : st1.graph = expand d st.graph i) (hk : k ∈ unsolved st1.graph i) :
    Exact d c rank s0 (fillChild d c st1 i k).1.graph ∧ ∃ m, (fillChild d c st1 i k).1.graph[(fillChild d c st1 i k).2.1]? = some m ∧ m.solved = false := by
  obtain ⟨v1, ⟨mj, hmj, hlt⟩, v3, v4⟩ := h.sane.visit ha hlive h.tidy hn hg1 hk
  obtain ⟨a, j, hact, hj, ⟨mj', hmj', hms⟩, hkind, hput, hget⟩ := visit_get ha htree h.sane.good h.grown hn hg1 hk
  generalize hst2 : (fillChild d c st1 i k).1 = st2 at *
  rw [hj] at hmj v3 ⊢
  rw [hmj] at hmj'
  cases hmj'
  refine ⟨⟨v1, ?_, ⟨?_, ?_, ?_, ?_⟩, ?_, ?_⟩, mj, hmj, hms⟩
  · intro q hq
    have := (v3 q hq).2 mj hmj
    rw [hms] at this
    simp at this
  · intro x m hm
    rcases hget x m hm with ⟨m0, hm0, e1, _, _, _, _, _, e7, _⟩ | ⟨_, _, e⟩
    · have := h.grown.low x m0 hm0
      rw [e1]
      omega
    · rw [e]
      have h1 := h.grown.low i n hn
      have h2 := ha.down n.state a hact
      simp only [newNode]
      omega
  · intro x m hm
    rcases hget x m hm with ⟨m0, hm0, e1, _⟩ | ⟨_, ej, e⟩
    · rcases h.grown.up x m0 hm0 with h0 | ⟨p, np, k', a', r', hp, hk'⟩
      · left; rw [e1]; exact h0
      · right
        obtain ⟨np', hnp'⟩ := hput p np hp
        rcases hget p np' hnp' with ⟨np0, hnp0, _, _, _, _, _, _, _, _, _, e10⟩ | ⟨ex, _⟩
        · rw [hp] at hnp0
          cases hnp0
          exact ⟨p, np', k', a', r', hnp', e10 k' a' r' x hk'⟩
        · have := (List.getElem?_eq_some_iff.mp hp).1
          omega
    · right
      obtain ⟨n2, hn2⟩ := hput i n hn
      rcases hget i n2 hn2 with ⟨n0, hn0, _, _, _, _, _, _, _, _, e9, _⟩ | ⟨ex, _⟩
      · exact ⟨i, n2, k, a, _, hn2, by rw [← ej]; exact (e9 rfl).1⟩
      · have := (List.getElem?_eq_some_iff.mp hn).1
        omega
  · intro p np k' a' r' y m hnp hk' hm
    rcases hget p np hnp with ⟨np0, hnp0, e1, _, _, _, _, _, _, e8, e9, _⟩ | ⟨_, _, e⟩
    · -- an old edge
      have hcase : np0.children[k']? = some (a', r', some y) → m.terminal = d.terminal np.state a' := by
        intro hold
        obtain ⟨_, m0, hm0, _⟩ := h.sane.good.1.edge p np0 k' a' r' y hnp0 hold
        have hf := h.grown.flag p np0 k' a' r' y m0 hnp0 hold hm0
        rcases hget y m hm with ⟨m0', hm0', _, f2, _⟩ | ⟨ex, _⟩
        · rw [hm0] at hm0'
          cases hm0'
          rw [f2, e1, hf]
        · have := (List.getElem?_eq_some_iff.mp hm0).1
          omega
      by_cases hpi : p = i
      · subst hpi
        rw [hn] at hnp0
        cases hnp0
        obtain ⟨g1, g2⟩ := e9 rfl
        by_cases hkk : k' = k
        · subst hkk
          rw [g1] at hk'
          simp only [Option.some.injEq, Prod.mk.injEq] at hk'
          obtain ⟨ea, _, ey⟩ := hk'
          subst ea ey
          rcases hkind with ⟨r0, h0⟩ | ⟨hlen, _⟩
          · obtain ⟨_, m0, hm0, _⟩ := h.sane.good.1.edge p n k' a r0 j hn h0
            have hf := h.grown.flag p n k' a r0 j m0 hn h0 hm0
            rcases hget j m hm with ⟨m0', hm0', _, f2, _⟩ | ⟨ex, _⟩
            · rw [hm0] at hm0'
              cases hm0'
              rw [f2, e1, hf]
            · have := (List.getElem?_eq_some_iff.mp hm0).1
              omega
          · rcases hget j m hm with ⟨m0', hm0', _⟩ | ⟨_, _, e⟩
            · have := (List.getElem?_eq_some_iff.mp hm0').1
              omega
            · rw [e, e1]
              rfl
        · exact hcase (g2 k' a' r' y hkk hk')
      · exact hcase (by rw [← e8 hpi]; exact hk')
    · rw [e] at hk'
      simp [newNode] at hk'
  · intro x m hm ht
    rcases hget x m hm with ⟨m0, hm0, _, e2, _, _, _, _, _, e8, _⟩ | ⟨_, _, e⟩
    · by_cases hxi : x = i
      · subst hxi
        rw [hn] at hm0
        cases hm0
        rw [e2, hnt] at ht
        simp at ht
      · rw [e8 hxi]
        exact h.grown.tleaf x m0 hm0 (by rw [← e2]; exact ht)
    · rw [e]; rfl
  · intro x m hm hs hp hc
    rcases hget x m hm with ⟨m0, hm0, _, e2, e3, e4, e5, _, _, e8, _⟩ | ⟨_, _, e⟩
    · by_cases hxi : x = i
      · subst hxi
        rw [hn] at hm0
        cases hm0
        rw [e3, hns] at hs
        simp at hs
      · rw [e2, e5]
        exact h.leaf x m0 hm0 (by rw [← e3]; exact hs) (by rw [← e4]; exact hp) (by rw [← e8 hxi]; exact hc)
    · rw [e] at hs
      simp [newNode] at hs
  · intro q hq
    obtain ⟨m, hm, h1, h2, _⟩ := id hq
    rcases hget q m hm with ⟨m0, hm0, _, _, e3, e4, e5, e6, _, e8, _⟩ | ⟨_, _, e⟩
    · by_cases hqi : q = i
      · subst hqi
        rw [hn] at hm0
        cases hm0
        rw [e3, hns] at h2
        simp at h2
      · refine h.exact q (hq.move ha h.sane.good.1 hm hm0 ⟨e8 hqi, e3, e4, e5, e6⟩ ?_)
        rintro y ⟨m0', k', a', r', hm0', hk'⟩
        obtain ⟨_, my, hmy, _⟩ := h.sane.good.1.edge q m0' k' a' r' y hm0' hk'
        obtain ⟨my', hmy'⟩ := hput y my hmy
        rcases hget y my' hmy' with ⟨my0, hmy0, _, _, f3, _, f5, _⟩ | ⟨ex, _⟩
        · rw [hmy] at hmy0
          cases hmy0
          rw [hmy, hmy']
          simp [f3, f5]
        · have := (List.getElem?_eq_some_iff.mp hmy).1
          omega
    · rw [e] at h2
      simp [newNode] at h2

theorem not_badV_modify {γ : Rat} {d : Domain σ α φ} {key : σ → κ} {rank : σ → Nat} (ha : Acyclic d key rank) {g : Graph σ α} (hT : True' d key g) (h : ∀ q, ¬ BadV γ g q)
    {f : Node σ α → Node σ α} (hf : ∀ n, (f n).children = n.children ∧ (f n).solved = n.solved ∧ (f n).value = n.value ∧ (f n).best = n.best ∧ ((f n).pruned = false → n.pruned = false)) (i : Nat) :
    ∀ q, ¬ BadV γ (g.modify i f) q := by
  intro q hq
  obtain ⟨n, hn, h1, h2, h3, _⟩ := id hq
  have hn' := hn
  rw [getElem?_modify'] at hn
  cases hg : g[q]? with
  | none => rw [hg] at hn; simp at hn
  | some n0 =>
    rw [hg] at hn
    simp only [Option.map_some, Option.some.injEq] at hn
    obtain ⟨f1, f2, f3, f4, f5⟩ := hf n0
    refine h q (hq.move ha hT hn' hg ?_ ?_)
    · subst hn
      split
      · rename_i hiq
        rw [if_pos hiq] at h3
        exact ⟨f1, f2, by rw [h3, f5 h3], f3, f4⟩
      · exact ⟨rfl, rfl, rfl, rfl, rfl⟩
    · intro j _
      rw [getElem?_modify']
      cases hj : g[j]? with
      | none => rfl
      | some m =>
        simp only [Option.map_some, Option.some.injEq, Prod.mk.injEq]
        obtain ⟨f1, f2, f3, f4, f5⟩ := hf m
        split
        · exact ⟨f2, f3⟩
        · exact ⟨rfl, rfl⟩

theorem LeafOk.modify {g : Graph σ α} (h : LeafOk g) {f : Node σ α → Node σ α}
    (hf : ∀ n, (f n).children = n.children ∧ (f n).solved = n.solved ∧ (f n).value = n.value ∧ (f n).terminal = n.terminal ∧ ((f n).pruned = false → n.pruned = false)) (i : Nat) : LeafOk (g.modify i f) := by
  intro x m hm hs hp hc
  rw [getElem?_modify'] at hm
  cases hg : g[x]? with
  | none => rw [hg] at hm; simp at hm
  | some m0 =>
    rw [hg] at hm
    simp only [Option.map_some, Option.some.injEq] at hm
    subst hm
    obtain ⟨f1, f2, f3, f4, f5⟩ := hf m0
    by_cases hix : i = x
    · rw [if_pos hix] at hs hp hc ⊢
      rw [f3, f4]
      exact h x m0 hg (by rw [← f2]; exact hs) (f5 hp) (by rw [← f1]; exact hc)
    · rw [if_neg hix] at hs hp hc ⊢
      exact h x m0 hg hs hp hc

/-- The node that is reached in a tree is looked at. -/
theorem Exact.arrive [DecidableEq φ] {d : Domain σ α φ} {c : Config σ κ} {rank : σ → Nat} {s0 : σ} (ha : Acyclic d c.key rank) (ho : ∀ l x, x ∈ c.order l ↔ x ∈ l)
    (hr : rank s0 ≤ c.maxDepth) {w : Nat} {st : St σ α φ} {j : Nat} {b : Bool} (h : Exact d c rank s0 st.graph) {m : Node σ α} (hm : st.graph[j]? = some m) (hms : m.solved = false) :
    Exact d c rank s0 (Riw.arrive d c w st j b).1.graph := by
  have hSA := Sane.arrive ha ho (w := w) (b := b) h.sane (fun q hq => absurd hq (h.tidy q)) ⟨m, hm⟩
  have hgr := h.grown.of_frame (arrive_frame d c w st j b)
  suffices hs : LeafOk (Riw.arrive d c w st j b).1.graph ∧ ∀ q, ¬ BadV c.discount (Riw.arrive d c w st j b).1.graph q from ⟨hSA.1, hSA.2, hgr, hs.1, hs.2⟩
  have hnovS : ∀ x : Nat, Sane d c rank (st.graph.modify j fun m => { m with novelty := x }) := by
    intro x
    refine h.sane.modify (fun n => ?_) (fun n => ?_) j
    · exact ⟨rfl, rfl⟩
    · rfl
  have hnovL : ∀ x : Nat, LeafOk (st.graph.modify j fun m => { m with novelty := x }) := by
    intro x
    refine h.leaf.modify (fun n => ?_) j
    exact ⟨rfl, rfl, rfl, rfl, fun h => h⟩
  have hnovV : ∀ x : Nat, ∀ q, ¬ BadV c.discount (st.graph.modify j fun m => { m with novelty := x }) q := by
    intro x
    refine not_badV_modify ha h.sane.good.1 h.exact (fun n => ?_) j
    exact ⟨rfl, rfl, rfl, rfl, fun h => h⟩
  have hnovm : ∀ x : Nat, (st.graph.modify j fun m => { m with novelty := x })[j]? = some { m with novelty := x } := by
    intro x
    rw [getElem?_modify', hm]
    simp
  clear hSA hgr
  unfold Riw.arrive
  rw [hm]
  dsimp only
  split
  · rename_i hts
    have hmt : m.terminal = true := by simpa [hms] using hts
    refine ⟨updateNode_leafOk (d := d) (fun l x => (ho l x).1) h.sane.good.1 h.leaf ?_, updateNode_exact ha ho h.sane hm (Or.inr (Or.inl (h.grown.tleaf j m hm hmt))) h.exact⟩
    intro m' hm' _ _
    rw [hm] at hm'
    cases hm'
    exact hmt
  · rename_i hts
    have hmt : m.terminal = false := by
      cases ht : m.terminal
      · rfl
      · simp [ht] at hts
    have hdepth : m.depth < c.maxDepth := by
      have h1 := h.grown.low j m hm
      have h2 := h.sane.live j m hm hmt
      obtain ⟨a, l, hal⟩ := List.exists_cons_of_ne_nil h2
      have h3 := ha.down m.state a (by rw [hal]; exact List.mem_cons_self)
      omega
    split
    · have hS : Sane d c rank ((st.graph.modify j fun x => { x with novelty := (novelty w st.table (d.features m.state) m.depth b).2.1 }).modify j fun x => { x with pruned := true }) := by
        refine (hnovS _).modify (fun n => ?_) (fun n => ?_) j
        · exact ⟨rfl, rfl⟩
        · rfl
      refine ⟨updateNode_leafOk (d := d) (fun l x => (ho l x).1) hS.good.1 ?_ ?_, ?_⟩
      · refine (hnovL _).modify (fun n => ?_) j
        exact ⟨rfl, rfl, rfl, rfl, fun h => by simp at h⟩
      · intro m' hm' _ hp
        dsimp only at hm'
        rw [getElem?_modify', hnovm] at hm'
        simp at hm'
        subst hm'
        simp at hp
      · refine updateNode_exact (m := { m with novelty := (novelty w st.table (d.features m.state) m.depth b).2.1, pruned := true }) ha ho hS ?_ (Or.inr (Or.inr rfl)) ?_
        · dsimp only
          rw [getElem?_modify', hnovm]
          simp
        · refine not_badV_modify ha (hnovS _).good.1 (hnovV _) (fun n => ?_) j
          exact ⟨rfl, rfl, rfl, rfl, fun h => by simp at h⟩
    · split
      · omega
      · split
        · split
          · exact ⟨updateNode_leafOk (d := d) (fun l x => (ho l x).1) (hnovS _).good.1 (hnovL _) (by intro _ _ h; simp at h),
              updateNode_exact ha ho (hnovS _) (hnovm _) (Or.inl rfl) (hnovV _)⟩
          · exact ⟨hnovL _, hnovV _⟩
        · exact ⟨hnovL _, hnovV _⟩

theorem Exact.step [DecidableEq κ] [DecidableEq φ] {d : Domain σ α φ} {c : Config σ κ} {rank : σ → Nat} {s0 : σ} (ha : Acyclic d c.key rank) (htree : Treelike d) (ho : ∀ l x, x ∈ c.order l ↔ x ∈ l)
    (hlive : ∀ s, ∀ a ∈ d.actions s, d.terminal s a = false → d.actions (d.next s a) ≠ []) (hr : rank s0 ≤ c.maxDepth) {w : Nat} {st st' : St σ α φ} {i : Nat} {o : Option Nat}
    (h : Exact d c rank s0 st.graph) (hi : ∀ n, st.graph[i]? = some n → n.terminal = false) (hs : step d c w st i = .ok (st', o)) : Exact d c rank s0 st'.graph := by
  rcases step_ok hs with ⟨rfl, rfl, _⟩ | ⟨n, k, hn, hsol, hk, e⟩
  · exact h
  · generalize hst1 : ({ st with graph := expand d st.graph i, draws := st.draws + 1 } : St σ α φ) = st1 at e
    have hg1 : st1.graph = expand d st.graph i := by rw [← hst1]
    rw [← hg1] at hk
    obtain ⟨v, m, hm, hms⟩ := h.visit ha htree hlive hn (hi n hn) hsol hg1 hk
    have := v.arrive ha ho hr (w := w) (b := (fillChild d c st1 i k).2.2) hm hms
    rw [← e] at this
    exact this

end Verif.Riw
