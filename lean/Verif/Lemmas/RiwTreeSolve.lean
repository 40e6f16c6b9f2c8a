import Verif.Lemmas.RiwTreeRun
import Mathlib.Algebra.Order.Ring.Rat
import Mathlib.Tactic.Linarith

namespace Verif.Riw

variable {σ α φ κ : Type}

/-! ### The loops -/

theorem Exact.walk [DecidableEq κ] [DecidableEq φ] {d : Domain σ α φ} {c : Config σ κ} {rank : σ → Nat} {s0 : σ} (ha : Acyclic d c.key rank) (htree : Treelike d) (ho : ∀ l x, x ∈ c.order l ↔ x ∈ l)
    (hlive : ∀ s, ∀ a ∈ d.actions s, d.terminal s a = false → d.actions (d.next s a) ≠ []) (hr : rank s0 ≤ c.maxDepth) (w : Nat) :
    ∀ (fuel : Nat) (st st' : St σ α φ) (i : Nat) (n : Node σ α), Exact d c rank s0 st.graph → st.graph[i]? = some n → n.terminal = false → Riw.walk d c w fuel i st = some (.ok st') →
    Exact d c rank s0 st'.graph ∧ (∀ (x : Nat) (m0 : Node σ α), st.graph[x]? = some m0 → ∃ m : Node σ α, st'.graph[x]? = some m ∧ m.state = m0.state ∧ m.terminal = m0.terminal) := by
  intro fuel
  induction fuel with
  | zero => intro st st' i n _ _ _ h; simp [Riw.walk] at h
  | succ fuel ih =>
    intro st st' i n h hn ht hw
    obtain ⟨st1, o, hs, _, _, s3, s4⟩ := h.sane.step ha ho hlive w h.tidy hn ht
    have he : Exact d c rank s0 st1.graph := by
      refine h.step ha htree ho hlive hr ?_ hs
      intro n' hn'
      rw [hn] at hn'
      cases hn'
      exact ht
    unfold Riw.walk at hw
    rw [hs] at hw
    cases o with
    | none =>
      simp only [Option.some.injEq, Except.ok.injEq] at hw
      rw [← hw]
      exact ⟨he, s4⟩
    | some j =>
      obtain ⟨m, hm, hmt, _⟩ := s3 j rfl
      obtain ⟨w1, w3⟩ := ih st1 st' j m he hm hmt hw
      refine ⟨w1, ?_⟩
      intro x m0 hx
      obtain ⟨m1, hm1, e1, e2⟩ := s4 x m0 hx
      obtain ⟨m2, hm2, f1, f2⟩ := w3 x m1 hm1
      exact ⟨m2, hm2, f1.trans e1, f2.trans e2⟩

theorem Exact.rollouts [DecidableEq κ] [DecidableEq φ] {d : Domain σ α φ} {c : Config σ κ} {rank : σ → Nat} {s0 : σ} (ha : Acyclic d c.key rank) (htree : Treelike d) (ho : ∀ l x, x ∈ c.order l ↔ x ∈ l)
    (hlive : ∀ s, ∀ a ∈ d.actions s, d.terminal s a = false → d.actions (d.next s a) ≠ []) (hr : rank s0 ≤ c.maxDepth) {w fuel root left : Nat} {st st' : St σ α φ}
    (h : Exact d c rank s0 st.graph) (hroot : ∃ n : Node σ α, st.graph[root]? = some n ∧ n.terminal = false ∧ n.state = s0)
    (hs : Riw.rollouts d c w fuel root left st = some (.ok st')) :
    Exact d c rank s0 st'.graph ∧ ∃ n : Node σ α, st'.graph[root]? = some n ∧ n.terminal = false ∧ n.state = s0 := by
  refine rollouts_ind (fun st => Exact d c rank s0 st.graph ∧ ∃ n : Node σ α, st.graph[root]? = some n ∧ n.terminal = false ∧ n.state = s0)
    (fun st hp => hp) ?_ left st st' ⟨h, hroot⟩ hs
  rintro st st' n ⟨he, n0, hn0, ht, hst⟩ hn _ hw
  obtain ⟨w1, w2⟩ := Exact.walk ha htree ho hlive hr w fuel { st with rollouts := st.rollouts + 1 } st' root n0 he hn0 ht hw
  obtain ⟨m, hm, e1, e2⟩ := w2 root n0 hn0
  exact ⟨w1, m, hm, by rw [e2]; exact ht, by rw [e1]; exact hst⟩

/-- The start of the search of one width, in a tree. -/
theorem Exact.enter [DecidableEq κ] [DecidableEq φ] {d : Domain σ α φ} {c : Config σ κ} {rank : σ → Nat} (ha : Acyclic d c.key rank) {s : σ} (hr : rank s ≤ c.maxDepth) (hl : d.actions s ≠ [])
    (w : Nat) {st : St σ α φ} (h : Exact d c rank s st.graph) (hterm : ∀ (i : Nat) (n : Node σ α), st.graph[i]? = some n → n.state = s → n.terminal = false) :
    Exact d c rank s (Riw.enter d c w s st).1.graph ∧
      ∃ n : Node σ α, (Riw.enter d c w s st).1.graph[(Riw.enter d c w s st).2]? = some n ∧ n.terminal = false ∧ n.state = s := by
  obtain ⟨e1, e2, e3⟩ := Sane.enter ha hr hl w h.sane hterm
  -- what a node afterwards was before
  have hget : ∀ (i : Nat) (n : Node σ α), (Riw.enter d c w s st).1.graph[i]? = some n → n.solved = false ∧
      ((∃ n0 : Node σ α, st.graph[i]? = some n0 ∧ n.state = n0.state ∧ n.children = n0.children ∧ n.terminal = n0.terminal ∧ n.depth ≤ n0.depth) ∨
       (n.state = s ∧ n.children = [] ∧ n.terminal = false ∧ n.depth = 0 ∧ i = st.graph.length)) := by
    obtain ⟨nov, table, g', root, e, hcase⟩ := enter_cases d c w s st
    rw [e]
    dsimp only
    intro i n hn
    rw [getElem?_modify'] at hn
    rcases hcase with ⟨_, rfl⟩ | ⟨_, _, rfl⟩
    · rw [getElem?_modify'] at hn
      unfold clearBits at hn
      rw [List.getElem?_map] at hn
      cases hg : st.graph[i]? with
      | none => rw [hg] at hn; simp at hn
      | some n0 =>
        rw [hg] at hn
        simp only [Option.map_some, Option.some.injEq] at hn
        subst hn
        refine ⟨by split <;> rfl, Or.inl ⟨n0, rfl, ?_⟩⟩
        split
        · exact ⟨rfl, rfl, rfl, Nat.zero_le _⟩
        · exact ⟨rfl, rfl, rfl, Nat.le_refl _⟩
    · cases hg : (clearBits st.graph ++ [({ state := s, depth := 0 } : Node σ α)])[i]? with
      | none => rw [hg] at hn; simp at hn
      | some n1 =>
        rw [hg] at hn
        simp only [Option.map_some, Option.some.injEq] at hn
        rw [List.getElem?_append] at hg
        split at hg
        · unfold clearBits at hg
          rw [List.getElem?_map] at hg
          cases hg0 : st.graph[i]? with
          | none => rw [hg0] at hg; simp at hg
          | some n0 =>
            rw [hg0] at hg
            simp only [Option.map_some, Option.some.injEq] at hg
            subst hg
            subst hn
            refine ⟨by split <;> rfl, Or.inl ⟨n0, rfl, ?_⟩⟩
            split
            · exact ⟨rfl, rfl, rfl, Nat.le_refl _⟩
            · exact ⟨rfl, rfl, rfl, Nat.le_refl _⟩
        · rename_i hlt
          have hlen : (clearBits st.graph).length = st.graph.length := by simp [clearBits]
          have hi := (List.getElem?_eq_some_iff.mp hg).1
          have hm := List.mem_of_getElem? hg
          simp only [List.mem_singleton] at hm
          simp only [List.length_singleton] at hi
          subst hm
          subst hn
          refine ⟨by split <;> rfl, Or.inr ?_⟩
          have : i = st.graph.length := by omega
          split
          · exact ⟨rfl, rfl, rfl, rfl, this⟩
          · exact ⟨rfl, rfl, rfl, rfl, this⟩
  have hput : ∀ (i : Nat) (n0 : Node σ α), st.graph[i]? = some n0 → ∃ n : Node σ α, (Riw.enter d c w s st).1.graph[i]? = some n ∧ n.children = n0.children := by
    intro i n0 hn0
    have hi := (List.getElem?_eq_some_iff.mp hn0).1
    have hlen : st.graph.length ≤ (Riw.enter d c w s st).1.graph.length := by
      obtain ⟨nov, table, g', root, e, hcase⟩ := enter_cases d c w s st
      rw [e]
      dsimp only
      rcases hcase with ⟨_, rfl⟩ | ⟨_, _, rfl⟩ <;> simp [clearBits]
    obtain ⟨n, hn⟩ : ∃ n, (Riw.enter d c w s st).1.graph[i]? = some n := ⟨_, List.getElem?_eq_getElem (by omega)⟩
    refine ⟨n, hn, ?_⟩
    rcases (hget i n hn).2 with ⟨n1, hn1, _, e, _⟩ | ⟨_, _, _, _, e⟩
    · rw [hn0] at hn1
      cases hn1
      exact e
    · omega
  refine ⟨⟨e1, e2, ⟨?_, ?_, ?_, ?_⟩, ?_, ?_⟩, e3⟩
  · intro i n hn
    rcases (hget i n hn).2 with ⟨n0, hn0, f1, _, _, f4⟩ | ⟨f1, _, _, f4, _⟩
    · have := h.grown.low i n0 hn0
      rw [f1]
      omega
    · rw [f1, f4]
      omega
  · intro i n hn
    rcases (hget i n hn).2 with ⟨n0, hn0, f1, _⟩ | ⟨f1, _⟩
    · rcases h.grown.up i n0 hn0 with h0 | ⟨p, np, k, a, r, hp, hk⟩
      · left; rw [f1]; exact h0
      · right
        obtain ⟨np', hnp', ec⟩ := hput p np hp
        exact ⟨p, np', k, a, r, hnp', by rw [ec]; exact hk⟩
    · left; exact f1
  · intro i n k a r j m hn hk hm
    rcases (hget i n hn).2 with ⟨n0, hn0, f1, f2, _⟩ | ⟨_, f2, _⟩
    · rw [f2] at hk
      obtain ⟨_, m0, hm0, _⟩ := h.sane.good.1.edge i n0 k a r j hn0 hk
      have hf := h.grown.flag i n0 k a r j m0 hn0 hk hm0
      rcases (hget j m hm).2 with ⟨m1, hm1, _, _, g3, _⟩ | ⟨_, _, _, _, ej⟩
      · rw [hm0] at hm1
        cases hm1
        rw [g3, f1]
        exact hf
      · have := (List.getElem?_eq_some_iff.mp hm0).1
        omega
    · rw [f2] at hk
      simp at hk
  · intro i n hn ht
    rcases (hget i n hn).2 with ⟨n0, hn0, _, f2, f3, _⟩ | ⟨_, f2, _⟩
    · rw [f2]
      exact h.grown.tleaf i n0 hn0 (by rw [← f3]; exact ht)
    · exact f2
  · intro i n hn hs
    rw [(hget i n hn).1] at hs
    simp at hs
  · rintro q ⟨n, hn, _, hs, _⟩
    rw [(hget q n hn).1] at hs
    simp at hs

/-- The end of a search in a tree. -/
theorem Exact.solve [DecidableEq κ] [DecidableEq φ] {d : Domain σ α φ} {c : Config σ κ} {rank : σ → Nat} (ha : Acyclic d c.key rank) (htree : Treelike d) (ho : ∀ l x, x ∈ c.order l ↔ x ∈ l)
    (hlive : ∀ s, ∀ a ∈ d.actions s, d.terminal s a = false → d.actions (d.next s a) ≠ []) {s : σ} (hr : rank s ≤ c.maxDepth) (hl : d.actions s ≠ []) (hf : d.features s ≠ []) (hgood : Good d c.key ([] : Graph σ α))
    {fuel : Nat} {st : St σ α φ} {b : Bool} (hs : Riw.solve d c fuel s {} = some (.ok (st, b))) (hlate : ∀ t, c.late t = false) (hbud : st.rollouts < c.budget) :
    Exact d c rank s st.graph ∧ ∃ (i : Nat) (n : Node σ α), st.graph[i]? = some n ∧ n.state = s ∧ n.terminal = false ∧ n.solved = true := by
  have hw : ∀ (k w : Nat) (st0 : St σ α φ), Exact d c rank s st0.graph → (∀ (i : Nat) (n : Node σ α), st0.graph[i]? = some n → n.state = s → n.terminal = false) →
      (k = 0 → ∃ (i : Nat) (n : Node σ α), st0.graph[i]? = some n ∧ n.state = s ∧ n.terminal = false ∧ n.solved = true) → widths d c fuel s k w st0 = some (.ok (st, b)) →
      Exact d c rank s st.graph ∧ ∃ (i : Nat) (n : Node σ α), st.graph[i]? = some n ∧ n.state = s ∧ n.terminal = false ∧ n.solved = true := by
    intro k
    induction k with
    | zero =>
      intro w st0 h _ hk hw
      simp only [widths, Option.some.injEq, Except.ok.injEq, Prod.mk.injEq] at hw
      rw [← hw.1]
      exact ⟨h, hk rfl⟩
    | succ k ih =>
      intro w st0 h hterm _ hw
      obtain ⟨e1, hroot⟩ := Exact.enter ha hr hl w h hterm
      unfold widths at hw
      unfold solveWidth at hw
      dsimp only at hw
      cases hro : Riw.rollouts d c w fuel (Riw.enter d c w s st0).2 (c.budget - (Riw.enter d c w s st0).1.rollouts) (Riw.enter d c w s st0).1 with
      | none => rw [hro] at hw; simp at hw
      | some x =>
        cases x with
        | error e => rw [hro] at hw; simp at hw
        | ok st1 =>
          rw [hro] at hw
          dsimp only at hw
          obtain ⟨r1, n1, hn1, ht1, hs1⟩ := Exact.rollouts ha htree ho hlive hr e1 hroot hro
          obtain ⟨hle, hend⟩ := rollouts_end _ _ _ hro
          have hsolved : st1.rollouts < c.budget → n1.solved = true := by
            intro hlt
            rcases hend with h1 | ⟨t, _, ht⟩ | h1
            · exact h1 n1 hn1
            · rw [hlate] at ht; simp at ht
            · omega
          have hterm1 : ∀ (i : Nat) (n : Node σ α), st1.graph[i]? = some n → n.state = s → n.terminal = false := by
            intro i m hm hms
            have := r1.sane.good.1.keys i _ m n1 hm hn1 (by rw [hms, hs1])
            subst this
            rw [hn1] at hm
            cases hm
            exact ht1
          split at hw
          · rename_i heq; simp at heq
          · rename_i heq; simp at heq
          · rename_i st2 heq
            simp only [Option.some.injEq, Except.ok.injEq, Prod.mk.injEq] at heq hw
            have e : st = { st1 with ticks := st1.ticks + 1 } := by rw [← hw.1, ← heq.1]
            rw [e] at hbud ⊢
            exact ⟨r1, _, n1, hn1, hs1, ht1, hsolved hbud⟩
          · rename_i st2 heq
            simp only [Option.some.injEq, Except.ok.injEq, Prod.mk.injEq] at heq
            have e : st2 = { st1 with ticks := st1.ticks + 1 } := heq.1.symm
            have hb1 : st1.rollouts < c.budget := by
              have := heq.2
              simp at this
              exact this.1.1.2
            refine ih (w + 1) st2 ?_ ?_ ?_ hw
            · rw [e]; exact r1
            · rw [e]; exact hterm1
            · intro _
              rw [e]
              exact ⟨_, n1, hn1, hs1, ht1, hsolved hb1⟩
  unfold Riw.solve at hs
  refine hw _ _ _ ?_ ?_ ?_ hs
  · refine ⟨⟨hgood, ?_, ?_, ?_⟩, ?_, ⟨?_, ?_, ?_, ?_⟩, ?_, ?_⟩
    · intro i n hn; simp at hn
    · intro i n hn; simp at hn
    · intro i n hn; simp at hn
    · rintro q ⟨n, hn, _⟩; simp at hn
    · intro i n hn; simp at hn
    · intro i n hn; simp at hn
    · intro i n k a r j m hn; simp at hn
    · intro i n hn; simp at hn
    · intro i n hn; simp at hn
    · rintro q ⟨n, hn, _⟩; simp at hn
  · intro i n hn; simp at hn
  · intro e
    exact absurd (List.eq_nil_of_length_eq_zero e) hf

/-! ### Values -/

/-- Actions from a state to the end, with their discounted return. -/
inductive Plan (d : Domain σ α φ) (γ : Rat) : σ → List α → Rat → Prop
  | last {s : σ} {a : α} : a ∈ d.actions s → d.terminal s a = true → Plan d γ s [a] (d.reward s a)
  | step {s : σ} {a : α} {as : List α} {v : Rat} : a ∈ d.actions s → d.terminal s a = false → Plan d γ (d.next s a) as v → Plan d γ s (a :: as) (d.reward s a + γ * v)

theorem weigh_fold {γ : Rat} {g : Graph σ α} {p : Nat} {val : (α × Rat × Option Nat) × Nat → Rat} (l : List ((α × Rat × Option Nat) × Nat))
    (h : ∀ x ∈ l, ∃ (m : Nat) (n : Node σ α) (v : Rat), x.1.2.2 = some m ∧ m ≠ p ∧ g[m]? = some n ∧ n.value = some v ∧ val x = x.1.2.1 + γ * v) :
    ∀ acc, (l.foldl (weigh γ g p) acc).2 = l.foldl (fun acc x => improve acc (val x) x.2) acc.2 := by
  induction l with
  | nil => intro acc; rfl
  | cons x l ih =>
    intro acc
    obtain ⟨m, n, v, e1, e2, e3, e4, e5⟩ := h x List.mem_cons_self
    rw [List.foldl_cons, List.foldl_cons, ih (fun y hy => h y (List.mem_cons_of_mem _ hy))]
    have : (weigh γ g p acc x).2 = improve acc.2 (val x) x.2 := by
      simp [weigh, e1, childNow, e2, e3, e4, e5]
    rw [this]

theorem improve_fold {β : Type} (val : β × Nat → Rat) (l : List (β × Nat)) :
    ∀ (w : Rat) (k : Nat), ∃ w' k', l.foldl (fun acc x => improve acc (val x) x.2) (some w, some k) = (some w', some k') ∧ w ≤ w' ∧ (∀ x ∈ l, val x ≤ w') ∧
      ((w' = w ∧ k' = k) ∨ ∃ x ∈ l, x.2 = k' ∧ val x = w') := by
  induction l with
  | nil => intro w k; exact ⟨w, k, rfl, le_refl _, by simp, Or.inl ⟨rfl, rfl⟩⟩
  | cons x l ih =>
    intro w k
    rw [List.foldl_cons]
    by_cases hlt : w < val x
    · have e : improve (some w, some k) (val x) x.2 = (some (val x), some x.2) := by simp [improve, hlt]
      rw [e]
      obtain ⟨w', k', h1, h2, h3, h4⟩ := ih (val x) x.2
      refine ⟨w', k', h1, by linarith, ?_, ?_⟩
      · intro y hy
        rcases List.mem_cons.1 hy with rfl | hy
        · exact h2
        · exact h3 y hy
      · right
        rcases h4 with ⟨e1, e2⟩ | ⟨y, hy, e1, e2⟩
        · exact ⟨x, List.mem_cons_self, e2.symm, e1.symm⟩
        · exact ⟨y, List.mem_cons_of_mem _ hy, e1, e2⟩
    · have e : improve (some w, some k) (val x) x.2 = (some w, some k) := by simp [improve, hlt]
      rw [e]
      obtain ⟨w', k', h1, h2, h3, h4⟩ := ih w k
      refine ⟨w', k', h1, h2, ?_, ?_⟩
      · intro y hy
        rcases List.mem_cons.1 hy with rfl | hy
        · linarith
        · exact h3 y hy
      · rcases h4 with h4 | ⟨y, hy, e1, e2⟩
        · exact Or.inl h4
        · exact Or.inr ⟨y, List.mem_cons_of_mem _ hy, e1, e2⟩

theorem improve_fold' {β : Type} (val : β × Nat → Rat) {l : List (β × Nat)} (hl : l ≠ []) :
    ∃ w' k', l.foldl (fun acc x => improve acc (val x) x.2) (none, none) = (some w', some k') ∧ (∀ x ∈ l, val x ≤ w') ∧ ∃ x ∈ l, x.2 = k' ∧ val x = w' := by
  obtain ⟨x, l', rfl⟩ := List.exists_cons_of_ne_nil hl
  obtain ⟨w', k', h1, h2, h3, h4⟩ := improve_fold val l' (val x) x.2
  refine ⟨w', k', h1, ?_, ?_⟩
  · intro y hy
    rcases List.mem_cons.1 hy with rfl | hy
    · exact h2
    · exact h3 y hy
  · rcases h4 with ⟨e1, e2⟩ | ⟨y, hy, e1, e2⟩
    · exact ⟨x, List.mem_cons_self, e2.symm, e1.symm⟩
    · exact ⟨y, List.mem_cons_of_mem _ hy, e1, e2⟩

/-- The solved nodes of a tree have the best returns. -/
theorem Exact.value {d : Domain σ α φ} {c : Config σ κ} {rank : σ → Nat} {s0 : σ} (ha : Acyclic d c.key rank) (hγ : 0 ≤ c.discount) {g : Graph σ α} (h : Exact d c rank s0 g)
    (hp : ∀ (i : Nat) (n : Node σ α), g[i]? = some n → n.pruned = false) :
    ∀ (N i : Nat) (n : Node σ α), rank n.state < N → g[i]? = some n → n.solved = true →
      (n.terminal = true → n.value = some 0) ∧
      (n.terminal = false → ∃ v as k a r j, n.value = some v ∧ n.best = some k ∧ n.children[k]? = some (a, r, some j) ∧ Plan d c.discount n.state (a :: as) v ∧
        ∀ as' v', Plan d c.discount n.state as' v' → v' ≤ v) := by
  intro N
  induction N with
  | zero => intro i n hN; omega
  | succ N ih =>
    intro i n hN hn hs
    by_cases hc : n.children = []
    · have := h.leaf i n hn hs (hp i n hn) hc
      exact ⟨fun _ => this.2, fun ht => by rw [this.1] at ht; simp at ht⟩
    refine ⟨fun ht => absurd (h.grown.tleaf i n hn ht) hc, fun _ => ?_⟩
    have heq : (n.solved, n.value, n.best) = recalc c.discount g i n := by
      by_cases heq : (n.solved, n.value, n.best) = recalc c.discount g i n
      · exact heq
      · exact absurd ⟨n, hn, hc, hs, hp i n hn, heq⟩ (h.exact i)
    have hne := child_ne ha h.sane.good.1 hn
    have hall := (recalc_solved (γ := c.discount) (g := g) (p := i) (n := n) hne).1 (by rw [← heq]; exact hs)
    have hkids : n.children.map (·.1) = d.actions n.state := (h.sane.good.1.kids i n hn).resolve_left hc
    -- what is known of one child
    have hchild : ∀ (k : Nat) (a : α) (r : Rat) (o : Option Nat), n.children[k]? = some (a, r, o) → ∃ (j : Nat) (m : Node σ α) (v : Rat), o = some j ∧ j ≠ i ∧ g[j]? = some m ∧ m.value = some v ∧
        a ∈ d.actions n.state ∧ (∃ as, Plan d c.discount n.state (a :: as) (r + c.discount * v)) ∧
        ∀ as' v', Plan d c.discount n.state (a :: as') v' → v' ≤ r + c.discount * v := by
      intro k a r o hk
      obtain ⟨j, m, rfl, hm, hms⟩ := hall k a r o hk
      obtain ⟨hr, m', hm', hkey, _⟩ := h.sane.good.1.edge i n k a r j hn hk
      rw [hm] at hm'
      cases hm'
      have hact : a ∈ d.actions n.state := by
        rw [← hkids]
        exact List.mem_map.2 ⟨_, List.mem_of_getElem? hk, rfl⟩
      have hst := ha.inj _ _ hkey
      have hlt := ha.down n.state a hact
      have hflag := h.grown.flag i n k a r j m hn hk hm
      obtain ⟨i1, i2⟩ := ih j m (by rw [hst]; omega) hm hms
      subst hr
      cases ht : m.terminal with
      | true =>
        refine ⟨j, m, 0, rfl, hne k a _ j hk, hm, i1 ht, hact, ⟨[], ?_⟩, ?_⟩
        · have := Plan.last (d := d) (γ := c.discount) hact (by rw [← hflag]; exact ht)
          simpa using this
        · intro as' v' hpl
          cases hpl with
          | last _ _ => simp
          | step _ hf _ => rw [← hflag, ht] at hf; simp at hf
      | false =>
        obtain ⟨v, as, k', a', r', j', e1, _, _, hpl, hopt⟩ := i2 ht
        refine ⟨j, m, v, rfl, hne k a _ j hk, hm, e1, hact, ⟨a' :: as, ?_⟩, ?_⟩
        · exact .step hact (by rw [← hflag]; exact ht) (by rw [← hst]; exact hpl)
        · intro as' v' hpl'
          cases hpl' with
          | last _ hf => rw [← hflag, ht] at hf; simp at hf
          | step _ _ hrest =>
            have := hopt _ _ (by rw [hst]; exact hrest)
            have := mul_le_mul_of_nonneg_left this hγ
            linarith
    have hval : ∀ x ∈ n.children.zipIdx, ∃ (m : Nat) (m' : Node σ α) (v : Rat), x.1.2.2 = some m ∧ m ≠ i ∧ g[m]? = some m' ∧ m'.value = some v ∧
        (fun x : (α × Rat × Option Nat) × Nat => x.1.2.1 + c.discount * (((x.1.2.2.bind (g[·]?)).bind (·.value)).getD 0)) x = x.1.2.1 + c.discount * v := by
      rintro ⟨⟨a, r, o⟩, k⟩ hx
      have hk := List.mem_zipIdx' hx
      obtain ⟨j, m, v, rfl, e2, e3, e4, _⟩ := hchild k a r o (by rw [List.getElem?_eq_some_iff]; exact ⟨hk.1, hk.2.symm⟩)
      exact ⟨j, m, v, rfl, e2, e3, e4, by simp [e3, e4]⟩
    have hfold := weigh_fold n.children.zipIdx hval (true, none, none)
    obtain ⟨v, k, f1, f2, ⟨⟨a, r, o⟩, k'⟩, hx, rfl, f3⟩ := improve_fold' (fun x : (α × Rat × Option Nat) × Nat => x.1.2.1 + c.discount * (((x.1.2.2.bind (g[·]?)).bind (·.value)).getD 0)) (l := n.children.zipIdx) (by
      intro e
      apply hc
      simpa using congrArg List.length e)
    rw [f1] at hfold
    have hvb : n.value = some v ∧ n.best = some k' := by
      have := congrArg Prod.snd heq
      unfold recalc at this
      rw [hfold] at this
      simpa using this
    have hk := List.mem_zipIdx' hx
    have hk' : n.children[k']? = some (a, r, o) := by rw [List.getElem?_eq_some_iff]; exact ⟨hk.1, hk.2.symm⟩
    obtain ⟨j, m, vj, rfl, e2, e3, e4, hact, ⟨as, hpl⟩, _⟩ := hchild k' a r o hk'
    have hv : v = r + c.discount * vj := by rw [← f3]; simp [e3, e4]
    refine ⟨v, as, k', a, r, j, hvb.1, hvb.2, hk', by rw [hv]; exact hpl, ?_⟩
    intro as' v' hpl'
    have hsome : ∃ a' as'', as' = a' :: as'' ∧ a' ∈ d.actions n.state := by
      cases hpl' with
      | last h _ => exact ⟨_, _, rfl, h⟩
      | step h _ _ => exact ⟨_, _, rfl, h⟩
    obtain ⟨a', as'', rfl, ha'⟩ := hsome
    rw [← hkids] at ha'
    obtain ⟨⟨a1, r1, o1⟩, hmem, rfl⟩ := List.mem_map.1 ha'
    obtain ⟨k1, hk1⟩ := List.mem_iff_getElem?.1 hmem
    obtain ⟨j1, m1, v1, rfl, _, g3, g4, _, _, hopt⟩ := hchild k1 a1 r1 o1 hk1
    have h1 := hopt as'' v' hpl'
    have h2 := f2 ((a1, r1, some j1), k1) (by rw [List.mk_mem_zipIdx_iff_getElem?]; exact hk1)
    simp [g3, g4] at h2
    linarith

end Verif.Riw
