import Verif.Lemmas.RiwDepth
import Mathlib.Logic.Relation

namespace Verif.Riw
open Relation (TransGen)

variable {σ α φ κ : Type}

/-- A visited child. -/
def Edge (g : Graph σ α) (i j : Nat) : Prop := ∃ (n : Node σ α) (k : Nat) (a : α) (r : Rat), g[i]? = some n ∧ n.children[k]? = some (a, r, some j)

theorem mem_parents {d : Domain σ α φ} {key : σ → κ} {g : Graph σ α} (h : True' d key g) {i j : Nat} {m : Node σ α} (hm : g[j]? = some m) :
    i ∈ m.parents ↔ Edge g i j := by
  constructor
  · intro hi; exact h.back i j m hm hi
  · rintro ⟨n, k, a, r, hn, hc⟩
    obtain ⟨_, m', hm', _, hp⟩ := h.edge i n k a r j hn hc
    rw [hm] at hm'
    cases hm'
    exact hp

/-- Every transition lowers the rank. -/
structure Acyclic (d : Domain σ α φ) (key : σ → κ) (rank : σ → Nat) : Prop where
  inj : ∀ x y, key x = key y → x = y
  down : ∀ s, ∀ a ∈ d.actions s, rank (d.next s a) < rank s

theorem edge_next {d : Domain σ α φ} {key : σ → κ} {rank : σ → Nat} (ha : Acyclic d key rank) {g : Graph σ α} (h : True' d key g) {i j k : Nat} {n : Node σ α} {a : α} {r : Rat}
    (hn : g[i]? = some n) (hc : n.children[k]? = some (a, r, some j)) :
    a ∈ d.actions n.state ∧ r = d.reward n.state a ∧ ∃ m, g[j]? = some m ∧ m.state = d.next n.state a ∧ rank m.state < rank n.state := by
  have hact : a ∈ d.actions n.state := by
    rcases h.kids i n hn with h0 | h0
    · rw [h0] at hc; simp at hc
    · rw [← h0, List.mem_map]; exact ⟨_, List.mem_of_getElem? hc, rfl⟩
  obtain ⟨hr, m, hm, hk, _⟩ := h.edge i n k a r j hn hc
  refine ⟨hact, hr, m, hm, ha.inj _ _ hk, ?_⟩
  rw [ha.inj _ _ hk]
  exact ha.down _ _ hact

theorem no_loop {d : Domain σ α φ} {key : σ → κ} {rank : σ → Nat} (ha : Acyclic d key rank) {g : Graph σ α} (h : True' d key g) {i : Nat} : ¬ Edge g i i := by
  rintro ⟨n, k, a, r, hn, hc⟩
  obtain ⟨_, _, m, hm, _, hlt⟩ := edge_next ha h hn hc
  rw [hn] at hm
  cases hm
  omega

theorem bare_children {g g0 : Graph σ α} (hb : g.map bare = g0.map bare) {i : Nat} {n : Node σ α} (hn : g[i]? = some n) :
    ∃ n0, g0[i]? = some n0 ∧ n.children = n0.children ∧ n.state = n0.state ∧ n.parents = n0.parents ∧ n.depth = n0.depth ∧ n.pruned = n0.pruned ∧ n.terminal = n0.terminal := by
  obtain ⟨n0, hn0, e⟩ := map_get hb hn
  have e1 : (bare n).children = (bare n0).children := by rw [e]
  have e2 : (bare n).state = (bare n0).state := by rw [e]
  have e3 : (bare n).parents = (bare n0).parents := by rw [e]
  have e4 : (bare n).depth = (bare n0).depth := by rw [e]
  have e5 : (bare n).pruned = (bare n0).pruned := by rw [e]
  have e6 : (bare n).terminal = (bare n0).terminal := by rw [e]
  exact ⟨n0, hn0, e1, e2, e3, e4, e5, e6⟩

theorem edge_bare {g g0 : Graph σ α} (hb : g.map bare = g0.map bare) {i j : Nat} : Edge g i j ↔ Edge g0 i j := by
  constructor
  · rintro ⟨n, k, a, r, hn, hc⟩
    obtain ⟨n0, hn0, e, _⟩ := bare_children hb hn
    exact ⟨n0, k, a, r, hn0, by rw [← e]; exact hc⟩
  · rintro ⟨n, k, a, r, hn, hc⟩
    obtain ⟨n0, hn0, e, _⟩ := bare_children hb.symm hn
    exact ⟨n0, k, a, r, hn0, by rw [← e]; exact hc⟩

/-- After as many rounds as the rank allows, nothing is left to be repaired, whatever that means, if a parent that is
given its value again is in order then, and this disturbs only its own parents. -/
theorem loop_clean {d : Domain σ α φ} {c : Config σ κ} {rank : σ → Nat} (ha : Acyclic d c.key rank) (ho : ∀ l x, x ∈ c.order l ↔ x ∈ l)
    {g0 : Graph σ α} (hT : True' d c.key g0) (hR : ∀ (i : Nat) (n : Node σ α), g0[i]? = some n → rank n.state ≤ c.maxDepth)
    (Bad : Graph σ α → Nat → Prop)
    (B1 : ∀ g p, g.map bare = g0.map bare → ¬ Bad (backupParent c.discount g p) p)
    (B2 : ∀ g p q, g.map bare = g0.map bare → Bad (backupParent c.discount g p) q → Bad g q ∨ Edge g0 q p) :
    ∀ (k : Nat) (F : List Nat) (g : Graph σ α), g.map bare = g0.map bare → (∀ q, Bad g q → ∃ x ∈ F, TransGen (Edge g0) q x) →
      (∀ x ∈ F, ∃ n, g0[x]? = some n ∧ c.maxDepth + 1 ≤ rank n.state + k) → ∀ q, ¬ Bad (backupLoop c k F g) q := by
  -- the parents of one node
  have inner : ∀ (PR R : List Nat) (r : Graph σ α × List Nat), r.1.map bare = g0.map bare →
      (∀ q, Bad r.1 q → q ∈ PR ∨ (∃ y ∈ PR, TransGen (Edge g0) q y) ∨ (∃ x ∈ R, TransGen (Edge g0) q x) ∨ (∃ x ∈ r.2, TransGen (Edge g0) q x)) →
      (PR.foldl (fun r p => (backupParent c.discount r.1 p, insertNew r.2 p)) r).1.map bare = g0.map bare ∧
      (∀ q, Bad (PR.foldl (fun r p => (backupParent c.discount r.1 p, insertNew r.2 p)) r).1 q → (∃ x ∈ R, TransGen (Edge g0) q x) ∨
        (∃ x ∈ (PR.foldl (fun r p => (backupParent c.discount r.1 p, insertNew r.2 p)) r).2, TransGen (Edge g0) q x)) ∧
      (∀ x, x ∈ (PR.foldl (fun r p => (backupParent c.discount r.1 p, insertNew r.2 p)) r).2 → x ∈ r.2 ∨ x ∈ PR) := by
    intro PR
    induction PR with
    | nil =>
      intro R r hb hI
      refine ⟨hb, ?_, fun x hx => Or.inl hx⟩
      intro q hq
      rcases hI q hq with h | ⟨y, h, _⟩ | h | h
      · simp at h
      · simp at h
      · exact Or.inl h
      · exact Or.inr h
    | cons p PR ih =>
      intro R r hb hI
      have hb' : (backupParent c.discount r.1 p).map bare = g0.map bare := by rw [backupParent_bare]; exact hb
      have key := ih R (backupParent c.discount r.1 p, insertNew r.2 p) hb' ?_
      · obtain ⟨i1, i2, i3⟩ := key
        refine ⟨i1, i2, ?_⟩
        intro x hx
        rcases i3 x hx with h | h
        · rw [mem_insertNew] at h
          rcases h with h | h
          · exact Or.inl h
          · exact Or.inr (by rw [h]; exact List.mem_cons_self)
        · exact Or.inr (List.mem_cons_of_mem _ h)
      · intro q hq
        have hqp : q ≠ p := by
          intro e
          subst e
          exact B1 _ _ hb hq
        have hpn : p ∈ insertNew r.2 p := mem_insertNew.2 (Or.inr rfl)
        rcases B2 _ _ _ hb hq with h | h
        · rcases hI q h with h | ⟨y, hy, h⟩ | h | ⟨x, hx, h⟩
          · rcases List.mem_cons.1 h with h | h
            · exact absurd h hqp
            · exact Or.inl h
          · rcases List.mem_cons.1 hy with e | hy
            · subst e; exact Or.inr (Or.inr (Or.inr ⟨_, hpn, h⟩))
            · exact Or.inr (Or.inl ⟨y, hy, h⟩)
          · exact Or.inr (Or.inr (Or.inl h))
          · exact Or.inr (Or.inr (Or.inr ⟨x, mem_insertNew.2 (Or.inl hx), h⟩))
        · exact Or.inr (Or.inr (Or.inr ⟨p, hpn, TransGen.single h⟩))
  -- one round
  have round : ∀ (F : List Nat) (r : Graph σ α × List Nat), r.1.map bare = g0.map bare → (∀ x ∈ F, ∃ n, g0[x]? = some n) →
      (∀ q, Bad r.1 q → (∃ x ∈ F, TransGen (Edge g0) q x) ∨ (∃ x ∈ r.2, TransGen (Edge g0) q x)) →
      (F.foldl (updateFrontier c) r).1.map bare = g0.map bare ∧
      (∀ q, Bad (F.foldl (updateFrontier c) r).1 q → ∃ x ∈ (F.foldl (updateFrontier c) r).2, TransGen (Edge g0) q x) ∧
      (∀ x, x ∈ (F.foldl (updateFrontier c) r).2 → x ∈ r.2 ∨ ∃ y ∈ F, Edge g0 x y) := by
    intro F
    induction F with
    | nil =>
      intro r hb _ hI
      refine ⟨hb, ?_, fun x hx => Or.inl hx⟩
      intro q hq
      rcases hI q hq with ⟨x, hx, _⟩ | h
      · simp at hx
      · exact h
    | cons i F ih =>
      intro r hb hF hI
      obtain ⟨n0, hn0⟩ := hF i List.mem_cons_self
      obtain ⟨n, hn, e⟩ := bare_children hb.symm hn0
      have hpar : ∀ x, x ∈ c.order n.parents ↔ Edge g0 x i := by
        intro x
        rw [ho, ← e.2.2.1, mem_parents hT hn0]
      have hup : updateFrontier c r i = (c.order n.parents).foldl (fun r p => (backupParent c.discount r.1 p, insertNew r.2 p)) r := by
        unfold updateFrontier
        rw [hn]
      have key := inner (c.order n.parents) F r hb ?_
      · obtain ⟨j1, j2, j3⟩ := key
        rw [List.foldl_cons, hup]
        obtain ⟨k1, k2, k3⟩ := ih _ j1 (fun x hx => hF x (List.mem_cons_of_mem _ hx)) j2
        refine ⟨k1, k2, ?_⟩
        intro x hx
        rcases k3 x hx with h | ⟨y, hy, h⟩
        · rcases j3 x h with h | h
          · exact Or.inl h
          · exact Or.inr ⟨i, List.mem_cons_self, (hpar x).1 h⟩
        · exact Or.inr ⟨y, List.mem_cons_of_mem _ hy, h⟩
      · intro q hq
        rcases hI q hq with ⟨x, hx, h⟩ | h
        · rcases List.mem_cons.1 hx with e | hx
          · subst e
            cases h with
            | single h => exact Or.inl ((hpar q).2 h)
            | tail h1 h2 => exact Or.inr (Or.inl ⟨_, (hpar _).2 h2, h1⟩)
          · exact Or.inr (Or.inr (Or.inl ⟨x, hx, h⟩))
        · exact Or.inr (Or.inr (Or.inr h))
  intro k
  induction k with
  | zero =>
    intro F g hb hI hF q hq
    obtain ⟨x, hx, _⟩ := hI q hq
    obtain ⟨n, hn, hle⟩ := hF x hx
    have := hR x n hn
    omega
  | succ k ih =>
    intro F g hb hI hF q hq
    cases F with
    | nil =>
      obtain ⟨x, hx, _⟩ := hI q hq
      simp at hx
    | cons f F =>
      simp only [backupLoop] at hq
      obtain ⟨r1, r2, r3⟩ := round (c.order (f :: F)) (g, []) hb
        (fun x hx => by obtain ⟨n, hn, _⟩ := hF x ((ho _ _).1 hx); exact ⟨n, hn⟩)
        (fun q hq => by obtain ⟨x, hx, h⟩ := hI q hq; exact Or.inl ⟨x, (ho _ _).2 hx, h⟩)
      refine ih _ _ r1 r2 ?_ q hq
      intro x hx
      rcases r3 x hx with h | ⟨y, hy, n, kk, a, r, hn, hc⟩
      · simp at h
      · obtain ⟨m, hm, hle⟩ := hF y ((ho _ _).1 hy)
        obtain ⟨_, _, m', hm', _, hlt⟩ := edge_next ha hT hn hc
        rw [hm] at hm'
        cases hm'
        exact ⟨n, hn, by omega⟩

/-! ### What a parent is given -/

/-- The new solved bit, value and best action of a node. -/
def recalc (γ : Rat) (g : Graph σ α) (p : Nat) (n : Node σ α) : Bool × Option Rat × Option Nat := n.children.zipIdx.foldl (weigh γ g p) (true, none, none)

theorem backupParent_get {γ : Rat} {g : Graph σ α} {p x : Nat} {m : Node σ α} (hm : (backupParent γ g p)[x]? = some m) :
    ∃ m0, g[x]? = some m0 ∧ m = if p = x then { m0 with solved := (recalc γ g p m0).1, value := (recalc γ g p m0).2.1, best := (recalc γ g p m0).2.2 } else m0 := by
  unfold backupParent at hm
  cases hp : g[p]? with
  | none =>
    rw [hp] at hm
    refine ⟨m, hm, ?_⟩
    have : p ≠ x := by intro e; subst e; rw [hp] at hm; simp at hm
    rw [if_neg this]
  | some n =>
    rw [hp] at hm
    simp only [getElem?_modify'] at hm
    cases hx : g[x]? with
    | none => rw [hx] at hm; simp at hm
    | some m0 =>
      rw [hx] at hm
      simp only [Option.map_some, Option.some.injEq] at hm
      refine ⟨m0, rfl, ?_⟩
      rw [← hm]
      by_cases h : p = x
      · subst h
        rw [hp] at hx
        cases hx
        rfl
      · simp [h]

theorem backupParent_other {γ : Rat} {g : Graph σ α} {p x : Nat} (h : x ≠ p) : (backupParent γ g p)[x]? = g[x]? := by
  unfold backupParent
  split
  · rfl
  · rw [getElem?_modify']
    have : ¬ p = x := fun e => h e.symm
    simp [this]

theorem weigh_congr {γ : Rat} {g g' : Graph σ α} {p : Nat} :
    ∀ (l : List ((α × Rat × Option Nat) × Nat)) (acc : Bool × Option Rat × Option Nat),
      (∀ x ∈ l, ∀ m, x.1.2.2 = some m → m ≠ p ∧ (g'[m]?).map (fun n => (n.solved, n.value)) = (g[m]?).map (fun n => (n.solved, n.value))) →
      l.foldl (weigh γ g' p) acc = l.foldl (weigh γ g p) acc := by
  intro l
  induction l with
  | nil => intro acc _; rfl
  | cons x l ih =>
    intro acc h
    have e : weigh γ g' p acc x = weigh γ g p acc x := by
      unfold weigh
      cases hx : x.1.2.2 with
      | none => rfl
      | some m =>
        obtain ⟨hne, he⟩ := h x List.mem_cons_self m hx
        have : childNow g' p acc m = childNow g p acc m := by
          unfold childNow
          rw [if_neg hne, if_neg hne]
          cases h1 : g'[m]? with
          | none =>
            cases h2 : g[m]? with
            | none => rfl
            | some y => rw [h1, h2] at he; simp at he
          | some x =>
            cases h2 : g[m]? with
            | none => rw [h1, h2] at he; simp at he
            | some y => rw [h1, h2] at he; simp at he; simp [he]
        simp only [this]
    rw [List.foldl_cons, List.foldl_cons, e]
    exact ih _ (fun y hy => h y (List.mem_cons_of_mem _ hy))

theorem recalc_congr {γ : Rat} {g g' : Graph σ α} {p : Nat} {n : Node σ α}
    (h : ∀ (k : Nat) (a : α) (r : Rat) (m : Nat), n.children[k]? = some (a, r, some m) → m ≠ p ∧ (g'[m]?).map (fun n => (n.solved, n.value)) = (g[m]?).map (fun n => (n.solved, n.value))) :
    recalc γ g' p n = recalc γ g p n := by
  unfold recalc
  apply weigh_congr
  intro x hx m hm
  have := zipIdx_get hx
  obtain ⟨⟨a, r, o⟩, k⟩ := x
  simp only at hm
  subst hm
  exact h k a r m this

theorem weigh_solved {γ : Rat} {g : Graph σ α} {p : Nat} :
    ∀ (l : List ((α × Rat × Option Nat) × Nat)) (acc : Bool × Option Rat × Option Nat), (∀ x ∈ l, ∀ m, x.1.2.2 = some m → m ≠ p) →
      (l.foldl (weigh γ g p) acc).1 = (acc.1 && l.all fun x => match x.1.2.2 with
        | none => false
        | some m => match g[m]? with
          | none => false
          | some n => n.solved) := by
  intro l
  induction l with
  | nil => intro acc _; simp
  | cons x l ih =>
    intro acc h
    rw [List.foldl_cons, ih _ (fun y hy => h y (List.mem_cons_of_mem _ hy)), List.all_cons, ← Bool.and_assoc]
    congr 1
    unfold weigh
    cases hx : x.1.2.2 with
    | none => simp
    | some m =>
      have hne := h x List.mem_cons_self m hx
      simp only [childNow, if_neg hne]
      cases hm : g[m]? with
      | none => simp
      | some n =>
        simp only
        cases n.value <;> rfl

theorem recalc_solved {γ : Rat} {g : Graph σ α} {p : Nat} {n : Node σ α} (hl : ∀ (k : Nat) (a : α) (r : Rat) (m : Nat), n.children[k]? = some (a, r, some m) → m ≠ p) :
    (recalc γ g p n).1 = true ↔ ∀ (k : Nat) (a : α) (r : Rat) (o : Option Nat), n.children[k]? = some (a, r, o) → ∃ (j : Nat) (m : Node σ α), o = some j ∧ g[j]? = some m ∧ m.solved = true := by
  unfold recalc
  rw [weigh_solved]
  · simp only [Bool.true_and, List.all_eq_true]
    constructor
    · intro h k a r o hk
      have hmem : ((a, r, o), k) ∈ n.children.zipIdx := by rw [List.mem_zipIdx_iff_getElem?]; exact hk
      have := h _ hmem
      cases o with
      | none => simp at this
      | some j =>
        simp only at this
        cases hj : g[j]? with
        | none => rw [hj] at this; simp at this
        | some m => rw [hj] at this; exact ⟨j, m, rfl, hj, this⟩
    · intro h x hx
      obtain ⟨⟨a, r, o⟩, k⟩ := x
      obtain ⟨j, m, rfl, hj, hm⟩ := h k a r o (zipIdx_get hx)
      simp [hj, hm]
  · intro x hx m hm
    obtain ⟨⟨a, r, o⟩, k⟩ := x
    simp only at hm
    subst hm
    exact hl k a r m (zipIdx_get hx)

end Verif.Riw
