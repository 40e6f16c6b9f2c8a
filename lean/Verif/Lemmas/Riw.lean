import Verif.Model.Riw
import Verif.Lemmas.Iw

namespace Verif.Riw

variable {σ α φ κ : Type}

/-! ### Looking up nodes -/

theorem getElem?_modify' {g : Graph σ α} {f : Node σ α → Node σ α} {i j : Nat} :
    (g.modify i f)[j]? = (g[j]?).map fun n => if i = j then f n else n := by
  rw [List.getElem?_modify]
  by_cases h : i = j
  · simp [h]
  · simp [h]

theorem locate_some [DecidableEq κ] {key : σ → κ} {g : Graph σ α} {s : σ} {i : Nat} (h : locate key g s = some i) :
    ∃ n, g[i]? = some n ∧ key n.state = key s := by
  unfold locate at h
  rw [List.findIdx?_eq_some_iff_getElem] at h
  obtain ⟨hi, h1, _⟩ := h
  exact ⟨g[i], List.getElem?_eq_getElem hi, by simpa using h1⟩

theorem locate_none [DecidableEq κ] {key : σ → κ} {g : Graph σ α} {s : σ} (h : locate key g s = none) {i : Nat} {n : Node σ α}
    (hn : g[i]? = some n) : key n.state ≠ key s := by
  unfold locate at h
  rw [List.findIdx?_eq_none_iff] at h
  have := h n (List.mem_of_getElem? hn)
  simpa using this

/-! ### What does not change -/

/-- The part of a node that values do not touch. -/
def skel (n : Node σ α) : σ × List (α × Rat × Option Nat) × List Nat := (n.state, n.children, n.parents)

/-- All but value, best action and the solved bit. -/
def bare (n : Node σ α) : Node σ α := { n with value := none, best := none, solved := false }

theorem map_modify_of {β : Type} (q : Node σ α → β) {f : Node σ α → Node σ α} (hf : ∀ n, q (f n) = q n) (g : Graph σ α) (i : Nat) :
    (g.modify i f).map q = g.map q := by
  apply List.ext_getElem?
  intro j
  rw [List.getElem?_map, List.getElem?_map, getElem?_modify']
  cases g[j]? with
  | none => rfl
  | some n => by_cases h : i = j <;> simp [h, hf]

theorem map_get {β : Type} {q : Node σ α → β} {g g' : Graph σ α} (h : g'.map q = g.map q) {i : Nat} {n' : Node σ α} (hn : g'[i]? = some n') :
    ∃ n, g[i]? = some n ∧ q n' = q n := by
  have : (g'.map q)[i]? = (g.map q)[i]? := by rw [h]
  rw [List.getElem?_map, List.getElem?_map, hn] at this
  cases hg : g[i]? with
  | none => rw [hg] at this; simp at this
  | some n => rw [hg] at this; simp at this; exact ⟨n, rfl, this⟩

theorem skel_of_bare {g g' : Graph σ α} (h : g'.map bare = g.map bare) : g'.map skel = g.map skel := by
  have : (g'.map bare).map skel = (g.map bare).map skel := by rw [h]
  rw [List.map_map, List.map_map] at this
  exact this

/-- The best action of a node is one of its visited children. -/
def BestOk (g : Graph σ α) : Prop :=
  ∀ (i : Nat) (n : Node σ α) (k : Nat), g[i]? = some n → n.best = some k → ∃ a r j, n.children[k]? = some (a, r, some j)

theorem weigh_best {γ : Rat} {g : Graph σ α} {p : Nat} {cs : List (α × Rat × Option Nat)} :
    ∀ (l : List ((α × Rat × Option Nat) × Nat)) (acc : Bool × Option Rat × Option Nat), (∀ x ∈ l, cs[x.2]? = some x.1) →
      (∀ k, acc.2.2 = some k → ∃ a r j, cs[k]? = some (a, r, some j)) →
      ∀ k, (l.foldl (weigh γ g p) acc).2.2 = some k → ∃ a r j, cs[k]? = some (a, r, some j) := by
  intro l
  induction l with
  | nil => intro acc _ h k hk; exact h k hk
  | cons x l ih =>
    intro acc hl h k hk
    rw [List.foldl_cons] at hk
    refine ih _ (fun y hy => hl y (List.mem_cons_of_mem _ hy)) ?_ k hk
    intro k hk
    have hx := hl x List.mem_cons_self
    obtain ⟨⟨a, r, o⟩, q⟩ := x
    cases o with
    | none => exact h k hk
    | some m =>
      have hnew : ∀ k, some q = some k → ∃ a r j, cs[k]? = some (a, r, some j) := by
        intro k hk; cases hk; exact ⟨a, r, m, hx⟩
      unfold weigh at hk
      dsimp only at hk
      split at hk
      · exact h k hk
      · unfold improve at hk
        dsimp only at hk
        split at hk
        · exact hnew k hk
        · split at hk
          · exact hnew k hk
          · exact h k hk

theorem zipIdx_get {β : Type} {l : List β} {x : β × Nat} (h : x ∈ l.zipIdx) : l[x.2]? = some x.1 := by
  rw [List.mem_zipIdx_iff_getElem?] at h
  exact h

theorem backupParent_bare (γ : Rat) (g : Graph σ α) (p : Nat) : (backupParent γ g p).map bare = g.map bare := by
  unfold backupParent
  split
  · rfl
  · dsimp only
    refine map_modify_of bare (fun n => ?_) _ _
    rfl

theorem BestOk.modify {g : Graph σ α} (h : BestOk g) {f : Node σ α → Node σ α} (hf : ∀ n, (f n).best = n.best ∧ (f n).children = n.children) (i : Nat) :
    BestOk (g.modify i f) := by
  intro j n k hn hb
  rw [getElem?_modify'] at hn
  cases hg : g[j]? with
  | none => rw [hg] at hn; simp at hn
  | some m =>
    rw [hg] at hn
    simp only [Option.map_some, Option.some.injEq] at hn
    subst hn
    split at hb
    · rename_i hij
      rw [(hf m).1] at hb
      rw [if_pos hij, (hf m).2]
      exact h j m k hg hb
    · rename_i hij
      rw [if_neg hij]
      exact h j m k hg hb

theorem backupParent_best {γ : Rat} {g : Graph σ α} {p : Nat} (h : BestOk g) : BestOk (backupParent γ g p) := by
  unfold backupParent
  split
  · exact h
  · rename_i m hm
    intro j n k hn hb
    rw [getElem?_modify'] at hn
    cases hg : g[j]? with
    | none => rw [hg] at hn; simp at hn
    | some q =>
      rw [hg] at hn
      simp only [Option.map_some, Option.some.injEq] at hn
      by_cases hpj : p = j
      · rw [if_pos hpj] at hn
        subst hpj
        rw [hm] at hg
        cases hg
        subst hn
        exact weigh_best _ _ (fun x hx => zipIdx_get hx) (by simp) k hb
      · rw [if_neg hpj] at hn
        subst hn
        exact h j q k hg hb

/-- A relation between graphs that each backup of a parent keeps holds for a whole backup. -/
theorem backup_ind (P : Graph σ α → Prop) (c : Config σ κ) (mr : Option Rat) (hp : ∀ g p, P g → P (backupParent c.discount g p))
    (hv : ∀ g i, P g → P (pruneValue c mr g i)) (frontier : List Nat) (g : Graph σ α) (h : P g) : P (backupValues c mr frontier g) := by
  have h1 : ∀ (l : List Nat) (r : Graph σ α × List Nat), P r.1 →
      P (l.foldl (fun r p => (backupParent c.discount r.1 p, insertNew r.2 p)) r).1 := by
    intro l
    induction l with
    | nil => intro r hr; exact hr
    | cons x l ih => intro r hr; exact ih _ (hp _ _ hr)
  have h2 : ∀ (l : List Nat) (r : Graph σ α × List Nat), P r.1 → P (l.foldl (updateFrontier c) r).1 := by
    intro l
    induction l with
    | nil => intro r hr; exact hr
    | cons x l ih =>
      intro r hr
      refine ih _ ?_
      unfold updateFrontier
      split
      · exact hr
      · exact h1 _ _ hr
  have h3 : ∀ (k : Nat) (fr : List Nat) (g : Graph σ α), P g → P (backupLoop c k fr g) := by
    intro k
    induction k with
    | zero => intro fr g hg; exact hg
    | succ k ih =>
      intro fr g hg
      unfold backupLoop
      split
      · exact hg
      · exact ih _ _ (h2 _ _ hg)
  have h4 : ∀ (l : List Nat) (g : Graph σ α), P g → P (l.foldl (pruneValue c mr) g) := by
    intro l
    induction l with
    | nil => intro g hg; exact hg
    | cons x l ih => intro g hg; exact ih _ (hv _ _ hg)
  exact h3 _ _ _ (h4 _ _ h)

theorem pruneValue_bare (c : Config σ κ) (mr : Option Rat) (g : Graph σ α) (i : Nat) : (pruneValue c mr g i).map bare = g.map bare := by
  unfold pruneValue
  refine map_modify_of bare (fun n => ?_) _ _
  split <;> rfl

theorem pruneValue_best {c : Config σ κ} {mr : Option Rat} {g : Graph σ α} {i : Nat} (h : BestOk g) : BestOk (pruneValue c mr g i) := by
  unfold pruneValue
  refine h.modify (fun n => ?_) _
  split <;> exact ⟨rfl, rfl⟩

theorem backupValues_bare (c : Config σ κ) (mr : Option Rat) (fr : List Nat) (g : Graph σ α) : (backupValues c mr fr g).map bare = g.map bare :=
  backup_ind (fun g' => g'.map bare = g.map bare) c mr (fun g' p h => by rw [backupParent_bare]; exact h)
    (fun g' i h => by rw [pruneValue_bare]; exact h) fr g rfl

theorem backupValues_best {c : Config σ κ} {mr : Option Rat} {fr : List Nat} {g : Graph σ α} (h : BestOk g) : BestOk (backupValues c mr fr g) :=
  backup_ind BestOk c mr (fun _ _ h => backupParent_best h) (fun _ _ h => pruneValue_best h) fr g h

theorem updateNode_bare (c : Config σ κ) (st : St σ α φ) (i : Nat) (b : Bool) : (updateNode c st i b).graph.map bare = st.graph.map bare := by
  unfold updateNode
  simp only [backupValues_bare]
  refine map_modify_of bare (fun n => ?_) _ _
  rfl

theorem updateNode_best {c : Config σ κ} {st : St σ α φ} {i : Nat} {b : Bool} (h : BestOk st.graph) : BestOk (updateNode c st i b).graph := by
  unfold updateNode
  refine backupValues_best (h.modify (fun n => ?_) _)
  exact ⟨rfl, rfl⟩

/-! ### True graphs -/

/-- The graph tells the truth about the domain. -/
structure True' (d : Domain σ α φ) (key : σ → κ) (g : Graph σ α) : Prop where
  keys : ∀ (i j : Nat) (n m : Node σ α), g[i]? = some n → g[j]? = some m → key n.state = key m.state → i = j
  kids : ∀ (i : Nat) (n : Node σ α), g[i]? = some n → n.children = [] ∨ n.children.map (·.1) = d.actions n.state
  edge : ∀ (i : Nat) (n : Node σ α) (k : Nat) (a : α) (r : Rat) (j : Nat), g[i]? = some n → n.children[k]? = some (a, r, some j) →
    r = d.reward n.state a ∧ ∃ m : Node σ α, g[j]? = some m ∧ key m.state = key (d.next n.state a) ∧ i ∈ m.parents
  back : ∀ (i j : Nat) (m : Node σ α), g[j]? = some m → i ∈ m.parents → ∃ (n : Node σ α) (k : Nat) (a : α) (r : Rat), g[i]? = some n ∧ n.children[k]? = some (a, r, some j)

theorem True'.of_skel {d : Domain σ α φ} {key : σ → κ} {g g' : Graph σ α} (h : True' d key g) (hs : g'.map skel = g.map skel) : True' d key g' := by
  have hs' := hs.symm
  have hback : ∀ {i : Nat} {n : Node σ α}, g[i]? = some n → ∃ n', g'[i]? = some n' ∧ skel n = skel n' := fun hn => map_get hs' hn
  have hf : ∀ {n n' : Node σ α}, skel n = skel n' → n.state = n'.state ∧ n.children = n'.children ∧ n.parents = n'.parents := by
    intro n n' hh
    simp only [skel, Prod.mk.injEq] at hh
    exact hh
  refine ⟨?_, ?_, ?_, ?_⟩
  · intro i j n m hn hm hk
    obtain ⟨n0, hn0, e1⟩ := map_get hs hn
    obtain ⟨m0, hm0, e2⟩ := map_get hs hm
    rw [(hf e1).1, (hf e2).1] at hk
    exact h.keys i j n0 m0 hn0 hm0 hk
  · intro i n hn
    obtain ⟨n0, hn0, e1⟩ := map_get hs hn
    rw [(hf e1).1, (hf e1).2.1]
    exact h.kids i n0 hn0
  · intro i n k a r j hn hc
    obtain ⟨n0, hn0, e1⟩ := map_get hs hn
    rw [(hf e1).2.1] at hc
    obtain ⟨hr, m0, hm0, hk, hp⟩ := h.edge i n0 k a r j hn0 hc
    obtain ⟨m, hm, e2⟩ := hback hm0
    rw [(hf e1).1]
    exact ⟨hr, m, hm, by rw [← (hf e2).1]; exact hk, by rw [← (hf e2).2.2]; exact hp⟩
  · intro i j m hm hi
    obtain ⟨m0, hm0, e2⟩ := map_get hs hm
    rw [(hf e2).2.2] at hi
    obtain ⟨n0, k, a, r, hn0, hc⟩ := h.back i j m0 hm0 hi
    obtain ⟨n, hn, e1⟩ := hback hn0
    exact ⟨n, k, a, r, hn, by rw [← (hf e1).2.1]; exact hc⟩

theorem True'.nil (d : Domain σ α φ) (key : σ → κ) : True' d key [] := by
  refine ⟨?_, ?_, ?_, ?_⟩ <;> intros <;> simp_all

theorem mem_insertNew {l : List Nat} {x y : Nat} : y ∈ insertNew l x ↔ y ∈ l ∨ y = x := by
  unfold insertNew
  split
  · constructor
    · exact Or.inl
    · rintro (h | rfl)
      · exact h
      · assumption
  · simp

theorem True'.expand {d : Domain σ α φ} {key : σ → κ} {g : Graph σ α} (h : True' d key g) (i : Nat) : True' d key (expand d g i) := by
  have hget : ∀ {j : Nat} {n : Node σ α}, (Riw.expand d g i)[j]? = some n → ∃ n0, g[j]? = some n0 ∧ n.state = n0.state ∧ n.parents = n0.parents ∧
      (n.children = n0.children ∨ (n0.children = [] ∧ n.children = (d.actions n0.state).map fun a => (a, 0, none))) := by
    intro j n hn
    unfold Riw.expand at hn
    rw [getElem?_modify'] at hn
    cases hg : g[j]? with
    | none => rw [hg] at hn; simp at hn
    | some m =>
      rw [hg] at hn
      simp only [Option.map_some, Option.some.injEq] at hn
      subst hn
      refine ⟨m, rfl, ?_⟩
      split
      · split
        · rename_i he
          exact ⟨rfl, rfl, Or.inr ⟨by simpa using he, rfl⟩⟩
        · exact ⟨rfl, rfl, Or.inl rfl⟩
      · exact ⟨rfl, rfl, Or.inl rfl⟩
  have hput : ∀ {j : Nat} {n0 : Node σ α}, g[j]? = some n0 → ∃ n, (Riw.expand d g i)[j]? = some n ∧ n.state = n0.state ∧ n.parents = n0.parents ∧
      (n.children = n0.children ∨ n0.children = []) := by
    intro j n0 hn
    unfold Riw.expand
    rw [getElem?_modify', hn]
    refine ⟨_, rfl, ?_⟩
    by_cases hij : i = j
    · by_cases he : n0.children = []
      · simp [hij, he]
      · simp [hij, he]
    · simp [hij]
  refine ⟨?_, ?_, ?_, ?_⟩
  · intro i j n m hn hm hk
    obtain ⟨n0, hn0, e1, _⟩ := hget hn
    obtain ⟨m0, hm0, e2, _⟩ := hget hm
    rw [e1, e2] at hk
    exact h.keys i j n0 m0 hn0 hm0 hk
  · intro i n hn
    obtain ⟨n0, hn0, e1, _, e3⟩ := hget hn
    rcases e3 with e3 | ⟨_, e3⟩
    · rw [e1, e3]; exact h.kids i n0 hn0
    · right; rw [e3, e1]; simp [List.map_map, Function.comp_def]
  · intro i n k a r j hn hc
    obtain ⟨n0, hn0, e1, _, e3⟩ := hget hn
    rcases e3 with e3 | ⟨_, e3⟩
    · rw [e3] at hc
      obtain ⟨hr, m0, hm0, hk, hp⟩ := h.edge i n0 k a r j hn0 hc
      obtain ⟨m, hm, e4, e5, _⟩ := hput hm0
      rw [e1]
      exact ⟨hr, m, hm, by rw [e4]; exact hk, by rw [e5]; exact hp⟩
    · rw [e3, List.getElem?_map] at hc
      cases hh : (d.actions n0.state)[k]? with
      | none => rw [hh] at hc; simp at hc
      | some x => rw [hh] at hc; simp at hc
  · intro i j m hm hi
    obtain ⟨m0, hm0, _, e2, _⟩ := hget hm
    rw [e2] at hi
    obtain ⟨n0, k, a, r, hn0, hc⟩ := h.back i j m0 hm0 hi
    obtain ⟨n, hn, _, _, e3⟩ := hput hn0
    rcases e3 with e3 | e3
    · exact ⟨n, k, a, r, hn, by rw [e3]; exact hc⟩
    · rw [e3] at hc; simp at hc

theorem lowerMin_graph (st : St σ α φ) (r : Rat) : (lowerMin st r).graph = st.graph := by
  unfold lowerMin; split <;> (try split) <;> rfl

theorem terminalMin_graph (st : St σ α φ) (t : Bool) : (terminalMin st t).graph = st.graph := by
  unfold terminalMin; split <;> split <;> rfl

/-- An edge from node `i` to node `j`, as the child at position `k`. -/
def link (g : Graph σ α) (i k j : Nat) (a : α) (r : Rat) (dep : Nat) : Graph σ α :=
  (g.modify i fun n => { n with children := n.children.set k (a, r, some j) }).modify j
    fun m => { m with parents := insertNew m.parents i, depth := min m.depth dep }

theorem link_get {g : Graph σ α} {i k j : Nat} {a : α} {r : Rat} {dep x : Nat} :
    (link g i k j a r dep)[x]? = (g[x]?).map fun n => { n with
      children := if i = x then n.children.set k (a, r, some j) else n.children
      parents := if j = x then insertNew n.parents i else n.parents
      depth := if j = x then min n.depth dep else n.depth } := by
  unfold link
  rw [getElem?_modify', getElem?_modify', Option.map_map]
  congr 1
  funext n
  by_cases h1 : i = x <;> by_cases h2 : j = x <;> simp [h1, h2]

theorem True'.link {d : Domain σ α φ} {key : σ → κ} {g : Graph σ α} (h : True' d key g) {i k j : Nat} {a : α} {r0 : Rat} {n m : Node σ α} {dep : Nat}
    (hn : g[i]? = some n) (hk : n.children[k]? = some (a, r0, none)) (hm : g[j]? = some m) (hkey : key m.state = key (d.next n.state a)) :
    True' d key (link g i k j a (d.reward n.state a) dep) := by
  have hget : ∀ {x : Nat} {q : Node σ α}, (Riw.link g i k j a (d.reward n.state a) dep)[x]? = some q → ∃ q0, g[x]? = some q0 ∧ q.state = q0.state ∧
      q.children = (if i = x then q0.children.set k (a, d.reward n.state a, some j) else q0.children) ∧
      q.parents = (if j = x then insertNew q0.parents i else q0.parents) := by
    intro x q hq
    rw [link_get] at hq
    cases hg : g[x]? with
    | none => rw [hg] at hq; simp at hq
    | some q0 =>
      rw [hg] at hq
      simp only [Option.map_some, Option.some.injEq] at hq
      subst hq
      exact ⟨q0, rfl, rfl, rfl, rfl⟩
  have hput : ∀ {x : Nat} {q0 : Node σ α}, g[x]? = some q0 → ∃ q, (Riw.link g i k j a (d.reward n.state a) dep)[x]? = some q ∧ q.state = q0.state ∧
      q.children = (if i = x then q0.children.set k (a, d.reward n.state a, some j) else q0.children) ∧
      q.parents = (if j = x then insertNew q0.parents i else q0.parents) := by
    intro x q0 hq
    rw [link_get, hq]
    exact ⟨_, rfl, rfl, rfl, rfl⟩
  have hklt : k < n.children.length := by
    rcases Nat.lt_or_ge k n.children.length with h | h
    · exact h
    · rw [List.getElem?_eq_none h] at hk; simp at hk
  refine ⟨?_, ?_, ?_, ?_⟩
  · intro x y q p hq hp hkk
    obtain ⟨q0, hq0, e1, _⟩ := hget hq
    obtain ⟨p0, hp0, e2, _⟩ := hget hp
    rw [e1, e2] at hkk
    exact h.keys x y q0 p0 hq0 hp0 hkk
  · intro x q hq
    obtain ⟨q0, hq0, e1, e2, _⟩ := hget hq
    rw [e1, e2]
    split
    · rename_i hix
      subst hix
      rw [hn] at hq0
      cases hq0
      rcases h.kids i n hn with h0 | h0
      · rw [h0] at hk; simp at hk
      · right
        rw [List.map_set, h0]
        apply List.ext_getElem?
        intro y
        rw [List.getElem?_set]
        split
        · rename_i hky
          subst hky
          have : (n.children.map (·.1))[k]? = some a := by rw [List.getElem?_map, hk]; rfl
          rw [h0] at this
          rw [this]
          have hlt := (List.getElem?_eq_some_iff.mp this).1
          simp [hlt]
        · rfl
    · exact h.kids x q0 hq0
  · intro x q y b s z hq hc
    obtain ⟨q0, hq0, e1, e2, _⟩ := hget hq
    rw [e2] at hc
    have hold : q0.children[y]? = some (b, s, some z) → s = d.reward q.state b ∧ ∃ m' : Node σ α, (Riw.link g i k j a (d.reward n.state a) dep)[z]? = some m' ∧
        key m'.state = key (d.next q.state b) ∧ x ∈ m'.parents := by
      intro hc
      obtain ⟨hr, p0, hp0, hkk, hpp⟩ := h.edge x q0 y b s z hq0 hc
      obtain ⟨p, hp, f1, _, f3⟩ := hput hp0
      rw [e1]
      refine ⟨hr, p, hp, by rw [f1]; exact hkk, ?_⟩
      rw [f3]
      split
      · rw [mem_insertNew]; exact Or.inl hpp
      · exact hpp
    by_cases hix : i = x
    · rw [if_pos hix, List.getElem?_set] at hc
      by_cases hky : k = y
      · rw [if_pos hky] at hc
        subst hix
        rw [hn] at hq0
        cases hq0
        rw [if_pos hklt] at hc
        simp only [Option.some.injEq, Prod.mk.injEq] at hc
        obtain ⟨c1, c2, c3⟩ := hc
        subst c1 c2 c3
        obtain ⟨p, hp, f1, _, f3⟩ := hput hm
        rw [e1]
        refine ⟨rfl, p, hp, by rw [f1]; exact hkey, ?_⟩
        rw [f3, if_pos rfl, mem_insertNew]
        exact Or.inr rfl
      · rw [if_neg hky] at hc
        exact hold hc
    · rw [if_neg hix] at hc
      exact hold hc
  · intro x y p hp hx
    obtain ⟨p0, hp0, e1, _, e3⟩ := hget hp
    have hold : x ∈ p0.parents → ∃ (q : Node σ α) (k' : Nat) (b : α) (s : Rat), (Riw.link g i k j a (d.reward n.state a) dep)[x]? = some q ∧ q.children[k']? = some (b, s, some y) := by
      intro hx
      obtain ⟨q0, k', b, s, hq0, hc⟩ := h.back x y p0 hp0 hx
      obtain ⟨q, hq, _, f2, _⟩ := hput hq0
      refine ⟨q, k', b, s, hq, ?_⟩
      rw [f2]
      split
      · rename_i hix
        subst hix
        rw [hn] at hq0
        cases hq0
        rw [List.getElem?_set]
        split
        · rename_i hkk
          rw [← hkk, hk] at hc
          simp at hc
        · exact hc
      · exact hc
    rw [e3] at hx
    split at hx
    · rename_i hjy
      rw [mem_insertNew] at hx
      rcases hx with hx | hx
      · exact hold hx
      · subst hx
        subst hjy
        obtain ⟨q, hq, _, f2, _⟩ := hput hn
        refine ⟨q, k, a, d.reward n.state a, hq, ?_⟩
        rw [f2, if_pos rfl, List.getElem?_set, if_pos rfl, if_pos hklt]
    · exact hold hx

theorem True'.append {d : Domain σ α φ} {key : σ → κ} {g : Graph σ α} (h : True' d key g) {n0 : Node σ α} (h1 : n0.children = []) (h2 : n0.parents = [])
    (hfresh : ∀ (i : Nat) (n : Node σ α), g[i]? = some n → key n.state ≠ key n0.state) : True' d key (g ++ [n0]) := by
  have hget : ∀ {x : Nat} {q : Node σ α}, (g ++ [n0])[x]? = some q → g[x]? = some q ∨ (x = g.length ∧ q = n0) := by
    intro x q hq
    rw [List.getElem?_append] at hq
    split at hq
    · exact Or.inl hq
    · right
      have : x - g.length = 0 := by
        rcases Nat.eq_zero_or_pos (x - g.length) with h | h
        · exact h
        · rw [List.getElem?_eq_none (by simp; omega)] at hq; simp at hq
      rw [this] at hq
      simp at hq
      exact ⟨by omega, hq.symm⟩
  have hput : ∀ {x : Nat} {q : Node σ α}, g[x]? = some q → (g ++ [n0])[x]? = some q := by
    intro x q hq
    have := (List.getElem?_eq_some_iff.mp hq).1
    rw [List.getElem?_append_left this]
    exact hq
  refine ⟨?_, ?_, ?_, ?_⟩
  · intro x y q p hq hp hkk
    rcases hget hq with hq | ⟨hx, hq'⟩ <;> rcases hget hp with hp | ⟨hy, hp'⟩
    · exact h.keys x y q p hq hp hkk
    · rw [hp'] at hkk; exact absurd hkk (hfresh x q hq)
    · rw [hq'] at hkk; exact absurd hkk.symm (hfresh y p hp)
    · omega
  · intro x q hq
    rcases hget hq with hq | ⟨hx, rfl⟩
    · exact h.kids x q hq
    · exact Or.inl h1
  · intro x q k a r j hq hc
    rcases hget hq with hq | ⟨hx, rfl⟩
    · obtain ⟨hr, m, hm, hh⟩ := h.edge x q k a r j hq hc
      exact ⟨hr, m, hput hm, hh⟩
    · rw [h1] at hc; simp at hc
  · intro x y m hm hx
    rcases hget hm with hm | ⟨_, rfl⟩
    · obtain ⟨n, k, a, r, hn, hc⟩ := h.back x y m hm hx
      exact ⟨n, k, a, r, hput hn, hc⟩
    · rw [h2] at hx; simp at hx

/-- The new node of a first visit, before it is linked to its parent. -/
def newNode (d : Domain σ α φ) (n : Node σ α) (a : α) : Node σ α :=
  { state := d.next n.state a, depth := n.depth + 1, terminal := d.terminal n.state a }

theorem append_link {d : Domain σ α φ} {g : Graph σ α} {i k : Nat} {a : α} {r : Rat} {n : Node σ α} (hi : i < g.length) :
    (g.modify i fun m => { m with children := m.children.set k (a, r, some g.length) }) ++
      [{ state := d.next n.state a, parents := [i], depth := n.depth + 1, terminal := d.terminal n.state a }] =
    link (g ++ [newNode d n a]) i k g.length a r (n.depth + 1) := by
  unfold link
  apply List.ext_getElem?
  intro x
  rw [getElem?_modify', getElem?_modify']
  rcases Nat.lt_trichotomy x g.length with hx | hx | hx
  · rw [List.getElem?_append_left (by simpa using hx), List.getElem?_append_left hx, getElem?_modify']
    have : ¬ g.length = x := by omega
    simp [this, Function.comp_def]
  · subst hx
    have : ¬ i = g.length := by omega
    rw [List.getElem?_append_right (by simp), List.getElem?_append_right (by simp)]
    simp [newNode, insertNew, this]
  · rw [List.getElem?_eq_none (by simp; omega), List.getElem?_eq_none (by simp; omega)]
    rfl

/-- What a visit of a child changes in the graph. -/
theorem fillChild_cases [DecidableEq κ] (d : Domain σ α φ) (c : Config σ κ) (st : St σ α φ) (i k : Nat) {n : Node σ α} {a : α} {r : Rat} {o : Option Nat}
    (hn : st.graph[i]? = some n) (hk : n.children[k]? = some (a, r, o)) :
    (∃ j, o = some j ∧ (fillChild d c st i k).2 = (j, false) ∧
      (fillChild d c st i k).1 = { st with graph := st.graph.modify j fun m => { m with depth := min m.depth (n.depth + 1) } }) ∨
    (o = none ∧ ∃ j, locate c.key st.graph (d.next n.state a) = some j ∧ (fillChild d c st i k).2 = (j, false) ∧
      (fillChild d c st i k).1 = lowerMin { st with graph := link st.graph i k j a (d.reward n.state a) (n.depth + 1) } (d.reward n.state a)) ∨
    (o = none ∧ locate c.key st.graph (d.next n.state a) = none ∧ (fillChild d c st i k).2 = (st.graph.length, true) ∧
      (fillChild d c st i k).1 = terminalMin (lowerMin { st with graph := link (st.graph ++ [newNode d n a]) i k st.graph.length a (d.reward n.state a) (n.depth + 1) }
        (d.reward n.state a)) (d.terminal n.state a)) := by
  cases o with
  | some j => left; exact ⟨j, rfl, by simp [fillChild, hn, hk], by simp [fillChild, hn, hk]⟩
  | none =>
    right
    cases hl : locate c.key st.graph (d.next n.state a) with
    | some j =>
      left
      refine ⟨rfl, j, rfl, by simp [fillChild, hn, hk, hl], ?_⟩
      simp [fillChild, hn, hk, hl, link]
    | none =>
      right
      refine ⟨rfl, rfl, by simp [fillChild, hn, hk, hl], ?_⟩
      simp [fillChild, hn, hk, hl, append_link (k := k) (a := a) (r := d.reward n.state a) (d := d) (n := n) (List.getElem?_eq_some_iff.mp hn).1]

theorem True'.fill [DecidableEq κ] {d : Domain σ α φ} {c : Config σ κ} {st : St σ α φ} (h : True' d c.key st.graph) (i k : Nat) : True' d c.key (fillChild d c st i k).1.graph := by
  cases hn : st.graph[i]? with
  | none => simpa [fillChild, hn] using h
  | some n =>
    cases hk : n.children[k]? with
    | none => simpa [fillChild, hn, hk] using h
    | some x =>
      obtain ⟨a, r, o⟩ := x
      rcases fillChild_cases d c st i k hn hk with ⟨j, rfl, _, e⟩ | ⟨rfl, j, hl, _, e⟩ | ⟨rfl, hl, _, e⟩
      · rw [e]
        refine h.of_skel (map_modify_of skel (fun m => ?_) _ _)
        rfl
      · rw [e, lowerMin_graph]
        obtain ⟨m, hm, hkey⟩ := locate_some hl
        exact h.link hn hk hm hkey
      · rw [e, terminalMin_graph, lowerMin_graph]
        have hi := (List.getElem?_eq_some_iff.mp hn).1
        refine (h.append rfl rfl fun i n hn => locate_none hl hn).link (m := newNode d n a) (r0 := r) (n := n) ?_ hk ?_ rfl
        · rw [List.getElem?_append_left hi]; exact hn
        · simp

theorem BestOk.fill [DecidableEq κ] {d : Domain σ α φ} {c : Config σ κ} {st : St σ α φ} (h : BestOk st.graph) (i k : Nat) : BestOk (fillChild d c st i k).1.graph := by
  have hlink : ∀ (g : Graph σ α) (j : Nat) (a : α) (r : Rat) (dep : Nat), BestOk g → BestOk (link g i k j a r dep) := by
    intro g j a r dep hg x q y hq hb
    rw [link_get] at hq
    cases hx : g[x]? with
    | none => rw [hx] at hq; simp at hq
    | some q0 =>
      rw [hx] at hq
      simp only [Option.map_some, Option.some.injEq] at hq
      subst hq
      obtain ⟨b, s, z, hc⟩ := hg x q0 y hx hb
      dsimp only
      split
      · rw [List.getElem?_set]
        split
        · rename_i hky
          subst hky
          rw [if_pos (List.getElem?_eq_some_iff.mp hc).1]
          exact ⟨_, _, _, rfl⟩
        · exact ⟨b, s, z, hc⟩
      · exact ⟨b, s, z, hc⟩
  cases hn : st.graph[i]? with
  | none => simpa [fillChild, hn] using h
  | some n =>
    cases hk : n.children[k]? with
    | none => simpa [fillChild, hn, hk] using h
    | some x =>
      obtain ⟨a, r, o⟩ := x
      rcases fillChild_cases d c st i k hn hk with ⟨j, rfl, _, e⟩ | ⟨rfl, j, hl, _, e⟩ | ⟨rfl, hl, _, e⟩
      · rw [e]
        refine h.modify (fun m => ?_) _
        exact ⟨rfl, rfl⟩
      · rw [e, lowerMin_graph]
        exact hlink _ _ _ _ _ h
      · rw [e, terminalMin_graph, lowerMin_graph]
        refine hlink _ _ _ _ _ ?_
        intro x q y hq hb
        rw [List.getElem?_append] at hq
        split at hq
        · exact h x q y hq hb
        · have := List.mem_of_getElem? hq
          simp at this
          subst this
          simp [newNode] at hb

end Verif.Riw
