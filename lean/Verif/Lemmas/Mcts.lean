import Verif.Model.Mcts
import Mathlib.Tactic.Linarith
import Mathlib.Tactic.FieldSimp
import Mathlib.Tactic.Ring
import Mathlib.Algebra.BigOperators.Group.List.Basic
import Mathlib.Algebra.Order.BigOperators.Group.List

/-! Invariants of the model of the Monte Carlo tree search. -/
set_option linter.unusedSectionVars false
namespace Verif.Mcts
variable {σ Act F : Type} [DecidableEq σ] [DecidableEq Act] [Field F] [LinearOrder F] {p : Problem σ Act F} {st st' : St σ Act F} {s t u : σ} {a b : Act}

/-! ### The tables -/

/-- The state has a node. -/
def St.has (st : St σ Act F) (s : σ) : Prop := s ∈ Dict.keys st.graph

theorem contains_iff_has : Dict.contains st.graph s = true ↔ st.has s := by
  rw [Dict.contains_iff, Dict.get?_isSome_iff_mem_keys, St.has]

theorem node_setNode (n : Node σ Act F) : (st.setNode s n).node t = if t = s then n else st.node t := by
  rw [St.node, St.setNode, Dict.get?_set]
  split <;> rfl

theorem act_setNode (n : Node σ Act F) : (st.setNode s n).act t b = st.act t b := rfl

theorem node_setAct (n : ANode σ F) : (st.setAct s a n).node t = st.node t := rfl

theorem act_setAct (n : ANode σ F) : (st.setAct s a n).act t b = if t = s ∧ b = a then n else st.act t b := by
  rw [St.act, St.setAct, Dict.get?_set]
  by_cases h : t = s ∧ b = a
  · rw [if_pos h, if_pos (by rw [h.1, h.2])]; rfl
  · rw [if_neg h, if_neg (by simpa [Prod.mk.injEq] using h)]; rfl

theorem has_setNode (n : Node σ Act F) : (st.setNode s n).has t ↔ t = s ∨ st.has t := by
  rw [St.has, St.setNode, Dict.keys_set, St.has]
  split
  · rename_i h
    constructor
    · exact .inr
    · rintro (rfl | h')
      · exact h
      · exact h'
  · simp only [List.mem_append, List.mem_singleton]
    tauto

theorem has_setAct (n : ANode σ F) : (st.setAct s a n).has t ↔ st.has t := Iff.rfl

theorem node_of_not_has (h : ¬ st.has s) : st.node s = ⟨false, false, [], 0, 0, []⟩ := by
  have : Dict.get? st.graph s = none := by
    cases hg : Dict.get? st.graph s with
    | none => rfl
    | some v => exact absurd ((Dict.get?_isSome_iff_mem_keys _ _).1 (by rw [hg]; rfl)) h
  rw [St.node, this]; rfl

theorem node_emplace : (st.emplace s).node t = st.node t := by
  rw [St.emplace]
  split
  · rfl
  · rename_i h
    rw [node_setNode]
    split
    · rename_i hts
      subst hts
      rw [node_of_not_has (fun hh => h (contains_iff_has.2 hh))]
    · rfl

theorem act_emplace : (st.emplace s).act t b = st.act t b := by
  rw [St.emplace]
  split <;> rfl

theorem has_emplace : (st.emplace s).has t ↔ t = s ∨ st.has t := by
  rw [St.emplace]
  split
  · rename_i h
    have := contains_iff_has.1 h
    constructor
    · exact .inr
    · rintro (rfl | h')
      · exact this
      · exact h'
  · exact has_setNode _

theorem pick_mem {α : Type} {k : Nat} {l : List α} {x : α} (h : pick p k l = some x) : x ∈ l := by
  cases l with
  | nil => cases h
  | cons y l => exact List.mem_of_getElem? h

theorem pick_none {α : Type} {k : Nat} {l : List α} (h : pick p k l = none) : l = [] := by
  cases l with
  | nil => rfl
  | cons y l =>
    exfalso
    have := List.getElem?_eq_none_iff.1 (show (y :: l)[p.draws k % (y :: l).length]? = none from h)
    have h2 := Nat.mod_lt (p.draws k) (show 0 < (y :: l).length by simp)
    omega

/-! ### Growth -/

/-- What never gets less. -/
structure Ext (st st' : St σ Act F) : Prop where
  has : ∀ s, st.has s → st'.has s
  terminal : ∀ s, st.has s → (st'.node s).terminal = (st.node s).terminal
  expanded : ∀ s, (st.node s).expanded = true → (st'.node s).expanded = true
  actions : ∀ s, (st.node s).actions = [] ∨ (st'.node s).actions = (st.node s).actions
  visits : ∀ s, (st.node s).visits ≤ (st'.node s).visits
  parents : ∀ s x, x ∈ (st.node s).parents → x ∈ (st'.node s).parents
  outcomes : ∀ s a, (st.act s a).outcomes = [] ∨ (st'.act s a).outcomes = (st.act s a).outcomes
  tried : ∀ s a, (st.act s a).visits ≤ (st'.act s a).visits

theorem Ext.refl (st : St σ Act F) : Ext st st :=
  ⟨fun _ h => h, fun _ _ => rfl, fun _ h => h, fun _ => .inr rfl, fun _ => Nat.le_refl _, fun _ _ h => h, fun _ _ => .inr rfl, fun _ _ => Nat.le_refl _⟩

theorem Ext.trans {st₁ st₂ st₃ : St σ Act F} (h : Ext st₁ st₂) (h' : Ext st₂ st₃) : Ext st₁ st₃ where
  has s hs := h'.has s (h.has s hs)
  terminal s hs := (h'.terminal s (h.has s hs)).trans (h.terminal s hs)
  expanded s hs := h'.expanded s (h.expanded s hs)
  actions s := by
    rcases h.actions s with h1 | h1
    · exact .inl h1
    · rcases h'.actions s with h2 | h2
      · exact .inl (h1 ▸ h2)
      · exact .inr (h2.trans h1)
  visits s := (h.visits s).trans (h'.visits s)
  parents s x hx := h'.parents s x (h.parents s x hx)
  outcomes s a := by
    rcases h.outcomes s a with h1 | h1
    · exact .inl h1
    · rcases h'.outcomes s a with h2 | h2
      · exact .inl (h1 ▸ h2)
      · exact .inr (h2.trans h1)
  tried s a := (h.tried s a).trans (h'.tried s a)

theorem Ext.mem {st st' : St σ Act F} (h : Ext st st') (ht : t ∈ (st.act s a).outcomes) : t ∈ (st'.act s a).outcomes := by
  rcases h.outcomes s a with h1 | h1
  · rw [h1] at ht; cases ht
  · rw [h1]; exact ht

/-- The graph is the same but for values and visits, which only grow. -/
structure Grow (st st' : St σ Act F) : Prop where
  has : ∀ s, st'.has s ↔ st.has s
  node : ∀ s, st'.node s = { st.node s with value := (st'.node s).value, visits := (st'.node s).visits }
  visits : ∀ s, (st.node s).visits ≤ (st'.node s).visits
  act : ∀ s a, st'.act s a = { st.act s a with value := (st'.act s a).value, visits := (st'.act s a).visits }
  tried : ∀ s a, (st.act s a).visits ≤ (st'.act s a).visits

theorem Grow.refl (st : St σ Act F) : Grow st st := ⟨fun _ => Iff.rfl, fun _ => rfl, fun _ => Nat.le_refl _, fun _ _ => rfl, fun _ _ => Nat.le_refl _⟩

theorem Grow.trans {st₁ st₂ st₃ : St σ Act F} (h : Grow st₁ st₂) (h' : Grow st₂ st₃) : Grow st₁ st₃ where
  has s := (h'.has s).trans (h.has s)
  node s := by rw [h'.node s, h.node s]
  visits s := (h.visits s).trans (h'.visits s)
  act s a := by rw [h'.act s a, h.act s a]
  tried s a := (h.tried s a).trans (h'.tried s a)

theorem Grow.ext (h : Grow st st') : Ext st st' where
  has s hs := (h.has s).2 hs
  terminal s _ := by rw [h.node s]
  expanded s hs := by rw [h.node s]; exact hs
  actions s := .inr (by rw [h.node s])
  visits := h.visits
  parents s x hx := by rw [h.node s]; exact hx
  outcomes s a := .inr (by rw [h.act s a])
  tried := h.tried

/-! ### The invariant -/

/-- `ex`: the action that has just been expanded and not yet counted. -/
structure Inv (p : Problem σ Act F) (ex : Option (σ × Act)) (st : St σ Act F) : Prop where
  actions : ∀ s, (st.node s).actions = [] ∨ (st.node s).actions = p.actions s
  outcomes : ∀ s a, (st.act s a).outcomes = [] ∨ (st.act s a).outcomes = p.dist s a
  mem : ∀ s a, (st.act s a).outcomes ≠ [] → a ∈ (st.node s).actions
  link : ∀ s a t, t ∈ (st.act s a).outcomes ↔ (s, a) ∈ (st.node t).parents
  has : ∀ s a t, t ∈ (st.act s a).outcomes → st.has t
  expanded : ∀ s, (st.node s).expanded = true → (st.node s).actions = p.actions s ∧
    ∀ a ∈ (st.node s).actions, (st.act s a).outcomes ≠ [] ∧ ∀ t ∈ (st.act s a).outcomes, 0 < (st.node t).visits
  visited : ∀ s a, (st.act s a).outcomes ≠ [] → 0 < (st.act s a).visits ∨ ex = some (s, a)
  known : ∀ s a, 0 < (st.act s a).visits → (st.act s a).outcomes ≠ []
  terminal : ∀ s, (st.node s).terminal = true → p.terminal s = true

theorem empty_inv : Inv p none (St.empty : St σ Act F) := by
  have h1 : ∀ s, (St.empty : St σ Act F).node s = ⟨false, false, [], 0, 0, []⟩ := fun _ => rfl
  have h2 : ∀ s a, (St.empty : St σ Act F).act s a = ⟨[], 0, 0⟩ := fun _ _ => rfl
  constructor <;> simp [h1, h2]

theorem Inv.congr {ex : Option (σ × Act)} (h : Inv p ex st) (h1 : ∀ s, st'.node s = st.node s) (h2 : ∀ s a, st'.act s a = st.act s a)
    (h3 : ∀ s, st.has s → st'.has s) : Inv p ex st' where
  actions s := by rw [h1]; exact h.actions s
  outcomes s a := by rw [h2]; exact h.outcomes s a
  mem s a := by rw [h1, h2]; exact h.mem s a
  link s a t := by rw [h1, h2]; exact h.link s a t
  has s a t := by rw [h2]; exact fun hm => h3 _ (h.has s a t hm)
  expanded s := by simp only [h1, h2]; exact h.expanded s
  visited s a := by rw [h2]; exact h.visited s a
  known s a := by rw [h2]; exact h.known s a
  terminal s := by rw [h1]; exact h.terminal s

theorem Inv.emplace {ex : Option (σ × Act)} (h : Inv p ex st) : Inv p ex (st.emplace s) :=
  h.congr (fun _ => node_emplace) (fun _ _ => act_emplace) fun _ hs => has_emplace.2 (.inr hs)

/-- Growing keeps the invariant, if visits are only added to expanded actions. -/
theorem Inv.grow {ex ex' : Option (σ × Act)} (h : Inv p ex st) (hg : Grow st st')
    (hk : ∀ s a, (st.act s a).visits ≠ (st'.act s a).visits → (st.act s a).outcomes ≠ [])
    (hex : ∀ s a, ex = some (s, a) → ex' = some (s, a) ∨ 0 < (st'.act s a).visits) : Inv p ex' st' := by
  have e1 : ∀ s a, (st'.act s a).outcomes = (st.act s a).outcomes := fun s a => by rw [hg.act s a]
  have e2 : ∀ s, (st'.node s).actions = (st.node s).actions := fun s => by rw [hg.node s]
  have e3 : ∀ s, (st'.node s).parents = (st.node s).parents := fun s => by rw [hg.node s]
  have e4 : ∀ s, (st'.node s).expanded = (st.node s).expanded := fun s => by rw [hg.node s]
  have e5 : ∀ s, (st'.node s).terminal = (st.node s).terminal := fun s => by rw [hg.node s]
  refine ⟨fun s => by rw [e2]; exact h.actions s, fun s a => by rw [e1]; exact h.outcomes s a, fun s a => by rw [e1, e2]; exact h.mem s a,
    fun s a t => by rw [e1, e3]; exact h.link s a t, fun s a t => by rw [e1, hg.has]; exact h.has s a t, fun s hs => ?_, fun s a hs => ?_, fun s a hs => ?_,
    fun s => by rw [e5]; exact h.terminal s⟩
  · rw [e4] at hs
    obtain ⟨h1, h2⟩ := h.expanded s hs
    rw [e2]
    refine ⟨h1, fun a ha => ?_⟩
    rw [e1]
    exact ⟨(h2 a ha).1, fun t ht => Nat.lt_of_lt_of_le ((h2 a ha).2 t ht) (hg.visits t)⟩
  · rw [e1] at hs
    rcases h.visited s a hs with h1 | h1
    · exact .inl (Nat.lt_of_lt_of_le h1 (hg.tried s a))
    · exact (hex s a h1).symm
  · rw [e1]
    by_cases he : (st.act s a).visits = (st'.act s a).visits
    · exact h.known s a (by omega)
    · exact hk s a he

/-! ### Expansion -/

/-- What `addOutcome` does to the node of `t`. -/
def reached (p : Problem σ Act F) (s : σ) (a : Act) (st : St σ Act F) (t : σ) : Node σ Act F :=
  if Dict.contains st.graph t then
    { st.node t with parents := if (s, a) ∈ (st.node t).parents then (st.node t).parents else (st.node t).parents ++ [(s, a)] }
  else ⟨p.terminal t, false, [], (p.heuristic t).1, (p.heuristic t).2, [(s, a)]⟩

theorem addOutcome_eq : addOutcome p s a st t = st.setNode t (reached p s a st t) := by
  rw [addOutcome, reached]
  split <;> rfl

theorem mem_reached : (s, a) ∈ (reached p s a st t).parents := by
  rw [reached]
  split
  · simp only
    split
    · assumption
    · simp
  · simp

theorem foldl_addOutcome (l : List σ) (st : St σ Act F) :
    (∀ u, (l.foldl (addOutcome p s a) st).node u = if u ∈ l then reached p s a st u else st.node u) ∧
    (∀ u b, (l.foldl (addOutcome p s a) st).act u b = st.act u b) ∧
    (∀ u, (l.foldl (addOutcome p s a) st).has u ↔ u ∈ l ∨ st.has u) ∧ (l.foldl (addOutcome p s a) st).draw = st.draw := by
  induction l generalizing st with
  | nil => simp
  | cons t l ih =>
    obtain ⟨i1, i2, i3, i4⟩ := ih (addOutcome p s a st t)
    rw [List.foldl_cons]
    refine ⟨fun u => ?_, fun u b => ?_, fun u => ?_, ?_⟩
    · rw [i1]
      by_cases hut : u = t
      · subst hut
        rw [if_pos (List.mem_cons_self)]
        have hn : (addOutcome p s a st u).node u = reached p s a st u := by
          rw [addOutcome_eq, node_setNode, if_pos rfl]
        split
        · have hh : Dict.contains (addOutcome p s a st u).graph u = true := by
            rw [contains_iff_has, addOutcome_eq, has_setNode]; exact .inl rfl
          rw [reached, if_pos hh, hn, if_pos mem_reached]
        · exact hn
      · have hn : (addOutcome p s a st t).node u = st.node u := by
          rw [addOutcome_eq, node_setNode, if_neg hut]
        by_cases hu : u ∈ l
        · rw [if_pos hu, if_pos (List.mem_cons_of_mem _ hu), reached, reached, hn]
          have : Dict.contains (addOutcome p s a st t).graph u = Dict.contains st.graph u := by
            rw [Bool.eq_iff_iff, contains_iff_has, contains_iff_has, addOutcome_eq, has_setNode]
            simp [hut]
          rw [this]
        · rw [if_neg hu, if_neg (by simp [hut, hu]), hn]
    · rw [i2, addOutcome_eq]; rfl
    · rw [i3, addOutcome_eq, has_setNode, List.mem_cons]; tauto
    · rw [i4, addOutcome_eq]; rfl

/-- The state after the outcomes of `(s, a)` have been added. -/
def grown (p : Problem σ Act F) (st : St σ Act F) (s : σ) (a : Act) : St σ Act F :=
  let st := (p.dist s a).foldl (addOutcome p s a) st
  st.setAct s a { st.act s a with outcomes := p.dist s a }

theorem grown_node : (grown p st s a).node u = if u ∈ p.dist s a then reached p s a st u else st.node u := (foldl_addOutcome _ st).1 u

theorem grown_act : (grown p st s a).act u b = if u = s ∧ b = a then { st.act u b with outcomes := p.dist s a } else st.act u b := by
  rw [grown]
  simp only
  rw [act_setAct, (foldl_addOutcome _ st).2.1, (foldl_addOutcome _ st).2.1]
  split
  · rename_i h; rw [h.1, h.2]
  · rfl

theorem grown_has : (grown p st s a).has u ↔ u ∈ p.dist s a ∨ st.has u := (foldl_addOutcome _ st).2.2.1 u

/-- What stays of an existing node, and how a new one begins. -/
theorem reached_spec :
    (st.has t → (reached p s a st t).terminal = (st.node t).terminal ∧ (reached p s a st t).expanded = (st.node t).expanded ∧
      (reached p s a st t).actions = (st.node t).actions ∧ (reached p s a st t).visits = (st.node t).visits ∧ (reached p s a st t).value = (st.node t).value) ∧
    (¬ st.has t → reached p s a st t = ⟨p.terminal t, false, [], (p.heuristic t).1, (p.heuristic t).2, [(s, a)]⟩) ∧
    ∀ x, x ∈ (reached p s a st t).parents ↔ x = (s, a) ∨ x ∈ (st.node t).parents := by
  rw [reached]
  by_cases h : st.has t
  · rw [if_pos (contains_iff_has.2 h)]
    refine ⟨fun _ => ⟨rfl, rfl, rfl, rfl, rfl⟩, fun hn => absurd h hn, fun x => ?_⟩
    simp only
    split
    · constructor
      · exact .inr
      · rintro (rfl | h')
        · assumption
        · exact h'
    · simp only [List.mem_append, List.mem_singleton]; tauto
  · rw [if_neg (fun hc => h (contains_iff_has.1 hc))]
    refine ⟨fun hh => absurd hh h, fun _ => rfl, fun x => ?_⟩
    rw [node_of_not_has h]
    simp

theorem grown_ext (hempty : (st.act s a).outcomes = []) : Ext st (grown p st s a) where
  has u hu := grown_has.2 (.inr hu)
  terminal u hu := by
    rw [grown_node]
    split
    · exact (reached_spec.1 hu).1
    · rfl
  expanded u hu := by
    have hh : st.has u := by
      by_contra hn
      rw [node_of_not_has hn] at hu; cases hu
    rw [grown_node]
    split
    · rw [(reached_spec.1 hh).2.1]; exact hu
    · exact hu
  actions u := by
    by_cases hh : st.has u
    · right
      rw [grown_node]
      split
      · exact (reached_spec.1 hh).2.2.1
      · rfl
    · left; rw [node_of_not_has hh]
  visits u := by
    by_cases hh : st.has u
    · rw [grown_node]
      split
      · exact le_of_eq (reached_spec.1 hh).2.2.2.1.symm
      · exact Nat.le_refl _
    · rw [node_of_not_has hh]; exact Nat.zero_le _
  parents u x hx := by
    rw [grown_node]
    split
    · exact (reached_spec.2.2 x).2 (.inr hx)
    · exact hx
  outcomes u b := by
    rw [grown_act]
    split
    · rename_i h; left; rw [h.1, h.2, hempty]
    · exact .inr rfl
  tried u b := by
    rw [grown_act]
    split <;> exact Nat.le_refl _

theorem grown_inv (h : Inv p none st) (hempty : (st.act s a).outcomes = []) (ha : a ∈ (st.node s).actions) (hd : p.dist s a ≠ []) :
    Inv p (some (s, a)) (grown p st s a) := by
  have hext := grown_ext (p := p) hempty
  have hact : ∀ u, (grown p st s a).node u = (if u ∈ p.dist s a then reached p s a st u else st.node u) := fun u => grown_node
  have hactions : ∀ u, ((grown p st s a).node u).actions = (st.node u).actions := by
    intro u
    by_cases hh : st.has u
    · rw [hact]
      split
      · exact (reached_spec.1 hh).2.2.1
      · rfl
    · rw [hact]
      split
      · rw [reached_spec.2.1 hh, node_of_not_has hh]
      · rfl
  refine ⟨fun u => by rw [hactions]; exact h.actions u, fun u b => ?_, fun u b hb => ?_, fun u b t => ?_, fun u b t ht => ?_, fun u hu => ?_, fun u b hb => ?_,
    fun u b hb => ?_, fun u hu => ?_⟩
  · rw [grown_act]
    split
    · rename_i hub; right; rw [hub.1, hub.2]
    · exact h.outcomes u b
  · rw [hactions]
    rw [grown_act] at hb
    split at hb
    · rename_i hub; rw [hub.1, hub.2]; exact ha
    · exact h.mem u b hb
  · rw [grown_act, hact]
    by_cases hub : u = s ∧ b = a
    · obtain ⟨rfl, rfl⟩ := hub
      rw [if_pos ⟨rfl, rfl⟩]
      simp only
      by_cases ht : t ∈ p.dist u b
      · rw [if_pos ht]
        exact ⟨fun _ => mem_reached, fun _ => ht⟩
      · rw [if_neg ht]
        refine ⟨fun h' => absurd h' ht, fun h' => ?_⟩
        rw [← h.link, hempty] at h'
        cases h'
    · rw [if_neg hub]
      split
      · rw [reached_spec.2.2, h.link]
        constructor
        · exact .inr
        · rintro (h' | h')
          · exact absurd (by simpa using h') hub
          · exact h'
      · exact h.link u b t
  · rw [grown_has]
    rw [grown_act] at ht
    split at ht
    · exact .inl ht
    · exact .inr (h.has u b t ht)
  · have hu' : (st.node u).expanded = true := by
      rw [hact] at hu
      split at hu
      · by_cases hh : st.has u
        · rw [← (reached_spec (p := p) (s := s) (a := a).1 hh).2.1]; exact hu
        · rw [reached_spec.2.1 hh] at hu; cases hu
      · exact hu
    obtain ⟨h1, h2⟩ := h.expanded u hu'
    rw [hactions]
    refine ⟨h1, fun b hb => ?_⟩
    have hne : ¬ (u = s ∧ b = a) := by
      rintro ⟨rfl, rfl⟩
      exact (h2 b hb).1 hempty
    rw [grown_act, if_neg hne]
    exact ⟨(h2 b hb).1, fun t ht => Nat.lt_of_lt_of_le ((h2 b hb).2 t ht) (hext.visits t)⟩
  · rw [grown_act] at hb ⊢
    by_cases hub : u = s ∧ b = a
    · right; rw [hub.1, hub.2]
    · rw [if_neg hub] at hb ⊢
      exact .inl ((h.visited u b hb).resolve_right (by simp))
  · rw [grown_act] at hb ⊢
    by_cases hub : u = s ∧ b = a
    · rw [if_pos hub]
      exact hd
    · rw [if_neg hub] at hb ⊢
      exact h.known u b hb
  · rw [hact] at hu
    split at hu
    · by_cases hh : st.has u
      · rw [(reached_spec.1 hh).1] at hu; exact h.terminal u hu
      · rw [reached_spec.2.1 hh] at hu; exact hu
    · exact h.terminal u hu

theorem expandAction_ok {x : St σ Act F × σ} (h : expandAction p st s a = .ok x) :
    x.1 = { grown p st s a with draw := x.1.draw } ∧ x.2 ∈ p.dist s a := by
  rw [expandAction] at h
  simp only at h
  split at h
  · cases h
  · rename_i t ht
    obtain rfl := Except.ok.inj h
    refine ⟨rfl, ?_⟩
    have := pick_mem ht
    split at this
    · exact this
    · exact (List.mem_filter.1 this).1

/-- `generate` fills the list of actions. -/
theorem generate_spec : (∀ u, (generate p st s).node u = { st.node u with actions := ((generate p st s).node u).actions }) ∧
    (∀ u, ((generate p st s).node u).actions = if u = s ∧ (st.node u).actions = [] then p.actions u else (st.node u).actions) ∧
    (∀ u b, (generate p st s).act u b = st.act u b) ∧ (∀ u, st.has u → (generate p st s).has u) ∧ (generate p st s).draw = st.draw := by
  rw [generate]
  split
  · rename_i hs
    refine ⟨fun u => ?_, fun u => ?_, fun u b => rfl, fun u hu => has_setNode _ |>.2 (.inr hu), rfl⟩
    · rw [node_setNode]
      split
      · rename_i hus; rw [hus]
      · rfl
    · rw [node_setNode]
      by_cases hus : u = s
      · subst hus; rw [if_pos rfl, if_pos ⟨rfl, hs⟩]
      · rw [if_neg hus, if_neg (fun h => hus h.1)]
  · rename_i hs
    refine ⟨fun u => rfl, fun u => ?_, fun _ _ => rfl, fun _ hu => hu, rfl⟩
    split
    · rename_i h; exact absurd (h.1 ▸ h.2) hs
    · rfl

theorem generate_ext : Ext st (generate p st s) := by
  obtain ⟨g1, g2, g3, g4, _⟩ := generate_spec (p := p) (st := st) (s := s)
  exact ⟨g4, fun u _ => by rw [g1], fun u hu => by rw [g1]; exact hu, fun u => by
      rw [g2]
      split
      · rename_i h; exact .inl h.2
      · exact .inr rfl,
    fun u => by rw [g1], fun u x hx => by rw [g1]; exact hx, fun u b => .inr (by rw [g3]), fun u b => by rw [g3]⟩

theorem generate_inv {ex : Option (σ × Act)} (h : Inv p ex st) : Inv p ex (generate p st s) ∧ ((generate p st s).node s).actions = p.actions s := by
  obtain ⟨g1, g2, g3, g4, _⟩ := generate_spec (p := p) (st := st) (s := s)
  have hor : ∀ u, ((generate p st s).node u).actions = (st.node u).actions ∨ (st.node u).actions = [] ∧ ((generate p st s).node u).actions = p.actions u := by
    intro u
    rw [g2]
    split
    · rename_i h; exact .inr ⟨h.2, rfl⟩
    · exact .inl rfl
  constructor
  · refine ⟨fun u => ?_, fun u b => by rw [g3]; exact h.outcomes u b, fun u b hb => ?_, fun u b t => by rw [g3, g1]; exact h.link u b t,
      fun u b t ht => g4 _ (h.has u b t (by rw [← g3]; exact ht)), fun u hu => ?_, fun u b => by rw [g3]; exact h.visited u b, fun u b => by rw [g3]; exact h.known u b, fun u hu => h.terminal u (by rw [g1] at hu; exact hu)⟩
    · rcases hor u with e | e
      · rw [e]; exact h.actions u
      · exact .inr e.2
    · rw [g3] at hb
      have := h.mem u b hb
      rcases hor u with e | e
      · rw [e]; exact this
      · rw [e.1] at this; cases this
    · have hu' : (st.node u).expanded = true := by rw [g1] at hu; exact hu
      obtain ⟨h1, h2⟩ := h.expanded u hu'
      have e : ((generate p st s).node u).actions = (st.node u).actions := by
        rcases hor u with e | e
        · exact e
        · rw [e.2, h1]
      rw [e]
      refine ⟨h1, fun b hb => ?_⟩
      rw [g3]
      exact ⟨(h2 b hb).1, fun t ht => by rw [g1]; exact (h2 b hb).2 t ht⟩
  · rw [g2]
    split
    · rfl
    · rename_i hn
      rcases h.actions s with e | e
      · exact absurd ⟨rfl, e⟩ hn
      · exact e

theorem mem_untried {x : Act × Option σ} : x ∈ untried st s ↔ x.1 ∈ (st.node s).actions ∧
    (((st.act s x.1).outcomes = [] ∧ x.2 = none) ∨ ∃ t ∈ (st.act s x.1).outcomes, (st.node t).visits = 0 ∧ x.2 = some t) := by
  obtain ⟨b, o⟩ := x
  rw [untried, List.mem_flatMap]
  constructor
  · rintro ⟨a, ha, h⟩
    split at h
    · rename_i he
      obtain ⟨rfl, rfl⟩ := Prod.mk.inj (List.mem_singleton.1 h)
      exact ⟨ha, .inl ⟨he, rfl⟩⟩
    · obtain ⟨t, ht, he⟩ := List.mem_map.1 h
      obtain ⟨rfl, rfl⟩ := Prod.mk.inj he
      obtain ⟨h1, h2⟩ := List.mem_filter.1 ht
      exact ⟨ha, .inr ⟨t, h1, of_decide_eq_true h2, rfl⟩⟩
  · rintro ⟨ha, ⟨h1, rfl⟩ | ⟨t, h1, h2, rfl⟩⟩
    · exact ⟨b, ha, by rw [if_pos h1]; simp⟩
    · refine ⟨b, ha, ?_⟩
      rw [if_neg (List.ne_nil_of_mem h1)]
      exact List.mem_map.2 ⟨t, List.mem_filter.2 ⟨h1, decide_eq_true h2⟩, rfl⟩

/-- Values and visits are the same but for new nodes, which begin with the heuristic. -/
structure Keep (p : Problem σ Act F) (st st' : St σ Act F) : Prop where
  node : ∀ u, (st'.node u).value = (st.node u).value ∧ (st'.node u).visits = (st.node u).visits ∨
    ¬ st.has u ∧ (st'.node u).value = (p.heuristic u).1 ∧ (st'.node u).visits = (p.heuristic u).2
  act : ∀ u b, (st'.act u b).value = (st.act u b).value ∧ (st'.act u b).visits = (st.act u b).visits

theorem Keep.refl (st : St σ Act F) : Keep p st st := ⟨fun _ => .inl ⟨rfl, rfl⟩, fun _ _ => ⟨rfl, rfl⟩⟩

theorem Keep.trans {st₁ st₂ st₃ : St σ Act F} (he : Ext st₁ st₂) (h : Keep p st₁ st₂) (h' : Keep p st₂ st₃) : Keep p st₁ st₃ where
  node u := by
    rcases h'.node u with ⟨a1, a2⟩ | ⟨a0, a1, a2⟩
    · rw [a1, a2]; exact h.node u
    · exact .inr ⟨fun hh => a0 (he.has u hh), a1, a2⟩
  act u b := ⟨(h'.act u b).1.trans (h.act u b).1, (h'.act u b).2.trans (h.act u b).2⟩

theorem generate_keep : Keep p st (generate p st s) := by
  obtain ⟨g1, g2, g3, g4, _⟩ := generate_spec (p := p) (st := st) (s := s)
  exact ⟨fun u => .inl (by rw [g1]; exact ⟨rfl, rfl⟩), fun u b => by rw [g3]; exact ⟨rfl, rfl⟩⟩

theorem grown_keep : Keep p st (grown p st s a) := by
  refine ⟨fun u => ?_, fun u b => ?_⟩
  · rw [grown_node]
    split
    · by_cases hh : st.has u
      · obtain ⟨_, _, _, h1, h2⟩ := (reached_spec (p := p) (s := s) (a := a)).1 hh
        exact .inl ⟨h2, h1⟩
      · right
        rw [reached_spec.2.1 hh]
        exact ⟨hh, rfl, rfl⟩
    · exact .inl ⟨rfl, rfl⟩
  · rw [grown_act]
    split <;> exact ⟨rfl, rfl⟩

theorem Inv.weaken {ex : Option (σ × Act)} (h : Inv p none st) : Inv p ex st :=
  { h with visited := fun s a hs => .inl ((h.visited s a hs).resolve_right (by simp)) }

theorem Inv.draw {ex : Option (σ × Act)} (h : Inv p ex st) (k : Nat) : Inv p ex { st with draw := k } :=
  h.congr (fun _ => rfl) (fun _ _ => rfl) fun _ hs => hs

/-- Nothing is left to try. -/
theorem expand_none (h : Inv p none st) (hx : expand p st s = .ok (st', none)) :
    Ext st st' ∧ Keep p st st' ∧ Inv p none st' ∧ (st'.node s).expanded = true := by
  rw [expand] at hx
  split at hx
  · rename_i he
    obtain ⟨rfl, _⟩ := Prod.mk.inj (Except.ok.inj hx)
    exact ⟨Ext.refl _, Keep.refl _, h, he⟩
  · obtain ⟨g1, g2⟩ := generate_inv (s := s) h
    have ge := generate_ext (p := p) (st := st) (s := s)
    have gk := generate_keep (p := p) (st := st) (s := s)
    generalize generate p st s = st1 at hx g1 g2 ge gk
    simp only at hx
    split at hx
    · rename_i hp
      have hu := pick_none hp
      obtain ⟨rfl, _⟩ := Prod.mk.inj (Except.ok.inj hx)
      have hn : ∀ u, (st1.setNode s { st1.node s with expanded := true }).node u =
          { st1.node u with expanded := if u = s then true else (st1.node u).expanded } := by
        intro u
        rw [node_setNode]
        split
        · rename_i hus; rw [hus]
        · rfl
      have hE : Ext st1 (st1.setNode s { st1.node s with expanded := true }) := by
        refine ⟨fun u hu => (has_setNode _).2 (.inr hu), fun u _ => by rw [hn], fun u hu => by rw [hn]; simp only; split <;> [rfl; exact hu],
          fun u => .inr (by rw [hn]), fun u => by rw [hn], fun u x hx => by rw [hn]; exact hx, fun u b => .inr rfl, fun u b => Nat.le_refl _⟩
      have hK : Keep p st1 (st1.setNode s { st1.node s with expanded := true }) :=
        ⟨fun u => .inl (by rw [hn]; exact ⟨rfl, rfl⟩), fun u b => ⟨rfl, rfl⟩⟩
      refine ⟨ge.trans hE, gk.trans ge hK, ⟨fun u => by rw [hn]; exact g1.actions u, g1.outcomes, fun u b hb => by rw [hn]; exact g1.mem u b hb,
        fun u b t => by rw [hn]; exact g1.link u b t, fun u b t ht => (has_setNode _).2 (.inr (g1.has u b t ht)), fun u hu' => ?_, g1.visited, g1.known,
        fun u hu => g1.terminal u (by rw [hn] at hu; exact hu)⟩, by rw [hn]; simp⟩
      have hv : ∀ t, ((st1.setNode s { st1.node s with expanded := true }).node t).visits = (st1.node t).visits := fun t => by rw [hn]
      have ha : ((st1.setNode s { st1.node s with expanded := true }).node u).actions = (st1.node u).actions := by rw [hn]
      rw [ha]
      simp only [hv]
      by_cases hus : u = s
      · subst hus
        refine ⟨g2, fun a ha => ?_⟩
        have hno : ∀ x, x ∉ untried st1 u := by rw [hu]; simp
        constructor
        · intro he
          exact hno (a, none) (mem_untried.2 ⟨ha, .inl ⟨he, rfl⟩⟩)
        · intro t ht
          by_contra hv
          exact hno (a, some t) (mem_untried.2 ⟨ha, .inr ⟨t, ht, by omega, rfl⟩⟩)
      · rw [hn] at hu'
        simp only [if_neg hus] at hu'
        exact g1.expanded u hu'
    · rename_i a hp
      obtain ⟨y, _, hy⟩ := bind_eq_ok.1 hx
      cases hy
    · cases hx

theorem expand_none_same (hx : expand p st s = .ok (st', none)) :
    (∀ u b, st'.act u b = st.act u b) ∧ ∀ u, (st'.node u).visits = (st.node u).visits := by
  rw [expand] at hx
  split at hx
  · obtain ⟨rfl, _⟩ := Prod.mk.inj (Except.ok.inj hx)
    exact ⟨fun _ _ => rfl, fun _ => rfl⟩
  · obtain ⟨g1, _, g3, _⟩ := generate_spec (p := p) (st := st) (s := s)
    generalize generate p st s = st1 at hx g1 g3
    simp only at hx
    split at hx
    · obtain ⟨rfl, _⟩ := Prod.mk.inj (Except.ok.inj hx)
      refine ⟨fun u b => by rw [act_setNode, g3], fun u => ?_⟩
      rw [node_setNode, ← show (st1.node u).visits = (st.node u).visits by rw [g1]]
      split
      · rename_i h; rw [h]
      · rfl
    · obtain ⟨y, _, hy⟩ := bind_eq_ok.1 hx
      cases hy
    · cases hx

/-- An outcome to try. -/
theorem expand_some (h : Inv p none st) (hd : ∀ a ∈ p.actions s, p.dist s a ≠ []) (hx : expand p st s = .ok (st', some t)) :
    Ext st st' ∧ Keep p st st' ∧ (st.node s).expanded = false ∧ ∃ a, a ∈ p.actions s ∧ t ∈ (st'.act s a).outcomes ∧ Inv p (some (s, a)) st' ∧
      ((st.act s a).outcomes = [] ∨ t ∈ (st.act s a).outcomes ∧ (st.node t).visits = 0) := by
  rw [expand] at hx
  split at hx
  · cases hx
  · rename_i hexp
    obtain ⟨g1, g2⟩ := generate_inv (s := s) h
    have ge := generate_ext (p := p) (st := st) (s := s)
    have gk := generate_keep (p := p) (st := st) (s := s)
    have ga := (generate_spec (p := p) (st := st) (s := s)).2.2.1
    have gn := (generate_spec (p := p) (st := st) (s := s)).1
    generalize generate p st s = st1 at hx g1 g2 ge gk ga gn
    simp only at hx
    split at hx
    · cases hx
    · rename_i a hp
      obtain ⟨⟨st2, t'⟩, h1, hy⟩ := bind_eq_ok.1 hx
      obtain ⟨rfl, ht⟩ := Prod.mk.inj (Except.ok.inj hy)
      obtain rfl := Option.some.inj ht
      obtain ⟨ha, h2⟩ := mem_untried.1 (pick_mem hp)
      simp only [reduceCtorEq, and_false, exists_false, or_false, and_true] at h2 ha
      rw [g2] at ha
      obtain ⟨e1, e2⟩ := expandAction_ok h1
      simp only at e1 e2
      have hE := grown_ext (p := p) (st := { st1 with draw := st1.draw + 1 }) (s := s) (a := a) h2
      have hI := grown_inv (p := p) (st := { st1 with draw := st1.draw + 1 }) (s := s) (a := a) (g1.draw _) h2
        (show a ∈ (st1.node s).actions by rw [g2]; exact ha) (hd a ha)
      have hK := grown_keep (p := p) (st := { st1 with draw := st1.draw + 1 }) (s := s) (a := a)
      have hact : (grown p { st1 with draw := st1.draw + 1 } s a).act s a = { st1.act s a with outcomes := p.dist s a } := by
        rw [grown_act, if_pos ⟨rfl, rfl⟩]; rfl
      rw [e1]
      refine ⟨ge.trans ⟨hE.has, hE.terminal, hE.expanded, hE.actions, hE.visits, hE.parents, hE.outcomes, hE.tried⟩,
        gk.trans ge ⟨hK.node, hK.act⟩, by simpa using hexp, a, ha, ?_, hI.draw _, .inl (by rw [← ga]; exact h2)⟩
      show t' ∈ ((grown p { st1 with draw := st1.draw + 1 } s a).act s a).outcomes
      rw [hact]
      exact e2
    · rename_i a t' hp
      obtain ⟨rfl, ht⟩ := Prod.mk.inj (Except.ok.inj hx)
      obtain rfl := Option.some.inj ht
      obtain ⟨ha, h2⟩ := mem_untried.1 (pick_mem hp)
      simp only [reduceCtorEq, and_false, false_or, Option.some.injEq] at h2 ha
      rw [g2] at ha
      obtain ⟨t'', h3, h4, rfl⟩ := h2
      refine ⟨ge.trans ⟨fun _ h => h, fun _ _ => rfl, fun _ h => h, fun _ => .inr rfl, fun _ => Nat.le_refl _, fun _ _ h => h, fun _ _ => .inr rfl, fun _ _ => Nat.le_refl _⟩,
        gk.trans ge ⟨fun u => .inl ⟨rfl, rfl⟩, fun u b => ⟨rfl, rfl⟩⟩, by simpa using hexp, a, ha, h3, (g1.weaken).draw _, .inr ⟨by rw [← ga]; exact h3, ?_⟩⟩
      rw [gn] at h4
      exact h4

theorem expandAction_isOk (hd : p.dist s a ≠ []) : ∃ x, expandAction p st s a = .ok x := by
  rw [expandAction]
  simp only
  split
  · rename_i h
    have := pick_none h
    split at this
    · exact absurd this hd
    · contradiction
  · exact ⟨_, rfl⟩

theorem expand_isOk (h : Inv p none st) (hd : ∀ a ∈ p.actions s, p.dist s a ≠ []) : ∃ x, expand p st s = .ok x := by
  rw [expand]
  split
  · exact ⟨_, rfl⟩
  · obtain ⟨g1, g2⟩ := generate_inv (s := s) h
    simp only
    split
    · exact ⟨_, rfl⟩
    · rename_i a hp
      have ha := (mem_untried.1 (pick_mem hp)).1
      rw [g2] at ha
      obtain ⟨x, hx⟩ := expandAction_isOk (st := { generate p st s with draw := (generate p st s).draw + 1 }) (hd a ha)
      rw [hx]
      exact ⟨_, rfl⟩
    · exact ⟨_, rfl⟩

/-! ### Selection -/

theorem best_spec (key : Act → F) (visits : Act → Nat) (l : List Act) (b0 : Option Act) :
    (best key visits l b0 = none ↔ b0 = none ∧ ∀ a ∈ l, visits a = 0) ∧
    ∀ b, best key visits l b0 = some b → (b0 = some b ∨ b ∈ l ∧ 0 < visits b) ∧ (∀ a ∈ l, 0 < visits a → key a ≤ key b) ∧ ∀ c, b0 = some c → key c ≤ key b := by
  induction l generalizing b0 with
  | nil =>
    refine ⟨by simp [best], fun b hb => ?_⟩
    have : b0 = some b := hb
    subst this
    exact ⟨.inl rfl, by simp, fun c hc => by rw [Option.some.inj hc]⟩
  | cons a l ih =>
    rw [best]
    obtain ⟨i1, i2⟩ := ih (if visits a > 0 ∧ b0.all (fun b => key b < key a) then some a else b0)
    constructor
    · rw [i1]
      constructor
      · rintro ⟨h1, h2⟩
        split at h1
        · cases h1
        · rename_i hn
          subst h1
          refine ⟨rfl, fun c hc => ?_⟩
          rcases List.mem_cons.1 hc with rfl | hc
          · by_contra hv
            exact hn ⟨Nat.pos_of_ne_zero hv, by simp⟩
          · exact h2 c hc
      · rintro ⟨rfl, h2⟩
        have : visits a = 0 := h2 a (by simp)
        exact ⟨by rw [if_neg (by omega)], fun c hc => h2 c (List.mem_cons_of_mem _ hc)⟩
    · intro b hb
      obtain ⟨j1, j2, j3⟩ := i2 b hb
      by_cases hc : visits a > 0 ∧ b0.all (fun b => key b < key a)
      · rw [if_pos hc] at j1 j3
        refine ⟨?_, fun c hc' hv => ?_, fun c hc' => ?_⟩
        · rcases j1 with j1 | j1
          · obtain rfl := Option.some.inj j1
            exact .inr ⟨by simp, hc.1⟩
          · exact .inr ⟨List.mem_cons_of_mem _ j1.1, j1.2⟩
        · rcases List.mem_cons.1 hc' with rfl | hc'
          · exact j3 c rfl
          · exact j2 c hc' hv
        · subst hc'
          have : key c < key a := by simpa using hc.2
          exact le_trans (le_of_lt this) (j3 a rfl)
      · rw [if_neg hc] at j1 j3
        refine ⟨?_, fun c hc' hv => ?_, j3⟩
        · rcases j1 with j1 | j1
          · exact .inl j1
          · exact .inr ⟨List.mem_cons_of_mem _ j1.1, j1.2⟩
        · rcases List.mem_cons.1 hc' with rfl | hc'
          · cases hb0 : b0 with
            | none => exact absurd ⟨hv, by rw [hb0]; rfl⟩ hc
            | some d =>
              have h1 := j3 d hb0
              by_contra hlt
              refine hc ⟨hv, ?_⟩
              rw [hb0]
              simp only [Option.all_some, decide_eq_true_eq]
              exact lt_of_le_of_lt h1 (lt_of_not_ge hlt)
          · exact j2 c hc' hv

/-- The action chosen by UCB1 in an expanded node. -/
theorem ucb_some (h : ucb p st s = some a) : a ∈ (st.node s).actions ∧ 0 < (st.act s a).visits ∧
    ∀ b ∈ (st.node s).actions, 0 < (st.act s b).visits →
      (st.act s b).value + p.bonus (st.node s).visits (st.act s b).visits ≤ (st.act s a).value + p.bonus (st.node s).visits (st.act s a).visits := by
  obtain ⟨h1, h2, _⟩ := (best_spec _ _ _ _).2 a h
  exact ⟨(h1.resolve_left (by simp)).1, (h1.resolve_left (by simp)).2, h2⟩

theorem ucb_none (hi : Inv p none st) (he : (st.node s).expanded = true) (h : ucb p st s = none) : p.actions s = [] := by
  obtain ⟨_, h2⟩ := (best_spec _ _ _ _).1.1 h
  obtain ⟨e1, e2⟩ := hi.expanded s he
  rw [← e1]
  apply List.eq_nil_iff_forall_not_mem.2
  intro a ha
  have := (hi.visited s a (e2 a ha).1).resolve_right (by simp)
  have := h2 a ha
  omega

/-! ### Trajectories -/

/-- A trajectory of `k` known steps. -/
inductive Path (st : St σ Act F) (s : σ) : σ → Nat → Prop
  | nil : Path st s s 0
  | snoc {t u : σ} {a : Act} {k : Nat} : Path st s t k → u ∈ (st.act t a).outcomes → Path st s u (k + 1)

/-- A trajectory of `k` known steps that begins with the action `b`. -/
inductive Via (st : St σ Act F) (s : σ) (b : Act) : σ → Nat → Prop
  | one {u : σ} : u ∈ (st.act s b).outcomes → Via st s b u 1
  | snoc {t u : σ} {a : Act} {k : Nat} : Via st s b t k → u ∈ (st.act t a).outcomes → Via st s b u (k + 1)

theorem Path.ext {k : Nat} (h : Path st s u k) (he : Ext st st') : Path st' s u k := by
  induction h with
  | nil => exact .nil
  | snoc _ hu ih => exact .snoc ih (he.mem hu)

theorem Via.ext {k : Nat} (h : Via st s b u k) (he : Ext st st') : Via st' s b u k := by
  induction h with
  | one hu => exact .one (he.mem hu)
  | snoc _ hu ih => exact .snoc ih (he.mem hu)

theorem Path.via {k : Nat} (ht : t ∈ (st.act s b).outcomes) (h : Path st t u k) : Via st s b u (k + 1) := by
  induction h with
  | nil => exact .one ht
  | snoc _ hu ih => exact .snoc ih hu

theorem Via.path {k : Nat} (h : Via st s b u k) : Path st s u k := by
  induction h with
  | one hu => exact .snoc .nil hu
  | snoc _ hu ih => exact .snoc ih hu

theorem Path.eq_or_via {k : Nat} (h : Path st s u k) : u = s ∧ k = 0 ∨ ∃ b, Via st s b u k := by
  induction h with
  | nil => exact .inl ⟨rfl, rfl⟩
  | snoc _ hu ih =>
    rcases ih with ⟨rfl, rfl⟩ | ⟨b, hb⟩
    · exact .inr ⟨_, .one hu⟩
    · exact .inr ⟨b, .snoc hb hu⟩

/-- What the tree policy is assumed of: every applicable action has outcomes. -/
def Total (p : Problem σ Act F) : Prop := ∀ s, ∀ a ∈ p.actions s, p.dist s a ≠ []

theorem treePolicy_spec (hd : Total p) (n : Nat) (st st' : St σ Act F) (s u : σ) (m : Nat) (h : Inv p none st)
    (hx : treePolicy p n st s = .ok (st', u, m)) :
    Ext st st' ∧ Keep p st st' ∧ (∃ ex, Inv p ex st' ∧ ∀ s0 a0, ex = some (s0, a0) → u ∈ (st'.act s0 a0).outcomes) ∧ ∃ k, Path st' s u k ∧ k + m ≤ n := by
  induction n generalizing st s with
  | zero =>
    obtain ⟨rfl, h2⟩ := Prod.mk.inj (Except.ok.inj hx)
    obtain ⟨rfl, rfl⟩ := Prod.mk.inj h2
    exact ⟨Ext.refl _, Keep.refl _, ⟨none, h, by simp⟩, 0, .nil, le_refl _⟩
  | succ n ih =>
    rw [treePolicy] at hx
    split at hx
    · obtain ⟨rfl, h2⟩ := Prod.mk.inj (Except.ok.inj hx)
      obtain ⟨rfl, rfl⟩ := Prod.mk.inj h2
      exact ⟨Ext.refl _, Keep.refl _, ⟨none, h, by simp⟩, 0, .nil, by omega⟩
    · obtain ⟨⟨st1, next⟩, h1, h2⟩ := bind_eq_ok.1 hx
      simp only at h2
      cases next with
      | some t =>
        simp only at h2
        obtain ⟨rfl, h3⟩ := Prod.mk.inj (Except.ok.inj h2)
        obtain ⟨rfl, rfl⟩ := Prod.mk.inj h3
        obtain ⟨e1, e2, _, a, _, e4, e5, _⟩ := expand_some h (hd s) h1
        exact ⟨e1, e2, ⟨_, e5, fun s0 a0 h0 => by obtain ⟨rfl, rfl⟩ := Prod.mk.inj (Option.some.inj h0); exact e4⟩, 1, .snoc .nil e4, by omega⟩
      | none =>
        simp only at h2
        obtain ⟨e1, e2, e3, e4⟩ := expand_none h h1
        split at h2
        · obtain ⟨rfl, h3⟩ := Prod.mk.inj (Except.ok.inj h2)
          obtain ⟨rfl, rfl⟩ := Prod.mk.inj h3
          exact ⟨e1, e2, ⟨none, e3, by simp⟩, 0, .nil, by omega⟩
        · rename_i a ha
          split at h2
          · cases h2
          · rename_i t ht
            obtain ⟨i1, i2, i3, k, i4, i5⟩ := ih _ _ (e3.draw _) h2
            have hE : Ext st1 { st1 with draw := st1.draw + 1 } := ⟨fun _ h => h, fun _ _ => rfl, fun _ h => h, fun _ => .inr rfl, fun _ => Nat.le_refl _, fun _ _ h => h, fun _ _ => .inr rfl, fun _ _ => Nat.le_refl _⟩
            have hK : Keep p st1 { st1 with draw := st1.draw + 1 } := ⟨fun u => .inl ⟨rfl, rfl⟩, fun u b => ⟨rfl, rfl⟩⟩
            refine ⟨e1.trans (hE.trans i1), e2.trans e1 (hK.trans hE i2), i3, k + 1, (i4.via (i1.mem (pick_mem ht))).path, by omega⟩

/-- The first step from a state that is not terminal, has actions and steps left. -/
theorem treePolicy_first (hd : Total p) (n : Nat) (st st' : St σ Act F) (s u : σ) (m : Nat) (h : Inv p none st) (ha : p.actions s ≠ [])
    (ht : (st.node s).terminal = false) (hx : treePolicy p (n + 1) st s = .ok (st', u, m)) :
    ∃ a ∈ p.actions s, (∃ k, Via st' s a u k ∧ k ≤ n + 1) ∧
      (((st.act s a).outcomes = [] ∨ u ∈ (st.act s a).outcomes ∧ (st.node u).visits = 0) ∨
        ((∀ b ∈ p.actions s, (st.act s b).outcomes ≠ [] ∧ (∀ t ∈ (st.act s b).outcomes, 0 < (st.node t).visits)) ∧
        (∀ b ∈ p.actions s, (st.act s b).value + p.bonus (st.node s).visits (st.act s b).visits ≤
          (st.act s a).value + p.bonus (st.node s).visits (st.act s a).visits))) := by
  rw [treePolicy, if_neg (by simp [ht])] at hx
  obtain ⟨⟨st1, next⟩, h1, h2⟩ := bind_eq_ok.1 hx
  simp only at h2
  cases next with
  | some t =>
    simp only at h2
    obtain ⟨rfl, h3⟩ := Prod.mk.inj (Except.ok.inj h2)
    obtain ⟨rfl, rfl⟩ := Prod.mk.inj h3
    obtain ⟨_, _, _, a, e3, e4, _, e6⟩ := expand_some h (hd s) h1
    exact ⟨a, e3, ⟨1, .one e4, by omega⟩, .inl e6⟩
  | none =>
    simp only at h2
    obtain ⟨e1, e2, e3, e4⟩ := expand_none h h1
    obtain ⟨f1, f2⟩ := expand_none_same h1
    split at h2
    · rename_i hu
      exact absurd (ucb_none e3 e4 hu) ha
    · rename_i a hu
      obtain ⟨x1, x2⟩ := e3.expanded s e4
      obtain ⟨u1, u2, u3⟩ := ucb_some hu
      rw [x1] at u1 u3 x2
      split at h2
      · cases h2
      · rename_i t ht
        obtain ⟨i1, _, _, k, i4, i5⟩ := treePolicy_spec hd _ _ _ _ _ _ (e3.draw _) h2
        refine ⟨a, u1, ⟨k + 1, i4.via (i1.mem (pick_mem ht)), by omega⟩, .inr ⟨fun b hb => ?_, fun b hb => ?_⟩⟩
        · obtain ⟨y1, y2⟩ := x2 b hb
          rw [f1] at y1 y2
          simp only [f2] at y2
          exact ⟨y1, y2⟩
        · have := u3 b hb ((e3.visited s b (x2 b hb).1).resolve_right (by simp))
          rw [f1, f1, f2] at this
          exact this

/-- The tree policy does not fail. -/
theorem treePolicy_isOk (hd : Total p) (n : Nat) (st : St σ Act F) (s : σ) (h : Inv p none st) : ∃ x, treePolicy p n st s = .ok x := by
  induction n generalizing st s with
  | zero => exact ⟨_, rfl⟩
  | succ n ih =>
    rw [treePolicy]
    split
    · exact ⟨_, rfl⟩
    · obtain ⟨⟨st1, next⟩, h1⟩ := expand_isOk h (hd s)
      rw [h1, bind_ok]
      cases next with
      | some t => exact ⟨_, rfl⟩
      | none =>
        obtain ⟨e1, e2, e3, e4⟩ := expand_none h h1
        simp only
        split
        · exact ⟨_, rfl⟩
        · rename_i a hu
          split
          · rename_i hp
            have := pick_none hp
            obtain ⟨x1, x2⟩ := e3.expanded s e4
            exact absurd this (x2 a (ucb_some hu).1).1
          · exact ih _ _ (e3.draw _)

/-! ### Backup -/

/-- A parent action of a node is an expanded action of its state that leads to it. -/
def Linked (p : Problem σ Act F) (st : St σ Act F) : Prop :=
  ∀ f q c, (q, c) ∈ (st.node f).parents → f ∈ p.dist q c ∧ c ∈ p.actions q ∧ (st.act q c).outcomes ≠ [] ∧ st.has q

/-- Values and visits change, the latter only for expanded actions. -/
structure Up (st st' : St σ Act F) : Prop where
  grow : Grow st st'
  tried : ∀ s a, (st.act s a).visits ≠ (st'.act s a).visits → (st.act s a).outcomes ≠ []

theorem Up.refl (st : St σ Act F) : Up st st := ⟨Grow.refl _, fun _ _ h => absurd rfl h⟩

theorem Up.trans {st₁ st₂ st₃ : St σ Act F} (h : Up st₁ st₂) (h' : Up st₂ st₃) : Up st₁ st₃ where
  grow := h.grow.trans h'.grow
  tried s a hn := by
    by_cases h1 : (st₁.act s a).visits = (st₂.act s a).visits
    · have := h'.tried s a (by rw [← h1]; exact hn)
      rwa [h.grow.act s a] at this
    · exact h.tried s a h1

theorem Linked.up (h : Linked p st) (hu : Up st st') : Linked p st' := by
  intro f q c hm
  rw [hu.grow.node f] at hm
  obtain ⟨h1, h2, h3, h4⟩ := h f q c hm
  exact ⟨h1, h2, by rw [hu.grow.act q c]; exact h3, (hu.grow.has q).2 h4⟩

theorem Up.parents (h : Up st st') (f : σ) : (st'.node f).parents = (st.node f).parents := by rw [h.grow.node f]

theorem backupParent_act (f : σ) (pa : σ × Act) (u : σ) (b : Act) : (backupParent p f st pa).act u b =
    if u = pa.1 ∧ b = pa.2 then { st.act pa.1 pa.2 with
      value := mean (st.act pa.1 pa.2).visits (st.act pa.1 pa.2).value (p.reward pa.1 pa.2 f + p.discount * (st.node f).value)
      visits := (st.act pa.1 pa.2).visits + 1 } else st.act u b := by
  rw [backupParent]
  simp only
  rw [act_setNode, act_setAct]

theorem backupParent_node (f : σ) (pa : σ × Act) (u : σ) : (backupParent p f st pa).node u =
    if u = pa.1 then { st.node pa.1 with
      value := mean (st.node pa.1).visits (st.node pa.1).value ((backupParent p f st pa).act pa.1 pa.2).value
      visits := (st.node pa.1).visits + 1 } else st.node u := by
  have h := backupParent_act (p := p) (st := st) f pa pa.1 pa.2
  rw [if_pos (And.intro rfl rfl)] at h
  rw [h, backupParent]
  simp only
  rw [node_setNode, node_setAct, node_setAct]

theorem backupParent_has (f : σ) (pa : σ × Act) (hp : st.has pa.1) (u : σ) : (backupParent p f st pa).has u ↔ st.has u := by
  rw [backupParent]
  rw [has_setNode, has_setAct]
  constructor
  · rintro (rfl | h)
    · exact hp
    · exact h
  · exact .inr

theorem backupParent_up (hl : Linked p st) (f : σ) (pa : σ × Act) (hpa : pa ∈ (st.node f).parents) : Up st (backupParent p f st pa) := by
  obtain ⟨_, _, h3, h4⟩ := hl f pa.1 pa.2 hpa
  refine ⟨⟨backupParent_has f pa h4, fun u => ?_, fun u => ?_, fun u b => ?_, fun u b => ?_⟩, fun u b hn => ?_⟩
  · rw [backupParent_node]
    split
    · rename_i h; rw [h]
    · rfl
  · rw [backupParent_node]
    split
    · rename_i h; rw [h]; simp
    · exact Nat.le_refl _
  · rw [backupParent_act]
    split
    · rename_i h; rw [h.1, h.2]
    · rfl
  · rw [backupParent_act]
    split
    · rename_i h; rw [h.1, h.2]; simp
    · exact Nat.le_refl _
  · rw [backupParent_act] at hn
    split at hn
    · rename_i h; rw [h.1, h.2]; exact h3
    · exact absurd rfl hn

/-- Any property kept by one parent is kept by all. -/
theorem updateFrontier_up (ps : List (σ × Act)) (f : σ) (x : St σ Act F × List σ) (hl : Linked p x.1) (hps : ∀ pa ∈ ps, pa ∈ (x.1.node f).parents) :
    let y := ps.foldl (fun x pa => (backupParent p f x.1 pa, if pa.1 ∈ x.2 then x.2 else x.2 ++ [pa.1])) x
    Up x.1 y.1 ∧ (∀ u ∈ x.2, u ∈ y.2) ∧ ∀ pa ∈ ps, pa.1 ∈ y.2 ∧ (x.1.act pa.1 pa.2).visits + 1 ≤ (y.1.act pa.1 pa.2).visits ∧
      (x.1.node pa.1).visits + 1 ≤ (y.1.node pa.1).visits := by
  induction ps generalizing x with
  | nil => exact ⟨Up.refl _, fun _ h => h, by simp⟩
  | cons pa ps ih =>
    have hu := backupParent_up hl f pa (hps pa (by simp))
    simp only [List.foldl_cons]
    obtain ⟨i1, i2, i3⟩ := ih (backupParent p f x.1 pa, if pa.1 ∈ x.2 then x.2 else x.2 ++ [pa.1]) (hl.up hu)
      (fun pa' h => by rw [hu.parents]; exact hps pa' (List.mem_cons_of_mem _ h))
    have hsub : ∀ u ∈ x.2, u ∈ if pa.1 ∈ x.2 then x.2 else x.2 ++ [pa.1] := by
      intro u hu
      split
      · exact hu
      · exact List.mem_append_left _ hu
    have hpa : pa.1 ∈ if pa.1 ∈ x.2 then x.2 else x.2 ++ [pa.1] := by
      split
      · assumption
      · simp
    refine ⟨hu.trans i1, fun u hu => i2 u (hsub u hu), fun pb hpb => ?_⟩
    rcases List.mem_cons.1 hpb with rfl | hpb
    · refine ⟨i2 _ hpa, ?_, ?_⟩
      · have h1 := i1.grow.tried pb.1 pb.2
        rw [backupParent_act, if_pos ⟨rfl, rfl⟩] at h1
        exact h1
      · have h1 := i1.grow.visits pb.1
        rw [backupParent_node, if_pos rfl] at h1
        exact h1
    · obtain ⟨j1, j2, j3⟩ := i3 pb hpb
      have h1 := hu.grow.tried pb.1 pb.2
      have h2 := hu.grow.visits pb.1
      exact ⟨j1, by simp only at j2; omega, by simp only at j3; omega⟩

/-- What is assumed of the unordered containers: they are walked completely. -/
structure Orders (p : Problem σ Act F) : Prop where
  states : ∀ l, (p.order l).Perm l
  parents : ∀ l, (p.orderP l).Perm l

theorem round_up (ho : Orders p) (fs : List σ) (x : St σ Act F × List σ) (hl : Linked p x.1) :
    let y := fs.foldl (updateFrontier p) x
    Up x.1 y.1 ∧ (∀ u ∈ x.2, u ∈ y.2) ∧ ∀ f ∈ fs, ∀ pa ∈ (x.1.node f).parents, pa.1 ∈ y.2 ∧ (x.1.act pa.1 pa.2).visits + 1 ≤ (y.1.act pa.1 pa.2).visits ∧
      (x.1.node pa.1).visits + 1 ≤ (y.1.node pa.1).visits := by
  induction fs generalizing x with
  | nil => exact ⟨Up.refl _, fun _ h => h, by simp⟩
  | cons f fs ih =>
    have hm : ∀ pa, pa ∈ p.orderP (x.1.node f).parents ↔ pa ∈ (x.1.node f).parents := fun pa => (ho.parents _).mem_iff
    obtain ⟨u1, u2, u3⟩ := updateFrontier_up (p.orderP (x.1.node f).parents) f x hl fun pa h => (hm pa).1 h
    simp only [List.foldl_cons]
    obtain ⟨i1, i2, i3⟩ := ih (updateFrontier p x f) (hl.up u1)
    refine ⟨u1.trans i1, fun u hu => i2 u (u2 u hu), fun g hg pa hpa => ?_⟩
    rcases List.mem_cons.1 hg with rfl | hg
    · obtain ⟨j1, j2, j3⟩ := u3 pa ((hm pa).2 hpa)
      have h1 := i1.grow.tried pa.1 pa.2
      have h2 := i1.grow.visits pa.1
      exact ⟨i2 _ j1, le_trans j2 h1, le_trans j3 h2⟩
    · obtain ⟨j1, j2, j3⟩ := i3 g hg pa (by rw [show ((updateFrontier p x f).1.node g).parents = (x.1.node g).parents from u1.parents g]; exact hpa)
      exact ⟨j1, le_trans (Nat.succ_le_succ (u1.grow.tried pa.1 pa.2)) j2, le_trans (Nat.succ_le_succ (u1.grow.visits pa.1)) j3⟩

theorem backup_up (ho : Orders p) (n : Nat) (st : St σ Act F) (fs : List σ) (hl : Linked p st) : Up st (backup p n st fs) := by
  induction n generalizing st fs with
  | zero => exact Up.refl _
  | succ n ih =>
    rw [backup]
    obtain ⟨u1, _, _⟩ := round_up ho (p.order fs) (st, []) hl
    exact u1.trans (ih _ _ (hl.up u1))

/-- The backup reaches every action within as many rounds as steps lead from it. -/
theorem backup_via (ho : Orders p) (n : Nat) (st : St σ Act F) (fs : List σ) (hl : Linked p st) (hk : ∀ s a t, t ∈ (st.act s a).outcomes → (s, a) ∈ (st.node t).parents)
    {s : σ} {b : Act} {f : σ} {k : Nat} (hv : Via st s b f k) (hf : f ∈ fs) (hkn : k ≤ n) :
    (st.act s b).visits + 1 ≤ ((backup p n st fs).act s b).visits ∧ (st.node s).visits + 1 ≤ ((backup p n st fs).node s).visits := by
  induction n generalizing st fs f k with
  | zero => cases hv <;> omega
  | succ n ih =>
    rw [backup]
    obtain ⟨u1, _, u3⟩ := round_up ho (p.order fs) (st, []) hl
    have u4 := backup_up ho n _ ((p.order fs).foldl (updateFrontier p) (st, [])).2 (hl.up u1)
    have hf' : f ∈ p.order fs := (ho.states fs).mem_iff.2 hf
    cases hv with
    | one hu =>
      obtain ⟨_, j2, j3⟩ := u3 f hf' (s, b) (hk _ _ _ hu)
      exact ⟨le_trans j2 (u4.grow.tried s b), le_trans j3 (u4.grow.visits s)⟩
    | snoc hv hu =>
      rename_i t a k
      obtain ⟨j1, _⟩ := u3 f hf' (t, a) (hk _ _ _ hu)
      have := ih _ _ (hl.up u1) (fun s a t ht => by rw [u1.parents]; rw [u1.grow.act s a] at ht; exact hk s a t ht) (hv.ext u1.grow.ext) j1 (by omega)
      exact ⟨le_trans (Nat.succ_le_succ (u1.grow.tried s b)) this.1, le_trans (Nat.succ_le_succ (u1.grow.visits s)) this.2⟩

theorem Inv.linked {ex : Option (σ × Act)} (h : Inv p ex st) : Linked p st := by
  have hh : ∀ s, (st.node s).actions ≠ [] → st.has s := fun s hs => by
    by_contra hn
    rw [node_of_not_has hn] at hs
    exact hs rfl
  intro f q c hm
  have hf := (h.link q c f).2 hm
  have hne : (st.act q c).outcomes ≠ [] := List.ne_nil_of_mem hf
  have hc := h.mem q c hne
  have ha : (st.node q).actions = p.actions q := (h.actions q).resolve_left (List.ne_nil_of_mem hc)
  exact ⟨by rw [← (h.outcomes q c).resolve_left hne]; exact hf, by rw [← ha]; exact hc, hne, hh q (List.ne_nil_of_mem hc)⟩

/-! ### One rollout -/

theorem rollout_ok {n : Nat} (hh : st.has s) (hx : rollout p n st s = .ok st') :
    Up st st' ∧ (st'.node s).visits = (st.node s).visits + 1 ∧ (∀ u b, st'.act u b = st.act u b) ∧ (∀ u, u ≠ s → st'.node u = st.node u) ∧
      ∃ r k, walk p n st.draw s 0 1 = .ok (r, k) ∧ (st'.node s).value = mean (st.node s).visits (st.node s).value r := by
  rw [rollout] at hx
  obtain ⟨⟨r, k⟩, h1, h2⟩ := bind_eq_ok.1 hx
  simp only at h2
  obtain rfl := Except.ok.inj h2
  have hn : ∀ u, (St.setNode { st with draw := k } s { st.node s with value := mean (st.node s).visits (st.node s).value r, visits := (st.node s).visits + 1 }).node u
      = if u = s then { st.node s with value := mean (st.node s).visits (st.node s).value r, visits := (st.node s).visits + 1 } else st.node u := fun u => by
    rw [node_setNode]; rfl
  refine ⟨⟨⟨fun u => ?_, fun u => ?_, fun u => ?_, fun u b => rfl, fun u b => Nat.le_refl _⟩, fun u b h => absurd rfl h⟩, ?_, fun _ _ => rfl, fun u hu => ?_, r, k, h1, ?_⟩
  · rw [has_setNode]
    constructor
    · rintro (rfl | h)
      · exact hh
      · exact h
    · exact .inr
  · erw [hn]
    split
    · rename_i h; rw [h]
    · rfl
  · erw [hn]
    split
    · rename_i h; rw [h]; simp
    · exact Nat.le_refl _
  · erw [hn]; rw [if_pos rfl]
  · erw [hn]; rw [if_neg hu]
  · erw [hn]; rw [if_pos rfl]

theorem walk_isOk (ha : ∀ s, p.actions s ≠ []) (hd : Total p) (n k : Nat) (s : σ) (r g : F) : ∃ x, walk p n k s r g = .ok x := by
  induction n generalizing k s r g with
  | zero => exact ⟨_, rfl⟩
  | succ n ih =>
    rw [walk]
    split
    · rename_i h
      exact absurd (pick_none h) (ha s)
    · rename_i a h
      split
      · rename_i h'
        exact absurd (pick_none h') (hd s a (pick_mem h))
      · simp only
        split
        · exact ⟨_, rfl⟩
        · exact ih _ _ _ _

theorem rollout_isOk (ha : ∀ s, p.actions s ≠ []) (hd : Total p) (n : Nat) (st : St σ Act F) (s : σ) : ∃ x, rollout p n st s = .ok x := by
  obtain ⟨x, hx⟩ := walk_isOk ha hd n st.draw s 0 1
  rw [rollout, hx]
  exact ⟨_, rfl⟩

theorem Path.has {ex : Option (σ × Act)} {k : Nat} (hi : Inv p ex st) (hs : st.has s) (h : Path st s u k) : st.has u := by
  cases h with
  | nil => exact hs
  | snoc _ hu => exact hi.has _ _ _ hu

theorem iteration_isOk (ha : ∀ s, p.actions s ≠ []) (hd : Total p) (h : Inv p none st) : ∃ x, iteration p st s = .ok x := by
  obtain ⟨⟨st1, u, m⟩, h1⟩ := treePolicy_isOk hd p.maxDepth st s h
  obtain ⟨st2, h2⟩ := rollout_isOk ha hd m st1 u
  rw [iteration, h1]
  simp only [bind_ok]
  rw [h2]
  exact ⟨_, rfl⟩

/-- The parts of an iteration. -/
theorem iteration_ok (hd : Total p) (ho : Orders p) (h : Inv p none st) (hs : st.has s) (hx : iteration p st s = .ok st') :
    ∃ st1 st2 u m ex k, treePolicy p p.maxDepth st s = .ok (st1, u, m) ∧ rollout p m st1 u = .ok st2 ∧ st' = backup p (p.maxDepth + 1) st2 [u] ∧
      Ext st st1 ∧ Keep p st st1 ∧ Inv p ex st1 ∧ (∀ s0 a0, ex = some (s0, a0) → u ∈ (st1.act s0 a0).outcomes) ∧ Path st1 s u k ∧ k + m ≤ p.maxDepth ∧
      Up st1 st2 ∧ (st2.node u).visits = (st1.node u).visits + 1 ∧ Inv p ex st2 ∧ Up st2 st' ∧ st1.has u := by
  rw [iteration] at hx
  obtain ⟨⟨st1, u, m⟩, h1, h2⟩ := bind_eq_ok.1 hx
  simp only at h2
  obtain ⟨st2, h3, h4⟩ := bind_eq_ok.1 h2
  obtain rfl := Except.ok.inj h4
  obtain ⟨e1, e2, ⟨ex, e3, e4⟩, k, e5, e6⟩ := treePolicy_spec hd _ _ _ _ _ _ h h1
  have hu : st1.has u := e5.has e3 (e1.has s hs)
  obtain ⟨r1, r2, _, _, _⟩ := rollout_ok hu h3
  have i2 : Inv p ex st2 := e3.grow r1.grow r1.tried fun _ _ h => .inl h
  exact ⟨st1, st2, u, m, ex, k, h1, h3, rfl, e1, e2, e3, e4, e5, e6, r1, r2, i2, backup_up ho _ _ _ i2.linked, hu⟩

theorem iteration_inv (hd : Total p) (ho : Orders p) (h : Inv p none st) (hs : st.has s) (hx : iteration p st s = .ok st') :
    Inv p none st' ∧ Ext st st' ∧ (st.node s).visits + 1 ≤ (st'.node s).visits := by
  obtain ⟨st1, st2, u, m, ex, k, h1, h2, rfl, e1, e2, e3, e4, e5, e6, r1, r2, i2, b1, hu⟩ := iteration_ok hd ho h hs hx
  refine ⟨i2.grow b1.grow b1.tried fun s0 a0 h0 => .inr ?_, e1.trans (r1.grow.ext.trans b1.grow.ext), ?_⟩
  · have hu' : u ∈ (st2.act s0 a0).outcomes := by rw [r1.grow.act]; exact e4 s0 a0 h0
    have := (backup_via ho (p.maxDepth + 1) st2 [u] i2.linked (fun s a t => (i2.link s a t).1) (.one hu') (by simp) (by omega)).1
    omega
  · have v1 := e1.visits s
    have v2 := r1.grow.visits s
    have v3 := b1.grow.visits s
    rcases (e5.ext r1.grow.ext).eq_or_via with ⟨rfl, _⟩ | ⟨b, hb⟩
    · omega
    · have := (backup_via ho (p.maxDepth + 1) st2 [u] i2.linked (fun s a t => (i2.link s a t).1) hb (by simp) (by omega)).2
      omega

theorem iteration_first (hd : Total p) (ho : Orders p) (h : Inv p none st) (hs : st.has s) (ha : p.actions s ≠ []) (ht : (st.node s).terminal = false)
    (hm : 0 < p.maxDepth) (hx : iteration p st s = .ok st') :
    ∃ a ∈ p.actions s, (st.act s a).visits + 1 ≤ (st'.act s a).visits ∧ (st'.act s a).outcomes = p.dist s a ∧
      (((st.act s a).outcomes = [] ∨ ∃ u ∈ (st.act s a).outcomes, (st.node u).visits = 0 ∧ 0 < (st'.node u).visits) ∨
        ((∀ b ∈ p.actions s, (st.act s b).outcomes ≠ [] ∧ (∀ t ∈ (st.act s b).outcomes, 0 < (st.node t).visits)) ∧
        (∀ b ∈ p.actions s, (st.act s b).value + p.bonus (st.node s).visits (st.act s b).visits ≤
          (st.act s a).value + p.bonus (st.node s).visits (st.act s a).visits))) := by
  obtain ⟨st1, st2, u, m, ex, k, h1, h2, h3, e1, e2, e3, e4, e5, e6, r1, r2, i2, b1, hu⟩ := iteration_ok hd ho h hs hx
  obtain ⟨n, hn⟩ : ∃ n, p.maxDepth = n + 1 := ⟨p.maxDepth - 1, by omega⟩
  rw [hn] at h1
  obtain ⟨a, ha', ⟨k', hv, hk'⟩, hcase⟩ := treePolicy_first hd n st st1 s u m h ha ht h1
  have hinv := (iteration_inv hd ho h hs hx).1
  have := (backup_via ho (p.maxDepth + 1) st2 [u] i2.linked (fun s a t => (i2.link s a t).1) (hv.ext r1.grow.ext) (by simp) (by omega)).1
  rw [← h3] at this
  have hv1 := (e2.act s a).2
  have hv2 := r1.grow.tried s a
  have hpos : 0 < (st'.act s a).visits := by omega
  refine ⟨a, ha', by omega, (hinv.outcomes s a).resolve_left (hinv.known s a hpos), ?_⟩
  rcases hcase with (hc | ⟨c1, c2⟩) | hc
  · exact .inl (.inl hc)
  · refine .inl (.inr ⟨u, c1, c2, ?_⟩)
    have := b1.grow.visits u
    omega
  · exact .inr hc

/-! ### Bounds -/

section bounds
variable [IsStrictOrderedRing F] {lo hi : F}

/-- Rewards and heuristics keep discounted sums between `lo` and `hi`. -/
structure Bounds (p : Problem σ Act F) (lo hi : F) : Prop where
  low : lo ≤ 0
  high : 0 ≤ hi
  discount : 0 ≤ p.discount
  reward : ∀ s a t, a ∈ p.actions s → t ∈ p.dist s a → lo ≤ p.reward s a t + p.discount * lo ∧ p.reward s a t + p.discount * hi ≤ hi
  heuristic : ∀ s, lo ≤ (p.heuristic s).1 ∧ (p.heuristic s).1 ≤ hi

structure Bnd (lo hi : F) (st : St σ Act F) : Prop where
  node : ∀ s, lo ≤ (st.node s).value ∧ (st.node s).value ≤ hi
  act : ∀ s a, lo ≤ (st.act s a).value ∧ (st.act s a).value ≤ hi

theorem mean_mem {n : Nat} {v x : F} (hv : lo ≤ v ∧ v ≤ hi) (hx : lo ≤ x ∧ x ≤ hi) : lo ≤ mean n v x ∧ mean n v x ≤ hi := by
  have hn : (0 : F) ≤ (n : F) := Nat.cast_nonneg n
  have hp : (0 : F) < (n : F) + 1 := by linarith
  rw [mean, le_div_iff₀ hp, div_le_iff₀ hp]
  have h1 := mul_le_mul_of_nonneg_left hv.1 hn
  have h2 := mul_le_mul_of_nonneg_left hv.2 hn
  constructor <;> nlinarith [hx.1, hx.2]

theorem walk_mem (hb : Bounds p lo hi) (n k : Nat) (s : σ) (r g : F) (hg : 0 ≤ g) {r' : F} {k' : Nat} (hx : walk p n k s r g = .ok (r', k')) :
    r + g * lo ≤ r' ∧ r' ≤ r + g * hi := by
  induction n generalizing k s r g with
  | zero =>
    obtain ⟨rfl, _⟩ := Prod.mk.inj (Except.ok.inj hx)
    have h1 := mul_nonneg hg hb.high
    have h2 := mul_nonpos_of_nonneg_of_nonpos hg hb.low
    constructor <;> linarith
  | succ n ih =>
    rw [walk] at hx
    split at hx
    · cases hx
    · rename_i a ha
      split at hx
      · cases hx
      · rename_i t ht
        simp only at hx
        obtain ⟨b1, b2⟩ := hb.reward s a t (pick_mem ha) (pick_mem ht)
        have c1 := mul_le_mul_of_nonneg_left b1 hg
        have c2 := mul_le_mul_of_nonneg_left b2 hg
        have d1 := mul_nonneg (mul_nonneg hg hb.discount) hb.high
        have d2 := mul_nonpos_of_nonneg_of_nonpos (mul_nonneg hg hb.discount) hb.low
        split at hx
        · obtain ⟨rfl, _⟩ := Prod.mk.inj (Except.ok.inj hx)
          constructor <;> nlinarith
        · obtain ⟨i1, i2⟩ := ih _ _ _ _ (mul_nonneg hg hb.discount) hx
          constructor <;> nlinarith

theorem Bnd.keep (hb : Bounds p lo hi) (h : Bnd lo hi st) (hk : Keep p st st') : Bnd lo hi st' := by
  refine ⟨fun u => ?_, fun u b => ?_⟩
  · rcases hk.node u with ⟨h1, _⟩ | ⟨_, h1, _⟩
    · rw [h1]; exact h.node u
    · rw [h1]; exact hb.heuristic u
  · rw [(hk.act u b).1]; exact h.act u b

theorem Bnd.rollout (hb : Bounds p lo hi) (h : Bnd lo hi st) {n : Nat} (hh : st.has s) (hx : rollout p n st s = .ok st') : Bnd lo hi st' := by
  obtain ⟨_, _, r3, r4, r, k, r5, r6⟩ := rollout_ok hh hx
  refine ⟨fun u => ?_, fun u b => by rw [r3]; exact h.act u b⟩
  by_cases hu : u = s
  · subst hu
    rw [r6]
    have := walk_mem hb _ _ _ _ _ zero_le_one r5
    exact mean_mem (h.node u) (by simpa using this)
  · rw [r4 u hu]; exact h.node u

theorem Bnd.parent (hb : Bounds p lo hi) (hl : Linked p st) (h : Bnd lo hi st) {f : σ} {pa : σ × Act} (hpa : pa ∈ (st.node f).parents) :
    Bnd lo hi (backupParent p f st pa) := by
  have hA : ∀ u b, lo ≤ ((backupParent p f st pa).act u b).value ∧ ((backupParent p f st pa).act u b).value ≤ hi := by
    intro u b
    rw [backupParent_act]
    split
    · obtain ⟨l1, l2, _, _⟩ := hl f pa.1 pa.2 hpa
      obtain ⟨b1, b2⟩ := hb.reward _ _ _ l2 l1
      obtain ⟨c1, c2⟩ := h.node f
      have d1 := mul_le_mul_of_nonneg_left c1 hb.discount
      have d2 := mul_le_mul_of_nonneg_left c2 hb.discount
      exact mean_mem (h.act _ _) ⟨by linarith, by linarith⟩
    · exact h.act u b
  refine ⟨fun u => ?_, hA⟩
  rw [backupParent_node]
  split
  · exact mean_mem (h.node _) (hA _ _)
  · exact h.node u

theorem Bnd.frontier (hb : Bounds p lo hi) (ho : Orders p) (x : St σ Act F × List σ) (f : σ) (hl : Linked p x.1) (h : Bnd lo hi x.1) :
    Bnd lo hi (updateFrontier p x f).1 := by
  have : ∀ (ps : List (σ × Act)) (x : St σ Act F × List σ), Linked p x.1 → (∀ pa ∈ ps, pa ∈ (x.1.node f).parents) → Bnd lo hi x.1 →
      Bnd lo hi (ps.foldl (fun x pa => (backupParent p f x.1 pa, if pa.1 ∈ x.2 then x.2 else x.2 ++ [pa.1])) x).1 := by
    intro ps
    induction ps with
    | nil => exact fun x _ _ h => h
    | cons pa ps ih =>
      intro x hl hps h
      have hu := backupParent_up hl f pa (hps pa (by simp))
      exact ih _ (hl.up hu) (fun pa' h => by rw [hu.parents]; exact hps pa' (List.mem_cons_of_mem _ h)) (h.parent hb hl (hps pa (by simp)))
  exact this _ x hl (fun pa h => (ho.parents _).mem_iff.1 h) h

theorem Bnd.round (hb : Bounds p lo hi) (ho : Orders p) (fs : List σ) (x : St σ Act F × List σ) (hl : Linked p x.1) (h : Bnd lo hi x.1) :
    Bnd lo hi (fs.foldl (updateFrontier p) x).1 := by
  induction fs generalizing x with
  | nil => exact h
  | cons f fs ih =>
    have hu := (updateFrontier_up (p.orderP (x.1.node f).parents) f x hl fun pa h => (ho.parents _).mem_iff.1 h).1
    exact ih _ (hl.up hu) (h.frontier hb ho x f hl)

theorem Bnd.backup (hb : Bounds p lo hi) (ho : Orders p) (n : Nat) (st : St σ Act F) (fs : List σ) (hl : Linked p st) (h : Bnd lo hi st) :
    Bnd lo hi (backup p n st fs) := by
  induction n generalizing st fs with
  | zero => exact h
  | succ n ih =>
    rw [Mcts.backup]
    exact ih _ _ (hl.up (round_up ho (p.order fs) (st, []) hl).1) (h.round hb ho (p.order fs) (st, []) hl)

theorem iteration_bnd (hb : Bounds p lo hi) (hd : Total p) (ho : Orders p) (h : Inv p none st) (hs : st.has s) (hB : Bnd lo hi st) (hx : iteration p st s = .ok st') :
    Bnd lo hi st' := by
  obtain ⟨st1, st2, u, m, ex, k, h1, h2, rfl, e1, e2, e3, e4, e5, e6, r1, r2, i2, b1, hu⟩ := iteration_ok hd ho h hs hx
  exact ((hB.keep hb e2).rollout hb hu h2).backup hb ho _ _ _ i2.linked

theorem empty_bnd (hb : Bounds p lo hi) : Bnd lo hi (St.empty : St σ Act F) := ⟨fun _ => ⟨hb.low, hb.high⟩, fun _ _ => ⟨hb.low, hb.high⟩⟩

end bounds

/-! ### All rollouts -/

/-- Induction over the rollouts. -/
theorem iterate_ind {P : St σ Act F → Prop} (hd : Total p) (ho : Orders p)
    (hP : ∀ st st', Inv p none st → st.has s → P st → iteration p st s = .ok st' → P st') (n : Nat) (st : St σ Act F) (h : Inv p none st) (hs : st.has s) (h0 : P st)
    (hx : iterate p s n st = .ok st') : P st' := by
  induction n generalizing st with
  | zero => obtain rfl := Except.ok.inj hx; exact h0
  | succ n ih =>
    rw [iterate] at hx
    obtain ⟨st1, h1, h2⟩ := bind_eq_ok.1 hx
    obtain ⟨i1, i2, _⟩ := iteration_inv hd ho h hs h1
    exact ih _ i1 (i2.has s hs) (hP _ _ h hs h0 h1) h2

theorem iterate_add (m n : Nat) (st : St σ Act F) : iterate p s (m + n) st = iterate p s m st >>= iterate p s n := by
  induction m generalizing st with
  | zero => rw [Nat.zero_add]; rfl
  | succ m ih =>
    rw [Nat.succ_add, iterate, iterate]
    cases iteration p st s with
    | error e => rfl
    | ok st1 => simp only [bind_ok]; exact ih st1

theorem iterate_inv (hd : Total p) (ho : Orders p) (n : Nat) (st : St σ Act F) (h : Inv p none st) (hs : st.has s) (hx : iterate p s n st = .ok st') :
    Inv p none st' ∧ Ext st st' ∧ (st.node s).visits + n ≤ (st'.node s).visits := by
  induction n generalizing st with
  | zero => obtain rfl := Except.ok.inj hx; exact ⟨h, Ext.refl _, Nat.le_refl _⟩
  | succ n ih =>
    rw [iterate] at hx
    obtain ⟨st1, h1, h2⟩ := bind_eq_ok.1 hx
    obtain ⟨i1, i2, i3⟩ := iteration_inv hd ho h hs h1
    obtain ⟨j1, j2, j3⟩ := ih _ i1 (i2.has s hs) h2
    exact ⟨j1, i2.trans j2, by omega⟩

theorem iterate_isOk (ha : ∀ s, p.actions s ≠ []) (hd : Total p) (ho : Orders p) (n : Nat) (st : St σ Act F) (h : Inv p none st) (hs : st.has s) :
    ∃ st', iterate p s n st = .ok st' := by
  induction n generalizing st with
  | zero => exact ⟨_, rfl⟩
  | succ n ih =>
    obtain ⟨st1, h1⟩ := iteration_isOk (s := s) ha hd h
    obtain ⟨i1, i2, _⟩ := iteration_inv hd ho h hs h1
    rw [iterate, h1, bind_ok]
    exact ih _ i1 (i2.has s hs)

theorem iterate_bnd [IsStrictOrderedRing F] {lo hi : F} (hb : Bounds p lo hi) (hd : Total p) (ho : Orders p) (n : Nat) (st : St σ Act F) (h : Inv p none st) (hs : st.has s)
    (hB : Bnd lo hi st) (hx : iterate p s n st = .ok st') : Bnd lo hi st' :=
  iterate_ind (P := Bnd lo hi) hd ho (fun _ _ h hs hB hx => iteration_bnd hb hd ho h hs hB hx) n st h hs hB hx

/-! ### Exploration -/

/-- What is left to try of one action. -/
def left (p : Problem σ Act F) (st : St σ Act F) (s : σ) (a : Act) : Nat :=
  if (st.act s a).outcomes = [] then 1 + (p.dist s a).length else ((st.act s a).outcomes.filter fun t => (st.node t).visits = 0).length

/-- All actions of a state have been tried with all their outcomes. -/
def Explored (p : Problem σ Act F) (st : St σ Act F) (s : σ) : Prop :=
  ∀ a ∈ p.actions s, (st.act s a).outcomes ≠ [] ∧ ∀ t ∈ (st.act s a).outcomes, 0 < (st.node t).visits

theorem filter_length_le {α : Type} {l : List α} {f g : α → Bool} (h : ∀ x ∈ l, g x = true → f x = true) : (l.filter g).length ≤ (l.filter f).length := by
  rw [← List.countP_eq_length_filter, ← List.countP_eq_length_filter]
  exact List.countP_mono_left h

theorem filter_length_lt {α : Type} {l : List α} {f g : α → Bool} (h : ∀ x ∈ l, g x = true → f x = true) {y : α} (hy : y ∈ l) (hf : f y = true) (hg : g y = false) :
    (l.filter g).length < (l.filter f).length := by
  induction l with
  | nil => cases hy
  | cons x l ih =>
    have hl := filter_length_le (l := l) fun z hz => h z (List.mem_cons_of_mem _ hz)
    rcases List.mem_cons.1 hy with rfl | hy
    · rw [List.filter_cons_of_pos hf, List.filter_cons_of_neg (by simp [hg])]
      simp only [List.length_cons]; omega
    · have := ih (fun z hz => h z (List.mem_cons_of_mem _ hz)) hy
      have hx := h x (by simp)
      by_cases h1 : g x = true
      · rw [List.filter_cons_of_pos h1, List.filter_cons_of_pos (hx h1)]; simpa using this
      · rw [List.filter_cons_of_neg h1]
        by_cases h2 : f x = true
        · rw [List.filter_cons_of_pos h2]; simp only [List.length_cons]; omega
        · rw [List.filter_cons_of_neg h2]; exact this

theorem left_mono (he : Ext st st') (hi : Inv p none st') : left p st' s a ≤ left p st s a := by
  rw [left, left]
  by_cases h : (st.act s a).outcomes = []
  · rw [if_pos h]
    split
    · exact Nat.le_refl _
    · rename_i h'
      rw [(hi.outcomes s a).resolve_left h']
      have := List.length_filter_le (fun t => decide ((st'.node t).visits = 0)) (p.dist s a)
      omega
  · have h' := (he.outcomes s a).resolve_left h
    rw [if_neg h, if_neg (by rw [h']; exact h), h']
    refine filter_length_le fun t _ ht => ?_
    have := he.visits t
    simp only [decide_eq_true_eq] at ht ⊢
    omega

theorem sum_lt {α : Type} (l : List α) (f g : α → Nat) (h : ∀ x ∈ l, g x ≤ f x) {y : α} (hy : y ∈ l) (hlt : g y < f y) : (l.map g).sum < (l.map f).sum := by
  induction l with
  | nil => cases hy
  | cons x l ih =>
    simp only [List.map_cons, List.sum_cons]
    have hx := h x (by simp)
    have hle : (l.map g).sum ≤ (l.map f).sum := List.sum_le_sum fun z hz => h z (List.mem_cons_of_mem _ hz)
    rcases List.mem_cons.1 hy with rfl | hy
    · omega
    · have := ih (fun z hz => h z (List.mem_cons_of_mem _ hz)) hy
      omega

theorem Explored.ext (h : Explored p st s) (he : Ext st st') : Explored p st' s := by
  intro a ha
  obtain ⟨h1, h2⟩ := h a ha
  have h3 := (he.outcomes s a).resolve_left h1
  rw [h3]
  exact ⟨h1, fun t ht => lt_of_lt_of_le (h2 t ht) (he.visits t)⟩

/-- Each rollout tries something new until there is nothing new. -/
theorem iteration_left (hd : Total p) (ho : Orders p) (h : Inv p none st) (hs : st.has s) (ha : p.actions s ≠ []) (ht : p.terminal s = false)
    (hm : 0 < p.maxDepth) (hx : iteration p st s = .ok st') :
    Explored p st s ∨ ((p.actions s).map (left p st' s)).sum < ((p.actions s).map (left p st s)).sum := by
  have ht' : (st.node s).terminal = false := by
    by_contra hn
    have := h.terminal s (by simpa using hn)
    rw [ht] at this
    cases this
  obtain ⟨i1, i2, _⟩ := iteration_inv hd ho h hs hx
  obtain ⟨a, a1, _, a3, (a4 | ⟨u, a4, a5, a6⟩) | a4⟩ := iteration_first hd ho h hs ha ht' hm hx
  · right
    refine sum_lt _ _ _ (fun b _ => left_mono i2 i1) a1 ?_
    rw [left, left, if_pos a4, a3, if_neg (hd s a a1)]
    have := List.length_filter_le (fun t => decide ((st'.node t).visits = 0)) (p.dist s a)
    omega
  · right
    refine sum_lt _ _ _ (fun b _ => left_mono i2 i1) a1 ?_
    have hne : (st.act s a).outcomes ≠ [] := List.ne_nil_of_mem a4
    have h' := (i2.outcomes s a).resolve_left hne
    rw [left, left, if_neg hne, if_neg (by rw [h']; exact hne), h']
    refine filter_length_lt (fun t _ ht => ?_) a4 (by simpa using a5) (by simp; omega)
    have := i2.visits t
    simp only [decide_eq_true_eq] at ht ⊢
    omega
  · exact .inl a4.1

theorem left_le (h : Inv p none st) : left p st s a ≤ 1 + (p.dist s a).length := by
  rw [left]
  split
  · exact Nat.le_refl _
  · rename_i hn
    rw [(h.outcomes s a).resolve_left hn]
    have := List.length_filter_le (fun t => decide ((st.node t).visits = 0)) (p.dist s a)
    omega

theorem iterate_explored (hd : Total p) (ho : Orders p) (ha : p.actions s ≠ []) (ht : p.terminal s = false) (hm : 0 < p.maxDepth) (n : Nat) (st : St σ Act F)
    (h : Inv p none st) (hs : st.has s) (hn : ((p.actions s).map (left p st s)).sum ≤ n) (hx : iterate p s n st = .ok st') : Explored p st' s := by
  induction n generalizing st with
  | zero =>
    obtain rfl := Except.ok.inj hx
    have h0 : ∀ a ∈ p.actions s, left p st s a = 0 := by
      intro a ha
      have := List.single_le_sum (l := (p.actions s).map (left p st s)) (by simp) _ (List.mem_map_of_mem ha)
      omega
    intro a ha
    have := h0 a ha
    rw [left] at this
    split at this
    · omega
    · rename_i hne
      refine ⟨hne, fun t ht => ?_⟩
      by_contra hv
      have hf : t ∈ (st.act s a).outcomes.filter fun t => (st.node t).visits = 0 := List.mem_filter.2 ⟨ht, by simp; omega⟩
      rw [List.length_eq_zero_iff.1 this] at hf
      cases hf
  | succ n ih =>
    have hx' := hx
    rw [iterate] at hx
    obtain ⟨st1, h1, h2⟩ := bind_eq_ok.1 hx
    obtain ⟨i1, i2, _⟩ := iteration_inv hd ho h hs h1
    rcases iteration_left hd ho h hs ha ht hm h1 with he | hlt
    · exact he.ext (iterate_inv hd ho _ _ h hs hx').2.1
    · exact ih _ i1 (i2.has s hs) (by omega) h2

/-! ### Unbounded exploration -/

/-- The exploration bonus of rarely tried actions exceeds that of the others by any amount, once there are enough visits. -/
def Forcing (p : Problem σ Act F) : Prop :=
  ∀ (K : Nat) (B : F), ∃ N, ∀ n ≥ N, ∀ m > K, ∀ k, 0 < k → k ≤ K → B + p.bonus n m < p.bonus n k

theorem iteration_tries [IsStrictOrderedRing F] {lo hi : F} {K : Nat} (hN : ∀ m > K, ∀ k, 0 < k → k ≤ K → hi - lo + p.bonus (st.node s).visits m < p.bonus (st.node s).visits k)
    (hd : Total p) (ho : Orders p) (h : Inv p none st) (hs : st.has s) (ha : p.actions s ≠ []) (ht : p.terminal s = false)
    (hm : 0 < p.maxDepth) (hB : Bnd lo hi st) (hE : Explored p st s) (hx : iteration p st s = .ok st') :
    (∀ a ∈ p.actions s, K < (st.act s a).visits) ∨
      ((p.actions s).map fun a => K + 1 - (st'.act s a).visits).sum < ((p.actions s).map fun a => K + 1 - (st.act s a).visits).sum := by
  by_cases hall : ∀ a ∈ p.actions s, K < (st.act s a).visits
  · exact .inl hall
  right
  have ht' : (st.node s).terminal = false := by
    by_contra hn
    have := h.terminal s (by simpa using hn)
    rw [ht] at this
    cases this
  obtain ⟨i1, i2, _⟩ := iteration_inv hd ho h hs hx
  obtain ⟨a, a1, a2, _, (a4 | ⟨u, a4, a5, _⟩) | ⟨_, a4⟩⟩ := iteration_first hd ho h hs ha ht' hm hx
  · exact absurd a4 (hE a a1).1
  · have := (hE a a1).2 u a4
    omega
  · have hle : (st.act s a).visits ≤ K := by
      by_contra hgt
      apply hall
      intro b hb
      by_contra hb'
      have hpos := (h.visited s b (hE b hb).1).resolve_right (by simp)
      have h1 := hN (st.act s a).visits (by omega) (st.act s b).visits hpos (by omega)
      have h2 := a4 b hb
      have h3 := hB.act s a
      have h4 := hB.act s b
      linarith
    exact sum_lt _ _ _ (fun b _ => by have := i2.tried s b; omega) a1 (by omega)

theorem iterate_tries [IsStrictOrderedRing F] {lo hi : F} {K N : Nat} (hN : ∀ n ≥ N, ∀ m > K, ∀ k, 0 < k → k ≤ K → hi - lo + p.bonus n m < p.bonus n k)
    (hb : Bounds p lo hi) (hd : Total p) (ho : Orders p) (ha : p.actions s ≠ []) (ht : p.terminal s = false) (hm : 0 < p.maxDepth) (n : Nat) (st : St σ Act F)
    (h : Inv p none st) (hs : st.has s) (hB : Bnd lo hi st) (hE : Explored p st s) (hv : N ≤ (st.node s).visits)
    (hn : ((p.actions s).map fun a => K + 1 - (st.act s a).visits).sum ≤ n) (hx : iterate p s n st = .ok st') : ∀ a ∈ p.actions s, K < (st'.act s a).visits := by
  induction n generalizing st with
  | zero =>
    obtain rfl := Except.ok.inj hx
    intro a ha
    have := List.single_le_sum (l := (p.actions s).map fun a => K + 1 - (st.act s a).visits) (by simp) _ (List.mem_map_of_mem ha)
    omega
  | succ n ih =>
    have hx' := hx
    rw [iterate] at hx
    obtain ⟨st1, h1, h2⟩ := bind_eq_ok.1 hx
    obtain ⟨i1, i2, i3⟩ := iteration_inv hd ho h hs h1
    rcases iteration_tries (hN _ hv) hd ho h hs ha ht hm hB hE h1 with he | hlt
    · intro a ha
      exact lt_of_lt_of_le (he a ha) ((iterate_inv hd ho _ _ h hs hx').2.1.tried s a)
    · exact ih _ i1 (i2.has s hs) (iteration_bnd hb hd ho h hs hB h1) (hE.ext i2) (by omega) (by omega) h2

/-! ### One step to the end -/

/-- Expanding one node touches no other node but to add new ones. -/
theorem expand_local {x : Option σ} (hx : expand p st s = .ok (st', x)) : (∀ u b, u ≠ s → st'.act u b = st.act u b) ∧
    ∀ u, u ≠ s → st'.has u → (st.has u ∧ (st'.node u).terminal = (st.node u).terminal) ∨ (st'.node u).terminal = p.terminal u := by
  rw [expand] at hx
  split at hx
  · obtain ⟨rfl, _⟩ := Prod.mk.inj (Except.ok.inj hx)
    exact ⟨fun _ _ _ => rfl, fun _ _ h => .inl ⟨h, rfl⟩⟩
  · obtain ⟨g1, _, g3, _⟩ := generate_spec (p := p) (st := st) (s := s)
    have g5 : ∀ u, u ≠ s → (generate p st s).has u → st.has u := by
      intro u hu hh
      rw [generate] at hh
      split at hh
      · exact ((has_setNode _).1 hh).resolve_left hu
      · exact hh
    generalize generate p st s = st1 at hx g1 g3 g5
    have gt : ∀ u, (st1.node u).terminal = (st.node u).terminal := fun u => by rw [g1]
    simp only at hx
    split at hx
    · obtain ⟨rfl, _⟩ := Prod.mk.inj (Except.ok.inj hx)
      refine ⟨fun u b hu => by rw [act_setNode, g3], fun u hu hh => .inl ⟨g5 u hu (((has_setNode _).1 hh).resolve_left hu), ?_⟩⟩
      rw [node_setNode, if_neg hu, gt]
    · rename_i a hp
      obtain ⟨⟨st2, t'⟩, h1, hy⟩ := bind_eq_ok.1 hx
      obtain ⟨rfl, _⟩ := Prod.mk.inj (Except.ok.inj hy)
      obtain ⟨e1, e2⟩ := expandAction_ok h1
      simp only at e1 e2
      rw [e1]
      refine ⟨fun u b hu => ?_, fun u hu hh => ?_⟩
      · show (grown p { st1 with draw := st1.draw + 1 } s a).act u b = _
        rw [grown_act, if_neg (fun h => hu h.1), ← g3]
        rfl
      · have hh' : (grown p { st1 with draw := st1.draw + 1 } s a).has u := hh
        have hgn : ((grown p { st1 with draw := st1.draw + 1 } s a).node u) = _ := grown_node
        show st.has u ∧ ((grown p { st1 with draw := st1.draw + 1 } s a).node u).terminal = _ ∨ ((grown p { st1 with draw := st1.draw + 1 } s a).node u).terminal = _
        by_cases h0 : (St.mk st1.graph st1.acts (st1.draw + 1)).has u
        · refine .inl ⟨g5 u hu h0, ?_⟩
          rw [hgn, ← gt]
          split
          · exact (reached_spec.1 h0).1
          · rfl
        · right
          rw [hgn, if_pos ((grown_has.1 hh').resolve_right h0), reached_spec.2.1 h0]
    · obtain ⟨rfl, _⟩ := Prod.mk.inj (Except.ok.inj hx)
      exact ⟨fun u b _ => g3 u b, fun u hu hh => .inl ⟨g5 u hu hh, gt u⟩⟩

/-- Problems that end after one step: the depth is one, or the outcomes of the root are terminal.
`w t` is the result of any simulation from the outcome `t`. -/
structure OneStep (p : Problem σ Act F) (root : σ) (w : σ → F) : Prop where
  depth : 0 < p.maxDepth
  nonterminal : p.terminal root = false
  actions : p.actions root ≠ []
  away : ∀ a ∈ p.actions root, ∀ t ∈ p.dist root a, t ≠ root
  stop : p.maxDepth = 1 ∨ ∀ a ∈ p.actions root, ∀ t ∈ p.dist root a, p.terminal t = true
  heuristic : ∀ t, (p.heuristic t).2 = 0
  walk : ∀ a ∈ p.actions root, ∀ t ∈ p.dist root a, ∀ k r k', walk p (p.maxDepth - 1) k t 0 1 = .ok (r, k') → r = w t

structure One (p : Problem σ Act F) (root : σ) (w : σ → F) (st : St σ Act F) : Prop where
  only : ∀ s a, (st.act s a).outcomes ≠ [] → s = root
  flag : ∀ t, st.has t → t ≠ root → (st.node t).terminal = p.terminal t
  node : ∀ t, t ≠ root → 0 < (st.node t).visits → (st.node t).value = w t
  act : ∀ a, ∃ ts : List σ, ts.length = (st.act root a).visits ∧ (∀ t ∈ ts, t ∈ p.dist root a) ∧
    (st.act root a).value * (st.act root a).visits = (ts.map fun t => p.reward root a t + p.discount * w t).sum

variable {root : σ} {w : σ → F}

theorem One.expand (hw : OneStep p root w) {x : Option σ} (h : One p root w st) (hk : Keep p st st') (hx : expand p st root = .ok (st', x)) : One p root w st' := by
  obtain ⟨l1, l2⟩ := expand_local hx
  refine ⟨fun s a hs => ?_, fun t ht hr => ?_, fun t ht hv => ?_, fun a => ?_⟩
  · by_contra hn
    rw [l1 s a hn] at hs
    exact hn (h.only s a hs)
  · rcases l2 t hr ht with ⟨h1, h2⟩ | h1
    · rw [h2]; exact h.flag t h1 hr
    · exact h1
  · rcases hk.node t with ⟨h1, h2⟩ | ⟨_, _, h2⟩
    · rw [h1]; exact h.node t ht (by rw [← h2]; exact hv)
    · rw [h2, hw.heuristic] at hv; cases hv
  · rw [(hk.act root a).1, (hk.act root a).2]
    exact h.act a

theorem One.draw (h : One p root w st) (k : Nat) : One p root w { st with draw := k } := ⟨h.only, h.flag, h.node, h.act⟩

/-- The tree policy goes one step. -/
theorem treePolicy_one (hw : OneStep p root w) (hd : Total p) (hi : Inv p none st) (h : One p root w st) {m : Nat}
    (hx : treePolicy p p.maxDepth st root = .ok (st', u, m)) : One p root w st' ∧ m = p.maxDepth - 1 ∧ ∃ a ∈ p.actions root, u ∈ p.dist root a := by
  obtain ⟨n, hn⟩ : ∃ n, p.maxDepth = n + 1 := ⟨p.maxDepth - 1, by have := hw.depth; omega⟩
  rw [hn] at hx
  have ht' : (st.node root).terminal = false := by
    by_contra hn
    have := hi.terminal root (by simpa using hn)
    rw [hw.nonterminal] at this
    cases this
  rw [treePolicy, if_neg (by simp [ht'])] at hx
  obtain ⟨⟨st1, next⟩, h1, h2⟩ := bind_eq_ok.1 hx
  simp only at h2
  cases next with
  | some t =>
    simp only at h2
    obtain ⟨rfl, h3⟩ := Prod.mk.inj (Except.ok.inj h2)
    obtain ⟨rfl, rfl⟩ := Prod.mk.inj h3
    obtain ⟨_, e2, _, a, e3, e4, e5, _⟩ := expand_some hi (hd root) h1
    exact ⟨h.expand hw e2 h1, by omega, a, e3, by rw [← (e5.outcomes root a).resolve_left (List.ne_nil_of_mem e4)]; exact e4⟩
  | none =>
    simp only at h2
    obtain ⟨e1, e2, e3, e4⟩ := expand_none hi h1
    have h' := h.expand hw e2 h1
    split at h2
    · rename_i hu
      exact absurd (ucb_none e3 e4 hu) hw.actions
    · rename_i a hu
      obtain ⟨u1, _, _⟩ := ucb_some hu
      rw [(e3.expanded root e4).1] at u1
      split at h2
      · cases h2
      · rename_i t ht
        have ht1 := pick_mem ht
        have ht2 : t ∈ p.dist root a := by rw [← (e3.outcomes root a).resolve_left (List.ne_nil_of_mem ht1)]; exact ht1
        have hres : treePolicy p n { st1 with draw := st1.draw + 1 } t = .ok ({ st1 with draw := st1.draw + 1 }, t, n) := by
          rcases hw.stop with hs | hs
          · have : n = 0 := by omega
            subst this
            rfl
          · cases n with
            | zero => rfl
            | succ n =>
              rw [treePolicy, if_pos]
              have hf := h'.flag t (e3.has _ _ _ ht1) (hw.away a u1 t ht2)
              rw [hs a u1 t ht2] at hf
              exact hf
        rw [hres] at h2
        obtain ⟨rfl, h3⟩ := Prod.mk.inj (Except.ok.inj h2)
        obtain ⟨rfl, rfl⟩ := Prod.mk.inj h3
        exact ⟨h'.draw _, by omega, a, u1, ht2⟩

variable [IsStrictOrderedRing F]

theorem mean_self (n : Nat) (v : F) : mean n v v = v := by
  have hp : (n : F) + 1 ≠ 0 := by
    have : (0 : F) ≤ (n : F) := Nat.cast_nonneg n
    linarith
  rw [mean, div_eq_iff hp]
  ring

theorem mean_zero (v x : F) : mean 0 v x = x := by
  rw [mean]; simp

theorem One.rollout (hw : OneStep p root w) (h : One p root w st) (hh : st.has u) (hu : ∃ a ∈ p.actions root, u ∈ p.dist root a)
    (hx : rollout p (p.maxDepth - 1) st u = .ok st') : One p root w st' := by
  obtain ⟨a, ha, hud⟩ := hu
  obtain ⟨r1, r2, r3, r4, r, k, r5, r6⟩ := rollout_ok hh hx
  refine ⟨fun s a => by rw [r3]; exact h.only s a, fun t ht => ?_, fun t ht hv => ?_, fun a => by rw [r3]; exact h.act a⟩
  · rw [r1.grow.node t]; exact h.flag t ((r1.grow.has t).1 ht)
  · by_cases hut : t = u
    · subst hut
      rw [r6, hw.walk a ha t hud _ _ _ r5]
      by_cases hv0 : (st.node t).visits = 0
      · rw [hv0, mean_zero]
      · rw [h.node t ht (by omega), mean_self]
    · rw [r4 t hut] at hv ⊢
      exact h.node t ht hv

theorem One.parent (hl : Linked p st) (h : One p root w st) {f : σ} (hf : f ≠ root) (hv : 0 < (st.node f).visits) {pa : σ × Act} (hpa : pa ∈ (st.node f).parents) :
    One p root w (backupParent p f st pa) ∧ pa.1 = root := by
  obtain ⟨l1, l2, l3, l4⟩ := hl f pa.1 pa.2 hpa
  have hr := h.only _ _ l3
  have hu := backupParent_up hl f pa hpa
  refine ⟨⟨fun s a => by rw [hu.grow.act s a]; exact h.only s a, fun t ht => by rw [hu.grow.node t]; exact h.flag t ((hu.grow.has t).1 ht), fun t ht => ?_, fun a => ?_⟩, hr⟩
  · rw [backupParent_node, if_neg (by rw [hr]; exact ht)]
    exact h.node t ht
  · rw [backupParent_act]
    obtain ⟨ts, h1, h2, h3⟩ := h.act a
    split
    · rename_i hc
      rw [h.node f hf hv, ← hc.1, ← hc.2]
      have hp : ((st.act root a).visits : F) + 1 ≠ 0 := by
        have : (0 : F) ≤ ((st.act root a).visits : F) := Nat.cast_nonneg _
        linarith
      refine ⟨f :: ts, by simp [h1], fun t ht => ?_, ?_⟩
      · rcases List.mem_cons.1 ht with rfl | ht
        · rw [hc.1, hc.2]; exact l1
        · exact h2 t ht
      · simp only [List.map_cons, List.sum_cons, ← h3, mean, Nat.cast_add, Nat.cast_one]
        rw [div_mul_cancel₀ _ hp]
        ring
    · exact ⟨ts, h1, h2, h3⟩

theorem One.frontier (hi : ∀ q c, (q, c) ∉ (st.node root).parents) (ho : Orders p) (fr : List σ) (f : σ) (hl : Linked p st) (h : One p root w st)
    (hv : f ≠ root → 0 < (st.node f).visits) (hfr : ∀ u ∈ fr, u = root) :
    One p root w (updateFrontier p (st, fr) f).1 ∧ ∀ u ∈ (updateFrontier p (st, fr) f).2, u = root := by
  by_cases hf : f = root
  · have : (st.node f).parents = [] := List.eq_nil_iff_forall_not_mem.2 fun x hx => hi x.1 x.2 (by rw [← hf]; exact hx)
    have h2 : p.orderP ([] : List (σ × Act)) = [] := List.perm_nil.1 (ho.parents [])
    rw [updateFrontier]
    simp only [this, h2, List.foldl_nil]
    exact ⟨h, hfr⟩
  · have key : ∀ (ps : List (σ × Act)) (x : St σ Act F × List σ), Linked p x.1 → (∀ pa ∈ ps, pa ∈ (x.1.node f).parents) → One p root w x.1 → 0 < (x.1.node f).visits →
        (∀ u ∈ x.2, u = root) →
        One p root w (ps.foldl (fun x pa => (backupParent p f x.1 pa, if pa.1 ∈ x.2 then x.2 else x.2 ++ [pa.1])) x).1 ∧
        ∀ u ∈ (ps.foldl (fun x pa => (backupParent p f x.1 pa, if pa.1 ∈ x.2 then x.2 else x.2 ++ [pa.1])) x).2, u = root := by
      intro ps
      induction ps with
      | nil => exact fun x _ _ h _ hr => ⟨h, hr⟩
      | cons pa ps ih =>
        intro x hl hps h hv hr
        have hu := backupParent_up hl f pa (hps pa (by simp))
        obtain ⟨o1, o2⟩ := h.parent hl hf hv (hps pa (by simp))
        refine ih _ (hl.up hu) (fun pa' h => by rw [hu.parents]; exact hps pa' (List.mem_cons_of_mem _ h)) o1 (lt_of_lt_of_le hv (hu.grow.visits f)) ?_
        intro u hu
        simp only at hu
        split at hu
        · exact hr u hu
        · rcases List.mem_append.1 hu with h | h
          · exact hr u h
          · rw [List.mem_singleton.1 h]; exact o2
    exact key _ (st, fr) hl (fun pa h => (ho.parents _).mem_iff.1 h) h (hv hf) hfr

theorem One.round (hi : ∀ q c, (q, c) ∉ (st.node root).parents) (ho : Orders p) (fs fr : List σ) (hl : Linked p st) (h : One p root w st)
    (hv : ∀ f ∈ fs, f ≠ root → 0 < (st.node f).visits) (hfr : ∀ u ∈ fr, u = root) :
    One p root w (fs.foldl (updateFrontier p) (st, fr)).1 ∧ ∀ u ∈ (fs.foldl (updateFrontier p) (st, fr)).2, u = root := by
  induction fs generalizing st fr with
  | nil => exact ⟨h, hfr⟩
  | cons f fs ih =>
    have hu := (updateFrontier_up (p.orderP (st.node f).parents) f (st, fr) hl fun pa h => (ho.parents _).mem_iff.1 h).1
    obtain ⟨o1, o2⟩ := h.frontier hi ho fr f hl (hv f (by simp)) hfr
    rw [List.foldl_cons]
    have hu' : Up st (updateFrontier p (st, fr) f).1 := hu
    exact ih (st := (updateFrontier p (st, fr) f).1) (fr := (updateFrontier p (st, fr) f).2) (fun q c => by rw [hu'.parents]; exact hi q c) (hl.up hu') o1
      (fun g hg hr => lt_of_lt_of_le (hv g (List.mem_cons_of_mem _ hg) hr) (hu'.grow.visits g)) o2

theorem One.backup (hi : ∀ q c, (q, c) ∉ (st.node root).parents) (ho : Orders p) (n : Nat) (fs : List σ) (hl : Linked p st) (h : One p root w st)
    (hv : ∀ f ∈ fs, f ≠ root → 0 < (st.node f).visits) : One p root w (backup p n st fs) := by
  induction n generalizing st fs with
  | zero => exact h
  | succ n ih =>
    rw [Mcts.backup]
    obtain ⟨o1, o2⟩ := h.round hi ho (p.order fs) [] hl (fun f hf => hv f ((ho.states _).mem_iff.1 hf)) (by simp)
    have hu := (round_up ho (p.order fs) (st, []) hl).1
    exact ih (fun q c => by rw [hu.parents]; exact hi q c) _ (hl.up hu) o1 (fun f hf hr => absurd (o2 f hf) hr)

theorem iteration_one (hw : OneStep p root w) (hd : Total p) (ho : Orders p) (h : Inv p none st) (hs : st.has root) (h1 : One p root w st) (hx : iteration p st root = .ok st') :
    One p root w st' := by
  obtain ⟨st1, st2, u, m, ex, k, t1, t2, rfl, e1, e2, e3, e4, e5, e6, r1, r2, i2, b1, hu⟩ := iteration_ok hd ho h hs hx
  obtain ⟨o1, rfl, o3⟩ := treePolicy_one hw hd h h1 t1
  have o2 := o1.rollout hw hu o3 t2
  refine o2.backup (fun q c hm => ?_) ho _ _ i2.linked fun f hf _ => ?_
  · obtain ⟨l1, l2, l3, _⟩ := i2.linked root q c hm
    have := o2.only q c l3
    subst this
    exact hw.away c l2 q l1 rfl
  · rw [List.mem_singleton.1 hf]; omega

theorem start_one : One p root w (St.empty.emplace root : St σ Act F) := by
  have h1 : ∀ s, (St.empty.emplace root : St σ Act F).node s = ⟨false, false, [], 0, 0, []⟩ := fun s => by rw [node_emplace]; rfl
  have h2 : ∀ s a, (St.empty.emplace root : St σ Act F).act s a = ⟨[], 0, 0⟩ := fun s a => by rw [act_emplace]; rfl
  refine ⟨fun s a => by rw [h2]; simp, fun t ht hr => ?_, fun t _ => by rw [h1]; simp, fun a => ⟨[], by rw [h2]; simp, by simp, by rw [h2]; simp⟩⟩
  rcases has_emplace.1 ht with rfl | h
  · exact absurd rfl hr
  · rw [← contains_iff_has] at h
    cases h

end Verif.Mcts
