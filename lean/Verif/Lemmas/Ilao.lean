import Verif.Model.Ilao
import Verif.Lemmas.Mdp

/-! Invariants of the model of ilaostar.hh. -/
namespace Verif.Ilao
variable [DecidableEq σ] {m : Mdp σ α} {c : Config σ}

theorem node_set (g : Graph σ α) (s t : σ) (n : Node α) : node (g.set s n) t = if t = s then n else node g t := by
  unfold node
  rw [Dict.get?_set]
  split <;> rfl

theorem contains_set (g : Graph σ α) (s t : σ) (n : Node α) : Dict.contains (g.set s n) t = (decide (t = s) || g.contains t) := by
  rw [Dict.contains_eq, Dict.contains_eq, Dict.get?_set]
  by_cases h : t = s <;> simp [h]

theorem node_not_contains {g : Graph σ α} {s : σ} (h : g.contains s = false) : node g s = {} := by
  rw [Dict.contains_eq] at h
  unfold node
  cases hg : g.get? s with
  | none => rfl
  | some n => rw [hg] at h; simp at h

theorem contains_set_same {g : Graph σ α} {s : σ} (h : g.contains s = true) (n : Node α) (t : σ) :
    Dict.contains (g.set s n) t = g.contains t := by
  rw [contains_set]
  by_cases ht : t = s
  · subst ht; simp [h]
  · simp [ht]

/-- A result that satisfies `P`; an exception only without `L`. -/
def Good (L : Prop) (P : β → Prop) : Except Stop β → Prop
  | .ok x => P x
  | .error .unfinished => True
  | .error (.raised _) => ¬ L

theorem Good.bind {L : Prop} {P : β → Prop} {Q : γ → Prop} {r : Except Stop β} {f : β → Except Stop γ} (h : Good L P r) (hf : ∀ x, P x → Good L Q (f x)) :
    Good L Q (r >>= f) := by
  cases r with
  | error e =>
    cases e with
    | unfinished => trivial
    | raised e => exact h
  | ok x => exact hf x h

theorem Good.mono {L : Prop} {P Q : β → Prop} {r : Except Stop β} (h : Good L P r) (hf : ∀ x, P x → Q x) : Good L Q r := by
  cases r with
  | error e => cases e <;> exact h
  | ok x => exact hf x h

/-- At most the bound, `none` being infinity. -/
def Below : Option Rat → Option Rat → Prop
  | _, none => True
  | some v, some u => v ≤ u
  | none, some _ => False

/-- The value of an action in terms of `U`, `none` being infinity. -/
def meanInf (m : Mdp σ α) (d : Rat) (U : σ → Option Rat) (s : σ) (a : α) : Option Rat :=
  if (m.outcomes s a).all fun o => (U o.2.2).isSome then some ((m.outcomes s a).map fun o => o.1 * (o.2.1 + d * (U o.2.2).getD 0)).sum else none

/-- `U` is at least the heuristic, and at least what some action costs in terms of `U`; it may be
infinite. -/
structure CostBound (m : Mdp σ α) (c : Config σ) (U : σ → Option Rat) : Prop where
  prob : ∀ s, ∀ a ∈ m.actions s, ∀ o ∈ m.outcomes s a, 0 ≤ o.1
  discount : 0 ≤ c.discount
  goal : ∀ s, m.goal s = true → Below (some 0) (U s)
  heuristic : ∀ s, m.goal s = false → Below (some (c.h s)) (U s)
  action : ∀ s u, m.goal s = false → U s = some u → ∃ a ∈ m.actions s, ∃ w, meanInf m c.discount U s a = some w ∧ w ≤ u

/-- Every state that is no goal has an action. -/
def NoDeadEnd (m : Mdp σ α) : Prop := ∀ s, m.goal s = false → m.actions s ≠ []

/-- What holds of the graph at all times. -/
structure Inv (m : Mdp σ α) (c : Config σ) (U : σ → Option Rat) (g : Graph σ α) : Prop where
  goal : ∀ s, g.contains s = true → m.goal s = true → (node g s).goal = true ∧ (node g s).solved = true ∧ (node g s).value = some 0
  nogoal : ∀ s, (node g s).goal = true → m.goal s = true
  exp : ∀ s, (node g s).expanded = true → g.contains s = true ∧ m.goal s = false ∧ ∀ a ∈ m.actions s, ∀ o ∈ m.outcomes s a, g.contains o.2.2 = true
  best : ∀ s a, (node g s).best = some a → (node g s).expanded = true ∧ a ∈ m.actions s
  tip : ∀ s, (node g s).expanded = false → m.goal s = false → (node g s).reach = true ∧ (node g s).solved = false
  below : ∀ s, g.contains s = true → Below (node g s).value (U s)
  live : NoDeadEnd m → ∀ s, g.contains s = true → (node g s).value ≠ none ∧ ((node g s).expanded = true → (node g s).best ≠ none)

/-- Only `reach`, `fpt`, `residual` and `solved` differ, and the latter not for goals. -/
structure Same (m : Mdp σ α) (g g' : Graph σ α) : Prop where
  contains : ∀ s, Dict.contains g' s = Dict.contains g s
  expanded : ∀ s, (node g' s).expanded = (node g s).expanded
  best : ∀ s, (node g' s).best = (node g s).best
  value : ∀ s, (node g' s).value = (node g s).value
  goal : ∀ s, (node g' s).goal = (node g s).goal
  solved : ∀ s, m.goal s = true → (node g' s).solved = (node g s).solved
  tip : ∀ s, (node g s).expanded = false → m.goal s = false → (node g s).reach = true ∧ (node g s).solved = false →
    (node g' s).reach = true ∧ (node g' s).solved = false

theorem Same.refl (g : Graph σ α) : Same m g g := ⟨fun _ => rfl, fun _ => rfl, fun _ => rfl, fun _ => rfl, fun _ => rfl, fun _ _ => rfl, fun _ _ _ h => h⟩

theorem Same.trans {g g' g'' : Graph σ α} (h : Same m g g') (h' : Same m g' g'') : Same m g g'' :=
  ⟨fun s => (h'.contains s).trans (h.contains s), fun s => (h'.expanded s).trans (h.expanded s), fun s => (h'.best s).trans (h.best s),
    fun s => (h'.value s).trans (h.value s), fun s => (h'.goal s).trans (h.goal s), fun s hs => (h'.solved s hs).trans (h.solved s hs),
    fun s h1 h2 h3 => h'.tip s (by rw [h.expanded]; exact h1) h2 (h.tip s h1 h2 h3)⟩

variable {U : σ → Option Rat}

theorem Inv.same {g g' : Graph σ α} (h : Inv m c U g) (e : Same m g g') : Inv m c U g' where
  goal := fun s hc hg => by rw [e.goal, e.solved s hg, e.value]; exact h.goal s (by rw [← e.contains]; exact hc) hg
  nogoal := fun s hs => h.nogoal s (by rw [← e.goal]; exact hs)
  exp := fun s hs => by
    obtain ⟨h1, h2, h3⟩ := h.exp s (by rw [← e.expanded]; exact hs)
    exact ⟨by rw [e.contains]; exact h1, h2, fun a ha o ho => by rw [e.contains]; exact h3 a ha o ho⟩
  best := fun s a hs => by rw [e.expanded]; exact h.best s a (by rw [← e.best]; exact hs)
  tip := fun s hs hg => by
    rw [e.expanded] at hs
    exact e.tip s hs hg (h.tip s hs hg)
  below := fun s hc => by rw [e.value]; exact h.below s (by rw [← e.contains]; exact hc)
  live := fun hl s hc => by rw [e.value, e.expanded, e.best]; exact h.live hl s (by rw [← e.contains]; exact hc)

/-- A change of `reach`. -/
theorem same_reach {g : Graph σ α} {s : σ} (hc : g.contains s = true) (b : Bool) (hb : (node g s).expanded = false → m.goal s = false → b = true) :
    Same m g (g.set s { node g s with reach := b }) := by
  refine ⟨contains_set_same hc _, ?_, ?_, ?_, ?_, ?_, ?_⟩
  · intro t; rw [node_set]; split
    · rename_i h; subst h; rfl
    · rfl
  · intro t; rw [node_set]; split
    · rename_i h; subst h; rfl
    · rfl
  · intro t; rw [node_set]; split
    · rename_i h; subst h; rfl
    · rfl
  · intro t; rw [node_set]; split
    · rename_i h; subst h; rfl
    · rfl
  · intro t _; rw [node_set]; split
    · rename_i h; subst h; rfl
    · rfl
  · intro t h1 h2 h3; rw [node_set]; split
    · rename_i h; subst h; exact ⟨hb h1 h2, h3.2⟩
    · exact h3

/-! ### Expanding and updating -/

theorem addNode_inv {g : Graph σ α} (hU : CostBound m c U) (h : Inv m c U g) (s : σ) : Inv m c U (addNode m c g s) := by
  rw [addNode]
  split
  · exact h
  · rename_i hc
    have hc : g.contains s = false := by simpa using hc
    have hn := node_not_contains hc
    have hout : ∀ n, (∀ t, (node g t).expanded = true → g.contains t = true ∧ m.goal t = false ∧ ∀ a ∈ m.actions t, ∀ o ∈ m.outcomes t a, g.contains o.2.2 = true) →
        ∀ t, (node g t).expanded = true → Dict.contains (g.set s n) t = true ∧ m.goal t = false ∧ ∀ a ∈ m.actions t, ∀ o ∈ m.outcomes t a, Dict.contains (g.set s n) o.2.2 = true := by
      intro n hh t ht
      obtain ⟨h1, h2, h3⟩ := hh t ht
      exact ⟨by rw [contains_set, h1, Bool.or_true], h2, fun a ha o ho => by rw [contains_set, h3 a ha o ho, Bool.or_true]⟩
    split
    · rename_i hg
      refine ⟨?_, ?_, ?_, ?_, ?_, ?_, ?_⟩
      · intro t ht hgt
        rw [node_set]
        split
        · exact ⟨rfl, rfl, rfl⟩
        · rename_i hts
          rw [contains_set] at ht
          exact h.goal t (by simpa [hts] using ht) hgt
      · intro t; rw [node_set]; split
        · rename_i hts; subst hts; exact fun _ => hg
        · exact h.nogoal t
      · intro t; rw [node_set]; split
        · intro hx; cases hx
        · exact hout _ h.exp t
      · intro t a; rw [node_set]; split
        · intro hx; cases hx
        · exact h.best t a
      · intro t; rw [node_set]; split
        · rename_i hts; subst hts; intro _ hx; rw [hg] at hx; cases hx
        · exact h.tip t
      · intro t ht; rw [node_set]; split
        · rename_i hts; subst hts; exact hU.goal _ hg
        · rename_i hts
          rw [contains_set] at ht
          exact h.below t (by simpa [hts] using ht)
      · intro hl t ht; rw [node_set]; split
        · exact ⟨by simp, by simp⟩
        · rename_i hts
          rw [contains_set] at ht
          exact h.live hl t (by simpa [hts] using ht)
    · rename_i hg
      have hg : m.goal s = false := by simpa using hg
      refine ⟨?_, ?_, ?_, ?_, ?_, ?_, ?_⟩
      · intro t ht hgt
        rw [node_set]
        split
        · rename_i hts; subst hts; rw [hg] at hgt; cases hgt
        · rename_i hts
          rw [contains_set] at ht
          exact h.goal t (by simpa [hts] using ht) hgt
      · intro t; rw [node_set]; split
        · intro hx; cases hx
        · exact h.nogoal t
      · intro t; rw [node_set]; split
        · intro hx; cases hx
        · exact hout _ h.exp t
      · intro t a; rw [node_set]; split
        · intro hx; cases hx
        · exact h.best t a
      · intro t; rw [node_set]; split
        · intro _ _; exact ⟨rfl, rfl⟩
        · exact h.tip t
      · intro t ht; rw [node_set]; split
        · rename_i hts; subst hts; exact hU.heuristic _ hg
        · rename_i hts
          rw [contains_set] at ht
          exact h.below t (by simpa [hts] using ht)
      · intro hl t ht; rw [node_set]; split
        · exact ⟨by simp, by simp⟩
        · rename_i hts
          rw [contains_set] at ht
          exact h.live hl t (by simpa [hts] using ht)

theorem addNode_contains (g : Graph σ α) (s t : σ) : (addNode m c g s).contains t = (decide (t = s) || g.contains t) := by
  rw [addNode]
  split
  · rename_i h
    by_cases ht : t = s
    · subst ht; simp [h]
    · simp [ht]
  · split <;> rw [contains_set]

theorem addNode_node (g : Graph σ α) {s t : σ} (h : g.contains t = true) : node (addNode m c g s) t = node g t := by
  rw [addNode]
  split
  · rfl
  · rename_i hc
    have : t ≠ s := by rintro rfl; exact hc h
    split <;> rw [node_set, if_neg this]

/-- The successors are added. -/
theorem addAll {g : Graph σ α} (hU : CostBound m c U) (h : Inv m c U g) (s : σ) (as : List α) :
    let g' := as.foldl (fun g a => (m.outcomes s a).foldl (fun g o => addNode m c g o.2.2) g) g
    Inv m c U g' ∧ (∀ t, g.contains t = true → g'.contains t = true ∧ node g' t = node g t) ∧
      ∀ a ∈ as, ∀ o ∈ m.outcomes s a, g'.contains o.2.2 = true := by
  have inner : ∀ (os : List (Rat × Rat × σ)) (g : Graph σ α), Inv m c U g →
      let g' := os.foldl (fun g o => addNode m c g o.2.2) g
      Inv m c U g' ∧ (∀ t, g.contains t = true → g'.contains t = true ∧ node g' t = node g t) ∧ ∀ o ∈ os, g'.contains o.2.2 = true := by
    intro os
    induction os with
    | nil => intro g h; exact ⟨h, fun t ht => ⟨ht, rfl⟩, by simp⟩
    | cons o os ih =>
      intro g h
      obtain ⟨h1, h2, h3⟩ := ih _ (addNode_inv hU h o.2.2)
      have hk : ∀ t, g.contains t = true → (addNode m c g o.2.2).contains t = true := fun t ht => by rw [addNode_contains, ht, Bool.or_true]
      refine ⟨h1, fun t ht => ⟨(h2 t (hk t ht)).1, (h2 t (hk t ht)).2.trans (addNode_node g ht)⟩, fun p hp => ?_⟩
      rcases List.mem_cons.1 hp with rfl | hp
      · exact (h2 _ (by rw [addNode_contains]; simp)).1
      · exact h3 p hp
  induction as generalizing g with
  | nil => exact ⟨h, fun t ht => ⟨ht, rfl⟩, by simp⟩
  | cons a as ih =>
    obtain ⟨i1, i2, i3⟩ := inner (m.outcomes s a) g h
    obtain ⟨h1, h2, h3⟩ := ih i1
    refine ⟨h1, fun t ht => ⟨(h2 t (i2 t ht).1).1, (h2 t (i2 t ht).1).2.trans (i2 t ht).2⟩, fun b hb o ho => ?_⟩
    rcases List.mem_cons.1 hb with rfl | hb
    · exact (h2 _ (i3 o ho)).1
    · exact h3 b hb o ho

omit [DecidableEq σ] in
theorem Below.trans_le {v w : Rat} {u : Option Rat} (h : v ≤ w) (hw : Below (some w) u) : Below (some v) u := by
  cases u with
  | none => trivial
  | some u => exact le_trans h hw

/-- What an update finds: the best action with a finite value, if there is one. -/
theorem update_val {g : Graph σ α} (hU : CostBound m c U) {s : σ} (hs : m.goal s = false) (hexp : (node g s).expanded = true)
    (hb : ∀ a ∈ m.actions s, ∀ o ∈ m.outcomes s a, Below (node g o.2.2).value (U o.2.2))
    (hl : NoDeadEnd m → ∀ a ∈ m.actions s, ∀ o ∈ m.outcomes s a, (node g o.2.2).value ≠ none) :
    ∃ r : Option (α × Rat), update m c g s = g.set s { node g s with best := r.map (·.1), value := r.map (·.2), residual := distance (r.map (·.2)) (node g s).value } ∧
      (∀ a v, r = some (a, v) → a ∈ m.actions s ∧ v = m.q c.discount (fun t => (node g t).value.getD 0) s a ∧
        ∀ b ∈ m.actions s, finite m g s b = true → v ≤ m.q c.discount (fun t => (node g t).value.getD 0) s b) ∧
      Below (r.map (·.2)) (U s) ∧ (NoDeadEnd m → r ≠ none) := by
  refine ⟨Mdp.greedy (fun a => m.q c.discount (fun t => (node g t).value.getD 0) s a) ((m.actions s).filter (finite m g s)),
    by rw [update]; simp only [hexp, if_true], ?_, ?_, ?_⟩
  · intro a v hr
    obtain ⟨h1, h2, h3⟩ := Mdp.greedy_some hr
    exact ⟨(List.mem_filter.1 h1).1, h2, fun b hb hf => h3 b (List.mem_filter.2 ⟨hb, hf⟩)⟩
  · cases hu : U s with
    | none => trivial
    | some u =>
      obtain ⟨a, ha, w, hw, hle⟩ := hU.action s u hs hu
      rw [meanInf] at hw
      split at hw
      · rename_i hall
        simp only [Option.some.injEq] at hw
        rw [List.all_eq_true] at hall
        have hfin : ∀ o ∈ m.outcomes s a, ∃ v w, (node g o.2.2).value = some v ∧ U o.2.2 = some w ∧ v ≤ w := by
          intro o ho
          obtain ⟨w, hw⟩ := Option.isSome_iff_exists.1 (hall o ho)
          have hb := hb a ha o ho
          rw [hw] at hb
          cases hv : (node g o.2.2).value with
          | none => rw [hv] at hb; exact absurd hb (by simp [Below])
          | some v => rw [hv] at hb; exact ⟨v, w, rfl, hw, hb⟩
        have hmem : a ∈ (m.actions s).filter (finite m g s) := by
          refine List.mem_filter.2 ⟨ha, ?_⟩
          rw [finite, List.all_eq_true]
          intro o ho
          obtain ⟨v, w, hv, _⟩ := hfin o ho
          rw [hv]; rfl
        have hq : m.q c.discount (fun t => (node g t).value.getD 0) s a ≤ w := by
          rw [← hw]
          refine m.q_mono hU.discount (hU.prob s a ha) (w := fun t => (U t).getD 0) fun o ho => ?_
          obtain ⟨v, w, hv, hw, hvw⟩ := hfin o ho
          rw [hv, hw]; exact hvw
        cases hr : Mdp.greedy (fun a => m.q c.discount (fun t => (node g t).value.getD 0) s a) ((m.actions s).filter (finite m g s)) with
        | none => rw [Mdp.greedy_none hr] at hmem; cases hmem
        | some av =>
          obtain ⟨a', v⟩ := av
          have := (Mdp.greedy_some hr).2.2 a hmem
          simp only [Option.map_some, Below]
          linarith
      · cases hw
  · intro hL hr
    have h1 := Mdp.greedy_none hr
    obtain ⟨a, as, ha⟩ := List.exists_cons_of_ne_nil (hL s hs)
    have ham : a ∈ m.actions s := by rw [ha]; simp
    have : a ∈ (m.actions s).filter (finite m g s) := by
      refine List.mem_filter.2 ⟨ham, ?_⟩
      rw [finite, List.all_eq_true]
      intro o ho
      have := hl hL a ham o ho
      cases hv : (node g o.2.2).value with
      | none => exact absurd hv this
      | some v => rfl
    rw [h1] at this
    cases this

/-- The invariant after an update of a state whose successors are there. -/
theorem update_inv' {g : Graph σ α} (hU : CostBound m c U) {s : σ} (hs : m.goal s = false) (hexp : (node g s).expanded = true) (hc : g.contains s = true)
    (hout : ∀ a ∈ m.actions s, ∀ o ∈ m.outcomes s a, g.contains o.2.2 = true)
    (hbel : ∀ t, g.contains t = true → Below (node g t).value (U t)) (hval : NoDeadEnd m → ∀ t, g.contains t = true → (node g t).value ≠ none)
    {g0 : Graph σ α} (h : Inv m c U g0) (hcon : ∀ t, g.contains t = true → t ≠ s → g0.contains t = true) (hsup : ∀ t, g0.contains t = true → g.contains t = true)
    (hother : ∀ t, t ≠ s → node g t = node g0 t) (hgs : (node g s).goal = (node g0 s).goal) : Inv m c U (update m c g s) := by
  obtain ⟨r, hr, h1, h2, h3⟩ := update_val hU hs hexp (fun a ha o ho => hbel _ (hout a ha o ho)) (fun hL a ha o ho => hval hL _ (hout a ha o ho))
  rw [hr]
  have hcs := contains_set_same hc { node g s with best := r.map (·.1), value := r.map (·.2), residual := distance (r.map (·.2)) (node g s).value }
  refine ⟨?_, ?_, ?_, ?_, ?_, ?_, ?_⟩
  · intro t ht hgt
    rw [hcs] at ht
    have hne : t ≠ s := by rintro rfl; rw [hs] at hgt; cases hgt
    rw [node_set, if_neg hne, hother t hne]
    exact h.goal t (hcon t ht hne) hgt
  · intro t; rw [node_set]; split
    · rename_i hts; subst hts; simp only [hgs]; exact h.nogoal _
    · rename_i hts; rw [hother t hts]; exact h.nogoal t
  · intro t; rw [node_set]; split
    · rename_i hts; subst hts
      intro _
      exact ⟨by rw [hcs]; exact hc, hs, fun a ha o ho => by rw [hcs]; exact hout a ha o ho⟩
    · rename_i hts; rw [hother t hts]
      intro ht
      obtain ⟨e1, e2, e3⟩ := h.exp t ht
      exact ⟨by rw [hcs]; exact hsup _ e1, e2, fun a ha o ho => by rw [hcs]; exact hsup _ (e3 a ha o ho)⟩
  · intro t a; rw [node_set]; split
    · rename_i hts; subst hts
      simp only [Option.map_eq_some_iff]
      rintro ⟨⟨a', v⟩, e, rfl⟩
      exact ⟨hexp, (h1 _ _ e).1⟩
    · rename_i hts; rw [hother t hts]; exact h.best t a
  · intro t; rw [node_set]; split
    · intro hx; simp only [hexp] at hx; cases hx
    · rename_i hts; rw [hother t hts]; exact h.tip t
  · intro t ht
    rw [hcs] at ht
    rw [node_set]; split
    · rename_i hts; subst hts; exact h2
    · exact hbel t ht
  · intro hL t ht
    rw [hcs] at ht
    rw [node_set]; split
    · have := h3 hL
      cases hr : r with
      | none => exact absurd hr this
      | some av => simp
    · rename_i hts; rw [hother t hts]; exact h.live hL t (hcon t ht hts)

theorem update_inv {g : Graph σ α} (hU : CostBound m c U) (h : Inv m c U g) {s : σ} (hexp : (node g s).expanded = true) : Inv m c U (update m c g s) := by
  obtain ⟨h1, h2, h3⟩ := h.exp s hexp
  exact update_inv' hU h2 hexp h1 h3 h.below (fun hL t ht => (h.live hL t ht).1) h (fun t ht _ => ht) (fun t ht => ht) (fun _ _ => rfl) rfl

theorem expand_update_inv {g : Graph σ α} (hU : CostBound m c U) (h : Inv m c U g) {s : σ} (hc : g.contains s = true) (hs : m.goal s = false) :
    Inv m c U (update m c (expand m c g s) s) := by
  obtain ⟨h1, h2, h3⟩ := addAll hU h s (m.actions s)
  rw [expand]
  simp only
  generalize (m.actions s).foldl (fun g a => (m.outcomes s a).foldl (fun g o => addNode m c g o.2.2) g) g = g' at h1 h2 h3 ⊢
  have hc' := (h2 s hc).1
  have hcs := contains_set_same hc' { node g' s with expanded := true }
  refine update_inv' hU hs (by rw [node_set, if_pos rfl]) (by rw [hcs]; exact hc') (fun a ha o ho => by rw [hcs]; exact h3 a ha o ho) ?_ ?_ h1
    (fun t ht _ => by rw [hcs] at ht; exact ht) (fun t ht => by rw [hcs]; exact ht) (fun t ht => by rw [node_set, if_neg ht]) (by rw [node_set, if_pos rfl])
  · intro t ht
    rw [hcs] at ht
    rw [node_set]; split
    · rename_i hts; subst hts; exact h1.below _ ht
    · exact h1.below t ht
  · intro hL t ht
    rw [hcs] at ht
    rw [node_set]; split
    · rename_i hts; subst hts; exact (h1.live hL _ ht).1
    · exact (h1.live hL t ht).1

/-- Updates change no flags that the searches look at. -/
theorem update_flags (g : Graph σ α) (s t : σ) : (node (update m c g s) t).expanded = (node g t).expanded ∧
    (node (update m c g s) t).solved = (node g t).solved ∧ (node (update m c g s) t).reach = (node g t).reach ∧
    (g.contains s = true → (update m c g s).contains t = g.contains t) := by
  rw [update]
  refine ⟨?_, ?_, ?_, fun h => contains_set_same h _ t⟩ <;>
  · rw [node_set]; split
    · rename_i h; subst h; rfl
    · rfl

end Verif.Ilao
