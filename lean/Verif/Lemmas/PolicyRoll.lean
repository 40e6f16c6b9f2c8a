import Verif.Lemmas.PolicyCost

namespace Verif.PolicyEval
open Verif

variable {σ α : Type}

/-- `t` is a rollout of the policy from `s₀` with the draws from `k` on, as far as it has got. -/
structure Rolling (d : Domain σ α) (pol : σ → α) (draw : Nat → σ → α → σ) (k : Nat) (s₀ : σ) (t : Trace σ α) : Prop where
  head : t.states[0]? = some s₀
  len : t.states.length = t.actions.length + 1
  len' : t.values.length = t.actions.length
  act : ∀ (j : Nat) (s : σ), j < t.actions.length → t.states[j]? = some s → t.actions[j]? = some (pol s)
  next : ∀ (j : Nat) (s : σ), j < t.actions.length → t.states[j]? = some s → t.states[j + 1]? = some (draw (k + j) s (pol s))
  value : ∀ (j : Nat) (s s' : σ), j < t.actions.length → t.states[j]? = some s → t.states[j + 1]? = some s' → t.values[j]? = some (d.cost s (pol s) s')

/-- `t` is a complete rollout. -/
structure Rolled (d : Domain σ α) (pol : σ → α) (draw : Nat → σ → α → σ) (k : Nat) (s₀ : σ) (t : Trace σ α) : Prop extends Rolling d pol draw k s₀ t where
  pos : 0 < t.actions.length
  stop : ∀ (j : Nat) (s : σ), 0 < j → t.states[j]? = some s → ((d.goal s = true ∨ d.terminal s = true) ↔ j = t.actions.length)
  total : ∃ s, t.states[t.actions.length]? = some s ∧ t.total = t.values.sum + if d.goal s then 0 else 1000

theorem get_snoc {β : Type} {l : List β} {x y : β} {j : Nat} : (l ++ [x])[j]? = some y ↔ (j < l.length ∧ l[j]? = some y) ∨ (j = l.length ∧ y = x) := by
  rcases Nat.lt_trichotomy j l.length with h | h | h
  · rw [List.getElem?_append_left h]
    constructor
    · intro e; exact Or.inl ⟨h, e⟩
    · rintro (⟨_, e⟩ | ⟨e, _⟩)
      · exact e
      · omega
  · subst h
    simp
    exact eq_comm
  · rw [List.getElem?_eq_none (by simp; omega)]
    constructor
    · simp
    · rintro (⟨e, _⟩ | ⟨e, _⟩) <;> omega

theorem Rolling.step {d : Domain σ α} {pol : σ → α} {draw : Nat → σ → α → σ} {k : Nat} {s₀ s : σ} {t : Trace σ α} (h : Rolling d pol draw k s₀ t)
    (hs : t.states[t.actions.length]? = some s) (c : Rat) :
    Rolling d pol draw k s₀ { states := t.states ++ [draw (k + t.actions.length) s (pol s)], total := c, values := t.values ++ [d.cost s (pol s) (draw (k + t.actions.length) s (pol s))], actions := t.actions ++ [pol s] } := by
  have hl := h.len
  have hl' := h.len'
  refine ⟨?_, by simp [hl], by simp [hl'], ?_, ?_, ?_⟩
  · dsimp only
    rw [get_snoc]
    exact Or.inl ⟨by omega, h.head⟩
  · intro j x hj hx
    dsimp only at hj hx ⊢
    rw [List.length_append, List.length_singleton] at hj
    rw [get_snoc] at hx ⊢
    rcases Nat.lt_or_ge j t.actions.length with h1 | h1
    · rcases hx with ⟨h2, h3⟩ | ⟨h2, h3⟩
      · exact Or.inl ⟨h1, h.act j x h1 h3⟩
      · omega
    · have : j = t.actions.length := by omega
      rcases hx with ⟨h2, h3⟩ | ⟨h2, h3⟩
      · rw [this, hs] at h3
        simp only [Option.some.injEq] at h3
        rw [h3]
        exact Or.inr ⟨this, rfl⟩
      · omega
  · intro j x hj hx
    dsimp only at hj hx ⊢
    rw [List.length_append, List.length_singleton] at hj
    rw [get_snoc] at hx ⊢
    rcases Nat.lt_or_ge j t.actions.length with h1 | h1
    · rcases hx with ⟨h2, h3⟩ | ⟨h2, h3⟩
      · exact Or.inl ⟨by omega, h.next j x h1 h3⟩
      · omega
    · have : j = t.actions.length := by omega
      rcases hx with ⟨h2, h3⟩ | ⟨h2, h3⟩
      · rw [this, hs] at h3
        simp only [Option.some.injEq] at h3
        rw [h3, this]
        exact Or.inr ⟨by omega, rfl⟩
      · omega
  · intro j x y hj hx hy
    dsimp only at hj hx hy ⊢
    rw [List.length_append, List.length_singleton] at hj
    rw [get_snoc] at hx hy ⊢
    rcases Nat.lt_or_ge j t.actions.length with h1 | h1
    · rcases hx with ⟨h2, h3⟩ | ⟨h2, h3⟩
      · rcases hy with ⟨h4, h5⟩ | ⟨h4, h5⟩
        · exact Or.inl ⟨by omega, h.value j x y h1 h3 h5⟩
        · omega
      · omega
    · have : j = t.actions.length := by omega
      rcases hx with ⟨h2, h3⟩ | ⟨h2, h3⟩
      · rw [this, hs] at h3
        simp only [Option.some.injEq] at h3
        rcases hy with ⟨h4, h5⟩ | ⟨h4, h5⟩
        · omega
        · exact Or.inr ⟨by omega, by rw [← h3, h5]⟩
      · omega

theorem roll_spec {d : Domain σ α} {pol : σ → α} {draw : Nat → σ → α → σ} {k₀ : Nat} {s₀ : σ} :
    ∀ (fuel k : Nat) (s : σ) (t : Trace σ α) (r : Trace σ α × Nat), Rolling d pol draw k₀ s₀ t → k = k₀ + t.actions.length → t.states[t.actions.length]? = some s →
      (∀ (j : Nat) (x : σ), 0 < j → t.states[j]? = some x → ¬(d.goal x = true ∨ d.terminal x = true)) → t.total = t.values.sum →
      roll d pol draw fuel k s t = some r → Rolled d pol draw k₀ s₀ r.1 ∧ r.2 = k₀ + r.1.actions.length := by
  intro fuel
  induction fuel with
  | zero => intro k s t r _ _ _ _ _ h; simp [roll] at h
  | succ fuel ih =>
    intro k s t r hr hk hs hno ht h
    unfold roll at h
    dsimp only at h
    subst hk
    have hl := hr.len
    have hfin : ∀ c, (d.goal (draw (k₀ + t.actions.length) s (pol s)) = true ∨ d.terminal (draw (k₀ + t.actions.length) s (pol s)) = true) →
        c = t.total + d.cost s (pol s) (draw (k₀ + t.actions.length) s (pol s)) + (if d.goal (draw (k₀ + t.actions.length) s (pol s)) then 0 else 1000) →
        Rolled d pol draw k₀ s₀ { states := t.states ++ [draw (k₀ + t.actions.length) s (pol s)], total := c, values := t.values ++ [d.cost s (pol s) (draw (k₀ + t.actions.length) s (pol s))], actions := t.actions ++ [pol s] } := by
      intro c hstop hc
      refine ⟨hr.step hs c, by simp, ?_, ?_⟩
      · intro j x hj hx
        dsimp only at hx ⊢
        rw [get_snoc] at hx
        rw [List.length_append, List.length_singleton]
        rcases hx with ⟨h1, h2⟩ | ⟨h1, h2⟩
        · constructor
          · intro h'; exact absurd h' (hno j x hj h2)
          · intro h'; omega
        · rw [h2]
          constructor
          · intro _; omega
          · intro _; exact hstop
      · refine ⟨draw (k₀ + t.actions.length) s (pol s), ?_, ?_⟩
        · dsimp only
          rw [List.length_append, List.length_singleton, ← hl]
          simp
        · dsimp only
          rw [hc, ht, List.sum_append, List.sum_singleton]
    split at h
    · rename_i hg
      simp only [Option.some.injEq] at h
      rw [← h]
      refine ⟨hfin _ (Or.inl hg) ?_, by simp; omega⟩
      rw [if_pos hg, add_zero]
    · rename_i hg
      split at h
      · rename_i htm
        simp only [Option.some.injEq] at h
        rw [← h]
        refine ⟨hfin _ (Or.inr htm) ?_, by simp; omega⟩
        rw [if_neg hg]
      · rename_i htm
        refine ih _ _ _ _ (hr.step hs _) (by simp; omega) ?_ ?_ ?_ h
        · dsimp only
          rw [List.length_append, List.length_singleton, ← hl]
          simp
        · intro j x hj hx
          dsimp only at hx
          rw [get_snoc] at hx
          rcases hx with ⟨h1, h2⟩ | ⟨h1, h2⟩
          · exact hno j x hj h2
          · rw [h2]
            rintro (h' | h')
            · exact hg h'
            · exact htm h'
        · dsimp only
          rw [ht, List.sum_append, List.sum_singleton]

theorem customRollout_spec {d : Domain σ α} {pol : σ → α} {draw : Nat → σ → α → σ} {fuel k k' : Nat} {s : σ} {t : Trace σ α} (h : customRollout d pol draw fuel k s = some (t, k')) :
    Rolled d pol draw k s t ∧ k' = k + t.actions.length := by
  refine roll_spec fuel k s _ _ ?_ rfl rfl ?_ rfl h
  · refine ⟨rfl, rfl, rfl, ?_, ?_, ?_⟩ <;> (intros; simp at *)
  · intro j x hj hx
    rw [List.getElem?_eq_none (by simp; omega)] at hx
    simp at hx

/-! ### The estimation -/

section
variable [DecidableEq σ]

/-- The costs from the visits of `s` on that the trace shows. -/
def gains (t : Trace σ α) (s : σ) : List Rat :=
  (List.range t.actions.length).filterMap fun j => if t.states[j]? = some s then some (t.values.drop j).sum else none

/-- `s'` follows after `s` in the trace, as the `j + 1`-th state. -/
def Follows (t : Trace σ α) (j : Nat) (s s' : σ) : Prop := t.states[j]? = some s ∧ t.states[j + 1]? = some s'

/-- What the dictionaries hold: the costs `gs` of the visits, and the steps `P`, `Q`. -/
structure Book (pol : σ → α) (e : Est σ α) (gs : σ → List Rat) (P Q : σ → σ → Prop) : Prop where
  visits : ∀ s, e.visits.get? s = if gs s = [] then none else some (gs s).length
  summed : ∀ s, e.summed.get? s = if gs s = [] then none else some (gs s).sum
  policy : ∀ s, e.policy.get? s = if gs s = [] then none else some (pol s)
  preds : ∀ s, (e.preds.get? s).isSome = !decide (gs s = [])
  succs : ∀ s, (e.succs.get? s).isSome = !decide (gs s = [])
  pred : ∀ s q, q ∈ (e.preds.get? s).getD [] ↔ P q s
  succ : ∀ s q, q ∈ (e.succs.get? s).getD [] ↔ Q s q
  nodup : e.summed.keys.Nodup

theorem Book.position {pol : σ → α} {e : Est σ α} {gs : σ → List Rat} {P Q : σ → σ → Prop} (h : Book pol e gs P Q) {t : Trace σ α} {j : Nat} {s s' : σ}
    (hs : t.states[j]? = some s) (hs' : t.states[j + 1]? = some s') (ha : t.actions[j]? = some (pol s)) :
    Book pol (e.position t j) (fun x => if x = s then (t.values.drop j).sum :: gs x else gs x)
      (fun q x => P q x ∨ (x = s ∧ 0 < j ∧ t.states[j - 1]? = some q)) (fun x q => Q x q ∨ (x = s ∧ q = s')) := by
  have hpos : e.position t j = (e.meet s (pol s)).add s s' (if j = 0 then none else t.states[j - 1]?) (t.values.drop j).sum := by
    unfold Est.position
    rw [hs, hs', ha]
  have hcon : e.visits.contains s = !decide (gs s = []) := by
    rw [Dict.contains_eq, h.visits]
    by_cases hg : gs s = [] <;> simp [hg]
  have hmv : ∀ x, (e.meet s (pol s)).visits.get? x = if x = s ∧ gs s = [] then some 0 else e.visits.get? x := by
    intro x
    unfold Est.meet
    rw [hcon]
    by_cases hg : gs s = []
    · simp [hg, Dict.get?_set]
    · simp [hg]
  have hms : ∀ x, (e.meet s (pol s)).summed.get? x = if x = s ∧ gs s = [] then some 0 else e.summed.get? x := by
    intro x
    unfold Est.meet
    rw [hcon]
    by_cases hg : gs s = []
    · simp [hg, Dict.get?_set]
    · simp [hg]
  have hmp : ∀ x, (e.meet s (pol s)).policy.get? x = if x = s ∧ gs s = [] then some (pol s) else e.policy.get? x := by
    intro x
    unfold Est.meet
    rw [hcon]
    by_cases hg : gs s = []
    · simp [hg, Dict.get?_set]
    · simp [hg]
  have hmq : ∀ x, (e.meet s (pol s)).preds.get? x = if x = s ∧ gs s = [] then some [] else e.preds.get? x := by
    intro x
    unfold Est.meet
    rw [hcon]
    by_cases hg : gs s = []
    · simp [hg, Dict.get?_set]
    · simp [hg]
  have hmr : ∀ x, (e.meet s (pol s)).succs.get? x = if x = s ∧ gs s = [] then some [] else e.succs.get? x := by
    intro x
    unfold Est.meet
    rw [hcon]
    by_cases hg : gs s = []
    · simp [hg, Dict.get?_set]
    · simp [hg]
  have hmn : (e.meet s (pol s)).summed.keys.Nodup := by
    unfold Est.meet
    split
    · exact h.nodup
    · exact Dict.nodup_keys_set _ _ h.nodup
  have hpe : gs s = [] → (e.preds.get? s).getD [] = [] := by
    intro hg
    have := h.preds s
    rw [hg] at this
    simp at this
    simp [this]
  have hse : gs s = [] → (e.succs.get? s).getD [] = [] := by
    intro hg
    have := h.succs s
    rw [hg] at this
    simp at this
    simp [this]
  have hmq' : ∀ x, ((e.meet s (pol s)).preds.get? x).getD [] = (e.preds.get? x).getD [] := by
    intro x
    rw [hmq]
    split
    · rename_i hx
      rw [hx.1, hpe hx.2]; rfl
    · rfl
  have hmr' : ∀ x, ((e.meet s (pol s)).succs.get? x).getD [] = (e.succs.get? x).getD [] := by
    intro x
    rw [hmr]
    split
    · rename_i hx
      rw [hx.1, hse hx.2]; rfl
    · rfl
  rw [hpos]
  refine ⟨?_, ?_, ?_, ?_, ?_, ?_, ?_, ?_⟩
  · intro x
    simp only [Est.add]
    rw [Dict.get?_set]
    by_cases hx : x = s
    · subst hx
      by_cases hg : gs x = []
      · simp [hmv, hg]
      · simp [hmv, hg, h.visits]
    · simp [hmv, hx, h.visits]
  · intro x
    simp only [Est.add]
    rw [Dict.get?_set]
    by_cases hx : x = s
    · subst hx
      by_cases hg : gs x = []
      · simp [hms, hg]
      · simp [hms, hg, h.summed, add_comm]
    · simp [hms, hx, h.summed]
  · intro x
    simp only [Est.add]
    rw [hmp]
    by_cases hx : x = s
    · subst hx
      by_cases hg : gs x = []
      · simp [hg]
      · simp [hg, h.policy]
    · simp [hx, h.policy]
  · intro x
    simp only [Est.add]
    have hbase : ((e.meet s (pol s)).preds.get? x).isSome = !decide ((if x = s then (t.values.drop j).sum :: gs x else gs x) = []) := by
      rw [hmq]
      by_cases hx : x = s
      · subst hx
        by_cases hg : gs x = []
        · simp [hg]
        · simp [hg, h.preds]
      · simp [hx, h.preds]
    cases (if j = 0 then none else t.states[j - 1]?) with
    | none => exact hbase
    | some q =>
      dsimp only
      rw [Dict.get?_set]
      by_cases hx : x = s
      · simp [hx]
      · rw [if_neg hx]; exact hbase
  · intro x
    simp only [Est.add]
    rw [Dict.get?_set, hmr]
    by_cases hx : x = s
    · simp [hx]
    · simp only [hx, if_false]
      rw [hmr, if_neg fun c => hx c.1]
      exact h.succs x
  · intro x q
    simp only [Est.add]
    by_cases hj : j = 0
    · rw [if_pos hj]
      dsimp only
      rw [hmq', h.pred]
      constructor
      · exact Or.inl
      · rintro (h' | ⟨_, h', _⟩)
        · exact h'
        · omega
    · rw [if_neg hj]
      cases hq : t.states[j - 1]? with
      | none =>
        rw [List.getElem?_eq_none_iff] at hq
        rw [List.getElem?_eq_none (by omega)] at hs
        simp at hs
      | some q' =>
        dsimp only
        rw [Dict.get?_set]
        by_cases hx : x = s
        · rw [if_pos hx, Option.getD_some, mem_insertNew, hmq', h.pred, hx]
          constructor
          · rintro (h' | h')
            · exact Or.inl h'
            · exact Or.inr ⟨rfl, by omega, by rw [h']⟩
          · rintro (h' | ⟨_, _, h'⟩)
            · exact Or.inl h'
            · simp only [Option.some.injEq] at h'
              exact Or.inr h'.symm
        · rw [if_neg hx, hmq', h.pred]
          constructor
          · exact Or.inl
          · rintro (h' | ⟨h', _⟩)
            · exact h'
            · exact absurd h' hx
  · intro x q
    simp only [Est.add]
    rw [Dict.get?_set]
    by_cases hx : x = s
    · rw [if_pos hx, Option.getD_some, mem_insertNew, hmr', h.succ, hx]
      simp
    · rw [if_neg hx, hmr', h.succ]
      simp [hx]
  · simp only [Est.add]
    exact Dict.nodup_keys_set _ _ hmn

/-- All positions below `n`, from the last one. -/
theorem Book.positions {pol : σ → α} {t : Trace σ α} (hlen : t.states.length = t.actions.length + 1)
    (hact : ∀ (j : Nat) (s : σ), j < t.actions.length → t.states[j]? = some s → t.actions[j]? = some (pol s)) :
    ∀ (n : Nat) (e : Est σ α) (gs : σ → List Rat) (P Q : σ → σ → Prop), n ≤ t.actions.length → Book pol e gs P Q →
      Book pol ((List.range n).reverse.foldl (Est.position t) e)
        (fun x => ((List.range n).filterMap fun j => if t.states[j]? = some x then some (t.values.drop j).sum else none) ++ gs x)
        (fun q x => P q x ∨ ∃ j, j + 1 < n ∧ Follows t j q x) (fun x q => Q x q ∨ ∃ j, j < n ∧ Follows t j x q) := by
  intro n
  induction n with
  | zero =>
    intro e gs P Q _ h
    simpa using h
  | succ n ih =>
    intro e gs P Q hn h
    rw [List.range_succ, List.reverse_append, List.reverse_singleton, List.singleton_append, List.foldl_cons]
    obtain ⟨s, hs⟩ : ∃ s, t.states[n]? = some s := ⟨_, List.getElem?_eq_getElem (by omega)⟩
    obtain ⟨s', hs'⟩ : ∃ s, t.states[n + 1]? = some s := ⟨_, List.getElem?_eq_getElem (by omega)⟩
    have hb := ih _ _ _ _ (by omega) (h.position hs hs' (hact n s (by omega) hs))
    have eg : (fun x => ((List.range n).filterMap fun j => if t.states[j]? = some x then some (t.values.drop j).sum else none) ++ (if x = s then (t.values.drop n).sum :: gs x else gs x))
        = (fun x => ((List.range n ++ [n]).filterMap fun j => if t.states[j]? = some x then some (t.values.drop j).sum else none) ++ gs x) := by
      funext x
      rw [List.filterMap_append, List.append_assoc]
      congr 1
      by_cases hx : x = s
      · rw [if_pos hx, hx]
        simp [hs]
      · rw [if_neg hx]
        have : ¬ s = x := fun c => hx c.symm
        simp [hs, this]
    have eP : (fun q x => (P q x ∨ (x = s ∧ 0 < n ∧ t.states[n - 1]? = some q)) ∨ ∃ j, j + 1 < n ∧ Follows t j q x) = (fun q x => P q x ∨ ∃ j, j + 1 < n + 1 ∧ Follows t j q x) := by
      funext q x
      apply propext
      constructor
      · rintro ((h1 | ⟨rfl, h2, h3⟩) | ⟨j, h1, h2⟩)
        · exact Or.inl h1
        · exact Or.inr ⟨n - 1, by omega, h3, by rw [Nat.sub_add_cancel h2]; exact hs⟩
        · exact Or.inr ⟨j, by omega, h2⟩
      · rintro (h1 | ⟨j, h1, h2⟩)
        · exact Or.inl (Or.inl h1)
        · by_cases hj : j + 1 = n
          · left; right
            have h3 := h2.2
            rw [hj, hs] at h3
            simp only [Option.some.injEq] at h3
            exact ⟨h3.symm, by omega, by rw [show n - 1 = j by omega]; exact h2.1⟩
          · exact Or.inr ⟨j, by omega, h2⟩
    have eQ : (fun x q => (Q x q ∨ (x = s ∧ q = s')) ∨ ∃ j, j < n ∧ Follows t j x q) = (fun x q => Q x q ∨ ∃ j, j < n + 1 ∧ Follows t j x q) := by
      funext x q
      apply propext
      constructor
      · rintro ((h1 | ⟨rfl, rfl⟩) | ⟨j, h1, h2⟩)
        · exact Or.inl h1
        · exact Or.inr ⟨n, by omega, hs, hs'⟩
        · exact Or.inr ⟨j, by omega, h2⟩
      · rintro (h1 | ⟨j, h1, h2⟩)
        · exact Or.inl (Or.inl h1)
        · by_cases hj : j = n
          · left; right
            have h3 := h2.1
            have h4 := h2.2
            rw [hj, hs] at h3
            rw [hj, hs'] at h4
            simp only [Option.some.injEq] at h3 h4
            exact ⟨h3.symm, h4.symm⟩
          · exact Or.inr ⟨j, by omega, h2⟩
    rw [eg, eP, eQ] at hb
    exact hb

theorem Book.trace {pol : σ → α} {t : Trace σ α} (hlen : t.states.length = t.actions.length + 1)
    (hact : ∀ (j : Nat) (s : σ), j < t.actions.length → t.states[j]? = some s → t.actions[j]? = some (pol s))
    {e : Est σ α} {gs : σ → List Rat} {P Q : σ → σ → Prop} (h : Book pol e gs P Q) :
    Book pol (e.trace t) (fun x => gains t x ++ gs x) (fun q x => P q x ∨ ∃ j, j + 1 < t.actions.length ∧ Follows t j q x)
      (fun x q => Q x q ∨ ∃ j, j < t.actions.length ∧ Follows t j x q) := by
  unfold Est.trace
  rw [show t.states.length - 1 = t.actions.length by omega]
  exact Book.positions hlen hact _ _ _ _ _ (Nat.le_refl _) h

theorem Book.traces {pol : σ → α} : ∀ (ts : List (Trace σ α)), (∀ t ∈ ts, t.states.length = t.actions.length + 1 ∧
    ∀ (j : Nat) (s : σ), j < t.actions.length → t.states[j]? = some s → t.actions[j]? = some (pol s)) →
    ∀ (e : Est σ α) (gs : σ → List Rat) (P Q : σ → σ → Prop), Book pol e gs P Q →
      Book pol (ts.foldl Est.trace e) (fun x => ts.reverse.flatMap (gains · x) ++ gs x) (fun q x => P q x ∨ ∃ t ∈ ts, ∃ j, j + 1 < t.actions.length ∧ Follows t j q x)
        (fun x q => Q x q ∨ ∃ t ∈ ts, ∃ j, j < t.actions.length ∧ Follows t j x q) := by
  intro ts
  induction ts with
  | nil =>
    intro _ e gs P Q h
    simpa using h
  | cons t ts ih =>
    intro hts e gs P Q h
    have ht := hts t List.mem_cons_self
    have hb := ih (fun u hu => hts u (List.mem_cons_of_mem _ hu)) _ _ _ _ (h.trace ht.1 ht.2)
    rw [List.foldl_cons]
    have eg : (fun x => ts.reverse.flatMap (gains · x) ++ (gains t x ++ gs x)) = (fun x => (t :: ts).reverse.flatMap (gains · x) ++ gs x) := by
      funext x
      simp [List.flatMap_append]
    have eP : (fun q x => (P q x ∨ ∃ j, j + 1 < t.actions.length ∧ Follows t j q x) ∨ ∃ t ∈ ts, ∃ j, j + 1 < t.actions.length ∧ Follows t j q x)
        = (fun q x => P q x ∨ ∃ u ∈ t :: ts, ∃ j, j + 1 < u.actions.length ∧ Follows u j q x) := by
      funext q x
      simp [or_assoc]
    have eQ : (fun x q => (Q x q ∨ ∃ j, j < t.actions.length ∧ Follows t j x q) ∨ ∃ t ∈ ts, ∃ j, j < t.actions.length ∧ Follows t j x q)
        = (fun x q => Q x q ∨ ∃ u ∈ t :: ts, ∃ j, j < u.actions.length ∧ Follows u j x q) := by
      funext q x
      simp [or_assoc]
    rw [eg, eP, eQ] at hb
    exact hb

theorem Book.empty (pol : σ → α) : Book pol ({} : Est σ α) (fun _ => []) (fun _ _ => False) (fun _ _ => False) := by
  refine ⟨?_, ?_, ?_, ?_, ?_, ?_, ?_, List.nodup_nil⟩ <;> (intros; simp)

/-- `ts` are the rollouts of the loop, with the draws from `k` on. -/
def Series (d : Domain σ α) (pol : σ → α) (draw : Nat → σ → α → σ) : Nat → List (Trace σ α) → Prop
  | _, [] => True
  | k, t :: ts => Rolled d pol draw k d.init t ∧ Series d pol draw (k + t.actions.length) ts

theorem Series.mem {d : Domain σ α} {pol : σ → α} {draw : Nat → σ → α → σ} : ∀ {ts : List (Trace σ α)} {k : Nat}, Series d pol draw k ts → ∀ t ∈ ts, ∃ k, Rolled d pol draw k d.init t := by
  intro ts
  induction ts with
  | nil => intro k _ t ht; simp at ht
  | cons u ts ih =>
    intro k h t ht
    rcases List.mem_cons.1 ht with rfl | ht
    · exact ⟨k, h.1⟩
    · exact ih h.2 t ht

theorem estLoop_spec {d : Domain σ α} {pol : σ → α} {draw : Nat → σ → α → σ} {fuel : Nat} : ∀ (n k : Nat) (e e' : Est σ α), estLoop d pol draw fuel n k e = some e' →
    ∃ ts, ts.length = n ∧ Series d pol draw k ts ∧ e' = ts.foldl Est.trace e := by
  intro n
  induction n with
  | zero =>
    intro k e e' h
    simp only [estLoop, Option.some.injEq] at h
    exact ⟨[], rfl, trivial, h.symm⟩
  | succ n ih =>
    intro k e e' h
    unfold estLoop at h
    split at h
    · simp at h
    · rename_i t k' ht
      obtain ⟨h1, h2⟩ := customRollout_spec ht
      obtain ⟨ts, h3, h4, h5⟩ := ih _ _ _ h
      exact ⟨t :: ts, by simp [h3], ⟨h1, by rw [← h2]; exact h4⟩, h5⟩

theorem sum_flatMap_reverse {β : Type} (f : β → List Rat) (l : List β) : (l.reverse.flatMap f).sum = (l.flatMap f).sum ∧ (l.reverse.flatMap f).length = (l.flatMap f).length := by
  induction l with
  | nil => simp
  | cons x l ih =>
    rw [List.reverse_cons, List.flatMap_append, List.flatMap_cons, List.sum_append, List.sum_append, List.length_append, List.length_append, ih.1, ih.2]
    simp only [List.flatMap_cons, List.flatMap_nil, List.length_append, List.length_nil, List.sum_append, List.sum_nil]
    exact ⟨by ring, by omega⟩

theorem get?_map_values {β γ : Type} (f : σ → β → γ) (s : σ) : ∀ (l : Dict σ β), Dict.get? (l.map fun x => (x.1, f x.1 x.2)) s = (Dict.get? l s).map (f s) := by
  intro l
  induction l with
  | nil => rfl
  | cons x l ih =>
    obtain ⟨k, v⟩ := x
    simp only [List.map_cons, Dict.get?]
    by_cases h : k = s
    · simp [h]
    · simp only [h]
      simpa using ih

/-! ### Deterministic domains -/

/-- In a rollout that ends in a goal, the costs from a state on are its cost to the goal, if the outcome is certain. -/
theorem Rolled.sure {d : Domain σ α} {pol : σ → α} {draw : Nat → σ → α → σ} {k : Nat} {s₀ : σ} {t : Trace σ α} (h : Rolled d pol draw k s₀ t) {next : σ → σ}
    (hdist : ∀ s, d.dist s (pol s) = [(next s, 1)]) (hdraw : ∀ k s, draw k s (pol s) = next s) (hinit : d.goal s₀ = false ∧ d.terminal s₀ = false)
    (hend : ∀ s, t.states[t.actions.length]? = some s → d.goal s = true) :
    ∀ (m j : Nat) (s : σ), j + m = t.actions.length → t.states[j]? = some s → Sure d pol s (t.values.drop j).sum := by
  intro m
  induction m with
  | zero =>
    intro j s hj hs
    rw [Nat.add_zero] at hj
    have hg : d.goal s = true := hend s (by rw [← hj]; exact hs)
    rw [List.drop_eq_nil_of_le (by rw [h.len']; omega)]
    exact ⟨0, fun n _ => ⟨hit_goal hg n, spend_goal hg n⟩⟩
  | succ m ih =>
    intro j s hj hs
    have hlt : j < t.actions.length := by omega
    have hn := h.next j s hlt hs
    rw [hdraw] at hn
    obtain ⟨N, hN⟩ := ih (j + 1) (next s) (by omega) hn
    have hv := h.value j s (next s) hlt hs hn
    have hno : d.goal s = false ∧ d.terminal s = false := by
      by_cases hj0 : j = 0
      · subst hj0
        have := h.head
        rw [hs] at this
        simp only [Option.some.injEq] at this
        rw [this]; exact hinit
      · have := h.stop j s (by omega) hs
        have h' : ¬(d.goal s = true ∨ d.terminal s = true) := fun c => by
          have := this.1 c
          omega
        simpa [not_or] using h'
    have hdrop : t.values.drop j = d.cost s (pol s) (next s) :: t.values.drop (j + 1) := by
      rw [List.getElem?_eq_some_iff] at hv
      obtain ⟨hlt', hv⟩ := hv
      rw [← hv]
      exact List.drop_eq_getElem_cons hlt'
    refine ⟨N + 1, fun n hn' => ?_⟩
    obtain ⟨q, rfl⟩ : ∃ q, n = q + 1 := ⟨n - 1, by omega⟩
    obtain ⟨h1, h2⟩ := hN q (by omega)
    unfold hit spend
    simp only [hno.1, hno.2, Bool.false_eq_true, if_false, hdist, List.map_cons, List.map_nil, List.sum_cons, List.sum_nil, h1, h2, hdrop]
    exact ⟨by norm_num, by ring⟩

theorem sum_const {l : List Rat} {v : Rat} (h : ∀ x ∈ l, x = v) : l.sum = (l.length : Nat) * v := by
  induction l with
  | nil => simp
  | cons x l ih =>
    rw [List.sum_cons, ih fun y hy => h y (List.mem_cons_of_mem _ hy), h x List.mem_cons_self]
    push_cast [List.length_cons]
    ring

/-! ### `MetaPolicy` -/

end

section
variable {κ : Type}

theorem simulate_ok {rollout : κ → Nat → Episode α} {now : Int} {m : κ} : ∀ (n j : Nat) (acc : Int) (a : Option α) (r : Int × Option α),
    simulate rollout now m n j acc a = .ok r →
      r.1 = acc + ((List.range' j n).map fun i => (rollout m i).ended - now).sum ∧ (∀ i, j ≤ i → i < j + n → (rollout m i).actions ≠ []) ∧
      r.2 = if n = 0 then a else (rollout m (j + n - 1)).actions.head? := by
  intro n
  induction n with
  | zero =>
    intro j acc a r h
    simp only [simulate, Except.ok.injEq] at h
    rw [← h]
    exact ⟨by simp, fun i h1 h2 => by omega, rfl⟩
  | succ n ih =>
    intro j acc a r h
    unfold simulate at h
    dsimp only at h
    split at h
    · simp at h
    · rename_i x l hx
      obtain ⟨h1, h2, h3⟩ := ih _ _ _ _ h
      refine ⟨?_, ?_, ?_⟩
      · rw [h1, List.range'_succ, List.map_cons, List.sum_cons]
        omega
      · intro i hi hi'
        by_cases hij : i = j
        · rw [hij, hx]; simp
        · exact h2 i (by omega) (by omega)
      · rw [h3]
        by_cases hn : n = 0
        · subst hn
          simp [hx]
        · rw [if_neg hn, if_neg (Nat.succ_ne_zero n), show j + 1 + n - 1 = j + (n + 1) - 1 by omega]

theorem simulate_error {rollout : κ → Nat → Episode α} {now : Int} {m : κ} : ∀ (n j : Nat) (acc : Int) (a : Option α) (e : PyErr),
    simulate rollout now m n j acc a = .error e → e = .indexError ∧ ∃ i, i < j + n ∧ (rollout m i).actions = [] := by
  intro n
  induction n with
  | zero => intro j acc a e h; simp [simulate] at h
  | succ n ih =>
    intro j acc a e h
    unfold simulate at h
    dsimp only at h
    split at h
    · rename_i hx
      simp only [Except.error.injEq] at h
      exact ⟨h.symm, j, by omega, hx⟩
    · obtain ⟨h1, i, h2, h3⟩ := ih _ _ _ _ h
      exact ⟨h1, i, by omega, h3⟩

/-- The time that the simulated episodes of a policy take. -/
def spent (rollout : κ → Nat → Episode α) (now : Int) (n : Nat) (m : κ) : Int := ((List.range n).map fun i => (rollout m i).ended - now).sum

theorem simulateAll_ok {rollout : κ → Nat → Episode α} {now : Int} {n : Nat} : ∀ (ms : List κ) (rs : List (κ × Int × Option α)), simulateAll rollout now n ms = .ok rs →
    rs = ms.map (fun m => (m, spent rollout now n m, if n = 0 then none else (rollout m (n - 1)).actions.head?)) ∧ ∀ m ∈ ms, ∀ i < n, (rollout m i).actions ≠ [] := by
  intro ms
  induction ms with
  | nil =>
    intro rs h
    simp only [simulateAll, Except.ok.injEq] at h
    exact ⟨by simp [← h], by simp⟩
  | cons m ms ih =>
    intro rs h
    unfold simulateAll at h
    obtain ⟨r, hr, h⟩ := bind_eq_ok.1 h
    obtain ⟨rs', hrs, h⟩ := bind_eq_ok.1 h
    simp only [pure, Except.pure, Except.ok.injEq] at h
    obtain ⟨h1, h2⟩ := ih _ hrs
    obtain ⟨h3, h4, h5⟩ := simulate_ok _ _ _ _ _ hr
    refine ⟨?_, ?_⟩
    · rw [← h, List.map_cons, h3, h5, h1]
      unfold spent
      rw [List.range_eq_range']
      simp
    · intro x hx i hi
      rcases List.mem_cons.1 hx with rfl | hx
      · exact h4 i (by omega) (by omega)
      · exact h2 x hx i hi

theorem simulateAll_error {rollout : κ → Nat → Episode α} {now : Int} {n : Nat} : ∀ (ms : List κ) (e : PyErr), simulateAll rollout now n ms = .error e →
    e = .indexError ∧ ∃ m ∈ ms, ∃ i < n, (rollout m i).actions = [] := by
  intro ms
  induction ms with
  | nil => intro e h; simp [simulateAll] at h
  | cons m ms ih =>
    intro e h
    unfold simulateAll at h
    cases hr : simulate rollout now m n 0 0 none with
    | error e' =>
      rw [hr, bind_error] at h
      simp only [Except.error.injEq] at h
      obtain ⟨h1, i, h2, h3⟩ := simulate_error _ _ _ _ _ hr
      exact ⟨by rw [← h, h1], m, List.mem_cons_self, i, by omega, h3⟩
    | ok r =>
      rw [hr, bind_ok] at h
      cases hrs : simulateAll rollout now n ms with
      | error e' =>
        rw [hrs, bind_error] at h
        simp only [Except.error.injEq] at h
        obtain ⟨h1, x, h2, h3⟩ := ih _ hrs
        exact ⟨by rw [← h, h1], x, List.mem_cons_of_mem _ h2, h3⟩
      | ok rs =>
        rw [hrs, bind_ok] at h
        simp [pure, Except.pure] at h

theorem firstMin_spec : ∀ (l : List (κ × Int × Option α)) (b : κ × Int × Option α), ∃ l₁ l₂, b :: l = l₁ ++ firstMin b l :: l₂ ∧
    (∀ x ∈ l₁, (firstMin b l).2.1 < x.2.1) ∧ ∀ x ∈ l₂, (firstMin b l).2.1 ≤ x.2.1 := by
  intro l
  induction l with
  | nil => intro b; exact ⟨[], [], rfl, by simp, by simp⟩
  | cons y l ih =>
    intro b
    unfold firstMin
    by_cases hy : y.2.1 < b.2.1
    · rw [if_pos hy]
      obtain ⟨l₁, l₂, h1, h2, h3⟩ := ih y
      refine ⟨b :: l₁, l₂, by rw [h1]; rfl, ?_, h3⟩
      intro x hx
      rcases List.mem_cons.1 hx with rfl | hx
      · have : (firstMin y l).2.1 ≤ y.2.1 := by
          have hm : y ∈ l₁ ++ firstMin y l :: l₂ := by rw [← h1]; exact List.mem_cons_self
          rcases List.mem_append.1 hm with hm | hm
          · exact Int.le_of_lt (h2 y hm)
          · rcases List.mem_cons.1 hm with hm | hm
            · rw [← hm]
            · exact h3 y hm
        omega
      · exact h2 x hx
    · rw [if_neg hy]
      obtain ⟨l₁, l₂, h1, h2, h3⟩ := ih b
      cases l₁ with
      | nil =>
        rw [List.nil_append] at h1
        have e := (List.cons.inj h1).1
        have e' := (List.cons.inj h1).2
        refine ⟨[], y :: l, by rw [← e]; rfl, by simp, ?_⟩
        intro x hx
        rcases List.mem_cons.1 hx with rfl | hx
        · rw [← e]; omega
        · rw [e'] at hx; exact h3 x hx
      | cons z l₁ =>
        rw [List.cons_append] at h1
        have e := (List.cons.inj h1).1
        have e' := (List.cons.inj h1).2
        refine ⟨b :: y :: l₁, l₂, congrArg (fun r => b :: y :: r) e', ?_, h3⟩
        intro x hx
        have hb := h2 z List.mem_cons_self
        rw [← e] at hb
        rcases List.mem_cons.1 hx with rfl | hx
        · exact hb
        · rcases List.mem_cons.1 hx with rfl | hx
          · omega
          · exact h2 x (List.mem_cons_of_mem _ hx)

theorem dedup_long [DecidableEq α] {l : List α} : l.dedup.length > 1 ↔ ∃ x ∈ l, ∃ y ∈ l, x ≠ y := by
  constructor
  · intro h
    match hd : l.dedup with
    | [] => rw [hd] at h; simp at h
    | [_] => rw [hd] at h; simp at h
    | x :: y :: r =>
      have hn := List.nodup_dedup l
      rw [hd] at hn
      refine ⟨x, List.mem_dedup.1 (by rw [hd]; simp), y, List.mem_dedup.1 (by rw [hd]; simp), ?_⟩
      intro e
      rw [e] at hn
      simp at hn
  · rintro ⟨x, hx, y, hy, hne⟩
    rw [← List.mem_dedup] at hx hy
    match hd : l.dedup with
    | [] => rw [hd] at hx; simp at hx
    | [z] =>
      rw [hd, List.mem_singleton] at hx hy
      exact absurd (hx.trans hy.symm) hne
    | _ :: _ :: _ => simp

end
end Verif.PolicyEval
