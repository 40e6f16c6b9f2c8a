import Verif.Model.AoStar
import Verif.Lemmas.Mdp

/-! Lemmas about the model of aostar.hh. -/
namespace Verif.AoStar
variable [DecidableEq σ] {m : Mdp σ α} {c : Config σ}

theorem get?_modify (g : Graph σ α) (s : σ) (f : Node σ α → Node σ α) (t : σ) :
    (modify g s f).get? t = if t = s then (g.get? s).map f else g.get? t := by
  unfold modify
  cases h : g.get? s with
  | none =>
    by_cases hts : t = s
    · subst hts; simp [h]
    · simp [hts]
  | some n =>
    simp only [Option.map_some]
    rw [Dict.get?_set]

theorem mem_insertAll {l xs : List σ} {x : σ} : x ∈ insertAll l xs ↔ x ∈ l ∨ x ∈ xs := by
  unfold insertAll
  induction xs generalizing l with
  | nil => simp
  | cons y xs ih =>
    rw [List.foldl_cons, ih]
    by_cases h : y ∈ l
    · rw [if_pos h]
      constructor
      · rintro (h' | h')
        · exact .inl h'
        · exact .inr (List.mem_cons_of_mem _ h')
      · rintro (h' | h')
        · exact .inl h'
        · rcases List.mem_cons.1 h' with rfl | h'
          · exact .inl h
          · exact .inr h'
    · rw [if_neg h]
      rw [List.mem_append, List.mem_singleton, List.mem_cons, or_assoc]

theorem value_eq {g : Graph σ α} {s : σ} {n : Node σ α} (h : g.get? s = some n) : value g s = n.value := by
  simp [value, h]

theorem isSolved_eq {g : Graph σ α} {s : σ} {n : Node σ α} (h : g.get? s = some n) : isSolved g s = n.solved := by
  simp [isSolved, h]

theorem bestOf_eq {g : Graph σ α} {s : σ} {n : Node σ α} (h : g.get? s = some n) : bestOf g s = n.best := by
  simp [bestOf, h]

theorem actsOf_eq {g : Graph σ α} {s : σ} {n : Node σ α} (h : g.get? s = some n) : actsOf g s = n.acts := by
  simp [actsOf, h]

theorem parentsOf_eq {g : Graph σ α} {s : σ} {n : Node σ α} (h : g.get? s = some n) : parentsOf g s = n.parents := by
  simp [parentsOf, h]

/-- The value as a number. -/
def val (g : Graph σ α) (t : σ) : Rat := (value g t).getD 0

/-! ### Expansion -/

/-- `g'` is `g` after `s` got the actions `A` and the outcomes `O`. -/
structure Grown (m : Mdp σ α) (c : Config σ) (s : σ) (O : σ → Prop) (A : List α) (g g' : Graph σ α) : Prop where
  old : ∀ t n, g.get? t = some n → ∃ ps, g'.get? t =
    some { n with acts := n.acts ++ (if t = s then A else []), parents := n.parents ++ ps } ∧
    (∀ p ∈ ps, p = s) ∧ (O t → s ∈ ps) ∧ (s ∈ ps → O t)
  new : ∀ t n', g.get? t = none → g'.get? t = some n' → O t ∧ n'.acts = [] ∧ n'.best = none ∧
    (m.goal t = true → n'.value = some 0 ∧ n'.solved = true) ∧
    (m.goal t = false → n'.value = some (c.h t) ∧ n'.solved = false) ∧ n'.parents ≠ [] ∧ ∀ p ∈ n'.parents, p = s
  has : ∀ t, O t → (g'.get? t).isSome = true

theorem Grown.refl {s : σ} (g : Graph σ α) : Grown m c s (fun _ => False) [] g g := by
  refine ⟨fun t n h => ⟨[], ?_, by simp, False.elim, by simp⟩, fun t n' h h' => ?_, fun t h => h.elim⟩
  · rw [h]; simp
  · rw [h] at h'; cases h'

theorem Grown.keep {s : σ} {O A} {g g' : Graph σ α} (h : Grown m c s O A g g') {t : σ} (ht : (g.get? t).isSome = true) :
    (g'.get? t).isSome = true := by
  obtain ⟨n, e⟩ := Option.isSome_iff_exists.1 ht
  obtain ⟨ps, e', -⟩ := h.old t n e
  simp [e']

theorem Grown.trans {s : σ} {O O' A A'} {g g1 g2 : Graph σ α} (hs : (g.get? s).isSome = true)
    (h : Grown m c s O A g g1) (h' : Grown m c s O' A' g1 g2) : Grown m c s (fun t => O t ∨ O' t) (A ++ A') g g2 := by
  refine ⟨fun t n e => ?_, fun t n' e e' => ?_, fun t ht => ?_⟩
  · obtain ⟨ps, e1, hp, hO, hO2⟩ := h.old t n e
    obtain ⟨ps', e2, hp', hO', hO2'⟩ := h'.old t _ e1
    refine ⟨ps ++ ps', ?_, ?_, ?_, ?_⟩
    · rw [e2]
      by_cases hts : t = s <;> simp [hts]
    · intro p hpm
      rcases List.mem_append.1 hpm with hpm | hpm
      · exact hp p hpm
      · exact hp' p hpm
    · rintro (ho | ho)
      · exact List.mem_append_left _ (hO ho)
      · exact List.mem_append_right _ (hO' ho)
    · intro hm
      rcases List.mem_append.1 hm with hm | hm
      · exact .inl (hO2 hm)
      · exact .inr (hO2' hm)
  · have hts : t ≠ s := by rintro rfl; simp [e] at hs
    cases e1 : g1.get? t with
    | none =>
      obtain ⟨ho, r⟩ := h'.new t n' e1 e'
      exact ⟨.inr ho, r⟩
    | some n1 =>
      obtain ⟨ho, ha, hb, hg, hng, hpn, hp⟩ := h.new t n1 e e1
      obtain ⟨ps, e2, hp', -⟩ := h'.old t n1 e1
      rw [e2] at e'
      cases e'
      refine ⟨.inl ho, by simp [ha, hts], hb, hg, hng, by simp [hpn], ?_⟩
      intro p hpm
      rcases List.mem_append.1 hpm with hpm | hpm
      · exact hp p hpm
      · exact hp' p hpm
  · rcases ht with ht | ht
    · exact h'.keep (h.has t ht)
    · exact h'.has t ht

theorem addOutcome_grown (s : σ) (g : Graph σ α) (t : σ) : Grown m c s (fun x => x = t) [] g (addOutcome m c s g t) := by
  unfold addOutcome
  cases e : g.get? t with
  | some n =>
    have hc : g.contains t = true := by rw [Dict.contains_eq]; simp [e]
    simp only [hc, ↓reduceIte]
    refine ⟨fun x n' ex => ?_, fun x n' ex e' => ?_, fun x hx => ?_⟩
    · by_cases hx : x = t
      · subst hx
        rw [e] at ex; cases ex
        exact ⟨[s], by rw [get?_modify]; simp [e], by simp, by simp, by simp⟩
      · exact ⟨[], by rw [get?_modify]; simp [hx, ex], by simp, by simp [hx], by simp⟩
    · rw [get?_modify] at e'
      by_cases hx : x = t
      · subst hx; rw [e] at ex; cases ex
      · simp [hx, ex] at e'
    · subst hx
      rw [get?_modify]; simp [e]
  | none =>
    have hc : g.contains t = false := by rw [Dict.contains_eq]; simp [e]
    simp only [hc, Bool.false_eq_true, ↓reduceIte]
    refine ⟨fun x n' ex => ?_, fun x n' ex e' => ?_, fun x hx => ?_⟩
    · have hx : x ≠ t := by rintro rfl; rw [e] at ex; cases ex
      refine ⟨[], ?_, by simp, by simp [hx], by simp⟩
      rw [get?_modify, if_neg hx]
      split <;> (rw [Dict.get?_set]; simp [hx, ex])
    · rw [get?_modify] at e'
      by_cases hx : x = t
      · subst hx
        rw [if_pos rfl] at e'
        by_cases hg : m.goal x = true
        · simp only [hg, ↓reduceIte, Dict.get?_set_self, Option.map_some, Option.some.injEq] at e'
          subst e'
          simp [hg]
        · simp only [hg, Bool.false_eq_true, ↓reduceIte, Dict.get?_set_self, Option.map_some, Option.some.injEq] at e'
          subst e'
          simp [hg]
      · exfalso
        rw [if_neg hx] at e'
        split at e' <;> (rw [Dict.get?_set] at e'; simp [hx, ex] at e')
    · subst hx
      rw [get?_modify, if_pos rfl]
      split <;> simp [Dict.get?_set_self]

theorem addOutcomes_grown (s : σ) (os : List (Rat × Rat × σ)) (g : Graph σ α) (hs : (g.get? s).isSome = true) :
    Grown m c s (fun x => ∃ o ∈ os, o.2.2 = x) [] g (os.foldl (fun g o => addOutcome m c s g o.2.2) g) := by
  induction os generalizing g with
  | nil => simpa using Grown.refl (m := m) (c := c) (s := s) g
  | cons o os ih =>
    have h1 := addOutcome_grown (m := m) (c := c) s g o.2.2
    have h2 := h1.trans hs (ih _ (h1.keep hs))
    refine ⟨fun t n e => ?_, fun t n' e e' => ?_, fun t ht => ?_⟩
    · obtain ⟨ps, e1, hp, hO, hO2⟩ := h2.old t n e
      refine ⟨ps, e1, hp, fun ⟨o', ho', et⟩ => hO ?_, fun hm => ?_⟩
      · rcases List.mem_cons.1 ho' with rfl | ho'
        · exact .inl et.symm
        · exact .inr ⟨o', ho', et⟩
      · rcases hO2 hm with h | ⟨o', ho', et⟩
        · exact ⟨o, List.mem_cons_self, h.symm⟩
        · exact ⟨o', List.mem_cons_of_mem _ ho', et⟩
    · obtain ⟨hO, r⟩ := h2.new t n' e e'
      refine ⟨?_, r⟩
      rcases hO with h | ⟨o', ho', et⟩
      · exact ⟨o, List.mem_cons_self, h.symm⟩
      · exact ⟨o', List.mem_cons_of_mem _ ho', et⟩
    · obtain ⟨o', ho', et⟩ := ht
      refine h2.has t ?_
      rcases List.mem_cons.1 ho' with rfl | ho'
      · exact .inl et.symm
      · exact .inr ⟨o', ho', et⟩

theorem addAction_grown (s : σ) (a : α) (g : Graph σ α) (hs : (g.get? s).isSome = true) :
    Grown m c s (fun x => ∃ o ∈ m.outcomes s a, o.2.2 = x) [a] g (addAction m c s g a) := by
  have h1 : Grown m c s (fun _ => False) [a] g (modify g s fun n => { n with acts := n.acts ++ [a] }) := by
    refine ⟨fun t n e => ⟨[], ?_, by simp, False.elim, by simp⟩, fun t n' e e' => ?_, fun t h => h.elim⟩
    · rw [get?_modify]
      by_cases hts : t = s
      · subst hts; simp [e]
      · simp [hts, e]
    · rw [get?_modify] at e'
      by_cases hts : t = s
      · subst hts; simp [e] at hs
      · simp [hts, e] at e'
  have h2 := h1.trans hs (addOutcomes_grown (m := m) (c := c) s (m.outcomes s a) _ (h1.keep hs))
  refine ⟨fun t n e => ?_, fun t n' e e' => ?_, fun t ht => h2.has t (.inr ht)⟩
  · obtain ⟨ps, e1, hp, hO, hO2⟩ := h2.old t n e
    exact ⟨ps, e1, hp, fun h => hO (.inr h), fun h => (hO2 h).resolve_left id⟩
  · obtain ⟨hO, r⟩ := h2.new t n' e e'
    exact ⟨hO.resolve_left id, r⟩

/-- `t` is a possible next state after `s`. -/
def Next (m : Mdp σ α) (s t : σ) : Prop := ∃ a ∈ m.actions s, ∃ o ∈ m.outcomes s a, o.2.2 = t

theorem expand_grown (s : σ) (g : Graph σ α) (hs : (g.get? s).isSome = true) :
    Grown m c s (Next m s) (m.actions s) g (expand m c g s) := by
  have key : ∀ (as : List α) (g : Graph σ α), (g.get? s).isSome = true →
      Grown m c s (fun x => ∃ a ∈ as, ∃ o ∈ m.outcomes s a, o.2.2 = x) as g (as.foldl (addAction m c s) g) := by
    intro as
    induction as with
    | nil => intro g _; simpa using Grown.refl (m := m) (c := c) (s := s) g
    | cons a as ih =>
      intro g hs
      have h1 := addAction_grown (m := m) (c := c) s a g hs
      have h2 := h1.trans hs (ih _ (h1.keep hs))
      refine ⟨fun t n e => ?_, fun t n' e e' => ?_, fun t ht => ?_⟩
      · obtain ⟨ps, e1, hp, hO, hO2⟩ := h2.old t n e
        refine ⟨ps, e1, hp, fun h => hO (by simpa using h), fun h => by simpa using hO2 h⟩
      · obtain ⟨hO, r⟩ := h2.new t n' e e'
        exact ⟨by simpa using hO, r⟩
      · exact h2.has t (by simpa using ht)
  exact key (m.actions s) g hs

/-! ### Structure -/

/-- What the nodes' actions and parents are. -/
structure Shape (m : Mdp σ α) (g : Graph σ α) : Prop where
  acts : ∀ s n, g.get? s = some n → n.acts = [] ∨ ∀ a, a ∈ n.acts ↔ a ∈ m.actions s
  kids : ∀ s n, g.get? s = some n → ∀ a ∈ n.acts, ∀ o ∈ m.outcomes s a,
    ∃ n', g.get? o.2.2 = some n' ∧ s ∈ n'.parents
  par : ∀ t n, g.get? t = some n → ∀ s ∈ n.parents, Next m s t ∧ ∃ n', g.get? s = some n' ∧ n'.acts ≠ []

theorem Shape.expand {g : Graph σ α} (h : Shape m g) {s : σ} (hs : (g.get? s).isSome = true) :
    Shape m (expand m c g s) := by
  have hg := expand_grown (m := m) (c := c) s g hs
  obtain ⟨ns, es⟩ := Option.isSome_iff_exists.1 hs
  refine ⟨fun t n e => ?_, fun t n e a ha o ho => ?_, fun t n e p hp => ?_⟩
  · cases e0 : g.get? t with
    | none => exact .inl (hg.new t n e0 e).2.1
    | some n0 =>
      obtain ⟨ps, e1, -⟩ := hg.old t n0 e0
      rw [e] at e1; cases e1
      by_cases hts : t = s
      · subst hts
        simp only [↓reduceIte]
        rcases h.acts t n0 e0 with h0 | h0
        · right; intro a; simp [h0]
        · right; intro a; simp [h0]
      · simp only [hts, ↓reduceIte, List.append_nil]
        exact h.acts t n0 e0
  · cases e0 : g.get? t with
    | none => rw [(hg.new t n e0 e).2.1] at ha; cases ha
    | some n0 =>
      obtain ⟨ps, e1, -⟩ := hg.old t n0 e0
      rw [e] at e1; cases e1
      have old : a ∈ n0.acts → ∃ n', (AoStar.expand m c g s).get? o.2.2 = some n' ∧ t ∈ n'.parents := by
        intro ha
        obtain ⟨n', e', hp⟩ := h.kids t n0 e0 a ha o ho
        obtain ⟨ps', e2, -⟩ := hg.old _ n' e'
        exact ⟨_, e2, List.mem_append_left _ hp⟩
      rcases List.mem_append.1 ha with ha | ha
      · exact old ha
      · by_cases hts : t = s
        · subst hts
          simp only [↓reduceIte] at ha
          have hn : Next m t o.2.2 := ⟨a, ha, o, ho, rfl⟩
          cases e2 : g.get? o.2.2 with
          | none =>
            obtain ⟨n', e'⟩ := Option.isSome_iff_exists.1 (hg.has _ hn)
            obtain ⟨-, -, -, -, -, hpn, hp⟩ := hg.new _ n' e2 e'
            obtain ⟨p, hpm⟩ := List.exists_mem_of_ne_nil _ hpn
            exact ⟨n', e', hp p hpm ▸ hpm⟩
          | some n2 =>
            obtain ⟨ps', e3, -, hO, -⟩ := hg.old _ n2 e2
            exact ⟨_, e3, List.mem_append_right _ (hO hn)⟩
        · simp [hts] at ha
  · have hsacts : Next m s t → ∃ n', (AoStar.expand m c g s).get? s = some n' ∧ n'.acts ≠ [] := by
      rintro ⟨a, ha, -⟩
      obtain ⟨ps, e1, -⟩ := hg.old s ns es
      refine ⟨_, e1, ?_⟩
      simp only [↓reduceIte]
      intro h0
      rw [(List.append_eq_nil_iff.1 h0).2] at ha; cases ha
    have keepacts : ∀ p n', g.get? p = some n' → n'.acts ≠ [] →
        ∃ n', (AoStar.expand m c g s).get? p = some n' ∧ n'.acts ≠ [] := by
      intro p n' e' hn
      obtain ⟨ps, e1, -⟩ := hg.old p n' e'
      exact ⟨_, e1, fun h0 => hn (List.append_eq_nil_iff.1 h0).1⟩
    cases e0 : g.get? t with
    | none =>
      obtain ⟨hO, -, -, -, -, -, hps⟩ := hg.new t n e0 e
      rw [hps p hp]
      exact ⟨hO, hsacts hO⟩
    | some n0 =>
      obtain ⟨ps, e1, hps, -, hO⟩ := hg.old t n0 e0
      rw [e] at e1; cases e1
      rcases List.mem_append.1 hp with hp1 | hp1
      · obtain ⟨hn, n', e', ha⟩ := h.par t n0 e0 p hp1
        exact ⟨hn, keepacts p n' e' ha⟩
      · have hps' := hps p hp1
        subst hps'
        exact ⟨hO hp1, hsacts (hO hp1)⟩

/-- The two graphs have the same nodes with the same actions and parents. -/
def SameShape (g g' : Graph σ α) : Prop :=
  ∀ t, (g'.get? t).map (fun n => (n.acts, n.parents)) = (g.get? t).map fun n => (n.acts, n.parents)

theorem SameShape.refl (g : Graph σ α) : SameShape g g := fun _ => rfl

theorem SameShape.trans {g g1 g2 : Graph σ α} (h : SameShape g g1) (h' : SameShape g1 g2) : SameShape g g2 :=
  fun t => (h' t).trans (h t)

theorem SameShape.some {g g' : Graph σ α} (h : SameShape g g') {t : σ} {n : Node σ α} (e : g.get? t = some n) :
    ∃ n', g'.get? t = some n' ∧ n'.acts = n.acts ∧ n'.parents = n.parents := by
  have := h t
  rw [e] at this
  cases e' : g'.get? t with
  | none => rw [e'] at this; cases this
  | some n' =>
    rw [e'] at this
    simp only [Option.map_some, Option.some.injEq, Prod.mk.injEq] at this
    exact ⟨n', rfl, this.1, this.2⟩

theorem SameShape.symm {g g' : Graph σ α} (h : SameShape g g') : SameShape g' g := fun t => (h t).symm

theorem SameShape.parentsOf {g g' : Graph σ α} (h : SameShape g g') (t : σ) : parentsOf g' t = parentsOf g t := by
  have := h t
  unfold AoStar.parentsOf
  cases e : g.get? t <;> cases e' : g'.get? t <;> rw [e, e'] at this <;> simp_all

theorem SameShape.actsOf {g g' : Graph σ α} (h : SameShape g g') (t : σ) : actsOf g' t = actsOf g t := by
  have := h t
  unfold AoStar.actsOf
  cases e : g.get? t <;> cases e' : g'.get? t <;> rw [e, e'] at this <;> simp_all

theorem SameShape.isSome {g g' : Graph σ α} (h : SameShape g g') (t : σ) : (g'.get? t).isSome = (g.get? t).isSome := by
  have := h t
  cases e : g.get? t <;> cases e' : g'.get? t <;> rw [e, e'] at this <;> simp_all

theorem Shape.same {g g' : Graph σ α} (h : Shape m g) (hs : SameShape g g') : Shape m g' := by
  refine ⟨fun t n e => ?_, fun t n e a ha o ho => ?_, fun t n e p hp => ?_⟩
  · obtain ⟨n0, e0, ha, hp⟩ := hs.symm.some e
    rw [← ha]; exact h.acts t n0 e0
  · obtain ⟨n0, e0, ha0, hp0⟩ := hs.symm.some e
    obtain ⟨n1, e1, h1⟩ := h.kids t n0 e0 a (ha0 ▸ ha) o ho
    obtain ⟨n2, e2, ha2, hp2⟩ := hs.some e1
    exact ⟨n2, e2, hp2 ▸ h1⟩
  · obtain ⟨n0, e0, ha0, hp0⟩ := hs.symm.some e
    obtain ⟨hn, n1, e1, h1⟩ := h.par t n0 e0 p (hp0 ▸ hp)
    obtain ⟨n2, e2, ha2, hp2⟩ := hs.some e1
    exact ⟨hn, n2, e2, ha2 ▸ h1⟩

theorem modify_sameShape (g : Graph σ α) (s : σ) {f : Node σ α → Node σ α} (hf : ∀ n, (f n).acts = n.acts ∧ (f n).parents = n.parents) :
    SameShape g (modify g s f) := by
  intro t
  rw [get?_modify]
  by_cases hts : t = s
  · subst hts
    rw [if_pos rfl]
    cases g.get? t with
    | none => rfl
    | some n => simp [hf n]
  · rw [if_neg hts]

theorem update_sameShape {g g' : Graph σ α} {s : σ} (h : update m c g s = .ok g') : SameShape g g' := by
  unfold update at h
  simp only at h
  split at h
  · cases h
  · cases h
    refine SameShape.trans (SameShape.trans (modify_sameShape g s ?_) (modify_sameShape _ s ?_)) (modify_sameShape _ s ?_)
    all_goals exact fun n => ⟨rfl, rfl⟩

theorem level_sameShape {fs : List σ} {g g' : Graph σ α} {nf nf' : List σ} (h : level m c fs g nf = .ok (g', nf')) :
    SameShape g g' ∧ ∀ x, x ∈ nf' ↔ x ∈ nf ∨ ∃ f ∈ fs, x ∈ parentsOf g f := by
  induction fs generalizing g nf with
  | nil => cases h; exact ⟨.refl _, by simp⟩
  | cons f fs ih =>
    simp only [level] at h
    obtain ⟨g1, h1, h2⟩ := bind_eq_ok.1 h
    have hs := update_sameShape h1
    obtain ⟨hs', hx⟩ := ih h2
    refine ⟨hs.trans hs', fun x => ?_⟩
    rw [hx, mem_insertAll]
    simp only [hs.parentsOf, List.mem_cons, exists_eq_or_imp]
    exact or_assoc

theorem backprop_sameShape {n : Nat} {F E : List σ} {g g' : Graph σ α} (h : backprop m c n F E g = some (.ok g')) :
    SameShape g g' := by
  induction n generalizing F E g with
  | zero =>
    cases F with
    | nil => simp only [backprop, Option.some.injEq, Except.ok.injEq] at h; subst h; exact .refl _
    | cons f fs => simp [backprop] at h
  | succ n ih =>
    cases F with
    | nil => simp only [backprop, Option.some.injEq, Except.ok.injEq] at h; subst h; exact .refl _
    | cons f fs =>
      simp only [backprop] at h
      split at h
      · simp at h
      · rename_i g1 nf hl
        split at h
        · simp at h
        · exact (level_sameShape hl).1.trans (ih h)

/-! ### Values -/

theorem update_spec {g : Graph σ α} {s : σ} {n : Node σ α} (e : g.get? s = some n)
    (hk : ∀ a ∈ n.acts, ∀ o ∈ m.outcomes s a, o.2.2 ≠ s ∧ (value g o.2.2).isSome = true) :
    (n.acts = [] → update m c g s = .error .attributeError) ∧
    ∀ a v, Mdp.greedy (fun a => m.q c.discount (val g) s a) n.acts = some (a, v) → ∃ g', update m c g s = .ok g' ∧
      ∀ t, g'.get? t = if t = s then some { n with best := some a, value := some v, solved := (m.outcomes s a).all fun o => isSolved g o.2.2 }
        else g.get? t := by
  have hv : ∀ t, t ≠ s → value (modify g s fun n => { n with best := none, value := none }) t = value g t := by
    intro t ht
    unfold value
    rw [get?_modify, if_neg ht]
  have ha : actsOf (modify g s fun n => { n with best := none, value := none }) s = n.acts := by
    unfold actsOf
    rw [get?_modify]; simp [e]
  have hfil : n.acts.filter (finite m (modify g s fun n => { n with best := none, value := none }) s) = n.acts := by
    rw [List.filter_eq_self]
    intro a ham
    unfold finite
    rw [List.all_eq_true]
    intro o ho
    rw [hv _ (hk a ham o ho).1]
    exact (hk a ham o ho).2
  have hq : Mdp.greedy (fun a => m.q c.discount (fun t => (value (modify g s fun n => { n with best := none, value := none }) t).getD 0) s a) n.acts
      = Mdp.greedy (fun a => m.q c.discount (val g) s a) n.acts := by
    refine Mdp.greedy_congr fun a ham => m.q_congr _ fun o ho => ?_
    rw [hv _ (hk a ham o ho).1]; rfl
  constructor
  · intro h0
    unfold update
    simp only [ha, h0]
    rfl
  · intro a v hg
    unfold update
    simp only [ha, hfil, hq, hg]
    refine ⟨_, rfl, fun t => ?_⟩
    have ham := (Mdp.greedy_some hg).1
    rw [get?_modify]
    by_cases hts : t = s
    · subst hts
      simp only [↓reduceIte]
      rw [get?_modify, if_pos rfl, get?_modify, if_pos rfl, e]
      simp only [Option.map_some, Option.some.injEq, Node.mk.injEq, true_and, and_true]
      rw [Bool.eq_iff_iff, List.all_eq_true, List.all_eq_true]
      refine forall₂_congr fun o ho => ?_
      have hne := (hk a ham o ho).1
      unfold isSolved
      rw [get?_modify, if_neg hne, get?_modify, if_neg hne]
    · simp only [hts, ↓reduceIte]
      rw [get?_modify, if_neg hts, get?_modify, if_neg hts]

/-- What a node that is not waiting to be updated looks like. -/
structure CleanAt (m : Mdp σ α) (c : Config σ) (g : Graph σ α) (s : σ) (n : Node σ α) : Prop where
  nongoal : m.goal s = false
  best : ∃ a v, n.best = some a ∧ n.value = some v ∧
    Mdp.greedy (fun a => m.q c.discount (val g) s a) n.acts = some (a, v) ∧
    n.solved = (m.outcomes s a).all fun o => isSolved g o.2.2

/-- Nodes that are not expanded have their initial values; the others, except those in `D`, agree
with their successors. -/
structure Clean (m : Mdp σ α) (c : Config σ) (g : Graph σ α) (D : σ → Prop) : Prop where
  tip : ∀ s n, g.get? s = some n → n.acts = [] → n.best = none ∧ (m.goal s = true → n.value = some 0 ∧ n.solved = true) ∧
    (m.goal s = false → (n.value = some (c.h s) ∨ n.value = none) ∧ n.solved = false)
  inner : ∀ s n, g.get? s = some n → n.acts ≠ [] → m.goal s = false
  clean : ∀ s n, g.get? s = some n → n.acts ≠ [] → ¬ D s → CleanAt m c g s n

/-- Nodes without a value have no parents and are among `F`. -/
def Fin (g : Graph σ α) (F : List σ) : Prop := ∀ t n, g.get? t = some n → n.value = none → t ∈ F ∧ n.parents = []

def NoSelf (g : Graph σ α) : Prop := ∀ t n, g.get? t = some n → t ∉ n.parents

theorem NoSelf.same {g g' : Graph σ α} (h : NoSelf g) (hs : SameShape g g') : NoSelf g' := by
  intro t n e
  obtain ⟨n0, e0, -, hp⟩ := hs.symm.some e
  rw [← hp]; exact h t n0 e0

theorem kids_fin {g : Graph σ α} (hsh : Shape m g) (hns : NoSelf g) {F : List σ} (hf : Fin g F) {s : σ} {n : Node σ α}
    (e : g.get? s = some n) : ∀ a ∈ n.acts, ∀ o ∈ m.outcomes s a, o.2.2 ≠ s ∧ (value g o.2.2).isSome = true := by
  intro a ha o ho
  obtain ⟨n', e', hp⟩ := hsh.kids s n e a ha o ho
  constructor
  · intro h
    rw [h] at e'
    rw [e] at e'; cases e'
    exact hns s n e hp
  · rw [value_eq e']
    cases hv : n'.value with
    | none => rw [(hf _ n' e' hv).2] at hp; cases hp
    | some v => rfl

/-- `U` stays above a value that is recomputed from values that it is above. -/
structure Bound (m : Mdp σ α) (c : Config σ) (P : σ → Rat → Prop) : Prop where
  goal : ∀ s, m.goal s = true → P s 0
  h : ∀ s, m.goal s = false → P s (c.h s)
  step : ∀ s, m.goal s = false → ∀ v : σ → Rat, (∀ a ∈ m.actions s, ∀ o ∈ m.outcomes s a, P o.2.2 (v o.2.2)) →
    ∀ as : List α, (∀ a, a ∈ as ↔ a ∈ m.actions s) → ∀ a w, Mdp.greedy (fun a => m.q c.discount v s a) as = some (a, w) → P s w

def Low (P : σ → Rat → Prop) (g : Graph σ α) : Prop := ∀ t n v, g.get? t = some n → n.value = some v → P t v

theorem level_spec {P : σ → Rat → Prop} (hP : Bound m c P) {fs : List σ} {g g' : Graph σ α} {nf nf' : List σ} (hsh : Shape m g) (hns : NoSelf g)
    (hf : Fin g fs) (hc : Clean m c g fun t => t ∈ fs ∨ t ∈ nf) (hex : ∀ f ∈ fs, (g.get? f).isSome = true) (hlow : Low P g)
    (h : level m c fs g nf = .ok (g', nf')) : Fin g' [] ∧ Clean m c g' (· ∈ nf') ∧ Low P g' := by
  induction fs generalizing g nf with
  | nil =>
    cases h
    refine ⟨hf, ⟨hc.tip, hc.inner, fun s n e ha hd => hc.clean s n e ha ?_⟩, hlow⟩
    rintro (h | h)
    · cases h
    · exact hd h
  | cons f fs ih =>
    simp only [level] at h
    obtain ⟨g1, h1, h2⟩ := bind_eq_ok.1 h
    obtain ⟨n, e⟩ := Option.isSome_iff_exists.1 (hex f List.mem_cons_self)
    have hk := kids_fin hsh hns hf e
    obtain ⟨u1, u2⟩ := update_spec (m := m) (c := c) e hk
    have hacts : n.acts ≠ [] := by intro h0; rw [u1 h0] at h1; cases h1
    have hgf := hc.inner f n e hacts
    cases hgr : Mdp.greedy (fun a => m.q c.discount (val g) f a) n.acts with
    | none => exact absurd (Mdp.greedy_none hgr) hacts
    | some av =>
      obtain ⟨a, v⟩ := av
      obtain ⟨g1', h1', hget⟩ := u2 a v hgr
      rw [h1] at h1'
      cases h1'
      have hss := update_sameShape h1
      have hpar : parentsOf g1 f = n.parents := by rw [hss.parentsOf, parentsOf_eq e]
      have haset : ∀ a, a ∈ n.acts ↔ a ∈ m.actions f := (hsh.acts f n e).resolve_left hacts
      refine ih (hsh.same hss) (hns.same hss) ?_ ?_ ?_ ?_ h2
      · intro t nt et hv
        rw [hget] at et
        by_cases htf : t = f
        · rw [if_pos htf] at et; cases et; cases hv
        · rw [if_neg htf] at et
          obtain ⟨hm, hp⟩ := hf t nt et hv
          exact ⟨(List.mem_cons.1 hm).resolve_left htf, hp⟩
      · refine ⟨fun t nt et h0 => ?_, fun t nt et ha => ?_, fun t nt et ha hd => ?_⟩
        · rw [hget] at et
          by_cases htf : t = f
          · rw [if_pos htf] at et; cases et; exact absurd h0 hacts
          · rw [if_neg htf] at et; exact hc.tip t nt et h0
        · rw [hget] at et
          by_cases htf : t = f
          · rw [htf]; exact hgf
          · rw [if_neg htf] at et; exact hc.inner t nt et ha
        · have hval : ∀ x, x ≠ f → value g1 x = value g x := by
            intro x hx; unfold value; rw [hget, if_neg hx]
          have hsol : ∀ x, x ≠ f → isSolved g1 x = isSolved g x := by
            intro x hx; unfold isSolved; rw [hget, if_neg hx]
          rw [hget] at et
          by_cases htf : t = f
          · rw [if_pos htf] at et
            subst htf
            cases et
            refine ⟨hgf, a, v, rfl, rfl, ?_, ?_⟩
            · rw [← hgr]
              refine Mdp.greedy_congr fun b hb => m.q_congr _ fun o ho => ?_
              unfold val
              rw [hval _ (hk b hb o ho).1]
            · rw [Bool.eq_iff_iff, List.all_eq_true, List.all_eq_true]
              refine forall₂_congr fun o ho => ?_
              rw [hsol _ (hk a (Mdp.greedy_some hgr).1 o ho).1]
          · rw [if_neg htf] at et
            rw [mem_insertAll, hpar] at hd
            have hnp : ∀ b ∈ nt.acts, ∀ o ∈ m.outcomes t b, o.2.2 ≠ f := by
              intro b hb o ho hof
              obtain ⟨n', e', hp'⟩ := hsh.kids t nt et b hb o ho
              rw [hof] at e'
              rw [e] at e'; cases e'
              exact hd (.inr (.inr hp'))
            obtain ⟨hng, b, w, hb, hw, hgr', hs'⟩ := hc.clean t nt et ha (by
              rintro (h | h)
              · rcases List.mem_cons.1 h with h | h
                · exact htf h
                · exact hd (.inl h)
              · exact hd (.inr (.inl h)))
            refine ⟨hng, b, w, hb, hw, ?_, ?_⟩
            · rw [← hgr']
              refine Mdp.greedy_congr fun b hb => m.q_congr _ fun o ho => ?_
              unfold val
              rw [hval _ (hnp b hb o ho)]
            · rw [hs', Bool.eq_iff_iff, List.all_eq_true, List.all_eq_true]
              refine forall₂_congr fun o ho => ?_
              rw [hsol _ (hnp b (Mdp.greedy_some hgr').1 o ho)]
      · intro x hx
        rw [hss.isSome]; exact hex x (List.mem_cons_of_mem _ hx)
      · intro t nt w et hw
        rw [hget] at et
        by_cases htf : t = f
        · rw [if_pos htf] at et
          subst htf
          cases et
          simp only [Option.some.injEq] at hw
          subst hw
          refine hP.step t hgf (val g) (fun b hb o ho => ?_) n.acts haset a v hgr
          have hb' := (haset b).2 hb
          obtain ⟨n', e', -⟩ := hsh.kids t n e b hb' o ho
          have h2 := (hk b hb' o ho).2
          rw [value_eq e'] at h2
          obtain ⟨x, hx⟩ := Option.isSome_iff_exists.1 h2
          unfold val
          rw [value_eq e', hx]
          exact hlow _ n' x e' hx
        · rw [if_neg htf] at et
          exact hlow t nt w et hw

theorem Fin.mono {g : Graph σ α} {F F' : List σ} (h : Fin g F) (hs : ∀ x ∈ F, x ∈ F') : Fin g F' :=
  fun t n e hv => ⟨hs t (h t n e hv).1, (h t n e hv).2⟩

theorem backprop_spec {P : σ → Rat → Prop} (hP : Bound m c P) (harr : ∀ l x, x ∈ c.arrange l ↔ x ∈ l) {k : Nat} {F E : List σ} {g g' : Graph σ α}
    (hsh : Shape m g) (hns : NoSelf g) (hf : Fin g F) (hc : Clean m c g (· ∈ F))
    (hex : ∀ f ∈ F, (g.get? f).isSome = true) (hlow : Low P g)
    (h : backprop m c k F E g = some (.ok g')) : Fin g' [] ∧ Clean m c g' (fun _ => False) ∧ Low P g' := by
  induction k generalizing F E g with
  | zero =>
    cases F with
    | nil =>
      simp only [backprop, Option.some.injEq, Except.ok.injEq] at h; subst h
      exact ⟨hf, ⟨hc.tip, hc.inner, fun s n e ha hd => hc.clean s n e ha (by simp)⟩, hlow⟩
    | cons f fs => simp [backprop] at h
  | succ k ih =>
    cases F with
    | nil =>
      simp only [backprop, Option.some.injEq, Except.ok.injEq] at h; subst h
      exact ⟨hf, ⟨hc.tip, hc.inner, fun s n e ha hd => hc.clean s n e ha (by simp)⟩, hlow⟩
    | cons f fs =>
      simp only [backprop] at h
      split at h
      · simp at h
      · rename_i g1 nf hl
        split at h
        · simp at h
        · obtain ⟨hss, hnf⟩ := level_sameShape hl
          obtain ⟨h1, h2, h3⟩ := level_spec hP hsh hns (hf.mono fun x hx => (harr _ _).2 hx)
            (⟨hc.tip, hc.inner, fun s n e ha hd => hc.clean s n e ha fun hm => hd (.inl ((harr _ _).2 hm))⟩)
            (fun x hx => hex x ((harr _ _).1 hx)) hlow hl
          refine ih (hsh.same hss) (hns.same hss) (h1.mono (by simp)) h2 ?_ h3 h
          intro x hx
          rcases (hnf x).1 hx with hx | ⟨y, hy, hxy⟩
          · cases hx
          · rw [hss.isSome]
            obtain ⟨ny, ey⟩ := Option.isSome_iff_exists.1 (hex y ((harr _ _).1 hy))
            rw [parentsOf_eq ey] at hxy
            obtain ⟨-, n', e', -⟩ := hsh.par y ny ey x hxy
            simp [e']

/-- A node that is its own parent is never done with. -/
theorem backprop_noSelf (harr : ∀ l x, x ∈ c.arrange l ↔ x ∈ l) {k : Nat} {F E : List σ} {g g' : Graph σ α}
    (h : backprop m c k F E g = some (.ok g')) {s : σ} (hs : s ∈ F) : s ∉ parentsOf g s := by
  intro hp
  induction k generalizing F E g with
  | zero =>
    cases F with
    | nil => cases hs
    | cons f fs => simp [backprop] at h
  | succ k ih =>
    cases F with
    | nil => cases hs
    | cons f fs =>
      simp only [backprop] at h
      split at h
      · simp at h
      · rename_i g1 nf hl
        split at h
        · simp at h
        · obtain ⟨hss, hnf⟩ := level_sameShape hl
          refine ih h ((hnf s).2 (.inr ⟨s, (harr _ _).2 hs, hp⟩)) ?_
          rw [hss.parentsOf]; exact hp

/-! ### A round -/

/-- `g'` is `g` after the tips `ts` were expanded. -/
structure Grew (m : Mdp σ α) (ts : List σ) (g g' : Graph σ α) : Prop where
  old : ∀ t n, g.get? t = some n → ∃ n', g'.get? t = some n' ∧ n'.best = n.best ∧ n'.value = n.value ∧ n'.solved = n.solved ∧
    (n.acts ≠ [] → n'.acts ≠ []) ∧ (t ∉ ts → n'.acts = n.acts) ∧ (t ∈ ts → m.actions t ≠ [] → n'.acts ≠ []) ∧
    (∀ p ∈ n.parents, p ∈ n'.parents) ∧ ∀ p ∈ n'.parents, p ∈ n.parents ∨ p ∈ ts
  new : ∀ t n', g.get? t = none → g'.get? t = some n' → n'.value ≠ none ∧ n'.acts = [] ∧ (∃ p ∈ ts, Next m p t) ∧ ∀ p ∈ n'.parents, p ∈ ts

theorem Clean.expand {g : Graph σ α} {D : σ → Prop} (h : Clean m c g D) (hsh : Shape m g) {s : σ} (hs : (g.get? s).isSome = true)
    (hg : m.goal s = false) : Clean m c (expand m c g s) fun t => D t ∨ t = s := by
  have hgr := expand_grown (m := m) (c := c) s g hs
  refine ⟨fun t n e h0 => ?_, fun t n e h0 => ?_, fun t n e h0 hd => ?_⟩
  · cases e0 : g.get? t with
    | none =>
      obtain ⟨-, -, hb, h1, h2, -⟩ := hgr.new t n e0 e
      exact ⟨hb, h1, fun h => ⟨.inl (h2 h).1, (h2 h).2⟩⟩
    | some n0 =>
      obtain ⟨ps, e1, -⟩ := hgr.old t n0 e0
      rw [e] at e1; cases e1
      exact h.tip t n0 e0 (List.append_eq_nil_iff.1 h0).1
  · cases e0 : g.get? t with
    | none => exact absurd (hgr.new t n e0 e).2.1 h0
    | some n0 =>
      obtain ⟨ps, e1, -⟩ := hgr.old t n0 e0
      rw [e] at e1; cases e1
      by_cases hts : t = s
      · rw [hts]; exact hg
      · simp only [hts, ↓reduceIte, List.append_nil] at h0
        exact h.inner t n0 e0 h0
  · cases e0 : g.get? t with
    | none => exact absurd (hgr.new t n e0 e).2.1 h0
    | some n0 =>
      obtain ⟨ps, e1, -⟩ := hgr.old t n0 e0
      rw [e] at e1; cases e1
      have hts : t ≠ s := fun h' => hd (.inr h')
      simp only [hts, ↓reduceIte, List.append_nil] at h0
      obtain ⟨hng, a, v, hb, hv, hq, hsol⟩ := h.clean t n0 e0 h0 fun h' => hd (.inl h')
      have hk : ∀ b ∈ n0.acts, ∀ o ∈ m.outcomes t b, value (AoStar.expand m c g s) o.2.2 = value g o.2.2 ∧
          isSolved (AoStar.expand m c g s) o.2.2 = isSolved g o.2.2 := by
        intro b hb o ho
        obtain ⟨n', e', -⟩ := hsh.kids t n0 e0 b hb o ho
        obtain ⟨ps', e2, -⟩ := hgr.old _ n' e'
        rw [value_eq e2, value_eq e', isSolved_eq e2, isSolved_eq e']
        exact ⟨rfl, rfl⟩
      refine ⟨hng, a, v, hb, hv, ?_, ?_⟩
      · rw [← hq]
        simp only [hts, ↓reduceIte, List.append_nil]
        refine Mdp.greedy_congr fun b hb => m.q_congr _ fun o ho => ?_
        unfold val
        rw [(hk b hb o ho).1]
      · simp only [hsol]
        rw [Bool.eq_iff_iff, List.all_eq_true, List.all_eq_true]
        refine forall₂_congr fun o ho => ?_
        rw [(hk a (Mdp.greedy_some hq).1 o ho).2]

theorem expandAll_spec {P : σ → Rat → Prop} (hP : Bound m c P) {ts : List σ} {g : Graph σ α} {D : σ → Prop} (hsh : Shape m g)
    (hc : Clean m c g D) (hlow : Low P g) (hex : ∀ t ∈ ts, (g.get? t).isSome = true ∧ m.goal t = false) :
    Shape m (ts.foldl (expand m c) g) ∧ Clean m c (ts.foldl (expand m c) g) (fun t => D t ∨ t ∈ ts) ∧
    Low P (ts.foldl (expand m c) g) ∧ Grew m ts g (ts.foldl (expand m c) g) := by
  induction ts generalizing g D with
  | nil =>
    refine ⟨hsh, ⟨hc.tip, hc.inner, fun s n e ha hd => hc.clean s n e ha fun h => hd (.inl h)⟩, hlow, ⟨fun t n e => ?_, fun t n e e' => ?_⟩⟩
    · exact ⟨n, e, rfl, rfl, rfl, id, fun _ => rfl, by simp, fun _ => id, fun _ => .inl⟩
    · rw [List.foldl_nil, e] at e'; cases e'
  | cons s ts ih =>
    obtain ⟨hs, hg⟩ := hex s List.mem_cons_self
    have hgr := expand_grown (m := m) (c := c) s g hs
    have hlow1 : Low P (expand m c g s) := by
      intro t n v e hv
      cases e0 : g.get? t with
      | none =>
        obtain ⟨-, -, -, h1, h2, -⟩ := hgr.new t n e0 e
        cases hgt : m.goal t with
        | true => rw [(h1 hgt).1] at hv; cases hv; exact hP.goal t hgt
        | false => rw [(h2 hgt).1] at hv; cases hv; exact hP.h t hgt
      | some n0 =>
        obtain ⟨ps, e1, -⟩ := hgr.old t n0 e0
        rw [e] at e1; cases e1
        exact hlow t n0 v e0 hv
    obtain ⟨i1, i2, i3, i4⟩ := ih (hsh.expand hs) (hc.expand hsh hs hg) hlow1 fun t ht =>
      ⟨hgr.keep (hex t (List.mem_cons_of_mem _ ht)).1, (hex t (List.mem_cons_of_mem _ ht)).2⟩
    refine ⟨i1, ⟨i2.tip, i2.inner, fun t n e ha hd => i2.clean t n e ha ?_⟩, i3, ⟨fun t n e => ?_, fun t n' e e' => ?_⟩⟩
    · rintro ((h | h) | h)
      · exact hd (.inl h)
      · exact hd (.inr (h ▸ List.mem_cons_self))
      · exact hd (.inr (List.mem_cons_of_mem _ h))
    · obtain ⟨ps, e1, hps, -, -⟩ := hgr.old t n e
      obtain ⟨n', e2, hb, hv, hsv, ha, hat, hac, hp, hp'⟩ := i4.old t _ e1
      refine ⟨n', e2, hb, hv, hsv, fun h => ha fun h' => h (List.append_eq_nil_iff.1 h').1, fun h => ?_, fun h h0 => ?_, fun p h => hp p (List.mem_append_left _ h), fun p h => ?_⟩
      · have hts : t ≠ s := fun h' => h (h' ▸ List.mem_cons_self)
        rw [hat fun h' => h (List.mem_cons_of_mem _ h')]
        simp [hts]
      · rcases List.mem_cons.1 h with rfl | h
        · refine ha fun h' => h0 ?_
          simpa using (List.append_eq_nil_iff.1 h').2
        · exact hac h h0
      · rcases hp' p h with h | h
        · rcases List.mem_append.1 h with h | h
          · exact .inl h
          · exact .inr (hps p h ▸ List.mem_cons_self)
        · exact .inr (List.mem_cons_of_mem _ h)
    · cases e1 : (expand m c g s).get? t with
      | none =>
        obtain ⟨h1, h2, ⟨p, hp, hn⟩, h3⟩ := i4.new t n' e1 e'
        exact ⟨h1, h2, ⟨p, List.mem_cons_of_mem _ hp, hn⟩, fun p hp => List.mem_cons_of_mem _ (h3 p hp)⟩
      | some n1 =>
        obtain ⟨hO, ha1, -, hg1, hg2, -, hp1⟩ := hgr.new t n1 e e1
        obtain ⟨n2, e2, hb, hv, hsv, ha, hat, hac, hp, hp'⟩ := i4.old t n1 e1
        rw [List.foldl_cons, e2] at e'
        cases e'
        refine ⟨?_, ?_, ⟨s, List.mem_cons_self, hO⟩, fun p hpm => ?_⟩
        · rw [hv]
          cases hgt : m.goal t with
          | true => rw [(hg1 hgt).1]; simp
          | false => rw [(hg2 hgt).1]; simp
        · rw [hat fun h => ?_, ha1]
          have := (hex t (List.mem_cons_of_mem _ h)).1
          rw [e] at this; cases this
        · rcases hp' p hpm with h | h
          · exact hp1 p h ▸ List.mem_cons_self
          · exact List.mem_cons_of_mem _ h

/-- The graph between two rounds. -/
structure Ok (m : Mdp σ α) (c : Config σ) (P : σ → Rat → Prop) (g : Graph σ α) : Prop where
  shape : Shape m g
  noSelf : NoSelf g
  fin : Fin g []
  clean : Clean m c g fun _ => False
  low : Low P g

theorem round_spec {P : σ → Rat → Prop} (hP : Bound m c P) (harr : ∀ l x, x ∈ c.arrange l ↔ x ∈ l) {ts E : List σ} {k : Nat} {g g' : Graph σ α}
    (hsh : Shape m g) (hns : NoSelf g) (hf : ∀ t n, g.get? t = some n → n.value = none → (∀ x ∈ ts, x = t) ∧ t ∈ ts ∧ n.parents = [])
    (hc : Clean m c g fun _ => False) (hlow : Low P g) (hex : ∀ t ∈ ts, (g.get? t).isSome = true ∧ m.goal t = false)
    (h : backprop m c k (insertAll [] ts) E (ts.foldl (expand m c) g) = some (.ok g')) :
    Ok m c P g' ∧ SameShape (ts.foldl (expand m c) g) g' ∧ Grew m ts g (ts.foldl (expand m c) g) := by
  obtain ⟨h1, h2, h3, h4⟩ := expandAll_spec hP hsh hc hlow hex
  have hmem : ∀ x, x ∈ insertAll [] ts ↔ x ∈ ts := fun x => by rw [mem_insertAll]; simp
  have hns1 : NoSelf (ts.foldl (expand m c) g) := by
    intro t n e hp
    have ht : t ∈ ts := by
      cases e0 : g.get? t with
      | none => exact (h4.new t n e0 e).2.2.2 t hp
      | some n0 =>
        obtain ⟨n', e1, -, -, -, -, -, -, -, hp'⟩ := h4.old t n0 e0
        rw [e] at e1; cases e1
        exact (hp' t hp).resolve_left (hns t n0 e0)
    refine backprop_noSelf harr h ((hmem t).2 ht) ?_
    rw [parentsOf_eq e]; exact hp
  have hss := backprop_sameShape h
  obtain ⟨b1, b2, b3⟩ := backprop_spec hP harr h1 hns1 (F := insertAll [] ts) (by
      intro t n e hv
      cases e0 : g.get? t with
      | none => exact absurd hv (h4.new t n e0 e).1
      | some n0 =>
        obtain ⟨n', e1, -, hv', -, -, -, -, -, hp'⟩ := h4.old t n0 e0
        rw [e] at e1; cases e1
        obtain ⟨ha, ht, hp⟩ := hf t n0 e0 (hv' ▸ hv)
        refine ⟨(hmem t).2 ht, List.eq_nil_iff_forall_not_mem.2 fun p hpm => ?_⟩
        rcases hp' p hpm with h' | h'
        · rw [hp] at h'; cases h'
        · rw [ha p h'] at hpm; exact hns1 t n e hpm)
    (⟨h2.tip, h2.inner, fun s n e ha hd => h2.clean s n e ha (by
      rintro (h | h)
      · exact h
      · exact hd ((hmem s).2 h))⟩)
    (by
      intro f hf
      obtain ⟨n, e⟩ := Option.isSome_iff_exists.1 (hex f ((hmem f).1 hf)).1
      obtain ⟨n', e1, -⟩ := h4.old f n e
      simp [e1]) h3 h
  exact ⟨⟨h1.same hss, hns1.same hss, b1, b2, b3⟩, hss, h4⟩

/-! ### The tips of the best partial graph -/

theorem walk_spec {g : Graph σ α} {fs nf q nf' q' : List σ} (h : walk m g fs nf q = (nf', q')) :
    (∀ x ∈ nf, x ∈ nf') ∧ (∀ x ∈ q, x ∈ q') ∧
    (∀ x ∈ q', x ∈ q ∨ x ∈ fs ∧ isSolved g x = false ∧ bestOf g x = none) ∧
    (∀ x ∈ nf', x ∈ nf ∨ ∃ f ∈ fs, isSolved g f = false ∧ ∃ a, bestOf g f = some a ∧ ∃ o ∈ m.outcomes f a, o.2.2 = x) ∧
    ∀ f ∈ fs, isSolved g f = true ∨ (∃ a, bestOf g f = some a ∧ ∀ o ∈ m.outcomes f a, o.2.2 ∈ nf') ∨ f ∈ q' := by
  induction fs generalizing nf q with
  | nil =>
    simp only [walk, Prod.mk.injEq] at h
    obtain ⟨rfl, rfl⟩ := h
    exact ⟨fun _ => id, fun _ => id, fun _ => .inl, fun _ => .inl, by simp⟩
  | cons s fs ih =>
    simp only [walk] at h
    cases hs : isSolved g s with
    | true =>
      rw [hs, if_pos rfl] at h
      obtain ⟨h1, h2, h3, h4, h5⟩ := ih h
      refine ⟨h1, h2, fun x hx => (h3 x hx).imp id fun h => ⟨List.mem_cons_of_mem _ h.1, h.2⟩, fun x hx => (h4 x hx).imp id fun ⟨f, hf, h⟩ => ⟨f, List.mem_cons_of_mem _ hf, h⟩, fun f hf => ?_⟩
      rcases List.mem_cons.1 hf with rfl | hf
      · exact .inl hs
      · exact h5 f hf
    | false =>
      rw [hs, if_neg (by simp)] at h
      cases hb : bestOf g s with
      | some a =>
        rw [hb] at h
        obtain ⟨h1, h2, h3, h4, h5⟩ := ih h
        refine ⟨fun x hx => h1 x (mem_insertAll.2 (.inl hx)), h2, fun x hx => (h3 x hx).imp id fun h => ⟨List.mem_cons_of_mem _ h.1, h.2⟩, fun x hx => ?_, fun f hf => ?_⟩
        · rcases h4 x hx with hx | ⟨f, hf, h⟩
          · rcases mem_insertAll.1 hx with hx | hx
            · exact .inl hx
            · obtain ⟨o, ho, e⟩ := List.mem_map.1 hx
              exact .inr ⟨s, List.mem_cons_self, hs, a, hb, o, ho, e⟩
          · exact .inr ⟨f, List.mem_cons_of_mem _ hf, h⟩
        · rcases List.mem_cons.1 hf with rfl | hf
          · exact .inr (.inl ⟨a, hb, fun o ho => h1 _ (mem_insertAll.2 (.inr (List.mem_map.2 ⟨o, ho, rfl⟩)))⟩)
          · exact h5 f hf
      | none =>
        rw [hb] at h
        obtain ⟨h1, h2, h3, h4, h5⟩ := ih h
        refine ⟨h1, fun x hx => h2 x (List.mem_append_left _ hx), fun x hx => ?_, fun x hx => (h4 x hx).imp id fun ⟨f, hf, h⟩ => ⟨f, List.mem_cons_of_mem _ hf, h⟩, fun f hf => ?_⟩
        · rcases h3 x hx with hx | ⟨hx, h⟩
          · rcases List.mem_append.1 hx with hx | hx
            · exact .inl hx
            · rw [List.mem_singleton] at hx
              subst hx
              exact .inr ⟨List.mem_cons_self, hs, hb⟩
          · exact .inr ⟨List.mem_cons_of_mem _ hx, h⟩
        · rcases List.mem_cons.1 hf with rfl | hf
          · exact .inr (.inr (h2 f (List.mem_append_right _ (List.mem_singleton.2 rfl))))
          · exact h5 f hf

/-- A state whose best action leads somewhere has been expanded, so the outcomes have nodes. -/
theorem best_kids {g : Graph σ α} (hsh : Shape m g) (hc : Clean m c g fun _ => False) {s : σ} {n : Node σ α} (e : g.get? s = some n)
    {a : α} (hb : n.best = some a) : n.acts ≠ [] ∧ a ∈ n.acts ∧ ∀ o ∈ m.outcomes s a, (g.get? o.2.2).isSome = true := by
  have hacts : n.acts ≠ [] := by intro h0; rw [(hc.tip s n e h0).1] at hb; cases hb
  obtain ⟨hng, a', v, hb', hv, hq, hsol⟩ := hc.clean s n e hacts id
  rw [hb] at hb'; cases hb'
  have ha := (Mdp.greedy_some hq).1
  refine ⟨hacts, ha, fun o ho => ?_⟩
  obtain ⟨n', e', -⟩ := hsh.kids s n e a ha o ho
  simp [e']

theorem walk_isSome {g : Graph σ α} (hsh : Shape m g) (hc : Clean m c g fun _ => False) {fs q nf' q' : List σ}
    (h : walk m g fs [] q = (nf', q')) (hex : ∀ f ∈ fs, (g.get? f).isSome = true) : ∀ x ∈ nf', (g.get? x).isSome = true := by
  intro x hx
  rcases (walk_spec h).2.2.2.1 x hx with h' | ⟨f, hf, -, a, hb, o, ho, rfl⟩
  · cases h'
  · obtain ⟨n, e⟩ := Option.isSome_iff_exists.1 (hex f hf)
    rw [bestOf_eq e] at hb
    exact (best_kids hsh hc e hb).2.2 o ho

theorem tips_mem (harr : ∀ l x, x ∈ c.arrange l ↔ x ∈ l) {g : Graph σ α} (hsh : Shape m g) (hc : Clean m c g fun _ => False) {k : Nat} {F q0 q : List σ}
    (h : tips m c g k F q0 = some q) (hex : ∀ f ∈ F, (g.get? f).isSome = true) :
    ∀ x ∈ q, x ∈ q0 ∨ (g.get? x).isSome = true ∧ isSolved g x = false ∧ bestOf g x = none := by
  induction k generalizing F q0 with
  | zero =>
    cases F with
    | nil => simp only [tips, Option.some.injEq] at h; subst h; exact fun x => .inl
    | cons f fs => simp [tips] at h
  | succ k ih =>
    cases F with
    | nil => simp only [tips, Option.some.injEq] at h; subst h; exact fun x => .inl
    | cons f fs =>
      simp only [tips] at h
      rcases hw : walk m g (c.arrange (f :: fs)) [] q0 with ⟨nf, q1⟩
      rw [hw] at h
      have hex' : ∀ x ∈ c.arrange (f :: fs), (g.get? x).isSome = true := fun x hx => hex x ((harr _ _).1 hx)
      intro x hx
      rcases ih h (walk_isSome hsh hc hw hex') x hx with h' | h'
      · rcases (walk_spec hw).2.2.1 x h' with h' | ⟨h1, h2⟩
        · exact .inl h'
        · exact .inr ⟨hex' x h1, h2⟩
      · exact .inr h'

theorem tips_solved (harr : ∀ l x, x ∈ c.arrange l ↔ x ∈ l) {g : Graph σ α} (hsh : Shape m g) (hc : Clean m c g fun _ => False) {k : Nat} {F q0 : List σ}
    (h : tips m c g k F q0 = some []) (hex : ∀ f ∈ F, (g.get? f).isSome = true) : q0 = [] ∧ ∀ f ∈ F, isSolved g f = true := by
  induction k generalizing F q0 with
  | zero =>
    cases F with
    | nil => simp only [tips, Option.some.injEq] at h; subst h; exact ⟨rfl, by simp⟩
    | cons f fs => simp [tips] at h
  | succ k ih =>
    cases F with
    | nil => simp only [tips, Option.some.injEq] at h; subst h; exact ⟨rfl, by simp⟩
    | cons f fs =>
      simp only [tips] at h
      rcases hw : walk m g (c.arrange (f :: fs)) [] q0 with ⟨nf, q1⟩
      rw [hw] at h
      have hex' : ∀ x ∈ c.arrange (f :: fs), (g.get? x).isSome = true := fun x hx => hex x ((harr _ _).1 hx)
      obtain ⟨rfl, hall⟩ := ih h (walk_isSome hsh hc hw hex')
      obtain ⟨-, w2, -, -, w5⟩ := walk_spec hw
      refine ⟨List.eq_nil_iff_forall_not_mem.2 fun x hx => absurd (w2 x hx) List.not_mem_nil, fun x hx => ?_⟩
      rcases w5 x ((harr _ _).2 hx) with h' | ⟨a, hb, ho⟩ | h'
      · exact h'
      · obtain ⟨n, e⟩ := Option.isSome_iff_exists.1 (hex x hx)
        rw [bestOf_eq e] at hb
        obtain ⟨hacts, -, -⟩ := best_kids hsh hc e hb
        obtain ⟨-, a', v, hb', -, -, hsol⟩ := hc.clean x n e hacts id
        rw [hb] at hb'; cases hb'
        rw [isSolved_eq e, hsol, List.all_eq_true]
        exact fun o h => hall _ (ho o h)
      · cases h'

/-! ### The queue -/

omit [DecidableEq σ] in
theorem mem_enqueue {key : σ → Option Rat} {s x : σ} {q : List σ} : x ∈ enqueue key s q ↔ x = s ∨ x ∈ q := by
  induction q with
  | nil => simp [enqueue]
  | cons t q ih =>
    simp only [enqueue]
    split
    · simp
    · simp only [List.mem_cons, ih]
      constructor
      · rintro (h | h | h)
        · exact .inr (.inl h)
        · exact .inl h
        · exact .inr (.inr h)
      · rintro (h | h | h)
        · exact .inr (.inl h)
        · exact .inl h
        · exact .inr (.inr h)

omit [DecidableEq σ] in
theorem mem_popOrder {key : σ → Option Rat} {x : σ} {q : List σ} : x ∈ popOrder key q ↔ x ∈ q := by
  unfold popOrder
  induction q with
  | nil => simp
  | cons t q ih => rw [List.foldr_cons, mem_enqueue, ih, List.mem_cons]

end Verif.AoStar
