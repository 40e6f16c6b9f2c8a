import Verif.Model.Hindsight
import Mathlib.Algebra.Order.Ring.Rat
import Mathlib.Tactic.Ring
import Mathlib.Data.List.Nodup

namespace Verif.Hindsight
variable {κ σ α : Type} [DecidableEq κ] [DecidableEq σ] [DecidableEq α]

/-- What an action costs in a scenario: the plan when it starts so, otherwise the step and the plan from the next state. -/
def value (P : Scenarios κ σ α) (s : σ) (a : α) (k : κ) : Rat :=
  if P.act k s = a then P.solve k s else P.cost k s a (P.next k s a) + P.solve k (P.next k s a)

/-- The weighted sum over all scenarios. -/
def total (P : Scenarios κ σ α) (s : σ) (a : α) : Rat := (P.keys.map fun k => value P s a k * P.weight k).sum

theorem upd_self {β : Type} (f : σ → β) (x : σ) (v : β) : upd f x v x = v := by simp [upd]

theorem upd_ne {β : Type} (f : σ → β) {x y : σ} (v : β) (h : y ≠ x) : upd f x v y = f y := by simp [upd, h]

theorem get?_setScen (f : σ → α → Dict κ Rat) (s s' : σ) (a a' : α) (k k' : κ) (v : Rat) :
    ((setScen f s a k v s' a').get? k').isSome = (decide (s' = s ∧ a' = a ∧ k' = k) || ((f s' a').get? k').isSome) := by
  unfold setScen upd
  by_cases h1 : s' = s
  · subst h1
    by_cases h2 : a' = a
    · subst h2
      by_cases h3 : k' = k
      · subst h3; simp [Dict.get?_set_self]
      · simp [Dict.get?_set_ne _ v h3, h3]
    · simp [h2]
  · simp [h1]

theorem mem_setPlanned (f : σ → List κ) (s s' : σ) (k k' : κ) :
    k' ∈ setPlanned f s k s' ↔ (s' = s ∧ k' = k) ∨ k' ∈ f s' := by
  unfold setPlanned upd
  by_cases h1 : s' = s
  · subst h1
    by_cases h2 : k ∈ f s'
    · simp only [if_true, h2, true_and]
      constructor
      · exact .inr
      · rintro (h | h)
        · subst h; exact h2
        · exact h
    · simp only [if_true, h2, if_false, List.mem_append, List.mem_singleton, true_and]
      exact Or.comm
  · simp [h1]

/-- the value stored for an action, 0 when there is none -/
def qv (st : St κ σ α) (s : σ) (a : α) : Rat := ((st.q s).get? a).getD 0

theorem getD_addTo (d : Dict α Rat) (a a' : α) (v : Rat) :
    ((addTo d a v).get? a').getD 0 = (d.get? a').getD 0 + if a' = a then v else 0 := by
  unfold addTo
  by_cases h : a' = a
  · subst h; simp [Dict.get?_set_self]
  · simp [Dict.get?_set_ne _ _ h, h]

theorem isSome_set {β γ : Type} [DecidableEq β] (d : Dict β γ) (a a' : β) (v : γ) :
    ((d.set a v).get? a').isSome = (decide (a' = a) || (d.get? a').isSome) := by
  by_cases h : a' = a
  · subst h; simp [Dict.get?_set_self]
  · simp [Dict.get?_set_ne _ _ h, h]

theorem sum_add_one (l : List κ) (hn : l.Nodup) (p : κ → Bool) (f : κ → Rat) {k : κ} (hk : k ∈ l) (hp : p k = false) :
    (l.map fun x => if (decide (x = k) || p x) then f x else 0).sum = (l.map fun x => if p x then f x else 0).sum + f k := by
  induction l with
  | nil => cases hk
  | cons y l ih =>
    rw [List.nodup_cons] at hn
    simp only [List.map_cons, List.sum_cons]
    by_cases h : y = k
    · subst h
      have e : (l.map fun x => if (decide (x = y) || p x) then f x else 0) = l.map fun x => if p x then f x else 0 := by
        apply List.map_congr_left
        intro x hx
        have : x ≠ y := fun e => hn.1 (e ▸ hx)
        simp [this]
      rw [e, hp]
      simp
      ring
    · have hk' : k ∈ l := by
        rcases List.mem_cons.1 hk with e | e
        · exact absurd e.symm h
        · exact e
      rw [ih hn.2 hk']
      simp only [h, decide_false, Bool.false_or]
      ring

/-! ### the least value -/

theorem minFrom_spec (p : α × Rat) (d : Dict α Rat) :
    ∃ v, (minFrom p d, v) ∈ p :: d ∧ ∀ x ∈ p :: d, v ≤ x.2 := by
  induction d generalizing p with
  | nil => exact ⟨p.2, by simp [minFrom], by simp⟩
  | cons y d ih =>
    unfold minFrom
    split
    · rename_i h
      obtain ⟨v, h1, h2⟩ := ih y
      refine ⟨v, List.mem_cons_of_mem _ h1, ?_⟩
      intro x hx
      rcases List.mem_cons.1 hx with e | e
      · subst e; exact le_trans (h2 y (List.mem_cons_self ..)) (le_of_lt h)
      · exact h2 x e
    · rename_i h
      obtain ⟨v, h1, h2⟩ := ih p
      refine ⟨v, ?_, ?_⟩
      · rcases List.mem_cons.1 h1 with e | e
        · rw [e]; exact List.mem_cons_self ..
        · exact List.mem_cons_of_mem _ (List.mem_cons_of_mem _ e)
      · intro x hx
        rcases List.mem_cons.1 hx with e | e
        · subst e; exact h2 _ (List.mem_cons_self ..)
        · rcases List.mem_cons.1 e with e | e
          · subst e; exact le_trans (h2 p (List.mem_cons_self ..)) (not_lt.1 h)
          · exact h2 x (List.mem_cons_of_mem _ e)

theorem least_spec {d : Dict α Rat} (hn : (Dict.keys d).Nodup) (hne : d ≠ []) :
    ∃ a v, least d = .ok a ∧ d.get? a = some v ∧ ∀ a' v', d.get? a' = some v' → v ≤ v' := by
  cases d with
  | nil => exact absurd rfl hne
  | cons p d =>
    obtain ⟨v, h1, h2⟩ := minFrom_spec p d
    exact ⟨_, v, rfl, Dict.get?_of_mem hn h1, fun a' v' h => h2 _ (Dict.mem_of_get? h)⟩

/-! ### exact values, with plans kept -/

structure Inv (P : Scenarios κ σ α) (st : St κ σ α) : Prop where
  nodA : ∀ s, (Dict.keys (st.acts s)).Nodup
  nodQ : ∀ s, (Dict.keys (st.q s)).Nodup
  act : ∀ s k a, (st.acts s).get? k = some a → P.act k s = a
  pl : ∀ s k, k ∈ st.planned s ↔ ((st.acts s).get? k).isSome
  sc : ∀ s k, ((st.scen s (P.act k s)).get? k).isSome ↔ k ∈ st.planned s
  val : ∀ s a, qv st s a = (P.keys.map fun k => if ((st.scen s a).get? k).isSome then value P s a k * P.weight k else 0).sum
  has : ∀ s a, ((st.q s).get? a).isSome ↔ ∃ k ∈ st.planned s, P.act k s = a

theorem inv_fresh (P : Scenarios κ σ α) : Inv P fresh := by
  refine ⟨?_, ?_, ?_, ?_, ?_, ?_, ?_⟩ <;> intros <;> simp_all [fresh, Dict.keys, qv]
  rename_i P _ _
  induction P.keys.length with
  | zero => rfl
  | succ n ih => rw [List.replicate_succ, List.sum_cons, ← ih]; simp

theorem inv_record {P : Scenarios κ σ α} {st : St κ σ α} (I : Inv P st) (hk : P.keys.Nodup) {s : σ} {k : κ} (hm : k ∈ P.keys)
    (hp : k ∉ st.planned s) : Inv P (record P s st k) := by
  refine ⟨?_, ?_, ?_, ?_, ?_, ?_, ?_⟩
  · intro t
    by_cases e : t = s
    · subst e; simp only [record, upd_self]; exact Dict.nodup_keys_set _ _ (I.nodA t)
    · simp only [record, upd_ne _ _ e]; exact I.nodA t
  · intro t
    by_cases e : t = s
    · subst e; simp only [record, upd_self, addTo]; exact Dict.nodup_keys_set _ _ (I.nodQ t)
    · simp only [record, upd_ne _ _ e]; exact I.nodQ t
  · intro t k' a h
    by_cases e : t = s
    · subst e
      simp only [record, upd_self, Dict.get?_set] at h
      split at h
      · rename_i e; subst e; exact Option.some.inj h
      · exact I.act t k' a h
    · simp only [record, upd_ne _ _ e] at h; exact I.act t k' a h
  · intro t k'
    simp only [record, mem_setPlanned]
    by_cases e : t = s
    · subst e
      rw [upd_self, isSome_set]
      simp [I.pl t k']
    · rw [upd_ne _ _ e]; simp [e, I.pl t k']
  · intro t k'
    simp only [record, mem_setPlanned, get?_setScen]
    have h := I.sc t k'
    by_cases e : t = s
    · subst e
      by_cases e2 : k' = k
      · subst e2; simp
      · simp [e2, h]
    · simp [e, h]
  · intro t a
    simp only [record, qv, get?_setScen]
    have h := I.val t a
    unfold qv at h
    by_cases e : t = s
    · subst e
      rw [upd_self, getD_addTo, h]
      by_cases e2 : a = P.act k t
      · subst e2
        have hf : ((st.scen t (P.act k t)).get? k).isSome = false := by
          rw [Bool.eq_false_iff]; exact fun x => hp ((I.sc t k).1 x)
        have hs := sum_add_one P.keys hk (fun x => ((st.scen t (P.act k t)).get? x).isSome)
          (fun x => value P t (P.act k t) x * P.weight x) hm hf
        simp only [true_and, if_true]
        rw [hs]
        simp [value]
      · simp [e2]
    · rw [upd_ne _ _ e]; simpa [e] using h
  · intro t a
    simp only [record, mem_setPlanned]
    have h := I.has t a
    by_cases e : t = s
    · subst e
      rw [upd_self]
      unfold addTo
      rw [isSome_set, Bool.or_eq_true_iff, h, decide_eq_true_eq]
      constructor
      · rintro (x | ⟨k', h1, h2⟩)
        · exact ⟨k, .inl ⟨rfl, rfl⟩, x.symm⟩
        · exact ⟨k', .inr h1, h2⟩
      · rintro ⟨k', (⟨_, h1⟩ | h1), h2⟩
        · subst h1; exact .inl h2.symm
        · exact .inr ⟨k', h1, h2⟩
    · rw [upd_ne _ _ e]; simpa [e] using h

theorem record_planned (P : Scenarios κ σ α) (s t : σ) (st : St κ σ α) (k k' : κ) :
    k' ∈ (record P s st k).planned t ↔ (t = s ∧ k' = k) ∨ k' ∈ st.planned t := by
  simp only [record, mem_setPlanned]

theorem inv_records {P : Scenarios κ σ α} (hk : P.keys.Nodup) {s : σ} :
    ∀ (l : List κ) (st : St κ σ α), Inv P st → l.Nodup → (∀ k ∈ l, k ∈ P.keys ∧ k ∉ st.planned s) →
      Inv P (l.foldl (record P s) st) ∧
        (∀ t k, k ∈ (l.foldl (record P s) st).planned t ↔ (t = s ∧ k ∈ l) ∨ k ∈ st.planned t) := by
  intro l
  induction l with
  | nil => intro st I _ _; exact ⟨I, by simp⟩
  | cons k l ih =>
    intro st I hn h
    rw [List.nodup_cons] at hn
    have I' := inv_record I hk (h k (List.mem_cons_self ..)).1 (h k (List.mem_cons_self ..)).2
    obtain ⟨J, hp⟩ := ih (record P s st k) I' hn.2 (by
      intro k' hk'
      refine ⟨(h k' (List.mem_cons_of_mem _ hk')).1, ?_⟩
      rw [record_planned]
      rintro (⟨_, e⟩ | e)
      · subst e; exact hn.1 hk'
      · exact (h k' (List.mem_cons_of_mem _ hk')).2 e)
    refine ⟨J, ?_⟩
    intro t k'
    rw [List.foldl_cons, hp, record_planned, List.mem_cons]
    tauto

theorem inv_look {P : Scenarios κ σ α} {st : St κ σ α} (I : Inv P st) (hk : P.keys.Nodup) {s : σ} {k : κ} {a : α} (hm : k ∈ P.keys)
    (hps : k ∈ st.planned s) (ha : ((st.q s).get? a).isSome) (hsc : ((st.scen s a).get? k).isSome = false)
    (hne : P.next k s a ≠ s) (hp : k ∉ st.planned (P.next k s a)) :
    ∃ st', lookAhead P true s st (k, a) = .ok st' ∧ Inv P st' ∧
      (∀ t k', k' ∈ st'.planned t ↔ (t = P.next k s a ∧ k' = k) ∨ k' ∈ st.planned t) ∧
      (∀ b k', ((st'.scen s b).get? k').isSome = (decide (b = a ∧ k' = k) || ((st.scen s b).get? k').isSome)) ∧
      (∀ b, ((st'.q s).get? b).isSome = ((st.q s).get? b).isSome) ∧ st'.acts s = st.acts s := by
  obtain ⟨v, hv⟩ := Option.isSome_iff_exists.1 ha
  have hne' : s ≠ P.next k s a := fun e => hne e.symm
  have haa : P.act k s ≠ a := by
    intro e
    subst e
    rw [(I.sc s k).2 hps] at hsc
    cases hsc
  unfold lookAhead
  simp only [if_true, upd_ne _ _ hne', hv]
  refine ⟨_, rfl, ?_, ?_, ?_, ?_, ?_⟩
  · generalize hs' : P.next k s a = s' at *
    refine ⟨?_, ?_, ?_, ?_, ?_, ?_, ?_⟩
    · intro t
      by_cases e : t = s'
      · subst e; simp only [upd_self]; exact Dict.nodup_keys_set _ _ (I.nodA t)
      · simp only [upd_ne _ _ e]; exact I.nodA t
    · intro t
      by_cases e0 : t = s
      · subst e0; simp only [upd_self]; exact Dict.nodup_keys_set _ _ (I.nodQ t)
      · simp only [upd_ne _ _ e0]
        by_cases e : t = s'
        · subst e; simp only [upd_self, addTo]; exact Dict.nodup_keys_set _ _ (I.nodQ t)
        · simp only [upd_ne _ _ e]; exact I.nodQ t
    · intro t k' b h
      by_cases e : t = s'
      · subst e
        simp only [upd_self, Dict.get?_set] at h
        split at h
        · rename_i e; subst e; exact Option.some.inj h
        · exact I.act t k' b h
      · simp only [upd_ne _ _ e] at h; exact I.act t k' b h
    · intro t k'
      simp only [mem_setPlanned]
      by_cases e : t = s'
      · subst e
        rw [upd_self, isSome_set]
        simp [I.pl t k']
      · rw [upd_ne _ _ e]; simp [e, I.pl t k']
    · intro t k'
      simp only [mem_setPlanned, get?_setScen]
      have h := I.sc t k'
      by_cases e : t = s'
      · subst e
        by_cases e2 : k' = k
        · subst e2; simp
        · simp [e2, h]
      · by_cases e0 : t = s
        · subst e0
          by_cases e2 : k' = k
          · subst e2; simp [e, haa, h]
          · simp [e, e2, h]
        · simp [e, e0, h]
    · intro t b
      simp only [qv, get?_setScen]
      have h := I.val t b
      unfold qv at h
      by_cases e0 : t = s
      · subst e0
        rw [upd_self]
        by_cases e2 : b = a
        · subst e2
          rw [Dict.get?_set_self]
          have hs := sum_add_one P.keys hk (fun x => ((st.scen t b).get? x).isSome) (fun x => value P t b x * P.weight x) hm hsc
          simp only [hne', false_and, decide_false, Bool.false_or, true_and]
          rw [hs, ← h, hv]
          simp [value, haa, hs']
        · rw [Dict.get?_set_ne _ _ e2, h]
          simp [hne', e2]
      · rw [upd_ne _ _ e0]
        by_cases e : t = s'
        · subst e
          rw [upd_self, getD_addTo, h]
          by_cases e2 : b = P.act k t
          · subst e2
            have hf : ((st.scen t (P.act k t)).get? k).isSome = false := by
              rw [Bool.eq_false_iff]; exact fun x => hp ((I.sc t k).1 x)
            have hs := sum_add_one P.keys hk (fun x => ((st.scen t (P.act k t)).get? x).isSome)
              (fun x => value P t (P.act k t) x * P.weight x) hm hf
            simp only [true_and, if_true, e0, false_and, decide_false, Bool.false_or]
            rw [hs]
            simp [value]
          · simp [e2, e0]
        · rw [upd_ne _ _ e]; simpa [e, e0] using h
    · intro t b
      simp only [mem_setPlanned]
      have h := I.has t b
      by_cases e0 : t = s
      · subst e0
        rw [upd_self, isSome_set]
        simp only [hne', false_and, false_or, Bool.or_eq_true_iff, decide_eq_true_eq, h]
        constructor
        · rintro (e | e)
          · subst e; exact (I.has t b).1 ha
          · exact e
        · exact .inr
      · rw [upd_ne _ _ e0]
        by_cases e : t = s'
        · subst e
          rw [upd_self]
          unfold addTo
          rw [isSome_set, Bool.or_eq_true_iff, h, decide_eq_true_eq]
          constructor
          · rintro (x | ⟨k', h1, h2⟩)
            · exact ⟨k, .inl ⟨rfl, rfl⟩, x.symm⟩
            · exact ⟨k', .inr h1, h2⟩
          · rintro ⟨k', (⟨_, h1⟩ | h1), h2⟩
            · subst h1; exact .inl h2.symm
            · exact .inr ⟨k', h1, h2⟩
        · rw [upd_ne _ _ e]; simpa [e] using h
  · intro t k'; rw [mem_setPlanned]
  · intro b k'
    simp only [get?_setScen, hne', false_and, decide_false, Bool.false_or, true_and]
  · intro b
    simp only [upd_self, isSome_set]
    by_cases e : b = a
    · subst e; simp [hv]
    · simp [e]
  · simp only [upd_ne _ _ hne']

theorem inv_looks {P : Scenarios κ σ α} (hk : P.keys.Nodup) {s : σ} (hi : ∀ k a b, P.next k s a = P.next k s b → a = b)
    (hs : ∀ k a, P.next k s a ≠ s) :
    ∀ (l : List (κ × α)) (st : St κ σ α), Inv P st → l.Nodup →
      (∀ x ∈ l, x.1 ∈ P.keys ∧ x.1 ∈ st.planned s ∧ ((st.q s).get? x.2).isSome ∧ ((st.scen s x.2).get? x.1).isSome = false ∧
        x.1 ∉ st.planned (P.next x.1 s x.2)) →
      ∃ st', foldE (lookAhead P true s) st l = .ok st' ∧ Inv P st' ∧
        (∀ t k, k ∈ st'.planned t ↔ (∃ a, (k, a) ∈ l ∧ t = P.next k s a) ∨ k ∈ st.planned t) ∧
        (∀ b k, ((st'.scen s b).get? k).isSome = (decide ((k, b) ∈ l) || ((st.scen s b).get? k).isSome)) ∧
        (∀ b, ((st'.q s).get? b).isSome = ((st.q s).get? b).isSome) ∧ st'.acts s = st.acts s := by
  intro l
  induction l with
  | nil => intro st I _ _; exact ⟨st, rfl, I, by simp, by simp, by simp, rfl⟩
  | cons x l ih =>
    intro st I hn h
    rw [List.nodup_cons] at hn
    obtain ⟨k, a⟩ := x
    obtain ⟨h1, h2, h3, h4, h5⟩ := h (k, a) (List.mem_cons_self ..)
    obtain ⟨st1, e1, I1, p1, c1, q1, a1⟩ := inv_look I hk h1 h2 h3 h4 (hs k a) h5
    obtain ⟨st2, e2, I2, p2, c2, q2, a2⟩ := ih st1 I1 hn.2 (by
      rintro ⟨y1, y2⟩ hy
      obtain ⟨g1, g2, g3, g4, g5⟩ := h (y1, y2) (List.mem_cons_of_mem _ hy)
      refine ⟨g1, (p1 _ _).2 (.inr g2), ?_, ?_, ?_⟩
      · rw [q1]; exact g3
      · rw [c1, g4, Bool.or_false, decide_eq_false_iff_not]
        rintro ⟨u1, u2⟩
        dsimp only at u1 u2
        subst u1 u2
        exact hn.1 hy
      · rw [p1]
        rintro (⟨u1, u2⟩ | u)
        · dsimp only at u1 u2
          subst u2
          have u3 := hi _ _ _ u1
          subst u3
          exact hn.1 hy
        · exact g5 u)
    refine ⟨st2, ?_, I2, ?_, ?_, ?_, a2.trans a1⟩
    · simp only [foldE, e1]; exact e2
    · intro t k'
      rw [p2, p1]
      constructor
      · rintro (⟨b, u, v⟩ | ⟨u, v⟩ | u)
        · exact .inl ⟨b, List.mem_cons_of_mem _ u, v⟩
        · subst v; exact .inl ⟨a, List.mem_cons_self .., u⟩
        · exact .inr u
      · rintro (⟨b, u, v⟩ | u)
        · rcases List.mem_cons.1 u with e | e
          · cases e; exact .inr (.inl ⟨v, rfl⟩)
          · exact .inl ⟨b, e, v⟩
        · exact .inr (.inr u)
    · intro b k'
      rw [c2, c1]
      simp only [List.mem_cons, Prod.mk.injEq]
      by_cases u : (k', b) ∈ l
      · simp [u]
      · by_cases v : k' = k <;> by_cases w : b = a <;> simp [u, v, w]
    · intro b; rw [q2, q1]

theorem mem_toDo {P : Scenarios κ σ α} {order : List α → List α} {s : σ} {st : St κ σ α} {k : κ} {a : α} :
    (k, a) ∈ toDo P order s st ↔ a ∈ order ((st.acts s).map (·.2)) ∧ k ∈ P.keys ∧ ((st.scen s a).get? k).isSome = false := by
  unfold toDo
  simp only [List.mem_flatMap, List.mem_map, List.mem_filter, Dict.contains_eq]
  constructor
  · rintro ⟨b, h1, k', ⟨h2, h3⟩, e⟩
    cases e
    exact ⟨h1, h2, by simpa using h3⟩
  · rintro ⟨h1, h2, h3⟩
    exact ⟨a, h1, k, ⟨h2, by simp [h3]⟩, rfl⟩

theorem nodup_toDo {P : Scenarios κ σ α} {order : List α → List α} {s : σ} {st : St κ σ α} (hk : P.keys.Nodup)
    (ho : ∀ l, (order l).Nodup) : (toDo P order s st).Nodup := by
  unfold toDo
  rw [List.nodup_flatMap]
  refine ⟨?_, ?_⟩
  · intro a _
    exact List.Nodup.map (fun x y e => (Prod.mk.inj e).1) (hk.filter _)
  · apply List.Pairwise.imp_of_mem _ (List.nodup_iff_pairwise_ne.1 (ho _))
    intro a b _ _ hab x hx hy
    simp only [List.mem_map] at hx hy
    obtain ⟨_, _, rfl⟩ := hx
    obtain ⟨_, _, e⟩ := hy
    exact hab (Prod.mk.inj e).2.symm

theorem mem_acts {P : Scenarios κ σ α} {st : St κ σ α} (I : Inv P st) (s : σ) (a : α) :
    a ∈ (st.acts s).map (·.2) ↔ ∃ k ∈ st.planned s, P.act k s = a := by
  simp only [List.mem_map, Prod.exists]
  constructor
  · rintro ⟨k, b, h, rfl⟩
    have := Dict.get?_of_mem (I.nodA s) h
    exact ⟨k, (I.pl s k).2 (by rw [this]; rfl), I.act s k b this⟩
  · rintro ⟨k, h, e⟩
    obtain ⟨b, hb⟩ := Option.isSome_iff_exists.1 ((I.pl s k).1 h)
    have := I.act s k b hb
    exact ⟨k, b, Dict.mem_of_get? hb, this.symm.trans e⟩

/-- The answer is a planned action with the least weighted cost. -/
def Best (P : Scenarios κ σ α) (s : σ) (a : α) : Prop :=
  (∃ k ∈ P.keys, P.act k s = a) ∧ ∀ k ∈ P.keys, total P s a ≤ total P s (P.act k s)

theorem best_of {P : Scenarios κ σ α} (hne : P.keys ≠ []) {s : σ} {st : St κ σ α} (hn : (Dict.keys (st.q s)).Nodup)
    (hh : ∀ a, ((st.q s).get? a).isSome ↔ ∃ k ∈ P.keys, P.act k s = a)
    (hv : ∀ a, (∃ k ∈ P.keys, P.act k s = a) → qv st s a = total P s a) :
    ∃ a, least (st.q s) = .ok a ∧ Best P s a := by
  have hq : st.q s ≠ [] := by
    intro e
    cases hk : P.keys with
    | nil => exact hne hk
    | cons k l =>
      have := (hh (P.act k s)).2 ⟨k, by rw [hk]; exact List.mem_cons_self .., rfl⟩
      rw [e] at this
      simp at this
  obtain ⟨a, v, e, h1, h2⟩ := least_spec hn hq
  have ha := (hh a).1 (by rw [h1]; rfl)
  have va : v = total P s a := by rw [← hv a ha]; simp [qv, h1]
  refine ⟨a, e, ha, ?_⟩
  intro k hk
  obtain ⟨w, hw⟩ := Option.isSome_iff_exists.1 ((hh (P.act k s)).2 ⟨k, hk, rfl⟩)
  have vw : w = total P s (P.act k s) := by rw [← hv _ ⟨k, hk, rfl⟩]; simp [qv, hw]
  rw [← va, ← vw]
  exact h2 _ _ hw

theorem give_exact {P : Scenarios κ σ α} (hk : P.keys.Nodup) (hne : P.keys ≠ []) {order : List α → List α}
    (ho : ∀ l, (order l).Nodup ∧ ∀ x, x ∈ order l ↔ x ∈ l) {s : σ} (hi : ∀ k a b, P.next k s a = P.next k s b → a = b)
    (hs : ∀ k a, P.next k s a ≠ s) {st : St κ σ α} (I : Inv P st) (hsub : ∀ t k, k ∈ st.planned t → k ∈ P.keys)
    (hf : ∀ k a, k ∉ st.planned (P.next k s a)) :
    ∃ a st', give P true order s st = .ok (a, st') ∧ Best P s a ∧ Inv P st' ∧ (∀ t k, k ∈ st'.planned t → k ∈ P.keys) ∧
      (∀ t k, k ∈ st'.planned t → t = s ∨ (∃ b, t = P.next k s b) ∨ k ∈ st.planned t) := by
  obtain ⟨I1, p1⟩ := inv_records hk (s := s) (missing P true st s) st I (by simp only [missing, if_true]; exact hk.filter _) (by
    intro k h
    simp only [missing, if_true, List.mem_filter, decide_eq_true_eq] at h
    exact h)
  change Inv P (firstPass P true s st) at I1
  change ∀ t k, k ∈ (firstPass P true s st).planned t ↔ _ at p1
  have hall : ∀ k ∈ P.keys, k ∈ (firstPass P true s st).planned s := by
    intro k h
    rw [p1]
    by_cases e : k ∈ st.planned s
    · exact .inr e
    · exact .inl ⟨rfl, by simp only [missing, if_true, List.mem_filter, decide_eq_true_eq]; exact ⟨h, e⟩⟩
  have hsub1 : ∀ t k, k ∈ (firstPass P true s st).planned t → k ∈ P.keys := by
    intro t k h
    rcases (p1 t k).1 h with ⟨_, h⟩ | h
    · simp only [missing, if_true, List.mem_filter] at h; exact h.1
    · exact hsub t k h
  obtain ⟨st2, e2, I2, p2, c2, q2, a2⟩ := inv_looks hk hi hs (toDo P order s (firstPass P true s st)) _ I1
    (nodup_toDo hk fun l => (ho l).1) (by
      rintro ⟨k, a⟩ h
      obtain ⟨h1, h2, h3⟩ := mem_toDo.1 h
      rw [(ho _).2, mem_acts I1] at h1
      refine ⟨h2, hall k h2, (I1.has s a).2 h1, h3, ?_⟩
      rw [p1]
      rintro (⟨u, _⟩ | u)
      · exact hs k a u
      · exact hf k a u)
  have hh : ∀ a, ((st2.q s).get? a).isSome ↔ ∃ k ∈ P.keys, P.act k s = a := by
    intro a
    rw [q2, I1.has]
    constructor
    · rintro ⟨k, h, e⟩; exact ⟨k, hsub1 _ _ h, e⟩
    · rintro ⟨k, h, e⟩; exact ⟨k, hall k h, e⟩
  obtain ⟨a, ea, hb⟩ := best_of hne (I2.nodQ s) hh (by
    intro a ha
    rw [I2.val]
    unfold total
    congr 1
    apply List.map_congr_left
    intro k hkk
    have : ((st2.scen s a).get? k).isSome = true := by
      rw [c2, Bool.or_eq_true_iff, decide_eq_true_eq, mem_toDo]
      by_cases u : (((firstPass P true s st).scen s a).get? k).isSome = true
      · exact .inr u
      · refine .inl ⟨?_, hkk, by simpa using u⟩
        rw [(ho _).2, mem_acts I1]
        obtain ⟨k', h, e⟩ := ha
        exact ⟨k', hall k' h, e⟩
    rw [this]; rfl)
  refine ⟨a, st2, ?_, hb, I2, ?_, ?_⟩
  · unfold give secondPass; rw [e2]; simp only [ea]
  · intro t k h
    rcases (p2 t k).1 h with ⟨b, h, _⟩ | h
    · exact (mem_toDo.1 h).2.1
    · exact hsub1 t k h
  · intro t k h
    rcases (p2 t k).1 h with ⟨b, _, h⟩ | h
    · exact .inr (.inl ⟨b, h⟩)
    · rcases (p1 t k).1 h with ⟨h, _⟩ | h
      · exact .inl h
      · exact .inr (.inr h)

end Verif.Hindsight
