import Verif.Lemmas.Hindsight
import Mathlib.Tactic.Set

namespace Verif.Hindsight
variable {κ σ α : Type} [DecidableEq κ] [DecidableEq σ] [DecidableEq α]

/-! ### what holds in all runs -/

structure Weak (P : Scenarios κ σ α) (st : St κ σ α) : Prop where
  nodA : ∀ s, (Dict.keys (st.acts s)).Nodup
  nodQ : ∀ s, (Dict.keys (st.q s)).Nodup
  act : ∀ s k a, (st.acts s).get? k = some a → P.act k s = a
  sub : ∀ s k, ((st.acts s).get? k).isSome → k ∈ P.keys
  pl : ∀ s k, k ∈ st.planned s ↔ ((st.acts s).get? k).isSome
  hasA : ∀ s k a, (st.acts s).get? k = some a → ((st.q s).get? a).isSome
  qA : ∀ s a, ((st.q s).get? a).isSome → ∃ k ∈ P.keys, P.act k s = a

theorem weak_fresh (P : Scenarios κ σ α) : Weak P fresh := by
  refine ⟨?_, ?_, ?_, ?_, ?_, ?_, ?_⟩ <;> intros <;> simp_all [fresh, Dict.keys]

theorem weak_put {P : Scenarios κ σ α} {st : St κ σ α} (I : Weak P st) {s : σ} {k : κ} (hm : k ∈ P.keys) (sc : σ → α → Dict κ Rat)
    (v : Rat) : Weak P ⟨upd st.acts s ((st.acts s).set k (P.act k s)), sc, upd st.q s (addTo (st.q s) (P.act k s) v),
      setPlanned st.planned s k⟩ := by
  refine ⟨?_, ?_, ?_, ?_, ?_, ?_, ?_⟩
  · intro t
    by_cases e : t = s
    · subst e; simp only [upd_self]; exact Dict.nodup_keys_set _ _ (I.nodA t)
    · simp only [upd_ne _ _ e]; exact I.nodA t
  · intro t
    by_cases e : t = s
    · subst e; simp only [upd_self, addTo]; exact Dict.nodup_keys_set _ _ (I.nodQ t)
    · simp only [upd_ne _ _ e]; exact I.nodQ t
  · intro t k' a h
    by_cases e : t = s
    · subst e
      simp only [upd_self, Dict.get?_set] at h
      split at h
      · rename_i e; subst e; exact Option.some.inj h
      · exact I.act t k' a h
    · simp only [upd_ne _ _ e] at h; exact I.act t k' a h
  · intro t k' h
    by_cases e : t = s
    · subst e
      simp only [upd_self, isSome_set, Bool.or_eq_true_iff, decide_eq_true_eq] at h
      rcases h with h | h
      · subst h; exact hm
      · exact I.sub t k' h
    · simp only [upd_ne _ _ e] at h; exact I.sub t k' h
  · intro t k'
    simp only [mem_setPlanned]
    by_cases e : t = s
    · subst e
      rw [upd_self, isSome_set]
      simp [I.pl t k']
    · rw [upd_ne _ _ e]; simp [e, I.pl t k']
  · intro t k' a h
    by_cases e : t = s
    · subst e
      simp only [upd_self, Dict.get?_set, addTo] at h ⊢
      split at h
      · cases h; simp
      · have := I.hasA t k' a h
        split
        · rfl
        · exact this
    · simp only [upd_ne _ _ e] at h ⊢; exact I.hasA t k' a h
  · intro t a h
    by_cases e : t = s
    · subst e
      simp only [upd_self, addTo, isSome_set, Bool.or_eq_true_iff, decide_eq_true_eq] at h
      rcases h with h | h
      · exact ⟨k, hm, h.symm⟩
      · exact I.qA t a h
    · simp only [upd_ne _ _ e] at h; exact I.qA t a h

/-- overwriting the value of an action that has one, and any scenario table -/
theorem weak_over {P : Scenarios κ σ α} {st : St κ σ α} (I : Weak P st) {s : σ} {a : α} (ha : ((st.q s).get? a).isSome)
    (sc : σ → α → Dict κ Rat) (v : Rat) : Weak P ⟨st.acts, sc, upd st.q s ((st.q s).set a v), st.planned⟩ := by
  refine ⟨I.nodA, ?_, I.act, I.sub, I.pl, ?_, ?_⟩
  · intro t
    by_cases e : t = s
    · subst e; simp only [upd_self]; exact Dict.nodup_keys_set _ _ (I.nodQ t)
    · simp only [upd_ne _ _ e]; exact I.nodQ t
  · intro t k b h
    by_cases e : t = s
    · subst e; simp only [upd_self, isSome_set]; rw [I.hasA t k b h, Bool.or_true]
    · simp only [upd_ne _ _ e]; exact I.hasA t k b h
  · intro t b h
    by_cases e : t = s
    · subst e
      simp only [upd_self, isSome_set, Bool.or_eq_true_iff, decide_eq_true_eq] at h
      rcases h with h | h
      · subst h; exact I.qA t b ha
      · exact I.qA t b h
    · simp only [upd_ne _ _ e] at h; exact I.qA t b h

theorem weak_record {P : Scenarios κ σ α} {st : St κ σ α} (I : Weak P st) {s : σ} {k : κ} (hm : k ∈ P.keys) :
    Weak P (record P s st k) := weak_put I hm _ _

theorem weak_records {P : Scenarios κ σ α} {s : σ} : ∀ (l : List κ) (st : St κ σ α), Weak P st → (∀ k ∈ l, k ∈ P.keys) →
    Weak P (l.foldl (record P s) st) ∧
      (∀ k, ((l.foldl (record P s) st).acts s).get? k = if k ∈ l then some (P.act k s) else (st.acts s).get? k) := by
  intro l
  induction l with
  | nil => intro st I _; exact ⟨I, by simp⟩
  | cons k l ih =>
    intro st I h
    obtain ⟨J, g⟩ := ih _ (weak_record (s := s) I (h k (List.mem_cons_self ..))) fun k' h' => h k' (List.mem_cons_of_mem _ h')
    refine ⟨J, ?_⟩
    intro k'
    rw [List.foldl_cons, g]
    by_cases e : k' ∈ l
    · simp [e]
    · simp only [e, if_false, List.mem_cons, or_false]
      simp only [record, upd_self, Dict.get?_set]
      by_cases e2 : k' = k
      · subst e2; simp
      · simp [e2]

/-- a step of the second pass: no exception, facts kept, values of plans at the state kept -/
theorem weak_look {P : Scenarios κ σ α} {st : St κ σ α} (reuse : Bool) (I : Weak P st) {s : σ} {x : κ × α} (hm : x.1 ∈ P.keys)
    (ha : ((st.q s).get? x.2).isSome) :
    ∃ st', lookAhead P reuse s st x = .ok st' ∧ Weak P st' ∧
      (∀ b, ((st.q s).get? b).isSome → ((st'.q s).get? b).isSome) ∧
      (∀ b k, ((st.scen s b).get? k).isSome ∨ (k, b) = x → ((st'.scen s b).get? k).isSome) ∧
      (∀ k b, (st.acts s).get? k = some b → (st'.acts s).get? k = some b) := by
  obtain ⟨k, a⟩ := x
  dsimp only at hm ha
  have hsc : ∀ (v w : Rat) (b : α) (k' : κ), ((st.scen s b).get? k').isSome ∨ (k', b) = (k, a) →
      ((setScen (setScen st.scen s a k v) (P.next k s a) (P.act k (P.next k s a)) k w s b).get? k').isSome := by
    intro v w b k' h
    simp only [get?_setScen, Bool.or_eq_true_iff, decide_eq_true_eq]
    rcases h with h | h
    · exact .inr (.inr h)
    · cases h; exact .inr (.inl ⟨trivial, rfl, rfl⟩)
  unfold lookAhead
  cases reuse with
  | false =>
    obtain ⟨v, hv⟩ := Option.isSome_iff_exists.1 ha
    simp only [Bool.false_eq_true, if_false, hv]
    refine ⟨_, rfl, weak_over I ha _ _, ?_, ?_, ?_⟩
    · intro b h; simp only [upd_self, isSome_set, h, Bool.or_true]
    · exact hsc _ _
    · intro k' b h; exact h
  | true =>
    have J := weak_put I (s := P.next k s a) hm (setScen (setScen st.scen s a k
      (P.cost k s a (P.next k s a) + P.solve k (P.next k s a))) (P.next k s a) (P.act k (P.next k s a)) k (P.solve k (P.next k s a)))
      (P.solve k (P.next k s a) * P.weight k)
    have mono : ∀ b, ((st.q s).get? b).isSome → ((upd st.q (P.next k s a) (addTo (st.q (P.next k s a)) (P.act k (P.next k s a))
        (P.solve k (P.next k s a) * P.weight k)) s).get? b).isSome := by
      intro b h
      by_cases e : s = P.next k s a
      · rw [← e, upd_self]; simp only [addTo, isSome_set, h, Bool.or_true]
      · rw [upd_ne _ _ e]; exact h
    obtain ⟨v, hv⟩ := Option.isSome_iff_exists.1 (mono a ha)
    simp only [if_true, hv]
    refine ⟨_, rfl, weak_over J (mono a ha) _ _, ?_, ?_, ?_⟩
    · intro b h; simp only [upd_self, isSome_set, mono b h, Bool.or_true]
    · exact hsc _ _
    · intro k' b h
      by_cases e : s = P.next k s a
      · rw [← e]
        simp only [upd_self, Dict.get?_set]
        split
        · rename_i e2; rw [e2] at h; rw [I.act s _ b h]
        · exact h
      · simp only [upd_ne _ _ e]; exact h

theorem weak_looks {P : Scenarios κ σ α} (reuse : Bool) {s : σ} : ∀ (l : List (κ × α)) (st : St κ σ α), Weak P st →
    (∀ x ∈ l, x.1 ∈ P.keys ∧ ((st.q s).get? x.2).isSome) →
    ∃ st', foldE (lookAhead P reuse s) st l = .ok st' ∧ Weak P st' ∧
      (∀ b, ((st.q s).get? b).isSome → ((st'.q s).get? b).isSome) ∧
      (∀ b k, ((st.scen s b).get? k).isSome ∨ (k, b) ∈ l → ((st'.scen s b).get? k).isSome) ∧
      (∀ k b, (st.acts s).get? k = some b → (st'.acts s).get? k = some b) := by
  intro l
  induction l with
  | nil => intro st I _; exact ⟨st, rfl, I, fun _ h => h, by simp, fun _ _ h => h⟩
  | cons x l ih =>
    intro st I h
    obtain ⟨h1, h2⟩ := h x (List.mem_cons_self ..)
    obtain ⟨st1, e1, I1, m1, c1, a1⟩ := weak_look reuse I h1 h2
    obtain ⟨st2, e2, I2, m2, c2, a2⟩ := ih st1 I1 fun y hy =>
      ⟨(h y (List.mem_cons_of_mem _ hy)).1, m1 _ (h y (List.mem_cons_of_mem _ hy)).2⟩
    refine ⟨st2, by simp only [foldE, e1]; exact e2, I2, fun b hb => m2 b (m1 b hb), ?_, fun k b hb => a2 k b (a1 k b hb)⟩
    rintro b k (u | u)
    · exact c2 b k (.inl (c1 b k (.inl u)))
    · rcases List.mem_cons.1 u with e | e
      · exact c2 b k (.inl (c1 b k (.inr e)))
      · exact c2 b k (.inr e)

theorem mem_acts_weak {P : Scenarios κ σ α} {st : St κ σ α} (I : Weak P st) {s : σ} {a : α} (h : a ∈ (st.acts s).map (·.2)) :
    ∃ k, (st.acts s).get? k = some a := by
  obtain ⟨⟨k, b⟩, h', rfl⟩ := List.mem_map.1 h
  exact ⟨k, Dict.get?_of_mem (I.nodA s) h'⟩

/-- After the first pass. -/
theorem weak_first {P : Scenarios κ σ α} (reuse : Bool) {s : σ} {st : St κ σ α} (I : Weak P st) :
    Weak P (firstPass P reuse s st) ∧ ∀ k ∈ P.keys, ((firstPass P reuse s st).acts s).get? k = some (P.act k s) := by
  have hm : ∀ k ∈ missing P reuse st s, k ∈ P.keys := by
    intro k h
    cases reuse
    · simpa [missing] using h
    · simp only [missing, if_true, List.mem_filter] at h; exact h.1
  obtain ⟨J, g⟩ := weak_records (s := s) (missing P reuse st s) st I hm
  refine ⟨J, ?_⟩
  intro k hk
  change ((List.foldl (record P s) st (missing P reuse st s)).acts s).get? k = _
  rw [g]
  split
  · rfl
  · rename_i h
    cases reuse
    · simp [missing, hk] at h
    · simp only [missing, if_true, List.mem_filter, decide_eq_true_eq, not_and, Classical.not_not] at h
      obtain ⟨b, hb⟩ := Option.isSome_iff_exists.1 ((I.pl s k).1 (h hk))
      rw [hb, I.act s k b hb]

theorem weak_give {P : Scenarios κ σ α} (hne : P.keys ≠ []) (reuse : Bool) {order : List α → List α}
    (ho : ∀ l x, x ∈ order l → x ∈ l) {s : σ} {st : St κ σ α} (I : Weak P st) :
    ∃ a st', give P reuse order s st = .ok (a, st') ∧ Weak P st' ∧ (∃ k ∈ P.keys, P.act k s = a) := by
  obtain ⟨J, g⟩ := weak_first reuse (s := s) I
  obtain ⟨st2, e2, I2, m2, _, _⟩ := weak_looks reuse (s := s) (toDo P order s (firstPass P reuse s st)) _ J (by
    rintro ⟨k, a⟩ h
    obtain ⟨h1, h2, _⟩ := mem_toDo.1 h
    obtain ⟨k', h'⟩ := mem_acts_weak J (ho _ _ h1)
    exact ⟨h2, J.hasA s k' a h'⟩)
  have hq : st2.q s ≠ [] := by
    intro e
    cases hk : P.keys with
    | nil => exact hne hk
    | cons k l =>
      have := m2 _ (J.hasA s k _ (g k (by rw [hk]; exact List.mem_cons_self ..)))
      rw [e] at this
      simp at this
  obtain ⟨a, v, e, h1, _⟩ := least_spec (I2.nodQ s) hq
  refine ⟨a, st2, ?_, I2, I2.qA s a (by rw [h1]; rfl)⟩
  unfold give secondPass
  rw [e2]
  simp only [e]

theorem weak_again {P : Scenarios κ σ α} {order : List α → List α} (ho : ∀ l x, x ∈ order l ↔ x ∈ l) {s : σ}
    {st st' : St κ σ α} {a : α} (I : Weak P st) (h : give P true order s st = .ok (a, st')) :
    give P true order s st' = .ok (a, st') := by
  obtain ⟨J, g⟩ := weak_first true (s := s) I
  obtain ⟨st2, e2, I2, _, c2, a2⟩ := weak_looks true (s := s) (toDo P order s (firstPass P true s st)) _ J (by
    rintro ⟨k, a⟩ h
    obtain ⟨h1, h2, _⟩ := mem_toDo.1 h
    obtain ⟨k', h'⟩ := mem_acts_weak J ((ho _ _).1 h1)
    exact ⟨h2, J.hasA s k' a h'⟩)
  have hst : st' = st2 ∧ least (st2.q s) = .ok a := by
    unfold give secondPass at h
    rw [e2] at h
    dsimp only at h
    split at h
    · cases h
    · rename_i b hb; cases h; exact ⟨rfl, hb⟩
  obtain ⟨rfl, hl⟩ := hst
  have hmiss : missing P true st' s = [] := by
    simp only [missing, if_true, List.filter_eq_nil_iff, decide_eq_true_eq, Classical.not_not]
    intro k hk
    rw [I2.pl, a2 k _ (g k hk)]
    rfl
  have hfirst : firstPass P true s st' = st' := by unfold firstPass; rw [hmiss]; rfl
  have htd : toDo P order s st' = [] := by
    rw [List.eq_nil_iff_forall_not_mem]
    rintro ⟨k, b⟩ hx
    obtain ⟨h1, h2, h3⟩ := mem_toDo.1 hx
    obtain ⟨k', h'⟩ := mem_acts_weak I2 ((ho _ _).1 h1)
    have hk' := I2.sub s k' (by rw [h']; rfl)
    have hb := (a2 k' _ (g k' hk')).symm.trans h'
    have hin : b ∈ ((firstPass P true s st).acts s).map (·.2) :=
      List.mem_map.2 ⟨_, Dict.mem_of_get? ((g k' hk').trans hb), rfl⟩
    have hs : ((st'.scen s b).get? k).isSome := by
      apply c2
      by_cases u : (((firstPass P true s st).scen s b).get? k).isSome = true
      · exact .inl u
      · exact .inr (mem_toDo.2 ⟨(ho _ _).2 hin, h2, by simpa using u⟩)
    rw [hs] at h3
    cases h3
  unfold give secondPass
  rw [hfirst, htd]
  simp only [foldE, hl]

/-! ### exact values, with plans thrown away -/

theorem records_false {P : Scenarios κ σ α} {s : σ} : ∀ (l : List κ) (st : St κ σ α),
    (∀ a, qv (l.foldl (record P s) st) s a = qv st s a + (l.map fun k => if a = P.act k s then P.solve k s * P.weight k else 0).sum) ∧
    (∀ a k, (((l.foldl (record P s) st).scen s a).get? k).isSome = (decide (k ∈ l ∧ a = P.act k s) || ((st.scen s a).get? k).isSome)) ∧
    (∀ a, (((l.foldl (record P s) st).q s).get? a).isSome = (decide (∃ k ∈ l, a = P.act k s) || ((st.q s).get? a).isSome)) ∧
    (∀ t, t ≠ s → (l.foldl (record P s) st).q t = st.q t ∧ (l.foldl (record P s) st).acts t = st.acts t ∧
      (l.foldl (record P s) st).scen t = st.scen t) := by
  intro l
  induction l with
  | nil => intro st; simp
  | cons k l ih =>
    intro st
    obtain ⟨h1, h2, h3, h4⟩ := ih (record P s st k)
    refine ⟨?_, ?_, ?_, ?_⟩
    · intro a
      rw [List.foldl_cons, h1]
      simp only [record, qv, upd_self, getD_addTo, List.map_cons, List.sum_cons]
      ring
    · intro a k'
      rw [List.foldl_cons, h2]
      simp only [record, get?_setScen, List.mem_cons, true_and]
      by_cases u : k' ∈ l
      · by_cases v : k' = k
        · subst v; by_cases w : a = P.act k' s <;> simp [u, w]
        · simp [u, v]
      · by_cases v : k' = k
        · subst v; by_cases w : a = P.act k' s <;> simp [u, w]
        · simp [u, v]
    · intro a
      rw [List.foldl_cons, h3]
      simp only [record, upd_self, addTo, isSome_set]
      by_cases u : a = P.act k s <;> by_cases v : ∃ x ∈ l, a = P.act x s <;> simp [u]
    · intro t ht
      rw [List.foldl_cons]
      obtain ⟨g1, g2, g3⟩ := h4 t ht
      rw [g1, g2, g3]
      refine ⟨?_, ?_, ?_⟩
      · simp only [record, upd_ne _ _ ht]
      · simp only [record, upd_ne _ _ ht]
      · simp only [record, setScen, upd_ne _ _ ht]

theorem looks_false {P : Scenarios κ σ α} {s : σ} : ∀ (l : List (κ × α)) (st st' : St κ σ α),
    foldE (lookAhead P false s) st l = .ok st' →
    (∀ a, qv st' s a = qv st s a + (l.map fun x => if x.2 = a then
      (P.cost x.1 s x.2 (P.next x.1 s x.2) + P.solve x.1 (P.next x.1 s x.2)) * P.weight x.1 else 0).sum) ∧
    (∀ t, t ≠ s → st'.q t = st.q t ∧ st'.acts t = st.acts t ∧
      ∀ b k, ((st'.scen t b).get? k).isSome → b = P.act k t ∨ ((st.scen t b).get? k).isSome) := by
  intro l
  induction l with
  | nil => intro st st' h; simp only [foldE, Except.ok.injEq] at h; subst h; exact ⟨by simp, fun t _ => ⟨rfl, rfl, fun _ _ h => .inr h⟩⟩
  | cons x l ih =>
    intro st st' h
    simp only [foldE] at h
    split at h
    · cases h
    · rename_i st1 e1
      obtain ⟨h1, h2⟩ := ih st1 st' h
      unfold lookAhead at e1
      simp only [Bool.false_eq_true, if_false] at e1
      split at e1
      · cases e1
      · rename_i v hv
        simp only [Except.ok.injEq] at e1
        subst e1
        refine ⟨?_, ?_⟩
        · intro a
          rw [h1]
          simp only [qv, upd_self, List.map_cons, List.sum_cons]
          by_cases e : a = x.2
          · subst e
            rw [Dict.get?_set_self, hv]
            simp
            ring
          · rw [Dict.get?_set_ne _ _ e]
            have : x.2 ≠ a := fun u => e u.symm
            simp [this]
        · intro t ht
          obtain ⟨g1, g2, g3⟩ := h2 t ht
          refine ⟨by rw [g1]; simp only [upd_ne _ _ ht], g2, ?_⟩
          intro b k hb
          rcases g3 b k hb with u | u
          · exact .inl u
          · simp only [get?_setScen, ht, false_and, decide_false, Bool.false_or, Bool.or_eq_true_iff, decide_eq_true_eq] at u
            rcases u with ⟨u1, u2, u3⟩ | u
            · subst u3; rw [u1]; exact .inl u2
            · exact .inr u

theorem sum_flat (acts : List α) (hn : acts.Nodup) (g : α → List κ) (f : κ → α → Rat) {a : α} (ha : a ∈ acts) :
    ((acts.flatMap fun b => (g b).map fun k => (k, b)).map fun x => if x.2 = a then f x.1 x.2 else 0).sum =
      ((g a).map fun k => f k a).sum := by
  have zero : ∀ b, b ≠ a → (((g b).map fun k => (k, b)).map fun x : κ × α => if x.2 = a then f x.1 x.2 else 0).sum = 0 := by
    intro b hb
    induction g b with
    | nil => rfl
    | cons k l ih => simp only [List.map_cons, List.sum_cons, ih]; simp [hb]
  have zeros : ∀ l : List α, a ∉ l →
      ((l.flatMap fun b => (g b).map fun k => (k, b)).map fun x => if x.2 = a then f x.1 x.2 else 0).sum = 0 := by
    intro l
    induction l with
    | nil => intro _; rfl
    | cons b l ih =>
      intro h
      rw [List.mem_cons, not_or] at h
      rw [List.flatMap_cons, List.map_append, List.sum_append, ih h.2, zero b fun e => h.1 e.symm]
      simp
  induction acts with
  | nil => cases ha
  | cons b l ih =>
    rw [List.nodup_cons] at hn
    rw [List.flatMap_cons, List.map_append, List.sum_append]
    by_cases e : b = a
    · subst e
      rw [zeros l hn.1, add_zero, List.map_map]
      congr 1
      apply List.map_congr_left
      intro k _
      simp
    · rw [zero b e, zero_add]
      apply ih hn.2
      rcases List.mem_cons.1 ha with u | u
      · exact absurd u.symm e
      · exact u

theorem sum_split (l : List κ) (p : κ → Bool) (f g : κ → Rat) :
    (l.map fun k => if p k then f k else g k).sum = (l.map fun k => if p k then f k else 0).sum + ((l.filter fun k => !p k).map g).sum := by
  induction l with
  | nil => simp
  | cons k l ih =>
    simp only [List.map_cons, List.sum_cons, ih, List.filter_cons]
    cases p k
    · simp; ring
    · simp; ring

/-- States not yet asked for. -/
def Unseen (P : Scenarios κ σ α) (st : St κ σ α) (t : σ) : Prop :=
  st.q t = [] ∧ st.acts t = [] ∧ ∀ b k, ((st.scen t b).get? k).isSome → b = P.act k t

theorem give_false {P : Scenarios κ σ α} (hne : P.keys ≠ []) {order : List α → List α}
    (ho : ∀ l, (order l).Nodup ∧ ∀ x, x ∈ order l ↔ x ∈ l) {s : σ} {st : St κ σ α} (I : Weak P st) (hu : Unseen P st s) :
    ∃ a st', give P false order s st = .ok (a, st') ∧ Best P s a ∧ Weak P st' ∧ ∀ t, t ≠ s → Unseen P st t → Unseen P st' t := by
  obtain ⟨J, g⟩ := weak_first false (s := s) I
  obtain ⟨st2, e2, I2, m2, _, _⟩ := weak_looks false (s := s) (toDo P order s (firstPass P false s st)) _ J (by
    rintro ⟨k, a⟩ h
    obtain ⟨h1, h2, _⟩ := mem_toDo.1 h
    obtain ⟨k', h'⟩ := mem_acts_weak J (((ho _).2 _).1 h1)
    exact ⟨h2, J.hasA s k' a h'⟩)
  obtain ⟨f1, f2, f3, f4⟩ := records_false (P := P) (s := s) (missing P false st s) st
  change ∀ a, qv (firstPass P false s st) s a = _ at f1
  change ∀ a k, (((firstPass P false s st).scen s a).get? k).isSome = _ at f2
  change ∀ t, t ≠ s → (firstPass P false s st).q t = _ ∧ (firstPass P false s st).acts t = _ ∧ (firstPass P false s st).scen t = _ at f4
  simp only [missing, Bool.false_eq_true, if_false] at f1 f2
  obtain ⟨l1, l2⟩ := looks_false _ _ _ e2
  have hh : ∀ a, ((st2.q s).get? a).isSome ↔ ∃ k ∈ P.keys, P.act k s = a := by
    intro a
    constructor
    · exact I2.qA s a
    · rintro ⟨k, h, e⟩
      subst e
      exact m2 _ (J.hasA s k _ (g k h))
  obtain ⟨a, ea, hb⟩ := best_of hne (I2.nodQ s) hh (by
    intro a ha
    have hin : a ∈ order (((firstPass P false s st).acts s).map (·.2)) := by
      rw [(ho _).2]
      obtain ⟨k', h, e⟩ := ha
      subst e
      exact List.mem_map.2 ⟨_, Dict.mem_of_get? (g k' h), rfl⟩
    rw [l1, f1]
    unfold toDo
    rw [sum_flat _ (ho _).1 (fun b => P.keys.filter fun k => !((firstPass P false s st).scen s b).contains k)
      (fun k b => (P.cost k s b (P.next k s b) + P.solve k (P.next k s b)) * P.weight k) hin]
    have hq0 : qv st s a = 0 := by simp [qv, hu.1]
    have hfil : (P.keys.filter fun k => !((firstPass P false s st).scen s a).contains k) =
        P.keys.filter fun k => !decide (a = P.act k s) := by
      apply List.filter_congr
      intro k hk
      rw [Dict.contains_eq, f2]
      by_cases e : a = P.act k s
      · simp [e, hk]
      · have : ((st.scen s a).get? k).isSome = false := by
          rw [Bool.eq_false_iff]; exact fun x => e (hu.2.2 a k x)
        simp [e, this]
    rw [hq0, hfil, zero_add]
    have hsp := sum_split P.keys (fun k => decide (a = P.act k s)) (fun k => P.solve k s * P.weight k)
      (fun k => (P.cost k s a (P.next k s a) + P.solve k (P.next k s a)) * P.weight k)
    simp only [decide_eq_true_eq] at hsp
    rw [← hsp]
    unfold total
    congr 1
    apply List.map_congr_left
    intro k _
    unfold value
    by_cases e : a = P.act k s
    · simp [e]
    · have : P.act k s ≠ a := fun u => e u.symm
      simp [e, this])
  refine ⟨a, st2, ?_, hb, I2, ?_⟩
  · unfold give secondPass; rw [e2]; simp only [ea]
  · intro t ht hut
    obtain ⟨u1, u2, u3⟩ := l2 t ht
    obtain ⟨v1, v2, v3⟩ := f4 t ht
    refine ⟨by rw [u1, v1]; exact hut.1, by rw [u2, v2]; exact hut.2.1, ?_⟩
    intro b k h
    rcases u3 b k h with w | w
    · exact w
    · rw [v3] at w; exact hut.2.2 b k w

end Verif.Hindsight
