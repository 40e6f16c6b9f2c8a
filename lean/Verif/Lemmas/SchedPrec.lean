import Verif.Lemmas.SchedSim

/-! Precedence along trajectories, and the proposed start actions. -/
namespace Verif.Sched

/-- Recorded starts come after the recorded ends of the (available) direct predecessors. -/
structure PrecInv (dom : Dom) (st : State) : Prop where
  nodup : (allOf st).Nodup
  com : ∀ x ∈ st.complete, ∃ info e, st.details.get? x = some info ∧ info.finish = some e ∧ e ≤ st.t
  started : ∀ x info s, st.details.get? x = some info → info.start = some s → s ≤ st.t
  prec : ∀ x info s, st.details.get? x = some info → info.start = some s →
    ∀ m ∈ dom.preds x, m ∈ availableTasks dom st.conds →
      m ∈ st.complete ∧ ∃ i e, st.details.get? m = some i ∧ i.finish = some e ∧ e ≤ s

theorem PrecInv.advance {dom : Dom} {st st' : State} (h : PrecInv dom st) (ht : st.t ≤ st'.t)
    (hco : st'.conds = st.conds) (hsets : SameTasks st st')
    (hst : ∀ x info', st'.details.get? x = some info' →
      ∃ info, st.details.get? x = some info ∧ info'.start = info.start)
    (hfin : ∀ x ∈ st.complete, ∀ info, st.details.get? x = some info →
      ∃ info', st'.details.get? x = some info' ∧ info'.finish = info.finish)
    (hnew : ∀ x ∈ st'.complete, x ∉ st.complete →
      ∃ info e, st'.details.get? x = some info ∧ info.finish = some e ∧ e ≤ st'.t) :
    PrecInv dom st' := by
  refine ⟨hsets.nodup h.nodup, ?_, ?_, ?_⟩
  rotate_left
  · intro x info' s h1 h2
    obtain ⟨info, h3, h4⟩ := hst x info' h1
    have := h.started x info s h3 (by rw [← h4, h2])
    omega
  rotate_left
  · intro x hx
    by_cases hc : x ∈ st.complete
    · obtain ⟨info, e, h1, h2, h3⟩ := h.com x hc
      obtain ⟨info', h4, h5⟩ := hfin x hc info h1
      exact ⟨info', e, h4, by rw [h5, h2], by omega⟩
    · exact hnew x hx hc
  · intro x info' s h1 h2 m hm hav
    obtain ⟨info, h3, h4⟩ := hst x info' h1
    rw [hco] at hav
    obtain ⟨h5, i, e, h6, h7, h8⟩ := h.prec x info s h3 (by rw [← h4, h2]) m hm hav
    obtain ⟨i', h9, h10⟩ := hfin m h5 i h6
    exact ⟨hsets.2 h5, i', e, h9, by rw [h10, h7], h8⟩

private theorem set_details {d : Dict TaskId Info} {task : TaskId} {info new : Info}
    (hi : d.get? task = some info) {x : TaskId} {info' : Info}
    (h : (d.set task new).get? x = some info') :
    (x = task ∧ info' = new) ∨ (x ≠ task ∧ d.get? x = some info') := by
  by_cases hx : x = task
  · subst hx
    rw [Dict.get?_set_self] at h
    exact .inl ⟨rfl, (Option.some.inj h).symm⟩
  · rw [Dict.get?_set_ne _ _ hx] at h
    exact .inr ⟨hx, h⟩

theorem updatePause_prec {dom : Dom} {st st' : State} {a : Action} (hI : PrecInv dom st)
    (h : updatePause dom st a = .ok st') : PrecInv dom st' := by
  have hs := updatePause_sets hI.nodup h
  rcases updatePause_ok h with ⟨_, rfl⟩ | ⟨_, task, uf, used, info, _, hm, _, _, hi, rfl⟩
  · exact hI
  · refine hI.advance (Int.le_refl _) rfl hs ?_ ?_ ?_
    · intro x info' hx
      rcases set_details hi hx with ⟨rfl, rfl⟩ | ⟨_, h⟩
      · exact ⟨info, hi, rfl⟩
      · exact ⟨info', h, rfl⟩
    · intro x _ i hx
      by_cases hxt : x = task
      · subst hxt
        rw [hi] at hx; cases hx
        exact ⟨_, Dict.get?_set_self _ _ _, rfl⟩
      · exact ⟨i, by rw [← hx]; exact Dict.get?_set_ne _ _ hxt, rfl⟩
    · intro x hx hn; exact absurd hx hn

theorem resumed_prec {dom : Dom} {st : State} {task : TaskId} {info : Info} (hI : PrecInv dom st)
    (hm : task ∈ st.paused) (hi : st.details.get? task = some info) :
    PrecInv dom (resumed st task info) := by
  refine hI.advance (Int.le_refl _) rfl (resumed_sets info hI.nodup hm) ?_ ?_ ?_
  · intro x info' hx
    rcases set_details hi hx with ⟨rfl, rfl⟩ | ⟨_, h⟩
    · exact ⟨info, hi, rfl⟩
    · exact ⟨info', h, rfl⟩
  · intro x _ i hx
    by_cases hxt : x = task
    · subst hxt
      rw [hi] at hx; cases hx
      exact ⟨_, Dict.get?_set_self _ _ _, rfl⟩
    · exact ⟨i, by rw [← hx]; exact Dict.get?_set_ne _ _ hxt, rfl⟩
  · intro x hx hn; exact absurd hx hn

theorem updateResume_prec {dom : Dom} {st st' : State} {a : Action} (hI : PrecInv dom st)
    (h : updateResume dom st a = .ok st') : PrecInv dom st' := by
  rcases updateResume_ok h with ⟨_, rfl⟩ | ⟨_, task, info, b, use, _, hm, hi, _, hc⟩
  · exact hI
  · have := resumed_prec hI hm hi
    rcases hc with ⟨_, rfl⟩ | ⟨_, used, _, rfl⟩
    · exact this
    · exact ⟨this.nodup, this.com, this.started, this.prec⟩

/-- A start action is only for a task whose available direct predecessors are complete. -/
def Respects (dom : Dom) (st : State) (a : Action) : Prop :=
  a.kind = .start → ∀ task, a.task = some task →
    ∀ m ∈ dom.preds task, m ∈ availableTasks dom st.conds → m ∈ st.complete

theorem updateStart_prec {dom : Dom} {d : Draw} {st st' : State} {a : Action} (hI : PrecInv dom st)
    (hr : Respects dom st a) (h : updateStart dom d st a = .ok st') : PrecInv dom st' := by
  have hs := updateStart_sets hI.nodup h
  rcases updateStart_ok h with ⟨_, rfl⟩ | ⟨hk, b, use, _, hc⟩
  · exact hI
  · rcases hc with ⟨_, rfl⟩ | ⟨_, task, mode, info, used, hta, _, hm, hi, _, rfl⟩
    · exact hI
    · have hfin : ∀ x i, st.details.get? x = some i →
          ∃ i', (started d st task mode info use used).details.get? x = some i' ∧ i'.finish = i.finish := by
        intro x i hx
        by_cases hxt : x = task
        · subst hxt
          rw [hi] at hx; cases hx
          exact ⟨_, Dict.get?_set_self _ _ _, rfl⟩
        · exact ⟨i, by rw [← hx]; exact Dict.get?_set_ne _ _ hxt, rfl⟩
      refine ⟨hs.nodup hI.nodup, ?_, ?_, ?_⟩
      rotate_left
      · intro x info' s h1 h2
        rcases set_details hi h1 with ⟨rfl, rfl⟩ | ⟨_, h⟩
        · exact Int.le_of_eq (Option.some.inj h2).symm
        · exact hI.started x info' s h h2
      rotate_left
      · intro x hx
        obtain ⟨i, e, h1, h2, h3⟩ := hI.com x hx
        obtain ⟨i', h4, h5⟩ := hfin x i h1
        exact ⟨i', e, h4, by rw [h5, h2], h3⟩
      · intro x info' s h1 h2 m hmp hav
        rcases set_details hi h1 with ⟨rfl, rfl⟩ | ⟨_, h⟩
        · simp only [Option.some.injEq] at h2
          have hc := hr hk x hta m hmp hav
          obtain ⟨i, e, g1, g2, g3⟩ := hI.com m hc
          obtain ⟨i', h4, h5⟩ := hfin m i g1
          exact ⟨hc, i', e, h4, by rw [h5, g2], by omega⟩
        · obtain ⟨h5, i, e, h6, h7, h8⟩ := hI.prec x info' s h h2 m hmp hav
          obtain ⟨i', h9, h10⟩ := hfin m i h6
          exact ⟨h5, i', e, h9, by rw [h10, h7], h8⟩

theorem updateDummy_prec {dom : Dom} {st st' : State} {a : Action} (hI : PrecInv dom st)
    (h : updateDummy st a = .ok st') : PrecInv dom st' := by
  have hs := updateDummy_sets hI.nodup h
  rcases updateDummy_ok h with ⟨_, rfl⟩ | ⟨_, task, info, _, hi, hc⟩
  · exact hI
  · rcases hc with ⟨_, rfl⟩ | ⟨_, hm, _, rfl⟩
    · exact hI
    · have hcn : task ∉ st.complete := by
        have h1 := nodup_count hI.nodup task
        rw [count_allOf] at h1
        have := List.count_pos_iff.2 hm
        exact List.count_eq_zero.1 (by omega)
      refine hI.advance (Int.le_refl _) rfl hs ?_ ?_ ?_
      · intro x info' hx
        rcases set_details hi hx with ⟨rfl, rfl⟩ | ⟨_, h⟩
        · exact ⟨info, hi, rfl⟩
        · exact ⟨info', h, rfl⟩
      · intro x hxc i hx
        have hxt : x ≠ task := by rintro rfl; exact hcn hxc
        exact ⟨i, by rw [← hx]; exact Dict.get?_set_ne _ _ hxt, rfl⟩
      · intro x hx hn
        rcases mem_sadd.1 hx with h | rfl
        · exact absurd h hn
        · exact ⟨_, st.t, Dict.get?_set_self _ _ _, rfl, Int.le_refl _⟩

theorem updateTime_prec {dom : Dom} {st st' : State} {a : Action} (hI : PrecInv dom st)
    (h : updateTime dom st a = .ok st') : PrecInv dom st' := by
  have hs := updateTime_sets hI.nodup h
  cases hta : a.timeProgress with
  | false =>
    rcases updateTime_ok h with ⟨_, rfl⟩ | ⟨ht, _⟩
    · exact hI
    · rw [hta] at ht; cases ht
  | true =>
    have ht := updateTime_t h
    rw [hta] at ht
    simp only [if_true] at ht
    refine hI.advance (by omega) (updateTime_conds h) hs ?_ ?_ ?_
    · intro x info' hx
      obtain ⟨r1, r2⟩ := updateTime_record (x := x) hI.nodup hta h
      by_cases hxo : x ∈ st.ongoing
      · obtain ⟨p, mode, info, g1, g2, g3, g4, g5, g6⟩ := r2 hxo
        rcases g6 with ⟨_, _, _, g7, _⟩ | ⟨_, _, _, g7, _⟩
        · rw [g7] at hx; cases hx; exact ⟨_, g3, rfl⟩
        · rw [g7] at hx; cases hx; exact ⟨_, g3, rfl⟩
      · obtain ⟨g1, _⟩ := r1 hxo
        exact ⟨info', by rw [← g1]; exact hx, rfl⟩
    · intro x hxc i hx
      have hxo : x ∉ st.ongoing := by
        have h1 := nodup_count hI.nodup x
        rw [count_allOf] at h1
        have := List.count_pos_iff.2 hxc
        exact List.count_eq_zero.1 (by omega)
      obtain ⟨r1, _⟩ := updateTime_record (x := x) hI.nodup hta h
      exact ⟨i, by rw [(r1 hxo).1]; exact hx, rfl⟩
    · intro x hx hn
      obtain ⟨r1, r2⟩ := updateTime_record (x := x) hI.nodup hta h
      by_cases hxo : x ∈ st.ongoing
      · obtain ⟨p, mode, info, g1, g2, g3, g4, g5, g6⟩ := r2 hxo
        rcases g6 with ⟨_, _, g7, _⟩ | ⟨_, _, _, g7, _⟩
        · exact absurd hx g7
        · exact ⟨_, _, g7, rfl, by omega⟩
      · exact absurd ((r1 hxo).2.2.2.2.2.1 hx) hn

theorem nextState_prec {dom : Dom} {d : Draw} {st st' : State} {a : Action} (hI : PrecInv dom st)
    (hr : Respects dom st a) (h : nextState dom d st a = .ok st') : PrecInv dom st' := by
  obtain ⟨s1, s2, s3, s4, s5, h1, h2, h3, h4, h5, rfl⟩ := nextState_ok h
  have i1 := updatePause_prec hI h1
  have i2 := updateResume_prec i1 h2
  have hr2 : Respects dom s2 a := by
    intro hk
    have e1 : s1 = st := by
      rcases updatePause_ok h1 with ⟨_, h⟩ | ⟨h, _⟩
      · exact h
      · rw [hk] at h; cases h
    have e2 : s2 = s1 := by
      rcases updateResume_ok h2 with ⟨_, h⟩ | ⟨h, _⟩
      · exact h
      · rw [hk] at h; cases h
    rw [e2, e1]
    exact hr hk
  have i5 := updateTime_prec (updateDummy_prec (updateStart_prec i2 hr2 h3) h4) h5
  unfold updateAvail
  split
  · exact ⟨i5.nodup, i5.com, i5.started, i5.prec⟩
  · exact i5

/-! ### Proposed start actions -/

theorem foldl_set_mem {l : List (TaskId × ModeId)} {d : Dict TaskId ModeId} {p : TaskId × ModeId}
    (h : p ∈ l.foldl (fun d p => Dict.set d p.1 p.2) d) : p ∈ d ∨ p ∈ l := by
  induction l generalizing d with
  | nil => exact .inl h
  | cons q l ih =>
    rw [List.foldl_cons] at h
    rcases ih h with h | h
    · have key : ∀ (d : Dict TaskId ModeId) (k : TaskId) (v : ModeId), p ∈ Dict.set d k v →
          p ∈ d ∨ p = (k, v) := by
        intro d k v
        induction d with
        | nil => intro h; simp [Dict.set] at h; exact .inr h
        | cons q d ih =>
          obtain ⟨k', v'⟩ := q
          intro h
          by_cases hk : k' = k
          · subst hk
            simp only [Dict.set, if_true, List.mem_cons] at h
            rcases h with h | h
            · exact .inr h
            · exact .inl (by simp [h])
          · simp only [Dict.set, hk, if_false, List.mem_cons] at h
            rcases h with h | h
            · exact .inl (by simp [h])
            · rcases ih h with h | h
              · exact .inl (by simp [h])
              · exact .inr h
      rcases key d q.1 q.2 h with h | h
      · exact .inl h
      · exact .inr (by simp [h])
    · exact .inr (by simp [h])

theorem foldl_set_keys {l : List (TaskId × ModeId)} {d : Dict TaskId ModeId} {k : TaskId} :
    k ∈ Dict.keys (l.foldl (fun d p => Dict.set d p.1 p.2) d) ↔
      k ∈ Dict.keys d ∨ k ∈ l.map Prod.fst := by
  induction l generalizing d with
  | nil => simp
  | cons q l ih =>
    rw [List.foldl_cons, ih, Dict.keys_set]
    by_cases hq : q.1 ∈ Dict.keys d
    · simp only [hq, if_true, List.map_cons, List.mem_cons]
      constructor
      · rintro (h | h)
        · exact .inl h
        · exact .inr (.inr h)
      · rintro (h | h | h)
        · exact .inl h
        · subst h; exact .inl hq
        · exact .inr h
    · simp only [hq, if_false, List.mem_append, List.map_cons, List.mem_cons, List.not_mem_nil,
        or_false, or_assoc]

/-- All direct predecessors of `n` that exist under the current conditions are complete. -/
def PredsDone (dom : Dom) (st : State) (n : TaskId) : Prop :=
  ∀ m ∈ dom.preds n, m ∈ availableTasks dom st.conds → m ∈ st.complete

theorem possiblePairs_mem {dom : Dom} {st : State} {l : List TaskId} {ps : List (TaskId × ModeId)}
    (h : possiblePairs dom st l = .ok ps) (n : TaskId) (m : ModeId) :
    (n, m) ∈ ps ↔ n ∈ l ∧ PredsDone dom st n ∧ ∃ ms, dom.modes.get? n = some ms ∧ m ∈ ms.keys := by
  induction l generalizing ps with
  | nil => simp only [possiblePairs, Except.ok.injEq] at h; subst h; simp
  | cons x l ih =>
    simp only [possiblePairs, bind_eq_ok, Dict.get_ok_iff] at h
    obtain ⟨ms, h1, ps', h2, h3⟩ := h
    have ih := ih h2
    have hP : ((dom.preds x).all fun m => decide (m ∈ availableTasks dom st.conds → m ∈ st.complete)) = true
        ↔ PredsDone dom st x := by
      simp only [List.all_eq_true, decide_eq_true_eq, PredsDone]
    by_cases hp : PredsDone dom st x
    · rw [if_pos (hP.2 hp)] at h3
      have h3 := (Except.ok.inj h3).symm
      subst h3
      rw [List.mem_append, ih, List.mem_map]
      constructor
      · rintro (⟨m', hm, he⟩ | ⟨g1, g2, g3⟩)
        · cases he; exact ⟨by simp, hp, ms, h1, hm⟩
        · exact ⟨by simp [g1], g2, g3⟩
      · rintro ⟨g1, g2, ms', g3, g4⟩
        rcases List.mem_cons.1 g1 with rfl | g1
        · rw [h1] at g3; cases g3
          exact .inl ⟨m, g4, rfl⟩
        · exact .inr ⟨g1, g2, ms', g3, g4⟩
    · rw [if_neg (fun h => hp (hP.1 h))] at h3
      have h3 := (Except.ok.inj h3).symm
      subst h3
      rw [ih]
      constructor
      · rintro ⟨g1, g2, g3⟩; exact ⟨by simp [g1], g2, g3⟩
      · rintro ⟨g1, g2, g3⟩
        rcases List.mem_cons.1 g1 with rfl | g1
        · exact absurd g2 hp
        · exact ⟨g1, g2, g3⟩

/-- Every resource type has at least what the mode needs (at `state.t`). -/
def Enough (dom : Dom) (st : State) (n : TaskId) (m : ModeId) : Prop :=
  ∀ r ∈ dom.resTypes, ∃ a u ms md need, st.avail.get? r = some a ∧ st.used.get? r = some u ∧
    dom.modes.get? n = some ms ∧ ms.get? m = some md ∧ md.need r st.t = .ok need ∧ need ≤ a - u

theorem enough_spec {dom : Dom} {st : State} {n : TaskId} {m : ModeId} {l : List Res} {b : Bool}
    (h : enough dom st n m l = .ok b) : b = true ↔ ∀ r ∈ l, ∃ a u ms md need,
      st.avail.get? r = some a ∧ st.used.get? r = some u ∧
      dom.modes.get? n = some ms ∧ ms.get? m = some md ∧ md.need r st.t = .ok need ∧ need ≤ a - u := by
  induction l with
  | nil => simp only [enough, Except.ok.injEq] at h; subst h; simp
  | cons r l ih =>
    simp only [enough, bind_eq_ok, Dict.get_ok_iff] at h
    obtain ⟨a, h1, u, h2, ms, h3, md, h4, need, h5, h6⟩ := h
    split at h6
    · rename_i hge
      rw [ih h6]
      constructor
      · intro hh r' hr'
        rcases List.mem_cons.1 hr' with rfl | hr'
        · exact ⟨a, u, ms, md, need, h1, h2, h3, h4, h5, by omega⟩
        · exact hh r' hr'
      · intro hh r' hr'; exact hh r' (by simp [hr'])
    · rename_i hge
      have h6 := (Except.ok.inj h6).symm
      subst h6
      simp only [Bool.false_eq_true, false_iff]
      intro hh
      obtain ⟨a', u', ms', md', need', g1, g2, g3, g4, g5, g6⟩ := hh r (by simp)
      rw [h1] at g1; cases g1
      rw [h2] at g2; cases g2
      rw [h3] at g3; cases g3
      rw [h4] at g4; cases g4
      rw [h5] at g5; cases g5
      omega

theorem enoughPairs_mem {dom : Dom} {st : State} {ps qs : List (TaskId × ModeId)}
    (h : enoughPairs dom st ps = .ok qs) (p : TaskId × ModeId) :
    p ∈ qs ↔ p ∈ ps ∧ Enough dom st p.1 p.2 := by
  induction ps generalizing qs with
  | nil => simp only [enoughPairs, Except.ok.injEq] at h; subst h; simp
  | cons q ps ih =>
    obtain ⟨n, m⟩ := q
    simp only [enoughPairs, bind_eq_ok] at h
    obtain ⟨b, h1, l, h2, h3⟩ := h
    have hb := enough_spec h1
    have h3 := (Except.ok.inj h3).symm
    subst h3
    have ih := ih h2
    cases b with
    | true =>
      have hE : Enough dom st n m := hb.1 rfl
      simp only [if_true, List.mem_cons, ih]
      constructor
      · rintro (rfl | ⟨g1, g2⟩)
        · exact ⟨.inl rfl, hE⟩
        · exact ⟨.inr g1, g2⟩
      · rintro ⟨rfl | g1, g2⟩
        · exact .inl rfl
        · exact .inr ⟨g1, g2⟩
    | false =>
      have hE : ¬ Enough dom st n m := fun hh => by simpa using hb.2 hh
      simp only [Bool.false_eq_true, if_false, List.mem_cons, ih]
      constructor
      · rintro ⟨g1, g2⟩; exact ⟨.inr g1, g2⟩
      · rintro ⟨rfl | g1, g2⟩
        · exact absurd g2 hE
        · exact ⟨g1, g2⟩

theorem possibleStarting_mem {dom : Dom} {st : State} {d : Dict TaskId ModeId}
    (h : possibleStarting dom st = .ok d) :
    (∀ n m, (n, m) ∈ d → n ∈ st.remaining ∧ PredsDone dom st n ∧
      (∃ ms, dom.modes.get? n = some ms ∧ m ∈ ms.keys) ∧ Enough dom st n m) ∧
    (∀ n m ms, n ∈ st.remaining → PredsDone dom st n → dom.modes.get? n = some ms → m ∈ ms.keys →
      Enough dom st n m → ∃ m', (n, m') ∈ d) := by
  unfold possibleStarting at h
  simp only [bind_eq_ok] at h
  obtain ⟨ps, h1, qs, h2, h3⟩ := h
  have h3 := (Except.ok.inj h3).symm
  constructor
  · intro n m hm
    rw [h3] at hm
    rcases foldl_set_mem hm with h | h
    · simp at h
    · obtain ⟨g1, g2⟩ := (enoughPairs_mem h2 _).1 h
      obtain ⟨g3, g4, g5⟩ := (possiblePairs_mem h1 n m).1 g1
      exact ⟨g3, g4, g5, g2⟩
  · intro n m ms g1 g2 g3 g4 g5
    have hq : (n, m) ∈ qs := (enoughPairs_mem h2 _).2 ⟨(possiblePairs_mem h1 n m).2 ⟨g1, g2, ms, g3, g4⟩, g5⟩
    have hk : n ∈ Dict.keys d := by
      rw [h3, foldl_set_keys]
      exact .inr (List.mem_map.2 ⟨_, hq, rfl⟩)
    obtain ⟨⟨n', m'⟩, hp, rfl⟩ := List.mem_map.1 hk
    exact ⟨m', hp⟩

theorem pauseActions_mem {dom : Dom} {l : List TaskId} {as : List Action}
    (h : pauseActions dom l = .ok as) (a : Action) :
    a ∈ as ↔ ∃ t ∈ l, dom.preempt.get? t = some true ∧ a = ⟨some t, .pause, none, false, none⟩ := by
  induction l generalizing as with
  | nil => simp only [pauseActions, Except.ok.injEq] at h; subst h; simp
  | cons t l ih =>
    simp only [pauseActions, bind_eq_ok, Dict.get_ok_iff] at h
    obtain ⟨b, h1, as', h2, h3⟩ := h
    have h3 := (Except.ok.inj h3).symm
    subst h3
    have ih := ih h2
    cases b with
    | true =>
      simp only [if_true, List.mem_cons, ih]
      constructor
      · rintro (rfl | ⟨t', g1, g2, g3⟩)
        · exact ⟨t, .inl rfl, h1, rfl⟩
        · exact ⟨t', .inr g1, g2, g3⟩
      · rintro ⟨t', rfl | g1, g2, g3⟩
        · exact .inl g3
        · exact .inr ⟨t', g1, g2, g3⟩
    | false =>
      simp only [Bool.false_eq_true, if_false, List.mem_cons, ih]
      constructor
      · rintro ⟨t', g1, g2, g3⟩
        exact ⟨t', .inr g1, g2, g3⟩
      · rintro ⟨t', rfl | g1, g2, g3⟩
        · rw [h1] at g2; cases g2
        · exact ⟨t', g1, g2, g3⟩

theorem resumeActions_mem {st : State} {l : List TaskId} {as : List Action}
    (h : resumeActions st l = .ok as) (a : Action) :
    a ∈ as ↔ ∃ t ∈ l, ∃ m, st.mode.get? t = some m ∧ a = ⟨some t, .resume, some m, false, none⟩ := by
  induction l generalizing as with
  | nil => simp only [resumeActions, Except.ok.injEq] at h; subst h; simp
  | cons t l ih =>
    simp only [resumeActions, bind_eq_ok, Dict.get_ok_iff] at h
    obtain ⟨b, h1, as', h2, h3⟩ := h
    have h3 := (Except.ok.inj h3).symm
    subst h3
    have ih := ih h2
    simp only [List.mem_cons, ih]
    constructor
    · rintro (rfl | ⟨t', g1, g2⟩)
      · exact ⟨t, .inl rfl, b, h1, rfl⟩
      · exact ⟨t', .inr g1, g2⟩
    · rintro ⟨t', rfl | g1, m, g2, g3⟩
      · rw [h1] at g2; cases g2; exact .inl g3
      · exact .inr ⟨t', g1, m, g2, g3⟩

/-- `state_is_overconsuming`, as a specification. -/
theorem overconsuming_spec {st : State} {l : Dict Res Int} {b : Bool}
    (h : overconsuming st l = .ok b) :
    b = true ↔ ∃ r u, (r, u) ∈ l ∧ ∃ a, st.avail.get? r = some a ∧ a < u := by
  induction l with
  | nil => simp only [overconsuming, Except.ok.injEq] at h; subst h; simp
  | cons p l ih =>
    obtain ⟨r, u⟩ := p
    simp only [overconsuming, bind_eq_ok, Dict.get_ok_iff] at h
    obtain ⟨a, h1, h2⟩ := h
    split at h2
    · rename_i hgt
      have h2 := (Except.ok.inj h2).symm
      subst h2
      simp only [true_iff]
      exact ⟨r, u, by simp, a, h1, hgt⟩
    · rename_i hgt
      rw [ih h2]
      constructor
      · rintro ⟨r', u', g1, g2⟩; exact ⟨r', u', by simp [g1], g2⟩
      · rintro ⟨r', u', g1, a', g2, g3⟩
        rcases List.mem_cons.1 g1 with g1 | g1
        · cases g1
          rw [h1] at g2; cases g2
          omega
        · exact ⟨r', u', g1, a', g2, g3⟩

theorem pure_eq_ok {α : Type} {x y : α} : ((pure x : Except PyErr α) = .ok y) ↔ x = y :=
  ⟨fun h => Except.ok.inj h, fun h => by rw [h]; rfl⟩

/-- The applicable actions, one kind at a time. -/
theorem actionSpace_mem {dom : Dom} {st : State} {as : List Action}
    (h : actionSpace dom st = .ok as) (a : Action) (ha : a ∈ as) :
    (∃ n m, a = ⟨some n, .start, some m, false, none⟩ ∧ n ∈ st.remaining ∧ PredsDone dom st n ∧
      (∃ ms, dom.modes.get? n = some ms ∧ m ∈ ms.keys) ∧ Enough dom st n m) ∨
    (∃ t ∈ st.ongoing, dom.preempt.get? t = some true ∧ a = ⟨some t, .pause, none, false, none⟩) ∨
    (∃ t ∈ st.paused, ∃ m, st.mode.get? t = some m ∧ a = ⟨some t, .resume, some m, false, none⟩) ∨
    a = timeAction := by
  unfold actionSpace at h
  simp only [bind_eq_ok] at h
  obtain ⟨over, h1, h⟩ := h
  cases over with
  | true =>
    simp only [if_true, bind_eq_ok, pure_eq_ok] at h
    obtain ⟨starts, h2, pauses, h3, resumes, h4, h5⟩ := h
    subst h2 h4 h5
    simp only [List.nil_append, List.append_nil, List.mem_append, List.mem_singleton] at ha
    rcases ha with ha | ha
    · exact .inr (.inl ((pauseActions_mem h3 a).1 ha))
    · exact .inr (.inr (.inr ha))
  | false =>
    simp only [Bool.false_eq_true, if_false, bind_eq_ok, pure_eq_ok] at h
    obtain ⟨d, g1, starts, h2, pauses, h3, resumes, h4, h5⟩ := h
    subst h2 h5
    simp only [List.mem_append, List.mem_singleton] at ha
    rcases ha with ((ha | ha) | ha) | ha
    · obtain ⟨⟨n, m⟩, g3, rfl⟩ := List.mem_map.1 ha
      obtain ⟨e1, e2, e3, e4⟩ := (possibleStarting_mem g1).1 n m g3
      exact .inl ⟨n, m, rfl, e1, e2, e3, e4⟩
    · exact .inr (.inl ((pauseActions_mem h3 a).1 ha))
    · exact .inr (.inr (.inl ((resumeActions_mem h4 a).1 ha)))
    · exact .inr (.inr (.inr ha))

end Verif.Sched
