import Verif.Lemmas.SchedTrack

/-! The simulated variant with conditional tasks. -/
namespace Verif.Sched

theorem mem_allOf {st : State} {x : TaskId} :
    x ∈ allOf st ↔ x ∈ st.remaining ∨ x ∈ st.ongoing ∨ x ∈ st.paused ∨ x ∈ st.complete := by
  simp only [allOf, List.mem_append, or_assoc]

/-- The tasks with a progress entry are the ones that left `remaining`. -/
def ProgKeys (st : State) : Prop :=
  ∀ x, (st.progress.get? x).isSome = true ↔ (x ∈ st.ongoing ∨ x ∈ st.paused ∨ x ∈ st.complete)

theorem updatePause_keys {dom : Dom} {st st' : State} {a : Action} (hI : ProgKeys st)
    (h : updatePause dom st a = .ok st') : ProgKeys st' := by
  intro x
  by_cases hx : a.kind = .pause → a.task ≠ some x
  · have s := updatePause_same hx h
    rw [s.progress, s.ong, s.pau, s.com]
    exact hI x
  · rcases updatePause_ok h with ⟨hk, rfl⟩ | ⟨hk, task, uf, used, info, ht, hm, _, _, _, rfl⟩
    · exact hI x
    · have ht' : a.task = some x := Classical.byContradiction fun hh => hx fun _ => hh
      rw [ht] at ht'; cases ht'
      have h1 := (hI x).2 (.inl hm)
      exact ⟨fun _ => .inr (.inl (mem_sadd.2 (.inr rfl))), fun _ => h1⟩

theorem updateResume_keys {dom : Dom} {st st' : State} {a : Action} (hI : ProgKeys st)
    (h : updateResume dom st a = .ok st') : ProgKeys st' := by
  intro x
  by_cases hx : a.kind = .resume → a.task ≠ some x ∨ x ∉ st.paused
  · have s := updateResume_same hx h
    rw [s.progress, s.ong, s.pau, s.com]
    exact hI x
  · rcases updateResume_ok h with ⟨_, rfl⟩ | ⟨hk, task, info, b, use, ht, hm, _, _, hc⟩
    · exact hI x
    · have ht' : a.task = some x := Classical.byContradiction fun hh => hx fun _ => .inl hh
      rw [ht] at ht'; cases ht'
      have h1 := (hI x).2 (.inr (.inl hm))
      rcases hc with ⟨_, rfl⟩ | ⟨_, used, _, rfl⟩
      · exact ⟨fun _ => .inl (mem_sadd.2 (.inr rfl)), fun _ => h1⟩
      · exact ⟨fun _ => .inl (mem_sadd.2 (.inr rfl)), fun _ => h1⟩

theorem updateStart_keys {dom : Dom} {d : Draw} {st st' : State} {a : Action} (hI : ProgKeys st)
    (h : updateStart dom d st a = .ok st') : ProgKeys st' := by
  intro x
  by_cases hx : a.kind = .start → a.task ≠ some x ∨ x ∉ st.remaining
  · have s := updateStart_same hx h
    rw [s.progress, s.ong, s.pau, s.com]
    exact hI x
  · rcases updateStart_ok h with ⟨_, rfl⟩ | ⟨hk, b, use, _, hc⟩
    · exact hI x
    · rcases hc with ⟨_, rfl⟩ | ⟨_, task, mode, info, used, ht, _, hm, _, _, rfl⟩
      · exact hI x
      · have ht' : a.task = some x := Classical.byContradiction fun hh => hx fun _ => .inl hh
        rw [ht] at ht'; cases ht'
        refine ⟨fun _ => .inl (mem_sadd.2 (.inr rfl)), fun _ => ?_⟩
        simp only [started]
        rw [Dict.get?_set_self]; rfl

theorem updateDummy_keys {st st' : State} {a : Action} (hI : ProgKeys st)
    (h : updateDummy st a = .ok st') : ProgKeys st' := by
  intro x
  rcases updateDummy_ok h with ⟨_, rfl⟩ | ⟨hk, task, info, ht, hi, hc⟩
  · exact hI x
  · rcases hc with ⟨_, rfl⟩ | ⟨hs, hm, hu, rfl⟩
    · exact hI x
    · by_cases hx : x = task
      · subst hx
        refine ⟨fun _ => .inr (.inr (mem_sadd.2 (.inr rfl))), fun _ => ?_⟩
        simp only [dummied]
        rw [Dict.get?_set_self]; rfl
      · have s : Same x st (dummied st task info) := by
          refine updateDummy_same (a := a) ?_ h
          intro _ h2
          rw [ht] at h2
          exact absurd (Option.some.inj h2).symm hx
        rw [s.progress, s.ong, s.pau, s.com]
        exact hI x

theorem updateTime_keys {dom : Dom} {st st' : State} {a : Action} (hn : (allOf st).Nodup)
    (hI : ProgKeys st) (h : updateTime dom st a = .ok st') : ProgKeys st' := by
  intro x
  cases hta : a.timeProgress with
  | false =>
    rcases updateTime_ok h with ⟨_, rfl⟩ | ⟨ht, _⟩
    · exact hI x
    · rw [hta] at ht; cases ht
  | true =>
    obtain ⟨r1, r2⟩ := updateTime_record (x := x) hn hta h
    by_cases hxo : x ∈ st.ongoing
    · obtain ⟨p, mode, info, g1, g2, g3, g4, g5, g6⟩ := r2 hxo
      rcases g6 with ⟨_, e1, _, _, e2⟩ | ⟨_, _, e1, _, e2⟩
      · rw [e2]; exact ⟨fun _ => .inl e1, fun _ => rfl⟩
      · rw [e2]; exact ⟨fun _ => .inr (.inr e1), fun _ => rfl⟩
    · obtain ⟨g1, g2, g3, g4, g5, g6⟩ := r1 hxo
      rw [g2, g5, g6]
      have := hI x
      simp only [hxo, false_or] at this
      simp only [g4, false_or]
      exact this

theorem nextState_keys {dom : Dom} {d : Draw} {st st' : State} {a : Action} (hn : (allOf st).Nodup)
    (hI : ProgKeys st) (h : nextState dom d st a = .ok st') : ProgKeys st' := by
  obtain ⟨s1, s2, s3, s4, s5, h1, h2, h3, h4, h5, rfl⟩ := nextState_ok h
  have n1 := (updatePause_sets hn h1).nodup hn
  have n2 := (updateResume_sets n1 h2).nodup n1
  have n3 := (updateStart_sets n2 h3).nodup n2
  have n4 := (updateDummy_sets n3 h4).nodup n3
  have k5 := updateTime_keys n4 (updateDummy_keys (updateStart_keys (updateResume_keys
    (updatePause_keys hI h1) h2) h3) h4) h5
  intro x
  have s := updateAvail_same dom d s5 a x
  rw [s.progress, s.ong, s.pau, s.com]
  exact k5 x

theorem initState_keys (dom : Dom) (d : Draw) : ProgKeys (initState dom d) := by
  intro x; simp [initState]

/-! ### Conditions -/

theorem availableTasks_mono {dom : Dom} {c c' : List Cond} (h : ∀ x ∈ c, x ∈ c') {x : TaskId}
    (hx : x ∈ availableTasks dom c) : x ∈ availableTasks dom c' := by
  unfold availableTasks at *
  rw [List.mem_filter] at *
  refine ⟨hx.1, ?_⟩
  have h2 := hx.2
  split
  · rfl
  · rename_i cs heq
    rw [heq] at h2
    simp only [List.all_eq_true, decide_eq_true_eq] at *
    exact fun c hc => h c (h2 c hc)

theorem unconditional_available {dom : Dom} (c : List Cond) {x : TaskId} (hx : x ∈ unconditional dom) :
    x ∈ availableTasks dom c := by
  unfold unconditional availableTasks at *
  rw [List.mem_filter] at *
  refine ⟨hx.1, ?_⟩
  have h2 := hx.2
  split
  · rfl
  · rename_i cs heq
    rw [heq] at h2
    have : cs = [] := List.isEmpty_iff.1 h2
    subst this; rfl

theorem foldl_sadd_mem {l s : List TaskId} {x : TaskId} :
    x ∈ l.foldl sadd s ↔ x ∈ s ∨ x ∈ l := by
  induction l generalizing s with
  | nil => simp
  | cons y l ih => rw [List.foldl_cons, ih, mem_sadd, List.mem_cons, or_assoc]

theorem foldl_sadd_count_old {l s : List TaskId} (x : TaskId) (h : x ∉ l) :
    (l.foldl sadd s).count x = s.count x := by
  induction l generalizing s with
  | nil => rfl
  | cons y l ih =>
    have hxy : x ≠ y := fun hh => h (by simp [hh])
    rw [List.foldl_cons, ih (fun hh => h (by simp [hh]))]
    unfold sadd
    split
    · rfl
    · rw [List.count_append]
      simp [Ne.symm hxy]

theorem foldl_sadd_count {l s : List TaskId} (x : TaskId) (h : x ∉ s) (hn : l.Nodup) :
    (l.foldl sadd s).count x = l.count x := by
  induction l generalizing s with
  | nil => simpa using List.count_eq_zero.2 h
  | cons y l ih =>
    obtain ⟨h1, h2⟩ := List.nodup_cons.1 hn
    rw [List.foldl_cons]
    by_cases hxy : x = y
    · subst hxy
      rw [foldl_sadd_count_old x h1]
      unfold sadd
      simp [h, List.count_append, List.count_eq_zero.2 h, List.count_eq_zero.2 h1]
    · rw [ih (fun hm => by
        rcases mem_sadd.1 hm with hm | hm
        · exact h hm
        · exact hxy hm) h2]
      simp [Ne.symm hxy]

/-- Invariant of simulated trajectories. -/
structure SimInv (dom : Dom) (st : State) : Prop where
  nodup : (allOf st).Nodup
  keys : ProgKeys st
  avail : ∀ x ∈ allOf st, x ∈ availableTasks dom st.conds

theorem mem_newTasks {dom : Dom} {st : State} (hI : SimInv dom st) (x : TaskId) :
    x ∈ newTasks dom st ↔ x ∈ availableTasks dom st.conds ∧ x ∉ allOf st := by
  have hc : x ∈ st.remaining ++ st.ongoing ++ st.progress.keys ++ st.complete ↔ x ∈ allOf st := by
    have hk := hI.keys x
    rw [Dict.get?_isSome_iff_mem_keys] at hk
    simp only [List.mem_append, mem_allOf, hk]
    constructor
    · rintro (((h | h) | h | h | h) | h) <;> simp [h]
    · rintro (h | h | h | h) <;> simp [h]
  simp only [newTasks, List.mem_append, List.mem_filter, decide_eq_true_eq]
  simp only [List.mem_append] at hc
  rw [hc]
  constructor
  · rintro (h | ⟨h1, h2⟩)
    · exact h
    · exact absurd (hI.avail x h1) h2
  · exact fun h => .inl h

theorem newTasks_nodup {dom : Dom} {st : State} (hd : dom.tasks.Nodup) (hI : SimInv dom st) :
    (newTasks dom st).Nodup := by
  have h2 : (st.remaining ++ st.ongoing ++ st.progress.keys ++ st.complete).filter
      (fun x => decide (x ∉ availableTasks dom st.conds)) = [] := by
    rw [List.filter_eq_nil_iff]
    intro x hx
    have hk := hI.keys x
    rw [Dict.get?_isSome_iff_mem_keys] at hk
    have : x ∈ allOf st := by
      simp only [List.mem_append, hk] at hx
      rw [mem_allOf]
      rcases hx with ((h | h) | h | h | h) | h <;> simp [h]
    simp [hI.avail x this]
  unfold newTasks
  simp only [h2, List.append_nil]
  exact (hd.sublist List.filter_sublist).sublist List.filter_sublist

theorem updateConditional_inv {dom : Dom} {st : State} {a : Action} (hd : dom.tasks.Nodup)
    (hI : SimInv dom st) : SimInv dom (updateConditional dom st a) ∧
      (∀ x ∈ allOf st, x ∈ allOf (updateConditional dom st a)) ∧
      (a.timeProgress = true → ∀ x, x ∈ allOf (updateConditional dom st a) ↔
        x ∈ availableTasks dom st.conds) := by
  unfold updateConditional
  split
  · rename_i ht
    have hmem : ∀ x, x ∈ allOf { st with remaining := (newTasks dom st).foldl sadd st.remaining } ↔
        x ∈ allOf st ∨ x ∈ newTasks dom st := by
      intro x
      rw [mem_allOf, mem_allOf]
      simp only [foldl_sadd_mem]
      constructor
      · rintro ((h | h) | h | h | h) <;> simp [h]
      · rintro ((h | h | h | h) | h) <;> simp [h]
    refine ⟨⟨?_, hI.keys, ?_⟩, fun x hx => (hmem x).2 (.inl hx), fun _ x => ?_⟩
    · rw [List.nodup_iff_count]
      intro x
      rw [count_allOf]
      have h1 := nodup_count hI.nodup x
      rw [count_allOf] at h1
      by_cases hx : x ∈ newTasks dom st
      · have hna := ((mem_newTasks hI x).1 hx).2
        have h0 := List.count_eq_zero.2 hna
        rw [count_allOf] at h0
        have hr : x ∉ st.remaining := List.count_eq_zero.1 (by omega)
        have := foldl_sadd_count x hr (newTasks_nodup hd hI)
        have h3 := List.nodup_iff_count.1 (newTasks_nodup hd hI) x
        simp only
        omega
      · have := foldl_sadd_count_old (s := st.remaining) x hx
        simp only
        omega
    · intro x hx
      rcases (hmem x).1 hx with h | h
      · exact hI.avail x h
      · exact ((mem_newTasks hI x).1 h).1
    · rw [hmem, mem_newTasks hI]
      constructor
      · rintro (h | h)
        · exact hI.avail x h
        · exact h.1
      · intro h
        by_cases hx : x ∈ allOf st
        · exact .inl hx
        · exact .inr ⟨h, hx⟩
  · rename_i ht
    exact ⟨hI, fun _ h => h, fun h => absurd h ht⟩

theorem updateTimeSim_ok {dom : Dom} {k : Nat} {st st' : State} {a : Action}
    (h : updateTimeSim dom k st a = .ok st') :
    ∃ st1 c, updateTime dom st a = .ok st1 ∧ st' = { st1 with conds := c } ∧
      ∀ x ∈ st1.conds, x ∈ c := by
  unfold updateTimeSim at h
  unfold updateTime
  split at h
  · rename_i ht
    simp only [bind_eq_ok] at h
    obtain ⟨pr, h1, ⟨uf, us⟩, h2, s, h3, h4⟩ := h
    have h4 := (Except.ok.inj h4).symm
    unfold updateCompleteSim at h3
    simp only [bind_eq_ok] at h3
    obtain ⟨done, _, s', h6, comb, _, h8⟩ := h3
    have h8 := (Except.ok.inj h8).symm
    refine ⟨{ s' with t := s'.t + 1 }, s.conds, ?_, ?_, ?_⟩
    · rw [if_pos ht]
      simp only [bind_eq_ok]
      exact ⟨pr, h1, (uf, us), h2, s', h6, rfl⟩
    · subst h4 h8; rfl
    · subst h4 h8
      intro x hx
      have key : ∀ (l : List (Cond × Rat)) (cs : List Cond), x ∈ cs →
          x ∈ l.foldl (fun cs e => sadd cs e.1) cs := by
        intro l
        induction l with
        | nil => exact fun _ h => h
        | cons e l ih => exact fun cs h => ih _ (mem_sadd.2 (.inl h))
      exact key comb _ hx
  · rename_i ht
    have := Except.ok.inj h
    subst this
    exact ⟨st, st.conds, by rw [if_neg ht], rfl, fun _ h => h⟩

theorem updatePause_conds {dom : Dom} {st st' : State} {a : Action}
    (h : updatePause dom st a = .ok st') : st'.conds = st.conds := by
  rcases updatePause_ok h with ⟨_, rfl⟩ | ⟨_, task, uf, used, info, _, hm, _, _, _, rfl⟩ <;> rfl

theorem updateResume_conds {dom : Dom} {st st' : State} {a : Action}
    (h : updateResume dom st a = .ok st') : st'.conds = st.conds := by
  rcases updateResume_ok h with ⟨_, rfl⟩ | ⟨_, task, info, b, use, _, hm, _, _, hc⟩
  · rfl
  · rcases hc with ⟨_, rfl⟩ | ⟨_, used, _, rfl⟩ <;> rfl

theorem updateStart_conds {dom : Dom} {d : Draw} {st st' : State} {a : Action}
    (h : updateStart dom d st a = .ok st') : st'.conds = st.conds := by
  rcases updateStart_ok h with ⟨_, rfl⟩ | ⟨_, b, use, _, hc⟩
  · rfl
  · rcases hc with ⟨_, rfl⟩ | ⟨_, task, mode, info, used, _, _, hm, _, _, rfl⟩ <;> rfl

theorem updateDummy_conds {st st' : State} {a : Action} (h : updateDummy st a = .ok st') :
    st'.conds = st.conds := by
  rcases updateDummy_ok h with ⟨_, rfl⟩ | ⟨_, task, info, _, _, hc⟩
  · rfl
  · rcases hc with ⟨_, rfl⟩ | ⟨_, hm, _, rfl⟩ <;> rfl

theorem completions_conds {dom : Dom} {done : List TaskId} {st st' : State}
    (h : done.foldlM (completeOne dom) st = .ok st') : st'.conds = st.conds := by
  refine completions_invariant (fun s => s.conds = st.conds) ?_ rfl h
  intro s s' task hs hc
  obtain ⟨uf, used, info, hm, _, _, _, rfl⟩ := completeOne_ok hc
  exact hs

theorem updateTime_conds {dom : Dom} {st st' : State} {a : Action}
    (h : updateTime dom st a = .ok st') : st'.conds = st.conds := by
  rcases updateTime_ok h with ⟨ht, rfl⟩ | ⟨ht, pr, uf, us, st2, _, _, h3, rfl⟩
  · rfl
  · obtain ⟨done, _, h4⟩ := updateComplete_ok h3
    have := completions_conds h4
    rw [this]

theorem SimInv.same {dom : Dom} {st st' : State} (hI : SimInv dom st) (hs : SameTasks st st')
    (hk : ProgKeys st') (hc : st'.conds = st.conds) : SimInv dom st' := by
  refine ⟨hs.nodup hI.nodup, hk, fun x hx => ?_⟩
  rw [hc]
  exact hI.avail x (hs.1.mem_iff.1 hx)

theorem updateAvail_fields (dom : Dom) (d : Draw) (st : State) (a : Action) :
    allOf (updateAvail dom d st a) = allOf st ∧ (updateAvail dom d st a).complete = st.complete ∧
    (updateAvail dom d st a).conds = st.conds ∧ (updateAvail dom d st a).progress = st.progress := by
  unfold updateAvail
  split <;> exact ⟨rfl, rfl, rfl, rfl⟩

theorem simState_inv {dom : Dom} {d : Draw} {k : Nat} {st st' : State} {a : Action}
    (hd : dom.tasks.Nodup) (hI : SimInv dom st) (h : simState dom d k st a = .ok st') :
    SimInv dom st' ∧ (∀ x ∈ allOf st, x ∈ allOf st') ∧ (∀ x ∈ st.complete, x ∈ st'.complete) ∧
    (∀ c ∈ st.conds, c ∈ st'.conds) ∧
    (a.timeProgress = true → ∀ x, x ∈ allOf st' ↔ x ∈ availableTasks dom st.conds) := by
  unfold simState at h
  simp only [bind_eq_ok] at h
  obtain ⟨s1, h1, s2, h2, s3, h3, s4, h4, s5, h5, h6⟩ := h
  have h6 := (Except.ok.inj h6).symm
  have e1 := updatePause_sets hI.nodup h1
  have i1 := hI.same e1 (updatePause_keys hI.keys h1) (updatePause_conds h1)
  have e2 := updateResume_sets i1.nodup h2
  have i2 := i1.same e2 (updateResume_keys i1.keys h2) (updateResume_conds h2)
  have e3 := updateStart_sets i2.nodup h3
  have i3 := i2.same e3 (updateStart_keys i2.keys h3) (updateStart_conds h3)
  have e4 := updateDummy_sets i3.nodup h4
  have i4 := i3.same e4 (updateDummy_keys i3.keys h4) (updateDummy_conds h4)
  have e := ((e1.trans e2).trans e3).trans e4
  have hc4 : s4.conds = st.conds := by
    rw [updateDummy_conds h4, updateStart_conds h3, updateResume_conds h2, updatePause_conds h1]
  obtain ⟨i5, g1, g2⟩ := updateConditional_inv (a := a) hd i4
  have hcc : (updateConditional dom s4 a).conds = s4.conds := by
    unfold updateConditional; split <;> rfl
  have hcom : (updateConditional dom s4 a).complete = s4.complete := by
    unfold updateConditional; split <;> rfl
  obtain ⟨t1, c, k1, k2, k3⟩ := updateTimeSim_ok h5
  have et := updateTime_sets i5.nodup k1
  have it := i5.same et (updateTime_keys i5.nodup i5.keys k1) (updateTime_conds k1)
  have hs5 : allOf s5 = allOf t1 := by rw [k2]; rfl
  obtain ⟨v1, v2, v3, v4⟩ := updateAvail_fields dom d s5 a
  subst h6
  refine ⟨⟨?_, ?_, ?_⟩, ?_, ?_, ?_, ?_⟩
  · rw [v1, hs5]; exact it.nodup
  · intro x
    have s := updateAvail_same dom d s5 a x
    rw [s.progress, s.ong, s.pau, s.com, k2]
    exact it.keys x
  · intro x hx
    rw [v1, hs5] at hx
    rw [v3, k2]
    exact availableTasks_mono k3 (it.avail x hx)
  · intro x hx
    rw [v1, hs5]
    exact et.1.mem_iff.2 (g1 x (e.1.mem_iff.2 hx))
  · intro x hx
    rw [v2, k2]
    refine et.2 ?_
    rw [hcom]
    exact e.2 hx
  · intro x hx
    rw [v3, k2]
    refine k3 x ?_
    rw [updateTime_conds k1, hcc, hc4]
    exact hx
  · intro ht x
    rw [v1, hs5, et.1.mem_iff, g2 ht x, hc4]

theorem initState_inv {dom : Dom} {d : Draw} (hd : dom.tasks.Nodup) : SimInv dom (initState dom d) := by
  refine ⟨initState_nodup hd, initState_keys dom d, fun x hx => ?_⟩
  have : x ∈ unconditional dom := by simpa [allOf, initState] using hx
  exact unconditional_available _ this

theorem simRun_inv {dom : Dom} {l : List (Action × Draw × Nat)} {st st' : State}
    (hd : dom.tasks.Nodup) (hI : SimInv dom st) (h : simRun dom st l = .ok st') :
    SimInv dom st' ∧ (∀ x ∈ allOf st, x ∈ allOf st') ∧ (∀ x ∈ st.complete, x ∈ st'.complete) := by
  induction l generalizing st with
  | nil => cases h; exact ⟨hI, fun _ h => h, fun _ h => h⟩
  | cons p l ih =>
    obtain ⟨a, d, k⟩ := p
    simp only [simRun, bind_eq_ok] at h
    obtain ⟨s, h1, h2⟩ := h
    obtain ⟨g1, g2, g3, _, _⟩ := simState_inv hd hI h1
    obtain ⟨g4, g5, g6⟩ := ih g1 h2
    exact ⟨g4, fun x hx => g5 x (g2 x hx), fun x hx => g6 x (g3 x hx)⟩

end Verif.Sched
