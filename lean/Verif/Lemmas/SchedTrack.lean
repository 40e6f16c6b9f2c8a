import Verif.Lemmas.SchedSets

/-! The clock, and what a step does to the record of one task. -/
namespace Verif.Sched

/-! ### Clock -/

theorem updatePause_t {dom : Dom} {st st' : State} {a : Action}
    (h : updatePause dom st a = .ok st') : st'.t = st.t := by
  rcases updatePause_ok h with ⟨_, rfl⟩ | ⟨_, task, uf, used, info, _, hm, _, _, _, rfl⟩ <;> rfl

theorem updateResume_t {dom : Dom} {st st' : State} {a : Action}
    (h : updateResume dom st a = .ok st') : st'.t = st.t := by
  rcases updateResume_ok h with ⟨_, rfl⟩ | ⟨_, task, info, b, use, _, hm, _, _, hc⟩
  · rfl
  · rcases hc with ⟨_, rfl⟩ | ⟨_, used, _, rfl⟩ <;> rfl

theorem updateStart_t {dom : Dom} {d : Draw} {st st' : State} {a : Action}
    (h : updateStart dom d st a = .ok st') : st'.t = st.t := by
  rcases updateStart_ok h with ⟨_, rfl⟩ | ⟨_, b, use, _, hc⟩
  · rfl
  · rcases hc with ⟨_, rfl⟩ | ⟨_, task, mode, info, used, _, _, hm, _, _, rfl⟩ <;> rfl

theorem updateDummy_t {st st' : State} {a : Action} (h : updateDummy st a = .ok st') :
    st'.t = st.t := by
  rcases updateDummy_ok h with ⟨_, rfl⟩ | ⟨_, task, info, _, _, hc⟩
  · rfl
  · rcases hc with ⟨_, rfl⟩ | ⟨_, hm, _, rfl⟩ <;> rfl

theorem completions_t {dom : Dom} {done : List TaskId} {st st' : State}
    (h : done.foldlM (completeOne dom) st = .ok st') : st'.t = st.t := by
  refine completions_invariant (fun s => s.t = st.t) ?_ rfl h
  intro s s' task hs hc
  obtain ⟨uf, used, info, hm, _, _, _, rfl⟩ := completeOne_ok hc
  exact hs

theorem updateTime_t {dom : Dom} {st st' : State} {a : Action}
    (h : updateTime dom st a = .ok st') : st'.t = st.t + if a.timeProgress then 1 else 0 := by
  rcases updateTime_ok h with ⟨ht, rfl⟩ | ⟨ht, pr, uf, us, st2, _, _, h3, rfl⟩
  · simp [ht]
  · obtain ⟨done, _, h4⟩ := updateComplete_ok h3
    have := completions_t h4
    simp only [ht, if_true]
    rw [this]

theorem nextState_t {dom : Dom} {d : Draw} {st st' : State} {a : Action}
    (h : nextState dom d st a = .ok st') : st'.t = st.t + if a.timeProgress then 1 else 0 := by
  obtain ⟨s1, s2, s3, s4, s5, h1, h2, h3, h4, h5, rfl⟩ := nextState_ok h
  have e5 := updateTime_t h5
  rw [updateDummy_t h4, updateStart_t h3, updateResume_t h2, updatePause_t h1] at e5
  have : (updateAvail dom d s5 a).t = s5.t := by
    unfold updateAvail
    split <;> rfl
  rw [this, e5]

/-! ### The record of one task -/

/-- Everything recorded about task `x` is the same in both states. -/
structure Same (x : TaskId) (st st' : State) : Prop where
  details : st'.details.get? x = st.details.get? x
  progress : st'.progress.get? x = st.progress.get? x
  mode : st'.mode.get? x = st.mode.get? x
  usedFor : st'.usedFor.get? x = st.usedFor.get? x
  rem : x ∈ st'.remaining ↔ x ∈ st.remaining
  ong : x ∈ st'.ongoing ↔ x ∈ st.ongoing
  pau : x ∈ st'.paused ↔ x ∈ st.paused
  com : x ∈ st'.complete ↔ x ∈ st.complete

theorem Same.refl (x : TaskId) (st : State) : Same x st st :=
  ⟨rfl, rfl, rfl, rfl, Iff.rfl, Iff.rfl, Iff.rfl, Iff.rfl⟩

theorem Same.trans {x : TaskId} {a b c : State} (h1 : Same x a b) (h2 : Same x b c) : Same x a c :=
  ⟨h2.1.trans h1.1, h2.2.trans h1.2, h2.3.trans h1.3, h2.4.trans h1.4, h2.5.trans h1.5,
    h2.6.trans h1.6, h2.7.trans h1.7, h2.8.trans h1.8⟩

theorem mem_sadd_ne {s : List TaskId} {x y : TaskId} (h : x ≠ y) : x ∈ sadd s y ↔ x ∈ s := by
  rw [mem_sadd]; simp [h]

theorem mem_erase_ne {s : List TaskId} {x y : TaskId} (h : x ≠ y) : x ∈ s.erase y ↔ x ∈ s :=
  List.mem_erase_of_ne h

theorem updatePause_same {dom : Dom} {st st' : State} {a : Action} {x : TaskId}
    (hx : a.kind = .pause → a.task ≠ some x)
    (h : updatePause dom st a = .ok st') : Same x st st' := by
  rcases updatePause_ok h with ⟨_, rfl⟩ | ⟨hk, task, uf, used, info, ht, hm, _, _, _, rfl⟩
  · exact .refl _ _
  · have hne : x ≠ task := by rintro rfl; exact hx hk ht
    exact ⟨Dict.get?_set_ne _ _ hne, rfl, rfl, Dict.get?_erase_ne _ hne, Iff.rfl, mem_erase_ne hne,
      mem_sadd_ne hne, Iff.rfl⟩

theorem updateResume_same {dom : Dom} {st st' : State} {a : Action} {x : TaskId}
    (hx : a.kind = .resume → a.task ≠ some x ∨ x ∉ st.paused)
    (h : updateResume dom st a = .ok st') : Same x st st' := by
  rcases updateResume_ok h with ⟨_, rfl⟩ | ⟨hk, task, info, b, use, ht, hm, _, _, hc⟩
  · exact .refl _ _
  · have hne : x ≠ task := by
      rintro rfl
      rcases hx hk with h | h
      · exact h ht
      · exact h hm
    rcases hc with ⟨_, rfl⟩ | ⟨_, used, _, rfl⟩
    · exact ⟨Dict.get?_set_ne _ _ hne, rfl, rfl, rfl, Iff.rfl, mem_sadd_ne hne, mem_erase_ne hne, Iff.rfl⟩
    · exact ⟨Dict.get?_set_ne _ _ hne, rfl, rfl, Dict.get?_set_ne _ _ hne, Iff.rfl, mem_sadd_ne hne,
        mem_erase_ne hne, Iff.rfl⟩

theorem updateStart_same {dom : Dom} {d : Draw} {st st' : State} {a : Action} {x : TaskId}
    (hx : a.kind = .start → a.task ≠ some x ∨ x ∉ st.remaining)
    (h : updateStart dom d st a = .ok st') : Same x st st' := by
  rcases updateStart_ok h with ⟨_, rfl⟩ | ⟨hk, b, use, _, hc⟩
  · exact .refl _ _
  · rcases hc with ⟨_, rfl⟩ | ⟨_, task, mode, info, used, ht, _, hm, _, _, rfl⟩
    · exact .refl _ _
    · have hne : x ≠ task := by
        rintro rfl
        rcases hx hk with h | h
        · exact h ht
        · exact h hm
      exact ⟨Dict.get?_set_ne _ _ hne, Dict.get?_set_ne _ _ hne, Dict.get?_set_ne _ _ hne,
        Dict.get?_set_ne _ _ hne, mem_erase_ne hne, mem_sadd_ne hne, Iff.rfl, Iff.rfl⟩

theorem updateDummy_same {st st' : State} {a : Action} {x : TaskId}
    (hx : a.kind = .start → a.task = some x → ∀ info, st.details.get? x = some info →
      info.sampled = some 0 → x ∉ st.ongoing)
    (h : updateDummy st a = .ok st') : Same x st st' := by
  rcases updateDummy_ok h with ⟨_, rfl⟩ | ⟨hk, task, info, ht, hi, hc⟩
  · exact .refl _ _
  · rcases hc with ⟨_, rfl⟩ | ⟨hs, hm, _, rfl⟩
    · exact .refl _ _
    · have hne : x ≠ task := by
        rintro rfl
        exact hx hk ht info hi hs hm
      exact ⟨Dict.get?_set_ne _ _ hne, Dict.get?_set_ne _ _ hne, rfl, Dict.get?_erase_ne _ hne, Iff.rfl,
        mem_erase_ne hne, Iff.rfl, mem_sadd_ne hne⟩

theorem completeOne_same {dom : Dom} {st st' : State} {task x : TaskId} (hne : x ≠ task)
    (h : completeOne dom st task = .ok st') : Same x st st' := by
  obtain ⟨uf, used, info, hm, _, _, _, rfl⟩ := completeOne_ok h
  exact ⟨Dict.get?_set_ne _ _ hne, rfl, rfl, Dict.get?_erase_ne _ hne, Iff.rfl,
        mem_erase_ne hne, Iff.rfl, mem_sadd_ne hne⟩

theorem completions_same {dom : Dom} {done : List TaskId} {st st' : State} {x : TaskId}
    (hx : x ∉ done) (h : done.foldlM (completeOne dom) st = .ok st') : Same x st st' := by
  induction done generalizing st with
  | nil => cases h; exact .refl _ _
  | cons y done ih =>
    rw [List.foldlM_cons] at h
    simp only [bind_eq_ok] at h
    obtain ⟨s, h1, h2⟩ := h
    simp only [List.mem_cons, not_or] at hx
    exact (completeOne_same hx.1 h1).trans (ih hx.2 h2)

theorem finishing_spec {pr : Dict TaskId Rat} {l done : List TaskId}
    (h : finishing pr l = .ok done) :
    (∀ x ∈ l, ∃ p, pr.get? x = some p) ∧
    done = l.filter fun x => decide (threshold ≤ (pr.get? x).getD 0) := by
  induction l generalizing done with
  | nil => simp only [finishing, Except.ok.injEq] at h; subst h; simp
  | cons y l ih =>
    simp only [finishing, bind_eq_ok, Dict.get_ok_iff] at h
    obtain ⟨p, h1, l', h2, h3⟩ := h
    obtain ⟨ih1, ih2⟩ := ih h2
    have h3 := (Except.ok.inj h3).symm
    refine ⟨?_, ?_⟩
    · intro x hx
      rcases List.mem_cons.1 hx with rfl | hx
      · exact ⟨p, h1⟩
      · exact ih1 x hx
    · rw [h3, ih2, List.filter_cons, h1]
      simp

theorem setOnes_get {done : List TaskId} {pr : Dict TaskId Rat} {x : TaskId} :
    (done.foldl (fun d y => Dict.set d y (1 : Rat)) pr).get? x =
      if x ∈ done then some 1 else pr.get? x := by
  induction done generalizing pr with
  | nil => simp
  | cons y done ih =>
    rw [List.foldl_cons, ih, Dict.get?_set]
    by_cases h1 : x ∈ done
    · simp [h1]
    · by_cases h2 : x = y <;> simp [h1, h2]

theorem updateProgress_get {dom : Dom} {st : State} {l : List TaskId} {pr pr' : Dict TaskId Rat}
    (hn : l.Nodup) (h : updateProgress dom st l pr = .ok pr') :
    (∀ x, x ∉ l → pr'.get? x = pr.get? x) ∧
    (∀ x ∈ l, ∃ p mode info, pr.get? x = some p ∧ st.mode.get? x = some mode ∧
      st.details.get? x = some info ∧
      pr'.get? x = some (p + taskProgress dom x mode info.sampled)) := by
  induction l generalizing pr with
  | nil => simp only [updateProgress, Except.ok.injEq] at h; subst h; simp
  | cons y l ih =>
    simp only [updateProgress, bind_eq_ok, Dict.get_ok_iff] at h
    obtain ⟨p, h1, mode, h2, info, h3, h4⟩ := h
    rw [List.nodup_cons] at hn
    obtain ⟨ih1, ih2⟩ := ih hn.2 h4
    refine ⟨?_, ?_⟩
    · intro x hx
      simp only [List.mem_cons, not_or] at hx
      rw [ih1 x hx.2, Dict.get?_set_ne _ _ hx.1]
    · intro x hx
      rcases List.mem_cons.1 hx with rfl | hx'
      · exact ⟨p, mode, info, h1, h2, h3, by rw [ih1 x hn.1, Dict.get?_set_self]⟩
      · have hne : x ≠ y := by rintro rfl; exact hn.1 hx'
        obtain ⟨p', m', i', g1, g2, g3, g4⟩ := ih2 x hx'
        rw [Dict.get?_set_ne _ _ hne] at g1
        exact ⟨p', m', i', g1, g2, g3, g4⟩

/-- Membership and details of a task under the time update. -/
theorem updateTime_record {dom : Dom} {st st' : State} {a : Action} {x : TaskId}
    (hn : (allOf st).Nodup) (ht : a.timeProgress = true) (h : updateTime dom st a = .ok st') :
    (x ∉ st.ongoing → st'.details.get? x = st.details.get? x ∧ st'.progress.get? x = st.progress.get? x ∧
      (x ∈ st'.remaining ↔ x ∈ st.remaining) ∧ x ∉ st'.ongoing ∧ (x ∈ st'.paused ↔ x ∈ st.paused) ∧
      (x ∈ st'.complete ↔ x ∈ st.complete)) ∧
    (x ∈ st.ongoing → ∃ p mode info, st.progress.get? x = some p ∧ st.mode.get? x = some mode ∧
      st.details.get? x = some info ∧ x ∉ st'.remaining ∧ x ∉ st'.paused ∧
      ((p + taskProgress dom x mode info.sampled < threshold ∧ x ∈ st'.ongoing ∧ x ∉ st'.complete ∧
        st'.details.get? x = some info ∧
        st'.progress.get? x = some (p + taskProgress dom x mode info.sampled)) ∨
       (threshold ≤ p + taskProgress dom x mode info.sampled ∧ x ∉ st'.ongoing ∧ x ∈ st'.complete ∧
        st'.details.get? x = some { info with finish := some (st.t + 1) } ∧
        st'.progress.get? x = some 1))) := by
  have hsets := updateTime_sets hn h
  have hn' := hsets.nodup hn
  rcases updateTime_ok h with ⟨hf, _⟩ | ⟨_, pr, uf, us, st2, h1, h2, h3, rfl⟩
  · simp [ht] at hf
  obtain ⟨done, h4, h5⟩ := updateComplete_ok h3
  obtain ⟨hp1, hp2⟩ := finishing_spec h4
  have hon : st.ongoing.Nodup := by
    have := hn; unfold allOf at this
    exact ((List.nodup_append.1 (List.nodup_append.1 this).1).1 |> List.nodup_append.1).2.1
  obtain ⟨hg1, hg2⟩ := updateProgress_get hon h1
  simp only at hp1 hp2 h5
  have hdn : done.Nodup := by rw [hp2]; exact hon.sublist List.filter_sublist
  have hsame : x ∉ done → Same x _ st2 := fun hx => completions_same hx h5
  have hc1 := nodup_count hn x
  rw [count_allOf] at hc1
  constructor
  · intro hx
    have hxd : x ∉ done := by
      rw [hp2]; intro hm; exact hx (List.mem_filter.1 hm).1
    have hs := hsame hxd
    refine ⟨hs.details, ?_, hs.rem, fun h => hx (hs.ong.1 h), hs.pau, hs.com⟩
    show st2.progress.get? x = _
    rw [hs.progress, setOnes_get, if_neg hxd, hg1 x hx]
  · intro hx
    obtain ⟨p, mode, info, g1, g2, g3, g4⟩ := hg2 x hx
    have hcx := List.count_pos_iff.2 hx
    have hr : x ∉ st.remaining := List.count_eq_zero.1 (by omega)
    have hpz : x ∉ st.paused := List.count_eq_zero.1 (by omega)
    have hcz : x ∉ st.complete := List.count_eq_zero.1 (by omega)
    have hfr : st2.remaining = st.remaining ∧ st2.paused = st.paused := by
      refine completions_invariant (fun s => s.remaining = st.remaining ∧ s.paused = st.paused) ?_
        ?_ h5
      rotate_left
      · exact ⟨rfl, rfl⟩
      intro s s' task hs hc
      obtain ⟨uf, used, info, hm, _, _, _, rfl⟩ := completeOne_ok hc
      exact hs
    refine ⟨p, mode, info, g1, g2, g3, by rw [hfr.1]; exact hr, by rw [hfr.2]; exact hpz, ?_⟩
    by_cases hth : threshold ≤ p + taskProgress dom x mode info.sampled
    · right
      have hxd : x ∈ done := by
        rw [hp2, List.mem_filter]
        exact ⟨hx, by simpa [g4] using hth⟩
      refine ⟨hth, ?_⟩
      -- follow the fold until `x` is processed
      have key : ∀ (l : List TaskId) (s s' : State), l.Nodup → x ∈ l →
          l.foldlM (completeOne dom) s = .ok s' → s.t = st.t →
          s.details.get? x = some info → s.progress.get? x = some 1 → s.ongoing.Nodup →
          x ∉ s'.ongoing ∧ x ∈ s'.complete ∧
          s'.details.get? x = some { info with finish := some (st.t + 1) } ∧
          s'.progress.get? x = some 1 := by
        intro l
        induction l with
        | nil => intro s s' _ hm; simp at hm
        | cons y l ih =>
          intro s s' hnd hm hf e1 e2 e3 e4
          rw [List.foldlM_cons] at hf
          simp only [bind_eq_ok] at hf
          obtain ⟨s1, f1, f2⟩ := hf
          rw [List.nodup_cons] at hnd
          by_cases hxy : x = y
          · subst hxy
            have hs := completions_same hnd.1 f2
            obtain ⟨uf, used, info', hm', _, _, hi, rfl⟩ := completeOne_ok f1
            rw [e2] at hi
            cases hi
            refine ⟨?_, ?_, ?_, ?_⟩
            · rw [hs.ong]; exact e4.not_mem_erase
            · rw [hs.com]; exact mem_sadd.2 (.inr rfl)
            · rw [hs.details]
              simp only [completed]
              rw [Dict.get?_set_self, e1]
            · rw [hs.progress]; exact e3
          · have hs := completeOne_same hxy f1
            obtain ⟨uf, used, info', hm', _, _, hi, rfl⟩ := completeOne_ok f1
            refine ih _ s' hnd.2 ?_ f2 e1 (by rw [hs.details]; exact e2) (by rw [hs.progress]; exact e3)
              (e4.erase _)
            rcases List.mem_cons.1 hm with h | h
            · exact absurd h hxy
            · exact h
      have := key done _ st2 hdn hxd h5 rfl g3 (by rw [setOnes_get, if_pos hxd]) hon
      exact this
    · left
      have hxd : x ∉ done := by
        rw [hp2, List.mem_filter]
        rintro ⟨_, hh⟩
        simp [g4] at hh
        exact hth hh
      have hs := hsame hxd
      refine ⟨Rat.not_le.1 hth, hs.ong.2 hx, fun h => hcz (hs.com.1 h), ?_, ?_⟩
      · show st2.details.get? x = _
        rw [hs.details]; exact g3
      · show st2.progress.get? x = _
        rw [hs.progress, setOnes_get, if_neg hxd, g4]

theorem updateAvail_same (dom : Dom) (d : Draw) (st : State) (a : Action) (x : TaskId) :
    Same x st (updateAvail dom d st a) := by
  unfold updateAvail
  split
  · exact ⟨rfl, rfl, rfl, rfl, Iff.rfl, Iff.rfl, Iff.rfl, Iff.rfl⟩
  · exact .refl _ _

end Verif.Sched
