import Verif.Lemmas.Sched

/-! The four task sets along a step. -/
namespace Verif.Sched

/-- All tasks of the four sets. -/
def allOf (st : State) : List TaskId := st.remaining ++ st.ongoing ++ st.paused ++ st.complete

theorem mem_sadd {s : List TaskId} {x y : TaskId} : y ∈ sadd s x ↔ y ∈ s ∨ y = x := by
  unfold sadd
  split
  · constructor
    · exact .inl
    · rintro (h | rfl) <;> assumption
  · simp

theorem count_sadd {s : List TaskId} {x : TaskId} (h : x ∉ s) (y : TaskId) :
    (sadd s x).count y = s.count y + if x = y then 1 else 0 := by
  simp [sadd, h, List.count_append, List.count_singleton]

theorem count_erase' {s : List TaskId} {x : TaskId} (h : x ∈ s) (y : TaskId) :
    (s.erase x).count y + (if x = y then 1 else 0) = s.count y := by
  rw [List.count_erase]
  by_cases hxy : x = y
  · subst hxy
    have := List.count_pos_iff.2 h
    simp; omega
  · simp [hxy]

theorem count_allOf (st : State) (y : TaskId) : (allOf st).count y =
    st.remaining.count y + st.ongoing.count y + st.paused.count y + st.complete.count y := by
  simp [allOf, List.count_append]; omega

theorem nodup_count {l : List TaskId} (h : l.Nodup) (x : TaskId) : l.count x ≤ 1 :=
  List.nodup_iff_count.1 h x

/-- The sets of `st'` hold the same tasks as those of `st`, and completed tasks stay so. -/
def SameTasks (st st' : State) : Prop := (allOf st').Perm (allOf st) ∧ st.complete ⊆ st'.complete

theorem SameTasks.refl (st : State) : SameTasks st st := ⟨List.Perm.refl _, fun _ h => h⟩

theorem SameTasks.trans {a b c : State} (h1 : SameTasks a b) (h2 : SameTasks b c) : SameTasks a c :=
  ⟨h2.1.trans h1.1, fun _ h => h2.2 (h1.2 h)⟩

theorem SameTasks.nodup {st st' : State} (h : SameTasks st st') (hn : (allOf st).Nodup) :
    (allOf st').Nodup := h.1.nodup_iff.2 hn

private theorem notMem_of_count {l : List TaskId} {x : TaskId} (h : l.count x = 0) : x ∉ l :=
  List.count_eq_zero.1 h

theorem updatePause_sets {dom : Dom} {st st' : State} {a : Action} (hn : (allOf st).Nodup)
    (h : updatePause dom st a = .ok st') : SameTasks st st' := by
  rcases updatePause_ok h with ⟨_, rfl⟩ | ⟨_, task, uf, used, info, _, hm, _, _, _, rfl⟩
  · exact .refl _
  · have h1 := nodup_count hn task
    rw [count_allOf] at h1
    have h2 := List.count_pos_iff.2 hm
    have h3 : task ∉ st.paused := notMem_of_count (by omega)
    refine ⟨?_, fun _ h => h⟩
    rw [List.perm_iff_count]
    intro y
    rw [count_allOf, count_allOf]
    have := count_erase' hm y
    have := count_sadd h3 y
    simp only at *
    omega

theorem resumed_sets {st : State} {task : TaskId} (info : Info) (hn : (allOf st).Nodup)
    (hm : task ∈ st.paused) : SameTasks st (resumed st task info) := by
  have h1 := nodup_count hn task
  rw [count_allOf] at h1
  have h2 := List.count_pos_iff.2 hm
  have h3 : task ∉ st.ongoing := notMem_of_count (by omega)
  refine ⟨?_, fun _ h => h⟩
  rw [List.perm_iff_count]
  intro y
  rw [count_allOf, count_allOf]
  have := count_erase' hm y
  have := count_sadd h3 y
  simp only [resumed] at *
  omega

theorem updateResume_sets {dom : Dom} {st st' : State} {a : Action} (hn : (allOf st).Nodup)
    (h : updateResume dom st a = .ok st') : SameTasks st st' := by
  rcases updateResume_ok h with ⟨_, rfl⟩ | ⟨_, task, info, b, use, _, hm, _, _, hc⟩
  · exact .refl _
  · have := resumed_sets info hn hm
    rcases hc with ⟨_, rfl⟩ | ⟨_, used, _, rfl⟩
    · exact this
    · exact this

theorem updateStart_sets {dom : Dom} {d : Draw} {st st' : State} {a : Action} (hn : (allOf st).Nodup)
    (h : updateStart dom d st a = .ok st') : SameTasks st st' := by
  rcases updateStart_ok h with ⟨_, rfl⟩ | ⟨_, b, use, _, hc⟩
  · exact .refl _
  · rcases hc with ⟨_, rfl⟩ | ⟨_, task, mode, info, used, _, _, hm, _, _, rfl⟩
    · exact .refl _
    · have h1 := nodup_count hn task
      rw [count_allOf] at h1
      have h2 := List.count_pos_iff.2 hm
      have h3 : task ∉ st.ongoing := notMem_of_count (by omega)
      refine ⟨?_, fun _ h => h⟩
      rw [List.perm_iff_count]
      intro y
      rw [count_allOf, count_allOf]
      have := count_erase' hm y
      have := count_sadd h3 y
      simp only [started] at *
      omega

theorem dummied_sets {st : State} {task : TaskId} (info : Info) (hn : (allOf st).Nodup)
    (hm : task ∈ st.ongoing) : SameTasks st (dummied st task info) := by
  have h1 := nodup_count hn task
  rw [count_allOf] at h1
  have h2 := List.count_pos_iff.2 hm
  have h3 : task ∉ st.complete := notMem_of_count (by omega)
  refine ⟨?_, fun _ h => mem_sadd.2 (.inl h)⟩
  rw [List.perm_iff_count]
  intro y
  rw [count_allOf, count_allOf]
  have := count_erase' hm y
  have := count_sadd h3 y
  simp only [dummied] at *
  omega

theorem updateDummy_sets {st st' : State} {a : Action} (hn : (allOf st).Nodup)
    (h : updateDummy st a = .ok st') : SameTasks st st' := by
  rcases updateDummy_ok h with ⟨_, rfl⟩ | ⟨_, task, info, _, _, hc⟩
  · exact .refl _
  · rcases hc with ⟨_, rfl⟩ | ⟨_, hm, _, rfl⟩
    · exact .refl _
    · exact dummied_sets info hn hm

theorem completeOne_sets {dom : Dom} {st st' : State} {task : TaskId} (hn : (allOf st).Nodup)
    (h : completeOne dom st task = .ok st') : SameTasks st st' := by
  obtain ⟨uf, used, info, hm, _, _, _, rfl⟩ := completeOne_ok h
  exact dummied_sets info hn hm

theorem completions_sets {dom : Dom} {done : List TaskId} {st st' : State} (hn : (allOf st).Nodup)
    (h : done.foldlM (completeOne dom) st = .ok st') : SameTasks st st' := by
  refine completions_invariant (fun s => SameTasks st s) ?_ (.refl _) h
  intro s s' task hs hc
  exact hs.trans (completeOne_sets (hs.nodup hn) hc)

theorem updateComplete_sets {dom : Dom} {st st' : State} (hn : (allOf st).Nodup)
    (h : updateComplete dom st = .ok st') : SameTasks st st' := by
  obtain ⟨done, _, h2⟩ := updateComplete_ok h
  have := completions_sets (by exact hn) h2
  exact this

theorem updateTime_sets {dom : Dom} {st st' : State} {a : Action} (hn : (allOf st).Nodup)
    (h : updateTime dom st a = .ok st') : SameTasks st st' := by
  rcases updateTime_ok h with ⟨_, rfl⟩ | ⟨_, pr, uf, us, st2, _, _, h3, rfl⟩
  · exact .refl _
  · have := updateComplete_sets (by exact hn) h3
    exact this

theorem updateAvail_sets (dom : Dom) (d : Draw) (st : State) (a : Action) :
    SameTasks st (updateAvail dom d st a) := by
  unfold updateAvail
  split <;> exact .refl _

theorem nextState_sets {dom : Dom} {d : Draw} {st st' : State} {a : Action} (hn : (allOf st).Nodup)
    (h : nextState dom d st a = .ok st') : SameTasks st st' := by
  refine nextState_invariant (fun s => SameTasks st s) ?_ ?_ ?_ ?_ ?_ ?_ (.refl _) h
  · exact fun s s' hs hc => hs.trans (updatePause_sets (hs.nodup hn) hc)
  · exact fun s s' hs hc => hs.trans (updateResume_sets (hs.nodup hn) hc)
  · exact fun s s' hs hc => hs.trans (updateStart_sets (hs.nodup hn) hc)
  · exact fun s s' hs hc => hs.trans (updateDummy_sets (hs.nodup hn) hc)
  · exact fun s s' hs hc => hs.trans (updateTime_sets (hs.nodup hn) hc)
  · exact fun s hs => hs.trans (updateAvail_sets _ _ _ _)

theorem run_cons_ok {dom : Dom} {st st' : State} {a : Action} {d : Draw} {l : List (Action × Draw)} :
    run dom st ((a, d) :: l) = .ok st' ↔ ∃ s, nextState dom d st a = .ok s ∧ run dom s l = .ok st' := by
  simp only [run, bind_eq_ok]

theorem run_append {dom : Dom} {st st' : State} {l l' : List (Action × Draw)} :
    run dom st (l ++ l') = .ok st' ↔ ∃ s, run dom st l = .ok s ∧ run dom s l' = .ok st' := by
  induction l generalizing st with
  | nil => simp [run]
  | cons x l ih =>
    obtain ⟨a, d⟩ := x
    simp only [List.cons_append, run_cons_ok, ih]
    constructor
    · rintro ⟨s, h1, s2, h2, h3⟩; exact ⟨s2, ⟨s, h1, h2⟩, h3⟩
    · rintro ⟨s2, ⟨s, h1, h2⟩, h3⟩; exact ⟨s, h1, s2, h2, h3⟩

theorem run_sets {dom : Dom} {st st' : State} {l : List (Action × Draw)} (hn : (allOf st).Nodup)
    (h : run dom st l = .ok st') : SameTasks st st' := by
  induction l generalizing st with
  | nil => cases h; exact .refl _
  | cons x l ih =>
    obtain ⟨a, d⟩ := x
    obtain ⟨s, h1, h2⟩ := run_cons_ok.1 h
    have := nextState_sets hn h1
    exact this.trans (ih (this.nodup hn) h2)

theorem unconditional_nodup {dom : Dom} (h : dom.tasks.Nodup) : (unconditional dom).Nodup :=
  h.sublist List.filter_sublist

theorem initState_nodup {dom : Dom} {d : Draw} (h : dom.tasks.Nodup) :
    (allOf (initState dom d)).Nodup := by
  simpa [allOf, initState] using unconditional_nodup h

end Verif.Sched
