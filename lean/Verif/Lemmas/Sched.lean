import Verif.Model.Sched

/-! Inversion lemmas for the scheduling state updates. -/
namespace Verif

namespace Dict
variable {κ : Type u} {α : Type v} [DecidableEq κ]

theorem get_ok_iff {d : Dict κ α} {k : κ} {v : α} : get d k = .ok v ↔ get? d k = some v := by
  unfold get
  cases get? d k <;> simp

theorem get?_erase_ne (d : Dict κ α) {k k' : κ} (h : k' ≠ k) : get? (erase d k) k' = get? d k' := by
  induction d with
  | nil => rfl
  | cons p d ih =>
    obtain ⟨a, v⟩ := p
    by_cases h1 : a = k
    · subst h1; simp [erase, get?, Ne.symm h]
    · by_cases h2 : a = k'
      · subst h2; simp [erase, get?, h1]
      · simp [erase, get?, h1, h2, ih]

theorem keys_erase (d : Dict κ α) (k : κ) : keys (erase d k) = (keys d).erase k := by
  induction d with
  | nil => rfl
  | cons p d ih =>
    obtain ⟨a, v⟩ := p
    by_cases h1 : a = k
    · subst h1; simp [erase, keys]
    · simp only [erase, h1, if_false, keys, List.map_cons] at ih ⊢
      rw [ih, List.erase_cons_tail (by simpa using h1)]

theorem get?_erase_self {d : Dict κ α} {k : κ} (hn : (keys d).Nodup) : get? (erase d k) k = none := by
  cases h : get? (erase d k) k with
  | none => rfl
  | some v =>
    exfalso
    have := (get?_isSome_iff_mem_keys (erase d k) k).1 (by rw [h]; rfl)
    rw [keys_erase] at this
    exact (List.Nodup.not_mem_erase hn) this

end Dict

namespace Sched

theorem dpop_ok {d d' : Dict TaskId α} {k : TaskId} :
    dpop d k = .ok d' ↔ (∃ v, d.get? k = some v) ∧ d' = d.erase k := by
  unfold dpop
  cases d.get? k <;> simp [eq_comm]

theorem sremove_ok {s s' : List TaskId} {x : TaskId} :
    sremove s x = .ok s' ↔ x ∈ s ∧ s' = s.erase x := by
  unfold sremove
  split <;> simp_all [eq_comm]

theorem dgetO_ok [DecidableEq κ] {d : Dict κ α} {k : Option κ} {v : α} :
    dgetO d k = .ok v ↔ ∃ k', k = some k' ∧ d.get? k' = some v := by
  cases k <;> simp [dgetO, Dict.get_ok_iff]

/-- What `update_pause_tasks` did, when it did not raise. -/
theorem updatePause_ok {dom : Dom} {st st' : State} {a : Action}
    (h : updatePause dom st a = .ok st') :
    (a.kind ≠ .pause ∧ st' = st) ∨
    (a.kind = .pause ∧ ∃ task uf used info, a.task = some task ∧ task ∈ st.ongoing ∧
      st.usedFor.get? task = some uf ∧
      releaseAll (fun r => do if (← isRenewable dom r) then return true else dom.returned.get r)
        st.used uf = .ok used ∧
      st.details.get? task = some info ∧
      st' = { st with
        paused := sadd st.paused task, ongoing := st.ongoing.erase task, used := used
        usedFor := st.usedFor.erase task
        details := st.details.set task { info with paused := info.paused ++ [st.t] } }) := by
  unfold updatePause at h
  split at h
  · rename_i hk
    right
    refine ⟨hk, ?_⟩
    split at h
    · simp at h
    · rename_i task ht
      simp only [bind_eq_ok, sremove_ok, dpop_ok, Dict.get_ok_iff] at h
      obtain ⟨_, ⟨h1, rfl⟩, uf, h2, used, h3, _, ⟨_, rfl⟩, info, h4, h5⟩ := h
      exact ⟨task, uf, used, info, ht, h1, h2, h3, h4, (Except.ok.inj h5).symm⟩
  · rename_i hk
    exact .inl ⟨hk, (Except.ok.inj h).symm⟩

/-- The state after the first half of `update_resume_tasks`. -/
def resumed (st : State) (task : TaskId) (info : Info) : State := { st with
  ongoing := sadd st.ongoing task, paused := st.paused.erase task
  details := st.details.set task { info with resumed := info.resumed ++ [st.t] } }

theorem updateResume_ok {dom : Dom} {st st' : State} {a : Action}
    (h : updateResume dom st a = .ok st') :
    (a.kind ≠ .resume ∧ st' = st) ∨
    (a.kind = .resume ∧ ∃ task info b use, a.task = some task ∧ task ∈ st.paused ∧
      st.details.get? task = some info ∧
      checkStart dom (resumed st task info) a = .ok (b, use) ∧
      ((b = false ∧ st' = resumed st task info) ∨
       (b = true ∧ ∃ used, addAll st.used use = .ok used ∧
        st' = { resumed st task info with used := used, usedFor := st.usedFor.set task use }))) := by
  unfold updateResume at h
  split at h
  · rename_i hk
    right
    refine ⟨hk, ?_⟩
    split at h
    · simp at h
    · rename_i task ht
      simp only [bind_eq_ok, sremove_ok, Dict.get_ok_iff] at h
      obtain ⟨_, _, _, ⟨h1, rfl⟩, info, h2, info1, h3, _, _, ⟨b, use⟩, h4, h5⟩ := h
      refine ⟨task, info, b, use, ht, h1, h2, h4, ?_⟩
      cases b with
      | true =>
        simp only [if_true, bind_eq_ok] at h5
        obtain ⟨used, h5, h6⟩ := h5
        exact .inr ⟨rfl, used, h5, (Except.ok.inj h6).symm⟩
      | false => exact .inl ⟨rfl, (Except.ok.inj h5).symm⟩
  · rename_i hk
    exact .inl ⟨hk, (Except.ok.inj h).symm⟩

/-- The state after a task is started. -/
def started (d : Draw) (st : State) (task : TaskId) (mode : ModeId) (info : Info)
    (use used : Dict Res Int) : State := { st with
  mode := st.mode.set task mode
  ongoing := sadd st.ongoing task, remaining := st.remaining.erase task
  details := st.details.set task { info with start := some st.t, sampled := some d.duration }
  used := used, usedFor := st.usedFor.set task use
  progress := st.progress.set task 0 }

theorem updateStart_ok {dom : Dom} {d : Draw} {st st' : State} {a : Action}
    (h : updateStart dom d st a = .ok st') :
    (a.kind ≠ .start ∧ st' = st) ∨
    (a.kind = .start ∧ ∃ b use, checkStart dom st a = .ok (b, use) ∧
      ((b = false ∧ st' = st) ∨
       (b = true ∧ ∃ task mode info used, a.task = some task ∧ a.mode = some mode ∧
        task ∈ st.remaining ∧ st.details.get? task = some info ∧ addAll st.used use = .ok used ∧
        st' = started d st task mode info use used))) := by
  unfold updateStart at h
  split at h
  · rename_i hk
    right
    refine ⟨hk, ?_⟩
    simp only [bind_eq_ok] at h
    obtain ⟨⟨b, use⟩, h1, h2⟩ := h
    refine ⟨b, use, h1, ?_⟩
    cases b with
    | false => exact .inl ⟨rfl, (Except.ok.inj h2).symm⟩
    | true =>
      simp only [if_true] at h2
      split at h2
      · rename_i task mode ht hm
        simp only [bind_eq_ok, sremove_ok, Dict.get_ok_iff] at h2
        obtain ⟨_, ⟨h3, rfl⟩, info, h4, used, h5, h6⟩ := h2
        exact .inr ⟨rfl, task, mode, info, used, ht, hm, h3, h4, h5, (Except.ok.inj h6).symm⟩
      · simp at h2
  · rename_i hk
    exact .inl ⟨hk, (Except.ok.inj h).symm⟩

/-- The state after a zero-duration task is completed. -/
def dummied (st : State) (task : TaskId) (info : Info) : State := { st with
  complete := sadd st.complete task
  progress := st.progress.set task 1
  ongoing := st.ongoing.erase task
  details := st.details.set task { info with finish := some st.t }
  usedFor := st.usedFor.erase task }

theorem updateDummy_ok {st st' : State} {a : Action} (h : updateDummy st a = .ok st') :
    (a.kind ≠ .start ∧ st' = st) ∨
    (a.kind = .start ∧ ∃ task info, a.task = some task ∧ st.details.get? task = some info ∧
      ((info.sampled ≠ some 0 ∧ st' = st) ∨
       (info.sampled = some 0 ∧ task ∈ st.ongoing ∧ (∃ uf, st.usedFor.get? task = some uf) ∧
        st' = dummied st task info))) := by
  unfold updateDummy at h
  split at h
  · rename_i hk
    right
    refine ⟨hk, ?_⟩
    split at h
    · simp at h
    · rename_i task ht
      simp only [bind_eq_ok, Dict.get_ok_iff] at h
      obtain ⟨info, h1, h2⟩ := h
      refine ⟨task, info, ht, h1, ?_⟩
      split at h2
      · rename_i hs
        simp only [bind_eq_ok, sremove_ok, dpop_ok] at h2
        obtain ⟨_, ⟨h3, rfl⟩, _, ⟨h4, rfl⟩, h5⟩ := h2
        exact .inr ⟨hs, h3, h4, (Except.ok.inj h5).symm⟩
      · rename_i hs
        exact .inl ⟨hs, (Except.ok.inj h2).symm⟩
  · rename_i hk
    exact .inl ⟨hk, (Except.ok.inj h).symm⟩

/-- The state after a task is completed by the passing of time. -/
def completed (st : State) (task : TaskId) (info : Info) (used : Dict Res Int) : State := { st with
  complete := sadd st.complete task, ongoing := st.ongoing.erase task, used := used
  usedFor := st.usedFor.erase task
  details := st.details.set task { info with finish := some (st.t + 1) } }

theorem completeOne_ok {dom : Dom} {st st' : State} {task : TaskId}
    (h : completeOne dom st task = .ok st') :
    ∃ uf used info, task ∈ st.ongoing ∧ st.usedFor.get? task = some uf ∧
      releaseAll (isRenewable dom) st.used uf = .ok used ∧ st.details.get? task = some info ∧
      st' = completed st task info used := by
  unfold completeOne at h
  simp only [bind_eq_ok, sremove_ok, dpop_ok, Dict.get_ok_iff] at h
  obtain ⟨_, ⟨h1, rfl⟩, uf, h2, used, h3, _, ⟨_, rfl⟩, info, h4, h5⟩ := h
  exact ⟨uf, used, info, h1, h2, h3, h4, (Except.ok.inj h5).symm⟩

theorem updateComplete_ok {dom : Dom} {st st' : State} (h : updateComplete dom st = .ok st') :
    ∃ done, finishing st.progress st.ongoing = .ok done ∧
      done.foldlM (completeOne dom)
        { st with progress := done.foldl (fun d x => Dict.set d x 1) st.progress } = .ok st' := by
  unfold updateComplete at h
  simpa only [bind_eq_ok] using h

theorem updateTime_ok {dom : Dom} {st st' : State} {a : Action}
    (h : updateTime dom st a = .ok st') :
    (a.timeProgress = false ∧ st' = st) ∨
    (a.timeProgress = true ∧ ∃ pr usedFor used st2,
      updateProgress dom st st.ongoing st.progress = .ok pr ∧
      updateCons dom { st with progress := pr } st.ongoing (st.usedFor, st.used) = .ok (usedFor, used) ∧
      updateComplete dom { st with progress := pr, usedFor := usedFor, used := used } = .ok st2 ∧
      st' = { st2 with t := st2.t + 1 }) := by
  unfold updateTime at h
  split at h
  · rename_i hk
    simp only [bind_eq_ok] at h
    obtain ⟨pr, h1, ⟨usedFor, used⟩, h2, st2, h3, h4⟩ := h
    exact .inr ⟨hk, pr, usedFor, used, st2, h1, h2, h3, (Except.ok.inj h4).symm⟩
  · rename_i hk
    exact .inl ⟨by simpa using hk, (Except.ok.inj h).symm⟩

theorem nextState_ok {dom : Dom} {d : Draw} {st st' : State} {a : Action}
    (h : nextState dom d st a = .ok st') : ∃ s1 s2 s3 s4 s5,
      updatePause dom st a = .ok s1 ∧ updateResume dom s1 a = .ok s2 ∧
      updateStart dom d s2 a = .ok s3 ∧ updateDummy s3 a = .ok s4 ∧
      updateTime dom s4 a = .ok s5 ∧ st' = updateAvail dom d s5 a := by
  unfold nextState at h
  simp only [bind_eq_ok] at h
  obtain ⟨s1, h1, s2, h2, s3, h3, s4, h4, s5, h5, h6⟩ := h
  exact ⟨s1, s2, s3, s4, s5, h1, h2, h3, h4, h5, (Except.ok.inj h6).symm⟩

/-- An invariant kept by each of the updates is kept by a step. -/
theorem nextState_invariant {dom : Dom} {d : Draw} {a : Action} (I : State → Prop)
    (hp : ∀ st st', I st → updatePause dom st a = .ok st' → I st')
    (hr : ∀ st st', I st → updateResume dom st a = .ok st' → I st')
    (hs : ∀ st st', I st → updateStart dom d st a = .ok st' → I st')
    (hd : ∀ st st', I st → updateDummy st a = .ok st' → I st')
    (ht : ∀ st st', I st → updateTime dom st a = .ok st' → I st')
    (ha : ∀ st, I st → I (updateAvail dom d st a))
    {st st' : State} (h0 : I st) (h : nextState dom d st a = .ok st') : I st' := by
  obtain ⟨s1, s2, s3, s4, s5, h1, h2, h3, h4, h5, rfl⟩ := nextState_ok h
  exact ha _ (ht _ _ (hd _ _ (hs _ _ (hr _ _ (hp _ _ h0 h1) h2) h3) h4) h5)

/-- Same for the completion part of the time update. -/
theorem completions_invariant {dom : Dom} (I : State → Prop)
    (hc : ∀ st st' task, I st → completeOne dom st task = .ok st' → I st')
    {done : List TaskId} {st st' : State} (h0 : I st)
    (h : done.foldlM (completeOne dom) st = .ok st') : I st' := by
  induction done generalizing st with
  | nil => cases h; exact h0
  | cons x done ih =>
    rw [List.foldlM_cons] at h
    simp only [bind_eq_ok] at h
    obtain ⟨s, h1, h2⟩ := h
    exact ih (hc _ _ _ h0 h1) h2

end Sched
end Verif
