import Verif.Lemmas.SchedReplay
import Verif.Lemmas.SchedTerm

/-! What is left of resources that are not renewable, in proposed runs without preemption. -/
namespace Verif.Sched

theorem time_remaining {dom : Dom} {d : Draw} {st st' : State}
    (h : nextState dom d st timeAction = .ok st') : st'.remaining = st.remaining := by
  obtain ⟨s1, s2, s3, s4, s5, e1, e2, e3, e4, e5, e6⟩ := nextState_ok h
  have q1 : s1 = st := by simpa [updatePause, timeAction, eq_comm] using e1
  subst q1
  have q2 : s2 = s1 := by simpa [updateResume, timeAction, eq_comm] using e2
  subst q2
  have q3 : s3 = s2 := by simpa [updateStart, timeAction, eq_comm] using e3
  subst q3
  have q4 : s4 = s3 := by simpa [updateDummy, timeAction, eq_comm] using e4
  subst q4
  have h6 : st'.remaining = s5.remaining := by
    rw [e6]; unfold updateAvail; split <;> rfl
  rw [h6]
  rcases updateTime_ok e5 with ⟨h, _⟩ | ⟨_, pr, uf, us, st2, _, k2, k3, rfl⟩
  · simp [timeAction] at h
  · obtain ⟨done, _, k4⟩ := updateComplete_ok k3
    show st2.remaining = s4.remaining
    refine completions_invariant (fun s : State => s.remaining = s4.remaining) ?_ ?_ k4
    rotate_left
    · rfl
    intro s s' task hs hc
    obtain ⟨uf, used, info, hm, _, hrel, _, rfl⟩ := completeOne_ok hc
    exact hs

/-- What holds in every state of such a run. -/
structure Tame (dom : Dom) (st : State) : Prop where
  safe : Safe dom st
  nopause : st.paused = []
  cap : Cap False dom st

theorem tame_init {dom : Dom} (hnd : dom.tasks.Nodup) (d0 : Draw) : Tame dom (initState dom d0) :=
  ⟨initState_safe d0 hnd, rfl, initState_cap False dom d0 hnd (fun h => h.elim)⟩

/-- A proposed step: an accepted start that charges its needs, or time. -/
theorem tame_step {dom : Dom} (hw : WellFormed dom) (hC : ConstantModes dom) (hsk : dom.taskSkills = none)
    (hnp : ∀ x, dom.preempt.get? x ≠ some true) {st st' : State} (hI : Tame dom st) {a : Action} {d : Draw}
    {as : List Action} (h1 : actionSpace dom st = .ok as) (h2 : a ∈ as) (h : nextState dom d st a = .ok st') :
    Tame dom st' ∧
    ((∃ x m ms dd, a = startIn x m ∧ x ∈ st.remaining ∧ dom.modes.get? x = some ms ∧ ms.get? m = some (.constant dd) ∧
        (∀ r ∈ dom.resTypes, val dd r ≤ val st.avail r - val st.used r) ∧ st'.avail = st.avail ∧
        (∀ r ∈ dom.resTypes, val st'.used r = val st.used r + val dd r) ∧
        (∀ y, y ∈ st'.remaining ↔ y ∈ st.remaining ∧ y ≠ x) ∧ st'.mode.get? x = some m ∧
        ∀ y, y ≠ x → st'.mode.get? y = st.mode.get? y) ∨
     (a = timeAction ∧ st'.remaining = st.remaining ∧ st'.mode = st.mode ∧
        (∀ r ∈ dom.resTypes, st'.avail.get? r = some (d.avail r)) ∧
        ∀ r, dom.renewable.get? r = some false → val st'.used r = val st.used r)) := by
  constructor
  · obtain ⟨s, e1, e2, e3⟩ := safe_run_noPreempt (l := [(a, d)]) hw hnp hI.safe hI.nopause
      ⟨⟨as, h1, h2⟩, fun _ _ => trivial⟩
    obtain ⟨s', e4, e5⟩ := run_cons_ok.1 e1
    rw [h] at e4; cases e4
    cases e5
    refine ⟨e2, e3, ?_⟩
    obtain ⟨t1, t2⟩ := proposed_tame h1 h2
    exact nextState_cap hC hI.cap t1 t2 (fun h => h.elim) h
  · rcases actionSpace_mem h1 a h2 with ⟨x, m, rfl, g1, _, ⟨ms, g3, g4⟩, g5⟩ | ⟨t, _, g, _⟩ | ⟨t, g, _⟩ | rfl
    · left
      obtain ⟨md, g6⟩ := some_of_isSome ((Dict.get?_isSome_iff_mem_keys ms m).2 g4)
      obtain ⟨dd, rfl⟩ := hw.constant x ms m md g3 g6
      have hacc : Accepted dom st (startIn x m) := checkStart_accepts hsk hI.safe g1 ⟨ms, dd, g3, g6⟩ g5
      obtain ⟨st'', f1, f2, _, _, _, f3, _⟩ := C49_accepted_start_starts dom d st hI.safe.nodup
        (startIn x m) x m rfl rfl rfl rfl g1 hacc
      have hst : st'' = st' := by
        rw [show nextState dom d st (startIn x m) = _ from h] at f1; exact (Except.ok.inj f1).symm
      subst hst
      obtain ⟨k1, k2⟩ := C49_start_charges dom d st st'' (startIn x m) x m ms dd rfl rfl rfl rfl hacc g3 g6 h
      refine ⟨x, m, ms, dd, rfl, g1, g3, g6, ?_, (C13_availability_updated dom d st st'' _ h).2 rfl, ?_, ?_, f3,
        fun y hy => (k2 y hy).mode⟩
      · intro r hr
        obtain ⟨a, u, ms', md, need, j1, j2, j3, j4, j5, j6⟩ := g5 r hr
        rw [g3] at j3; cases j3
        rw [g6] at j4; cases j4
        rw [need_constant] at j5; cases j5
        rw [val_of_get j1, val_of_get j2]
        exact j6
      · intro r hr
        rw [k1 r, if_neg (by exact List.not_mem_nil), if_pos hr]
      · intro y
        by_cases hy : y = x
        · subst hy; simp [f2]
        · rw [(k2 y hy).rem]; simp [hy]
    · exact absurd g (hnp t)
    · rw [hI.nopause] at g; cases g
    · right
      refine ⟨rfl, time_remaining h, time_mode h, ?_, fun r hr => (time_consumed hI.cap h hr).1⟩
      intro r hr
      exact (C13_availability_updated dom d st st' _ h).1 rfl r (List.mem_append_left _ hr)

/-- An invariant of proposed runs. -/
theorem proposed_induct {dom : Dom} (hw : WellFormed dom) (hC : ConstantModes dom) (hsk : dom.taskSkills = none)
    (hnp : ∀ x, dom.preempt.get? x ≠ some true) (I : State → Prop) {P : Draw → Prop}
    (hstep : ∀ st st' a d as, Tame dom st → I st → actionSpace dom st = .ok as → a ∈ as → P d →
      nextState dom d st a = .ok st' → I st') :
    ∀ (l : List (Action × Draw)) (st st' : State), Tame dom st → I st → Proposed dom st l → (∀ p ∈ l, P p.2) →
      run dom st l = .ok st' → Tame dom st' ∧ I st' := by
  intro l
  induction l with
  | nil =>
    intro st st' hT hI _ _ h
    cases h
    exact ⟨hT, hI⟩
  | cons p l ih =>
    obtain ⟨a, d⟩ := p
    rintro st st' hT hI ⟨⟨as, h1, h2⟩, h3⟩ hP h
    obtain ⟨s, e1, e2⟩ := run_cons_ok.1 h
    exact ih s st' (tame_step hw hC hsk hnp hT h1 h2 e1).1
      (hstep st s a d as hT hI h1 h2 (hP (a, d) (by simp)) e1) (h3 s e1) (fun p hp => hP p (by simp [hp])) e2

/-- What has been used of a resource that is not renewable. -/
theorem spent_step {dom : Dom} (hw : WellFormed dom) (hC : ConstantModes dom) (hsk : dom.taskSkills = none)
    (hnp : ∀ x, dom.preempt.get? x ≠ some true) (hnd : dom.tasks.Nodup) {r : Res} (hr : r ∈ dom.resTypes)
    (hren : dom.renewable.get? r = some false) {B : Int} {st st' : State} {a : Action} {d : Draw}
    {as : List Action} (hT : Tame dom st)
    (hI : val st.used r = ((begun dom st).map (declared dom st r)).sum ∧ val st.used r ≤ B ∧ val st.avail r ≤ B)
    (h1 : actionSpace dom st = .ok as) (h2 : a ∈ as) (hd : d.avail r ≤ B) (h : nextState dom d st a = .ok st') :
    val st'.used r = ((begun dom st').map (declared dom st' r)).sum ∧ val st'.used r ≤ B ∧ val st'.avail r ≤ B := by
  obtain ⟨i1, i2, i3⟩ := hI
  rcases (tame_step hw hC hsk hnp hT h1 h2 h).2 with
    ⟨x, m, ms, dd, rfl, g1, g2, g3, g4, g5, g6, g7, g8, g9⟩ | ⟨rfl, g1, g2, g3, g4⟩
  · have hxt := hT.safe.inTasks x (.inl g1)
    have hperm : (begun dom st').Perm (x :: begun dom st) := by
      refine (List.perm_ext_iff_of_nodup (begun_nodup hnd st')
        (List.nodup_cons.2 ⟨by simp [mem_begun, g1], begun_nodup hnd st⟩)).2 fun y => ?_
      rw [List.mem_cons, mem_begun, mem_begun, g7]
      by_cases hy : y = x
      · subst hy; simp [hxt]
      · simp [hy]
    have hx : declared dom st' r x = val dd r := by
      unfold declared
      rw [g8, g2]
      simp only [g3]
      rfl
    have hrest : (begun dom st).map (declared dom st' r) = (begun dom st).map (declared dom st r) := by
      refine List.map_congr_left fun y hy => ?_
      have hne : y ≠ x := by
        rintro rfl
        exact (mem_begun.1 hy).2 g1
      unfold declared
      rw [g9 y hne]
    have := g4 r hr
    refine ⟨?_, by rw [g6 r hr]; omega, by rw [g5]; exact i3⟩
    rw [perm_sum (hperm.map _), List.map_cons, List.sum_cons, g6 r hr, hx, hrest, i1]
    omega
  · have hb : begun dom st' = begun dom st := by unfold begun; rw [g1]
    have hdec : declared dom st' r = declared dom st r := by
      funext y
      unfold declared
      rw [g2]
    rw [hb, hdec, g4 r hren]
    exact ⟨i1, i2, by rw [val_of_get (g3 r hr)]; exact hd⟩

/-- Every task that has been started has one of its modes recorded. -/
theorem recorded_step {dom : Dom} (hw : WellFormed dom) (hC : ConstantModes dom) (hsk : dom.taskSkills = none)
    (hnp : ∀ x, dom.preempt.get? x ≠ some true) {st st' : State} {a : Action} {d : Draw}
    {as : List Action} (hT : Tame dom st)
    (hI : ∀ x ∈ dom.tasks, x ∉ st.remaining → ∃ m, st.mode.get? x = some m ∧ HasMode dom x m)
    (h1 : actionSpace dom st = .ok as) (h2 : a ∈ as) (h : nextState dom d st a = .ok st') :
    ∀ x ∈ dom.tasks, x ∉ st'.remaining → ∃ m, st'.mode.get? x = some m ∧ HasMode dom x m := by
  intro y hy hr
  rcases (tame_step hw hC hsk hnp hT h1 h2 h).2 with
    ⟨x, m, ms, dd, rfl, g1, g2, g3, g4, g5, g6, g7, g8, g9⟩ | ⟨rfl, g1, g2, g3, g4⟩
  · by_cases hxy : y = x
    · subst hxy
      exact ⟨m, g8, ms, dd, g2, g3⟩
    · rw [g9 y hxy]
      exact hI y hy fun h => hr ((g7 y).2 ⟨h, hxy⟩)
  · rw [g2]
    exact hI y hy (by rw [← g1]; exact hr)

end Verif.Sched
