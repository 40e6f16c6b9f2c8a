import Verif.Lemmas.SchedSafe
import Verif.Lemmas.SchedSim
import Verif.Props.Sched

/-! Progress of the scheduling domain: eager play completes all tasks. -/
namespace Verif.Sched

theorem addAll_nodup {l d d' : Dict Res Int} (h : addAll d l = .ok d') (hn : d.keys.Nodup) :
    d'.keys.Nodup := by
  induction l generalizing d with
  | nil => cases h; exact hn
  | cons p l ih =>
    obtain ⟨r, n⟩ := p
    simp only [addAll, bind_eq_ok] at h
    obtain ⟨u, _, h⟩ := h
    exact ih h (Dict.nodup_keys_set _ _ hn)

theorem releaseAll_nodup {back : Res → Except PyErr Bool} {l d d' : Dict Res Int}
    (h : releaseAll back d l = .ok d') (hn : d.keys.Nodup) : d'.keys.Nodup := by
  induction l generalizing d with
  | nil => cases h; exact hn
  | cons p l ih =>
    obtain ⟨r, n⟩ := p
    simp only [releaseAll, bind_eq_ok] at h
    obtain ⟨b, _, h⟩ := h
    cases b with
    | true =>
      simp only [if_true, bind_eq_ok] at h
      obtain ⟨u, _, h⟩ := h
      exact ih h (Dict.nodup_keys_set _ _ hn)
    | false =>
      simp only [Bool.false_eq_true, if_false] at h
      exact ih h hn

theorem replaceUse_nodup {use uf uf' us us' : Dict Res Int}
    (h : replaceUse use (uf, us) = .ok (uf', us')) (hn : us.keys.Nodup) : us'.keys.Nodup := by
  induction use generalizing uf us with
  | nil => cases h; exact hn
  | cons p use ih =>
    obtain ⟨r, n⟩ := p
    simp only [replaceUse, bind_eq_ok] at h
    obtain ⟨v, _, u, _, h⟩ := h
    exact ih h (Dict.nodup_keys_set _ _ hn)

theorem updateCons_nodup {dom : Dom} {st : State} {l : List TaskId}
    {uf uf' : Dict TaskId (Dict Res Int)} {us us' : Dict Res Int}
    (h : updateCons dom st l (uf, us) = .ok (uf', us')) (hn : us.keys.Nodup) : us'.keys.Nodup := by
  induction l generalizing uf us with
  | nil => cases h; exact hn
  | cons x l ih =>
    simp only [updateCons, bind_eq_ok] at h
    obtain ⟨mode, _, info, _, time, _, use, _, h⟩ := h
    split at h
    · exact ih h hn
    · simp only [bind_eq_ok] at h
      obtain ⟨v, _, ⟨uf1, us1⟩, h7, h8⟩ := h
      exact ih h8 (replaceUse_nodup h7 hn)

theorem nextState_usedNodup {dom : Dom} {d : Draw} {st st' : State} {a : Action}
    (hI : st.used.keys.Nodup) (h : nextState dom d st a = .ok st') : st'.used.keys.Nodup := by
  refine nextState_invariant (I := fun st => st.used.keys.Nodup) ?_ ?_ ?_ ?_ ?_ ?_ hI h
  · intro st st' hI h
    rcases updatePause_ok h with ⟨_, rfl⟩ | ⟨_, task, uf, used, info, _, _, hu, hrel, _, rfl⟩
    · exact hI
    · exact releaseAll_nodup hrel hI
  · intro st st' hI h
    rcases updateResume_ok h with ⟨_, rfl⟩ | ⟨hk, task, info, b, use, ht, _, hi, hch, hc⟩
    · exact hI
    · rcases hc with ⟨rfl, rfl⟩ | ⟨rfl, used, ha, rfl⟩
      · exact hI
      · exact addAll_nodup ha hI
  · intro st st' hI h
    rcases updateStart_ok h with ⟨_, rfl⟩ | ⟨hk, b, use, hch, hc⟩
    · exact hI
    · rcases hc with ⟨_, rfl⟩ | ⟨rfl, task, mode, info, used, hta, hmo, _, _, ha, rfl⟩
      · exact hI
      · exact addAll_nodup ha hI
  · intro st st' hI h
    rcases updateDummy_ok h with ⟨_, rfl⟩ | ⟨_, task, info, _, _, hc⟩
    · exact hI
    · rcases hc with ⟨_, rfl⟩ | ⟨_, hm, ⟨uf, hu⟩, rfl⟩ <;> exact hI
  · intro st st' hI h
    rcases updateTime_ok h with ⟨ht, rfl⟩ | ⟨ht, pr, uf, us, st2, _, k2, k3, rfl⟩
    · exact hI
    · obtain ⟨done, _, k4⟩ := updateComplete_ok k3
      have h0 : (fun s : State => s.used.keys.Nodup) { st with
          progress := done.foldl (fun d x => Dict.set d x (1 : Rat)) pr, usedFor := uf, used := us } :=
        updateCons_nodup k2 hI
      have := completions_invariant (fun s : State => s.used.keys.Nodup) (dom := dom) (st' := st2) (by
          intro s s' task hs hc
          obtain ⟨uf, used, info, hm, _, hrel, _, rfl⟩ := completeOne_ok hc
          exact releaseAll_nodup hrel hs) h0 k4
      exact this
  · intro st hI
    unfold updateAvail
    split <;> exact hI

theorem nextState_conds {dom : Dom} {d : Draw} {st st' : State} {a : Action}
    (h : nextState dom d st a = .ok st') : st'.conds = st.conds := by
  obtain ⟨s1, s2, s3, s4, s5, h1, h2, h3, h4, h5, rfl⟩ := nextState_ok h
  have : (updateAvail dom d s5 a).conds = s5.conds := by unfold updateAvail; split <;> rfl
  rw [this, updateTime_conds h5, updateDummy_conds h4, updateStart_conds h3, updateResume_conds h2,
    updatePause_conds h1]

theorem lacking_enough {st : State} {l : Dict Res Int}
    (h : ∀ r n, (r, n) ∈ l → ∃ a u, st.avail.get? r = some a ∧ st.used.get? r = some u ∧ n ≤ a - u) :
    lacking st l = .ok false := by
  induction l with
  | nil => rfl
  | cons p l ih =>
    obtain ⟨r, n⟩ := p
    obtain ⟨a, u, h1, h2, h3⟩ := h r n (by simp)
    simp only [lacking, Dict.get_ok_iff.2 h1, Dict.get_ok_iff.2 h2, bind_ok]
    rw [if_neg (by omega)]
    exact ih fun r n hm => h r n (by simp [hm])

/-- A proposed start passes the check, when there are no skills. -/
theorem checkStart_accepts {dom : Dom} (hsk : dom.taskSkills = none) {st : State}
    (hS : Safe dom st) {x : TaskId} {m : ModeId} (hx : x ∈ st.remaining) (hm : HasMode dom x m)
    (he : Enough dom st x m) :
    ∃ use, checkStart dom st ⟨some x, .start, some m, false, none⟩ = .ok (true, use) := by
  obtain ⟨info, hi⟩ := hS.details x (hS.inTasks x (.inl hx))
  obtain ⟨hi1, _, _⟩ := hS.rem x hx info hi
  obtain ⟨time, h1⟩ := activeTime_def (t := st.t) (.inl hi1)
  obtain ⟨use, h2, h3⟩ := resourceUsed_def (units := none) hm rfl time
  obtain ⟨k1, _, k3, _⟩ := resourceUsed_ok h2
  have h4 : lacking st use = .ok false := lacking_enough fun r n hmem => by
    have hg := Dict.get?_of_mem k1 hmem
    have hr := (h3 r).1 (by rw [hg]; rfl)
    obtain ⟨ms', m', md', n', g1, g2, g3, g4, g5⟩ := k3 r hr (by simp)
    cases g1
    obtain ⟨a, u, ms, md, need, e1, e2, e3, e4, e5, e6⟩ := he r hr
    rw [g2] at e3; cases e3
    rw [g3] at e4; cases e4
    rw [hg] at g5; cases g5
    obtain ⟨ms, dd, f1, f2⟩ := hm
    rw [g2] at f1; cases f1
    rw [g3] at f2; cases f2
    rw [need_constant] at g4 e5
    cases g4; cases e5
    exact ⟨a, u, e1, e2, e6⟩
  refine ⟨use, ?_⟩
  unfold checkStart
  rw [if_pos (.inl rfl)]
  simp only [dgetO, Dict.get_ok_iff.2 hi, bind_ok, h1, h2, h4, skillsOk, hsk, Bool.false_eq_true, if_false]
  rfl

/-- Every task has a mode that fits the amounts available, which are not negative. -/
def Roomy (dom : Dom) (avail : Res → Int) : Prop :=
  (∀ r ∈ dom.resTypes ++ dom.resUnits, 0 ≤ avail r) ∧
  ∀ x ∈ dom.tasks, ∃ m ms dd, dom.modes.get? x = some ms ∧ ms.get? m = some (.constant dd) ∧
    ∀ r ∈ dom.resTypes, val dd r ≤ avail r

structure Live (dom : Dom) (D : Int) (st : State) : Prop where
  safe : Safe dom st
  acc : Acc dom st
  nz : NoZero st
  un : st.used.keys.Nodup
  conds : st.conds = []
  nopause : st.paused = []
  phases : ∀ x ∈ st.ongoing, ∃ t0 d, 1 ≤ d ∧ d ≤ D ∧ t0 ≤ st.t ∧ Phase x t0 d st
  all : ∀ x, x ∈ allOf st ↔ x ∈ unconditional dom
  avail : ∃ f, Roomy dom f ∧ ∀ r ∈ dom.resTypes ++ dom.resUnits, st.avail.get? r = some (f r)

/-- What makes the domain progress: nothing is preemptive, there are no skills, all resources
are renewable and precedence has no cycle. -/
structure Simple (dom : Dom) : Prop where
  noPreempt : ∀ x, dom.preempt.get? x ≠ some true
  noSkills : dom.taskSkills = none
  renewable : ∀ r ∈ dom.resTypes ++ dom.resUnits, dom.renewable.get? r = some true
  acyclic : ∃ rank : TaskId → Nat, ∀ x ∈ dom.tasks, ∀ p ∈ dom.preds x, rank p < rank x

theorem updateAvail_get (dom : Dom) (d : Draw) (st : State) (r : Res)
    (hr : r ∈ dom.resTypes ++ dom.resUnits) :
    (updateAvail dom d st timeAction).avail.get? r = some (d.avail r) := by
  unfold updateAvail
  simp only [timeAction, if_true]
  rw [initAvail_get, if_pos]
  rw [List.mem_append] at hr ⊢
  exact hr.symm

/-- A proposed start in a live state: the task leaves the remaining ones. -/
theorem live_start {dom : Dom} {D : Int} (hw : WellFormed dom) (hsk : dom.taskSkills = none) {st : State}
    (hL : Live dom D st) (d : Draw) {x : TaskId} {m : ModeId} (hx : x ∈ st.remaining)
    (hm : HasMode dom x m) (he : Enough dom st x m) (hd : 0 ≤ d.duration ∧ d.duration ≤ D)
    (hz : ZeroFree dom ⟨some x, .start, some m, false, none⟩ d) :
    ∃ st', nextState dom d st ⟨some x, .start, some m, false, none⟩ = .ok st' ∧ Live dom D st' ∧
      st'.remaining.length + 1 = st.remaining.length ∧ st'.t = st.t ∧
      (∀ y ∈ st'.ongoing, y ∈ st.ongoing ∨ Phase y st.t d.duration st' ∧ 1 ≤ d.duration) := by
  obtain ⟨st', h1, h2⟩ := safe_start hw hL.safe d hx hm
  obtain ⟨use, hch⟩ := checkStart_accepts hsk hL.safe hx hm he
  obtain ⟨s1, s2, s3, s4, s5, e1, e2, e3, e4, e5, e6⟩ := nextState_ok h1
  have q1 : s1 = st := by simpa [updatePause, eq_comm] using e1
  subst q1
  have q2 : s2 = s1 := by simpa [updateResume, eq_comm] using e2
  subst q2
  have q5 : s5 = s4 := by simpa [updateTime, eq_comm] using e5
  subst q5
  have q6 : st' = s5 := by rw [e6]; simp [updateAvail]
  subst q6
  obtain ⟨info, used, q3⟩ : ∃ info used, s3 = started d s2 x m info use used := by
    rcases updateStart_ok e3 with ⟨h, _⟩ | ⟨_, b, use', hch', hc⟩
    · exact absurd rfl h
    · rw [hch] at hch'; cases hch'
      rcases hc with ⟨h, _⟩ | ⟨_, task, mode, info, used, a1, a2, _, _, _, a3⟩
      · cases h
      · cases a1; cases a2; exact ⟨info, used, a3⟩
  obtain ⟨nr, no, np⟩ := parts_nodup hL.safe.nodup
  have hrem : st'.remaining = s2.remaining.erase x ∧ st'.paused = s2.paused ∧ st'.avail = s2.avail ∧
      ∀ y ∈ st'.ongoing, y = x ∨ y ∈ s2.ongoing := by
    rcases updateDummy_ok e4 with ⟨h, _⟩ | ⟨_, task, i, a1, _, hc⟩
    · exact absurd rfl h
    · cases a1
      rcases hc with ⟨_, rfl⟩ | ⟨_, _, _, rfl⟩
      · rw [q3]
        exact ⟨rfl, rfl, rfl, fun y hy => (mem_sadd.1 hy).symm⟩
      · rw [q3]
        exact ⟨rfl, rfl, rfl, fun y hy => (mem_sadd.1 (List.mem_of_mem_erase hy)).symm⟩
  obtain ⟨r1, r2, r3, r4⟩ := hrem
  have hxr : x ∉ st'.remaining := by rw [r1]; exact List.Nodup.not_mem_erase nr
  have ht : st'.t = s2.t := by
    have := nextState_t h1
    simpa using this
  have hopen : ∀ y ∈ st'.ongoing, y ∈ s2.ongoing ∨ Phase y s2.t d.duration st' ∧ 1 ≤ d.duration := by
    intro y hy
    rcases r4 y hy with rfl | hy'
    · by_cases h0 : d.duration = 0
      · exfalso
        rcases updateDummy_ok e4 with ⟨h, _⟩ | ⟨_, task, i, a1, a2, hc⟩
        · exact absurd rfl h
        · cases a1
          have hi : s3.details.get? y =
              some { info with start := some s2.t, sampled := some d.duration } := by
            rw [q3]; exact Dict.get?_set_self ..
          rw [hi] at a2; cases a2
          rcases hc with ⟨h, _⟩ | ⟨_, _, _, rfl⟩
          · simp [h0] at h
          · have h3 : s3.ongoing.Nodup := by
              have := (updateStart_sets hL.safe.nodup e3).nodup hL.safe.nodup
              exact (parts_nodup this).2.1
            exact List.Nodup.not_mem_erase h3 hy
      · right
        have h1' : 1 ≤ d.duration := by omega
        exact ⟨nextState_opens hL.safe.nodup h1' rfl rfl hx hxr h1, h1'⟩
    · exact .inl hy'
  obtain ⟨a1, a2⟩ := nextState_acc hL.acc hL.nz hz h1
  refine ⟨st', h1, ⟨h2, a1, a2, nextState_usedNodup hL.un h1, by rw [nextState_conds h1, hL.conds],
    by rw [r2, hL.nopause], ?_, ?_, ?_⟩, ?_, ht, hopen⟩
  · intro y hy
    rcases hopen y hy with hy' | ⟨hP, h1'⟩
    · obtain ⟨t0, dd, b1, b2, b3, b4⟩ := hL.phases y hy'
      exact ⟨t0, dd, b1, b2, by omega, nextState_phase hL.safe.nodup b1 b4 (by simp) h1⟩
    · exact ⟨_, _, h1', hd.2, by omega, hP⟩
  · intro y
    rw [(nextState_sets hL.safe.nodup h1).1.mem_iff]
    exact hL.all y
  · rw [r3]; exact hL.avail
  · rw [r1, List.length_erase_of_mem hx]
    have := List.length_pos_of_mem hx
    omega

/-- Time progress in a live state. -/
theorem live_time {dom : Dom} {D : Int} (hw : WellFormed dom) {st : State}
    (hL : Live dom D st) (d : Draw) (hr : Roomy dom d.avail) :
    ∃ st', nextState dom d st timeAction = .ok st' ∧ Live dom D st' ∧
      st'.remaining.length = st.remaining.length ∧ st'.t = st.t + 1 ∧
      (∀ y ∈ st'.ongoing, y ∈ st.ongoing) := by
  obtain ⟨st', h1, h2⟩ := safe_time hw hL.safe d
  obtain ⟨s1, s2, s3, s4, s5, e1, e2, e3, e4, e5, e6⟩ := nextState_ok h1
  have q1 : s1 = st := by simpa [updatePause, timeAction, eq_comm] using e1
  subst q1
  have q2 : s2 = s1 := by simpa [updateResume, timeAction, eq_comm] using e2
  subst q2
  have q3 : s3 = s2 := by simpa [updateStart, timeAction, eq_comm] using e3
  subst q3
  have q4 : s4 = s3 := by simpa [updateDummy, timeAction, eq_comm] using e4
  subst q4
  have hsets : st'.remaining = s5.remaining ∧ st'.ongoing = s5.ongoing ∧ st'.paused = s5.paused := by
    rw [e6]
    unfold updateAvail
    split <;> exact ⟨rfl, rfl, rfl⟩
  have hrem : s5.remaining = s4.remaining ∧ s5.paused = s4.paused := by
    rcases updateTime_ok e5 with ⟨h, _⟩ | ⟨_, pr, uf, us, st2, _, _, k3, rfl⟩
    · simp [timeAction] at h
    · obtain ⟨done, _, k4⟩ := updateComplete_ok k3
      have h0 : (fun s : State => s.remaining = s4.remaining ∧ s.paused = s4.paused) { s4 with
          progress := done.foldl (fun d x => Dict.set d x (1 : Rat)) pr, usedFor := uf, used := us } :=
        ⟨rfl, rfl⟩
      have := completions_invariant (fun s : State => s.remaining = s4.remaining ∧ s.paused = s4.paused)
        (dom := dom) (st' := st2) (by
          intro s s' task hs hc
          obtain ⟨uf, used, info, hm, _, hrel, _, rfl⟩ := completeOne_ok hc
          exact hs) h0 k4
      exact this
  have ht : st'.t = s4.t + 1 := by
    have := nextState_t h1
    simpa [timeAction] using this
  have hong : ∀ y ∈ st'.ongoing, y ∈ s4.ongoing := by
    intro y hy
    by_cases h : y ∈ s4.ongoing
    · exact h
    · rw [hsets.2.1] at hy
      exact absurd hy ((updateTime_record (x := y) hL.safe.nodup rfl e5).1 h).2.2.2.1
  have hz : ZeroFree dom timeAction d := by intro h; simp [timeAction] at h
  obtain ⟨a1, a2⟩ := nextState_acc hL.acc hL.nz hz h1
  refine ⟨st', h1, ⟨h2, a1, a2, nextState_usedNodup hL.un h1, by rw [nextState_conds h1, hL.conds],
    by rw [hsets.2.2, hrem.2, hL.nopause], ?_, ?_, ?_⟩, by rw [hsets.1, hrem.1], ht, hong⟩
  · intro y hy
    obtain ⟨t0, dd, b1, b2, b3, b4⟩ := hL.phases y (hong y hy)
    exact ⟨t0, dd, b1, b2, by omega, nextState_phase hL.safe.nodup b1 b4 (by simp [timeAction]) h1⟩
  · intro y
    rw [(nextState_sets hL.safe.nodup h1).1.mem_iff]
    exact hL.all y
  · exact ⟨d.avail, hr, fun r hr => by rw [e6]; exact updateAvail_get dom d s5 r hr⟩

theorem total_empty {st : State} {dom : Dom} (hA : Acc dom st) (ho : st.ongoing = []) (r : Res) :
    total r st.usedFor = 0 := by
  cases h : st.usedFor with
  | nil => rfl
  | cons p l =>
    exfalso
    have : (st.usedFor.get? p.1).isSome = true := isSome_of_mem (v := p.2) (by rw [h]; simp)
    have := hA.sub _ this
    rw [ho] at this; cases this

theorem exists_min_rank (rank : TaskId → Nat) (l : List TaskId) (h : l ≠ []) :
    ∃ x ∈ l, ∀ y ∈ l, rank x ≤ rank y := by
  induction l with
  | nil => exact absurd rfl h
  | cons a l ih =>
    by_cases hl : l = []
    · exact ⟨a, by simp, fun y hy => by simp [hl] at hy; rw [hy]⟩
    · obtain ⟨x, hx, hm⟩ := ih hl
      by_cases hax : rank a ≤ rank x
      · exact ⟨a, by simp, fun y hy => by
          rcases List.mem_cons.1 hy with rfl | hy
          · exact Nat.le_refl _
          · exact Nat.le_trans hax (hm y hy)⟩
      · exact ⟨x, by simp [hx], fun y hy => by
          rcases List.mem_cons.1 hy with rfl | hy
          · omega
          · exact hm y hy⟩

/-- No deadlock: when nothing runs and something remains, a start is proposed. -/
theorem live_start_exists {dom : Dom} {D : Int} (hs : Simple dom) {st : State}
    (hL : Live dom D st) {as : List Action} (has : actionSpace dom st = .ok as)
    (ho : st.ongoing = []) (hr : st.remaining ≠ []) : ∃ a ∈ as, a.kind = .start := by
  obtain ⟨rank, hrank⟩ := hs.acyclic
  obtain ⟨x, hx, hmin⟩ := exists_min_rank rank st.remaining hr
  obtain ⟨f, ⟨hf0, hf⟩, hav⟩ := hL.avail
  have hxt := hL.safe.inTasks x (.inl hx)
  obtain ⟨m, ms, dd, h1, h2, h3⟩ := hf x hxt
  have hused : ∀ r ∈ dom.resTypes ++ dom.resUnits, st.used.get? r = some 0 := by
    intro r hr
    obtain ⟨u, hu⟩ := some_of_isSome ((hL.safe.entries r).1.2 hr)
    have := hL.acc.sum r (hs.renewable r hr)
    rw [total_empty hL.acc ho, val_of_get hu] at this
    rw [hu, this]
  have hov : overconsuming st st.used = .ok false := by
    obtain ⟨b, hb⟩ := overconsuming_def (st := st) (l := st.used) fun r hr =>
      (hL.safe.entries r).2.2 ((hL.safe.entries r).1.1 ((Dict.get?_isSome_iff_mem_keys st.used r).2 hr))
    cases b with
    | false => exact hb
    | true =>
      exfalso
      obtain ⟨r, u, g1, a, g2, g3⟩ := (overconsuming_spec hb).1 rfl
      have hu := Dict.get?_of_mem hL.un g1
      have hmem := (hL.safe.entries r).1.1 (by rw [hu]; rfl)
      rw [hused r hmem] at hu; cases hu
      rw [hav r hmem] at g2; cases g2
      have := hf0 r hmem
      omega
  obtain ⟨a, ha, hk, _⟩ := C12_start_proposals_complete dom st as has hov x m ms (.constant dd) hx
    (by
      intro p hp hpa
      rw [hL.conds] at hpa
      have hpu : p ∈ unconditional dom := by
        unfold availableTasks at hpa
        unfold unconditional
        rw [List.mem_filter] at hpa ⊢
        refine ⟨hpa.1, ?_⟩
        have h2 := hpa.2
        cases h : dom.existence.get? p with
        | none => rfl
        | some cs =>
          rw [h] at h2
          cases cs with
          | nil => rfl
          | cons c cs => simp at h2
      have := (hL.all p).2 hpu
      unfold allOf at this
      rw [ho, hL.nopause] at this
      simp only [List.append_nil, List.mem_append] at this
      rcases this with h | h
      · have := hmin p h
        have := hrank x hxt p hp
        omega
      · exact h)
    h1 h2
    (by
      intro r hr
      have hr' : r ∈ dom.resTypes ++ dom.resUnits := List.mem_append_left _ hr
      refine ⟨_, _, val dd r, hav r hr', hused r hr', need_constant dd r st.t, ?_⟩
      have := h3 r hr
      omega)
  exact ⟨a, ha, hk⟩

/-- The proposed action is a start whenever a start is proposed. -/
def Eager (dom : Dom) : State → List (Action × Draw) → Prop
  | _, [] => True
  | st, (a, d) :: rest => (∃ as, actionSpace dom st = .ok as ∧ a ∈ as ∧
      (a.kind ≠ .start → ∀ b ∈ as, b.kind ≠ .start)) ∧
      ∀ st', nextState dom d st a = .ok st' → Eager dom st' rest

/-- A draw with durations between 0 and `D` and amounts every task fits in. -/
def GoodDraw (dom : Dom) (D : Int) (a : Action) (d : Draw) : Prop :=
  ZeroFree dom a d ∧ 0 ≤ d.duration ∧ d.duration ≤ D ∧ Roomy dom d.avail

theorem eager_goal {dom : Dom} {D : Nat} (hw : WellFormed dom) (hs : Simple dom)
    {l : List (Action × Draw)} {st : State} {k : Nat} (hL : Live dom D st) (hE : Eager dom st l)
    (hg : ∀ p ∈ l, GoodDraw dom D p.1 p.2)
    (hk : ∀ x ∈ st.ongoing, ∃ t0 d, 1 ≤ d ∧ d ≤ (D : Int) ∧ t0 ≤ st.t ∧ t0 + d ≤ st.t + k ∧ Phase x t0 d st)
    (hl : (D + 1) * st.remaining.length + k ≤ l.length) :
    ∃ n st', n ≤ (D + 1) * st.remaining.length + k ∧ run dom st (l.take n) = .ok st' ∧
      isGoal st' = true := by
  induction l generalizing st k with
  | nil =>
    refine ⟨0, st, Nat.zero_le _, rfl, ?_⟩
    simp only [List.length_nil, Nat.le_zero, Nat.add_eq_zero_iff, Nat.mul_eq_zero] at hl
    obtain ⟨h1, rfl⟩ := hl
    have hr : st.remaining = [] := by
      rcases h1 with h1 | h1
      · omega
      · exact List.length_eq_zero_iff.1 h1
    have ho : st.ongoing = [] := by
      apply List.eq_nil_iff_forall_not_mem.2
      intro x hx
      obtain ⟨t0, d, b1, _, b2, b3, b4⟩ := hk x hx
      rcases b4 with ⟨_, c1, _⟩ | ⟨c1, _⟩
      · omega
      · have := nodup_count hL.safe.nodup x
        rw [count_allOf] at this
        have a1 := List.count_pos_iff.2 c1
        have a2 := List.count_pos_iff.2 hx
        omega
    simp [isGoal, hr, ho, hL.nopause]
  | cons p l ih =>
    obtain ⟨a, d⟩ := p
    by_cases hgoal : isGoal st = true
    · exact ⟨0, st, Nat.zero_le _, rfl, hgoal⟩
    obtain ⟨⟨as, has, ha, heag⟩, hE⟩ := hE
    obtain ⟨g1, g2, g3, g4⟩ := hg (a, d) (by simp)
    replace g2 : 0 ≤ d.duration := g2
    replace g3 : d.duration ≤ D := g3
    have hg' : ∀ p ∈ l, GoodDraw dom D p.1 p.2 := fun p hp => hg p (by simp [hp])
    rcases actionSpace_mem has a ha with ⟨n, m, rfl, h1, h2, ⟨ms, h3, h4⟩, h5⟩ | ⟨t, h1, h2, _⟩ |
      ⟨t, h1, _⟩ | rfl
    · obtain ⟨md, h6⟩ := some_of_isSome ((Dict.get?_isSome_iff_mem_keys ms m).2 h4)
      obtain ⟨dd, rfl⟩ := hw.constant n ms m md h3 h6
      obtain ⟨s, e1, e2, e3, e4, e5⟩ := live_start hw hs.noSkills hL d h1 ⟨ms, dd, h3, h6⟩ h5 ⟨g2, g3⟩ g1
      have hmul : (D + 1) * st.remaining.length = (D + 1) * s.remaining.length + D + 1 := by
        rw [← e3, Nat.mul_add]; omega
      by_cases hkD : k ≤ D
      · obtain ⟨n', st', f1, f2, f3⟩ := ih (st := s) (k := D) e2 (hE s e1) hg'
          (by
            intro y hy
            rcases e5 y hy with hy' | ⟨hP, hd1⟩
            · obtain ⟨t0, dd, b1, b2, b3, b4, b5⟩ := hk y hy'
              exact ⟨t0, dd, b1, b2, by omega, by omega,
                nextState_phase hL.safe.nodup b1 b5 (by simp) e1⟩
            · exact ⟨_, _, hd1, g3, by omega, by omega, hP⟩)
          (by simp only [List.length_cons] at hl; omega)
        refine ⟨n' + 1, st', by omega, ?_, f3⟩
        rw [List.take_succ_cons]
        exact run_cons_ok.2 ⟨s, e1, f2⟩
      · obtain ⟨n', st', f1, f2, f3⟩ := ih (st := s) (k := k) e2 (hE s e1) hg'
          (by
            intro y hy
            rcases e5 y hy with hy' | ⟨hP, hd1⟩
            · obtain ⟨t0, dd, b1, b2, b3, b4, b5⟩ := hk y hy'
              exact ⟨t0, dd, b1, b2, by omega, by omega,
                nextState_phase hL.safe.nodup b1 b5 (by simp) e1⟩
            · exact ⟨_, _, hd1, g3, by omega, by omega, hP⟩)
          (by simp only [List.length_cons] at hl; omega)
        refine ⟨n' + 1, st', by omega, ?_, f3⟩
        rw [List.take_succ_cons]
        exact run_cons_ok.2 ⟨s, e1, f2⟩
    · exact absurd h2 (hs.noPreempt t)
    · rw [hL.nopause] at h1; cases h1
    · have hon : st.ongoing ≠ [] := by
        intro ho
        by_cases hr : st.remaining = []
        · exact hgoal (by simp [isGoal, hr, ho, hL.nopause])
        · obtain ⟨b, hb, hbk⟩ := live_start_exists hs hL has ho hr
          exact heag (by simp [timeAction]) b hb hbk
      have hkpos : 1 ≤ k := by
        obtain ⟨x, hx⟩ := List.exists_mem_of_ne_nil _ hon
        obtain ⟨t0, dd, b1, _, b2, b3, b4⟩ := hk x hx
        rcases b4 with ⟨_, c1, _⟩ | ⟨c1, _⟩
        · omega
        · have := nodup_count hL.safe.nodup x
          rw [count_allOf] at this
          have a1 := List.count_pos_iff.2 c1
          have a2 := List.count_pos_iff.2 hx
          omega
      obtain ⟨s, e1, e2, e3, e4, e5⟩ := live_time hw hL d g4
      obtain ⟨n', st', f1, f2, f3⟩ := ih (st := s) (k := k - 1) e2 (hE s e1) hg'
        (by
          intro y hy
          obtain ⟨t0, dd, b1, b2, b3, b4, b5⟩ := hk y (e5 y hy)
          exact ⟨t0, dd, b1, b2, by omega, by omega,
            nextState_phase hL.safe.nodup b1 b5 (by simp [timeAction]) e1⟩)
        (by rw [e3]; simp only [List.length_cons] at hl; omega)
      rw [e3] at f1
      refine ⟨n' + 1, st', by omega, ?_, f3⟩
      rw [List.take_succ_cons]
      exact run_cons_ok.2 ⟨s, e1, f2⟩

end Verif.Sched
