import Verif.Lemmas.SchedAcc
import Verif.Lemmas.SchedPrec

/-! When the scheduling domain does not raise. -/
namespace Verif.Sched

/-- A completely described domain: every task has its modes, with constant needs; every
resource type its renewability (and, if it is not renewable and some task may be paused, an entry
telling whether a pause gives it back); every task its preemptivity; skills, if any, are given for every task and mode
and every resource type. -/
structure WellFormed (dom : Dom) : Prop where
  modes : ∀ x ∈ dom.tasks, (dom.modes.get? x).isSome = true
  constant : ∀ x ms m md, dom.modes.get? x = some ms → ms.get? m = some md → ∃ dd, md = .constant dd
  renewable : ∀ r ∈ dom.resTypes, (dom.renewable.get? r).isSome = true
  returned : ∀ r ∈ dom.resTypes, dom.renewable.get? r = some false →
    (∃ x ∈ dom.tasks, dom.preempt.get? x = some true) → (dom.returned.get? r).isSome = true
  preempt : ∀ x ∈ dom.tasks, (dom.preempt.get? x).isSome = true
  taskSkills : ∀ ts x ms m, dom.taskSkills = some ts → dom.modes.get? x = some ms → m ∈ ms.keys →
    ∃ tm, ts.get? x = some tm ∧ (tm.get? m).isSome = true
  resSkills : dom.taskSkills ≠ none → ∀ r ∈ dom.resTypes, (dom.resSkills.get? r).isSome = true

/-- Task `x` may run in mode `m`. -/
def HasMode (dom : Dom) (x : TaskId) (m : ModeId) : Prop :=
  ∃ ms dd, dom.modes.get? x = some ms ∧ ms.get? m = some (.constant dd)

structure Safe (dom : Dom) (st : State) : Prop where
  nodup : (allOf st).Nodup
  entries : Entries dom st
  inTasks : ∀ x, x ∈ st.remaining ∨ x ∈ st.ongoing ∨ x ∈ st.paused → x ∈ dom.tasks
  details : ∀ x ∈ dom.tasks, ∃ info, st.details.get? x = some info
  rem : ∀ x ∈ st.remaining, ∀ info, st.details.get? x = some info →
    info.start = none ∧ info.sampled = none ∧ info.paused = []
  mode : ∀ x, x ∈ st.ongoing ∨ x ∈ st.paused → ∃ m, st.mode.get? x = some m ∧ HasMode dom x m
  prog : ∀ x, x ∈ st.ongoing ∨ x ∈ st.paused → ∃ p, st.progress.get? x = some p
  ong : ∀ x ∈ st.ongoing, ∀ info, st.details.get? x = some info →
    info.paused.length ≤ info.resumed.length
  pau : ∀ x ∈ st.paused, ∀ info, st.details.get? x = some info →
    info.paused.length ≤ info.resumed.length + 1
  holds : ∀ x ∈ st.ongoing, ∃ uf, st.usedFor.get? x = some uf ∧
    ∀ r, (uf.get? r).isSome = true ↔ r ∈ dom.resTypes

/-! ### The parts of a step -/

theorem some_of_isSome {o : Option α} (h : o.isSome = true) : ∃ x, o = some x :=
  Option.isSome_iff_exists.1 h

theorem get_of_isSome [DecidableEq κ] {d : Dict κ α} {k : κ} (h : (d.get? k).isSome = true) :
    ∃ v, d.get k = .ok v := by
  obtain ⟨v, h⟩ := some_of_isSome h
  exact ⟨v, Dict.get_ok_iff.2 h⟩

theorem isSome_of_mem [DecidableEq κ] {d : Dict κ α} {k : κ} {v : α} (h : (k, v) ∈ d) :
    (d.get? k).isSome = true :=
  (Dict.get?_isSome_iff_mem_keys d k).2 (List.mem_map.2 ⟨_, h, rfl⟩)

theorem pausedTotal_def {ps rs : List Int} (h : ps.length ≤ rs.length) :
    ∃ x, pausedTotal ps rs = .ok x := by
  induction ps generalizing rs with
  | nil => exact ⟨0, rfl⟩
  | cons p ps ih =>
    cases rs with
    | nil => simp at h
    | cons r rs =>
      obtain ⟨x, hx⟩ := ih (by simpa using h)
      exact ⟨(r - p) + x, by simp only [pausedTotal, hx, bind_ok]; rfl⟩

theorem activeTime_def {i : Info} {t : Int}
    (h : i.start = none ∨ i.paused.length ≤ i.resumed.length) : ∃ x, i.activeTime t = .ok x := by
  unfold Info.activeTime
  cases hs : i.start with
  | none => exact ⟨0, rfl⟩
  | some s =>
    have h : i.paused.length ≤ i.resumed.length := by
      rcases h with h | h
      · rw [hs] at h; cases h
      · exact h
    obtain ⟨x, hx⟩ := pausedTotal_def h
    simp only [hx, bind_ok]
    exact ⟨_, rfl⟩

theorem usedTypes_def {dom : Dom} {x : TaskId} {m : ModeId} (hm : HasMode dom x m) (time : Int)
    (l : List Res) (acc : Dict Res Int) : ∃ use, usedTypes dom x (some m) time l acc = .ok use := by
  induction l generalizing acc with
  | nil => exact ⟨acc, rfl⟩
  | cons r l ih =>
    obtain ⟨ms, dd, h1, h2⟩ := hm
    obtain ⟨use, hu⟩ := ih (acc.set r (val dd r))
    refine ⟨use, ?_⟩
    simp only [usedTypes, Dict.get_ok_iff.2 h1, bind_ok, dgetO, Dict.get_ok_iff.2 h2, need_constant]
    exact hu

theorem resourceUsed_def {dom : Dom} {x : TaskId} {m : ModeId} {units : Option (List Res)}
    (hm : HasMode dom x m) (hu : units.getD [] = []) (time : Int) :
    ∃ use, resourceUsed dom x (some m) units time = .ok use ∧
      ∀ r, (use.get? r).isSome = true ↔ r ∈ dom.resTypes := by
  obtain ⟨use, h⟩ := usedTypes_def hm time dom.resTypes []
  refine ⟨use, ?_, ?_⟩
  · unfold resourceUsed
    rw [h, bind_ok, hu]; rfl
  · intro r
    obtain ⟨_, g2, g3⟩ := usedTypes_ok h
    constructor
    · intro hr
      by_cases hm : r ∈ dom.resTypes
      · exact hm
      · rw [g2 r hm] at hr; simp at hr
    · intro hr
      obtain ⟨_, _, _, n, _, _, _, _, e⟩ := g3 r hr
      rw [e]; rfl

theorem lacking_def {st : State} {l : Dict Res Int}
    (h : ∀ r ∈ l.keys, (st.avail.get? r).isSome = true ∧ (st.used.get? r).isSome = true) :
    ∃ b, lacking st l = .ok b := by
  induction l with
  | nil => exact ⟨_, rfl⟩
  | cons p l ih =>
    obtain ⟨r, n⟩ := p
    obtain ⟨h1, h2⟩ := h r (by simp [Dict.keys])
    obtain ⟨a, h1⟩ := get_of_isSome h1
    obtain ⟨u, h2⟩ := get_of_isSome h2
    simp only [lacking, h1, h2, bind_ok]
    split
    · exact ⟨_, rfl⟩
    · exact ih fun r hr => h r (by simp only [Dict.keys, List.map_cons, List.mem_cons] at hr ⊢; exact .inr hr)

theorem addSkills_def {dom : Dom} {l : List Res} (acc : Dict Skill Int)
    (h : ∀ r ∈ l, (dom.resSkills.get? r).isSome = true) : ∃ x, addSkills dom l acc = .ok x := by
  induction l generalizing acc with
  | nil => exact ⟨_, rfl⟩
  | cons r l ih =>
    obtain ⟨s, h1⟩ := get_of_isSome (h r (by simp))
    simp only [addSkills, h1, bind_ok]
    exact ih _ fun r' hr => h r' (by simp [hr])

theorem skillsOk_def {dom : Dom} (hw : WellFormed dom) {x : TaskId} {m : ModeId} {use : Dict Res Int}
    (hm : HasMode dom x m) (hu : ∀ r ∈ use.keys, r ∈ dom.resTypes) :
    ∃ b, skillsOk dom x (some m) use = .ok b := by
  unfold skillsOk
  cases ht : dom.taskSkills with
  | none => exact ⟨_, rfl⟩
  | some ts =>
    obtain ⟨ms, dd, h1, h2⟩ := hm
    obtain ⟨tm, h3, h4⟩ := hw.taskSkills ts x ms m ht h1
      ((Dict.get?_isSome_iff_mem_keys ms m).1 (by rw [h2]; rfl))
    obtain ⟨sk, h4⟩ := get_of_isSome h4
    simp only [skillsOfTask, ht, Dict.get_ok_iff.2 h3, bind_ok, dgetO, h4, pure_bind]
    split
    · exact ⟨_, rfl⟩
    · obtain ⟨have_, h5⟩ := addSkills_def (dom := dom) (l := use.keys)
        (List.map (fun p : Skill × Int => (p.1, (0 : Int)))
          (List.filter (fun p : Skill × Int => decide (p.2 > 0)) sk))
        fun r hr => hw.resSkills (by rw [ht]; simp) r (hu r hr)
      simp only [h5, bind_ok]
      exact ⟨_, rfl⟩

theorem checkStart_def {dom : Dom} (hw : WellFormed dom) {st : State} (hE : Entries dom st)
    {a : Action} {x : TaskId} {m : ModeId} {info : Info} (ha : a.task = some x) (ham : a.mode = some m)
    (hau : a.units.getD [] = []) (hk : a.kind = .start ∨ a.kind = .resume)
    (hi : st.details.get? x = some info) (hm : HasMode dom x m)
    (ht : info.start = none ∨ info.paused.length ≤ info.resumed.length) :
    ∃ b use, checkStart dom st a = .ok (b, use) ∧
      ∀ r, (use.get? r).isSome = true ↔ r ∈ dom.resTypes := by
  obtain ⟨time, h1⟩ := activeTime_def (t := st.t) ht
  obtain ⟨use, h2, h3⟩ := resourceUsed_def hm hau time
  have hkeys : ∀ r ∈ use.keys, r ∈ dom.resTypes := fun r hr =>
    (h3 r).1 ((Dict.get?_isSome_iff_mem_keys use r).2 hr)
  obtain ⟨b, h4⟩ := lacking_def (st := st) (l := use) fun r hr =>
    ⟨(hE r).2.2 (List.mem_append_left _ (hkeys r hr)), (hE r).1.2 (List.mem_append_left _ (hkeys r hr))⟩
  obtain ⟨b', h5⟩ := skillsOk_def hw hm hkeys
  unfold checkStart
  rw [if_pos hk, ha]
  simp only [dgetO, Dict.get_ok_iff.2 hi, bind_ok, h1, ham, h2, h4, h5]
  cases b
  · exact ⟨b', use, rfl, h3⟩
  · exact ⟨false, use, rfl, h3⟩

theorem addAll_def {l d : Dict Res Int} (h : ∀ r ∈ l.keys, (d.get? r).isSome = true) :
    ∃ d', addAll d l = .ok d' := by
  induction l generalizing d with
  | nil => exact ⟨_, rfl⟩
  | cons p l ih =>
    obtain ⟨r, n⟩ := p
    obtain ⟨u, h1⟩ := get_of_isSome (h r (by simp [Dict.keys]))
    simp only [addAll, h1, bind_ok]
    refine ih fun r' hr => ?_
    rw [Dict.get?_set]
    split
    · rfl
    · exact h r' (by simp only [Dict.keys, List.map_cons, List.mem_cons] at hr ⊢; exact .inr hr)

theorem releaseAll_def {back : Res → Except PyErr Bool} {l d : Dict Res Int}
    (hb : ∀ r ∈ l.keys, ∃ b, back r = .ok b)
    (h : ∀ r ∈ l.keys, (d.get? r).isSome = true) : ∃ d', releaseAll back d l = .ok d' := by
  induction l generalizing d with
  | nil => exact ⟨_, rfl⟩
  | cons p l ih =>
    obtain ⟨r, n⟩ := p
    have hin : ∀ r' ∈ Dict.keys l, r' ∈ Dict.keys ((r, n) :: l) := fun r' hr => by
      simp only [Dict.keys, List.map_cons, List.mem_cons] at hr ⊢; exact .inr hr
    obtain ⟨u, h1⟩ := get_of_isSome (h r (by simp [Dict.keys]))
    obtain ⟨b, h2⟩ := hb r (by simp [Dict.keys])
    simp only [releaseAll, h2, bind_ok]
    cases b with
    | true =>
      simp only [if_true, h1, bind_ok]
      refine ih (fun r' hr => hb r' (hin r' hr)) fun r' hr => ?_
      rw [Dict.get?_set]
      split
      · rfl
      · exact h r' (hin r' hr)
    | false =>
      simp only [Bool.false_eq_true, if_false]
      exact ih (fun r' hr => hb r' (hin r' hr)) fun r' hr => h r' (hin r' hr)

theorem replaceUse_def {use uf used : Dict Res Int}
    (h : ∀ r ∈ use.keys, (uf.get? r).isSome = true ∧ (used.get? r).isSome = true) :
    ∃ uf' used', replaceUse use (uf, used) = .ok (uf', used') ∧
      ∀ r, (uf'.get? r).isSome = (uf.get? r).isSome := by
  induction use generalizing uf used with
  | nil => exact ⟨_, _, rfl, fun _ => rfl⟩
  | cons p use ih =>
    obtain ⟨r, n⟩ := p
    obtain ⟨h1, h2⟩ := h r (by simp [Dict.keys])
    have h1' := h1
    obtain ⟨v, h1⟩ := get_of_isSome h1
    obtain ⟨u, h2⟩ := get_of_isSome h2
    simp only [replaceUse, h1, h2, bind_ok]
    obtain ⟨uf', used', g1, g2⟩ := ih (uf := uf.set r n) (used := used.set r (u + (n - v)))
      fun r' hr => by
        have := h r' (by simp only [Dict.keys, List.map_cons, List.mem_cons] at hr ⊢; exact .inr hr)
        rw [Dict.get?_set, Dict.get?_set]
        constructor <;> split <;> simp_all
    refine ⟨uf', used', g1, fun r' => ?_⟩
    rw [g2 r', Dict.get?_set]
    split
    · rename_i he; subst he; rw [h1']; rfl
    · rfl

theorem updateProgress_def {dom : Dom} {st : State} {l : List TaskId} {pr : Dict TaskId Rat}
    (h : ∀ x ∈ l, (∃ p, pr.get? x = some p) ∧ (∃ m, st.mode.get? x = some m) ∧
      ∃ i, st.details.get? x = some i) :
    ∃ pr', updateProgress dom st l pr = .ok pr' ∧
      ∀ x, (pr.get? x).isSome = true → (pr'.get? x).isSome = true := by
  induction l generalizing pr with
  | nil => exact ⟨_, rfl, fun _ => id⟩
  | cons x l ih =>
    obtain ⟨⟨p, h1⟩, ⟨m, h2⟩, i, h3⟩ := h x (by simp)
    simp only [updateProgress, Dict.get_ok_iff.2 h1, Dict.get_ok_iff.2 h2, Dict.get_ok_iff.2 h3, bind_ok]
    obtain ⟨pr', g1, g2⟩ := ih (pr := pr.set x (p + taskProgress dom x m i.sampled)) fun y hy => by
      obtain ⟨⟨p', h1'⟩, h'⟩ := h y (by simp [hy])
      refine ⟨?_, h'⟩
      rw [Dict.get?_set]
      split
      · exact ⟨_, rfl⟩
      · exact ⟨p', h1'⟩
    refine ⟨pr', g1, fun y hy => g2 y ?_⟩
    rw [Dict.get?_set]
    split
    · rfl
    · exact hy

theorem updateCons_def {dom : Dom} {st : State} {l : List TaskId}
    {uf : Dict TaskId (Dict Res Int)} {us : Dict Res Int}
    (h : ∀ x ∈ l, (∃ m, st.mode.get? x = some m ∧ HasMode dom x m) ∧
      ∃ i, st.details.get? x = some i ∧ i.paused.length ≤ i.resumed.length)
    (hu : ∀ r ∈ dom.resTypes, (us.get? r).isSome = true)
    (hf : ∀ x ∈ l, ∃ v, uf.get? x = some v ∧ ∀ r, (v.get? r).isSome = true ↔ r ∈ dom.resTypes) :
    ∃ uf' us', updateCons dom st l (uf, us) = .ok (uf', us') ∧
      ∀ x, (∃ v, uf.get? x = some v ∧ ∀ r, (v.get? r).isSome = true ↔ r ∈ dom.resTypes) →
        ∃ v, uf'.get? x = some v ∧ ∀ r, (v.get? r).isSome = true ↔ r ∈ dom.resTypes := by
  induction l generalizing uf us with
  | nil => exact ⟨_, _, rfl, fun _ => id⟩
  | cons x l ih =>
    obtain ⟨⟨m, h1, h2⟩, i, h3, h4⟩ := h x (by simp)
    obtain ⟨time, h5⟩ := activeTime_def (i := i) (t := st.t + 1) (.inr h4)
    obtain ⟨use, h6, h7⟩ := resourceUsed_def (units := some []) h2 rfl time
    have hr : ∀ y ∈ l, (∃ m, st.mode.get? y = some m ∧ HasMode dom y m) ∧
      ∃ i, st.details.get? y = some i ∧ i.paused.length ≤ i.resumed.length := fun y hy => h y (by simp [hy])
    simp only [updateCons, Dict.get_ok_iff.2 h1, Dict.get_ok_iff.2 h3, h5, h6, bind_ok]
    split
    · exact ih hr hu fun y hy => hf y (by simp [hy])
    · obtain ⟨v, h8, h9⟩ := hf x (by simp)
      have hk : ∀ r ∈ use.keys, r ∈ dom.resTypes := fun r hr =>
        (h7 r).1 ((Dict.get?_isSome_iff_mem_keys use r).2 hr)
      obtain ⟨v', us1, g1, g2⟩ := replaceUse_def (use := use) (uf := v) (used := us)
        fun r hr => ⟨(h9 r).2 (hk r hr), hu r (hk r hr)⟩
      simp only [Dict.get_ok_iff.2 h8, bind_ok, g1]
      have hkeep : ∀ y, (∃ v, uf.get? y = some v ∧ ∀ r, (v.get? r).isSome = true ↔ r ∈ dom.resTypes) →
          ∃ v, (uf.set x v').get? y = some v ∧ ∀ r, (v.get? r).isSome = true ↔ r ∈ dom.resTypes := by
        intro y hy
        rw [Dict.get?_set]
        split
        · exact ⟨v', rfl, fun r => by rw [g2 r]; exact h9 r⟩
        · exact hy
      obtain ⟨uf', us', k1, k2⟩ := ih (uf := uf.set x v') (us := us1) hr
        (fun r hr => by rw [replaceUse_some g1 r]; exact hu r hr)
        (fun y hy => hkeep y (hf y (by simp [hy])))
      exact ⟨uf', us', k1, fun y hy => k2 y (hkeep y hy)⟩

theorem finishing_def {pr : Dict TaskId Rat} {l : List TaskId}
    (h : ∀ x ∈ l, (pr.get? x).isSome = true) : ∃ done, finishing pr l = .ok done ∧ done.Sublist l := by
  induction l with
  | nil => exact ⟨[], rfl, .slnil⟩
  | cons x l ih =>
    obtain ⟨p, h1⟩ := get_of_isSome (h x (by simp))
    obtain ⟨done, h2, h3⟩ := ih fun y hy => h y (by simp [hy])
    simp only [finishing, h1, h2, bind_ok]
    by_cases hp : threshold ≤ p
    · rw [if_pos hp]; exact ⟨_, rfl, h3.cons_cons x⟩
    · rw [if_neg hp]; exact ⟨_, rfl, h3.cons x⟩

theorem setOnesTask {l : List TaskId} {d : Dict TaskId Rat} (x : TaskId) (h : (d.get? x).isSome = true) :
    (Dict.get? (l.foldl (fun d x => Dict.set d x (1 : Rat)) d) x).isSome = true := by
  induction l generalizing d with
  | nil => exact h
  | cons y l ih =>
    refine ih ?_
    rw [Dict.get?_set]
    split
    · rfl
    · exact h

/-! ### Steps -/

theorem mem_erase_nodup {l : List TaskId} (h : l.Nodup) {x y : TaskId} (hx : x ∈ l.erase y) :
    x ≠ y ∧ x ∈ l := by
  have hne : x ≠ y := by rintro rfl; exact (List.Nodup.not_mem_erase h) hx
  exact ⟨hne, (List.mem_erase_of_ne hne).1 hx⟩

theorem parts_nodup {st : State} (h : (allOf st).Nodup) :
    st.remaining.Nodup ∧ st.ongoing.Nodup ∧ st.paused.Nodup := by
  refine ⟨?_, ongoing_nodup h, ?_⟩ <;>
  · rw [List.nodup_iff_count]
    intro x
    have := nodup_count h x
    rw [count_allOf] at this
    omega

theorem safe_start {dom : Dom} (hw : WellFormed dom) {st : State} (hS : Safe dom st) (d : Draw)
    {x : TaskId} {m : ModeId} (hx : x ∈ st.remaining) (hm : HasMode dom x m) :
    ∃ st', nextState dom d st ⟨some x, .start, some m, false, none⟩ = .ok st' ∧ Safe dom st' := by
  obtain ⟨nr, no, np⟩ := parts_nodup hS.nodup
  obtain ⟨info, hi⟩ := hS.details x (hS.inTasks x (.inl hx))
  obtain ⟨hi1, hi2, hi3⟩ := hS.rem x hx info hi
  obtain ⟨b, use, h1, h2⟩ := checkStart_def hw hS.entries (a := ⟨some x, .start, some m, false, none⟩)
    rfl rfl rfl (.inl rfl) hi hm (.inl hi1)
  have hxo : x ∉ st.ongoing := notOngoing_of_remaining hS.nodup hx
  have hxp : x ∉ st.paused := by
    intro hp
    have := nodup_count hS.nodup x
    rw [count_allOf] at this
    have a1 := List.count_pos_iff.2 hp
    have a2 := List.count_pos_iff.2 hx
    omega
  cases b with
  | false =>
    have e : nextState dom d st ⟨some x, .start, some m, false, none⟩ = .ok st := by
      simp [nextState, updatePause, updateResume, updateStart, h1, updateDummy, Dict.get_ok_iff.2 hi,
        hi2, updateTime, updateAvail, pure, Except.pure]
    exact ⟨st, e, hS⟩
  | true =>
    obtain ⟨used, h3⟩ := addAll_def (l := use) (d := st.used) fun r hr =>
      (hS.entries r).1.2 (List.mem_append_left _ ((h2 r).1 ((Dict.get?_isSome_iff_mem_keys use r).2 hr)))
    have e3 : updateStart dom d st ⟨some x, .start, some m, false, none⟩ =
        .ok (started d st x m info use used) := by
      simp [updateStart, h1, sremove, hx, Dict.get_ok_iff.2 hi, h3, started, pure, Except.pure]
    have hi' : (started d st x m info use used).details.get? x =
        some { info with start := some st.t, sampled := some d.duration } := Dict.get?_set_self ..
    by_cases hz : d.duration = 0
    · have hon : (sadd st.ongoing x).erase x = st.ongoing := by
        simp [sadd, hxo, List.erase_append]
      have e4 : updateDummy (started d st x m info use used) ⟨some x, .start, some m, false, none⟩ =
          .ok (dummied (started d st x m info use used) x
            { info with start := some st.t, sampled := some d.duration }) := by
        have : x ∈ (started d st x m info use used).ongoing := mem_sadd.2 (.inr rfl)
        have hu : (started d st x m info use used).usedFor.get? x = some use := Dict.get?_set_self ..
        simp [updateDummy, Dict.get_ok_iff.2 hi', hz, sremove, this, dpop, hu, dummied, pure, Except.pure]
      have e : nextState dom d st ⟨some x, .start, some m, false, none⟩ =
          .ok (dummied (started d st x m info use used) x
            { info with start := some st.t, sampled := some d.duration }) := by
        unfold nextState
        simp only [updatePause, updateResume, reduceCtorEq, if_false, bind_ok]
        rw [e3, bind_ok, e4]
        simp [updateTime, updateAvail, pure, Except.pure]
      refine ⟨_, e, (nextState_sets hS.nodup e).nodup hS.nodup, nextState_entries hS.entries e, ?_, ?_, ?_, ?_,
        ?_, ?_, ?_, ?_⟩
      · rintro y (hy | hy | hy)
        · exact hS.inTasks y (.inl (mem_erase_nodup nr hy).2)
        · have hy : y ∈ (sadd st.ongoing x).erase x := hy
          rw [hon] at hy
          exact hS.inTasks y (.inr (.inl hy))
        · exact hS.inTasks y (.inr (.inr hy))
      · intro y hy
        show ∃ i, ((st.details.set x _).set x _).get? y = some i
        rw [Dict.get?_set, Dict.get?_set]
        split
        · exact ⟨_, rfl⟩
        · exact hS.details y hy
      · intro y hy i
        obtain ⟨hne, hy⟩ := mem_erase_nodup nr hy
        show ((st.details.set x _).set x _).get? y = some i → _
        rw [Dict.get?_set, if_neg hne, Dict.get?_set, if_neg hne]
        exact hS.rem y hy i
      · intro y hy
        replace hy : y ∈ (sadd st.ongoing x).erase x ∨ y ∈ st.paused := hy
        rw [hon] at hy
        have hne : y ≠ x := by rintro rfl; exact hy.elim hxo hxp
        show ∃ m', (st.mode.set x m).get? y = some m' ∧ _
        rw [Dict.get?_set, if_neg hne]
        exact hS.mode y hy
      · intro y hy
        replace hy : y ∈ (sadd st.ongoing x).erase x ∨ y ∈ st.paused := hy
        rw [hon] at hy
        show ∃ p, ((st.progress.set x 0).set x 1).get? y = some p
        rw [Dict.get?_set, Dict.get?_set]
        split
        · exact ⟨_, rfl⟩
        · exact hS.prog y hy
      · intro y hy i
        replace hy : y ∈ (sadd st.ongoing x).erase x := hy
        rw [hon] at hy
        have hne : y ≠ x := by rintro rfl; exact hxo hy
        show ((st.details.set x _).set x _).get? y = some i → _
        rw [Dict.get?_set, if_neg hne, Dict.get?_set, if_neg hne]
        exact hS.ong y hy i
      · intro y hy i
        have hne : y ≠ x := by rintro rfl; exact hxp hy
        show ((st.details.set x _).set x _).get? y = some i → _
        rw [Dict.get?_set, if_neg hne, Dict.get?_set, if_neg hne]
        exact hS.pau y hy i
      · intro y hy
        replace hy : y ∈ (sadd st.ongoing x).erase x := hy
        rw [hon] at hy
        have hne : y ≠ x := by rintro rfl; exact hxo hy
        show ∃ uf, ((st.usedFor.set x use).erase x).get? y = some uf ∧ _
        rw [Dict.get?_erase_ne _ hne, Dict.get?_set, if_neg hne]
        exact hS.holds y hy
    · have e4 : updateDummy (started d st x m info use used) ⟨some x, .start, some m, false, none⟩ =
          .ok (started d st x m info use used) := by
        simp [updateDummy, Dict.get_ok_iff.2 hi', hz, pure, Except.pure]
      have e : nextState dom d st ⟨some x, .start, some m, false, none⟩ =
          .ok (started d st x m info use used) := by
        unfold nextState
        simp only [updatePause, updateResume, reduceCtorEq, if_false, bind_ok]
        rw [e3, bind_ok, e4]
        simp [updateTime, updateAvail, pure, Except.pure]
      refine ⟨_, e, (nextState_sets hS.nodup e).nodup hS.nodup, nextState_entries hS.entries e, ?_, ?_, ?_, ?_,
        ?_, ?_, ?_, ?_⟩
      · rintro y (hy | hy | hy)
        · exact hS.inTasks y (.inl (mem_erase_nodup nr hy).2)
        · rcases mem_sadd.1 hy with hy | rfl
          · exact hS.inTasks y (.inr (.inl hy))
          · exact hS.inTasks y (.inl hx)
        · exact hS.inTasks y (.inr (.inr hy))
      · intro y hy
        show ∃ i, (st.details.set x _).get? y = some i
        rw [Dict.get?_set]
        split
        · exact ⟨_, rfl⟩
        · exact hS.details y hy
      · intro y hy i
        obtain ⟨hne, hy⟩ := mem_erase_nodup nr hy
        show (st.details.set x _).get? y = some i → _
        rw [Dict.get?_set, if_neg hne]
        exact hS.rem y hy i
      · intro y hy
        show ∃ m', (st.mode.set x m).get? y = some m' ∧ _
        rw [Dict.get?_set]
        split
        · rename_i he; subst he; exact ⟨m, rfl, hm⟩
        · rename_i hne
          refine hS.mode y ?_
          rcases hy with hy | hy
          · rcases mem_sadd.1 hy with hy | hy
            · exact .inl hy
            · exact absurd hy hne
          · exact .inr hy
      · intro y hy
        show ∃ p, (st.progress.set x 0).get? y = some p
        rw [Dict.get?_set]
        split
        · exact ⟨_, rfl⟩
        · rename_i hne
          refine hS.prog y ?_
          rcases hy with hy | hy
          · rcases mem_sadd.1 hy with hy | hy
            · exact .inl hy
            · exact absurd hy hne
          · exact .inr hy
      · intro y hy i
        show (st.details.set x _).get? y = some i → _
        rw [Dict.get?_set]
        split
        · intro he
          rw [← Option.some.inj he]
          simp [hi3]
        · rename_i hne
          rcases mem_sadd.1 hy with hy | hy
          · exact hS.ong y hy i
          · exact absurd hy hne
      · intro y hy i
        have hne : y ≠ x := by rintro rfl; exact hxp hy
        show (st.details.set x _).get? y = some i → _
        rw [Dict.get?_set, if_neg hne]
        exact hS.pau y hy i
      · intro y hy
        show ∃ uf, (st.usedFor.set x use).get? y = some uf ∧ _
        rw [Dict.get?_set]
        split
        · exact ⟨use, rfl, h2⟩
        · rename_i hne
          rcases mem_sadd.1 hy with hy | hy
          · exact hS.holds y hy
          · exact absurd hy hne

theorem notRemaining_of_ongoing {st : State} (hn : (allOf st).Nodup) {x : TaskId}
    (hx : x ∈ st.ongoing) : x ∉ st.remaining ∧ x ∉ st.paused := by
  have := nodup_count hn x
  rw [count_allOf] at this
  have a1 := List.count_pos_iff.2 hx
  constructor
  · intro hp
    have a2 := List.count_pos_iff.2 hp
    omega
  · intro hp
    have a2 := List.count_pos_iff.2 hp
    omega

theorem notRemaining_of_paused {st : State} (hn : (allOf st).Nodup) {x : TaskId}
    (hx : x ∈ st.paused) : x ∉ st.remaining ∧ x ∉ st.ongoing := by
  have := nodup_count hn x
  rw [count_allOf] at this
  have a1 := List.count_pos_iff.2 hx
  constructor
  · intro hp
    have a2 := List.count_pos_iff.2 hp
    omega
  · intro hp
    have a2 := List.count_pos_iff.2 hp
    omega

theorem safe_pause {dom : Dom} (hw : WellFormed dom) {st : State} (hS : Safe dom st) (d : Draw)
    {x : TaskId} (hx : x ∈ st.ongoing) (hpre : dom.preempt.get? x = some true) :
    ∃ st', nextState dom d st ⟨some x, .pause, none, false, none⟩ = .ok st' ∧ Safe dom st' := by
  obtain ⟨nr, no, np⟩ := parts_nodup hS.nodup
  obtain ⟨info, hi⟩ := hS.details x (hS.inTasks x (.inr (.inl hx)))
  obtain ⟨uf, h1, h2⟩ := hS.holds x hx
  have hk : ∀ r ∈ uf.keys, r ∈ dom.resTypes := fun r hr =>
    (h2 r).1 ((Dict.get?_isSome_iff_mem_keys uf r).2 hr)
  obtain ⟨hxr, hxp⟩ := notRemaining_of_ongoing hS.nodup hx
  obtain ⟨used, h3⟩ := releaseAll_def (back := fun r => do
      if (← isRenewable dom r) then return true else dom.returned.get r) (l := uf) (d := st.used)
    (fun r hr => by
      obtain ⟨b, hb⟩ := some_of_isSome (hw.renewable r (hk r hr))
      unfold isRenewable
      simp only [Dict.get_ok_iff.2 hb, bind_ok]
      cases b with
      | true => exact ⟨true, rfl⟩
      | false => exact get_of_isSome (hw.returned r (hk r hr) hb ⟨x, hS.inTasks x (.inr (.inl hx)), hpre⟩))
    (fun r hr => (hS.entries r).1.2 (List.mem_append_left _ (hk r hr)))
  let st1 : State := { st with
    paused := sadd st.paused x, ongoing := st.ongoing.erase x, used := used
    usedFor := st.usedFor.erase x
    details := st.details.set x { info with paused := info.paused ++ [st.t] } }
  have e1 : updatePause dom st ⟨some x, .pause, none, false, none⟩ = .ok st1 := by
    unfold updatePause
    simp only [if_true, sremove, hx, bind_ok, Dict.get_ok_iff.2 h1, h3, dpop, h1, Dict.get_ok_iff.2 hi]
    rfl
  have e : nextState dom d st ⟨some x, .pause, none, false, none⟩ = .ok st1 := by
    unfold nextState
    rw [e1]
    simp [updateResume, updateStart, updateDummy, updateTime, updateAvail, pure, Except.pure]
  refine ⟨_, e, (nextState_sets hS.nodup e).nodup hS.nodup, nextState_entries hS.entries e, ?_, ?_, ?_, ?_,
    ?_, ?_, ?_, ?_⟩
  · rintro y (hy | hy | hy)
    · exact hS.inTasks y (.inl hy)
    · exact hS.inTasks y (.inr (.inl (mem_erase_nodup no hy).2))
    · rcases mem_sadd.1 hy with hy | rfl
      · exact hS.inTasks y (.inr (.inr hy))
      · exact hS.inTasks y (.inr (.inl hx))
  · intro y hy
    show ∃ i, (st.details.set x _).get? y = some i
    rw [Dict.get?_set]
    split
    · exact ⟨_, rfl⟩
    · exact hS.details y hy
  · intro y hy i
    have hne : y ≠ x := by rintro rfl; exact hxr hy
    show (st.details.set x _).get? y = some i → _
    rw [Dict.get?_set, if_neg hne]
    exact hS.rem y hy i
  · intro y hy
    refine hS.mode y ?_
    rcases hy with hy | hy
    · exact .inl (mem_erase_nodup no hy).2
    · rcases mem_sadd.1 hy with hy | rfl
      · exact .inr hy
      · exact .inl hx
  · intro y hy
    refine hS.prog y ?_
    rcases hy with hy | hy
    · exact .inl (mem_erase_nodup no hy).2
    · rcases mem_sadd.1 hy with hy | rfl
      · exact .inr hy
      · exact .inl hx
  · intro y hy i
    obtain ⟨hne, hy⟩ := mem_erase_nodup no hy
    show (st.details.set x _).get? y = some i → _
    rw [Dict.get?_set, if_neg hne]
    exact hS.ong y hy i
  · intro y hy i
    show (st.details.set x _).get? y = some i → _
    rw [Dict.get?_set]
    split
    · intro he
      rw [← Option.some.inj he]
      have := hS.ong x hx info hi
      simp only [List.length_append, List.length_singleton]
      omega
    · rename_i hne
      rcases mem_sadd.1 hy with hy | hy
      · exact hS.pau y hy i
      · exact absurd hy hne
  · intro y hy
    obtain ⟨hne, hy⟩ := mem_erase_nodup no hy
    show ∃ uf, (st.usedFor.erase x).get? y = some uf ∧ _
    rw [Dict.get?_erase_ne _ hne]
    exact hS.holds y hy

theorem safe_resume {dom : Dom} (hw : WellFormed dom) {st : State} (hS : Safe dom st) (d : Draw)
    {x : TaskId} {m : ModeId} (hx : x ∈ st.paused) (hmode : st.mode.get? x = some m)
    (hacc : ResumeAccepted dom st ⟨some x, .resume, some m, false, none⟩) :
    ∃ st', nextState dom d st ⟨some x, .resume, some m, false, none⟩ = .ok st' ∧ Safe dom st' := by
  obtain ⟨nr, no, np⟩ := parts_nodup hS.nodup
  obtain ⟨info, hi⟩ := hS.details x (hS.inTasks x (.inr (.inr hx)))
  obtain ⟨hxr, hxo⟩ := notRemaining_of_paused hS.nodup hx
  obtain ⟨m', hm', hm⟩ := hS.mode x (.inr hx)
  rw [hmode] at hm'; cases hm'
  have hlen : (info.paused.length ≤ (info.resumed ++ [st.t]).length) := by
    have := hS.pau x hx info hi
    simp only [List.length_append, List.length_singleton]
    omega
  obtain ⟨b, use, h1, h2⟩ := checkStart_def hw (st := resumed st x info) hS.entries
    (a := ⟨some x, .resume, some m, false, none⟩)
    (info := { info with resumed := info.resumed ++ [st.t] })
    rfl rfl rfl (.inr rfl) (Dict.get?_set_self ..) hm (.inr hlen)
  obtain ⟨use', h1'⟩ := hacc rfl x info rfl hi
  rw [h1] at h1'; cases h1'
  obtain ⟨time, h4⟩ := activeTime_def (i := { info with resumed := info.resumed ++ [st.t] })
    (t := st.t) (.inr hlen)
  obtain ⟨used, h3⟩ := addAll_def (l := use) (d := st.used) fun r hr =>
    (hS.entries r).1.2 (List.mem_append_left _ ((h2 r).1 ((Dict.get?_isSome_iff_mem_keys use r).2 hr)))
  let st1 : State := { resumed st x info with used := used, usedFor := st.usedFor.set x use }
  have e1 : updateResume dom st ⟨some x, .resume, some m, false, none⟩ = .ok st1 := by
    have hg : Dict.get (st.details.set x { info with resumed := info.resumed ++ [st.t] }) x =
      .ok { info with resumed := info.resumed ++ [st.t] } := Dict.get_ok_iff.2 (Dict.get?_set_self ..)
    unfold updateResume
    simp only [if_true, resumeMode, bind_ok, sremove, hx, Dict.get_ok_iff.2 hi, hg, h4]
    have h1 : checkStart dom { st with
        ongoing := sadd st.ongoing x, paused := st.paused.erase x
        details := st.details.set x { info with resumed := info.resumed ++ [st.t] } }
        ⟨some x, .resume, some m, false, none⟩ = .ok (true, use) := h1
    rw [h1]
    simp only [bind_ok, if_true, h3]
    rfl
  have e : nextState dom d st ⟨some x, .resume, some m, false, none⟩ = .ok st1 := by
    unfold nextState
    simp only [updatePause, reduceCtorEq, if_false, bind_ok]
    rw [e1]
    simp [updateStart, updateDummy, updateTime, updateAvail, pure, Except.pure]
  refine ⟨_, e, (nextState_sets hS.nodup e).nodup hS.nodup, nextState_entries hS.entries e, ?_, ?_, ?_, ?_,
    ?_, ?_, ?_, ?_⟩
  · rintro y (hy | hy | hy)
    · exact hS.inTasks y (.inl hy)
    · rcases mem_sadd.1 hy with hy | rfl
      · exact hS.inTasks y (.inr (.inl hy))
      · exact hS.inTasks y (.inr (.inr hx))
    · exact hS.inTasks y (.inr (.inr (mem_erase_nodup np hy).2))
  · intro y hy
    show ∃ i, (st.details.set x _).get? y = some i
    rw [Dict.get?_set]
    split
    · exact ⟨_, rfl⟩
    · exact hS.details y hy
  · intro y hy i
    have hne : y ≠ x := by rintro rfl; exact hxr hy
    show (st.details.set x _).get? y = some i → _
    rw [Dict.get?_set, if_neg hne]
    exact hS.rem y hy i
  · intro y hy
    refine hS.mode y ?_
    rcases hy with hy | hy
    · rcases mem_sadd.1 hy with hy | rfl
      · exact .inl hy
      · exact .inr hx
    · exact .inr (mem_erase_nodup np hy).2
  · intro y hy
    refine hS.prog y ?_
    rcases hy with hy | hy
    · rcases mem_sadd.1 hy with hy | rfl
      · exact .inl hy
      · exact .inr hx
    · exact .inr (mem_erase_nodup np hy).2
  · intro y hy i
    show (st.details.set x _).get? y = some i → _
    rw [Dict.get?_set]
    split
    · intro he
      rw [← Option.some.inj he]
      exact hlen
    · rename_i hne
      rcases mem_sadd.1 hy with hy | hy
      · exact hS.ong y hy i
      · exact absurd hy hne
  · intro y hy i
    obtain ⟨hne, hy⟩ := mem_erase_nodup np hy
    show (st.details.set x _).get? y = some i → _
    rw [Dict.get?_set, if_neg hne]
    exact hS.pau y hy i
  · intro y hy
    show ∃ uf, (st.usedFor.set x use).get? y = some uf ∧ _
    rw [Dict.get?_set]
    split
    · exact ⟨use, rfl, h2⟩
    · rename_i hne
      rcases mem_sadd.1 hy with hy | hy
      · exact hS.holds y hy
      · exact absurd hy hne

theorem safe_complete {dom : Dom} (hw : WellFormed dom) {st : State} (hS : Safe dom st)
    {x : TaskId} (hx : x ∈ st.ongoing) :
    ∃ st', completeOne dom st x = .ok st' ∧ Safe dom st' ∧ st'.ongoing = st.ongoing.erase x := by
  obtain ⟨nr, no, np⟩ := parts_nodup hS.nodup
  obtain ⟨info, hi⟩ := hS.details x (hS.inTasks x (.inr (.inl hx)))
  obtain ⟨hxr, hxp⟩ := notRemaining_of_ongoing hS.nodup hx
  obtain ⟨uf, h1, h2⟩ := hS.holds x hx
  have hk : ∀ r ∈ uf.keys, r ∈ dom.resTypes := fun r hr =>
    (h2 r).1 ((Dict.get?_isSome_iff_mem_keys uf r).2 hr)
  obtain ⟨used, h3⟩ := releaseAll_def (back := isRenewable dom) (l := uf) (d := st.used)
    (fun r hr => get_of_isSome (hw.renewable r (hk r hr)))
    (fun r hr => (hS.entries r).1.2 (List.mem_append_left _ (hk r hr)))
  have e : completeOne dom st x = .ok (completed st x info used) := by
    unfold completeOne
    simp only [sremove, hx, if_true, bind_ok, Dict.get_ok_iff.2 h1, h3, dpop, h1, Dict.get_ok_iff.2 hi]
    rfl
  refine ⟨_, e, ⟨(completeOne_sets hS.nodup e).nodup hS.nodup, ?_, ?_, ?_, ?_, ?_, ?_, ?_, ?_, ?_⟩, rfl⟩
  · intro r
    show ((used.get? r).isSome = true ↔ _) ∧ _
    rw [releaseAll_some h3 r]
    exact hS.entries r
  · rintro y (hy | hy | hy)
    · exact hS.inTasks y (.inl hy)
    · exact hS.inTasks y (.inr (.inl (mem_erase_nodup no hy).2))
    · exact hS.inTasks y (.inr (.inr hy))
  · intro y hy
    show ∃ i, (st.details.set x _).get? y = some i
    rw [Dict.get?_set]
    split
    · exact ⟨_, rfl⟩
    · exact hS.details y hy
  · intro y hy i
    have hne : y ≠ x := by rintro rfl; exact hxr hy
    show (st.details.set x _).get? y = some i → _
    rw [Dict.get?_set, if_neg hne]
    exact hS.rem y hy i
  · intro y hy
    refine hS.mode y (hy.imp_left fun hy => (mem_erase_nodup no hy).2)
  · intro y hy
    refine hS.prog y (hy.imp_left fun hy => (mem_erase_nodup no hy).2)
  · intro y hy i
    obtain ⟨hne, hy⟩ := mem_erase_nodup no hy
    show (st.details.set x _).get? y = some i → _
    rw [Dict.get?_set, if_neg hne]
    exact hS.ong y hy i
  · intro y hy i
    have hne : y ≠ x := by rintro rfl; exact hxp hy
    show (st.details.set x _).get? y = some i → _
    rw [Dict.get?_set, if_neg hne]
    exact hS.pau y hy i
  · intro y hy
    obtain ⟨hne, hy⟩ := mem_erase_nodup no hy
    show ∃ uf, (st.usedFor.erase x).get? y = some uf ∧ _
    rw [Dict.get?_erase_ne _ hne]
    exact hS.holds y hy

theorem safe_completions {dom : Dom} (hw : WellFormed dom) {done : List TaskId} {st : State}
    (hS : Safe dom st) (hd : done.Nodup) (hsub : ∀ x ∈ done, x ∈ st.ongoing) :
    ∃ st', done.foldlM (completeOne dom) st = .ok st' ∧ Safe dom st' := by
  induction done generalizing st with
  | nil => exact ⟨st, rfl, hS⟩
  | cons x done ih =>
    obtain ⟨s, h1, h2, h3⟩ := safe_complete hw hS (hsub x (by simp))
    rw [List.nodup_cons] at hd
    obtain ⟨st', h4, h5⟩ := ih h2 hd.2 fun y hy => by
      rw [h3, List.mem_erase_of_ne (by rintro rfl; exact hd.1 hy)]
      exact hsub y (by simp [hy])
    exact ⟨st', by rw [List.foldlM_cons, h1, bind_ok]; exact h4, h5⟩

theorem safe_time {dom : Dom} (hw : WellFormed dom) {st : State} (hS : Safe dom st) (d : Draw) :
    ∃ st', nextState dom d st timeAction = .ok st' ∧ Safe dom st' := by
  have hdet : ∀ x ∈ st.ongoing, ∃ i, st.details.get? x = some i := fun x hx =>
    hS.details x (hS.inTasks x (.inr (.inl hx)))
  obtain ⟨pr, h1, h1'⟩ := updateProgress_def (dom := dom) (st := st) (l := st.ongoing) (pr := st.progress)
    fun x hx => ⟨hS.prog x (.inl hx), (hS.mode x (.inl hx)).imp fun _ h => h.1, hdet x hx⟩
  obtain ⟨uf, us, h2, h2'⟩ := updateCons_def (dom := dom) (st := { st with progress := pr }) (l := st.ongoing)
    (uf := st.usedFor) (us := st.used)
    (fun x hx => ⟨hS.mode x (.inl hx), by
      obtain ⟨i, hi⟩ := hdet x hx
      exact ⟨i, hi, hS.ong x hx i hi⟩⟩)
    (fun r hr => (hS.entries r).1.2 (List.mem_append_left _ hr)) (fun x hx => hS.holds x hx)
  have hprog : ∀ x, x ∈ st.ongoing ∨ x ∈ st.paused → (pr.get? x).isSome = true := fun x hx => by
    obtain ⟨p, hp⟩ := hS.prog x hx
    exact h1' x (by rw [hp]; rfl)
  obtain ⟨done, h3, h3'⟩ := finishing_def (pr := pr) (l := st.ongoing) fun x hx => hprog x (.inl hx)
  have hS0 : Safe dom { st with
      progress := done.foldl (fun d x => Dict.set d x (1 : Rat)) pr, usedFor := uf, used := us } := by
    refine ⟨hS.nodup, ?_, hS.inTasks, hS.details, hS.rem, hS.mode, ?_, hS.ong, hS.pau,
      fun x hx => h2' x (hS.holds x hx)⟩
    · intro r
      show ((us.get? r).isSome = true ↔ _) ∧ _
      rw [updateCons_some h2 r]
      exact hS.entries r
    · intro x hx
      exact some_of_isSome (setOnesTask x (hprog x hx))
  obtain ⟨st2, h4, h5⟩ := safe_completions hw hS0
    ((parts_nodup hS.nodup).2.1.sublist h3') fun x hx => h3'.subset hx
  have e5 : updateTime dom st timeAction = .ok { st2 with t := st2.t + 1 } := by
    unfold updateTime updateComplete
    simp only [timeAction, if_true, h1, bind_ok, h2, h3]
    rw [h4]
    rfl
  have e : nextState dom d st timeAction = .ok (updateAvail dom d { st2 with t := st2.t + 1 } timeAction) := by
    have e5' := e5
    unfold timeAction at e5' ⊢
    unfold nextState
    simp only [updatePause, updateResume, updateStart, updateDummy, reduceCtorEq, if_false, bind_ok, e5']
    rfl
  refine ⟨_, e, (nextState_sets hS.nodup e).nodup hS.nodup, nextState_entries hS.entries e,
    h5.inTasks, h5.details, h5.rem, h5.mode, h5.prog, h5.ong, h5.pau, h5.holds⟩

/-- A step with a proposed action. -/
theorem safe_proposed {dom : Dom} (hw : WellFormed dom) {st : State} (hS : Safe dom st) (d : Draw)
    {as : List Action} {a : Action} (has : actionSpace dom st = .ok as) (ha : a ∈ as)
    (hacc : ResumeAccepted dom st a) :
    ∃ st', nextState dom d st a = .ok st' ∧ Safe dom st' := by
  rcases actionSpace_mem has a ha with ⟨n, m, rfl, h1, h2, ⟨ms, h3, h4⟩, _⟩ | ⟨t, h1, h2, rfl⟩ |
    ⟨t, h1, m, h2, rfl⟩ | rfl
  · obtain ⟨md, h5⟩ := some_of_isSome ((Dict.get?_isSome_iff_mem_keys ms m).2 h4)
    obtain ⟨dd, rfl⟩ := hw.constant n ms m md h3 h5
    exact safe_start hw hS d h1 ⟨ms, dd, h3, h5⟩
  · exact safe_pause hw hS d h1 h2
  · exact safe_resume hw hS d h1 h2 hacc
  · exact safe_time hw hS d

/-! ### The applicable actions -/

theorem overconsuming_def {st : State} {l : Dict Res Int}
    (h : ∀ r ∈ l.keys, (st.avail.get? r).isSome = true) : ∃ b, overconsuming st l = .ok b := by
  induction l with
  | nil => exact ⟨_, rfl⟩
  | cons p l ih =>
    obtain ⟨r, u⟩ := p
    obtain ⟨a, h1⟩ := get_of_isSome (h r (by simp [Dict.keys]))
    simp only [overconsuming, h1, bind_ok]
    split
    · exact ⟨_, rfl⟩
    · exact ih fun r hr => h r (by simp only [Dict.keys, List.map_cons, List.mem_cons] at hr ⊢; exact .inr hr)

theorem possiblePairs_def {dom : Dom} {st : State} {l : List TaskId}
    (h : ∀ x ∈ l, (dom.modes.get? x).isSome = true) : ∃ ps, possiblePairs dom st l = .ok ps := by
  induction l with
  | nil => exact ⟨_, rfl⟩
  | cons x l ih =>
    obtain ⟨ms, h1⟩ := get_of_isSome (h x (by simp))
    obtain ⟨ps, h2⟩ := ih fun y hy => h y (by simp [hy])
    simp only [possiblePairs, h1, h2, bind_ok]
    split <;> exact ⟨_, rfl⟩

theorem enough_def {dom : Dom} {st : State} {x : TaskId} {m : ModeId} (hm : HasMode dom x m)
    {l : List Res} (h : ∀ r ∈ l, (st.avail.get? r).isSome = true ∧ (st.used.get? r).isSome = true) :
    ∃ b, enough dom st x m l = .ok b := by
  induction l with
  | nil => exact ⟨_, rfl⟩
  | cons r l ih =>
    obtain ⟨ms, dd, g1, g2⟩ := hm
    obtain ⟨h1, h2⟩ := h r (by simp)
    obtain ⟨a, h1⟩ := get_of_isSome h1
    obtain ⟨u, h2⟩ := get_of_isSome h2
    simp only [enough, h1, h2, Dict.get_ok_iff.2 g1, Dict.get_ok_iff.2 g2, need_constant, bind_ok]
    split
    · exact ih fun r' hr => h r' (by simp [hr])
    · exact ⟨_, rfl⟩

theorem enoughPairs_def {dom : Dom} {st : State} {ps : List (TaskId × ModeId)}
    (hE : Entries dom st) (h : ∀ p ∈ ps, HasMode dom p.1 p.2) :
    ∃ qs, enoughPairs dom st ps = .ok qs := by
  induction ps with
  | nil => exact ⟨_, rfl⟩
  | cons p ps ih =>
    obtain ⟨x, m⟩ := p
    obtain ⟨b, h1⟩ := enough_def (st := st) (h (x, m) (by simp)) (l := dom.resTypes) fun r hr =>
      ⟨(hE r).2.2 (List.mem_append_left _ hr), (hE r).1.2 (List.mem_append_left _ hr)⟩
    obtain ⟨qs, h2⟩ := ih fun q hq => h q (by simp [hq])
    simp only [enoughPairs, h1, h2, bind_ok]
    exact ⟨_, rfl⟩

theorem pauseActions_def {dom : Dom} {l : List TaskId}
    (h : ∀ x ∈ l, (dom.preempt.get? x).isSome = true) : ∃ as, pauseActions dom l = .ok as := by
  induction l with
  | nil => exact ⟨_, rfl⟩
  | cons x l ih =>
    obtain ⟨ms, h1⟩ := get_of_isSome (h x (by simp))
    obtain ⟨ps, h2⟩ := ih fun y hy => h y (by simp [hy])
    simp only [pauseActions, h1, h2, bind_ok]
    exact ⟨_, rfl⟩

theorem resumeActions_def {st : State} {l : List TaskId}
    (h : ∀ x ∈ l, (st.mode.get? x).isSome = true) : ∃ as, resumeActions st l = .ok as := by
  induction l with
  | nil => exact ⟨_, rfl⟩
  | cons x l ih =>
    obtain ⟨ms, h1⟩ := get_of_isSome (h x (by simp))
    obtain ⟨ps, h2⟩ := ih fun y hy => h y (by simp [hy])
    simp only [resumeActions, h1, h2, bind_ok]
    exact ⟨_, rfl⟩

theorem safe_actionSpace {dom : Dom} (hw : WellFormed dom) {st : State} (hS : Safe dom st) :
    ∃ as, actionSpace dom st = .ok as := by
  obtain ⟨over, h1⟩ := overconsuming_def (st := st) (l := st.used) fun r hr =>
    (hS.entries r).2.2 ((hS.entries r).1.1 ((Dict.get?_isSome_iff_mem_keys st.used r).2 hr))
  obtain ⟨ps, h2⟩ := possiblePairs_def (dom := dom) (st := st) (l := st.remaining) fun x hx =>
    hw.modes x (hS.inTasks x (.inl hx))
  obtain ⟨qs, h3⟩ := enoughPairs_def (ps := ps) hS.entries fun p hp => by
    obtain ⟨n, m⟩ := p
    obtain ⟨_, _, ms, g1, g2⟩ := (possiblePairs_mem h2 n m).1 hp
    obtain ⟨md, g3⟩ := some_of_isSome ((Dict.get?_isSome_iff_mem_keys ms m).2 g2)
    obtain ⟨dd, rfl⟩ := hw.constant n ms m md g1 g3
    exact ⟨ms, dd, g1, g3⟩
  obtain ⟨pa, h4⟩ := pauseActions_def (dom := dom) (l := st.ongoing) fun x hx =>
    hw.preempt x (hS.inTasks x (.inr (.inl hx)))
  obtain ⟨re, h5⟩ := resumeActions_def (st := st) (l := st.paused) fun x hx => by
    obtain ⟨m, hm, _⟩ := hS.mode x (.inr hx)
    rw [hm]; rfl
  have h6 : possibleStarting dom st = .ok (qs.foldl (fun d p => Dict.set d p.1 p.2) []) := by
    unfold possibleStarting
    simp only [h2, h3, bind_ok]
    rfl
  unfold actionSpace
  cases over <;> simp only [h1, h4, h5, h6, bind_ok, pure_bind, if_true, Bool.false_eq_true, if_false] <;>
    exact ⟨_, rfl⟩

theorem initDetails (l : List TaskId) (m : Dict TaskId Info) (x : TaskId) :
    (l.foldl (fun m x => Dict.set m x ({} : Info)) m).get? x = if x ∈ l then some {} else m.get? x := by
  induction l generalizing m with
  | nil => simp
  | cons y l ih =>
    rw [List.foldl_cons, ih, Dict.get?_set]
    by_cases g : x ∈ l
    · simp [g]
    · by_cases g' : x = y <;> simp [g, g']

theorem initState_safe {dom : Dom} (d : Draw) (hd : dom.tasks.Nodup) : Safe dom (initState dom d) := by
  have hdet : ∀ x, (initState dom d).details.get? x = if x ∈ dom.tasks then some {} else none :=
    fun x => initDetails dom.tasks [] x
  refine ⟨initState_nodup hd, initState_entries dom d, ?_, ?_, ?_, ?_, ?_, ?_, ?_, ?_⟩
  · rintro x (hx | hx | hx)
    · exact (List.mem_filter.1 hx).1
    · cases hx
    · cases hx
  · intro x hx
    rw [hdet, if_pos hx]; exact ⟨_, rfl⟩
  · intro x hx i hi
    rw [hdet] at hi
    split at hi
    · cases hi; exact ⟨rfl, rfl, rfl⟩
    · cases hi
  · rintro x (hx | hx) <;> cases hx
  · rintro x (hx | hx) <;> cases hx
  · intro x hx; cases hx
  · intro x hx; cases hx
  · intro x hx; cases hx

end Verif.Sched
