import Verif.Model.SchedRollout
import Verif.Lemmas.SchedLive
import Verif.Lemmas.Pile
import Verif.Props.SchedSafe
import Verif.Props.SchedRes
import Verif.Props.Policies

/-! Following a plan on the scheduling domain. -/
namespace Verif.Sched

/-- A plan: the start time, the mode and the duration of every task. -/
structure Plan where
  start : TaskId → Int
  mode : TaskId → ModeId
  dur : TaskId → Int

/-- What task `x` needs of resource `r` in mode `m`, for modes with constant needs. -/
def needOf (dom : Dom) (m : TaskId → ModeId) (r : Res) (x : TaskId) : Int :=
  match dom.modes.get? x with
  | some ms => match ms.get? (m x) with
    | some (.constant dd) => (dd.get? r).getD 0
    | _ => 0
  | none => 0

/-- The tasks that run at time `t`. -/
def Plan.running (p : Plan) (dom : Dom) (t : Int) : List TaskId :=
  dom.tasks.filter fun x => decide (p.start x ≤ t) && decide (t < p.start x + p.dur x)

/-- The plan uses existing modes, does not start before time zero, respects precedence, and at no
time needs more of a renewable resource, nor altogether more of another resource, than `cap`. -/
structure Plan.Feasible (p : Plan) (dom : Dom) (cap : Res → Int) : Prop where
  mode : ∀ x ∈ dom.tasks, HasMode dom x (p.mode x)
  start : ∀ x ∈ dom.tasks, 0 ≤ p.start x
  dur : ∀ x ∈ dom.tasks, 0 ≤ p.dur x
  prec : ∀ x ∈ dom.tasks, ∀ q ∈ dom.preds x, q ∈ dom.tasks ∧ p.start q + p.dur q ≤ p.start x
  renewable : ∀ r ∈ dom.resTypes, dom.renewable.get? r = some true →
    ∀ t, ((p.running dom t).map (needOf dom p.mode r)).sum ≤ cap r
  consumed : ∀ r ∈ dom.resTypes, dom.renewable.get? r = some false →
    (dom.tasks.map (needOf dom p.mode r)).sum ≤ cap r

/-- Durations below 10000 (longer tasks are completed early), and tasks of duration zero need
nothing (they never give anything back). -/
structure Plan.Sound (p : Plan) (dom : Dom) : Prop where
  short : ∀ x ∈ dom.tasks, p.dur x < 10000
  idle : ∀ x ∈ dom.tasks, p.dur x = 0 → ∀ r, needOf dom p.mode r x = 0

/-- The domains considered: completely described, constant non-negative needs, no skills, no
conditional tasks, no precedence cycle. -/
structure Ordinary (dom : Dom) : Prop where
  wf : WellFormed dom
  constant : ConstantModes dom
  nodup : dom.tasks.Nodup
  skills : dom.taskSkills = none
  plain : ∀ x ∈ dom.tasks, dom.existence.get? x = none ∨ dom.existence.get? x = some []
  acyclic : ∃ rank : TaskId → Nat, ∀ x ∈ dom.tasks, ∀ q ∈ dom.preds x, rank q < rank x

theorem Ordinary.unconditional {dom : Dom} (h : Ordinary dom) : unconditional dom = dom.tasks := by
  unfold Sched.unconditional
  refine List.filter_eq_self.2 fun x hx => ?_
  rcases h.plain x hx with e | e <;> simp [e]

theorem needOf_nonneg {dom : Dom} (h : ConstantModes dom) (m : TaskId → ModeId) (r : Res) (x : TaskId) :
    0 ≤ needOf dom m r x := by
  unfold needOf
  split
  · rename_i ms h1
    split
    · rename_i dd h2
      obtain ⟨dd', e, h3⟩ := h x ms (m x) _ h1 h2
      cases e
      exact h3 r
    · exact Int.le_refl _
  · exact Int.le_refl _

theorem needOf_eq {dom : Dom} {m : TaskId → ModeId} {x : TaskId} {ms : Dict ModeId Mode} {dd : Dict Res Int}
    (h1 : dom.modes.get? x = some ms) (h2 : ms.get? (m x) = some (.constant dd)) (r : Res) :
    needOf dom m r x = val dd r := by
  unfold needOf
  rw [h1]
  simp only [h2]
  rfl

theorem declared_eq {dom : Dom} {m : TaskId → ModeId} {st : State} {x : TaskId}
    (h : st.mode.get? x = some (m x)) (r : Res) : declared dom st r x = needOf dom m r x := by
  unfold declared needOf
  rw [h]
  cases dom.modes.get? x <;> rfl

/-- What is in use of a renewable type is what the ongoing tasks declare. -/
theorem used_sum {dom : Dom} {st : State} (hS : Safe dom st) (hA : Acc dom st) (hC : Cap False dom st)
    {r : Res} (hr : r ∈ dom.resTypes) (hren : dom.renewable.get? r = some true) :
    val st.used r = (st.ongoing.map (declared dom st r)).sum := by
  rw [hA.sum r hren, total_keys hA.kn (declared dom st r) (fun x v hx => declared_of hr (hC.nd x v hx))]
  refine perm_sum (List.Perm.map _ ?_)
  refine (List.perm_ext_iff_of_nodup hA.kn (ongoing_nodup hA.nodup)).2 fun x => ?_
  rw [← Dict.get?_isSome_iff_mem_keys]
  exact ⟨hA.sub x, fun hx => by obtain ⟨uf, h, _⟩ := hS.holds x hx; rw [h]; rfl⟩

/-- Time steps do not change what is in use of a resource that is not renewable. -/
theorem time_consumed {dom : Dom} {d : Draw} {st st' : State} (hC : Cap False dom st)
    (h : nextState dom d st timeAction = .ok st') {r : Res} (hr : dom.renewable.get? r = some false) :
    val st'.used r = val st.used r ∧ st'.mode = st.mode := by
  obtain ⟨s1, s2, s3, s4, s5, e1, e2, e3, e4, e5, e6⟩ := nextState_ok h
  have q1 : s1 = st := by simpa [updatePause, timeAction, eq_comm] using e1
  subst q1
  have q2 : s2 = s1 := by simpa [updateResume, timeAction, eq_comm] using e2
  subst q2
  have q3 : s3 = s2 := by simpa [updateStart, timeAction, eq_comm] using e3
  subst q3
  have q4 : s4 = s3 := by simpa [updateDummy, timeAction, eq_comm] using e4
  subst q4
  have h6 : st'.used = s5.used ∧ st'.mode = s5.mode := by
    rw [e6]; unfold updateAvail; split <;> exact ⟨rfl, rfl⟩
  rw [h6.1, h6.2]
  rcases updateTime_ok e5 with ⟨h, _⟩ | ⟨_, pr, uf, us, st2, _, k2, k3, rfl⟩
  · simp [timeAction] at h
  · obtain ⟨g1, g2, g3, g4⟩ := updateCons_ok k2
    obtain ⟨j1, j2⟩ := updateCons_const (by exact hC.nd) k2
    obtain ⟨done, _, k4⟩ := updateComplete_ok k3
    have : (∀ x v, st2.usedFor.get? x = some v → v.keys.Nodup) ∧ st2.usedFor.keys.Nodup ∧
        val st2.used r = val s4.used r ∧ st2.mode = s4.mode := by
      refine completions_invariant (fun s : State => (∀ x v, s.usedFor.get? x = some v → v.keys.Nodup) ∧
        s.usedFor.keys.Nodup ∧ val s.used r = val s4.used r ∧ s.mode = s4.mode) ?_ ?_ k4
      rotate_left
      · exact ⟨g3 hC.inn, g1 hC.kn, j2 r, rfl⟩
      rintro s s' task ⟨i1, i2, i3, i4⟩ hc
      obtain ⟨uf, used, info, hm, hu, hrel, _, rfl⟩ := completeOne_ok hc
      refine ⟨fun x v hv => i1 x v (get?_erase_some i2 hv).2, keys_erase_nodup i2 task, ?_, i4⟩
      show val used r = _
      rw [(releaseAll_val (i1 _ _ hu) hrel r).2 (by
        unfold isRenewable; rw [Dict.get_ok_iff.2 hr]; intro h; cases h), i3]
    exact ⟨this.2.2.1, this.2.2.2⟩

theorem time_mode {dom : Dom} {d : Draw} {st st' : State}
    (h : nextState dom d st timeAction = .ok st') : st'.mode = st.mode := by
  obtain ⟨s1, s2, s3, s4, s5, e1, e2, e3, e4, e5, e6⟩ := nextState_ok h
  have q1 : s1 = st := by simpa [updatePause, timeAction, eq_comm] using e1
  subst q1
  have q2 : s2 = s1 := by simpa [updateResume, timeAction, eq_comm] using e2
  subst q2
  have q3 : s3 = s2 := by simpa [updateStart, timeAction, eq_comm] using e3
  subst q3
  have q4 : s4 = s3 := by simpa [updateDummy, timeAction, eq_comm] using e4
  subst q4
  have h6 : st'.mode = s5.mode := by
    rw [e6]; unfold updateAvail; split <;> rfl
  rw [h6]
  rcases updateTime_ok e5 with ⟨h, _⟩ | ⟨_, pr, uf, us, st2, _, k2, k3, rfl⟩
  · simp [timeAction] at h
  · obtain ⟨done, _, k4⟩ := updateComplete_ok k3
    show st2.mode = s4.mode
    refine completions_invariant (fun s : State => s.mode = s4.mode) ?_ ?_ k4
    rotate_left
    · rfl
    intro s s' task i1 hc
    obtain ⟨uf, used, info, hm, hu, hrel, _, rfl⟩ := completeOne_ok hc
    exact i1

/-- Membership and details after a time step, for a task that is not ongoing. -/
theorem time_record {dom : Dom} {d : Draw} {st st' : State} (hn : (allOf st).Nodup)
    (h : nextState dom d st timeAction = .ok st') (x : TaskId) (hx : x ∉ st.ongoing) :
    st'.details.get? x = st.details.get? x ∧ (x ∈ st'.remaining ↔ x ∈ st.remaining) ∧
      (x ∈ st'.complete ↔ x ∈ st.complete) := by
  obtain ⟨s1, s2, s3, s4, s5, e1, e2, e3, e4, e5, e6⟩ := nextState_ok h
  have q1 : s1 = st := by simpa [updatePause, timeAction, eq_comm] using e1
  subst q1
  have q2 : s2 = s1 := by simpa [updateResume, timeAction, eq_comm] using e2
  subst q2
  have q3 : s3 = s2 := by simpa [updateStart, timeAction, eq_comm] using e3
  subst q3
  have q4 : s4 = s3 := by simpa [updateDummy, timeAction, eq_comm] using e4
  subst q4
  obtain ⟨h1, h2, h3, h4, h5, h6⟩ := (updateTime_record (x := x) hn rfl e5).1 hx
  have hs := updateAvail_same dom d s5 timeAction x
  rw [e6]
  exact ⟨by rw [hs.details, h1], by rw [hs.rem, h3], by rw [hs.com, h6]⟩

/-- An accepted start of duration zero completes at once. -/
theorem start_zero {dom : Dom} {d : Draw} {st st' : State} {a : Action} {x : TaskId}
    (hk : a.kind = .start) (ht : a.task = some x)
    (htp : a.timeProgress = false) (hacc : Accepted dom st a) (hd : d.duration = 0)
    (h : nextState dom d st a = .ok st') :
    x ∈ st'.complete ∧ ∃ i, st'.details.get? x = some i ∧ i.start = some st.t ∧ i.finish = some st.t := by
  obtain ⟨use, hch⟩ := hacc
  obtain ⟨s1, s2, s3, s4, s5, h1, h2, h3, h4, h5, rfl⟩ := nextState_ok h
  have e1 : s1 = st := by
    rcases updatePause_ok h1 with ⟨_, h⟩ | ⟨hk', _⟩
    · exact h
    · rw [hk] at hk'; cases hk'
  have e2 : s2 = s1 := by
    rcases updateResume_ok h2 with ⟨_, h⟩ | ⟨hk', _⟩
    · exact h
    · rw [hk] at hk'; cases hk'
  subst e2 e1
  have e5 : s4 = s5 := by
    rcases updateTime_ok h5 with ⟨_, h⟩ | ⟨ht', _⟩
    · exact h.symm
    · rw [htp] at ht'; cases ht'
  subst e5
  have e6 : updateAvail dom d s4 a = s4 := by unfold updateAvail; rw [htp]; rfl
  rw [e6]
  rcases updateStart_ok h3 with ⟨hk', _⟩ | ⟨_, b, use', hch', hc⟩
  · exact absurd hk hk'
  · rw [hch] at hch'
    cases hch'
    rcases hc with ⟨hc, _⟩ | ⟨_, task, mode, info, used, hta, hmo, _, _, ha, rfl⟩
    · cases hc
    · rw [ht] at hta; cases hta
      rcases updateDummy_ok h4 with ⟨hk', _⟩ | ⟨_, task, info', ht', hi, hc⟩
      · exact absurd hk hk'
      · rw [ht] at ht'; cases ht'
        have hi2 : (started d s2 x mode info use used).details.get? x =
            some { info with start := some s2.t, sampled := some d.duration } := Dict.get?_set_self ..
        rw [hi2] at hi; cases hi
        rcases hc with ⟨h, _⟩ | ⟨_, _, _, rfl⟩
        · simp [hd] at h
        · refine ⟨mem_sadd.2 (.inr rfl), _, Dict.get?_set_self _ _ _, ?_, rfl⟩
          rfl

/-! ### The invariant -/

/-- The tasks that have been started. -/
def begun (dom : Dom) (st : State) : List TaskId := dom.tasks.filter fun x => decide (x ∉ st.remaining)

theorem mem_begun {dom : Dom} {st : State} {x : TaskId} : x ∈ begun dom st ↔ x ∈ dom.tasks ∧ x ∉ st.remaining := by
  simp [begun]

theorem begun_nodup {dom : Dom} (h : dom.tasks.Nodup) (st : State) : (begun dom st).Nodup :=
  h.sublist List.filter_sublist

/-- Where the plan stands. -/
structure Track (dom : Dom) (p : Plan) (cap : Res → Int) (st : State) : Prop where
  rem : ∀ x ∈ st.remaining, st.t ≤ p.start x
  past : ∀ x ∈ dom.tasks, x ∉ st.remaining → p.start x ≤ st.t ∧ st.mode.get? x = some (p.mode x) ∧
    (p.dur x = 0 → x ∈ st.complete ∧ ∃ i, st.details.get? x = some i ∧ i.start = some (p.start x) ∧
      i.finish = some (p.start x)) ∧
    (1 ≤ p.dur x → Phase x (p.start x) (p.dur x) st)
  avail : ∀ r ∈ dom.resTypes, st.avail.get? r = some (cap r)
  consumed : ∀ r ∈ dom.resTypes, dom.renewable.get? r = some false →
    val st.used r = ((begun dom st).map (needOf dom p.mode r)).sum

structure Inv (dom : Dom) (p : Plan) (cap : Res → Int) (st : State) : Prop where
  live : Live dom 10000 st
  cap' : Cap False dom st
  track : Track dom p cap st

theorem Inv.running {dom : Dom} {p : Plan} {cap : Res → Int} {st : State}
    (hp : p.Feasible dom cap) (hI : Inv dom p cap st) {x : TaskId} (hx : x ∈ st.ongoing) :
    x ∈ dom.tasks ∧ p.start x ≤ st.t ∧ st.t < p.start x + p.dur x ∧ st.mode.get? x = some (p.mode x) := by
  have hxt := hI.live.safe.inTasks x (.inr (.inl hx))
  have hnr : x ∉ st.remaining := fun h => notOngoing_of_remaining hI.live.safe.nodup h hx
  have hnc : x ∉ st.complete := by
    intro h
    have := nodup_count hI.live.safe.nodup x
    rw [count_allOf] at this
    have a1 := List.count_pos_iff.2 h
    have a2 := List.count_pos_iff.2 hx
    omega
  obtain ⟨h1, h2, h3, h4⟩ := hI.track.past x hxt hnr
  refine ⟨hxt, h1, ?_, h2⟩
  have hd : 1 ≤ p.dur x := by
    have := hp.dur x hxt
    by_cases h0 : p.dur x = 0
    · exact absurd (h3 h0).1 hnc
    · omega
  rcases h4 hd with ⟨_, g, _⟩ | ⟨g, _⟩
  · omega
  · exact absurd g hnc

theorem Inv.ended {dom : Dom} {p : Plan} {cap : Res → Int} {st : State}
    (hp : p.Feasible dom cap) (hI : Inv dom p cap st) {x : TaskId} (hx : x ∈ dom.tasks)
    (hr : x ∉ st.remaining) (he : p.start x + p.dur x ≤ st.t) : x ∈ st.complete := by
  obtain ⟨h1, h2, h3, h4⟩ := hI.track.past x hx hr
  have := hp.dur x hx
  by_cases h0 : p.dur x = 0
  · exact (h3 h0).1
  · rcases h4 (by omega) with ⟨_, g, _⟩ | ⟨g, _⟩
    · omega
    · exact g

/-- At its start time a task of the plan finds its resources. -/
theorem Inv.enough {dom : Dom} {p : Plan} {cap : Res → Int} {st : State} (ho : Ordinary dom)
    (hp : p.Feasible dom cap) (hs : p.Sound dom) (hI : Inv dom p cap st) {x : TaskId}
    (hx : x ∈ st.remaining) (ht : p.start x = st.t) : Enough dom st x (p.mode x) := by
  intro r hr
  have hxt := hI.live.safe.inTasks x (.inl hx)
  obtain ⟨ms, dd, h1, h2⟩ := hp.mode x hxt
  have hne := needOf_eq h1 h2 r
  obtain ⟨u, hu⟩ := some_of_isSome ((hI.live.safe.entries r).1.2 (List.mem_append_left _ hr))
  refine ⟨cap r, u, ms, _, _, hI.track.avail r hr, hu, h1, h2, need_constant dd r _, ?_⟩
  rw [← hne]
  have hu' := val_of_get hu
  have hnn := fun y => needOf_nonneg ho.constant p.mode r y
  have hxo : x ∉ st.ongoing := notOngoing_of_remaining hI.live.safe.nodup hx
  obtain ⟨b, hb⟩ := some_of_isSome (ho.wf.renewable r hr)
  cases b with
  | true =>
    have h3 := used_sum hI.live.safe hI.live.acc hI.cap' hr hb
    have h4 : (st.ongoing.map (declared dom st r)).sum = (st.ongoing.map (needOf dom p.mode r)).sum := by
      congr 1
      exact List.map_congr_left fun y hy => declared_eq (hI.running hp hy).2.2.2 r
    have h5 := hp.renewable r hr hb st.t
    by_cases h0 : p.dur x = 0
    · have := hs.idle x hxt h0 r
      have h6 := Pile.sum_le_of_subset (f := needOf dom p.mode r) st.ongoing (p.running dom st.t)
        (parts_nodup hI.live.safe.nodup).2.1 (by
          intro y hy
          obtain ⟨g1, g2, g3, _⟩ := hI.running hp hy
          exact List.mem_filter.2 ⟨g1, by simp [g2, g3]⟩) (fun y _ => hnn y)
      omega
    · have hd := hp.dur x hxt
      have h6 := Pile.sum_le_of_subset (f := needOf dom p.mode r) (x :: st.ongoing) (p.running dom st.t)
        (List.nodup_cons.2 ⟨hxo, (parts_nodup hI.live.safe.nodup).2.1⟩) (by
          intro y hy
          rcases List.mem_cons.1 hy with rfl | hy
          · exact List.mem_filter.2 ⟨hxt, by simp; omega⟩
          · obtain ⟨g1, g2, g3, _⟩ := hI.running hp hy
            exact List.mem_filter.2 ⟨g1, by simp [g2, g3]⟩) (fun y _ => hnn y)
      rw [List.map_cons, List.sum_cons] at h6
      omega
  | false =>
    have h3 := hI.track.consumed r hr hb
    have h5 := hp.consumed r hr hb
    have h6 := Pile.sum_le_of_subset (f := needOf dom p.mode r)
      (x :: begun dom st) dom.tasks
      (List.nodup_cons.2 ⟨by simp [mem_begun, hx], begun_nodup ho.nodup st⟩) (by
        intro y hy
        rcases List.mem_cons.1 hy with rfl | hy
        · exact hxt
        · exact (mem_begun.1 hy).1) (fun y _ => hnn y)
    rw [List.map_cons, List.sum_cons] at h6
    omega

/-- The values drawn in a step are those of the plan and the capacities. -/
def Drawn (dom : Dom) (p : Plan) (cap : Res → Int) (a : Action) (d : Draw) : Prop :=
  (∀ x ∈ dom.tasks, a.task = some x → a.mode = some (p.mode x) → d.duration = p.dur x) ∧ ∀ r ∈ dom.resTypes ++ dom.resUnits, d.avail r = cap r

theorem roomy_of {dom : Dom} {p : Plan} {cap f : Res → Int} (ho : Ordinary dom)
    (hp : p.Feasible dom cap) (hs : p.Sound dom) (hu : ∀ r ∈ dom.resUnits, 0 ≤ cap r)
    (hf : ∀ r ∈ dom.resTypes ++ dom.resUnits, f r = cap r) : Roomy dom f := by
  have hnn := fun r y => needOf_nonneg ho.constant p.mode r y
  have h0 : ∀ r ∈ dom.resTypes, 0 ≤ cap r := by
    intro r hr
    obtain ⟨b, hb⟩ := some_of_isSome (ho.wf.renewable r hr)
    cases b with
    | true =>
      refine Int.le_trans (sum_nonneg_int ?_) (hp.renewable r hr hb 0)
      intro y hy
      obtain ⟨x, _, rfl⟩ := List.mem_map.1 hy
      exact hnn r x
    | false =>
      refine Int.le_trans (sum_nonneg_int ?_) (hp.consumed r hr hb)
      intro y hy
      obtain ⟨x, _, rfl⟩ := List.mem_map.1 hy
      exact hnn r x
  refine ⟨?_, ?_⟩
  · intro r hr
    rw [hf r hr]
    rcases List.mem_append.1 hr with h | h
    · exact h0 r h
    · exact hu r h
  · intro x hx
    obtain ⟨ms, dd, h1, h2⟩ := hp.mode x hx
    refine ⟨_, ms, dd, h1, h2, fun r hr => ?_⟩
    rw [hf r (List.mem_append_left _ hr), ← needOf_eq h1 h2 r]
    by_cases hz : p.dur x = 0
    · rw [hs.idle x hx hz r]; exact h0 r hr
    · have hd := hp.dur x hx
      obtain ⟨b, hb⟩ := some_of_isSome (ho.wf.renewable r hr)
      cases b with
      | true =>
        refine Int.le_trans (le_sum_of_mem_int ?_ (List.mem_map.2 ⟨x, ?_, rfl⟩)) (hp.renewable r hr hb (p.start x))
        · intro y hy
          obtain ⟨x, _, rfl⟩ := List.mem_map.1 hy
          exact hnn r x
        · exact List.mem_filter.2 ⟨hx, by simp; omega⟩
      | false =>
        refine Int.le_trans (le_sum_of_mem_int ?_ (List.mem_map.2 ⟨x, hx, rfl⟩)) (hp.consumed r hr hb)
        intro y hy
        obtain ⟨x, _, rfl⟩ := List.mem_map.1 hy
        exact hnn r x

/-- The start of `x` in mode `m`, without units. -/
def startIn (x : TaskId) (m : ModeId) : Action := ⟨some x, .start, some m, false, none⟩

theorem inv_start {dom : Dom} {p : Plan} {cap : Res → Int} {st : State} (ho : Ordinary dom)
    (hp : p.Feasible dom cap) (hs : p.Sound dom) (hI : Inv dom p cap st) {x : TaskId}
    (hx : x ∈ st.remaining) (ht : p.start x = st.t) {d : Draw} (hd : d.duration = p.dur x) :
    Accepted dom st (startIn x (p.mode x)) ∧
    ∃ st', nextState dom d st (startIn x (p.mode x)) = .ok st' ∧ Inv dom p cap st' ∧ st'.t = st.t ∧
      st'.remaining.length + 1 = st.remaining.length ∧ (∀ y, y ∈ st'.remaining → y ∈ st.remaining) := by
  have hxt := hI.live.safe.inTasks x (.inl hx)
  have he := hI.enough ho hp hs hx ht
  have hm := hp.mode x hxt
  have hacc : Accepted dom st (startIn x (p.mode x)) := checkStart_accepts ho.skills hI.live.safe hx hm he
  refine ⟨hacc, ?_⟩
  have hdur := hp.dur x hxt
  have hsh := hs.short x hxt
  obtain ⟨ms, dd, h1, h2⟩ := hm
  have hz : ZeroFree dom (startIn x (p.mode x)) d := by
    intro _ h0
    refine ⟨rfl, ?_⟩
    intro task m ms' md e1 e2 e3 e4 r n t e5
    cases e1; cases e2
    rw [h1] at e3; cases e3
    rw [h2] at e4; cases e4
    rw [need_constant] at e5
    cases e5
    rw [← needOf_eq h1 h2 r]
    exact hs.idle x hxt (by omega) r
  obtain ⟨st', e1, e2, e3, e4, _⟩ := live_start ho.wf ho.skills hI.live d hx ⟨ms, dd, h1, h2⟩ he
    ⟨by omega, by omega⟩ hz
  obtain ⟨st'', f1, f2, _, _, _, f3, _⟩ := C49_accepted_start_starts dom d st hI.live.safe.nodup
    (startIn x (p.mode x)) x (p.mode x) rfl rfl rfl rfl hx hacc
  have hst : st'' = st' := by rw [show nextState dom d st (startIn x (p.mode x)) = _ from e1] at f1; exact (Except.ok.inj f1).symm
  subst hst
  obtain ⟨g1, g2⟩ := C49_start_charges dom d st st'' (startIn x (p.mode x)) x (p.mode x) ms dd rfl rfl rfl rfl hacc
    h1 h2 e1
  have hsub : ∀ y, y ∈ st''.remaining ↔ y ∈ st.remaining ∧ y ≠ x := by
    intro y
    by_cases hy : y = x
    · subst hy; simp [f2]
    · rw [(g2 y hy).rem]; simp [hy]
  have hav : st''.avail = st.avail :=
    (C13_availability_updated dom d st st'' (startIn x (p.mode x)) e1).2 rfl
  refine ⟨st'', e1, ⟨e2, ?_, ?_⟩, e4, e3, fun y hy => ((hsub y).1 hy).1⟩
  · exact nextState_cap ho.constant hI.cap' (fun u hu => (List.not_mem_nil hu).elim) (fun hk => by cases hk)
      (fun h => h.elim) e1
  · refine ⟨?_, ?_, ?_, ?_⟩
    · intro y hy
      rw [e4]
      exact hI.track.rem y ((hsub y).1 hy).1
    · intro y hyt hyr
      by_cases hy : y = x
      · subst hy
        refine ⟨by omega, f3, ?_, ?_⟩
        · intro h0
          obtain ⟨k1, i, k2, k3, k4⟩ := start_zero (x := y) rfl rfl rfl hacc (by omega) e1
          exact ⟨k1, i, k2, by rw [k3, ht], by rw [k4, ht]⟩
        · intro h1'
          have := nextState_opens (x := y) hI.live.safe.nodup (by omega) rfl rfl hx f2 e1
          rw [hd, ← ht] at this
          exact this
      · have hyr' : y ∉ st.remaining := fun h => hyr ((hsub y).2 ⟨h, hy⟩)
        obtain ⟨k1, k2, k3, k4⟩ := hI.track.past y hyt hyr'
        have hs := g2 y hy
        refine ⟨by omega, by rw [hs.mode, k2], ?_, fun h => (k4 h).same hs e4⟩
        intro h0
        rw [hs.com, hs.details]
        exact k3 h0
    · intro r hr
      rw [hav]; exact hI.track.avail r hr
    · intro r hr hb
      rw [g1 r, hI.track.consumed r hr hb, if_neg (by exact List.not_mem_nil), if_pos hr, ← needOf_eq h1 h2 r]
      have hperm : (begun dom st'').Perm (x :: begun dom st) := by
        refine (List.perm_ext_iff_of_nodup (begun_nodup ho.nodup st'')
          (List.nodup_cons.2 ⟨by simp [mem_begun, hx], begun_nodup ho.nodup st⟩)).2 fun y => ?_
        rw [List.mem_cons, mem_begun, mem_begun, hsub]
        by_cases hy : y = x
        · subst hy; simp [hxt]
        · simp [hy]
      rw [perm_sum (hperm.map _), List.map_cons, List.sum_cons]
      omega

theorem inv_time {dom : Dom} {p : Plan} {cap : Res → Int} {st : State} (ho : Ordinary dom)
    (hp : p.Feasible dom cap) (hs : p.Sound dom) (hu : ∀ r ∈ dom.resUnits, 0 ≤ cap r) (hI : Inv dom p cap st)
    (hx : ∀ x ∈ st.remaining, st.t < p.start x) {d : Draw}
    (hd : ∀ r ∈ dom.resTypes ++ dom.resUnits, d.avail r = cap r) :
    ∃ st', nextState dom d st timeAction = .ok st' ∧ Inv dom p cap st' ∧ st'.t = st.t + 1 ∧
      st'.remaining.length = st.remaining.length := by
  obtain ⟨st', e1, e2, e3, e4, e5⟩ := live_time ho.wf hI.live d (roomy_of ho hp hs hu hd)
  have hn := hI.live.safe.nodup
  have hrem : ∀ y, y ∈ st'.remaining ↔ y ∈ st.remaining := by
    intro y
    by_cases hy : y ∈ st.ongoing
    · have h1 : y ∉ st.remaining := fun h => notOngoing_of_remaining hn h hy
      obtain ⟨g1, g2, g3, _⟩ := hI.running hp hy
      obtain ⟨_, _, k3, k4⟩ := hI.track.past y g1 h1
      have hd1 : 1 ≤ p.dur y := by omega
      have := (nextState_phase hn hd1 (k4 hd1) (by simp [timeAction]) e1).where_ e2.safe.nodup
      exact ⟨fun h => absurd h this.1, fun h => absurd h h1⟩
    · exact (time_record hn e1 y hy).2.1
  have hmode := time_mode e1
  refine ⟨st', e1, ⟨e2, ?_, ?_⟩, e4, e3⟩
  · exact nextState_cap ho.constant hI.cap' (fun u hu => (List.not_mem_nil hu).elim) (fun hk => by cases hk)
      (fun h => h.elim) e1
  · refine ⟨?_, ?_, ?_, ?_⟩
    · intro y hy
      have := hx y ((hrem y).1 hy)
      omega
    · intro y hyt hyr
      have hyr' : y ∉ st.remaining := fun h => hyr ((hrem y).2 h)
      obtain ⟨k1, k2, k3, k4⟩ := hI.track.past y hyt hyr'
      refine ⟨by omega, by rw [hmode, k2], ?_, fun h => nextState_phase hn h (k4 h) (by simp [timeAction]) e1⟩
      intro h0
      obtain ⟨j1, j2⟩ := k3 h0
      have hno : y ∉ st.ongoing := by
        intro h
        have := (hI.running hp h).2.2.1
        omega
      obtain ⟨i1, i2, i3⟩ := time_record hn e1 y hno
      rw [i1, i3]
      exact ⟨j1, j2⟩
    · intro r hr
      have hr' : r ∈ dom.resTypes ++ dom.resUnits := List.mem_append_left _ hr
      rw [(C13_availability_updated dom d st st' timeAction e1).1 rfl r hr', hd r hr']
    · intro r hr hb
      rw [(time_consumed hI.cap' e1 hb).1, hI.track.consumed r hr hb]
      congr 2
      unfold begun
      refine List.filter_congr fun y _ => ?_
      simp [hrem y]

/-- When no task is left to be started now, the plan lets time pass; otherwise some task that is
to start now has all its predecessors complete. -/
theorem ready_exists {dom : Dom} {p : Plan} {cap : Res → Int} {st : State} (ho : Ordinary dom)
    (hp : p.Feasible dom cap) (hI : Inv dom p cap st) (h : ∃ x ∈ st.remaining, p.start x = st.t) :
    ∃ x ∈ st.remaining, p.start x = st.t ∧ ∀ q ∈ dom.preds x, q ∈ st.complete := by
  obtain ⟨rank, hrank⟩ := ho.acyclic
  have hne : (st.remaining.filter fun x => decide (p.start x = st.t)) ≠ [] := by
    obtain ⟨x, h1, h2⟩ := h
    exact List.ne_nil_of_mem (List.mem_filter.2 ⟨h1, by simp [h2]⟩)
  obtain ⟨x, hx, hmin⟩ := exists_min_rank rank _ hne
  simp only [List.mem_filter, decide_eq_true_eq, and_imp] at hx hmin
  refine ⟨x, hx.1, hx.2, fun q hq => ?_⟩
  have hxt := hI.live.safe.inTasks x (.inl hx.1)
  obtain ⟨h1, h2⟩ := hp.prec x hxt q hq
  have hd := hp.dur q h1
  have hqr : q ∉ st.remaining := by
    intro hr
    have h3 := hI.track.rem q hr
    have := hmin q hr (by omega)
    have := hrank x hxt q hq
    omega
  exact hI.ended hp h1 hqr (by omega)

end Verif.Sched
