import Verif.Lemmas.SchedAcc
import Verif.Lemmas.ListSum
import Verif.Props.Sched

/-!
C13: resources of the scheduling domain.  The amounts in use are what the ongoing tasks
declare, they stay within the amounts available, and only ongoing tasks hold anything.
-/
namespace Verif.Sched

/-- The quantity of resource type `r` that task `x` declares in the mode it was started in. -/
def declared (dom : Dom) (st : State) (r : Res) (x : TaskId) : Int :=
  match st.mode.get? x, dom.modes.get? x with
  | some m, some ms => match ms.get? m with
    | some (.constant dd) => (dd.get? r).getD 0
    | _ => 0
  | _, _ => 0

/-- The circumstances under which the book-keeping is exact: a task drawn with duration zero
needs nothing, unit names are not type names, a paused task is resumed in its mode and only
when its resources are there. -/
def Tidy (dom : Dom) (st : State) (a : Action) (d : Draw) : Prop :=
  ZeroFree dom a d ∧ UnitsApart dom a ∧ ResumesInMode st a ∧ ResumeAccepted dom st a

/-- The availability drawn for the next time is at least the present one. -/
def NoShrink (dom : Dom) (st : State) (a : Action) (d : Draw) : Prop :=
  a.timeProgress = true → ∀ r ∈ dom.resUnits ++ dom.resTypes, ∀ v, st.avail.get? r = some v → v ≤ d.avail r

theorem initState_acc (dom : Dom) (d : Draw) (hd : dom.tasks.Nodup) :
    Acc dom (initState dom d) ∧ NoZero (initState dom d) ∧ Holds (initState dom d) ∧
      Sub (initState dom d) := by
  have hn := initState_nodup (dom := dom) (d := d) hd
  have hu : (initState dom d).usedFor = [] := rfl
  refine ⟨⟨hn, by rw [hu]; simp [Dict.keys], ?_, ?_, ?_⟩, ?_, ?_, ⟨hn, by rw [hu]; simp [Dict.keys], ?_⟩⟩
  · intro x hx; rw [hu] at hx; cases hx
  · intro x v hx; rw [hu] at hx; cases hx
  · intro r _
    rw [hu, total_nil]
    unfold val
    rw [(initState_get dom d r).2]
    split <;> rfl
  · intro x info hx; rcases hx with hx | hx <;> cases hx
  · intro x hx; cases hx
  · intro x hx; rw [hu] at hx; cases hx

theorem declared_of {dom : Dom} {st : State} {r : Res} {x : TaskId} {uf : Dict Res Int}
    (hr : r ∈ dom.resTypes) (h : Declared dom st.mode x uf) : declared dom st r x = val uf r := by
  obtain ⟨m, ms, dd, h1, h2, h3, h4⟩ := h r hr
  rw [val_of_get h4]
  unfold declared
  rw [h1, h2]
  simp only [h3]
  rfl

theorem initState_cap (C : Prop) (dom : Dom) (d : Draw) (hd : dom.tasks.Nodup)
    (hav : C → ∀ r ∈ dom.resTypes ++ dom.resUnits, 0 ≤ d.avail r) : Cap C dom (initState dom d) := by
  have hn := initState_nodup (dom := dom) (d := d) hd
  have hu : (initState dom d).usedFor = [] := rfl
  refine ⟨hn, by rw [hu]; simp [Dict.keys], ?_, ?_, ?_, ?_, ?_⟩
  · intro x hx; rw [hu] at hx; cases hx
  · intro x v hx; rw [hu] at hx; cases hx
  · intro x v hx; rw [hu] at hx; cases hx
  · intro x v r hx; rw [hu] at hx; cases hx
  · intro hc r
    obtain ⟨h1, h2⟩ := initState_get dom d r
    unfold val
    rw [h1, h2]
    split
    · rename_i hr; exact hav hc r hr
    · simp

/-- With constant needs, on every run of tidy steps, the quantity in use of each renewable
resource type is the sum over the ongoing tasks of what they declare.  (Partial: the full
claim fails when a task of drawn duration zero needs resources, when a paused task is resumed
without its resources, and when needs vary with time; see below.) -/
theorem C13_in_use_is_sum_of_needs_partial (dom : Dom) (d0 : Draw) (hd : dom.tasks.Nodup)
    (hC : ConstantModes dom) (l : List (Action × Draw)) (st : State)
    (hT : Along (Tidy dom) dom (initState dom d0) l)
    (h : run dom (initState dom d0) l = .ok st)
    (r : Res) (hr : r ∈ dom.resTypes) (hren : dom.renewable.get? r = some true) :
    st.used.get? r = some (st.ongoing.map (declared dom st r)).sum := by
  obtain ⟨i1, i2, i3, _⟩ := initState_acc dom d0 hd
  have hI : (fun s : State => Acc dom s ∧ NoZero s ∧ Holds s ∧ Cap False dom s ∧ Entries dom s) st := by
    refine along_run (P := Tidy dom) (dom := dom)
      (I := fun s : State => Acc dom s ∧ NoZero s ∧ Holds s ∧ Cap False dom s ∧ Entries dom s) ?_ ⟨i1, i2, i3, initState_cap False dom d0 hd (fun h => h.elim),
      initState_entries dom d0⟩ hT h
    rintro s a d s' ⟨q1, q2, q3, q4, q5⟩ ⟨t1, t2, t3, t4⟩ hs
    obtain ⟨p1, p2⟩ := nextState_acc q1 q2 t1 hs
    exact ⟨p1, p2, nextState_holds q1.nodup q3 t4 hs, nextState_cap hC q4 t2 t3 (fun h => h.elim) hs,
      nextState_entries q5 hs⟩
  obtain ⟨q1, q2, q3, q4, q5⟩ := hI
  have hsome := (q5 r).1.2 (List.mem_append.2 (.inl hr))
  obtain ⟨u, hu⟩ := Option.isSome_iff_exists.1 hsome
  have hsum := q1.sum r hren
  rw [val_of_get hu] at hsum
  rw [hu, hsum, total_keys q1.kn (declared dom st r) (fun x v hx => declared_of hr (q4.nd x v hx))]
  congr 1
  refine perm_sum (List.Perm.map _ ?_)
  refine (List.perm_ext_iff_of_nodup q1.kn (ongoing_nodup q1.nodup)).2 fun x => ?_
  rw [← Dict.get?_isSome_iff_mem_keys]
  exact ⟨q1.sub x, q3 x⟩

/-- With constant needs, when capacities do not shrink, no more of any resource is in use than
available, on every run in which units are not named like types and paused tasks are resumed
in their mode. -/
theorem C13_capacity_partial (dom : Dom) (d0 : Draw) (hd : dom.tasks.Nodup) (hC : ConstantModes dom)
    (hav : ∀ r ∈ dom.resTypes ++ dom.resUnits, 0 ≤ d0.avail r)
    (l : List (Action × Draw)) (st : State)
    (hT : Along (fun st a d => UnitsApart dom a ∧ ResumesInMode st a ∧ NoShrink dom st a d) dom
      (initState dom d0) l)
    (h : run dom (initState dom d0) l = .ok st) (r : Res) (u : Int) (hu : st.used.get? r = some u) :
    ∃ v, st.avail.get? r = some v ∧ u ≤ v := by
  have hI : (fun s : State => Cap True dom s ∧ Entries dom s) st := by
    refine along_run (dom := dom) (I := fun s : State => Cap True dom s ∧ Entries dom s) ?_ ⟨initState_cap True dom d0 hd (fun _ => hav),
      initState_entries dom d0⟩ hT h
    rintro s a d s' ⟨q1, q2⟩ ⟨t1, t2, t3⟩ hs
    refine ⟨nextState_cap hC q1 t1 t2 (fun _ htp r hr => ?_) hs, nextState_entries q2 hs⟩
    have : (s.avail.get? r).isSome = true :=
      (q2 r).2.2 (List.mem_append.2 ((List.mem_append.1 hr).symm))
    obtain ⟨v, hv⟩ := Option.isSome_iff_exists.1 this
    rw [val_of_get hv]
    exact t3 htp r hr v hv
  obtain ⟨q1, q2⟩ := hI
  have hm := (q2 r).1.1 (by rw [hu]; rfl)
  obtain ⟨v, hv⟩ := Option.isSome_iff_exists.1 ((q2 r).2.2 hm)
  have := q1.cap trivial r
  rw [val_of_get hu, val_of_get hv] at this
  exact ⟨v, hv, this⟩

/-- The actions the domain itself proposes meet the conditions on actions of
`C13_capacity_partial`. -/
theorem proposed_tame {dom : Dom} {st : State} {as : List Action} {a : Action}
    (h : actionSpace dom st = .ok as) (ha : a ∈ as) : UnitsApart dom a ∧ ResumesInMode st a := by
  rcases actionSpace_mem h a ha with ⟨n, m, rfl, _⟩ | ⟨n, _, _, rfl⟩ | ⟨n, _, m, hm, rfl⟩ | rfl
  · exact ⟨fun u hu => (List.not_mem_nil hu).elim, fun hk => (by cases hk)⟩
  · exact ⟨fun u hu => (List.not_mem_nil hu).elim, fun hk => (by cases hk)⟩
  · refine ⟨fun u hu => (List.not_mem_nil hu).elim, fun _ task ht => ?_⟩
    cases ht
    exact hm.symm
  · exact ⟨fun u hu => (List.not_mem_nil hu).elim, fun hk => (by cases hk)⟩

/-- When only proposed actions are played, needs are constant and capacities do not shrink, no
more of any resource is ever in use than available. -/
theorem C13_capacity_proposed (dom : Dom) (d0 : Draw) (hd : dom.tasks.Nodup) (hC : ConstantModes dom)
    (hav : ∀ r ∈ dom.resTypes ++ dom.resUnits, 0 ≤ d0.avail r)
    (l : List (Action × Draw)) (st : State) (hp : Proposed dom (initState dom d0) l)
    (hT : Along (NoShrink dom) dom (initState dom d0) l)
    (h : run dom (initState dom d0) l = .ok st) (r : Res) (u : Int) (hu : st.used.get? r = some u) :
    ∃ v, st.avail.get? r = some v ∧ u ≤ v := by
  refine C13_capacity_partial dom d0 hd hC hav l st ?_ h r u hu
  have key : ∀ (l : List (Action × Draw)) (s : State), Proposed dom s l → Along (NoShrink dom) dom s l →
      Along (fun st a d => UnitsApart dom a ∧ ResumesInMode st a ∧ NoShrink dom st a d) dom s l := by
    intro l
    induction l with
    | nil => intros; trivial
    | cons x l ih =>
      obtain ⟨a, d⟩ := x
      rintro s ⟨⟨as, h1, h2⟩, h3⟩ ⟨t1, t2⟩
      obtain ⟨g1, g2⟩ := proposed_tame h1 h2
      exact ⟨⟨g1, g2, t1⟩, fun s' hs => ih s' (h3 s' hs) (t2 s' hs)⟩
  exact key l _ hp hT

/-- Whatever is played and drawn, a task that is not ongoing holds nothing: in particular a
complete or paused task. -/
theorem C13_only_ongoing_hold (dom : Dom) (d0 : Draw) (hd : dom.tasks.Nodup)
    (l : List (Action × Draw)) (st : State) (h : run dom (initState dom d0) l = .ok st) (x : TaskId)
    (hx : x ∉ st.ongoing) : st.usedFor.get? x = none := by
  have hI : Sub st := along_run (P := fun _ _ _ => True) (dom := dom)
    (fun s a d s' hs _ hn => nextState_sub hs hn) (initState_acc dom d0 hd).2.2.2 along_true h
  cases hg : st.usedFor.get? x with
  | none => rfl
  | some v => exact absurd (hI.sub x (by rw [hg]; rfl)) hx

/-! ### Examples and negations -/

theorem exDom_constant : ConstantModes exDom := by
  have key : ∀ p ∈ exDom.modes, ∀ q ∈ p.2, ∃ dd, q.2 = Mode.constant dd ∧ ∀ e ∈ dd, 0 ≤ e.2 := by
    intro p hp q hq
    simp only [exDom, exMode, List.mem_cons, List.not_mem_nil, or_false] at hp
    rcases hp with rfl | rfl | rfl | rfl <;>
      (simp only [List.mem_cons, List.not_mem_nil, or_false] at hq; subst hq
       exact ⟨_, rfl, by simp⟩)
  intro x ms m md h1 h2
  obtain ⟨dd, h3, h4⟩ := key (x, ms) (Dict.mem_of_get? h1) (m, md) (Dict.mem_of_get? h2)
  refine ⟨dd, h3, fun r => ?_⟩
  unfold val
  cases hg : dd.get? r with
  | none => simp
  | some v => exact h4 (r, v) (Dict.mem_of_get? hg)

/-- Start 0, start 1, a rejected start of 2, a time unit: task 1 is ongoing and holds the only
unit of resource 0. -/
def exHold : List (Action × Draw) :=
  [(startOf 0, dr 0), (startOf 1, dr 2), (startOf 2, dr 1), (timeAction, dr 0)]

theorem needs_zero_of {dom : Dom} {a : Action} {d : Draw}
    (h : a.kind = .start → d.duration = 0 → a.units = none ∧ ∀ task m, a.task = some task → a.mode = some m →
      ∀ ms, dom.modes.get? task = some ms → ∀ md, ms.get? m = some md → md = .constant [(0, 0)]) :
    ZeroFree dom a d := by
  intro hk hz
  obtain ⟨h1, h2⟩ := h hk hz
  refine ⟨by rw [h1]; rfl, fun task m ms md e1 e2 e3 e4 r n t hn => ?_⟩
  rw [h2 task m e1 e2 ms e3 md e4, need_constant] at hn
  have hv : val [(0, 0)] r = 0 := by rw [val_cons, val_nil]; split <;> rfl
  rw [hv] at hn
  cases hn; rfl

theorem tidy_start (x : TaskId) (n : Int) (st : State) (h : n ≠ 0 ∨ x = 0) :
    Tidy exDom st (startOf x) (dr n) := by
  refine ⟨needs_zero_of fun _ hz => ⟨rfl, ?_⟩, fun u hu => (List.not_mem_nil hu).elim,
    fun hk => (by cases hk), fun hk => (by cases hk)⟩
  intro task m ht hm ms h1 md h2
  cases ht; cases hm
  rcases h with h | rfl
  · exact absurd hz h
  · have : ms = exMode 0 := by
      have e : exDom.modes.get? 0 = some (exMode 0) := by decide
      rw [e] at h1; cases h1; rfl
    subst this
    have e : (exMode 0).get? 1 = some (.constant [(0, 0)]) := by decide
    rw [e] at h2; cases h2; rfl

theorem tidy_time (n : Int) (st : State) : Tidy exDom st timeAction (dr n) :=
  ⟨fun hk => (by cases hk), fun u hu => (List.not_mem_nil hu).elim, fun hk => (by cases hk),
    fun hk => (by cases hk)⟩

example : Along (Tidy exDom) exDom (initState exDom (dr 0)) exHold ∧
    ∃ st, run exDom (initState exDom (dr 0)) exHold = .ok st ∧ st.ongoing = [1] ∧
      st.used.get? 0 = some 1 ∧ declared exDom st 0 1 = 1 :=
  ⟨⟨tidy_start _ _ _ (.inr rfl), fun _ _ => ⟨tidy_start _ _ _ (.inl (by decide)), fun _ _ =>
      ⟨tidy_start _ _ _ (.inl (by decide)), fun _ _ => ⟨tidy_time _ _, fun _ _ => trivial⟩⟩⟩⟩,
    okAnd_spec (by decide +kernel)⟩

/-- The proposed run `exFull` reaches the goal within capacity 1 and gives everything back. -/
example : Proposed exDom (initState exDom (dr 0)) exFull ∧
    ∃ st, run exDom (initState exDom (dr 0)) exFull = .ok st ∧ st.used.get? 0 = some 0 ∧
      st.avail.get? 0 = some 1 ∧ 1 ∈ st.complete :=
  ⟨proposedB_spec (by decide +kernel), okAnd_spec (by decide +kernel)⟩

/-- A single task of duration zero that needs the only unit of resource 0, and another task. -/
def leakDom : Dom where
  tasks := [0, 1]
  modes := [(0, exMode 1), (1, exMode 1)]
  resTypes := [0]
  renewable := [(0, true)]
  preds := fun _ => []
  duration := fun x _ => if x = 0 then 0 else 1

/-- A task of duration zero never gives its resources back: after playing the proposed start of
task 0, nothing is ongoing, one unit is in use, and task 1 is never proposed again. -/
theorem C13_zero_duration_leaks :
    Proposed leakDom (initState leakDom (dr 0)) [(startOf 0, dr 0)] ∧
    ∃ st, run leakDom (initState leakDom (dr 0)) [(startOf 0, dr 0)] = .ok st ∧
      st.ongoing = [] ∧ st.complete = [0] ∧ st.used.get? 0 = some 1 ∧
      actionSpace leakDom st = .ok [timeAction] :=
  ⟨proposedB_spec (by decide +kernel), okAnd_spec (by decide +kernel)⟩

def pauseOf (x : TaskId) : Action := ⟨some x, .pause, none, false, none⟩
def resumeOf (x : TaskId) : Action := ⟨some x, .resume, some 1, false, none⟩

/-- Start 1, pause it, let 2 take the resource, resume 1. -/
def stuckRun : List (Action × Draw) :=
  [(startOf 0, dr 0), (startOf 1, dr 2), (timeAction, dr 0), (pauseOf 1, dr 0), (startOf 2, dr 1),
    (resumeOf 1, dr 0)]

/-- The domain proposes to resume a paused task whose resources are taken by another one: the
task then is ongoing without resources, so the amount in use is not the sum of the needs of
the ongoing tasks, and the next time step raises a `KeyError`. -/
theorem C13_resume_without_resources :
    Proposed exDom (initState exDom (dr 0)) stuckRun ∧
    ∃ st, run exDom (initState exDom (dr 0)) stuckRun = .ok st ∧ st.ongoing = [2, 1] ∧
      st.used.get? 0 = some 1 ∧ (st.ongoing.map (declared exDom st 0)).sum = 2 ∧
      nextState exDom (dr 0) st timeAction = .error .keyError :=
  ⟨proposedB_spec (by decide +kernel), okAnd_spec (by decide +kernel)⟩

/-- The check offered for a resume action raises `IndexError` on the very state in which the
domain proposes the action (the task has one more pause than resumes). -/
theorem C13_resume_check_raises :
    ∃ st, run exDom (initState exDom (dr 0)) (stuckRun.take 4) = .ok st ∧
      okAnd (actionSpace exDom st) (fun as => decide (resumeOf 1 ∈ as)) = true ∧
      checkStart exDom st (resumeOf 1) = .error .indexError :=
  okAnd_spec (by decide +kernel)

/-- One task needing one unit of a non-renewable resource; it may be interrupted. -/
def nonrenDom : Dom where
  tasks := [0]
  modes := [(0, exMode 1)]
  resTypes := [0]
  renewable := [(0, false)]
  preds := fun _ => []
  duration := fun _ _ => 2
  preempt := [(0, true)]
  returned := []

/-- Pausing a task that holds a non-renewable resource raises `KeyError` when the dictionary of
`get_task_paused_non_renewable_resource_returned` is keyed by task, as documented, or empty, as
by default: the code looks the *resource* up in it. -/
theorem C13_pause_nonrenewable_raises :
    Proposed nonrenDom (initState nonrenDom (dr 0)) [(startOf 0, dr 2), (pauseOf 0, dr 0)] ∧
    run nonrenDom (initState nonrenDom (dr 0)) [(startOf 0, dr 2), (pauseOf 0, dr 0)] = .error .keyError :=
  ⟨proposedB_spec (by decide +kernel), by decide +kernel⟩

/-- Needs that vary with time: both tasks need 1 during the first unit; task 0 then 2. -/
def varyDom : Dom where
  tasks := [0, 1]
  modes := [(0, [(1, .varying [(0, [1, 2, 1])])]), (1, [(1, .varying [(0, [1, 1, 1])])])]
  resTypes := [0]
  renewable := [(0, true)]
  preds := fun _ => []
  duration := fun _ _ => 2
  preempt := [(0, false), (1, false)]

def drA (n : Int) : Draw := ⟨n, fun _ => 2⟩

/-- With needs that vary with time, playing proposed actions overuses the resource: 3 units in
use, 2 available. -/
theorem C13_varying_needs_overuse :
    Proposed varyDom (initState varyDom (drA 0)) [(startOf 0, drA 2), (startOf 1, drA 2), (timeAction, drA 0)] ∧
    ∃ st, run varyDom (initState varyDom (drA 0))
        [(startOf 0, drA 2), (startOf 1, drA 2), (timeAction, drA 0)] = .ok st ∧
      st.used.get? 0 = some 3 ∧ st.avail.get? 0 = some 2 :=
  ⟨proposedB_spec (by decide +kernel), okAnd_spec (by decide +kernel)⟩

/-- A task of duration 2 whose varying need is given for its two time units. -/
def vary2Dom : Dom where
  tasks := [0]
  modes := [(0, [(1, .varying [(0, [1, 1])])])]
  resTypes := [0]
  renewable := [(0, true)]
  preds := fun _ => []
  duration := fun _ _ => 2
  preempt := [(0, false)]

/-- A list of needs as long as the task is too short: the time step that completes the task
reads the need at time 2 and raises `IndexError`. -/
theorem C13_varying_needs_raise :
    Proposed vary2Dom (initState vary2Dom (dr 0)) [(startOf 0, dr 2), (timeAction, dr 0), (timeAction, dr 0)] ∧
    run vary2Dom (initState vary2Dom (dr 0)) [(startOf 0, dr 2), (timeAction, dr 0), (timeAction, dr 0)] =
      .error .indexError :=
  ⟨proposedB_spec (by decide +kernel), by decide +kernel⟩

end Verif.Sched
