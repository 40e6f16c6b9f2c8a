import Verif.Lemmas.SchedPrec
import Verif.Lemmas.SchedDuration

/-!
Properties of the stateful scheduling domain: C11 (task sets), C12 (precedence), C14
(durations), C15 (clock) and C48 (goal).
-/
namespace Verif.Sched

/-! ### Example domain

Source 0 and sink 3 of duration 0; tasks 1 (duration 2) and 2 (duration 1) share one unit of
resource 0.  Task 4 exists under condition 7, which completing task 2 brings. -/

def exMode (n : Int) : Dict ModeId Mode := [(1, .constant [(0, n)])]

def exDom : Dom where
  tasks := [0, 1, 2, 3]
  modes := [(0, exMode 0), (1, exMode 1), (2, exMode 1), (3, exMode 0)]
  resTypes := [0]
  renewable := [(0, true)]
  preds := fun x => if x = 1 ∨ x = 2 then [0] else if x = 3 then [1, 2] else []
  duration := fun x _ => if x = 1 then 2 else if x = 2 then 1 else 0
  preempt := [(0, false), (1, true), (2, false), (3, false)]

def startOf (x : TaskId) : Action := ⟨some x, .start, some 1, false, none⟩
def dr (n : Int) : Draw := ⟨n, fun _ => 1⟩

/-- Start 0, start 1, one time unit, a rejected start of 2 (no resource), one time unit. -/
def exRun : List (Action × Draw) :=
  [(startOf 0, dr 0), (startOf 1, dr 2), (timeAction, dr 0), (startOf 2, dr 1), (timeAction, dr 0)]

/-! ### C11 -/

/-- The task is in exactly one of the four sets of the state. -/
def InExactlyOne (st : State) (x : TaskId) : Prop :=
  (x ∈ st.remaining ∧ x ∉ st.ongoing ∧ x ∉ st.paused ∧ x ∉ st.complete) ∨
  (x ∉ st.remaining ∧ x ∈ st.ongoing ∧ x ∉ st.paused ∧ x ∉ st.complete) ∨
  (x ∉ st.remaining ∧ x ∉ st.ongoing ∧ x ∈ st.paused ∧ x ∉ st.complete) ∨
  (x ∉ st.remaining ∧ x ∉ st.ongoing ∧ x ∉ st.paused ∧ x ∈ st.complete)

def InNone (st : State) (x : TaskId) : Prop :=
  x ∉ st.remaining ∧ x ∉ st.ongoing ∧ x ∉ st.paused ∧ x ∉ st.complete

theorem exactlyOne_of {st : State} (hn : (allOf st).Nodup) {x : TaskId} (hx : x ∈ allOf st) :
    InExactlyOne st x := by
  have h1 := nodup_count hn x
  have h2 := List.count_pos_iff.2 hx
  rw [count_allOf] at h1 h2
  unfold InExactlyOne
  simp only [← List.count_pos_iff]
  omega

theorem none_of {st : State} {x : TaskId} (hx : x ∉ allOf st) : InNone st x := by
  rw [mem_allOf] at hx
  simp only [not_or] at hx
  exact hx

/-- Whatever actions are played (valid or not) and whatever is drawn, after every step each
unconditional task is in exactly one set and no other task is in any. -/
theorem C11_exactly_one_set (dom : Dom) (d0 : Draw) (hd : dom.tasks.Nodup)
    (l : List (Action × Draw)) (st : State) (h : run dom (initState dom d0) l = .ok st) (x : TaskId) :
    (x ∈ unconditional dom → InExactlyOne st x) ∧ (x ∉ unconditional dom → InNone st x) := by
  have hn := initState_nodup (dom := dom) (d := d0) hd
  have hs := run_sets hn h
  have hi : allOf (initState dom d0) = unconditional dom := by simp [allOf, initState]
  have hm : x ∈ allOf st ↔ x ∈ unconditional dom := by rw [hs.1.mem_iff, hi]
  exact ⟨fun hx => exactlyOne_of (hs.nodup hn) (hm.2 hx), fun hx => none_of (fun hh => hx (hm.1 hh))⟩

/-- From any state whose four sets do not overlap, steps neither create nor lose tasks and
keep the sets apart. -/
theorem C11_steps_keep_tasks (dom : Dom) (st st' : State) (l : List (Action × Draw))
    (hn : ∀ x, InExactlyOne st x ∨ InNone st x)
    (hr : st.remaining.Nodup) (ho : st.ongoing.Nodup) (hp : st.paused.Nodup) (hc : st.complete.Nodup)
    (h : run dom st l = .ok st') (x : TaskId) :
    (InExactlyOne st x ↔ InExactlyOne st' x) ∧ (InNone st x ↔ InNone st' x) := by
  have hnd : (allOf st).Nodup := by
    rw [List.nodup_iff_count]
    intro y
    rw [count_allOf]
    have c1 := List.nodup_iff_count.1 hr y
    have c2 := List.nodup_iff_count.1 ho y
    have c3 := List.nodup_iff_count.1 hp y
    have c4 := List.nodup_iff_count.1 hc y
    have := hn y
    unfold InExactlyOne InNone at this
    simp only [← List.count_pos_iff] at this
    omega
  have hs := run_sets hnd h
  have key : ∀ s : State, (allOf s).Nodup → (InExactlyOne s x ↔ x ∈ allOf s) ∧ (InNone s x ↔ x ∉ allOf s) := by
    intro s hs
    refine ⟨⟨?_, exactlyOne_of hs⟩, ⟨?_, none_of⟩⟩
    · rw [mem_allOf]
      rintro (h | h | h | h)
      · exact .inl h.1
      · exact .inr (.inl h.2.1)
      · exact .inr (.inr (.inl h.2.2.1))
      · exact .inr (.inr (.inr h.2.2.2))
    · rw [mem_allOf]
      rintro ⟨h1, h2, h3, h4⟩ (h | h | h | h)
      · exact h1 h
      · exact h2 h
      · exact h3 h
      · exact h4 h
  rw [(key st hnd).1, (key st hnd).2, (key st' (hs.nodup hnd)).1, (key st' (hs.nodup hnd)).2,
    hs.1.mem_iff]
  exact ⟨Iff.rfl, Iff.rfl⟩

/-- A completed task stays completed, whatever happens later. -/
theorem C11_complete_stays (dom : Dom) (d0 : Draw) (hd : dom.tasks.Nodup)
    (l l' : List (Action × Draw)) (st st' : State)
    (h : run dom (initState dom d0) l = .ok st) (h' : run dom (initState dom d0) (l ++ l') = .ok st')
    (x : TaskId) (hx : x ∈ st.complete) : x ∈ st'.complete := by
  obtain ⟨s, h1, h2⟩ := run_append.1 h'
  rw [h] at h1; cases h1
  have hn := initState_nodup (dom := dom) (d := d0) hd
  exact (run_sets ((run_sets hn h).nodup hn) h2).2 hx

/-- Simulated trajectories of domains with conditional tasks: a task is in at most one set,
only available tasks are in a set, unconditional tasks are always in one, no task in a set is
ever lost, and a completed task stays completed. -/
theorem C11_conditional_tasks (dom : Dom) (d0 : Draw) (hd : dom.tasks.Nodup)
    (l l' : List (Action × Draw × Nat)) (st st' : State)
    (h : simRun dom (initState dom d0) l = .ok st) (h' : simRun dom st l' = .ok st') (x : TaskId) :
    (InExactlyOne st x ∨ InNone st x) ∧ (x ∈ unconditional dom → InExactlyOne st x) ∧
    (InExactlyOne st x → x ∈ availableTasks dom st.conds) ∧
    (InExactlyOne st x → InExactlyOne st' x) ∧ (x ∈ st.complete → x ∈ st'.complete) := by
  obtain ⟨i1, g1, _⟩ := simRun_inv hd (initState_inv (d := d0) hd) h
  obtain ⟨i2, g2, g3⟩ := simRun_inv hd i1 h'
  have hmem : InExactlyOne st x → x ∈ allOf st := by
    rw [mem_allOf]
    rintro (h | h | h | h)
    · exact .inl h.1
    · exact .inr (.inl h.2.1)
    · exact .inr (.inr (.inl h.2.2.1))
    · exact .inr (.inr (.inr h.2.2.2))
  refine ⟨?_, ?_, fun hh => i1.avail x (hmem hh), fun hh => exactlyOne_of i2.nodup (g2 x (hmem hh)),
    g3 x⟩
  · by_cases hx : x ∈ allOf st
    · exact .inl (exactlyOne_of i1.nodup hx)
    · exact .inr (none_of hx)
  · intro hx
    refine exactlyOne_of i1.nodup (g1 x ?_)
    simpa [allOf, initState] using hx

/-- After a step that asks for time progress, the tasks in a set are exactly those that were
available before the step. -/
theorem C11_conditional_tasks_enter (dom : Dom) (d0 d : Draw) (hd : dom.tasks.Nodup)
    (l : List (Action × Draw × Nat)) (st st' : State) (a : Action) (k : Nat)
    (h : simRun dom (initState dom d0) l = .ok st) (ha : a.timeProgress = true)
    (h' : simState dom d k st a = .ok st') (x : TaskId) :
    (x ∈ availableTasks dom st.conds → InExactlyOne st' x) ∧
    (x ∉ availableTasks dom st.conds → InNone st' x) := by
  obtain ⟨i1, _, _⟩ := simRun_inv hd (initState_inv (d := d0) hd) h
  obtain ⟨i2, _, _, _, g⟩ := simState_inv hd i1 h'
  have := g ha x
  exact ⟨fun hx => exactlyOne_of i2.nodup (this.2 hx), fun hx => none_of fun hh => hx (this.1 hh)⟩

example : ∃ st, run exDom (initState exDom (dr 0)) exRun = .ok st ∧ st.remaining = [2, 3] ∧
    st.ongoing = [] ∧ st.complete = [0, 1] ∧ exDom.tasks.Nodup :=
  okAnd_spec (by decide +kernel)

/-- `exDom` with a conditional task 4, brought by completing task 2. -/
def exCond : Dom := { exDom with
  tasks := [0, 2, 4]
  modes := [(0, exMode 0), (2, exMode 1), (4, exMode 1)]
  existence := [(4, [7])]
  onCompletion := [(2, [[(7, 1)]])] }

def exCondRun : List (Action × Draw × Nat) :=
  [(startOf 0, dr 0, 0), (startOf 2, dr 1, 0), (timeAction, dr 0, 0)]

example : ∃ st, simRun exCond (initState exCond (dr 0)) exCondRun = .ok st ∧
    st.conds = [7] ∧ st.remaining = [] ∧
    okAnd (simState exCond (dr 0) 0 st timeAction) (fun st' =>
      st'.remaining = [4] ∧ st'.complete = [0, 2]) = true :=
  okAnd_spec (by decide +kernel)

/-! ### C48 -/

/-- At a goal every unconditional task is complete (for simulated trajectories, conditional
or not), and so is every conditional task that has entered the state. -/
theorem C48_goal_all_entered_complete_partial (dom : Dom) (d0 : Draw) (hd : dom.tasks.Nodup)
    (l : List (Action × Draw × Nat)) (st : State)
    (h : simRun dom (initState dom d0) l = .ok st) (hg : isGoal st = true) (x : TaskId) :
    (x ∈ unconditional dom → x ∈ st.complete) ∧ (InExactlyOne st x → x ∈ st.complete) := by
  have h1 : InExactlyOne st x → x ∈ st.complete := by
    simp only [isGoal, Bool.and_eq_true, List.isEmpty_iff] at hg
    obtain ⟨⟨g1, g2⟩, g3⟩ := hg
    unfold InExactlyOne
    rw [g1, g2, g3]
    simp
  exact ⟨fun hx => h1 ((C11_conditional_tasks dom d0 hd l [] st st h rfl x).2.1 hx), h1⟩

/-- Without conditions: the goal is reached exactly when all tasks are complete. -/
theorem C48_goal_iff_all_complete (dom : Dom) (d0 : Draw) (hd : dom.tasks.Nodup)
    (hu : dom.existence = []) (l : List (Action × Draw)) (st : State)
    (h : run dom (initState dom d0) l = .ok st) :
    isGoal st = true ↔ ∀ x ∈ dom.tasks, x ∈ st.complete := by
  have hun : ∀ x, x ∈ unconditional dom ↔ x ∈ dom.tasks := by
    intro x; simp [unconditional, hu]
  have h1 := C11_exactly_one_set dom d0 hd l st h
  simp only [isGoal, Bool.and_eq_true, List.isEmpty_iff]
  constructor
  · rintro ⟨⟨g1, g2⟩, g3⟩ x hx
    have := (h1 x).1 ((hun x).2 hx)
    unfold InExactlyOne at this
    rw [g1, g2, g3] at this
    simpa using this
  · intro hall
    have key : ∀ x, x ∉ st.remaining ∧ x ∉ st.ongoing ∧ x ∉ st.paused := by
      intro x
      by_cases hx : x ∈ unconditional dom
      · have hc := hall x ((hun x).1 hx)
        have := (h1 x).1 hx
        unfold InExactlyOne at this
        simp only [hc, not_true, and_false, false_or, and_true] at this
        exact this
      · have := (h1 x).2 hx
        exact ⟨this.1, this.2.1, this.2.2.1⟩
    exact ⟨⟨List.eq_nil_iff_forall_not_mem.2 fun x => (key x).1,
      List.eq_nil_iff_forall_not_mem.2 fun x => (key x).2.1⟩,
      List.eq_nil_iff_forall_not_mem.2 fun x => (key x).2.2⟩

/-- The code disagrees for conditional tasks: the step that brings the condition of task 4
ends in a goal although task 4 is available and not complete. -/
theorem C48_goal_misses_conditional_task :
    ∃ (dom : Dom) (l : List (Action × Draw × Nat)) (st : State) (x : TaskId),
      simRun dom (initState dom (dr 0)) l = .ok st ∧ isGoal st = true ∧
      x ∈ availableTasks dom st.conds ∧ x ∉ st.complete := by
  obtain ⟨st, h⟩ : ∃ st, simRun exCond (initState exCond (dr 0)) exCondRun = .ok st ∧
      isGoal st = true ∧ 4 ∈ availableTasks exCond st.conds ∧ 4 ∉ st.complete :=
    okAnd_spec (by decide +kernel)
  exact ⟨exCond, exCondRun, st, 4, h⟩

/-! ### C12 -/

/-- A proposed start is for a remaining task whose direct predecessors that exist under the
current conditions are all complete, in a declared mode whose needs (at the clock time) are
free for every resource type. -/
theorem C12_start_proposals_sound (dom : Dom) (st : State) (as : List Action)
    (h : actionSpace dom st = .ok as) (a : Action) (ha : a ∈ as) (hk : a.kind = .start) :
    ∃ n m ms md, a.task = some n ∧ a.mode = some m ∧ n ∈ st.remaining ∧
      (∀ p ∈ dom.preds n, p ∈ availableTasks dom st.conds → p ∈ st.complete) ∧
      dom.modes.get? n = some ms ∧ ms.get? m = some md ∧
      ∀ r ∈ dom.resTypes, ∃ av u need, st.avail.get? r = some av ∧ st.used.get? r = some u ∧
        md.need r st.t = .ok need ∧ need ≤ av - u := by
  rcases actionSpace_mem h a ha with ⟨n, m, rfl, h1, h2, ⟨ms, h3, h4⟩, h5⟩ | ⟨t, _, _, rfl⟩ |
    ⟨t, _, m, _, rfl⟩ | rfl
  · obtain ⟨md, hmd⟩ := Option.isSome_iff_exists.1 ((Dict.get?_isSome_iff_mem_keys ms m).2 h4)
    refine ⟨n, m, ms, md, rfl, rfl, h1, h2, h3, hmd, fun r hr => ?_⟩
    obtain ⟨av, u, ms', md', need, g1, g2, g3, g4, g5, g6⟩ := h5 r hr
    rw [h3] at g3; cases g3
    rw [hmd] at g4; cases g4
    exact ⟨av, u, need, g1, g2, g5, g6⟩
  · cases hk
  · cases hk
  · cases hk

/-- Conversely, in a state that is not over-consuming every remaining task whose available
predecessors are complete and which has a mode with enough free resources is proposed. -/
theorem C12_start_proposals_complete (dom : Dom) (st : State) (as : List Action)
    (h : actionSpace dom st = .ok as) (hov : overconsuming st st.used = .ok false)
    (n : TaskId) (m : ModeId) (ms : Dict ModeId Mode) (md : Mode) (hn : n ∈ st.remaining)
    (hp : ∀ p ∈ dom.preds n, p ∈ availableTasks dom st.conds → p ∈ st.complete)
    (hms : dom.modes.get? n = some ms) (hmd : ms.get? m = some md)
    (hr : ∀ r ∈ dom.resTypes, ∃ av u need, st.avail.get? r = some av ∧ st.used.get? r = some u ∧
        md.need r st.t = .ok need ∧ need ≤ av - u) :
    ∃ a ∈ as, a.kind = .start ∧ a.task = some n := by
  unfold actionSpace at h
  rw [hov] at h
  simp only [bind_ok, Bool.false_eq_true, if_false, bind_eq_ok, pure_eq_ok] at h
  obtain ⟨d, g1, starts, h2, pauses, h3, resumes, h4, h5⟩ := h
  subst h2 h5
  obtain ⟨m', hm'⟩ := (possibleStarting_mem g1).2 n m ms hn hp hms
    ((Dict.get?_isSome_iff_mem_keys ms m).1 (by rw [hmd]; rfl)) (fun r hr' => by
      obtain ⟨av, u, need, e1, e2, e3, e4⟩ := hr r hr'
      exact ⟨av, u, ms, md, need, e1, e2, hms, hmd, e3, e4⟩)
  refine ⟨⟨some n, .start, some m', false, none⟩, ?_, rfl, rfl⟩
  simp only [List.mem_append]
  exact .inl (.inl (.inl (List.mem_map.2 ⟨(n, m'), hm', rfl⟩)))

/-- Each action played is one the domain proposes in the state where it is played. -/
def Proposed (dom : Dom) : State → List (Action × Draw) → Prop
  | _, [] => True
  | st, (a, d) :: rest => (∃ as, actionSpace dom st = .ok as ∧ a ∈ as) ∧
      ∀ st', nextState dom d st a = .ok st' → Proposed dom st' rest

theorem prec_run {dom : Dom} {l : List (Action × Draw)} {st st' : State} (hI : PrecInv dom st)
    (hp : Proposed dom st l) (h : run dom st l = .ok st') : PrecInv dom st' := by
  induction l generalizing st with
  | nil => cases h; exact hI
  | cons x l ih =>
    obtain ⟨a, d⟩ := x
    obtain ⟨⟨as, h1, h2⟩, h3⟩ := hp
    obtain ⟨s, g1, g2⟩ := run_cons_ok.1 h
    refine ih (nextState_prec hI ?_ g1) (h3 s g1) g2
    intro hk task ht p hp hav
    obtain ⟨n, m, ms, md, e1, _, _, e2, _⟩ := C12_start_proposals_sound dom st as h1 a h2 hk
    rw [ht] at e1; cases e1
    exact e2 p hp hav

/-- If only proposed actions are played, every recorded start lies at or after the recorded
end of each direct predecessor that exists, and that predecessor is complete. -/
theorem C12_starts_after_predecessors (dom : Dom) (d0 : Draw) (hd : dom.tasks.Nodup)
    (l : List (Action × Draw)) (st : State) (hp : Proposed dom (initState dom d0) l)
    (h : run dom (initState dom d0) l = .ok st)
    (x p : TaskId) (info : Info) (s : Int)
    (hx : st.details.get? x = some info) (hs : info.start = some s)
    (hpx : p ∈ dom.preds x) (hpa : p ∈ unconditional dom) :
    p ∈ st.complete ∧ ∃ i e, st.details.get? p = some i ∧ i.finish = some e ∧ e ≤ s ∧ s ≤ st.t := by
  have hget : ∀ (l : List TaskId) (m : Dict TaskId Info) (x : TaskId) (i : Info),
      (∀ x i, m.get? x = some i → i = {}) →
      (l.foldl (fun m x => Dict.set m x ({} : Info)) m).get? x = some i → i = {} := by
    intro l
    induction l with
    | nil => exact fun m x i h h' => h x i h'
    | cons y l ih =>
      intro m x i h h'
      refine ih _ x i ?_ h'
      intro x' i' hx'
      rw [Dict.get?_set] at hx'
      split at hx'
      · exact (Option.some.inj hx').symm
      · exact h x' i' hx'
  have hinit : PrecInv dom (initState dom d0) := by
    have hno : ∀ x info s, (initState dom d0).details.get? x = some info → info.start ≠ some s := by
      intro x info s h1 h2
      have := hget dom.tasks [] x info (by intro x i h; simp at h) h1
      subst this
      cases h2
    exact ⟨initState_nodup hd, by simp [initState], fun x info s h1 h2 => absurd h2 (hno x info s h1),
      fun x info s h1 h2 => absurd h2 (hno x info s h1)⟩
  have hfin := prec_run hinit hp h
  have hco : st.conds = [] := by
    have : ∀ (l : List (Action × Draw)) (s : State), run dom s l = .ok st → st.conds = s.conds := by
      intro l
      induction l with
      | nil => intro s h; cases h; rfl
      | cons y l ih =>
        intro s h
        obtain ⟨a, d⟩ := y
        obtain ⟨s', g1, g2⟩ := run_cons_ok.1 h
        rw [ih s' g2]
        obtain ⟨s1, s2, s3, s4, s5, k1, k2, k3, k4, k5, rfl⟩ := nextState_ok g1
        rw [(updateAvail_fields dom d s5 a).2.2.1, updateTime_conds k5, updateDummy_conds k4,
          updateStart_conds k3, updateResume_conds k2, updatePause_conds k1]
    exact this l _ h
  obtain ⟨h1, i, e, h2, h3, h4⟩ := hfin.prec x info s hx hs p hpx
    (by rw [hco]; exact unconditional_available _ hpa)
  exact ⟨h1, i, e, h2, h3, h4, hfin.started x info s hx hs⟩

/-- Start 0, start 1, two time units, start 2, one time unit, start 3. -/
def exFull : List (Action × Draw) :=
  [(startOf 0, dr 0), (startOf 1, dr 2), (timeAction, dr 0), (timeAction, dr 0), (startOf 2, dr 1),
   (timeAction, dr 0), (startOf 3, dr 0)]

/-- Decision procedure for `Proposed`, used in the example only. -/
def proposedB (dom : Dom) : State → List (Action × Draw) → Bool
  | _, [] => true
  | st, (a, d) :: rest =>
    (match actionSpace dom st with | .ok as => decide (a ∈ as) | .error _ => false) &&
    (match nextState dom d st a with | .ok st' => proposedB dom st' rest | .error _ => true)

theorem proposedB_spec {dom : Dom} {l : List (Action × Draw)} {st : State}
    (h : proposedB dom st l = true) : Proposed dom st l := by
  induction l generalizing st with
  | nil => trivial
  | cons x l ih =>
    obtain ⟨a, d⟩ := x
    simp only [proposedB, Bool.and_eq_true] at h
    obtain ⟨h1, h2⟩ := h
    constructor
    · split at h1
      · rename_i as he; exact ⟨as, he, by simpa using h1⟩
      · cases h1
    · intro st' hs
      rw [hs] at h2
      exact ih h2

example : Proposed exDom (initState exDom (dr 0)) exFull ∧
    ∃ st, run exDom (initState exDom (dr 0)) exFull = .ok st ∧
      (st.details.get? 3).bind Info.start = some 3 ∧ isGoal st = true ∧ 2 ∈ exDom.preds 3 ∧
      2 ∈ unconditional exDom :=
  ⟨proposedB_spec (by decide +kernel), okAnd_spec (by decide +kernel)⟩

/-- Both hypotheses of `C12_start_proposals_complete` hold in the initial state, for task 0. -/
example : okAnd (actionSpace exDom (initState exDom (dr 0))) (fun as => as = [startOf 0, timeAction]) = true ∧
    overconsuming (initState exDom (dr 0)) (initState exDom (dr 0)).used = .ok false :=
  ⟨by decide +kernel, by decide +kernel⟩

/-! ### C14 -/

/-- A task whose start was accepted at time `t0` with drawn duration `d ≥ 1`, and which is not
paused, is ongoing at every clock time strictly before `t0 + e` and complete from `t0 + e` on,
where `e` is the least number of time units reaching 99.99 % of `d`. -/
theorem C14_completes_at_threshold (dom : Dom) (st st1 st' : State) (a : Action) (dr : Draw)
    (l : List (Action × Draw)) (x : TaskId) (e : Int) (hn : (allOf st).Nodup)
    (hk : a.kind = .start) (ha : a.task = some x) (hx : x ∈ st.remaining)
    (h1 : nextState dom dr st a = .ok st1) (hacc : x ∉ st1.remaining) (hd : 1 ≤ dr.duration)
    (he : 10000 * (e - 1) < 9999 * dr.duration ∧ 9999 * dr.duration ≤ 10000 * e)
    (hnp : ∀ p ∈ l, p.1.kind = .pause → p.1.task ≠ some x) (h2 : run dom st1 l = .ok st') :
    (st'.t < st.t + e → x ∈ st'.ongoing ∧ x ∉ st'.complete ∧
      ∃ info, st'.details.get? x = some info ∧ info.start = some st.t) ∧
    (st.t + e ≤ st'.t → x ∉ st'.ongoing ∧ x ∈ st'.complete ∧
      ∃ info, st'.details.get? x = some info ∧ info.start = some st.t ∧
        info.finish = some (st.t + e)) := by
  have hn1 := (nextState_sets hn h1).nodup hn
  have hn' := (run_sets hn1 h2).nodup hn1
  have hp := run_phase hn1 hd (nextState_opens hn hd hk ha hx hacc h1) hnp h2
  have hap := nodup_count hn' x
  rw [count_allOf] at hap
  rcases hp with ⟨g1, g2, g3, g4, info, g5, g6, g7⟩ | ⟨g1, e', g2, g3, g4, info, g5, g6, g7⟩
  · have := List.count_pos_iff.2 g1
    refine ⟨fun _ => ⟨g1, List.count_eq_zero.1 (by omega), info, g5, g6⟩, fun hh => ?_⟩
    omega
  · have := List.count_pos_iff.2 g1
    have hee : e' = e := by omega
    subst hee
    refine ⟨fun hh => by omega, fun _ => ⟨List.count_eq_zero.1 (by omega), g1, info, g5, g6, g7⟩⟩

/-- The full claim for durations below 10000: ongoing strictly before `t0 + d`, complete from
`t0 + d` on, with recorded start `t0` and end `t0 + d`.  Missing: longer durations, where the
code completes the task early (see the next theorem). -/
theorem C14_completes_after_duration_partial (dom : Dom) (st st1 st' : State) (a : Action) (dr : Draw)
    (l : List (Action × Draw)) (x : TaskId) (hn : (allOf st).Nodup)
    (hk : a.kind = .start) (ha : a.task = some x) (hx : x ∈ st.remaining)
    (h1 : nextState dom dr st a = .ok st1) (hacc : x ∉ st1.remaining) (hd : 1 ≤ dr.duration)
    (hlt : dr.duration < 10000)
    (hnp : ∀ p ∈ l, p.1.kind = .pause → p.1.task ≠ some x) (h2 : run dom st1 l = .ok st') :
    (st'.t < st.t + dr.duration → x ∈ st'.ongoing ∧ x ∉ st'.complete ∧
      ∃ info, st'.details.get? x = some info ∧ info.start = some st.t) ∧
    (st.t + dr.duration ≤ st'.t → x ∉ st'.ongoing ∧ x ∈ st'.complete ∧
      ∃ info, st'.details.get? x = some info ∧ info.start = some st.t ∧
        info.finish = some (st.t + dr.duration)) :=
  C14_completes_at_threshold dom st st1 st' a dr l x dr.duration hn hk ha hx h1 hacc hd
    (by omega) hnp h2

/-- A task that is never paused and drew a duration of 10000 or more is complete before its
duration has elapsed. -/
theorem C14_long_task_completes_early (dom : Dom) (st st1 st' : State) (a : Action) (dr : Draw)
    (l : List (Action × Draw)) (x : TaskId) (hn : (allOf st).Nodup)
    (hk : a.kind = .start) (ha : a.task = some x) (hx : x ∈ st.remaining)
    (h1 : nextState dom dr st a = .ok st1) (hacc : x ∉ st1.remaining) (hd : 10000 ≤ dr.duration)
    (hnp : ∀ p ∈ l, p.1.kind = .pause → p.1.task ≠ some x) (h2 : run dom st1 l = .ok st')
    (ht : st'.t = st.t + dr.duration - 1) : x ∈ st'.complete := by
  have he : ∃ e, (10000 * (e - 1) < 9999 * dr.duration ∧ 9999 * dr.duration ≤ 10000 * e) ∧
      e ≤ dr.duration - 1 := ⟨(9999 * dr.duration + 9999) / 10000, by omega, by omega⟩
  obtain ⟨e, h3, h4⟩ := he
  exact ((C14_completes_at_threshold dom st st1 st' a dr l x e hn hk ha hx h1 hacc (by omega) h3 hnp
    h2).2 (by omega)).2.1

example : ∃ st1, nextState exDom (dr 2)
      { (initState exDom (dr 0)) with complete := [0], remaining := [1, 2, 3] } (startOf 1) = .ok st1 ∧
    1 ∉ st1.remaining ∧
    okAnd (run exDom st1 [(timeAction, dr 0), (startOf 2, dr 1), (timeAction, dr 0)]) (fun st' =>
      st'.t = 2 ∧ st'.complete = [0, 1]) = true :=
  okAnd_spec (by decide +kernel)

/-! ### C15 -/

/-- The clock advances by one exactly when the action asks for time progress. -/
theorem C15_clock_step (dom : Dom) (d : Draw) (st st' : State) (a : Action)
    (h : nextState dom d st a = .ok st') :
    st'.t = if a.timeProgress then st.t + 1 else st.t := by
  rw [nextState_t h]
  split <;> omega

/-- The clock of a trajectory counts the actions that asked for time progress. -/
theorem C15_clock_run (dom : Dom) (l : List (Action × Draw)) (st st' : State)
    (h : run dom st l = .ok st') :
    st'.t = st.t + ((l.filter fun p => p.1.timeProgress).length : Int) := by
  induction l generalizing st with
  | nil => cases h; simp
  | cons p l ih =>
    obtain ⟨a, d⟩ := p
    obtain ⟨s, h1, h2⟩ := run_cons_ok.1 h
    rw [ih s h2, C15_clock_step dom d st s a h1]
    cases ht : a.timeProgress
    · simp [ht]
    · simp [ht]; omega

/-- The same for the simulated variant. -/
theorem C15_clock_simulated (dom : Dom) (d : Draw) (k : Nat) (st st' : State) (a : Action)
    (h : simState dom d k st a = .ok st') :
    st'.t = if a.timeProgress then st.t + 1 else st.t := by
  unfold simState at h
  simp only [bind_eq_ok] at h
  obtain ⟨s1, h1, s2, h2, s3, h3, s4, h4, s5, h5, h6⟩ := h
  have h6 := (Except.ok.inj h6).symm
  subst h6
  have e : (updateAvail dom d s5 a).t = s5.t := by unfold updateAvail; split <;> rfl
  have e' : (updateConditional dom s4 a).t = s4.t := by unfold updateConditional; split <;> rfl
  obtain ⟨t1, c, k1, rfl, _⟩ := updateTimeSim_ok h5
  have := updateTime_t k1
  rw [e', updateDummy_t h4, updateStart_t h3, updateResume_t h2, updatePause_t h1] at this
  rw [e]
  show t1.t = _
  rw [this]
  split <;> omega

example : ∃ st, run exDom (initState exDom (dr 0)) exRun = .ok st ∧ st.t = 2 :=
  okAnd_spec (by decide +kernel)

/-! ### C14: a witness of early completion -/

/-- One task of duration 10000 without resources. -/
def longDom : Dom where
  tasks := [0]
  modes := [(0, [(1, .constant [])])]
  resTypes := []
  renewable := []
  preds := fun _ => []
  duration := fun _ _ => 10000

/-- The task of `longDom`, ongoing (`b`) or complete, at clock `t`. -/
def longState (b : Bool) (p : Rat) (t : Int) (i : Info) : State where
  t := t
  remaining := []
  ongoing := if b then [0] else []
  complete := if b then [] else [0]
  progress := [(0, p)]
  mode := [(0, 1)]
  usedFor := if b then [(0, [])] else []
  details := [(0, i)]

theorem longState_steps (n : Nat) (b : Bool) (p : Rat) (t : Int) (i : Info)
    (hi : i.paused = []) : ∃ st, run longDom (longState b p t i) (List.replicate n (timeAction, dr 0)) = .ok st := by
  induction n generalizing b p t i with
  | zero => exact ⟨_, rfl⟩
  | succ n ih =>
    rw [List.replicate_succ]
    cases b with
    | false =>
      obtain ⟨st, h⟩ := ih false p (t + 1) i hi
      exact ⟨st, run_cons_ok.2 ⟨_, rfl, h⟩⟩
    | true =>
      obtain ⟨s, f, sa, pa, re⟩ := i
      subst hi
      have hact : ∃ z, Info.activeTime ⟨s, f, sa, [], re⟩ (t + 1) = .ok z := by
        unfold Info.activeTime
        cases s <;> exact ⟨_, rfl⟩
      obtain ⟨z, hz⟩ := hact
      by_cases hp : threshold ≤ p + taskProgress longDom 0 1 sa
      · obtain ⟨st, h⟩ := ih false 1 (t + 1) ⟨s, some (t + 1), sa, [], re⟩ rfl
        refine ⟨st, run_cons_ok.2 ⟨_, ?_, h⟩⟩
        have hp' : threshold ≤ p + taskProgress
          { tasks := [0], modes := [(0, [(1, Mode.constant [])])], resTypes := [], renewable := [],
            preds := fun _ => [], duration := fun _ _ => 10000 } 0 1 sa := hp
        simp [nextState, updatePause, updateResume, updateStart, updateDummy, updateTime, timeAction,
          updateProgress, longState, updateCons, Dict.get, Dict.get?, Dict.set, Dict.erase, resourceUsed, usedTypes, longDom,
          updateComplete, finishing, completeOne, hz, hp', sremove, releaseAll, dpop, sadd, updateAvail]
      · obtain ⟨st, h⟩ := ih true (p + taskProgress longDom 0 1 sa) (t + 1) ⟨s, f, sa, [], re⟩ rfl
        refine ⟨st, run_cons_ok.2 ⟨_, ?_, h⟩⟩
        have hp' : ¬ threshold ≤ p + taskProgress
          { tasks := [0], modes := [(0, [(1, Mode.constant [])])], resTypes := [], renewable := [],
            preds := fun _ => [], duration := fun _ _ => 10000 } 0 1 sa := hp
        simp [nextState, updatePause, updateResume, updateStart, updateDummy, updateTime, timeAction,
          updateProgress, longState, updateCons, Dict.get, Dict.get?, Dict.set, resourceUsed, usedTypes,
          longDom, updateComplete, finishing, hz, hp', updateAvail]
        rfl

/-- A task that drew duration 10000 at time 0 is complete at time 9999. -/
theorem C14_early_completion :
    ∃ (dom : Dom) (l : List (Action × Draw)) (st : State) (x : TaskId),
      run dom (initState dom (dr 0)) ((startOf x, dr 10000) :: l) = .ok st ∧
      (∀ p ∈ l, p.1 = timeAction) ∧ st.t = 9999 ∧ x ∈ st.complete := by
  let i0 : Info := { start := some 0, sampled := some 10000 }
  have h1 : nextState longDom (dr 10000) (initState longDom (dr 0)) (startOf 0) =
      .ok (longState true 0 0 i0) := by decide +kernel
  obtain ⟨st, h2⟩ := longState_steps 9999 true 0 0 i0 rfl
  have ht := C15_clock_run longDom _ _ _ h2
  have hf : ((List.replicate 9999 (timeAction, dr 0)).filter fun p => p.1.timeProgress).length = 9999 := by
    rw [List.filter_replicate, if_pos (by rfl : (timeAction, dr 0).1.timeProgress = true),
      List.length_replicate]
  rw [hf] at ht
  have ht' : st.t = 9999 := by rw [ht]; rfl
  refine ⟨longDom, List.replicate 9999 (timeAction, dr 0), st, 0, run_cons_ok.2 ⟨_, h1, h2⟩, ?_, ht', ?_⟩
  · intro p hp
    rw [(List.mem_replicate.1 hp).2]
  · refine C14_long_task_completes_early longDom _ _ st (startOf 0) (dr 10000) _ 0
      (initState_nodup (by decide)) rfl rfl (by decide) h1 (by decide) (by decide) ?_ h2 ?_
    · intro p hp hk
      rw [(List.mem_replicate.1 hp).2] at hk
      cases hk
    · rw [ht']; rfl

end Verif.Sched
