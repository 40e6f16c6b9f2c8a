import Verif.Lemmas.SchedMore
import Verif.Props.Sched
import Mathlib.Tactic.Linarith

/-!
C159–C161: time windows and time lags, transition values, transitions as distributions.
-/
namespace Verif.Sched

/-! ### C159 -/

/-- What a time window means: the start and the end of a task lie within it. -/
def Window.Allows (w : Window) (s e : Int) : Prop :=
  w.earliestStart ≤ s ∧ s ≤ w.latestStart ∧ w.earliestEnd ≤ e ∧ e ≤ w.latestEnd

/-- Each constructor restricts what its name says and nothing else, for tasks that run within the horizon. -/
theorem C159_windows (es ls ee le H s e : Int) (hs : 0 ≤ s) (hse : s ≤ e) (he : e ≤ H) :
    ((classic es le H).Allows s e ↔ es ≤ s ∧ e ≤ le) ∧ ((startFromOnly es H).Allows s e ↔ es ≤ s) ∧
    ((startBeforeOnly ls H).Allows s e ↔ s ≤ ls) ∧ ((endFromOnly ee H).Allows s e ↔ ee ≤ e) ∧
    ((endBeforeOnly le H).Allows s e ↔ e ≤ le) ∧ ((startWindow es ls H).Allows s e ↔ es ≤ s ∧ s ≤ ls) ∧
    ((endWindow ee le H).Allows s e ↔ ee ≤ e ∧ e ≤ le) ∧ (emptyWindow H).Allows s e := by
  unfold Window.Allows classic startFromOnly startBeforeOnly endFromOnly endBeforeOnly startWindow endWindow emptyWindow
  refine ⟨?_, ?_, ?_, ?_, ?_, ?_, ?_, ?_⟩ <;> dsimp only <;> omega

example : (classic 2 9 20).Allows 3 9 ∧ ¬ (classic 2 9 20).Allows 1 9 ∧ ¬ (classic 2 9 20).Allows 3 10 := by
  unfold Window.Allows classic; decide

theorem foldl_set_const {κ α : Type} [DecidableEq κ] (v : α) (l : List κ) : ∀ (d : Dict κ α) (x : κ),
    (l.foldl (fun d x => Dict.set d x v) d).get? x = if x ∈ l then some v else d.get? x := by
  induction l with
  | nil => intro d x; simp
  | cons y l ih =>
    intro d x
    rw [List.foldl_cons, ih]
    by_cases h : x ∈ l
    · simp [h]
    · by_cases e : x = y
      · subst e; simp [Dict.get?_set_self]
      · simp [h, e, Dict.get?_set_ne d v e]

/-- Without time windows every task, and only these, has a window that allows all starts and ends within the horizon. -/
theorem C159_none (dom : Dom) (x : TaskId) :
    (x ∈ dom.tasks → ∃ w, (noWindows dom).get? x = some w ∧ ∀ s e, 0 ≤ s → s ≤ e → e ≤ dom.horizon → w.Allows s e) ∧
    (x ∉ dom.tasks → (noWindows dom).get? x = none) := by
  unfold noWindows
  rw [foldl_set_const]
  constructor
  · intro h
    rw [if_pos h]
    exact ⟨_, rfl, fun s e h1 h2 h3 => (C159_windows 0 0 0 0 _ s e h1 h2 h3).2.2.2.2.2.2.2⟩
  · intro h
    rw [if_neg h]
    rfl

example : (noWindows { exDom with horizon := 30 }).get? 3 = some ⟨0, 30, 0, 30⟩ := by decide +kernel

/-- A lag with only a greatest time allows every waiting time up to it. -/
theorem C159_maximum (m w : Int) (hw : 0 ≤ w) : ((maximumOnly m).minimum ≤ w ∧ w ≤ (maximumOnly m).maximum) ↔ w ≤ m := by
  unfold maximumOnly; dsimp only; omega

/-- A lag with only a least time cannot be made. -/
theorem C159_minimum_refuted (m : Int) : ¬ ∃ l, minimumOnly m = .ok l ∧ l.minimum = m := by
  rintro ⟨l, h, _⟩; cases h

/-- Time windows are not enforced: whatever window is given to task 1, as long as it begins after time 0, the run below completes the
task although it started outside of the window. -/
theorem C159_ignored_refuted : ∀ w : Window, 0 < w.earliestStart → ∃ st, run exDom (initState exDom (dr 0)) exRun = .ok st ∧
    1 ∈ st.complete ∧ ∃ info s, st.details.get? 1 = some info ∧ info.start = some s ∧ ∀ e, ¬ w.Allows s e := by
  intro w hw
  have h : ∃ st, run exDom (initState exDom (dr 0)) exRun = .ok st ∧ (1 ∈ st.complete ∧ (st.details.get? 1).map (·.start) = some (some 0)) :=
    okAnd_spec (by decide +kernel)
  obtain ⟨st, h1, h2, h3⟩ := h
  obtain ⟨info, h4, h5⟩ := Option.map_eq_some_iff.1 h3
  refine ⟨st, h1, h2, info, 0, h4, h5, fun e he => ?_⟩
  have := he.1
  omega

/-! ### C160 -/

/-- With the makespan as only objective the costs along every run add up to the time that passed. -/
theorem C160_makespan (dom : Dom) (c : Costs) (hm : c.makespan = true) (hc : c.cost = false) (l : List (Action × Draw)) (st st' : State)
    (h : run dom st l = .ok st') : runCost dom c st l = .ok ((st'.t : Rat) - st.t) := by
  induction l generalizing st with
  | nil => cases h; simp [runCost]
  | cons p l ih =>
    obtain ⟨a, d⟩ := p
    obtain ⟨s, h1, h2⟩ := run_cons_ok.1 h
    unfold runCost transitionCost
    rw [h1, bind_ok, hm, hc]
    simp only [if_true, Bool.false_eq_true, if_false, pure_bind, ih s h2, bind_ok]
    show Except.ok _ = _
    congr 1
    ring

/-- … that is to the number of actions that let time pass. -/
theorem C160_steps (dom : Dom) (c : Costs) (hm : c.makespan = true) (hc : c.cost = false) (l : List (Action × Draw)) (st st' : State)
    (h : run dom st l = .ok st') : runCost dom c st l = .ok ((l.filter fun p => p.1.timeProgress).length : Rat) := by
  rw [C160_makespan dom c hm hc l st st' h, C15_clock_run dom l st st' h]
  congr 1
  push_cast
  ring

example : runCost exDom ⟨true, false, [], []⟩ (initState exDom (dr 0)) exRun = .ok 2 := by decide +kernel

theorem resourceCosts_ok {dom : Dom} {c : Costs} {st' : State} : ∀ {rs : List Res},
    (∀ r ∈ rs, dom.renewable.get? r = some true ∧ (c.perTime.get? r).isSome ∧ (st'.used.get? r).isSome) →
    resourceCosts dom c st' rs = .ok (rs.map fun r => (c.perTime.get? r).getD 0 * (((st'.used.get? r).getD 0 : Int) : Rat)).sum := by
  intro rs
  induction rs with
  | nil => intro _; rfl
  | cons r rs ih =>
    intro h
    obtain ⟨h1, h2, h3⟩ := h r (List.mem_cons_self ..)
    obtain ⟨p, hp⟩ := Option.isSome_iff_exists.1 h2
    obtain ⟨u, hu⟩ := Option.isSome_iff_exists.1 h3
    have e : resourceCost dom c st' r = .ok (p * u) := by
      unfold resourceCost isRenewable
      rw [Dict.get_ok_iff.2 h1, bind_ok, if_pos rfl, Dict.get_ok_iff.2 hp, bind_ok, Dict.get_ok_iff.2 hu, bind_ok]
      rfl
    unfold resourceCosts
    rw [e, bind_ok, ih fun r' hr' => h r' (List.mem_cons_of_mem _ hr'), bind_ok, List.map_cons, List.sum_cons, hp, hu]
    rfl

/-- With costs, when every resource is renewable, has a price and a used amount: the cost is the time passed (if the makespan is an
objective), the cost of the mode of a task that is started, and for each resource its price for every unit used in the next state. -/
theorem C160_cost (dom : Dom) (c : Costs) (hc : c.cost = true) (st st' : State) (a : Action) (m : Rat) (hm : modeCost c a = .ok m)
    (hr : ∀ r ∈ dom.resTypes ++ dom.resUnits, dom.renewable.get? r = some true ∧ (c.perTime.get? r).isSome ∧ (st'.used.get? r).isSome) :
    transitionCost dom c st a st' = .ok ((if c.makespan then (st'.t : Rat) - st.t else 0) + m +
      ((dom.resTypes ++ dom.resUnits).map fun r => (c.perTime.get? r).getD 0 * (((st'.used.get? r).getD 0 : Int) : Rat)).sum) := by
  unfold transitionCost
  simp only [hc, if_true]
  rw [hm, bind_ok, resourceCosts_ok fun r h => hr r (List.mem_append.2 (.inl h)), bind_ok,
    resourceCosts_ok fun r h => hr r (List.mem_append.2 (.inr h)), bind_ok, List.map_append, List.sum_append]
  show Except.ok _ = _
  congr 1
  ring

/-- The cost of a mode is the entry of the task and its mode when the action starts a task, and nothing otherwise. -/
theorem C160_mode (c : Costs) (a : Action) :
    (a.kind ≠ .start → modeCost c a = .ok 0) ∧
    (∀ task mode d m, a.kind = .start → a.task = some task → a.mode = some mode → c.modeCosts.get? task = some d → d.get? mode = some m →
      modeCost c a = .ok m) := by
  unfold modeCost
  constructor
  · intro h; rw [if_neg h]
  · intro task mode d m h1 h2 h3 h4 h5
    rw [if_pos h1, h2, h3]
    simp only [dgetO, Dict.get_ok_iff.2 h4, bind_ok, Dict.get_ok_iff.2 h5]

/-- Without mode costs and resource costs, running tasks in renewable resources is free. -/
theorem C160_free (dom : Dom) (st st' : State) (a : Action)
    (ha : a.kind = .start → ∃ task mode d m, a.task = some task ∧ a.mode = some mode ∧ dom.modes.get? task = some d ∧ d.get? mode = some m)
    (hr : ∀ r ∈ dom.resTypes ++ dom.resUnits, dom.renewable.get? r = some true ∧ (st'.used.get? r).isSome) :
    transitionCost dom ⟨false, true, noModeCosts dom, noResourceCosts dom⟩ st a st' = .ok 0 := by
  have hget : ∀ {β γ : Type} (f : β → γ) (d : Dict Nat β) (k : Nat), Dict.get? (d.map fun q => (q.1, f q.2)) k = (d.get? k).map f := by
    intro β γ f d k
    induction d with
    | nil => rfl
    | cons q d ih =>
      by_cases e : q.1 = k
      · simp [Dict.get?, e]
      · simp only [List.map_cons, Dict.get?, e, if_false]
        exact ih
  have hm : modeCost ⟨false, true, noModeCosts dom, noResourceCosts dom⟩ a = .ok 0 := by
    by_cases hk : a.kind = .start
    · obtain ⟨task, mode, d, m, h1, h2, h3, h4⟩ := ha hk
      refine (C160_mode _ a).2 task mode (d.map fun q => (q.1, (0 : Rat))) 0 hk h1 h2 ?_ ?_
      · show Dict.get? (noModeCosts dom) task = _
        unfold noModeCosts
        rw [hget (fun d : Dict ModeId Mode => d.map fun q => (q.1, (0 : Rat))), h3]; rfl
      · rw [hget (fun _ => (0 : Rat)), h4]; rfl
    · exact (C160_mode _ a).1 hk
  have hp : ∀ r ∈ dom.resTypes ++ dom.resUnits, (noResourceCosts dom).get? r = some 0 := by
    intro r h
    unfold noResourceCosts
    rw [foldl_set_const, if_pos h]
  rw [C160_cost dom _ rfl st st' a 0 hm fun r h => ⟨(hr r h).1, by rw [hp r h]; rfl, (hr r h).2⟩]
  congr 1
  simp only [Bool.false_eq_true, if_false]
  have : ∀ l : List Res, (∀ r ∈ l, (noResourceCosts dom).get? r = some 0) →
      (l.map fun r => ((noResourceCosts dom).get? r).getD 0 * (((st'.used.get? r).getD 0 : Int) : Rat)).sum = 0 := by
    intro l
    induction l with
    | nil => intro _; rfl
    | cons r l ih =>
      intro h
      rw [List.map_cons, List.sum_cons, ih fun r' h' => h r' (List.mem_cons_of_mem _ h'), h r (List.mem_cons_self ..)]
      simp
  rw [this _ hp]
  ring

/-- prices 5 per unit of the resource, 10 for each start -/
def exCosts : Costs := ⟨true, true, [(0, [(1, 10)]), (1, [(1, 10)]), (2, [(1, 10)]), (3, [(1, 10)])], [(0, 5)]⟩

/-- start of task 0: 10; start of task 1: 10 + 5; one time unit: 1 + 5 -/
example : runCost exDom exCosts (initState exDom (dr 0)) (exRun.take 3) = .ok 31 := by decide +kernel

/-- The resource is charged for an action that does not let time pass. -/
theorem C160_instant_refuted : ∃ st, run exDom (initState exDom (dr 0)) [(startOf 0, dr 0)] = .ok st ∧
    okAnd (run exDom st [(startOf 1, dr 2)]) (fun st' => st'.t = st.t) = true ∧
    runCost exDom ⟨true, true, noModeCosts exDom, [(0, 5)]⟩ st [(startOf 1, dr 2)] = .ok 5 :=
  okAnd_spec (p := fun st => okAnd (run exDom st [(startOf 1, dr 2)]) (fun st' => st'.t = st.t) = true ∧
    runCost exDom ⟨true, true, noModeCosts exDom, [(0, 5)]⟩ st [(startOf 1, dr 2)] = .ok 5) (by decide +kernel)

/-- A start that is rejected is charged for the mode. -/
theorem C160_rejected_refuted : ∃ st, run exDom (initState exDom (dr 0)) (exRun.take 3) = .ok st ∧
    nextState exDom (dr 1) st (startOf 2) = .ok st ∧
    transitionCost exDom { exCosts with perTime := [(0, 0)] } st (startOf 2) st = .ok 10 :=
  okAnd_spec (p := fun st => nextState exDom (dr 1) st (startOf 2) = .ok st ∧
    transitionCost exDom { exCosts with perTime := [(0, 0)] } st (startOf 2) st = .ok 10) (by decide +kernel)

/-- With a resource that is used up, no transition has a value. -/
theorem C160_consumed_refuted (dom : Dom) (c : Costs) (hc : c.cost = true) (r : Res) (hr : r ∈ dom.resTypes ++ dom.resUnits)
    (hf : dom.renewable.get? r = some false) (st st' : State) (a : Action) : ¬ ∃ x, transitionCost dom c st a st' = .ok x := by
  have key : ∀ l, r ∈ l → ¬ ∃ x, resourceCosts dom c st' l = .ok x := by
    intro l
    induction l with
    | nil => intro h; cases h
    | cons q l ih =>
      rintro h ⟨x, hx⟩
      unfold resourceCosts at hx
      obtain ⟨y, h1, hx⟩ := bind_eq_ok.1 hx
      obtain ⟨z, h2, hx⟩ := bind_eq_ok.1 hx
      rcases List.mem_cons.1 h with e | e
      · subst e
        unfold resourceCost isRenewable at h1
        rw [Dict.get_ok_iff.2 hf, bind_ok] at h1
        simp only [Bool.false_eq_true, if_false] at h1
        obtain ⟨_, _, h1⟩ := bind_eq_ok.1 h1
        cases h1
      · exact ih e ⟨z, h2⟩
  rintro ⟨x, hx⟩
  unfold transitionCost at hx
  simp only [hc, if_true] at hx
  obtain ⟨m, _, hx⟩ := bind_eq_ok.1 hx
  obtain ⟨y, h1, hx⟩ := bind_eq_ok.1 hx
  obtain ⟨z, h2, hx⟩ := bind_eq_ok.1 hx
  rcases List.mem_append.1 hr with e | e
  · exact key _ e ⟨y, h1⟩
  · exact key _ e ⟨z, h2⟩

/-! ### C161 -/

/-- The outcomes of the distribution are the states that the simulation can reach with the durations and conditions that can be drawn. -/
theorem C161_outcomes (dom : Dom) (dist : TaskId → ModeId → List (Int × Rat)) (hne : ∀ t m, dist t m ≠ []) (avail : Res → Int)
    (st : State) (a : Action) (D : List (State × Rat)) (h : nextDist dom dist avail st a = .ok D) (s' : State) :
    (∃ p, (s', p) ∈ D) ↔ ∃ d pick, (∀ task mode, a.kind = .start → a.task = some task → a.mode = some mode →
      ∃ p, (d, p) ∈ dist task mode) ∧ simState dom ⟨d, avail⟩ pick st a = .ok s' :=
  nextDist_mem hne h s'

theorem start_chain {dom : Dom} {avail : Res → Int} {st : State} {a : Action} (hp : updatePause dom st a = .ok st)
    (hr : updateResume dom st a = .ok st) (ht : a.timeProgress = false) {ds : List (Int × Rat)} {l1 l2 : List (State × Rat)}
    (f1 : List.Forall₂ (fun q q' => q'.2 = q.2 ∧ updateStart dom ⟨q.1, avail⟩ st a = .ok q'.1) ds l1)
    (f2 : List.Forall₂ (fun q q' => q'.2 = q.2 ∧ updateDummy q.1 a = .ok q'.1) l1 l2) :
    List.Forall₂ (fun q q' => q'.2 = q.2 ∧ nextState dom ⟨q.1, avail⟩ st a = .ok (updateAvail dom ⟨0, avail⟩ q'.1 a)) ds l2 := by
  induction f1 generalizing l2 with
  | nil => cases f2; exact .nil
  | cons g _ ih =>
    cases f2 with
    | cons g' f2 =>
      refine .cons ⟨by rw [g'.1, g.1], ?_⟩ (ih f2)
      unfold nextState updateTime
      rw [hp, bind_ok, hr, bind_ok, g.2, bind_ok, g'.2, bind_ok, ht]
      rfl

/-- An accepted start without time passing has one outcome for each duration, with the probability of the duration. -/
theorem C161_start (dom : Dom) (dist : TaskId → ModeId → List (Int × Rat)) (avail : Res → Int) (st : State) (a : Action)
    (D : List (State × Rat)) (h : nextDist dom dist avail st a = .ok D) (hk : a.kind = .start) (ht : a.timeProgress = false)
    (use : Dict Res Int) (hc : checkStart dom st a = .ok (true, use)) (task : TaskId) (mode : ModeId) (h1 : a.task = some task)
    (h2 : a.mode = some mode) :
    List.Forall₂ (fun q q' => q'.2 = q.2 ∧ nextState dom ⟨q.1, avail⟩ st a = .ok q'.1) (dist task mode) D := by
  have hp : updatePause dom st a = .ok st := by unfold updatePause; rw [if_neg (by rw [hk]; decide)]
  have hr : updateResume dom st a = .ok st := by unfold updateResume; rw [if_neg (by rw [hk]; decide)]
  unfold nextDist at h
  rw [hp, bind_ok, hr, bind_ok] at h
  obtain ⟨l1, e1, h⟩ := bind_eq_ok.1 h
  obtain ⟨l2, e2, h⟩ := bind_eq_ok.1 h
  dsimp only at h
  obtain ⟨l3, e3, h⟩ := bind_eq_ok.1 h
  cases h
  unfold startDist at e1
  rw [if_pos hk, hc, bind_ok] at e1
  simp only [if_true] at e1
  rw [h1, h2] at e1
  obtain ⟨l0, e0, e1⟩ := bind_eq_ok.1 e1
  have := mkDist_ok e1; subst this
  have f1 := startEach_all e0
  have f2 := mapStates_all e2
  unfold timeDist at e3
  rw [ht] at e3
  simp only [Bool.false_eq_true, if_false, Except.ok.injEq] at e3
  subst e3
  rw [List.map_map]
  have f3 := start_chain (dom := dom) (avail := avail) (st := st) hp hr ht f1 f2
  rw [List.forall₂_map_right_iff]
  refine f3.imp fun q q' g => ⟨g.1, ?_⟩
  rw [g.2]
  simp only [Function.comp]
  have : updateConditional dom q'.1 a = q'.1 := by unfold updateConditional; rw [ht]; rfl
  rw [this]

/-- The probabilities add up to one, when those of the durations do, each task sets conditions by at most one distribution, and the
action does not both start a task and let time pass. -/
theorem C161_total_partial (dom : Dom) (dist : TaskId → ModeId → List (Int × Rat)) (hsum : ∀ t m, ((dist t m).map (·.2)).sum = 1)
    (hone : ∀ task l, dom.onCompletion.get? task = some l → ∃ e, l = [e] ∧ (e.map (·.2)).sum = 1) (avail : Res → Int)
    (st : State) (a : Action) (hboth : a.kind = .start → a.timeProgress = false)
    (D : List (State × Rat)) (h : nextDist dom dist avail st a = .ok D) : (D.map (·.2)).sum = 1 := by
  unfold nextDist at h
  obtain ⟨st1, h1, h⟩ := bind_eq_ok.1 h
  obtain ⟨st2, h2, h⟩ := bind_eq_ok.1 h
  obtain ⟨l1, h3, h⟩ := bind_eq_ok.1 h
  obtain ⟨l2, h4, h⟩ := bind_eq_ok.1 h
  dsimp only at h
  obtain ⟨l3, h5, h⟩ := bind_eq_ok.1 h
  cases h
  rw [List.map_map]
  show (l3.map (·.2)).sum = 1
  unfold timeDist at h5
  by_cases ht : a.timeProgress = true
  · have hk : a.kind ≠ .start := fun e => by rw [hboth e] at ht; cases ht
    rw [startDist_other hk] at h3
    cases h3
    rw [if_pos ht] at h5
    obtain ⟨l4, g1, h5⟩ := bind_eq_ok.1 h5
    obtain ⟨l5, g2, h5⟩ := bind_eq_ok.1 h5
    obtain ⟨l6, g3, h5⟩ := bind_eq_ok.1 h5
    have e6 := mkDist_ok g3
    have h5 := (Except.ok.inj h5).symm
    subst h5
    subst e6
    rw [List.map_map]
    show (l6.map (·.2)).sum = 1
    have n2 : l2.length = 1 := by simpa using congrArg List.length (mapStates_snd h4)
    have n4 : l4.length = 1 := by
      have := congrArg List.length (mapStates_snd g1)
      simp only [List.length_map] at this
      omega
    obtain ⟨⟨s, q⟩, rfl⟩ := List.length_eq_one_iff.1 n4
    simp only [completeDist] at g2
    obtain ⟨l7, k1, g2⟩ := bind_eq_ok.1 g2
    rw [bind_ok] at g2
    have g2 := (Except.ok.inj g2).symm
    subst g2
    rw [List.append_nil]
    exact completeEach_sum hone k1
  · rw [if_neg ht] at h5
    cases h5
    rw [List.map_map]
    show (l2.map (·.2)).sum = 1
    rw [mapStates_snd h4]
    exact startDist_sum hsum h3

/-- task 1 takes two time units with probability 1/3 and four with probability 2/3 -/
def exDist (task : TaskId) (_ : ModeId) : List (Int × Rat) := if task = 1 then [(2, 1 / 3), (4, 2 / 3)] else [(if task = 2 then 1 else 0, 1)]

def chances (e : Except PyErr (List (State × Rat))) : Except PyErr (List Rat) := e.map fun D => D.map (·.2)

/-- task 2 sets condition 7 or condition 8 -/
def exTest : Dom := { exCond with onCompletion := [(2, [[(7, 1 / 4), (8, 3 / 4)]])] }

example : ∃ st, run exDom (initState exDom (dr 0)) [(startOf 0, dr 0)] = .ok st ∧
    chances (nextDist exDom exDist (fun _ => 1) st (startOf 1)) = .ok [1 / 3, 2 / 3] ∧
    (checkStart exDom st (startOf 1)).map (·.1) = .ok true :=
  okAnd_spec (by decide +kernel)

example : ∃ st, run exTest (initState exTest (dr 0)) [(startOf 0, dr 0), (startOf 2, dr 1)] = .ok st ∧
    (nextDist exTest exDist (fun _ => 1) st timeAction).map (fun D => D.map fun q => (q.1.conds, q.2)) = .ok [([7], 1 / 4), ([8], 3 / 4)] :=
  okAnd_spec (by decide +kernel)

example : ∀ t m, exDist t m ≠ [] ∧ ((exDist t m).map (·.2)).sum = 1 := by
  intro t m
  unfold exDist
  split
  · exact ⟨by decide, by decide +kernel⟩
  · exact ⟨by simp, by simp⟩

/-- An action that starts a task and lets time pass: the probabilities of the durations are lost, each outcome has probability 1. -/
theorem C161_start_and_time_refuted : ∃ st, run exDom (initState exDom (dr 0)) [(startOf 0, dr 0)] = .ok st ∧
    chances (nextDist exDom exDist (fun _ => 1) st { startOf 1 with timeProgress := true }) = .ok [1, 1] :=
  okAnd_spec (by decide +kernel)

/-- Two conditions of one task that are drawn independently of each other: the outcomes are the draws of both, their probabilities add
up to 2, and no outcome has a condition of each. -/
theorem C161_two_tests_refuted : ∃ dom : Dom, dom.onCompletion = [(2, [[(7, 1 / 4), (9, 3 / 4)], [(8, 1)]])] ∧
    ∃ st, run dom (initState dom (dr 0)) [(startOf 0, dr 0), (startOf 2, dr 1)] = .ok st ∧
    (nextDist dom exDist (fun _ => 1) st timeAction).map (fun D => D.map fun q => (q.1.conds, q.2)) =
      .ok [([7], 1 / 4), ([9], 3 / 4), ([8], 1)] :=
  ⟨{ exCond with onCompletion := [(2, [[(7, 1 / 4), (9, 3 / 4)], [(8, 1)]])] }, rfl, okAnd_spec (by decide +kernel)⟩

/-- A task whose list of conditions is empty cannot be completed. -/
theorem C161_no_tests_refuted : ∃ dom : Dom, dom.onCompletion = [(2, [])] ∧
    ∃ st, run dom (initState dom (dr 0)) [(startOf 0, dr 0), (startOf 2, dr 1)] = .ok st ∧
    chances (nextDist dom exDist (fun _ => 1) st timeAction) = .error .indexError :=
  ⟨{ exCond with onCompletion := [(2, [])] }, rfl, okAnd_spec (by decide +kernel)⟩

end Verif.Sched
