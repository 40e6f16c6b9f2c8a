import Verif.Lemmas.SchedFollow
import Verif.Lemmas.SchedSpent

/-! Rolling out the policies that follow a list of tasks. -/
namespace Verif.Sched

/-- When a list method lets time pass, the first ready task was rejected. -/
theorem list_time {p : Policy} {meth : Method} {ord : List TaskId → List TaskId} {dT dI : Int} {dom : Dom} {st : State}
    (hm : meth ≠ .gantt ∧ meth ≠ .pile) (hT : 0 ≤ dT) (hI : 0 ≤ dI)
    (h : p.next meth ord dT dI dom st = .ok timeAction) {x : TaskId} (hx : (readyList p dom st).head? = some x) :
    ∃ b, IsStartOf p x b ∧ Rejected dom st b := by
  have key : ∀ l, x ∈ l → p.tryTasks dom st l = .ok timeAction → ∃ b, IsStartOf p x b ∧ Rejected dom st b := by
    intro l hl ht
    rcases tryTasks_ok.1 ht with ⟨pre, y, post, rfl, h1, h2, _⟩ | ⟨_, h1⟩
    · have := h1.2.1; cases this
    · exact h1 x hl
  obtain ⟨rest, hr⟩ : ∃ rest, readyList p dom st = x :: rest := by
    cases he : readyList p dom st with
    | nil => rw [he] at hx; cases hx
    | cons y l => rw [he] at hx; cases hx; exact ⟨l, rfl⟩
  cases meth with
  | gantt => exact absurd rfl hm.1
  | pile => exact absurd rfl hm.2
  | precedence =>
    simp only [Policy.next, Policy.precedenceReady] at h
    rw [find_ready, hx] at h
    simp only at h
    cases hs : p.schedule with
    | none => rw [hs] at h; exact key [x] (by simp) h
    | some sched =>
      rw [hs] at h
      simp only [bind_eq_ok] at h
      obtain ⟨s, _, others, _, h3⟩ := h
      exact key _ (by simp) h3
  | ready =>
    have := (C16_ready_picks_first p dom st timeAction).1 h
    rw [hr] at this
    exact key _ (by simp) (tryTasks_ok.2 this)
  | strict =>
    simp only [Policy.next, Policy.strict] at h
    rw [ready_fst, hr] at h
    simp only at h
    cases hs : p.schedule with
    | none => rw [hs] at h; exact key [x] (by simp) h
    | some sched =>
      rw [hs] at h
      simp only [bind_eq_ok, keepBy_ok, Dict.get_ok_iff] at h
      obtain ⟨s, h1, l, ⟨_, rfl⟩, h3⟩ := h
      exact key _ (List.mem_filter.2 ⟨by simp, by simp [h1]⟩) h3
  | timeFreedom =>
    simp only [Policy.next, Policy.timeFreedom] at h
    rw [ready_fst, hr] at h
    simp only at h
    cases hs : p.schedule with
    | none => rw [hs] at h; exact key [x] (by simp) h
    | some sched =>
      rw [hs] at h
      simp only [bind_eq_ok, keepBy_ok, Dict.get_ok_iff] at h
      obtain ⟨s, h1, l, ⟨_, rfl⟩, h3⟩ := h
      exact key _ (List.mem_filter.2 ⟨by simp, by simp [h1, hT]⟩) h3
  | indexFreedom =>
    simp only [Policy.next, Policy.indexFreedom] at h
    have hf := ready_fst p dom st
    rw [hr] at hf
    cases he : p.ready dom st with
    | nil => rw [he] at hf; simp at hf
    | cons e l =>
      rw [he] at hf h
      obtain ⟨y, i⟩ := e
      simp only [List.map_cons, List.cons.injEq] at hf
      obtain ⟨rfl, _⟩ := hf
      simp only at h
      exact key _ (List.mem_map.2 ⟨(y, i), List.mem_filter.2 ⟨by simp, by simp [hI]⟩, rfl⟩) h

/-- Every task fits the amounts `avail` in the mode the policy chooses for it. -/
def Fits (dom : Dom) (pol : Policy) (avail : Res → Int) : Prop :=
  (∀ r ∈ dom.resTypes ++ dom.resUnits, 0 ≤ avail r) ∧
  ∀ x ∈ dom.tasks, ∃ m ms dd, pol.modes.get? x = some m ∧ dom.modes.get? x = some ms ∧ ms.get? m = some (.constant dd) ∧
    ∀ r ∈ dom.resTypes, val dd r ≤ avail r

theorem Fits.roomy {dom : Dom} {pol : Policy} {f : Res → Int} (h : Fits dom pol f) : Roomy dom f :=
  ⟨h.1, fun x hx => by
    obtain ⟨m, ms, dd, _, h2, h3, h4⟩ := h.2 x hx
    exact ⟨m, ms, dd, h2, h3, h4⟩⟩

/-- A draw with durations between 0 and `D` (0 only without needs) and amounts every task fits in. -/
def FitDraw (dom : Dom) (pol : Policy) (D : Int) (a : Action) (d : Draw) : Prop :=
  ZeroFree dom a d ∧ 0 ≤ d.duration ∧ d.duration ≤ D ∧ Fits dom pol d.avail

/-- One step of a list method. -/
theorem list_step {dom : Dom} {D : Int} (hw : WellFormed dom) (hs : Simple dom) (hpl : unconditional dom = dom.tasks)
    (hclosed : ∀ x ∈ dom.tasks, ∀ q ∈ dom.preds x, q ∈ dom.tasks) {pol : Policy} {meth : Method}
    {ord : List TaskId → List TaskId} (hord : ∀ l, (ord l).Perm l) {dT dI : Int} (hm : meth ≠ .gantt ∧ meth ≠ .pile)
    (hT : 0 ≤ dT) (hI : 0 ≤ dI) (halloc : pol.alloc = none) (hperm : ∀ x, x ∈ pol.perm ↔ x ∈ dom.tasks)
    (hsched : ∀ sched, pol.schedule = some sched → ∀ x ∈ pol.perm, (sched.get? x).isSome = true)
    {st : State} (hL : Live dom D st) (hf : ∃ f, Fits dom pol f ∧ ∀ r ∈ dom.resTypes ++ dom.resUnits, st.avail.get? r = some (f r)) :
    ∃ a, pol.next meth ord dT dI dom st = .ok a ∧
      ((∃ x m, x ∈ st.remaining ∧ a = startIn x m ∧ HasMode dom x m ∧ Enough dom st x m) ∨
       (a = timeAction ∧ (st.ongoing ≠ [] ∨ isGoal st = true))) := by
  obtain ⟨f, ⟨hf0, hf1⟩, hav⟩ := hf
  have hstart : ∀ x ∈ dom.tasks, ∃ m, IsStartOf pol x (startIn x m) ∧ HasMode dom x m ∧
      (∀ b, IsStartOf pol x b → b = startIn x m) ∧
      ∃ ms dd, dom.modes.get? x = some ms ∧ ms.get? m = some (.constant dd) ∧ ∀ r ∈ dom.resTypes, val dd r ≤ f r := by
    intro x hx
    obtain ⟨m, ms, dd, h1, h2, h3, h4⟩ := hf1 x hx
    refine ⟨m, ⟨rfl, rfl, rfl, ⟨m, h1, rfl⟩, ?_, fun _ => rfl⟩, ⟨ms, dd, h2, h3⟩, ?_, ms, dd, h2, h3, h4⟩
    · intro al us h
      rw [halloc] at h; cases h
    · rintro ⟨t, k, md, tp, un⟩ ⟨e1, e2, e3, ⟨m', e4, e5⟩, _, e6⟩
      simp only at e1 e2 e3 e5
      rw [h1] at e4; cases e4
      have := e6 (.inl halloc)
      simp only at this
      subst e1 e2 e3 e5 this
      rfl
  obtain ⟨a, ha⟩ := C16_no_exception pol meth ord dT dI dom st hm (by
    intro x _ hr
    have hxt := hL.safe.inTasks x (.inl hr.1)
    obtain ⟨m, h1, h2, _⟩ := hstart x hxt
    obtain ⟨info, hi⟩ := hL.safe.details x hxt
    obtain ⟨b, use, h3, _⟩ := checkStart_def (a := startIn x m) hw hL.safe.entries rfl rfl rfl (.inl rfl) hi h2
      (.inl (hL.safe.rem x hr.1 info hi).1)
    exact ⟨_, _, h1, h3⟩) hsched
  refine ⟨a, ha, ?_⟩
  rcases C16_returns_accepted_or_time pol meth ord hord dT dI dom st a ha with rfl | ⟨x, hr, h1, h2, _⟩
  · right
    refine ⟨rfl, ?_⟩
    by_contra hcon
    push Not at hcon
    obtain ⟨ho, hg⟩ := hcon
    have hrem : st.remaining ≠ [] := by
      intro hr
      exact hg (by simp [isGoal, hr, ho, hL.nopause])
    obtain ⟨rank, hrank⟩ := hs.acyclic
    obtain ⟨x, hx, hmin⟩ := exists_min_rank rank st.remaining hrem
    have hxt := hL.safe.inTasks x (.inl hx)
    have hready : Ready dom st x := by
      refine ⟨hx, fun q hq => ?_⟩
      have hmem := (hL.all q).2 (by rw [hpl]; exact hclosed x hxt q hq)
      simp only [allOf, ho, hL.nopause, List.append_nil, List.mem_append] at hmem
      rcases hmem with h | h
      · have := hmin q h
        have := hrank x hxt q hq
        omega
      · exact h
    have hne : (readyList pol dom st) ≠ [] :=
      List.ne_nil_of_mem (List.mem_filter.2 ⟨(hperm x).2 hxt, by simpa using hready⟩)
    obtain ⟨y, rest, hy⟩ : ∃ y rest, readyList pol dom st = y :: rest := by
      cases he : readyList pol dom st with
      | nil => exact absurd he hne
      | cons y l => exact ⟨y, l, rfl⟩
    have hyr : Ready dom st y := by
      have : y ∈ readyList pol dom st := by rw [hy]; simp
      simpa using (List.mem_filter.1 this).2
    have hyt := hL.safe.inTasks y (.inl hyr.1)
    obtain ⟨b, h1, use, h2⟩ := list_time hm hT hI ha (x := y) (by rw [hy]; rfl)
    obtain ⟨m, _, g2, g3, ms, dd, g4, g5, g6⟩ := hstart y hyt
    rw [g3 b h1] at h2
    have hE : Enough dom st y m := by
      intro r hr
      have hr' : r ∈ dom.resTypes ++ dom.resUnits := List.mem_append_left _ hr
      obtain ⟨u, hu⟩ := some_of_isSome ((hL.safe.entries r).1.2 hr')
      have := hL.acc.sum r (hs.renewable r hr')
      rw [total_empty hL.acc ho, val_of_get hu] at this
      subst this
      refine ⟨f r, 0, ms, _, _, hav r hr', hu, g4, g5, need_constant dd r _, ?_⟩
      have := g6 r hr
      omega
    obtain ⟨use', h3⟩ := checkStart_accepts hs.noSkills hL.safe hyr.1 g2 hE
    rw [show checkStart dom st (startIn y m) = _ from h3] at h2
    cases h2
  · left
    have hxt := hL.safe.inTasks x (.inl hr.1)
    obtain ⟨m, _, g2, g3, ms, dd, g4, g5, _⟩ := hstart x hxt
    have e := g3 a h1
    subst e
    refine ⟨x, m, hr.1, rfl, g2, ?_⟩
    obtain ⟨use, h3⟩ := h2
    obtain ⟨task, info, time, e1, e2, e3, e4, e5, _⟩ := checkStart_true (.inl rfl) h3
    cases e1
    obtain ⟨k1, _, k3, _⟩ := resourceUsed_ok e4
    intro r hr
    obtain ⟨ms', m', md, n, j1, j2, j3, j4, j5⟩ := k3 r hr List.not_mem_nil
    cases j1
    rw [g4] at j2; cases j2
    rw [g5] at j3; cases j3
    obtain ⟨av, u, i1, i2, i3⟩ := e5 r n (Dict.mem_of_get? j5)
    rw [need_constant] at j4; cases j4
    exact ⟨av, u, ms, _, _, i1, i2, g4, g5, need_constant dd r _, i3⟩

theorem possible_renewable {dom : Dom} (hw : WellFormed dom) (hs : Simple dom) {st : State} (hS : Safe dom st)
    (hm : ∀ x ∈ dom.tasks, ∃ m, HasMode dom x m) : allTasksPossible dom st = .ok true := by
  obtain ⟨b, h1, h2⟩ := allTasksPossible_spec hw hS fun x hx => hm x (hS.inTasks x (.inl hx))
  rw [h1, h2.2]
  intro x hx
  obtain ⟨m, ms, dd, g1, g2⟩ := hm x (hS.inTasks x (.inl hx))
  refine ⟨m, ms, dd, g1, g2, fun r hr hren => ?_⟩
  rw [hs.renewable r (List.mem_append_left _ hr)] at hren
  cases hren

theorem goal_of_idle {dom : Dom} {D : Nat} {st : State} {k : Nat} (hL : Live dom D st) (hr : st.remaining = [])
    (hk0 : k = 0)
    (hk : ∀ x ∈ st.ongoing, ∃ t0 d, 1 ≤ d ∧ d ≤ (D : Int) ∧ t0 ≤ st.t ∧ t0 + d ≤ st.t + k ∧ Phase x t0 d st) :
    isGoal st = true := by
  have ho : st.ongoing = [] := by
    apply List.eq_nil_iff_forall_not_mem.2
    intro x hx
    obtain ⟨t0, d, b1, _, b2, b3, b4⟩ := hk x hx
    rcases b4 with ⟨_, c1, _⟩ | ⟨c1, _⟩
    · omega
    · have := nodup_count hL.safe.nodup x
      rw [count_allOf] at this
      have a1 := List.count_pos_iff.2 c1
      have a2 := List.count_pos_iff.2 hx
      omega
  simp [isGoal, hr, ho, hL.nopause]

theorem follow_list {dom : Dom} {D : Nat} (hw : WellFormed dom) (hs : Simple dom) (hpl : unconditional dom = dom.tasks)
    (hclosed : ∀ x ∈ dom.tasks, ∀ q ∈ dom.preds x, q ∈ dom.tasks) {pol : Policy} {meth : Method}
    {ord : List TaskId → List TaskId} (hord : ∀ l, (ord l).Perm l) {dT dI : Int} (hm : meth ≠ .gantt ∧ meth ≠ .pile)
    (hT : 0 ≤ dT) (hI : 0 ≤ dI) (halloc : pol.alloc = none) (hperm : ∀ x, x ∈ pol.perm ↔ x ∈ dom.tasks)
    (hsched : ∀ sched, pol.schedule = some sched → ∀ x ∈ pol.perm, (sched.get? x).isSome = true)
    {draw : State → Action → Draw} (hdr : ∀ st a, FitDraw dom pol D a (draw st a)) :
    ∀ (n : Nat) (st : State) (k : Nat), Live dom D st →
      (∃ f, Fits dom pol f ∧ ∀ r ∈ dom.resTypes ++ dom.resUnits, st.avail.get? r = some (f r)) → isGoal st = false →
      (∀ x ∈ st.ongoing, ∃ t0 d, 1 ≤ d ∧ d ≤ (D : Int) ∧ t0 ≤ st.t ∧ t0 + d ≤ st.t + k ∧ Phase x t0 d st) →
      st.t + (D * st.remaining.length + k : Nat) ≤ dom.horizon →
      (D + 1) * st.remaining.length + k ≤ n →
      ∃ st', pol.follow meth ord dT dI dom draw n st = .ok st' ∧ Live dom D st' ∧ isGoal st' = true ∧
        st'.t ≤ st.t + (D * st.remaining.length + k : Nat) := by
  intro n
  induction n with
  | zero =>
    intro st k hL hf hg hk hH hn
    exfalso
    simp only [Nat.le_zero, Nat.add_eq_zero_iff, Nat.mul_eq_zero] at hn
    obtain ⟨h1, rfl⟩ := hn
    have hr : st.remaining = [] := by
      rcases h1 with h1 | h1
      · omega
      · exact List.length_eq_zero_iff.1 h1
    rw [goal_of_idle hL hr rfl hk] at hg
    cases hg
  | succ n ih =>
    intro st k hL hf hg hk hH hn
    obtain ⟨a, ha, hcase⟩ := list_step hw hs hpl hclosed hord hm hT hI halloc hperm hsched hL hf
    obtain ⟨g1, g2, g3, g4⟩ := hdr st a
    have hmodes : ∀ x ∈ dom.tasks, ∃ m, HasMode dom x m := by
      intro x hx
      obtain ⟨m, ms, dd, _, h2, h3, _⟩ := g4.2 x hx
      exact ⟨m, ms, dd, h2, h3⟩
    suffices hstep : ∃ s k', nextState dom (draw st a) st a = .ok s ∧ Live dom D s ∧
        (∃ f, Fits dom pol f ∧ ∀ r ∈ dom.resTypes ++ dom.resUnits, s.avail.get? r = some (f r)) ∧
        (∀ x ∈ s.ongoing, ∃ t0 d, 1 ≤ d ∧ d ≤ (D : Int) ∧ t0 ≤ s.t ∧ t0 + d ≤ s.t + (k' : Nat) ∧ Phase x t0 d s) ∧
        s.t + (D * s.remaining.length + k' : Nat) ≤ st.t + (D * st.remaining.length + k : Nat) ∧
        (D + 1) * s.remaining.length + k' ≤ n by
      obtain ⟨s, k', e1, e2, e3, e4, e5, e6⟩ := hstep
      have hter : isTerminal dom s = .ok (isGoal s) := by
        unfold isTerminal
        rw [possible_renewable hw hs e2.safe hmodes, bind_ok]
        have : ¬ dom.horizon < s.t := by omega
        simp [this]
        rfl
      have eq : pol.follow meth ord dT dI dom draw (n + 1) st =
          if isGoal s then .ok s else pol.follow meth ord dT dI dom draw n s := by
        rw [Policy.follow, ha, bind_ok, e1, bind_ok, hter, bind_ok]
        rfl
      rw [eq]
      cases hg' : isGoal s with
      | true =>
        simp only [if_true]
        exact ⟨s, rfl, e2, hg', by omega⟩
      | false =>
        simp only [Bool.false_eq_true, if_false]
        obtain ⟨st', f1, f2, f3, f4⟩ := ih s k' e2 e3 hg' e4 (by omega) e6
        exact ⟨st', f1, f2, f3, by omega⟩
    rcases hcase with ⟨x, m, hx, rfl, hHM, hE⟩ | ⟨rfl, ho⟩
    · obtain ⟨s, e1, e2, e3, e4, e5⟩ := live_start hw hs.noSkills hL (draw st (startIn x m)) hx hHM hE ⟨g2, g3⟩ g1
      have hav : s.avail = st.avail := (C13_availability_updated dom _ st s (startIn x m) e1).2 rfl
      have hmul : (D + 1) * st.remaining.length = (D + 1) * s.remaining.length + D + 1 := by
        rw [← e3, Nat.mul_add]; omega
      have hmul' : D * st.remaining.length = D * s.remaining.length + D := by
        rw [← e3, Nat.mul_add]; omega
      refine ⟨s, max k D, e1, e2, by rw [hav]; exact hf, ?_, by omega, by omega⟩
      intro y hy
      rcases e5 y hy with hy' | ⟨hP, hd1⟩
      · obtain ⟨t0, dd, b1, b2, b3, b4, b5⟩ := hk y hy'
        exact ⟨t0, dd, b1, b2, by omega, by omega, nextState_phase hL.safe.nodup b1 b5 (by simp) e1⟩
      · exact ⟨_, _, hd1, g3, by omega, by omega, hP⟩
    · have hon : st.ongoing ≠ [] := by
        rcases ho with h | h
        · exact h
        · rw [h] at hg; cases hg
      have hkpos : 1 ≤ k := by
        obtain ⟨x, hx⟩ := List.exists_mem_of_ne_nil _ hon
        obtain ⟨t0, dd, b1, _, b2, b3, b4⟩ := hk x hx
        rcases b4 with ⟨_, c1, _⟩ | ⟨c1, _⟩
        · omega
        · have := nodup_count hL.safe.nodup x
          rw [count_allOf] at this
          have a1 := List.count_pos_iff.2 c1
          have a2 := List.count_pos_iff.2 hx
          omega
      obtain ⟨s, e1, e2, e3, e4, e5⟩ := live_time hw hL (draw st timeAction) g4.roomy
      refine ⟨s, k - 1, e1, e2, ⟨_, g4, (C13_availability_updated dom _ st s timeAction e1).1 rfl⟩, ?_,
        by rw [e3]; omega, by rw [e3]; omega⟩
      intro y hy
      obtain ⟨t0, dd, b1, b2, b3, b4, b5⟩ := hk y (e5 y hy)
      exact ⟨t0, dd, b1, b2, by omega, by omega, nextState_phase hL.safe.nodup b1 b5 (by simp [timeAction]) e1⟩

end Verif.Sched
