import Verif.Lemmas.SchedSpent

/-!
C103: the termination test on resources that are not renewable.
-/
namespace Verif.Sched

/-- Some mode of the task needs no more of any resource that is not renewable than is left. -/
def Startable (dom : Dom) (st : State) (x : TaskId) : Prop :=
  ∃ m ms dd, dom.modes.get? x = some ms ∧ ms.get? m = some (.constant dd) ∧
    ∀ r ∈ dom.resTypes, dom.renewable.get? r = some false → val dd r ≤ val st.avail r - val st.used r

/-- The test holds exactly when every remaining task, taken alone, could still be started as far as
the resources that are not renewable are concerned; it never raises when needs are constant and every
task has a mode. -/
theorem C103_test_iff_partial (dom : Dom) (hw : WellFormed dom) (hnd : dom.tasks.Nodup)
    (hnp : ∀ x, dom.preempt.get? x ≠ some true) (hm : ∀ x ∈ dom.tasks, ∃ m, HasMode dom x m)
    (d0 : Draw) (l : List (Action × Draw)) (hp : Proposed dom (initState dom d0) l) (st : State)
    (h : run dom (initState dom d0) l = .ok st) :
    ∃ b, allTasksPossible dom st = .ok b ∧ (b = true ↔ ∀ x ∈ st.remaining, Startable dom st x) := by
  obtain ⟨s, e1, e2, _⟩ := safe_run_noPreempt hw hnp (initState_safe d0 hnd) rfl hp
  rw [h] at e1; cases e1
  exact allTasksPossible_spec hw e2 fun x hx => hm x (e2.inTasks x (.inl hx))

/-- When the test fails the goal is lost: whatever proposed actions are played afterwards, as long as
the resources that are not renewable do not grow beyond what is available now, one task remains for
ever. -/
theorem C103_impossible_stays (dom : Dom) (hw : WellFormed dom) (hC : ConstantModes dom) (hnd : dom.tasks.Nodup)
    (hsk : dom.taskSkills = none) (hnp : ∀ x, dom.preempt.get? x ≠ some true)
    (hm : ∀ x ∈ dom.tasks, ∃ m, HasMode dom x m)
    (d0 : Draw) (l : List (Action × Draw)) (hp : Proposed dom (initState dom d0) l) (st : State)
    (h : run dom (initState dom d0) l = .ok st) (hno : allTasksPossible dom st = .ok false)
    (l' : List (Action × Draw)) (hp' : Proposed dom st l')
    (hg : ∀ p ∈ l', ∀ r ∈ dom.resTypes, dom.renewable.get? r = some false → p.2.avail r ≤ val st.avail r)
    (st' : State) (h' : run dom st l' = .ok st') :
    isGoal st' = false ∧ ∃ x ∈ st.remaining, x ∈ st'.remaining := by
  obtain ⟨hT, _⟩ := proposed_induct hw hC hsk hnp (fun _ => True) (P := fun _ => True) (fun _ _ _ _ _ _ _ _ _ _ _ => trivial)
    l _ st (tame_init hnd d0) trivial hp (fun _ _ => trivial) h
  obtain ⟨b, e1, e2⟩ := allTasksPossible_spec hw hT.safe fun x hx => hm x (hT.safe.inTasks x (.inl hx))
  rw [hno] at e1; cases e1
  have : ¬ ∀ x ∈ st.remaining, Startable dom st x := fun h => by cases e2.2 h
  push Not at this
  obtain ⟨x, hx, hns⟩ := this
  have key := proposed_induct hw hC hsk hnp
    (fun s => x ∈ s.remaining ∧ ∀ r ∈ dom.resTypes, dom.renewable.get? r = some false →
      val s.avail r ≤ val st.avail r ∧ val st.used r ≤ val s.used r)
    (P := fun d => ∀ r ∈ dom.resTypes, dom.renewable.get? r = some false → d.avail r ≤ val st.avail r)
    (by
      rintro s s' a d as hT ⟨i1, i2⟩ h1 h2 hd hn
      rcases (tame_step hw hC hsk hnp hT h1 h2 hn).2 with
        ⟨y, m, ms, dd, rfl, g1, g2, g3, g4, g5, g6, g7, g8, g9⟩ | ⟨rfl, g1, g2, g3, g4⟩
      · refine ⟨(g7 x).2 ⟨i1, ?_⟩, ?_⟩
        · rintro rfl
          refine hns ⟨m, ms, dd, g2, g3, fun r hr hren => ?_⟩
          have := g4 r hr
          have := i2 r hr hren
          omega
        · intro r hr hren
          have := i2 r hr hren
          obtain ⟨dd', e, hnn⟩ := hC y ms m _ g2 g3
          cases e
          have := hnn r
          rw [g5, g6 r hr]
          omega
      · refine ⟨by rw [g1]; exact i1, fun r hr hren => ?_⟩
        rw [g4 r hren, val_of_get (g3 r hr)]
        exact ⟨hd r hr hren, (i2 r hr hren).2⟩)
    l' st st' hT ⟨hx, fun r _ _ => ⟨Int.le_refl _, Int.le_refl _⟩⟩ hp' hg h'
  refine ⟨?_, x, hx, key.2.1⟩
  unfold isGoal
  cases hr : st'.remaining with
  | nil => have := key.2.1; rw [hr] at this; cases this
  | cons y l => rfl

/-- What is used of a resource that is not renewable is the total need of the tasks started so far,
each in the mode recorded for it, and never more than the largest amount that was ever available. -/
theorem C103_consumed (dom : Dom) (hw : WellFormed dom) (hC : ConstantModes dom) (hnd : dom.tasks.Nodup)
    (hsk : dom.taskSkills = none) (hnp : ∀ x, dom.preempt.get? x ≠ some true)
    (hpl : unconditional dom = dom.tasks) (d0 : Draw) (l : List (Action × Draw))
    (hp : Proposed dom (initState dom d0) l) (st : State) (h : run dom (initState dom d0) l = .ok st)
    (r : Res) (hr : r ∈ dom.resTypes) (hren : dom.renewable.get? r = some false) (B : Int) (hB : 0 ≤ B)
    (h0 : d0.avail r ≤ B) (hd : ∀ p ∈ l, p.2.avail r ≤ B) :
    val st.used r = ((dom.tasks.filter fun x => decide (x ∉ st.remaining)).map (declared dom st r)).sum ∧
      val st.used r ≤ B ∧ ∀ x ∈ dom.tasks, x ∉ st.remaining → ∃ m, st.mode.get? x = some m ∧ HasMode dom x m := by
  have hr' : r ∈ dom.resTypes ++ dom.resUnits := List.mem_append_left _ hr
  have hb : begun dom (initState dom d0) = [] := by
    refine List.eq_nil_iff_forall_not_mem.2 fun x hx => ?_
    obtain ⟨h1, h2⟩ := mem_begun.1 hx
    exact h2 (by show x ∈ unconditional dom; rw [hpl]; exact h1)
  have hu : val (initState dom d0).used r = 0 := by
    unfold val; rw [(initState_get dom d0 r).2, if_pos hr']; rfl
  have ha : val (initState dom d0).avail r = d0.avail r := by
    unfold val; rw [(initState_get dom d0 r).1, if_pos hr']; rfl
  have := (proposed_induct hw hC hsk hnp
    (fun s => val s.used r = ((begun dom s).map (declared dom s r)).sum ∧ val s.used r ≤ B ∧ val s.avail r ≤ B)
    (P := fun d => d.avail r ≤ B)
    (fun s s' a d as hT hI h1 h2 hd hn => spent_step hw hC hsk hnp hnd hr hren hT hI h1 h2 hd hn)
    l _ st (tame_init hnd d0) ⟨by rw [hu, hb]; rfl, by rw [hu]; exact hB, by rw [ha]; exact h0⟩ hp hd h).2
  have hmode := (proposed_induct hw hC hsk hnp
    (fun s => ∀ x ∈ dom.tasks, x ∉ s.remaining → ∃ m, s.mode.get? x = some m ∧ HasMode dom x m)
    (P := fun _ => True) (fun s s' a d as hT hI h1 h2 _ hn => recorded_step hw hC hsk hnp hT hI h1 h2 hn)
    l _ st (tame_init hnd d0)
    (fun x hx hnr => absurd (show x ∈ unconditional dom by rw [hpl]; exact hx) hnr) hp (fun _ _ => trivial) h).2
  exact ⟨this.1, this.2.1, hmode⟩

/-- Two units of resource 1, which is not renewable; each of two tasks needs them both, the third
task has no needs. -/
def joDom : Dom where
  tasks := [1, 2, 3]
  modes := [(1, [(1, .constant [(1, 2)])]), (2, [(1, .constant [(1, 2)])]), (3, [(1, .constant [])])]
  resTypes := [0, 1]
  renewable := [(0, true), (1, false)]
  returned := [(1, false)]
  preds := fun _ => []
  duration := fun _ _ => 1
  preempt := [(1, false), (2, false), (3, false)]
  horizon := 20

def joDraw : Draw := ⟨1, fun _ => 2⟩

theorem joDom_constant : ConstantModes joDom := by
  have key : ∀ p ∈ joDom.modes, ∀ q ∈ p.2, ∃ dd, q.2 = Mode.constant dd ∧ ∀ e ∈ dd, 0 ≤ e.2 := by
    intro p hp q hq
    simp only [joDom, List.mem_cons, List.not_mem_nil, or_false] at hp
    rcases hp with rfl | rfl | rfl <;>
      (simp only [List.mem_cons, List.not_mem_nil, or_false] at hq; subst hq
       exact ⟨_, rfl, by simp⟩)
  intro x ms m md h1 h2
  obtain ⟨dd, h3, h4⟩ := key (x, ms) (Dict.mem_of_get? h1) (m, md) (Dict.mem_of_get? h2)
  refine ⟨dd, h3, fun r => ?_⟩
  unfold val
  cases hg : dd.get? r with
  | none => simp
  | some v => exact h4 (r, v) (Dict.mem_of_get? hg)

theorem joDom_wellFormed : WellFormed joDom := by
  refine ⟨by decide, ?_, by decide, by decide, by decide, nofun, fun h => absurd rfl h⟩
  intro x ms m md h1 h2
  obtain ⟨dd, h3, _⟩ := joDom_constant x ms m md h1 h2
  exact ⟨dd, h3⟩

theorem joDom_noPreempt : ∀ x, joDom.preempt.get? x ≠ some true := by
  intro x h
  have := Dict.mem_of_get? h
  simp [joDom] at this

theorem joDom_modes : ∀ x ∈ joDom.tasks, ∃ m, HasMode joDom x m := by
  intro x hx
  have hx : x = 1 ∨ x = 2 ∨ x = 3 := by simpa [joDom] using hx
  rcases hx with rfl | rfl | rfl <;> exact ⟨1, _, _, rfl, rfl⟩

/-- After task 1 has started, the test fails (and with task 1 alone started by hand the hypotheses of
the theorems above hold). -/
example : ∃ st, run joDom (initState joDom joDraw) [(startOf 1, joDraw)] = .ok st ∧
    Proposed joDom (initState joDom joDraw) [(startOf 1, joDraw)] ∧ allTasksPossible joDom st = .ok false ∧
    isTerminal joDom st = .ok true ∧ val st.used 1 = 2 ∧ st.remaining = [2, 3] ∧ ¬ Startable joDom st 2 := by
  obtain ⟨st, h1, h2, h3, h4, h5⟩ : ∃ st, run joDom (initState joDom joDraw) [(startOf 1, joDraw)] = .ok st ∧
      allTasksPossible joDom st = .ok false ∧ isTerminal joDom st = .ok true ∧ val st.used 1 = 2 ∧
      st.remaining = [2, 3] := okAnd_spec (by decide +kernel)
  have hp : Proposed joDom (initState joDom joDraw) [(startOf 1, joDraw)] := proposedB_spec (by decide +kernel)
  refine ⟨st, h1, hp, h2, h3, h4, h5, fun hs => ?_⟩
  obtain ⟨m, ms, dd, g1, g2, g3⟩ := hs
  have g3 := g3 1 (by decide) (by decide)
  have e1 : ms = [(1, .constant [(1, 2)])] := by
    have : joDom.modes.get? 2 = some [(1, .constant [(1, 2)])] := rfl
    rw [this] at g1; exact (Option.some.inj g1).symm
  subst e1
  have e2 : dd = [(1, 2)] := by
    have := Dict.mem_of_get? g2
    simp only [List.mem_cons, Prod.mk.injEq, List.not_mem_nil, or_false, Mode.constant.injEq] at this
    exact this.2
  subst e2
  rw [h4] at g3
  obtain ⟨s, k1, k2⟩ : ∃ s, run joDom (initState joDom joDraw) [(startOf 1, joDraw)] = .ok s ∧ val s.avail 1 = 2 :=
    okAnd_spec (by decide +kernel)
  rw [h1] at k1; cases k1
  rw [k2] at g3
  exact absurd g3 (by decide)

/-- The converse fails: at first every task could be started and the test holds, yet the goal cannot
be reached, because two tasks together need more than there is. -/
theorem C103_joint_refuted :
    allTasksPossible joDom (initState joDom joDraw) = .ok true ∧
    isTerminal joDom (initState joDom joDraw) = .ok false ∧
    ∀ (l : List (Action × Draw)) (st : State), Proposed joDom (initState joDom joDraw) l →
      (∀ p ∈ l, p.2.avail 1 ≤ 2) → run joDom (initState joDom joDraw) l = .ok st → isGoal st = false := by
  refine ⟨by decide +kernel, by decide +kernel, fun l st hp hd h => ?_⟩
  obtain ⟨h1, h2, h3⟩ := C103_consumed joDom joDom_wellFormed joDom_constant (by decide) rfl joDom_noPreempt (by decide)
    joDraw l hp st h 1 (by decide) (by decide) 2 (by decide) (by decide) hd
  by_contra hg
  have hg : isGoal st = true := by simpa using hg
  simp only [isGoal, Bool.and_eq_true, List.isEmpty_iff] at hg
  obtain ⟨⟨g1, g2⟩, g3⟩ := hg
  have hone : ∀ x v, joDom.modes.get? x = some [(1, .constant v)] → x ∈ joDom.tasks →
      declared joDom st 1 x = (v.get? 1).getD 0 := by
    intro x v hv hx
    obtain ⟨m, k1, ms, dd, k2, k3⟩ := h3 x hx (by rw [g1]; exact List.not_mem_nil)
    rw [hv] at k2; cases k2
    have hm : m = 1 := by
      have := Dict.mem_of_get? k3
      simp only [List.mem_cons, Prod.mk.injEq, List.not_mem_nil, or_false] at this
      exact this.1
    subst hm
    unfold declared
    rw [k1, hv]
    rfl
  rw [g1] at h1
  have ht : joDom.tasks = [1, 2, 3] := rfl
  have e1 : declared joDom st 1 1 = 2 := hone 1 [(1, 2)] rfl (by decide)
  have e2 : declared joDom st 1 2 = 2 := hone 2 [(1, 2)] rfl (by decide)
  have e3 : declared joDom st 1 3 = 0 := hone 3 [] rfl (by decide)
  simp only [List.not_mem_nil, not_false_eq_true, decide_true, List.filter_true, ht, List.map_cons, List.map_nil,
    List.sum_cons, List.sum_nil, e1, e2, e3] at h1
  omega

/-- A domain with one task whose needs vary over time. -/
def vaDom : Dom where
  tasks := [1]
  modes := [(1, [(1, .varying [(0, [1, 2])])])]
  resTypes := [0]
  renewable := [(0, false)]
  preds := fun _ => []
  duration := fun _ _ => 2
  preempt := [(1, false)]
  horizon := 20

/-- Two tasks, the second without modes. -/
def noDom (l : List TaskId) : Dom where
  tasks := l
  modes := [(1, exMode 1), (2, [])]
  resTypes := [0]
  renewable := [(0, false)]
  returned := [(0, false)]
  preds := fun _ => []
  duration := fun _ _ => 2
  preempt := [(1, false), (2, false)]
  horizon := 20

/-- With needs that vary over time and a resource that is not renewable the test raises; a task
without modes makes it raise when it comes first, and passes for possible after another task that is. -/
theorem C103_raises_refuted :
    isTerminal vaDom (initState vaDom (dr 0)) = .error .attributeError ∧
    isTerminal (noDom [2, 1]) (initState (noDom [2, 1]) (dr 0)) = .error .nameError ∧
    allTasksPossible (noDom [1, 2]) (initState (noDom [1, 2]) (dr 0)) = .ok true := by
  decide +kernel

end Verif.Sched
