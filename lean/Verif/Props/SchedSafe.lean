import Verif.Lemmas.SchedLive
import Verif.Props.Policies

/-!
C61: which scheduling domains never raise.  C62: eager play reaches the goal.  C63: exactly
which actions are proposed.  Also parts of C13 (availability) and C49 (resources charged).
-/
namespace Verif.Sched

/-! ### C61 -/

theorem safe_run {dom : Dom} (hw : WellFormed dom) {l : List (Action × Draw)} {st : State}
    (hS : Safe dom st) (hp : Proposed dom st l)
    (hacc : Along (fun st a _ => ResumeAccepted dom st a) dom st l) :
    ∃ st', run dom st l = .ok st' ∧ Safe dom st' := by
  induction l generalizing st with
  | nil => exact ⟨st, rfl, hS⟩
  | cons p l ih =>
    obtain ⟨a, d⟩ := p
    obtain ⟨⟨as, h1, h2⟩, h3⟩ := hp
    obtain ⟨h4, h5⟩ := hacc
    obtain ⟨s, e1, e2⟩ := safe_proposed hw hS d h1 h2 h4
    obtain ⟨st', e3, e4⟩ := ih e2 (h3 s e1) (h5 s e1)
    exact ⟨st', run_cons_ok.2 ⟨s, e1, e3⟩, e4⟩

/-- In a completely described domain with constant needs, playing proposed actions never raises,
whatever is drawn, and afterwards the applicable actions can be asked for again: as long as a
paused task is only resumed when its resources are there. -/
theorem C61_proposed_never_raise_partial (dom : Dom) (hw : WellFormed dom) (hd : dom.tasks.Nodup)
    (d0 : Draw) (l : List (Action × Draw)) (hp : Proposed dom (initState dom d0) l)
    (hacc : Along (fun st a _ => ResumeAccepted dom st a) dom (initState dom d0) l) :
    ∃ st, run dom (initState dom d0) l = .ok st ∧ ∃ as, actionSpace dom st = .ok as := by
  obtain ⟨st, h1, h2⟩ := safe_run hw (initState_safe d0 hd) hp hacc
  exact ⟨st, h1, safe_actionSpace hw h2⟩

theorem safe_run_noPreempt {dom : Dom} (hw : WellFormed dom)
    (hnp : ∀ x, dom.preempt.get? x ≠ some true) {l : List (Action × Draw)} {st : State}
    (hS : Safe dom st) (hpz : st.paused = []) (hp : Proposed dom st l) :
    ∃ st', run dom st l = .ok st' ∧ Safe dom st' ∧ st'.paused = [] := by
  induction l generalizing st with
  | nil => exact ⟨st, rfl, hS, hpz⟩
  | cons p l ih =>
    obtain ⟨a, d⟩ := p
    obtain ⟨⟨as, h1, h2⟩, h3⟩ := hp
    have hnr : a.kind ≠ .resume ∧ a.kind ≠ .pause := by
      rcases actionSpace_mem h1 a h2 with ⟨n, m, rfl, _⟩ | ⟨t, _, g, _⟩ | ⟨t, g, _⟩ | rfl
      · exact ⟨nofun, nofun⟩
      · exact absurd g (hnp t)
      · rw [hpz] at g; cases g
      · exact ⟨nofun, nofun⟩
    obtain ⟨s, e1, e2⟩ := safe_proposed hw hS d h1 h2 (fun h => absurd h hnr.1)
    have hs : s.paused = [] := by
      apply List.eq_nil_iff_forall_not_mem.2
      intro x hx
      have hpp : ∀ s : State, s.paused = [] → ∀ s', updateStart dom d s a = .ok s' → s'.paused = [] := by
        intro s hs s' h
        rcases updateStart_ok h with ⟨_, rfl⟩ | ⟨hk, b, use, hch, hc⟩
        · exact hs
        · rcases hc with ⟨_, rfl⟩ | ⟨rfl, task, mode, info, used, hta, hmo, _, _, ha, rfl⟩ <;> exact hs
      have := nextState_invariant (dom := dom) (d := d) (a := a) (fun s : State => s.paused = [])
        (by
          intro s s' hs h
          rcases updatePause_ok h with ⟨_, rfl⟩ | ⟨hk, _⟩
          · exact hs
          · exact absurd hk hnr.2)
        (by
          intro s s' hs h
          rcases updateResume_ok h with ⟨_, rfl⟩ | ⟨hk, _⟩
          · exact hs
          · exact absurd hk hnr.1)
        (fun s s' hs h => hpp s hs s' h)
        (by
          intro s s' hs h
          rcases updateDummy_ok h with ⟨_, rfl⟩ | ⟨_, task, info, _, _, hc⟩
          · exact hs
          · rcases hc with ⟨_, rfl⟩ | ⟨_, hm, ⟨uf, hu⟩, rfl⟩ <;> exact hs)
        (by
          intro s s' hs h
          rcases updateTime_ok h with ⟨ht, rfl⟩ | ⟨ht, pr, uf, us, st2, _, k2, k3, rfl⟩
          · exact hs
          · obtain ⟨done, _, k4⟩ := updateComplete_ok k3
            have h0 : (fun s : State => s.paused = []) { s with
                progress := done.foldl (fun d x => Dict.set d x (1 : Rat)) pr, usedFor := uf, used := us } :=
              hs
            have := completions_invariant (fun s : State => s.paused = []) (dom := dom) (st' := st2) (by
                intro s s' task hs hc
                obtain ⟨uf, used, info, hm, _, hrel, _, rfl⟩ := completeOne_ok hc
                exact hs) h0 k4
            exact this)
        (by
          intro s hs
          unfold updateAvail
          split <;> exact hs) hpz e1
      rw [this] at hx; cases hx
    obtain ⟨st', e3, e4⟩ := ih e2 hs (h3 s e1)
    exact ⟨st', run_cons_ok.2 ⟨s, e1, e3⟩, e4⟩

/-- When no task is preemptive no further condition is needed. -/
theorem C61_non_preemptive_never_raise (dom : Dom) (hw : WellFormed dom) (hd : dom.tasks.Nodup)
    (hnp : ∀ x, dom.preempt.get? x ≠ some true)
    (d0 : Draw) (l : List (Action × Draw)) (hp : Proposed dom (initState dom d0) l) :
    ∃ st, run dom (initState dom d0) l = .ok st ∧ ∃ as, actionSpace dom st = .ok as := by
  obtain ⟨st, h1, h2, _⟩ := safe_run_noPreempt hw hnp (initState_safe d0 hd) rfl hp
  exact ⟨st, h1, safe_actionSpace hw h2⟩

theorem exDom_wellFormed : WellFormed exDom := by
  refine ⟨by decide, ?_, by decide, by decide, by decide, nofun, fun h => absurd rfl h⟩
  intro x ms m md h1 h2
  have h1 := Dict.mem_of_get? h1
  have h2 := Dict.mem_of_get? h2
  simp only [exDom, exMode, List.mem_cons, Prod.mk.injEq, List.not_mem_nil, or_false] at h1
  rcases h1 with ⟨_, rfl⟩ | ⟨_, rfl⟩ | ⟨_, rfl⟩ | ⟨_, rfl⟩ <;>
  · simp only [List.mem_cons, Prod.mk.injEq, List.not_mem_nil, or_false] at h2
    exact ⟨_, h2.2⟩

/-- Without that condition the code raises: in a completely described domain, a sequence of
proposed actions ends in a `KeyError`. -/
theorem C61_preemptive_raises :
    WellFormed exDom ∧ exDom.tasks.Nodup ∧
    ∃ l : List (Action × Draw), Proposed exDom (initState exDom (dr 0)) l ∧
      run exDom (initState exDom (dr 0)) l = .error .keyError :=
  ⟨exDom_wellFormed, by decide, stuckRun ++ [(timeAction, dr 0)], proposedB_spec (by decide +kernel),
    by decide +kernel⟩

/-- `exDom` without preemption. -/
def exPlain : Dom := { exDom with preempt := [(0, false), (1, false), (2, false), (3, false)] }

theorem exPlain_wellFormed : WellFormed exPlain :=
  ⟨exDom_wellFormed.modes, exDom_wellFormed.constant, exDom_wellFormed.renewable,
    by decide, by decide, exDom_wellFormed.taskSkills, exDom_wellFormed.resSkills⟩

theorem exPlain_noPreempt : ∀ x, exPlain.preempt.get? x ≠ some true := by
  intro x h
  have := Dict.mem_of_get? h
  simp [exPlain] at this

example : WellFormed exPlain ∧ Proposed exPlain (initState exPlain (dr 0)) exFull ∧
    (∀ x, exPlain.preempt.get? x ≠ some true) ∧ exFull.length = 7 :=
  ⟨exPlain_wellFormed, proposedB_spec (by decide +kernel), exPlain_noPreempt, rfl⟩

/-! ### C62 -/

/-- Eager play of a simple domain reaches the goal: if a start is played whenever one is
proposed, drawn durations lie between 0 and `D` (0 only for tasks that need nothing) and every
task always fits the amounts drawn as available, then after at most `(D + 1)` times the number
of tasks steps all tasks are complete.  (Partial: preemption, skills, non-renewable resources
and tasks of duration zero with needs are excluded; with the latter two the goal can become
unreachable.) -/
theorem C62_eager_play_reaches_goal_partial (dom : Dom) (D : Nat) (hw : WellFormed dom)
    (hs : Simple dom) (hd : dom.tasks.Nodup) (d0 : Draw) (h0 : Roomy dom d0.avail)
    (l : List (Action × Draw)) (hE : Eager dom (initState dom d0) l)
    (hg : ∀ p ∈ l, GoodDraw dom D p.1 p.2)
    (hl : (D + 1) * (unconditional dom).length ≤ l.length) :
    ∃ n st, n ≤ (D + 1) * (unconditional dom).length ∧
      run dom (initState dom d0) (l.take n) = .ok st ∧ isGoal st = true ∧
      ∀ x ∈ unconditional dom, x ∈ st.complete := by
  have hi := initState_acc dom d0 hd
  have hL : Live dom D (initState dom d0) := by
    refine ⟨initState_safe d0 hd, hi.1, hi.2.1, ?_, rfl, rfl, ?_, ?_, d0.avail, h0, ?_⟩
    · have hn : ∀ (l : List Res) (m : Dict Res Int), m.keys.Nodup →
          (Dict.keys (l.foldl (fun m r => Dict.set m r (d0.avail r)) m)).Nodup := by
        intro l
        induction l with
        | nil => exact fun m h => h
        | cons r l ih => exact fun m h => ih _ (Dict.nodup_keys_set _ _ h)
      have := hn (dom.resTypes ++ dom.resUnits) [] (by simp [Dict.keys])
      show (List.map _ (List.map _ _)).Nodup
      rw [List.map_map]
      exact this
    · intro x hx; cases hx
    · intro x
      simp [allOf, initState]
    · intro r hr
      rw [(initState_get dom d0 r).1, if_pos hr]
  obtain ⟨n, st, h1, h2, h3⟩ := eager_goal (k := 0) hw hs hL hE hg (fun x hx => by cases hx)
    (by rw [Nat.add_zero]; exact hl)
  refine ⟨n, st, by rw [Nat.add_zero] at h1; exact h1, h2, h3, ?_⟩
  intro x hx
  have h5 := (C11_exactly_one_set dom d0 hd _ st h2 x).1 hx
  simp only [isGoal, Bool.and_eq_true, List.isEmpty_iff] at h3
  obtain ⟨⟨g1, g2⟩, g3⟩ := h3
  unfold InExactlyOne at h5
  rw [g1, g2, g3] at h5
  simp only [List.not_mem_nil, false_and, not_false_eq_true, true_and, false_or] at h5
  exact h5

def eagerB (dom : Dom) : State → List (Action × Draw) → Bool
  | _, [] => true
  | st, (a, d) :: rest =>
    (match actionSpace dom st with
      | .ok as => decide (a ∈ as) && (decide (a.kind = .start) || as.all fun b => decide (b.kind ≠ .start))
      | .error _ => false) &&
    (match nextState dom d st a with | .ok st' => eagerB dom st' rest | .error _ => true)

theorem eagerB_spec {dom : Dom} {l : List (Action × Draw)} {st : State}
    (h : eagerB dom st l = true) : Eager dom st l := by
  induction l generalizing st with
  | nil => trivial
  | cons x l ih =>
    obtain ⟨a, d⟩ := x
    simp only [eagerB, Bool.and_eq_true] at h
    obtain ⟨h1, h2⟩ := h
    constructor
    · split at h1
      · rename_i as he
        simp only [Bool.and_eq_true, decide_eq_true_eq, Bool.or_eq_true, List.all_eq_true] at h1
        exact ⟨as, he, h1.1, fun hk => h1.2.resolve_left hk⟩
      · cases h1
    · intro st' hs
      rw [hs] at h2
      exact ih h2

/-- An eager run of `exPlain` with durations up to 2, long enough for the bound. -/
def eagerRun : List (Action × Draw) :=
  [(startOf 0, dr 0), (startOf 1, dr 2), (timeAction, dr 0), (timeAction, dr 0), (startOf 2, dr 1),
   (timeAction, dr 0), (startOf 3, dr 0)] ++ List.replicate 5 (timeAction, dr 0)

example : WellFormed exPlain ∧ Simple exPlain ∧ Roomy exPlain (dr 0).avail ∧
    Eager exPlain (initState exPlain (dr 0)) eagerRun ∧ (∀ p ∈ eagerRun, GoodDraw exPlain 2 p.1 p.2) ∧
    (2 + 1) * (unconditional exPlain).length ≤ eagerRun.length := by
  have hroom : ∀ n, Roomy exPlain (dr n).avail := by
    intro n
    refine ⟨by intro r _; simp [dr], ?_⟩
    intro x hx
    have hx : x = 0 ∨ x = 1 ∨ x = 2 ∨ x = 3 := by simpa [exPlain, exDom] using hx
    rcases hx with rfl | rfl | rfl | rfl
    · exact ⟨1, exMode 0, [(0, 0)], rfl, rfl, by intro r hr; rw [List.mem_singleton.1 hr]; show _ ≤ (dr 0).avail 0; decide⟩
    · exact ⟨1, exMode 1, [(0, 1)], rfl, rfl, by intro r hr; rw [List.mem_singleton.1 hr]; show _ ≤ (dr 0).avail 0; decide⟩
    · exact ⟨1, exMode 1, [(0, 1)], rfl, rfl, by intro r hr; rw [List.mem_singleton.1 hr]; show _ ≤ (dr 0).avail 0; decide⟩
    · exact ⟨1, exMode 0, [(0, 0)], rfl, rfl, by intro r hr; rw [List.mem_singleton.1 hr]; show _ ≤ (dr 0).avail 0; decide⟩
  have hzero : ∀ x, x = 0 ∨ x = 3 → ZeroFree exPlain (startOf x) (dr 0) := by
    intro x hx _ _
    refine ⟨rfl, ?_⟩
    intro task m ms md e1 e2 e3 e4 r n t hn
    cases e1; cases e2
    have : md = .constant [(0, 0)] := by
      rcases hx with rfl | rfl
      · cases e3; cases e4; rfl
      · cases e3; cases e4; rfl
    subst this
    rw [need_constant] at hn
    cases hn
    unfold val
    simp only [Dict.get?]
    split <;> rfl
  refine ⟨exPlain_wellFormed, ⟨exPlain_noPreempt, rfl, by decide, id, ?_⟩, hroom 0,
    eagerB_spec (by decide +kernel), ?_, by decide⟩
  · decide
  · intro p hp
    simp only [eagerRun, List.replicate, List.cons_append, List.nil_append, List.mem_cons,
      List.not_mem_nil, or_false] at hp
    have ht : GoodDraw exPlain 2 timeAction (dr 0) :=
      ⟨fun h => (by simp [timeAction] at h), by decide, by decide, hroom 0⟩
    have hpos : ∀ x n, 0 < n → n ≤ 2 → GoodDraw exPlain 2 (startOf x) (dr n) := fun x n h1 h2 =>
      ⟨fun _ h => (by simp only [dr] at h; omega), by simp only [dr]; omega, by simpa only [dr] using h2, hroom n⟩
    rcases hp with rfl | rfl | rfl | rfl | rfl | rfl | rfl | rfl | rfl | rfl | rfl | rfl
    · exact ⟨hzero 0 (.inl rfl), by decide, by decide, hroom 0⟩
    · exact hpos 1 2 (by decide) (by decide)
    · exact ht
    · exact ht
    · exact hpos 2 1 (by decide) (by decide)
    · exact ht
    · exact ⟨hzero 3 (.inr rfl), by decide, by decide, hroom 0⟩
    all_goals exact ht

/-- `leakDom` at time `n`, after task 0. -/
def leakSt (n : Int) : State :=
  match run leakDom (initState leakDom (dr 0)) [(startOf 0, dr 0)] with
  | .ok st => { st with t := n }
  | .error _ => initState leakDom (dr 0)

theorem leakSt_step (n : Int) :
    actionSpace leakDom (leakSt n) = .ok [timeAction] ∧
    nextState leakDom (dr 0) (leakSt n) timeAction = .ok (leakSt (n + 1)) ∧
    isGoal (leakSt n) = false :=
  ⟨rfl, rfl, rfl⟩

theorem leak_run (k : Nat) (n : Int) :
    Eager leakDom (leakSt n) (List.replicate k (timeAction, dr 0)) ∧
    run leakDom (leakSt n) (List.replicate k (timeAction, dr 0)) = .ok (leakSt (n + k)) := by
  induction k generalizing n with
  | zero => exact ⟨trivial, by simp [run]⟩
  | succ k ih =>
    obtain ⟨h1, h2, _⟩ := leakSt_step n
    obtain ⟨i1, i2⟩ := ih (n + 1)
    constructor
    · refine ⟨⟨_, h1, by simp, fun _ b hb => ?_⟩, fun s hs => ?_⟩
      · rw [List.mem_singleton.1 hb]; exact nofun
      · rw [h2] at hs; cases hs; exact i1
    · refine run_cons_ok.2 ⟨_, h2, ?_⟩
      rw [i2]
      congr 2
      omega

/-- With a task of duration zero that needs the resource, eager play never reaches the goal,
although every proposed start is played. -/
theorem C62_zero_duration_blocks (k : Nat) :
    let l := (startOf 0, dr 0) :: List.replicate k (timeAction, dr 0)
    Eager leakDom (initState leakDom (dr 0)) l ∧
    ∃ st, run leakDom (initState leakDom (dr 0)) l = .ok st ∧ isGoal st = false := by
  have h0 : nextState leakDom (dr 0) (initState leakDom (dr 0)) (startOf 0) = .ok (leakSt 0) := rfl
  obtain ⟨h1, h2⟩ := leak_run k 0
  refine ⟨⟨⟨_, rfl, by decide, fun h => absurd rfl h⟩, fun s hs => ?_⟩,
    _, run_cons_ok.2 ⟨_, h0, h2⟩, (leakSt_step _).2.2⟩
  rw [h0] at hs; cases hs; exact h1

/-! ### C63 -/

/-- No resource has more in use than available. -/
def Within (st : State) : Prop :=
  ∀ r u a, (r, u) ∈ st.used → st.avail.get? r = some a → u ≤ a

theorem possibleStarting_nodup {dom : Dom} {st : State} {d : Dict TaskId ModeId}
    (h : possibleStarting dom st = .ok d) : d.keys.Nodup := by
  unfold possibleStarting at h
  simp only [bind_eq_ok] at h
  obtain ⟨ps, _, qs, _, h3⟩ := h
  rw [← Except.ok.inj h3]
  have : ∀ (l : List (TaskId × ModeId)) (m : Dict TaskId ModeId), m.keys.Nodup →
      (Dict.keys (l.foldl (fun d p => Dict.set d p.1 p.2) m)).Nodup := by
    intro l
    induction l with
    | nil => exact fun m h => h
    | cons r l ih => exact fun m h => ih _ (Dict.nodup_keys_set _ _ h)
  exact this qs [] (by simp [Dict.keys])

theorem actionSpace_split {dom : Dom} {st : State} {as : List Action}
    (h : actionSpace dom st = .ok as) : ∃ over starts pauses resumes,
      overconsuming st st.used = .ok over ∧ (over = true → starts = [] ∧ resumes = []) ∧
      (over = false → ∃ d, possibleStarting dom st = .ok d ∧
        starts = d.map (fun p => (⟨some p.1, .start, some p.2, false, none⟩ : Action)) ∧
        resumeActions st st.paused = .ok resumes) ∧
      pauseActions dom st.ongoing = .ok pauses ∧
      as = starts ++ pauses ++ resumes ++ [timeAction] := by
  unfold actionSpace at h
  simp only [bind_eq_ok] at h
  obtain ⟨over, h1, h⟩ := h
  cases over with
  | true =>
    simp only [if_true, bind_eq_ok, pure_eq_ok] at h
    obtain ⟨starts, h2, pauses, h3, resumes, h4, h5⟩ := h
    subst h2 h4
    exact ⟨_, _, _, _, h1, fun _ => ⟨rfl, rfl⟩, nofun, h3, h5.symm⟩
  | false =>
    simp only [Bool.false_eq_true, if_false, bind_eq_ok, pure_eq_ok] at h
    obtain ⟨d, g1, starts, h2, pauses, h3, resumes, h4, h5⟩ := h
    exact ⟨_, _, _, _, h1, nofun, fun _ => ⟨d, g1, h2.symm, h4⟩, h3, h5.symm⟩

/-- Exactly which actions are proposed: time progress always; pausing exactly the preemptive
ongoing tasks; unless more is in use than available, resuming exactly the paused tasks, each in
its mode; nothing else besides starts, which are proposed only when no more is in use than
available and at most once for each task. -/
theorem C63_proposals (dom : Dom) (st : State) (as : List Action)
    (h : actionSpace dom st = .ok as) :
    timeAction ∈ as ∧
    (∀ t, (⟨some t, .pause, none, false, none⟩ : Action) ∈ as ↔
      t ∈ st.ongoing ∧ dom.preempt.get? t = some true) ∧
    (∀ t m, (⟨some t, .resume, some m, false, none⟩ : Action) ∈ as ↔
      t ∈ st.paused ∧ st.mode.get? t = some m ∧ Within st) ∧
    (∀ a ∈ as, a = timeAction ∨ (∃ t, a = ⟨some t, .pause, none, false, none⟩) ∨
      (∃ t m, a = ⟨some t, .resume, some m, false, none⟩) ∨
      (∃ t m, a = ⟨some t, .start, some m, false, none⟩ ∧ Within st)) ∧
    (∀ t m m', (⟨some t, .start, some m, false, none⟩ : Action) ∈ as →
      (⟨some t, .start, some m', false, none⟩ : Action) ∈ as → m = m') := by
  obtain ⟨over, starts, pauses, resumes, h1, h2, h4, h3, h5⟩ := actionSpace_split h
  have hp := pauseActions_mem h3
  have hover := overconsuming_spec h1
  have hwithin : Within st ↔ over = false := by
    constructor
    · intro hw
      cases over with
      | false => rfl
      | true =>
        obtain ⟨r, u, g1, a, g2, g3⟩ := hover.1 rfl
        have := hw r u a g1 g2
        omega
    · intro ho r u a g1 g2
      rcases Int.lt_or_le a u with g3 | g3
      · have := hover.2 ⟨r, u, g1, a, g2, g3⟩
        rw [ho] at this; cases this
      · exact g3
  have hst : (∀ a ∈ starts, ∃ t m, a = ⟨some t, .start, some m, false, none⟩ ∧ over = false) ∧
      ∀ t m m', (⟨some t, .start, some m, false, none⟩ : Action) ∈ starts →
        (⟨some t, .start, some m', false, none⟩ : Action) ∈ starts → m = m' := by
    cases over with
    | true =>
      rw [(h2 rfl).1]
      exact ⟨nofun, nofun⟩
    | false =>
      obtain ⟨d, h6, h7, _⟩ := h4 rfl
      subst h7
      have hn := possibleStarting_nodup h6
      constructor
      · intro a ha
        obtain ⟨p, _, rfl⟩ := List.mem_map.1 ha
        exact ⟨_, _, rfl, rfl⟩
      · intro t m m' g1 g2
        obtain ⟨p, q1, q2⟩ := List.mem_map.1 g1
        obtain ⟨p', q3, q4⟩ := List.mem_map.1 g2
        simp only [Action.mk.injEq, Option.some.injEq, true_and, and_true] at q2 q4
        obtain ⟨p1, p2⟩ := p
        obtain ⟨p1', p2'⟩ := p'
        obtain ⟨rfl, rfl⟩ := q2
        obtain ⟨e1, rfl⟩ := q4
        simp only at e1
        subst e1
        have e3 := Dict.get?_of_mem hn q1
        have e4 := Dict.get?_of_mem hn q3
        rw [e3] at e4
        exact Option.some.inj e4
  have hre : ∀ a, a ∈ resumes ↔ over = false ∧
      ∃ t ∈ st.paused, ∃ m, st.mode.get? t = some m ∧ a = ⟨some t, .resume, some m, false, none⟩ := by
    intro a
    cases over with
    | true =>
      rw [(h2 rfl).2]
      simp
    | false =>
      obtain ⟨_, _, _, h4⟩ := h4 rfl
      rw [resumeActions_mem h4 a]
      simp
  have hmem : ∀ a, a ∈ as ↔ a ∈ starts ∨ a ∈ pauses ∨ a ∈ resumes ∨ a = timeAction := by
    intro a; rw [h5]; simp
  refine ⟨(hmem _).2 (.inr (.inr (.inr rfl))), ?_, ?_, ?_, ?_⟩
  · intro t
    rw [hmem]
    constructor
    · rintro (g | g | g | g)
      · obtain ⟨_, _, g, _⟩ := hst.1 _ g; cases g
      · obtain ⟨t', g1, g2, g3⟩ := (hp _).1 g
        cases g3; exact ⟨g1, g2⟩
      · obtain ⟨_, t', _, m, _, g⟩ := (hre _).1 g; cases g
      · cases g
    · rintro ⟨g1, g2⟩
      exact .inr (.inl ((hp _).2 ⟨t, g1, g2, rfl⟩))
  · intro t m
    rw [hmem, hwithin]
    constructor
    · rintro (g | g | g | g)
      · obtain ⟨_, _, g, _⟩ := hst.1 _ g; cases g
      · obtain ⟨t', g1, g2, g3⟩ := (hp _).1 g
        cases g3
      · obtain ⟨g0, t', g1, m, g2, g⟩ := (hre _).1 g
        cases g; exact ⟨g1, g2, g0⟩
      · cases g
    · rintro ⟨g1, g2, g3⟩
      exact .inr (.inr (.inl ((hre _).2 ⟨g3, t, g1, m, g2, rfl⟩)))
  · intro a ha
    rcases (hmem a).1 ha with g | g | g | g
    · obtain ⟨t, m, g1, g2⟩ := hst.1 _ g
      exact .inr (.inr (.inr ⟨t, m, g1, hwithin.2 g2⟩))
    · obtain ⟨t', _, _, g3⟩ := (hp _).1 g
      exact .inr (.inl ⟨t', g3⟩)
    · obtain ⟨_, t', _, m, _, g⟩ := (hre _).1 g
      exact .inr (.inr (.inl ⟨t', m, g⟩))
    · exact .inl g
  · intro t m m' g1 g2
    have aux : ∀ m, (⟨some t, .start, some m, false, none⟩ : Action) ∈ as →
        (⟨some t, .start, some m, false, none⟩ : Action) ∈ starts := by
      intro m g
      rcases (hmem _).1 g with g | g | g | g
      · exact g
      · obtain ⟨t', g1, g2, g3⟩ := (hp _).1 g
        cases g3
      · obtain ⟨_, t', _, m, _, g⟩ := (hre _).1 g; cases g
      · cases g
    exact hst.2 t m m' (aux m g1) (aux m' g2)

/-- One task with two modes, both feasible. -/
def twoModes : Dom where
  tasks := [0]
  modes := [(0, [(1, .constant [(0, 1)]), (2, .constant [(0, 2)])])]
  resTypes := [0]
  renewable := [(0, true)]
  preds := fun _ => []
  duration := fun _ _ => 1

/-- Not every possible start is proposed: a task with two modes that both fit, and which can be
started in either mode, is proposed only in the last one (the inner dictionary is overwritten). -/
theorem C63_only_last_mode_proposed :
    let st := initState twoModes { dr 1 with avail := fun _ => 2 }
    actionSpace twoModes st = .ok [⟨some 0, .start, some 2, false, none⟩, timeAction] ∧
    Enough twoModes st 0 1 ∧ Enough twoModes st 0 2 ∧
    (∃ st', nextState twoModes { dr 1 with avail := fun _ => 2 } st
      ⟨some 0, .start, some 1, false, none⟩ = .ok st' ∧ st'.ongoing = [0] ∧ st'.mode.get? 0 = some 1) := by
  refine ⟨by decide +kernel, ?_, ?_, okAnd_spec (by decide +kernel)⟩
  · intro r hr
    rw [List.mem_singleton.1 hr]
    exact ⟨2, 0, _, _, 1, rfl, rfl, rfl, rfl, rfl, by decide⟩
  · intro r hr
    rw [List.mem_singleton.1 hr]
    exact ⟨2, 0, _, _, 2, rfl, rfl, rfl, rfl, rfl, by decide⟩

/-- A preemptive ongoing task; and the same task paused. -/
example : (∃ st, run exDom (initState exDom (dr 0)) (stuckRun.take 2) = .ok st ∧
      actionSpace exDom st = .ok [pauseOf 1, timeAction]) ∧
    (∃ st, run exDom (initState exDom (dr 0)) (stuckRun.take 4) = .ok st ∧
      actionSpace exDom st = .ok [startOf 2, resumeOf 1, timeAction]) :=
  ⟨okAnd_spec (by decide +kernel), okAnd_spec (by decide +kernel)⟩

/-! ### Availability (C13) and what an accepted start charges (C49) -/

/-- After a step in which time passes, the available amount of every resource is the one drawn
for that step; otherwise no available amount changes. -/
theorem C13_availability_updated (dom : Dom) (d : Draw) (st st' : State) (a : Action)
    (h : nextState dom d st a = .ok st') :
    (a.timeProgress = true → ∀ r ∈ dom.resTypes ++ dom.resUnits, st'.avail.get? r = some (d.avail r)) ∧
    (a.timeProgress = false → st'.avail = st.avail) := by
  constructor
  · intro ht r hr
    obtain ⟨s1, s2, s3, s4, s5, h1, h2, h3, h4, h5, rfl⟩ := nextState_ok h
    unfold updateAvail
    simp only [ht, if_true]
    rw [initAvail_get, if_pos]
    rw [List.mem_append] at hr ⊢
    exact hr.symm
  · intro ht
    exact nextState_invariant (dom := dom) (d := d) (a := a) (fun s : State => s.avail = st.avail)
        (by
          intro s s' hs h
          rcases updatePause_ok h with ⟨_, rfl⟩ | ⟨hk, task, uf, used, info, _, _, _, _, _, rfl⟩ <;> exact hs)
        (by
          intro s s' hs h
          rcases updateResume_ok h with ⟨_, rfl⟩ | ⟨hk, task, info, b, use, _, hm, _, _, hc⟩
          · exact hs
          · rcases hc with ⟨_, rfl⟩ | ⟨_, _, _, rfl⟩ <;> exact hs)
        (by
          intro s s' hs h
          rcases updateStart_ok h with ⟨_, rfl⟩ | ⟨hk, b, use, hch, hc⟩
          · exact hs
          · rcases hc with ⟨_, rfl⟩ | ⟨rfl, task, mode, info, used, hta, hmo, _, _, ha, rfl⟩ <;> exact hs)
        (by
          intro s s' hs h
          rcases updateDummy_ok h with ⟨_, rfl⟩ | ⟨_, task, info, _, _, hc⟩
          · exact hs
          · rcases hc with ⟨_, rfl⟩ | ⟨_, hm, ⟨uf, hu⟩, rfl⟩ <;> exact hs)
        (by
          intro s s' hs h
          rcases updateTime_ok h with ⟨_, rfl⟩ | ⟨ht', _⟩
          · exact hs
          · rw [ht] at ht'; cases ht')
        (by
          intro s hs
          unfold updateAvail
          rw [ht]; exact hs) rfl h

/-- The amount available drops from 1 to 0 with the draw of a time step. -/
example : ∃ st, nextState exDom { dr 0 with avail := fun _ => 0 } (initState exDom (dr 0)) timeAction = .ok st ∧
    (initState exDom (dr 0)).avail.get? 0 = some 1 ∧ st.avail.get? 0 = some 0 :=
  okAnd_spec (by decide +kernel)

/-- An accepted start in a mode with constant needs takes exactly the needs of that mode, and one
of every requested unit, and does not touch any other task. -/
theorem C49_start_charges (dom : Dom) (d : Draw) (st st' : State) (a : Action) (x : TaskId) (m : ModeId)
    (ms : Dict ModeId Mode) (needs : Dict Res Int)
    (hk : a.kind = .start) (ht : a.task = some x) (hm : a.mode = some m) (htp : a.timeProgress = false)
    (hacc : Accepted dom st a) (hms : dom.modes.get? x = some ms) (hmd : ms.get? m = some (.constant needs))
    (h : nextState dom d st a = .ok st') :
    (∀ r, val st'.used r = val st.used r +
      (if r ∈ a.units.getD [] then 1 else if r ∈ dom.resTypes then val needs r else 0)) ∧
    (∀ y, y ≠ x → Same y st st') := by
  obtain ⟨use, hch⟩ := hacc
  obtain ⟨s1, s2, s3, s4, s5, h1, h2, h3, h4, h5, rfl⟩ := nextState_ok h
  have e1 : s1 = st := by
    rcases updatePause_ok h1 with ⟨_, h⟩ | ⟨hk', _⟩
    · exact h
    · rw [hk] at hk'; cases hk'
  have e2 : s2 = s1 := by
    rcases updateResume_ok h2 with ⟨_, h⟩ | ⟨hk', _⟩
    · exact h
    · rw [hk] at hk'; cases hk'
  subst e2 e1
  have e5 : s4 = s5 := by
    rcases updateTime_ok h5 with ⟨_, h⟩ | ⟨ht', _⟩
    · exact h.symm
    · rw [htp] at ht'; cases ht'
  subst e5
  have e6 : updateAvail dom d s4 a = s4 := by unfold updateAvail; rw [htp]; rfl
  rw [e6]
  constructor
  · intro r
    have h4' : s4.used = s3.used := by
      rcases updateDummy_ok h4 with ⟨_, rfl⟩ | ⟨_, task, info, _, _, hc⟩
      · rfl
      · rcases hc with ⟨_, rfl⟩ | ⟨_, hm, ⟨uf, hu⟩, rfl⟩ <;> rfl
    rw [h4']
    rcases updateStart_ok h3 with ⟨hk', _⟩ | ⟨_, b, use', hch', hc⟩
    · exact absurd hk hk'
    · rw [hch] at hch'
      cases hch'
      rcases hc with ⟨hc, _⟩ | ⟨_, task, mode, info, used, hta, hmo, _, _, ha, rfl⟩
      · cases hc
      · obtain ⟨x', info', time, g1, g2, g3, g4, g5, g6⟩ := checkStart_true (.inl hk) hch
        rw [ht] at g1; cases g1
        obtain ⟨q1, q2, q3, q4⟩ := resourceUsed_ok g4
        show val used r = _
        rw [addAll_val q1 ha r]
        congr 1
        by_cases hu : r ∈ a.units.getD []
        · rw [if_pos hu]
          unfold val
          rw [q2 r hu]; rfl
        · rw [if_neg hu]
          by_cases hr : r ∈ dom.resTypes
          · rw [if_pos hr]
            obtain ⟨ms', m', md, n, w1, w2, w3, w4, w5⟩ := q3 r hr hu
            rw [hm] at w1; cases w1
            rw [hms] at w2; cases w2
            rw [hmd] at w3; cases w3
            rw [need_constant] at w4
            cases w4
            show (use.get? r).getD 0 = _
            rw [w5]; rfl
          · rw [if_neg hr]
            unfold val
            rw [q4 r hr hu]; rfl
  · intro y hy
    have hne : a.task ≠ some y := by rw [ht]; intro h; exact hy (Option.some.inj h).symm
    exact (updateStart_same (fun _ => .inl hne) h3).trans
      (updateDummy_same (fun _ h => absurd h hne) h4)

/-- Starting task 1, which needs the only unit of resource 0, after task 0. -/
example : ∃ st, run exDom (initState exDom (dr 0)) [(startOf 0, dr 0)] = .ok st ∧
    Accepted exDom st (startOf 1) ∧ val st.used 0 = 0 ∧
    (∃ st', nextState exDom (dr 2) st (startOf 1) = .ok st' ∧ val st'.used 0 = 1) := by
  obtain ⟨st, h1, h2, h3, h4⟩ : ∃ st, run exDom (initState exDom (dr 0)) [(startOf 0, dr 0)] = .ok st ∧
      okAnd (checkStart exDom st (startOf 1)) (fun r => r.1 = true) = true ∧ val st.used 0 = 0 ∧
      okAnd (nextState exDom (dr 2) st (startOf 1)) (fun st' => val st'.used 0 = 1) = true :=
    okAnd_spec (by decide +kernel)
  obtain ⟨⟨b, use⟩, g1, g2⟩ := okAnd_spec h2
  exact ⟨st, h1, ⟨use, by rw [g1]; cases g2; rfl⟩, h3, okAnd_spec h4⟩

end Verif.Sched
