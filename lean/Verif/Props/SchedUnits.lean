import Verif.Lemmas.SchedUnits
import Verif.Props.SchedSafe

/-!
C162–C163: action spaces of scheduling domains with resource units.
-/
namespace Verif.Sched

/-! ### C162 -/

/-- Exactly which actions are enumerated: letting time pass; pausing the ongoing tasks that may be paused; and, unless more is in use than
available, starting each possible task and each paused task, without units when no skill is needed and otherwise once for each free
resource that has all the skills of the task. -/
theorem C162_space (dom : Dom) (st : State) (as : List Action) (h : unitSpace dom st = .ok as) (a : Action) :
    a ∈ as ↔ a = timeAction ∨ (∃ t ∈ st.ongoing, dom.preempt.get? t = some true ∧ a = ⟨some t, .pause, none, false, none⟩) ∨
      (Within st ∧ ∃ t m u, ((∃ d, possibleStarting dom st = .ok d ∧ (t, m) ∈ d) ∨ (t ∈ st.paused ∧ st.mode.get? t = some m)) ∧
        CanDo dom st t m u ∧ a = ⟨some t, .start, some m, false, u⟩) := by
  unfold unitSpace at h
  obtain ⟨over, h1, h⟩ := bind_eq_ok.1 h
  have ho := overconsuming_spec h1
  have hw : over = false ↔ Within st := by
    constructor
    · intro e r u a hr ha
      apply Classical.byContradiction
      intro hlt
      have := ho.2 ⟨r, u, hr, a, ha, by omega⟩
      rw [e] at this
      cases this
    · intro hw
      cases over with
      | false => rfl
      | true =>
        obtain ⟨r, u, hr, a, ha, hlt⟩ := ho.1 rfl
        have := hw r u a hr ha
        omega
  cases over with
  | true =>
    simp only [if_true, bind_eq_ok, pure_eq_ok] at h
    obtain ⟨starts, h2, pauses, h3, resumes, h4, h5⟩ := h
    subst h2 h4
    have h5 := h5.symm
    subst h5
    have hno : ¬ Within st := fun hc => by have := hw.2 hc; cases this
    have hp := pauseActions_mem h3 a
    simp only [List.nil_append, List.append_nil, List.mem_append, List.mem_singleton, hp]
    constructor
    · rintro (g | g)
      · exact .inr (.inl g)
      · exact .inl g
    · rintro (g | g | ⟨g, _⟩)
      · exact .inr g
      · exact .inl g
      · exact absurd g hno
  | false =>
    simp only [Bool.false_eq_true, if_false, bind_eq_ok] at h
    obtain ⟨d, g1, starts, g2, pauses, h3, resumes, h4, h5⟩ := h
    have h5 := (Except.ok.inj h5).symm
    subst h5
    have hp := pauseActions_mem h3 a
    have hyes := hw.1 rfl
    simp only [List.mem_append, List.mem_singleton, hp, unitStarts_mem g2 a, unitResumes_mem h4 a]
    constructor
    · rintro (((⟨t, m, u, k1, k2⟩ | g) | ⟨t, m, u, k1, k2⟩) | g)
      · exact .inr (.inr ⟨hyes, t, m, u, .inl ⟨d, g1, k1⟩, k2⟩)
      · exact .inr (.inl g)
      · exact .inr (.inr ⟨hyes, t, m, u, .inr k1, k2⟩)
      · exact .inl g
    · rintro (g | g | ⟨_, t, m, u, ⟨d', k0, k1⟩ | k1, k2⟩)
      · exact .inr g
      · exact .inl (.inl (.inr g))
      · rw [g1] at k0; cases k0
        exact .inl (.inl (.inl ⟨t, m, u, k1, k2⟩))
      · exact .inl (.inr ⟨t, m, u, k1, k2⟩)

theorem possibleStarting_facts {dom : Dom} (hw : WellFormed dom) {st : State} {d : Dict TaskId ModeId}
    (h : possibleStarting dom st = .ok d) {t : TaskId} {m : ModeId} (hm : (t, m) ∈ d) :
    t ∈ st.remaining ∧ HasMode dom t m ∧ Enough dom st t m ∧ ∃ l, skillsOfTask dom t (some m) = .ok l := by
  unfold possibleStarting at h
  simp only [bind_eq_ok] at h
  obtain ⟨ps, h1, qs, h2, h3⟩ := h
  have h3 := (Except.ok.inj h3).symm
  subst h3
  rcases foldl_set_mem hm with e | e
  · cases e
  · obtain ⟨g1, g2⟩ := (enoughPairs_mem h2 _).1 e
    obtain ⟨k1, _, ms, k2, k3⟩ := (possiblePairs_mem h1 t m).1 g1
    obtain ⟨md, k4⟩ := Option.isSome_iff_exists.1 ((Dict.get?_isSome_iff_mem_keys ms m).2 k3)
    obtain ⟨dd, rfl⟩ := hw.constant t ms m md k2 k4
    refine ⟨k1, ⟨ms, dd, k2, k4⟩, g2, ?_⟩
    unfold skillsOfTask
    cases ht : dom.taskSkills with
    | none => exact ⟨_, rfl⟩
    | some ts =>
      obtain ⟨tm, e1, e2⟩ := hw.taskSkills ts t ms m ht k2 k3
      obtain ⟨sk, e2⟩ := Option.isSome_iff_exists.1 e2
      simp only [Dict.get_ok_iff.2 e1, bind_ok, dgetO, Dict.get_ok_iff.2 e2]
      exact ⟨_, rfl⟩

/-- Every start that is enumerated for a task not started so far is accepted. -/
theorem C162_accepted (dom : Dom) (hw : WellFormed dom) (hl : ∀ r s, 0 ≤ skillLevel dom r s) (st : State)
    (hfresh : ∀ x ∈ st.remaining, ∃ info, st.details.get? x = some info ∧ info.start = none)
    (as : List Action) (h : unitSpace dom st = .ok as) (a : Action) (ha : a ∈ as) (t : TaskId) (hk : a.kind = .start) (ht : a.task = some t)
    (hnp : t ∉ st.paused) : Accepted dom st a := by
  rcases (C162_space dom st as h a).1 ha with rfl | ⟨t', _, _, rfl⟩ | ⟨_, t', m, u, hs, hc, rfl⟩
  · cases hk
  · cases hk
  · cases ht
    rcases hs with ⟨d, h1, h2⟩ | ⟨h1, _⟩
    · obtain ⟨k1, k2, k3, k4⟩ := possibleStarting_facts hw h1 h2
      obtain ⟨info, k5, k6⟩ := hfresh t k1
      refine accepted_with_units k2 k3 k5 k6 ?_ ?_ k4 ?_ ?_
      · rcases hc with ⟨_, rfl⟩ | ⟨_, r, rfl, _⟩ <;> simp
      · rcases hc with ⟨_, rfl⟩ | ⟨_, r, rfl, _, hf, _⟩
        · simp
        · intro r' hr'
          simp only [Option.getD_some, List.mem_singleton] at hr'
          subst hr'
          exact hf
      · intro hsk r hr
        refine ⟨?_, hl r⟩
        rcases hr with hr | hr
        · exact (Dict.get?_isSome_iff_mem_keys _ _).1 (hw.resSkills hsk r hr)
        · rcases hc with ⟨_, rfl⟩ | ⟨_, r', rfl, hkey, _⟩
          · simp at hr
          · simp only [Option.getD_some, List.mem_singleton] at hr
            subst hr
            exact hkey
      · rcases hc with ⟨hz, rfl⟩ | ⟨_, r, rfl, _, _, hall⟩
        · rw [hz]; simp
        · intro p hp
          simpa using hall p hp
    · exact absurd h1 hnp

/-- actions taken from the enumeration -/
def EnumRun (dom : Dom) : State → List (Action × Draw) → Prop
  | _, [] => True
  | st, (a, d) :: rest => (∃ as, unitSpace dom st = .ok as ∧ a ∈ as) ∧ ∀ st', nextState dom d st a = .ok st' → EnumRun dom st' rest

/-- No paused task is ever resumed with enumerated actions: it stays paused along every run, which therefore never reaches the goal. -/
theorem C162_paused_refuted (dom : Dom) (l : List (Action × Draw)) (st st' : State) (x : TaskId) (hx : x ∈ st.paused)
    (hl : EnumRun dom st l) (h : run dom st l = .ok st') : x ∈ st'.paused ∧ isGoal st' = false := by
  induction l generalizing st with
  | nil =>
    cases h
    refine ⟨hx, ?_⟩
    unfold isGoal
    cases hp : st'.paused with
    | nil => rw [hp] at hx; cases hx
    | cons y l => simp
  | cons p l ih =>
    obtain ⟨a, d⟩ := p
    obtain ⟨s, h1, h2⟩ := run_cons_ok.1 h
    obtain ⟨⟨as, g1, g2⟩, g3⟩ := hl
    have hk : a.kind ≠ .resume := by
      rcases (C162_space dom st as g1 a).1 g2 with rfl | ⟨_, _, _, rfl⟩ | ⟨_, _, _, _, _, _, rfl⟩ <;> simp [timeAction]
    exact ih s (paused_stay hk h1 hx) (g3 s h1) h2

/-- Two tasks; three workers 10, 11 and 12; task 1 needs both skills, which worker 12 has and the others together. -/
def unitDom : Dom where
  tasks := [1, 2]
  modes := [(1, [(1, .constant []), (2, .constant [])]), (2, [(1, .constant [])])]
  resTypes := []
  resUnits := [10, 11, 12]
  renewable := [(10, true), (11, true), (12, true)]
  preds := fun _ => []
  duration := fun _ _ => 2
  preempt := [(1, true), (2, false)]
  taskSkills := some [(1, [(1, [(0, 1), (1, 1)]), (2, [(0, 1), (1, 0)])]), (2, [(1, [(0, 0)])])]
  resSkills := [(10, [(0, 1)]), (11, [(1, 1)]), (12, [(0, 1), (1, 1)])]

/-- The mode 2 of task 1 needs only skill 0; mode 1, which one worker could do as well, is not enumerated. -/
example : unitSpace unitDom (initState unitDom (dr 0)) = .ok
    [⟨some 1, .start, some 2, false, some [10]⟩, ⟨some 1, .start, some 2, false, some [12]⟩, ⟨some 2, .start, some 1, false, none⟩,
      timeAction] := by decide +kernel

theorem unitDom_wellFormed : WellFormed unitDom := by
  refine ⟨by decide, ?_, by decide, by decide, by decide, ?_, by decide⟩
  · intro x ms m md h1 h2
    have h1 := Dict.mem_of_get? h1
    have h2 := Dict.mem_of_get? h2
    simp only [unitDom, List.mem_cons, Prod.mk.injEq, List.not_mem_nil, or_false] at h1
    rcases h1 with ⟨_, rfl⟩ | ⟨_, rfl⟩ <;>
    · simp only [List.mem_cons, Prod.mk.injEq, List.not_mem_nil, or_false] at h2
      first | exact ⟨_, h2.2⟩ | (rcases h2 with h2 | h2 <;> exact ⟨_, h2.2⟩)
  · intro ts x ms m ht h1 h2
    have h1 := Dict.mem_of_get? h1
    simp only [unitDom, Option.some.injEq] at ht
    subst ht
    simp only [unitDom, List.mem_cons, Prod.mk.injEq, List.not_mem_nil, or_false] at h1
    rcases h1 with ⟨rfl, rfl⟩ | ⟨rfl, rfl⟩
    · simp only [Dict.keys, List.map_cons, List.map_nil, List.mem_cons, List.not_mem_nil, or_false] at h2
      rcases h2 with rfl | rfl <;> exact ⟨_, rfl, rfl⟩
    · simp only [Dict.keys, List.map_cons, List.map_nil, List.mem_cons, List.not_mem_nil, or_false] at h2
      subst h2
      exact ⟨_, rfl, rfl⟩

/-- The conditions of `C162_accepted` and `C163_accepted` at the first state. -/
example : WellFormed unitDom ∧ (∀ r s, 0 ≤ skillLevel unitDom r s) ∧
    ∀ x ∈ (initState unitDom (dr 0)).remaining, ∃ info, (initState unitDom (dr 0)).details.get? x = some info ∧ info.start = none := by
  refine ⟨unitDom_wellFormed, ?_, ?_⟩
  · intro r s
    simp only [skillLevel, unitDom, Dict.get?]
    repeat' split
    all_goals simp [Dict.get?]
    all_goals (repeat' split)
    all_goals simp
  · intro x hx
    have : x = 1 ∨ x = 2 := by
      have e : (initState unitDom (dr 0)).remaining = [1, 2] := by decide +kernel
      rw [e] at hx
      simpa using hx
    rcases this with rfl | rfl <;> exact ⟨_, rfl, rfl⟩

def unitStart : Action := ⟨some 1, .start, some 1, false, some [12]⟩

/-- After task 1 was started in mode 1 and paused: starting it again is enumerated, and raises `IndexError`. -/
theorem C162_start_paused_refuted : ∃ st, run unitDom (initState unitDom (dr 0)) [(unitStart, dr 2), (⟨some 1, .pause, none, false, none⟩, dr 0)] = .ok st ∧
    1 ∈ st.paused ∧ unitSpace unitDom st = .ok [⟨some 2, .start, some 1, false, none⟩, unitStart, timeAction] ∧
    nextState unitDom (dr 2) st unitStart = .error .indexError :=
  okAnd_spec (p := fun st => 1 ∈ st.paused ∧ unitSpace unitDom st = .ok [⟨some 2, .start, some 1, false, none⟩, unitStart, timeAction] ∧
    nextState unitDom (dr 2) st unitStart = .error .indexError) (by decide +kernel)

/-! ### C163 -/

theorem choice_mem {α : Type} {l : List α} {k : Nat} {x : α} (h : choice l k = .ok x) : x ∈ l :=
  List.mem_iff_getElem?.2 ⟨_, pyGet_ok_iff.1 h⟩

/-- When more is in use than available, the sampled action pauses a task or lets time pass. -/
theorem C163_over (dom : Dom) (st : State) (k : Kind) (i : Nat) (ord : List Res) (a : Action) (h : sample dom st k i ord = .ok a)
    (ho : ¬ Within st) : a = timeAction ∨ ∃ t ∈ st.ongoing, dom.preempt.get? t = some true ∧ a = ⟨some t, .pause, none, false, none⟩ := by
  unfold sample at h
  obtain ⟨over, h1, h⟩ := bind_eq_ok.1 h
  cases over with
  | true =>
    simp only [if_true] at h
    unfold samplePause at h
    obtain ⟨l, h2, h⟩ := bind_eq_ok.1 h
    by_cases hz : l = []
    · rw [if_pos hz] at h; cases h; exact .inl rfl
    · rw [if_neg hz] at h
      exact .inr ((pauseActions_mem h2 a).1 (choice_mem h))
  | false =>
    exfalso
    apply ho
    intro r u a' hr ha
    apply Classical.byContradiction
    intro hlt
    have := (overconsuming_spec h1).2 ⟨r, u, hr, a', ha, by omega⟩
    cases this

theorem sampleStart_spec {dom : Dom} {st : State} {k : Kind} {d : Dict TaskId ModeId} {i : Nat} {ord : List Res} {a : Action}
    (h : sampleStart dom st k d i ord = .ok a) :
    a = timeAction ∧ (d = [] ∨ ∃ t m, (t, m) ∈ d ∧ needs dom t m ≠ [] ∧ ∃ ex, (∀ q, q ∈ ex ↔ q ∈ ord ∧ Free st q ∧
      ∃ p ∈ needs dom t m, 0 < skillLevel dom q p.1) ∧ ex.Sublist ord ∧ ∃ p ∈ needs dom t m, team dom ex p.1 < p.2) ∨
    ∃ t m, (t, m) ∈ d ∧ ∃ us, a = ⟨some t, k, some m, false, us⟩ ∧
      ((needs dom t m = [] ∧ us = none) ∨ (needs dom t m ≠ [] ∧ ∃ mid r, us = some (mid ++ [r]) ∧ (mid ++ [r]).Sublist ord ∧
        (∀ q ∈ mid ++ [r], Free st q ∧ q ∈ dom.resSkills.keys ∧ ∃ p ∈ needs dom t m, 0 < skillLevel dom q p.1) ∧
        (∀ p ∈ needs dom t m, p.2 ≤ team dom (mid ++ [r]) p.1) ∧ (mid = [] ∨ ∃ p ∈ needs dom t m, team dom mid p.1 < p.2))) := by
  unfold sampleStart at h
  by_cases hz : d = []
  · rw [if_pos hz] at h; cases h; exact .inl ⟨rfl, .inl hz⟩
  · rw [if_neg hz] at h
    obtain ⟨⟨t, m⟩, h1, h⟩ := bind_eq_ok.1 h
    have h1 := choice_mem h1
    dsimp only at h
    obtain ⟨need, h2, h⟩ := bind_eq_ok.1 h
    have hn : needs dom t m = need := by unfold needs; rw [h2]
    by_cases hz : need = []
    · rw [if_pos hz] at h
      cases h
      exact .inr ⟨t, m, h1, none, rfl, .inl ⟨by rw [hn]; exact hz, rfl⟩⟩
    · rw [if_neg hz] at h
      obtain ⟨o, h3, h⟩ := bind_eq_ok.1 h
      obtain ⟨g1, g2⟩ := gather_spec h3 fun p hp => by rw [zero_get? hp]; rfl
      cases o with
      | none =>
        dsimp only at h
        cases h
        refine .inl ⟨rfl, .inr ⟨t, m, h1, by rw [hn]; exact hz, ?_⟩⟩
        have hpos : ∃ p ∈ need, team dom [] p.1 < p.2 := by
          cases hnd : need with
          | nil => exact absurd hnd hz
          | cons p l =>
            refine ⟨p, List.mem_cons_self .., ?_⟩
            unfold skillsOfTask at h2
            cases ht : dom.taskSkills with
            | none => rw [ht] at h2; cases h2; exact absurd rfl hz
            | some ts =>
              rw [ht] at h2
              simp only [bind_eq_ok] at h2
              obtain ⟨tm, _, sk, _, h2⟩ := h2
              have h2 := Except.ok.inj h2
              have hp : p ∈ sk.filter fun p => decide (p.2 > 0) := by rw [h2, hnd]; exact List.mem_cons_self ..
              have := of_decide_eq_true (List.mem_filter.1 hp).2
              simpa [team] using this
        rw [hn]
        simpa using g2 rfl hpos
      | some us =>
        dsimp only at h
        cases h
        obtain ⟨mid, r, k1, k2, k3, k4, k5⟩ := g1 us rfl
        rw [List.nil_append] at k1 k5
        subst k1
        exact .inr ⟨t, m, h1, _, rfl, .inr ⟨by rw [hn]; exact hz, mid, r, rfl, k2, by rw [hn]; exact k3, by rw [hn]; exact k4,
          by rw [hn]; exact k5⟩⟩

/-- A sampled start names free workers who each have a skill the task needs and together all of them, and who without the last do not; it
names none only when no skill is needed. -/
theorem C163_team (dom : Dom) (st : State) (k : Kind) (i : Nat) (ord : List Res) (a : Action)
    (h : sample dom st k i ord = .ok a) (t : TaskId) (m : ModeId) (hk : a.kind = .start ∨ a.kind = .resume) (ht : a.task = some t) (hm : a.mode = some m) :
    (needs dom t m = [] ∧ a.units = none) ∨ (needs dom t m ≠ [] ∧ ∃ mid r, a.units = some (mid ++ [r]) ∧ (mid ++ [r]).Sublist ord ∧
      (∀ q ∈ mid ++ [r], Free st q ∧ ∃ p ∈ needs dom t m, 0 < skillLevel dom q p.1) ∧
      (∀ p ∈ needs dom t m, p.2 ≤ ((mid ++ [r]).map fun q => skillLevel dom q p.1).sum) ∧
      (mid = [] ∨ ∃ p ∈ needs dom t m, (mid.map fun q => skillLevel dom q p.1).sum < p.2)) := by
  have key : ∀ {k d}, sampleStart dom st k d i ord = .ok a → _ := fun {k d} h =>
    show (needs dom t m = [] ∧ a.units = none) ∨ (needs dom t m ≠ [] ∧ ∃ mid r, a.units = some (mid ++ [r]) ∧ (mid ++ [r]).Sublist ord ∧
      (∀ q ∈ mid ++ [r], Free st q ∧ ∃ p ∈ needs dom t m, 0 < skillLevel dom q p.1) ∧
      (∀ p ∈ needs dom t m, p.2 ≤ ((mid ++ [r]).map fun q => skillLevel dom q p.1).sum) ∧
      (mid = [] ∨ ∃ p ∈ needs dom t m, (mid.map fun q => skillLevel dom q p.1).sum < p.2)) by
      rcases sampleStart_spec h with ⟨rfl, _⟩ | ⟨t', m', _, us, rfl, hc⟩
      · cases ht
      · cases ht; cases hm
        rcases hc with hc | ⟨g1, mid, r, g2, g3, g4, g5, g6⟩
        · exact .inl hc
        · exact .inr ⟨g1, mid, r, g2, g3, fun q hq => ⟨(g4 q hq).1, (g4 q hq).2.2⟩, g5, g6⟩
  have pause : ¬ samplePause dom st i = .ok a := by
    intro h
    unfold samplePause at h
    obtain ⟨l, h2, h⟩ := bind_eq_ok.1 h
    by_cases hz : l = []
    · rw [if_pos hz] at h; cases h; cases ht
    · rw [if_neg hz] at h
      obtain ⟨_, _, _, rfl⟩ := (pauseActions_mem h2 a).1 (choice_mem h)
      cases hm
  unfold sample at h
  obtain ⟨over, h1, h⟩ := bind_eq_ok.1 h
  cases over with
  | true => exact absurd h pause
  | false =>
    simp only [Bool.false_eq_true, if_false] at h
    cases k with
    | start => obtain ⟨d, _, h⟩ := bind_eq_ok.1 h; exact key h
    | resume => obtain ⟨d, _, h⟩ := bind_eq_ok.1 h; exact key h
    | pause => exact absurd h pause
    | timePr => cases h; cases ht

/-- A sampled start is accepted. -/
theorem C163_accepted (dom : Dom) (hw : WellFormed dom) (hl : ∀ r s, 0 ≤ skillLevel dom r s) (st : State)
    (hfresh : ∀ x ∈ st.remaining, ∃ info, st.details.get? x = some info ∧ info.start = none) (k : Kind) (i : Nat) (ord : List Res)
    (hord : ord.Nodup) (a : Action) (h : sample dom st k i ord = .ok a) (hk : a.kind = .start) : Accepted dom st a := by
  have pause : ¬ samplePause dom st i = .ok a := by
    intro h
    unfold samplePause at h
    obtain ⟨l, h2, h⟩ := bind_eq_ok.1 h
    by_cases hz : l = []
    · rw [if_pos hz] at h; cases h; cases hk
    · rw [if_neg hz] at h
      obtain ⟨_, _, _, rfl⟩ := (pauseActions_mem h2 a).1 (choice_mem h)
      cases hk
  unfold sample at h
  obtain ⟨over, h1, h⟩ := bind_eq_ok.1 h
  cases over with
  | true => exact absurd h pause
  | false =>
    simp only [Bool.false_eq_true, if_false] at h
    cases k with
    | pause => exact absurd h pause
    | timePr => cases h; cases hk
    | resume =>
      obtain ⟨d, _, h⟩ := bind_eq_ok.1 h
      rcases sampleStart_spec h with ⟨rfl, _⟩ | ⟨t', m', _, us, rfl, hc⟩ <;> cases hk
    | start =>
      obtain ⟨d, hd, h⟩ := bind_eq_ok.1 h
      rcases sampleStart_spec h with ⟨rfl, _⟩ | ⟨t, m, h2, us, rfl, hc⟩
      · cases hk
      · obtain ⟨k1, k2, k3, k4⟩ := possibleStarting_facts hw hd h2
        obtain ⟨info, k5, k6⟩ := hfresh t k1
        refine accepted_with_units k2 k3 k5 k6 ?_ ?_ k4 ?_ ?_
        · rcases hc with ⟨_, rfl⟩ | ⟨_, mid, r, rfl, hs, _⟩
          · simp
          · exact hs.nodup hord
        · rcases hc with ⟨_, rfl⟩ | ⟨_, mid, r, rfl, _, hf, _⟩
          · simp
          · exact fun q hq => (hf q hq).1
        · intro hsk r hr
          refine ⟨?_, hl r⟩
          rcases hr with hr | hr
          · exact (Dict.get?_isSome_iff_mem_keys _ _).1 (hw.resSkills hsk r hr)
          · rcases hc with ⟨_, rfl⟩ | ⟨_, mid, r', rfl, _, hf, _⟩
            · simp at hr
            · exact (hf r hr).2.1
        · rcases hc with ⟨hz, rfl⟩ | ⟨_, mid, r, rfl, _, _, hall, _⟩
          · rw [hz]; simp
          · exact hall

/-- When a start is drawn and the answer is to let time pass, no task is possible, or the task drawn cannot be done by any team of free
workers. -/
theorem C163_no_team (dom : Dom) (hl : ∀ r s, 0 ≤ skillLevel dom r s) (st : State) (hw : Within st) (i : Nat) (ord : List Res)
    (h : sample dom st .start i ord = .ok timeAction) : ∃ d, possibleStarting dom st = .ok d ∧ (d = [] ∨
      ∃ t m, (t, m) ∈ d ∧ ∀ us : List Res, us.Nodup → (∀ r ∈ us, r ∈ ord ∧ Free st r) →
        ∃ p ∈ needs dom t m, (us.map fun r => skillLevel dom r p.1).sum < p.2) := by
  unfold sample at h
  obtain ⟨over, h1, h⟩ := bind_eq_ok.1 h
  cases over with
  | true =>
    obtain ⟨r, u, hr, a, ha, hlt⟩ := (overconsuming_spec h1).1 rfl
    have := hw r u a hr ha
    omega
  | false =>
    simp only [Bool.false_eq_true, if_false] at h
    obtain ⟨d, hd, h⟩ := bind_eq_ok.1 h
    refine ⟨d, hd, ?_⟩
    rcases sampleStart_spec h with ⟨_, hz | ⟨t, m, g1, g2, ex, g3, g4, p, g5, g6⟩⟩ | ⟨t, m, _, us, e, _⟩
    · exact .inl hz
    · refine .inr ⟨t, m, g1, fun us hn hus => ⟨p, g5, ?_⟩⟩
      refine Int.lt_of_le_of_lt ?_ g6
      -- workers without any of the skills add nothing
      have hsplit : (us.map fun r => skillLevel dom r p.1).sum = ((us.filter fun r => decide (r ∈ ex)).map fun r => skillLevel dom r p.1).sum := by
        clear hn
        induction us with
        | nil => rfl
        | cons r us ih =>
          have ih := ih fun q hq => hus q (List.mem_cons_of_mem _ hq)
          by_cases hr : r ∈ ex
          · rw [List.filter_cons_of_pos (by simpa using hr), List.map_cons, List.map_cons, List.sum_cons, List.sum_cons, ih]
          · rw [List.filter_cons_of_neg (by simpa using hr), List.map_cons, List.sum_cons, ih]
            have hz : skillLevel dom r p.1 = 0 := by
              apply Classical.byContradiction
              intro hne
              have h0 := hl r p.1
              obtain ⟨a1, a2⟩ := hus r (List.mem_cons_self ..)
              exact hr ((g3 r).2 ⟨a1, a2, p, g5, by omega⟩)
            omega
      rw [hsplit]
      obtain ⟨l, hp1, hp2⟩ := List.Nodup.subperm (l₂ := ex) (List.Pairwise.filter (fun r => decide (r ∈ ex)) hn) fun r hr => by
        simpa using (List.mem_filter.1 hr).2
      rw [← (hp1.map fun r => skillLevel dom r p.1).sum_eq]
      refine (hp2.map _).sum_le_sum ?_
      intro v hv
      obtain ⟨r, _, rfl⟩ := List.mem_map.1 hv
      exact hl r _
    · cases e

example : sample unitDom (initState unitDom (dr 0)) .start 0 [11, 10, 12] = .ok ⟨some 1, .start, some 2, false, some [10]⟩ ∧
    sample { unitDom with modes := [(1, [(1, .constant [])]), (2, [(1, .constant [])])] } (initState unitDom (dr 0)) .start 0 [11, 10, 12] =
      .ok ⟨some 1, .start, some 1, false, some [11, 10]⟩ ∧
    sample { unitDom with modes := [(1, [(1, .constant [])]), (2, [(1, .constant [])])] } (initState unitDom (dr 0)) .start 0 [11] =
      .ok timeAction := ⟨by decide +kernel, by decide +kernel, by decide +kernel⟩

theorem resumePairs_mem {dom : Dom} {st : State} {l : List TaskId} {ps : List (TaskId × ModeId)}
    (h : resumePairs dom st l = .ok ps) (n : TaskId) (m : ModeId) :
    (n, m) ∈ ps ↔ n ∈ l ∧ (∀ q ∈ dom.preds n, q ∈ st.complete) ∧ ∃ ms, dom.modes.get? n = some ms ∧ m ∈ ms.keys := by
  induction l generalizing ps with
  | nil => simp only [resumePairs, Except.ok.injEq] at h; subst h; simp
  | cons x l ih =>
    simp only [resumePairs, bind_eq_ok, Dict.get_ok_iff] at h
    obtain ⟨ms, h1, ps', h2, h3⟩ := h
    have ih := ih h2
    have hP : ((dom.preds x).all fun m => decide (m ∈ st.complete)) = true ↔ ∀ q ∈ dom.preds x, q ∈ st.complete := by
      simp only [List.all_eq_true, decide_eq_true_eq]
    by_cases hp : ∀ q ∈ dom.preds x, q ∈ st.complete
    · rw [if_pos (hP.2 hp)] at h3
      have h3 := (Except.ok.inj h3).symm
      subst h3
      rw [List.mem_append, ih, List.mem_map]
      constructor
      · rintro (⟨m', hm, he⟩ | ⟨g1, g2, g3⟩)
        · cases he; exact ⟨by simp, hp, ms, h1, hm⟩
        · exact ⟨by simp [g1], g2, g3⟩
      · rintro ⟨g1, g2, ms', g3, g4⟩
        rcases List.mem_cons.1 g1 with rfl | g1
        · rw [h1] at g3; cases g3
          exact .inl ⟨m, g4, rfl⟩
        · exact .inr ⟨g1, g2, ms', g3, g4⟩
    · rw [if_neg (fun h => hp (hP.1 h))] at h3
      have h3 := (Except.ok.inj h3).symm
      subst h3
      rw [ih]
      constructor
      · rintro ⟨g1, g2, g3⟩; exact ⟨by simp [g1], g2, g3⟩
      · rintro ⟨g1, g2, g3⟩
        rcases List.mem_cons.1 g1 with rfl | g1
        · exact absurd g2 hp
        · exact ⟨g1, g2, g3⟩

/-- A sampled resume names a paused task whose direct predecessors are complete, in one of its modes, and as much of every resource type
is free as the task needs in this mode. -/
theorem C163_resume (dom : Dom) (st : State) (k : Kind) (i : Nat) (ord : List Res) (a : Action)
    (h : sample dom st k i ord = .ok a) (hk : a.kind = .resume) :
    ∃ t m ms, a.task = some t ∧ a.mode = some m ∧ t ∈ st.paused ∧ (∀ q ∈ dom.preds t, q ∈ st.complete) ∧
      dom.modes.get? t = some ms ∧ m ∈ ms.keys ∧ Enough dom st t m := by
  have pause : ¬ samplePause dom st i = .ok a := by
    intro h
    unfold samplePause at h
    obtain ⟨l, h2, h⟩ := bind_eq_ok.1 h
    by_cases hz : l = []
    · rw [if_pos hz] at h; cases h; cases hk
    · rw [if_neg hz] at h
      obtain ⟨_, _, _, rfl⟩ := (pauseActions_mem h2 a).1 (choice_mem h)
      cases hk
  unfold sample at h
  obtain ⟨over, h1, h⟩ := bind_eq_ok.1 h
  cases over with
  | true => exact absurd h pause
  | false =>
    simp only [Bool.false_eq_true, if_false] at h
    cases k with
    | start =>
      obtain ⟨d, hd, h⟩ := bind_eq_ok.1 h
      rcases sampleStart_spec h with ⟨rfl, _⟩ | ⟨t, m, _, us, rfl, _⟩ <;> cases hk
    | resume =>
      obtain ⟨d, hd, h⟩ := bind_eq_ok.1 h
      rcases sampleStart_spec h with ⟨rfl, _⟩ | ⟨t, m, hm, us, rfl, _⟩
      · cases hk
      · unfold possibleResume at hd
        obtain ⟨ps, h2, hd⟩ := bind_eq_ok.1 hd
        obtain ⟨qs, h3, hd⟩ := bind_eq_ok.1 hd
        have hd := (Except.ok.inj hd).symm
        subst hd
        rcases foldl_set_mem hm with g | g
        · cases g
        · obtain ⟨g1, g2⟩ := (enoughPairs_mem h3 _).1 g
          obtain ⟨g3, g4, ms, g5, g6⟩ := (resumePairs_mem h2 t m).1 g1
          exact ⟨t, m, ms, rfl, rfl, g3, g4, g5, g6, g2⟩
    | pause => exact absurd h pause
    | timePr => cases h; cases hk

/-- A sampled RESUME does not keep to the mode in which the task was started: the task was started in mode 1 and is resumed with the
single worker of mode 2, while its mode stays 1. -/
theorem C163_resume_refuted : ∃ st, run unitDom (initState unitDom (dr 0)) [(unitStart, dr 2), (⟨some 1, .pause, none, false, none⟩, dr 0)] = .ok st ∧
    st.mode.get? 1 = some 1 ∧ sample unitDom st .resume 0 [10, 11, 12] = .ok ⟨some 1, .resume, some 2, false, some [10]⟩ ∧
    okAnd (nextState unitDom (dr 2) st ⟨some 1, .resume, some 2, false, some [10]⟩) (fun st' =>
      1 ∈ st'.ongoing ∧ st'.mode.get? 1 = some 1 ∧ (st'.usedFor.get? 1) = some [(10, 1)]) = true :=
  okAnd_spec (p := fun st => st.mode.get? 1 = some 1 ∧ sample unitDom st .resume 0 [10, 11, 12] = .ok ⟨some 1, .resume, some 2, false, some [10]⟩ ∧
    okAnd (nextState unitDom (dr 2) st ⟨some 1, .resume, some 2, false, some [10]⟩) (fun st' =>
      1 ∈ st'.ongoing ∧ st'.mode.get? 1 = some 1 ∧ (st'.usedFor.get? 1) = some [(10, 1)]) = true) (by decide +kernel)

end Verif.Sched
