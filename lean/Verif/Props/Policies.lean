import Verif.Lemmas.Policies
import Verif.Props.SchedRes

/-!
C16: the schedule-following policies return an accepted start of a ready task, or time
progress; they take the first accepted task among their candidates.
C49: a start accepted by the check does start the task.
-/
namespace Verif.Sched

/-- The task has not started and all its predecessors are complete. -/
def Ready (dom : Dom) (st : State) (x : TaskId) : Prop :=
  x ∈ st.remaining ∧ ∀ q ∈ dom.preds x, q ∈ st.complete

instance (dom : Dom) (st : State) (x : TaskId) : Decidable (Ready dom st x) := by
  unfold Ready; infer_instance

/-- `a` is the start of `x` in the mode chosen for it, on the units allocated to it. -/
def IsStartOf (p : Policy) (x : TaskId) (a : Action) : Prop :=
  a.task = some x ∧ a.kind = .start ∧ a.timeProgress = false ∧ (∃ m, p.modes.get? x = some m ∧ a.mode = some m) ∧
  (∀ al us, p.alloc = some al → al.get? x = some us → a.units = some us) ∧
  ((p.alloc = none ∨ ∃ al, p.alloc = some al ∧ al.get? x = none) → a.units = none)

/-- The domain's own check accepts the action. -/
def Accepted (dom : Dom) (st : State) (a : Action) : Prop := ∃ use, checkStart dom st a = .ok (true, use)
def Rejected (dom : Dom) (st : State) (a : Action) : Prop := ∃ use, checkStart dom st a = .ok (false, use)

/-- `a` starts the first accepted task of `cands`, or lets time pass when none is accepted. -/
def FirstOf (p : Policy) (dom : Dom) (st : State) (cands : List TaskId) (a : Action) : Prop :=
  (∃ pre x post, cands = pre ++ x :: post ∧ IsStartOf p x a ∧ Accepted dom st a ∧
    ∀ y ∈ pre, ∃ b, IsStartOf p y b ∧ Rejected dom st b) ∨
  (a = timeAction ∧ ∀ y ∈ cands, ∃ b, IsStartOf p y b ∧ Rejected dom st b)

theorem startAction_ok {p : Policy} {x : TaskId} {a : Action} :
    p.startAction x = .ok a ↔ IsStartOf p x a := by
  unfold Policy.startAction
  simp only [bind_eq_ok, Dict.get_ok_iff, IsStartOf]
  constructor
  · rintro ⟨m, h1, h2⟩
    have h2 := Except.ok.inj h2
    subst h2
    refine ⟨rfl, rfl, rfl, ⟨m, h1, rfl⟩, ?_, ?_⟩
    · intro al us h3 h4
      simp [h3, h4]
    · rintro (h | ⟨al, h3, h4⟩)
      · simp [h]
      · simp [h3, h4]
  · obtain ⟨t, k, md, tp, un⟩ := a
    rintro ⟨rfl, rfl, rfl, ⟨m, h1, rfl⟩, h2, h3⟩
    refine ⟨m, h1, ?_⟩
    have : un = p.alloc.bind fun al => al.get? x := by
      cases ha : p.alloc with
      | none => exact h3 (.inl ha)
      | some al =>
        cases hu : al.get? x with
        | none => rw [Option.bind_some, hu]; exact h3 (.inr ⟨al, ha, hu⟩)
        | some us => rw [Option.bind_some, hu]; exact h2 al us ha hu
    rw [this]; rfl

theorem tryTasks_ok {p : Policy} {dom : Dom} {st : State} {l : List TaskId} {a : Action} :
    p.tryTasks dom st l = .ok a ↔ FirstOf p dom st l a := by
  induction l with
  | nil => simp [Policy.tryTasks, FirstOf, eq_comm]
  | cons x l ih =>
    simp only [Policy.tryTasks, bind_eq_ok]
    constructor
    · rintro ⟨b, h1, ⟨ok, use⟩, h2, h3⟩
      rw [startAction_ok] at h1
      cases ok with
      | true =>
        simp only [if_true] at h3
        have h3 := Except.ok.inj h3
        subst h3
        exact .inl ⟨[], x, l, rfl, h1, ⟨use, h2⟩, by simp⟩
      | false =>
        simp only [Bool.false_eq_true, if_false] at h3
        rcases ih.1 h3 with ⟨pre, y, post, e, h4, h5, h6⟩ | ⟨h4, h5⟩
        · refine .inl ⟨x :: pre, y, post, by rw [e]; rfl, h4, h5, ?_⟩
          rintro z (_ | ⟨_, hz⟩)
          · exact ⟨b, h1, use, h2⟩
          · exact h6 z hz
        · refine .inr ⟨h4, ?_⟩
          rintro z (_ | ⟨_, hz⟩)
          · exact ⟨b, h1, use, h2⟩
          · exact h5 z hz
    · rintro (⟨pre, y, post, e, h4, ⟨use, h5⟩, h6⟩ | ⟨h4, h5⟩)
      · cases pre with
        | nil =>
          cases e
          exact ⟨a, startAction_ok.2 h4, _, h5, rfl⟩
        | cons z pre =>
          cases e
          obtain ⟨b, g1, use', g2⟩ := h6 x (by simp)
          refine ⟨b, startAction_ok.2 g1, _, g2, ?_⟩
          simp only [Bool.false_eq_true, if_false]
          exact ih.2 (.inl ⟨pre, y, post, rfl, h4, ⟨use, h5⟩, fun z hz => h6 z (by simp [hz])⟩)
      · obtain ⟨b, g1, use', g2⟩ := h5 x (by simp)
        refine ⟨b, startAction_ok.2 g1, _, g2, ?_⟩
        simp only [Bool.false_eq_true, if_false]
        exact ih.2 (.inr ⟨h4, fun z hz => h5 z (by simp [hz])⟩)

/-- The ready tasks in priority order. -/
def readyList (p : Policy) (dom : Dom) (st : State) : List TaskId :=
  p.perm.filter fun x => decide (Ready dom st x)

theorem ready_eq (p : Policy) (dom : Dom) (st : State) :
    p.ready dom st = p.perm.zipIdx.filter fun e => decide (Ready dom st e.1) := by
  unfold Policy.ready
  congr 1
  funext e
  rw [← Bool.decide_and]
  congr 1
  simp only [possiblePrecedence_mem, Ready, eq_iff_iff]
  exact ⟨fun h => h.2, fun h => ⟨h.1, h⟩⟩

theorem ready_fst (p : Policy) (dom : Dom) (st : State) :
    (p.ready dom st).map Prod.fst = readyList p dom st := by
  rw [ready_eq]
  exact map_fst_filter_zipIdx p.perm 0 (fun x => decide (Ready dom st x))

theorem notDone_fst (p : Policy) (st : State) :
    (p.notDone st).map Prod.fst = p.perm.filter fun x => decide (x ∈ st.remaining) :=
  map_fst_filter_zipIdx p.perm 0 (fun x => decide (x ∈ st.remaining))

theorem find_ready (p : Policy) (dom : Dom) (st : State) :
    (((p.notDone st).map Prod.fst).find? fun x => decide (x ∈ possiblePrecedence dom st)) =
      (readyList p dom st).head? := by
  rw [notDone_fst, readyList, ← List.head?_filter, List.filter_filter]
  congr 2
  funext x
  rw [← Bool.decide_and]
  congr 1
  simp only [possiblePrecedence_mem, Ready, eq_iff_iff]
  exact ⟨fun h => h.1, fun h => ⟨h, h.1⟩⟩

/-- "Ready" policy: the first accepted task among all ready tasks, in priority order. -/
theorem C16_ready_picks_first (p : Policy) (dom : Dom) (st : State) (a : Action) :
    p.firstReady dom st = .ok a ↔ FirstOf p dom st (readyList p dom st) a := by
  unfold Policy.firstReady
  simp only [notDone_fst]
  rw [tryTasks_ok, List.filter_filter]
  have : (p.perm.filter fun x => decide (x ∈ possiblePrecedence dom st) && decide (x ∈ st.remaining)) =
      readyList p dom st := by
    unfold readyList
    congr 1
    funext x
    rw [← Bool.decide_and]
    congr 1
    simp only [possiblePrecedence_mem, Ready, eq_iff_iff]
    exact ⟨fun h => h.1, fun h => ⟨h, h.1⟩⟩
  rw [this]

/-- "Strict" and "time freedom" policies with a schedule: the first accepted task among the
ready tasks scheduled within `delta` of the first ready task (`delta = 0` for strict). -/
theorem C16_time_window_picks_first (p : Policy) (dom : Dom) (st : State) (delta : Int)
    (sched : Dict TaskId Int) (hs : p.schedule = some sched)
    (hall : ∀ x ∈ readyList p dom st, (sched.get? x).isSome = true)
    (x : TaskId) (rest : List TaskId) (hx : readyList p dom st = x :: rest)
    (s : Int) (hxs : sched.get? x = some s) (a : Action) :
    (p.strict dom st = .ok a ↔
      FirstOf p dom st ((readyList p dom st).filter fun y => decide (sched.get? y = some s)) a) ∧
    (p.timeFreedom delta dom st = .ok a ↔
      FirstOf p dom st ((readyList p dom st).filter fun y =>
        decide (∃ s', sched.get? y = some s' ∧ s ≤ s' ∧ s' ≤ s + delta)) a) := by
  have hall' : ∀ y ∈ x :: rest, (sched.get? y).isSome = true := by rw [← hx]; exact hall
  constructor
  · unfold Policy.strict
    rw [ready_fst, hx, hs]
    simp only [bind_eq_ok, Dict.get_ok_iff, keepBy_ok]
    constructor
    · rintro ⟨s', h1, l, ⟨_, rfl⟩, h3⟩
      rw [hxs] at h1; cases h1
      rw [tryTasks_ok] at h3
      convert h3 using 3
      rename_i y
      cases sched.get? y <;> simp
    · intro h
      refine ⟨s, hxs, _, ⟨hall', rfl⟩, tryTasks_ok.2 ?_⟩
      convert h using 3
      rename_i y
      cases sched.get? y <;> simp
  · unfold Policy.timeFreedom
    rw [ready_fst, hx, hs]
    simp only [bind_eq_ok, Dict.get_ok_iff, keepBy_ok]
    constructor
    · rintro ⟨s', h1, l, ⟨_, rfl⟩, h3⟩
      rw [hxs] at h1; cases h1
      rw [tryTasks_ok] at h3
      convert h3 using 3
      rename_i y
      cases sched.get? y <;> simp
    · intro h
      refine ⟨s, hxs, _, ⟨hall', rfl⟩, tryTasks_ok.2 ?_⟩
      convert h using 3
      rename_i y
      cases sched.get? y <;> simp

/-- Without a schedule, "precedence ready", "strict" and "time freedom" only consider the first
ready task. -/
theorem C16_no_schedule_first_ready (p : Policy) (dom : Dom) (st : State) (delta : Int)
    (hs : p.schedule = none) (a : Action) :
    (p.precedenceReady dom st = .ok a ↔ FirstOf p dom st (readyList p dom st).head?.toList a) ∧
    (p.strict dom st = .ok a ↔ FirstOf p dom st (readyList p dom st).head?.toList a) ∧
    (p.timeFreedom delta dom st = .ok a ↔ FirstOf p dom st (readyList p dom st).head?.toList a) := by
  have hnil : (.ok timeAction = Except.ok (ε := PyErr) a) ↔ FirstOf p dom st [] a := by
    simp [FirstOf, eq_comm]
  refine ⟨?_, ?_, ?_⟩
  · simp only [Policy.precedenceReady]
    rw [find_ready, hs]
    cases h : (readyList p dom st).head? with
    | none => exact hnil
    | some x => exact tryTasks_ok
  · unfold Policy.strict
    rw [ready_fst, hs]
    cases h : readyList p dom st with
    | nil => exact hnil
    | cons x rest => exact tryTasks_ok
  · unfold Policy.timeFreedom
    rw [ready_fst, hs]
    cases h : readyList p dom st with
    | nil => exact hnil
    | cons x rest => exact tryTasks_ok

/-- "Precedence ready" with a schedule: the first ready task, then the other ready tasks
scheduled at the same time. -/
theorem C16_precedence_picks_first (p : Policy) (dom : Dom) (st : State)
    (sched : Dict TaskId Int) (hs : p.schedule = some sched)
    (hall : ∀ x ∈ p.perm, x ∈ st.remaining → (sched.get? x).isSome = true)
    (x : TaskId) (rest : List TaskId) (hx : readyList p dom st = x :: rest)
    (s : Int) (hxs : sched.get? x = some s) (a : Action) :
    p.precedenceReady dom st = .ok a ↔
      FirstOf p dom st (x :: (readyList p dom st).filter fun y => decide (y ≠ x ∧ sched.get? y = some s)) a := by
  simp only [Policy.precedenceReady]
  rw [find_ready, hx, hs]
  simp only [List.head?_cons, notDone_fst, bind_eq_ok, Dict.get_ok_iff, keepOthers_ok]
  have e : (List.filter (fun y => decide (y ≠ x ∧ sched.get? y = some s ∧ y ∈ possiblePrecedence dom st))
      (p.perm.filter fun y => decide (y ∈ st.remaining))) =
      (readyList p dom st).filter fun y => decide (y ≠ x ∧ sched.get? y = some s) := by
    unfold readyList
    rw [List.filter_filter, List.filter_filter]
    congr 1
    funext y
    rw [← Bool.decide_and, ← Bool.decide_and]
    congr 1
    simp only [possiblePrecedence_mem, Ready, eq_iff_iff]
    exact ⟨fun h => ⟨⟨h.1.1, h.1.2.1⟩, h.1.2.2⟩, fun h => ⟨⟨h.1.1, h.1.2, h.2⟩, h.2.1⟩⟩
  rw [← hx, ← e]
  constructor
  · rintro ⟨s', h1, l, ⟨_, rfl⟩, h3⟩
    rw [hxs] at h1; cases h1
    exact tryTasks_ok.1 h3
  · intro h
    refine ⟨s, hxs, _, ⟨?_, rfl⟩, tryTasks_ok.2 h⟩
    intro y hy _
    simp only [List.mem_filter, decide_eq_true_eq] at hy
    exact hall y hy.1 hy.2

/-- "Index freedom": the first accepted ready task among the first ready task of the
permutation and the `delta` entries after it. -/
theorem C16_index_window_picks_first (p : Policy) (dom : Dom) (st : State) (delta : Nat)
    (pre : List TaskId) (x : TaskId) (rest : List TaskId) (hp : p.perm = pre ++ x :: rest)
    (hx : Ready dom st x) (hpre : ∀ y ∈ pre, ¬ Ready dom st y) (a : Action) :
    p.indexFreedom delta dom st = .ok a ↔
      FirstOf p dom st ((x :: rest.take delta).filter fun y => decide (Ready dom st y)) a := by
  have e1 : p.ready dom st = ((x :: rest).zipIdx pre.length).filter fun e => decide (Ready dom st e.1) := by
    rw [ready_eq, hp, List.zipIdx_append, List.filter_append]
    have : (pre.zipIdx.filter fun e => decide (Ready dom st e.1)) = [] := by
      rw [List.filter_eq_nil_iff]
      intro e he
      have := hpre e.1 (List.fst_mem_of_mem_zipIdx he)
      simpa using this
    rw [this]
    simp
  unfold Policy.indexFreedom
  rw [e1, List.zipIdx_cons, List.filter_cons, if_pos (by simpa using hx)]
  simp only
  rw [tryTasks_ok]
  have e2 : (List.filter (fun e : TaskId × Nat => decide ((e.2 : Int) ≤ (pre.length : Int) + (delta : Int)))
      ((x, pre.length) :: (rest.zipIdx (pre.length + 1)).filter fun e => decide (Ready dom st e.1))).map Prod.fst
      = (x :: rest.take delta).filter fun y => decide (Ready dom st y) := by
    have h0 : ((x, pre.length) :: (rest.zipIdx (pre.length + 1)).filter fun e => decide (Ready dom st e.1)) =
        ((x :: rest).zipIdx pre.length).filter fun e => decide (Ready dom st e.1) := by
      rw [List.zipIdx_cons, List.filter_cons, if_pos (by simpa using hx)]
    rw [h0, List.filter_filter, ← map_fst_filter_zipIdx _ pre.length (fun y => decide (Ready dom st y)),
      ← List.take_succ_cons, ← zipIdx_take (x :: rest) pre.length (delta + 1), List.filter_filter]
    congr 2
    funext e
    rw [Bool.and_comm]
    congr 2
    apply propext
    push_cast
    omega
  rw [e2]

/-- Whatever the method, the returned action is time progress or an accepted start of a ready
task. -/
theorem C16_returns_accepted_or_time (p : Policy) (meth : Method) (ord : List TaskId → List TaskId)
    (hord : ∀ l, (ord l).Perm l) (dTime dIndex : Int) (dom : Dom) (st : State) (a : Action)
    (h : p.next meth ord dTime dIndex dom st = .ok a) :
    a = timeAction ∨ ∃ x, Ready dom st x ∧ IsStartOf p x a ∧ Accepted dom st a ∧
      (meth ≠ .gantt → x ∈ p.perm) ∧
      (meth = .gantt → ∃ sched, p.schedule = some sched ∧ (x, st.t) ∈ sched) := by
  have key : ∀ l, (∀ x ∈ l, Ready dom st x ∧ (meth ≠ .gantt → x ∈ p.perm) ∧
      (meth = .gantt → ∃ sched, p.schedule = some sched ∧ (x, st.t) ∈ sched)) →
      p.tryTasks dom st l = .ok a → a = timeAction ∨ ∃ x, Ready dom st x ∧ IsStartOf p x a ∧
        Accepted dom st a ∧ (meth ≠ .gantt → x ∈ p.perm) ∧
        (meth = .gantt → ∃ sched, p.schedule = some sched ∧ (x, st.t) ∈ sched) := by
    intro l hl ht
    rcases tryTasks_ok.1 ht with ⟨pre, x, post, rfl, h1, h2, _⟩ | ⟨h1, _⟩
    · obtain ⟨g1, g2, g3⟩ := hl x (by simp)
      exact .inr ⟨x, g1, h1, h2, g2, g3⟩
    · exact .inl h1
  have hready : ∀ x ∈ readyList p dom st, Ready dom st x ∧ x ∈ p.perm := by
    intro x hx
    simp only [readyList, List.mem_filter, decide_eq_true_eq] at hx
    exact ⟨hx.2, hx.1⟩
  have hfind : ∀ x, (readyList p dom st).head? = some x → x ∈ readyList p dom st :=
    fun x hx => List.mem_of_mem_head? hx
  have hsched : p.schedule = none ∨ ∃ s, p.schedule = some s := by cases p.schedule <;> simp
  cases meth with
  | gantt =>
    simp only [Policy.next, Policy.gantt] at h
    split at h
    · exact .inl (Except.ok.inj h).symm
    · rename_i x rest he
      refine key [x] ?_ h
      intro y hy
      simp only [List.mem_singleton] at hy
      subst hy
      have hm : y ∈ y :: rest := by simp
      rw [← he] at hm
      simp only [List.mem_filter, Bool.and_eq_true, decide_eq_true_eq, possiblePrecedence_mem] at hm
      refine ⟨hm.2.2, fun hne => absurd rfl hne, fun _ => ?_⟩
      cases hs : p.schedule with
      | none => rw [hs] at hm; simp at hm
      | some sched =>
        rw [hs] at hm
        refine ⟨sched, rfl, ?_⟩
        have h1 := ((hord _).mem_iff).1 hm.1
        simp only [List.mem_map, List.mem_filter, decide_eq_true_eq] at h1
        obtain ⟨⟨z, s⟩, ⟨h2, h3⟩, h4⟩ := h1
        simp only at h3 h4
        subst h3; subst h4
        exact h2
  | precedence =>
    simp only [Policy.next, Policy.precedenceReady] at h
    rw [find_ready] at h
    split at h
    · exact .inl (Except.ok.inj h).symm
    · rename_i x hx
      have hx' := hready x (hfind x hx)
      rcases hsched with hs | ⟨sched, hs⟩
      · rw [hs] at h
        exact key [x] (by simpa using ⟨hx'.1, hx'.2⟩) h
      · rw [hs] at h
        simp only [bind_eq_ok, Dict.get_ok_iff, keepOthers_ok] at h
        obtain ⟨s, _, l, ⟨_, rfl⟩, h⟩ := h
        refine key _ ?_ h
        intro y hy
        rcases List.mem_cons.1 hy with rfl | hy
        · exact ⟨hx'.1, fun _ => hx'.2, fun hm => by cases hm⟩
        · simp only [notDone_fst, List.mem_filter, decide_eq_true_eq, possiblePrecedence_mem] at hy
          exact ⟨hy.2.2.2, fun _ => hy.1.1, fun hm => by cases hm⟩
  | ready =>
    simp only [Policy.next] at h
    rw [C16_ready_picks_first, ← tryTasks_ok] at h
    exact key _ (fun x hx => ⟨(hready x hx).1, fun _ => (hready x hx).2, fun hm => by cases hm⟩) h
  | strict =>
    simp only [Policy.next, Policy.strict] at h
    rw [ready_fst] at h
    split at h
    · exact .inl (Except.ok.inj h).symm
    · rename_i x rest he
      have hr : ∀ y ∈ x :: rest, Ready dom st y ∧ y ∈ p.perm := by rw [← he]; exact hready
      rcases hsched with hs | ⟨sched, hs⟩
      · rw [hs] at h
        exact key [x] (by simpa using hr x (by simp)) h
      · rw [hs] at h
        simp only [bind_eq_ok, Dict.get_ok_iff, keepBy_ok] at h
        obtain ⟨s, _, l, ⟨_, rfl⟩, h⟩ := h
        refine key _ ?_ h
        intro y hy
        have := hr y (List.mem_filter.1 hy).1
        exact ⟨this.1, fun _ => this.2, fun hm => by cases hm⟩
  | timeFreedom =>
    simp only [Policy.next, Policy.timeFreedom] at h
    rw [ready_fst] at h
    split at h
    · exact .inl (Except.ok.inj h).symm
    · rename_i x rest he
      have hr : ∀ y ∈ x :: rest, Ready dom st y ∧ y ∈ p.perm := by rw [← he]; exact hready
      rcases hsched with hs | ⟨sched, hs⟩
      · rw [hs] at h
        exact key [x] (by simpa using hr x (by simp)) h
      · rw [hs] at h
        simp only [bind_eq_ok, Dict.get_ok_iff, keepBy_ok] at h
        obtain ⟨s, _, l, ⟨_, rfl⟩, h⟩ := h
        refine key _ ?_ h
        intro y hy
        have := hr y (List.mem_filter.1 hy).1
        exact ⟨this.1, fun _ => this.2, fun hm => by cases hm⟩
  | indexFreedom =>
    simp only [Policy.next, Policy.indexFreedom] at h
    split at h
    · exact .inl (Except.ok.inj h).symm
    · rename_i x i rest he
      refine key _ ?_ h
      intro y hy
      simp only [List.mem_map] at hy
      obtain ⟨e, h1, rfl⟩ := hy
      have h2 := (List.mem_filter.1 h1).1
      rw [← he] at h2
      have h3 : e.1 ∈ readyList p dom st := by
        rw [← ready_fst]; exact List.mem_map.2 ⟨e, h2, rfl⟩
      exact ⟨(hready _ h3).1, fun _ => (hready _ h3).2, fun hm => by cases hm⟩
  | pile => simp [Policy.next] at h

/-- When every ready task of the permutation has a mode, the check raises for none of them and a
schedule, if given, covers the permutation, the five list policies never raise. -/
theorem C16_no_exception (p : Policy) (meth : Method) (ord : List TaskId → List TaskId)
    (dTime dIndex : Int) (dom : Dom) (st : State) (hm : meth ≠ .gantt ∧ meth ≠ .pile)
    (hmode : ∀ x ∈ p.perm, Ready dom st x → ∃ b r, IsStartOf p x b ∧ checkStart dom st b = .ok r)
    (hsched : ∀ sched, p.schedule = some sched → ∀ x ∈ p.perm, (sched.get? x).isSome = true) :
    ∃ a, p.next meth ord dTime dIndex dom st = .ok a := by
  have htry : ∀ l, (∀ x ∈ l, x ∈ p.perm ∧ Ready dom st x) → ∃ a, p.tryTasks dom st l = .ok a := by
    intro l
    induction l with
    | nil => exact fun _ => ⟨timeAction, rfl⟩
    | cons x l ih =>
      intro hl
      obtain ⟨b, ⟨ok, use⟩, h1, h2⟩ := hmode x (hl x (by simp)).1 (hl x (by simp)).2
      obtain ⟨a, ha⟩ := ih (fun y hy => hl y (by simp [hy]))
      simp only [Policy.tryTasks, startAction_ok.2 h1, bind_ok, h2]
      cases ok with
      | true => exact ⟨b, rfl⟩
      | false => exact ⟨a, ha⟩
  have hready : ∀ x ∈ readyList p dom st, x ∈ p.perm ∧ Ready dom st x := fun x hx =>
    ⟨(List.mem_filter.1 hx).1, by simpa using (List.mem_filter.1 hx).2⟩
  have hs : p.schedule = none ∨ ∃ s, p.schedule = some s := by cases p.schedule <;> simp
  cases meth with
  | gantt => exact absurd rfl hm.1
  | pile => exact absurd rfl hm.2
  | precedence =>
    simp only [Policy.next, Policy.precedenceReady]
    rw [find_ready]
    split
    · exact ⟨_, rfl⟩
    · rename_i x hx
      have hx' := hready x (List.mem_of_mem_head? hx)
      rcases hs with hs | ⟨sched, hs⟩
      · rw [hs]; exact htry [x] (by simpa using hx')
      · rw [hs]
        obtain ⟨s, h1⟩ := Option.isSome_iff_exists.1 (hsched sched hs x hx'.1)
        simp only [Dict.get_ok_iff.2 h1, bind_ok]
        rw [keepOthers_ok.2 ⟨?_, rfl⟩]
        · refine htry _ ?_
          intro y hy
          rcases List.mem_cons.1 hy with rfl | hy
          · exact hx'
          · simp only [notDone_fst, List.mem_filter, decide_eq_true_eq, possiblePrecedence_mem] at hy
            exact ⟨hy.1.1, hy.2.2.2⟩
        · intro y hy _
          simp only [notDone_fst, List.mem_filter] at hy
          exact hsched sched hs y hy.1
  | ready =>
    simp only [Policy.next, Policy.firstReady]
    refine htry _ ?_
    intro y hy
    simp only [notDone_fst, List.mem_filter, decide_eq_true_eq, possiblePrecedence_mem] at hy
    exact ⟨hy.1.1, hy.2⟩
  | strict =>
    simp only [Policy.next, Policy.strict]
    rw [ready_fst]
    split
    · exact ⟨_, rfl⟩
    · rename_i x rest he
      have hr : ∀ y ∈ x :: rest, y ∈ p.perm ∧ Ready dom st y := by rw [← he]; exact hready
      rcases hs with hs | ⟨sched, hs⟩
      · rw [hs]; exact htry [x] (by simpa using hr x (by simp))
      · rw [hs]
        obtain ⟨s, h1⟩ := Option.isSome_iff_exists.1 (hsched sched hs x (hr x (by simp)).1)
        simp only [Dict.get_ok_iff.2 h1, bind_ok]
        rw [keepBy_ok.2 ⟨fun y hy => hsched sched hs y (hr y hy).1, rfl⟩]
        exact htry _ (fun y hy => hr y (List.mem_filter.1 hy).1)
  | timeFreedom =>
    simp only [Policy.next, Policy.timeFreedom]
    rw [ready_fst]
    split
    · exact ⟨_, rfl⟩
    · rename_i x rest he
      have hr : ∀ y ∈ x :: rest, y ∈ p.perm ∧ Ready dom st y := by rw [← he]; exact hready
      rcases hs with hs | ⟨sched, hs⟩
      · rw [hs]; exact htry [x] (by simpa using hr x (by simp))
      · rw [hs]
        obtain ⟨s, h1⟩ := Option.isSome_iff_exists.1 (hsched sched hs x (hr x (by simp)).1)
        simp only [Dict.get_ok_iff.2 h1, bind_ok]
        rw [keepBy_ok.2 ⟨fun y hy => hsched sched hs y (hr y hy).1, rfl⟩]
        exact htry _ (fun y hy => hr y (List.mem_filter.1 hy).1)
  | indexFreedom =>
    simp only [Policy.next, Policy.indexFreedom]
    split
    · exact ⟨_, rfl⟩
    · rename_i x i rest he
      refine htry _ ?_
      intro y hy
      simp only [List.mem_map] at hy
      obtain ⟨e, h1, rfl⟩ := hy
      have h2 := (List.mem_filter.1 h1).1
      rw [← he] at h2
      refine hready _ ?_
      rw [← ready_fst]; exact List.mem_map.2 ⟨e, h2, rfl⟩

/-- The Gantt policy only looks at tasks scheduled exactly now: once the scheduled start of every
remaining task has passed, it lets time pass for ever. -/
theorem C16_gantt_never_catches_up (p : Policy) (ord : List TaskId → List TaskId)
    (hord : ∀ l, (ord l).Perm l) (dom : Dom) (st : State) (sched : Dict TaskId Int)
    (hs : p.schedule = some sched)
    (hlate : ∀ x s, x ∈ st.remaining → (x, s) ∈ sched → s < st.t) :
    p.gantt ord dom st = .ok timeAction := by
  unfold Policy.gantt
  simp only [hs]
  split
  · rfl
  · rename_i x rest he
    have hm : x ∈ x :: rest := by simp
    rw [← he] at hm
    simp only [List.mem_filter, Bool.and_eq_true, decide_eq_true_eq, possiblePrecedence_mem, startingAt] at hm
    have h1 := ((hord _).mem_iff).1 hm.1
    simp only [List.mem_map, List.mem_filter, decide_eq_true_eq] at h1
    obtain ⟨⟨z, s⟩, ⟨h2, h3⟩, h4⟩ := h1
    simp only at h3 h4
    subst h4
    have := hlate z s hm.2.2.1 h2
    omega

/-! ### Following a policy -/

/-- Each action of the run is the one the policy returns in the state where it is played. -/
def Follows (p : Policy) (meth : Method) (ord : List TaskId → List TaskId) (dTime dIndex : Int) (dom : Dom)
    (st : State) (a : Action) (_ : Draw) : Prop := p.next meth ord dTime dIndex dom st = .ok a

/-- Following any of the policies from the initial state, with constant needs, capacities that do
not shrink and allocated units that are not resource types, never uses more than is available. -/
theorem C16_following_within_capacity (p : Policy) (meth : Method) (ord : List TaskId → List TaskId)
    (hord : ∀ l, (ord l).Perm l) (dTime dIndex : Int) (dom : Dom) (d0 : Draw) (hd : dom.tasks.Nodup)
    (hC : ConstantModes dom) (hav : ∀ r ∈ dom.resTypes ++ dom.resUnits, 0 ≤ d0.avail r)
    (hal : ∀ al x us, p.alloc = some al → al.get? x = some us → ∀ u ∈ us, u ∉ dom.resTypes)
    (l : List (Action × Draw)) (st : State)
    (hT : Along (fun st a d => Follows p meth ord dTime dIndex dom st a d ∧ NoShrink dom st a d) dom
      (initState dom d0) l)
    (h : run dom (initState dom d0) l = .ok st) (r : Res) (u : Int) (hu : st.used.get? r = some u) :
    ∃ v, st.avail.get? r = some v ∧ u ≤ v := by
  refine C13_capacity_partial dom d0 hd hC hav l st (hT.imp ?_) h r u hu
  rintro s a d ⟨h1, h2⟩
  rcases C16_returns_accepted_or_time p meth ord hord dTime dIndex dom s a h1 with
    rfl | ⟨x, _, ⟨e1, e2, e3, e4, e5, e6⟩, _⟩
  · exact ⟨fun u hu => (List.not_mem_nil hu).elim, fun hk => (by cases hk), h2⟩
  · refine ⟨?_, fun hk => (by rw [e2] at hk; cases hk), h2⟩
    intro u hu
    cases ha : p.alloc with
    | none => rw [e6 (.inl ha)] at hu; exact (List.not_mem_nil hu).elim
    | some al =>
      cases hx : al.get? x with
      | none => rw [e6 (.inr ⟨al, ha, hx⟩)] at hu; exact (List.not_mem_nil hu).elim
      | some us =>
        rw [e5 al us ha hx] at hu
        exact hal al x us ha hx u hu

/-! ### C49 -/

/-- A start that the domain's own check accepts, for a task that has not started, does not raise
and starts the task in the requested mode: it leaves the remaining tasks and is ongoing, or
complete when its drawn duration is zero; its start is recorded at the present time and the
clock does not move. -/
theorem C49_accepted_start_starts (dom : Dom) (d : Draw) (st : State) (hn : (allOf st).Nodup)
    (a : Action) (x : TaskId) (m : ModeId) (hk : a.kind = .start) (ht : a.task = some x)
    (hm : a.mode = some m) (htp : a.timeProgress = false) (hx : x ∈ st.remaining)
    (hacc : Accepted dom st a) :
    ∃ st', nextState dom d st a = .ok st' ∧ x ∉ st'.remaining ∧ st'.t = st.t ∧
      (d.duration ≠ 0 → x ∈ st'.ongoing) ∧ (d.duration = 0 → x ∈ st'.complete) ∧
      st'.mode.get? x = some m ∧ ∃ i, st'.details.get? x = some i ∧ i.start = some st.t ∧
        i.sampled = some d.duration := by
  obtain ⟨use, hch⟩ := hacc
  obtain ⟨x', info, time, e1, e2, e3, e4, e5, e6⟩ := checkStart_true (.inl hk) hch
  rw [ht] at e1; cases e1
  have hadd : ∀ (l us : Dict Res Int), (∀ r n, (r, n) ∈ l → (us.get? r).isSome = true) →
      ∃ us', addAll us l = .ok us' := by
    intro l
    induction l with
    | nil => intro us _; exact ⟨us, rfl⟩
    | cons p l ih =>
      obtain ⟨r, n⟩ := p
      intro us hus
      obtain ⟨u, hu⟩ := Option.isSome_iff_exists.1 (hus r n (by simp))
      obtain ⟨us', h'⟩ := ih (us.set r (u + n)) (by
        intro r' n' hm'
        rw [Dict.get?_set]
        split
        · rfl
        · exact hus r' n' (by simp [hm']))
      exact ⟨us', by simp only [addAll, Dict.get_ok_iff.2 hu, bind_ok]; exact h'⟩
  obtain ⟨us, hus⟩ := hadd use st.used (fun r n hr => by
    obtain ⟨_, u, _, h, _⟩ := e5 r n hr; rw [h]; rfl)
  have h1 : updatePause dom st a = .ok st := by unfold updatePause; rw [hk]; rfl
  have h2 : updateResume dom st a = .ok st := by unfold updateResume; rw [hk]; rfl
  have h3 : updateStart dom d st a = .ok { st with
      mode := st.mode.set x m
      ongoing := sadd st.ongoing x, remaining := st.remaining.erase x
      details := st.details.set x { info with start := some st.t, sampled := some d.duration }
      used := us, usedFor := st.usedFor.set x use
      progress := st.progress.set x 0 } := by
    unfold updateStart
    rw [if_pos hk, hch]
    simp only [bind_ok, if_true, ht, hm, sremove, hx, Dict.get_ok_iff.2 e2, hus]
    rfl
  have hne : x ∉ st.remaining.erase x := by
    refine List.Nodup.not_mem_erase ?_
    rw [List.nodup_iff_count]
    intro y
    have := nodup_count hn y
    rw [count_allOf] at this
    omega
  by_cases hz : d.duration = 0
  · refine ⟨_, by
      unfold nextState
      rw [h1, bind_ok, h2, bind_ok, h3, bind_ok]
      unfold updateDummy
      rw [if_pos hk, ht]
      simp only [Dict.get_ok_iff.2 (Dict.get?_set_self _ _ _), bind_ok, hz, if_true, sremove,
        mem_sadd.2 (Or.inr rfl), dpop, Dict.get?_set_self]
      unfold updateTime
      rw [htp]
      simp only [Bool.false_eq_true, if_false, bind_ok]
      rfl, ?_⟩
    unfold updateAvail
    rw [htp]
    simp only [Bool.false_eq_true, if_false]
    refine ⟨hne, trivial, fun h => absurd hz h, fun _ => mem_sadd.2 (.inr rfl), Dict.get?_set_self _ _ _, _,
      Dict.get?_set_self _ _ _, rfl, by rw [hz]⟩
  · refine ⟨_, by
      unfold nextState
      rw [h1, bind_ok, h2, bind_ok, h3, bind_ok]
      unfold updateDummy
      rw [if_pos hk, ht]
      have hz' : ¬ (some d.duration = some (0 : Int)) := by simpa using hz
      simp only [Dict.get_ok_iff.2 (Dict.get?_set_self _ _ _), bind_ok, hz', if_false]
      unfold updateTime
      rw [htp]
      simp only [Bool.false_eq_true, if_false, bind_ok]
      rfl, ?_⟩
    unfold updateAvail
    rw [htp]
    simp only [Bool.false_eq_true, if_false]
    exact ⟨hne, trivial, fun _ => mem_sadd.2 (.inr rfl), fun h => absurd h hz, Dict.get?_set_self _ _ _, _,
      Dict.get?_set_self _ _ _, rfl, rfl⟩

/-! ### Examples -/

/-- Priority 0, 2, 1, 3 on the example domain; tasks 1 and 2 are both scheduled at 0. -/
def exPol : Policy where
  perm := [0, 2, 1, 3]
  modes := [(0, 1), (1, 1), (2, 1), (3, 1)]
  schedule := some [(0, 0), (1, 0), (2, 0), (3, 3)]

/-- After starting 0: tasks 2 and 1 are ready, 2 has priority. -/
def exPolRun : List (Action × Draw) := [(startOf 0, dr 0)]

example : ∃ st, run exDom (initState exDom (dr 0)) exPolRun = .ok st ∧
    readyList exPol exDom st = [2, 1] ∧
    exPol.firstReady exDom st = .ok (startOf 2) ∧ exPol.strict exDom st = .ok (startOf 2) ∧
    exPol.timeFreedom 10 exDom st = .ok (startOf 2) ∧ exPol.indexFreedom 1 exDom st = .ok (startOf 2) ∧
    exPol.precedenceReady exDom st = .ok (startOf 2) ∧ exPol.gantt id exDom st = .ok (startOf 1) :=
  okAnd_spec (by decide +kernel)

/-- With task 2 running, task 1 is ready but rejected: time passes. -/
example : ∃ st, run exDom (initState exDom (dr 0)) (exPolRun ++ [(startOf 2, dr 1)]) = .ok st ∧
    readyList exPol exDom st = [1] ∧ exPol.firstReady exDom st = .ok timeAction :=
  okAnd_spec (by decide +kernel)

example : IsStartOf exPol 2 (startOf 2) := startAction_ok.1 (by decide)

/-- A run of the "ready" policy on the example domain, to the goal. -/
def exFollow : List (Action × Draw) :=
  [(startOf 0, dr 0), (startOf 2, dr 1), (timeAction, dr 0), (startOf 1, dr 2), (timeAction, dr 0),
   (timeAction, dr 0), (startOf 3, dr 0)]

/-- Decision procedure for the hypotheses of `C16_following_within_capacity`, example only. -/
def followsB (p : Policy) (dom : Dom) : State → List (Action × Draw) → Bool
  | _, [] => true
  | st, (a, d) :: rest => (match p.firstReady dom st with | .ok b => decide (b = a) | .error _ => false) &&
      (!a.timeProgress || (dom.resUnits ++ dom.resTypes).all fun r => match st.avail.get? r with
        | none => true | some v => decide (v ≤ d.avail r)) &&
      (match nextState dom d st a with | .ok st' => followsB p dom st' rest | .error _ => true)

theorem followsB_spec {p : Policy} {dom : Dom} {l : List (Action × Draw)} {st : State}
    (h : followsB p dom st l = true) :
    Along (fun st a d => Follows p .ready id 0 0 dom st a d ∧ NoShrink dom st a d) dom st l := by
  induction l generalizing st with
  | nil => trivial
  | cons x l ih =>
    obtain ⟨a, d⟩ := x
    simp only [followsB, Bool.and_eq_true] at h
    obtain ⟨⟨h1, h2⟩, h3⟩ := h
    refine ⟨⟨?_, ?_⟩, fun st' hs => ?_⟩
    · show p.firstReady dom st = .ok a
      split at h1
      · rename_i b he; rw [he]; simpa using h1
      · cases h1
    · intro htp r hr v hv
      rw [htp] at h2
      simp only [Bool.not_true, Bool.false_or, List.all_eq_true] at h2
      have := h2 r hr
      rw [hv] at this
      simpa using this
    · rw [hs] at h3
      exact ih h3

example : Along (fun st a d => Follows exPol .ready id 0 0 exDom st a d ∧ NoShrink exDom st a d) exDom
      (initState exDom (dr 0)) exFollow ∧
    ∃ st, run exDom (initState exDom (dr 0)) exFollow = .ok st ∧ isGoal st = true ∧
      st.used.get? 0 = some 0 :=
  ⟨followsB_spec (by decide +kernel), okAnd_spec (by decide +kernel)⟩

/-- Two tasks scheduled at 0; task 1 needs more than there is. -/
def pairDom : Dom where
  tasks := [1, 2]
  modes := [(1, exMode 2), (2, exMode 1)]
  resTypes := [0]
  renewable := [(0, true)]
  preds := fun _ => []
  duration := fun _ _ => 1

def pairPol : Policy where
  perm := [1, 2]
  modes := [(1, 1), (2, 1)]
  schedule := some [(1, 0), (2, 0)]

/-- The Gantt policy tries only one of the tasks scheduled now, whichever a Python set yields first:
the same state gives time progress or the accepted start of task 2 depending on that order. -/
theorem C16_gantt_tries_only_one :
    pairPol.gantt id pairDom (initState pairDom (dr 0)) = .ok timeAction ∧
    pairPol.gantt List.reverse pairDom (initState pairDom (dr 0)) = .ok (startOf 2) := by
  decide +kernel

/-- "Precedence ready" looks up the scheduled start of every remaining task, ready or not: a
schedule without the (not ready) task 3 makes it raise where the other methods do not. -/
theorem C16_precedence_needs_full_schedule :
    ∃ st, run exDom (initState exDom (dr 0)) exPolRun = .ok st ∧
      Policy.precedenceReady { exPol with schedule := some [(1, 0), (2, 0)] } exDom st = .error .keyError ∧
      Policy.strict { exPol with schedule := some [(1, 0), (2, 0)] } exDom st = .ok (startOf 2) :=
  okAnd_spec (by decide +kernel)

example : 1 ∈ (initState pairDom (dr 0)).remaining ∧ (allOf (initState pairDom (dr 0))).Nodup ∧
    Accepted pairDom (initState pairDom (dr 0)) (startOf 2) :=
  ⟨by decide, by decide, [(0, 1)], by decide⟩

/-- All remaining tasks late: hypothesis of `C16_gantt_never_catches_up`. -/
example : ∀ x s, x ∈ ({ initState pairDom (dr 0) with t := 1 } : State).remaining →
    (x, s) ∈ ([(1, 0), (2, 0)] : Dict TaskId Int) → s < ({ initState pairDom (dr 0) with t := 1 } : State).t := by
  intro x s _ h
  simp only [List.mem_cons, Prod.mk.injEq, List.not_mem_nil, or_false] at h
  rcases h with ⟨_, rfl⟩ | ⟨_, rfl⟩ <;> decide

end Verif.Sched
