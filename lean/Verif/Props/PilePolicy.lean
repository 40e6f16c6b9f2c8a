import Verif.Lemmas.PilePolicy
import Verif.Props.ListPlay
import Mathlib.Tactic.Ring
import Mathlib.Tactic.Linarith
import Mathlib.Algebra.Order.BigOperators.Group.List

/-!
C147: the greedy policy of scheduling domains starts a ready task that its rule prefers, and lets time pass only when none can start.
C148: rolling it out finishes all tasks.
-/
namespace Verif.Sched

/-- `y` is reached from `x` along direct precedences between tasks. -/
def After (dom : Dom) (x y : TaskId) : Prop := Relation.TransGen (fun a b => b ∈ dom.tasks ∧ a ∈ dom.preds b) x y

/-- `l` lists the tasks after `x`, apart from `x`, each once. -/
def Followers (dom : Dom) (x : TaskId) (l : List TaskId) : Prop := l.Nodup ∧ ∀ y, y ∈ l ↔ y ≠ x ∧ After dom x y

/-- The ready tasks whose start in mode 1 the domain accepts. -/
def CanStart (dom : Dom) (st : State) (x : TaskId) : Prop :=
  Ready dom st x ∧ Accepted dom st ⟨some x, .start, some 1, false, none⟩

/-- The number of descendants the solver stores for a task is the number of tasks after it. -/
theorem C147_descendants (dom : Dom) (hnd : dom.tasks.Nodup) (x : TaskId) (l : List TaskId) (h : Followers dom x l) :
    (descendants dom x).length = l.length := by
  refine (List.Perm.length_eq ?_)
  rw [List.perm_ext_iff_of_nodup (descendants_nodup hnd x) h.1]
  intro y
  rw [mem_descendants, h.2 y]
  rfl

/-- Whatever the rule and the draws, the answer is the start, in mode 1 and without units, of a ready task whose start the domain
accepts; or a time step, exactly when there is no such task. -/
theorem C147_answer (dom : Dom) (g : Greedy) (luck : Luck) (st : State) (a : Action) (h : pileNext dom g luck st = .ok a) :
    (∃ x, CanStart dom st x ∧ a = ⟨some x, .start, some 1, false, none⟩) ∨
    ((∀ x, ¬ CanStart dom st x) ∧ a = ⟨none, .timePr, some 1, true, none⟩) := by
  unfold pileNext at h
  simp only [bind_eq_ok] at h
  obtain ⟨r, h1, h2⟩ := h
  obtain ⟨_, _, h4⟩ := startable_ok h1
  cases r with
  | nil =>
    right
    refine ⟨fun x hx => ?_, (Except.ok.inj h2).symm⟩
    have := (h4 x).2 ⟨possiblePrecedence_mem.2 hx.1, hx.2⟩
    cases this
  | cons x0 rest =>
    left
    simp only [bind_eq_ok] at h2
    obtain ⟨y, h5, h6⟩ := h2
    obtain ⟨k1, k2⟩ := (h4 y).1 (choose_mem h5)
    exact ⟨y, ⟨possiblePrecedence_mem.1 k1, k2⟩, (Except.ok.inj h6).symm⟩

theorem first_answer {dom : Dom} {g : Greedy} {luck : Luck} {st : State} {x : TaskId} (f : TaskId → Int)
    (hg : ∀ x rest, choose dom g luck x rest = .ok (firstMax f x rest))
    (h : pileNext dom g luck st = .ok ⟨some x, .start, some 1, false, none⟩) :
    (∀ y, CanStart dom st y → f y ≤ f x) ∧
    ∃ pre post, st.remaining = pre ++ x :: post ∧ ∀ y ∈ pre, CanStart dom st y → f y < f x := by
  unfold pileNext at h
  simp only [bind_eq_ok] at h
  obtain ⟨r, h1, h2⟩ := h
  obtain ⟨_, h3, h4⟩ := startable_ok h1
  cases r with
  | nil => have := Except.ok.inj h2; simp [pileTime] at this
  | cons x0 rest =>
    simp only [bind_eq_ok, hg] at h2
    obtain ⟨y, h5, h6⟩ := h2
    have h5 := Except.ok.inj h5
    have h6 := Except.ok.inj h6
    simp only [pileStart, Action.mk.injEq, Option.some.injEq, and_true] at h6
    subst h6
    obtain ⟨pre, post, e1, e2, e3⟩ := firstMax_spec f x0 rest
    rw [h5] at e1 e2 e3
    refine ⟨fun z hz => e2 z ((h4 z).2 ⟨possiblePrecedence_mem.2 hz.1, hz.2⟩), ?_⟩
    have hfil := startable_filter h1
    rw [possiblePrecedence, List.filter_filter, e1] at hfil
    obtain ⟨l1, l2, d1, d2, d3⟩ := List.filter_eq_append_iff.1 hfil.symm
    obtain ⟨l3, l4, d4, d5, _⟩ := List.filter_eq_cons_iff.1 d3
    have hP : ∀ z ∈ st.remaining, CanStart dom st z →
        (accB dom st z && (dom.preds z).all fun m => decide (m ∈ st.complete)) = true := by
      intro z _ hz
      rw [Bool.and_eq_true, accB_iff]
      exact ⟨hz.2, by simpa using hz.1.2⟩
    refine ⟨l1 ++ l3, l4, by rw [d1, d4, List.append_assoc], fun z hz hc => ?_⟩
    have hzr := hP z hc.1.1 hc
    rcases List.mem_append.1 hz with hz | hz
    · exact e3 z (by rw [← d2]; exact List.mem_filter.2 ⟨hz, hzr⟩)
    · exact absurd hzr (d5 z hz)

/-- "Most successors": the task started has the most tasks after it, among those that can start, and of those the first in the order in
which Python runs through the remaining tasks. -/
theorem C147_most_successors (dom : Dom) (hnd : dom.tasks.Nodup) (luck : Luck) (st : State) (x : TaskId)
    (h : pileNext dom .mostSuccessors luck st = .ok ⟨some x, .start, some 1, false, none⟩) :
    (∀ y, CanStart dom st y → ∀ lx ly, Followers dom x lx → Followers dom y ly → ly.length ≤ lx.length) ∧
    ∃ pre post, st.remaining = pre ++ x :: post ∧
      ∀ y ∈ pre, CanStart dom st y → ∀ lx ly, Followers dom x lx → Followers dom y ly → ly.length < lx.length := by
  obtain ⟨h1, pre, post, h2, h3⟩ := first_answer (fun y => ((descendants dom y).length : Int)) (fun _ _ => rfl) h
  refine ⟨fun y hy lx ly fx fy => ?_, pre, post, h2, fun y hm hy lx ly fx fy => ?_⟩
  · rw [← C147_descendants dom hnd x lx fx, ← C147_descendants dom hnd y ly fy]
    have := h1 y hy
    omega
  · rw [← C147_descendants dom hnd x lx fx, ← C147_descendants dom hnd y ly fy]
    have := h3 y hm hy
    omega

/-- "Fastest": the task started has the least duration sampled, among those that can start, and of those it is the first. -/
theorem C147_fastest (dom : Dom) (luck : Luck) (st : State) (x : TaskId)
    (h : pileNext dom .fastest luck st = .ok ⟨some x, .start, some 1, false, none⟩) :
    (∀ y, CanStart dom st y → luck.duration x ≤ luck.duration y) ∧
    ∃ pre post, st.remaining = pre ++ x :: post ∧ ∀ y ∈ pre, CanStart dom st y → luck.duration x < luck.duration y := by
  obtain ⟨h1, pre, post, h2, h3⟩ := first_answer (fun y => - luck.duration y) (fun _ _ => rfl) h
  refine ⟨fun y hy => ?_, pre, post, h2, fun y hm hy => ?_⟩
  · have := h1 y hy; omega
  · have := h3 y hm hy; omega

/-- The tasks that can start, in the order of the remaining tasks. -/
def Candidates (dom : Dom) (st : State) (l : List TaskId) : Prop :=
  l.Sublist st.remaining ∧ ∀ x, x ∈ l ↔ CanStart dom st x

/-- "Sample most successors" draws among the tasks that can start with probabilities that are not negative, add up to 1 and are in
proportion to the numbers of tasks after them; when none has any, all are as likely. -/
theorem C147_sample (dom : Dom) (l : List TaskId) (hne : l ≠ []) :
    (probs dom l).length = l.length ∧ (∀ p ∈ probs dom l, 0 ≤ p) ∧ (probs dom l).sum = 1 ∧
    (∀ (i j : Nat) (x y : TaskId) (p q : Rat), l[i]? = some x → l[j]? = some y → (probs dom l)[i]? = some p →
      (probs dom l)[j]? = some q → p * ((descendants dom y).length : Rat) = q * ((descendants dom x).length : Rat)) ∧
    ((∀ x ∈ l, descendants dom x = []) → ∀ p ∈ probs dom l, p = 1 / (l.length : Rat)) := by
  have hlen : (l.length : Rat) ≠ 0 := by
    have := List.length_pos_iff.2 hne
    exact_mod_cast this.ne'
  have hnn : ∀ l : List TaskId, 0 ≤ (l.map fun x => ((descendants dom x).length : Rat)).sum := by
    intro l
    apply List.sum_nonneg
    intro p hp
    obtain ⟨x, _, rfl⟩ := List.mem_map.1 hp
    exact_mod_cast Nat.zero_le _
  have hzero : (l.map fun x => ((descendants dom x).length : Rat)).sum = 0 → ∀ x ∈ l, descendants dom x = [] := by
    intro h x hx
    obtain ⟨l1, l2, rfl⟩ := List.append_of_mem hx
    have a1 := hnn l1
    have a2 := hnn l2
    have a3 : (0 : Rat) ≤ ((descendants dom x).length : Rat) := by exact_mod_cast Nat.zero_le _
    simp only [List.map_append, List.map_cons, List.sum_append, List.sum_cons] at h
    have : ((descendants dom x).length : Rat) = 0 := by linarith
    exact List.length_eq_zero_iff.1 (by exact_mod_cast this)
  refine ⟨probs_length dom l, ?_, ?_, ?_, ?_⟩
  · intro p hp
    simp only [probs] at hp
    split at hp
    · obtain ⟨w, hw, rfl⟩ := List.mem_map.1 hp
      obtain ⟨x, _, rfl⟩ := List.mem_map.1 hw
      exact div_nonneg (by exact_mod_cast Nat.zero_le _) (hnn l)
    · obtain ⟨x, _, rfl⟩ := List.mem_map.1 hp
      exact div_nonneg (by norm_num) (by exact_mod_cast Nat.zero_le _)
  · simp only [probs]
    split
    · rename_i h
      rw [show (fun x : Rat => x / (l.map fun x => ((descendants dom x).length : Rat)).sum) =
        (fun x : Rat => x * ((l.map fun x => ((descendants dom x).length : Rat)).sum)⁻¹) from by funext x; rw [div_eq_mul_inv],
        List.sum_map_mul_right, List.map_id']
      exact mul_inv_cancel₀ h
    · simp [hlen]
  · intro i j x y p q hi hj hp hq
    simp only [probs] at hp hq
    split at hp
    · rename_i h
      rw [if_pos h] at hq
      simp only [List.getElem?_map, hi, hj, Option.map_some, Option.some.injEq] at hp hq
      subst hp hq
      ring
    · rename_i h
      have h := Classical.not_not.1 h
      rw [hzero h x (List.mem_of_getElem? hi), hzero h y (List.mem_of_getElem? hj)]
      simp
  · intro h p hp
    have hs : (l.map fun x => ((descendants dom x).length : Rat)).sum = 0 := by
      rw [show (l.map fun x => ((descendants dom x).length : Rat)) = l.map fun _ => (0 : Rat) from
        List.map_congr_left fun x hx => by rw [h x hx]; rfl]
      simp
    simp only [probs, hs, ne_eq, not_true_eq_false, if_false] at hp
    obtain ⟨_, _, rfl⟩ := List.mem_map.1 hp
    rfl

/-- The sampled task is the candidate whose index was drawn with those probabilities. -/
theorem C147_sampled (dom : Dom) (luck : Luck) (st : State) (x : TaskId) (l : List TaskId) (hnd : st.remaining.Nodup)
    (hl : Candidates dom st l)
    (h : pileNext dom .sampleMostSuccessors luck st = .ok ⟨some x, .start, some 1, false, none⟩) :
    l[luck.weighted (probs dom l)]? = some x := by
  unfold pileNext at h
  simp only [bind_eq_ok] at h
  obtain ⟨r, h1, h2⟩ := h
  obtain ⟨_, h3, h4⟩ := startable_ok h1
  have hrl : r = l := by
    have hs : r.Sublist st.remaining := h3.trans List.filter_sublist
    have hm : ∀ z, z ∈ r ↔ z ∈ l := fun z => by
      rw [h4 z, hl.2 z, possiblePrecedence_mem]; rfl
    have hp : r.Perm l := (List.perm_ext_iff_of_nodup (hnd.sublist hs) (hnd.sublist hl.1)).2 hm
    have e1 := filter_of_sublist hnd hs
    have e2 := filter_of_sublist hnd hl.1
    rw [e1, e2]
    exact List.filter_congr fun z _ => by simp [hm z]
  subst hrl
  cases r with
  | nil => have := Except.ok.inj h2; simp [pileTime] at this
  | cons x0 rest =>
    simp only [bind_eq_ok, choose] at h2
    obtain ⟨y, h5, h6⟩ := h2
    have h6 := Except.ok.inj h6
    simp only [pileStart, Action.mk.injEq, Option.some.injEq, and_true] at h6
    subst h6
    cases he : (x0 :: rest)[luck.weighted (probs dom (x0 :: rest))]? with
    | none => rw [he] at h5; cases h5
    | some z => rw [he] at h5; cases h5; rfl

/-- When every task has a mode 1 and the indices drawn lie in their lists, the policy answers in every state the domain reaches. -/
theorem C147_total (dom : Dom) (hw : WellFormed dom) (hm : ∀ x ∈ dom.tasks, HasMode dom x 1) (g : Greedy) (luck : Luck)
    (hl : luck.InRange) (st : State) (hS : Safe dom st) : ∃ a, pileNext dom g luck st = .ok a := by
  obtain ⟨r, hr⟩ := startable_def (pile_checks hw hS hm)
  unfold pileNext
  rw [hr, bind_ok]
  cases r with
  | nil => exact ⟨_, rfl⟩
  | cons x rest =>
    obtain ⟨y, _, e⟩ := choose_def hl g x rest (dom := dom)
    exact ⟨pileStart y, by simp only [e, bind_ok]; rfl⟩

/-- In a domain with renewable resources and without preemption, skills and conditional tasks, rolling out the policy with any rule
ends with all tasks complete, without error, after at most `D + 1` steps per task and by time `D` per task, whatever durations up to
`D`, whatever capacities and whatever choices are drawn, as long as every task alone fits the capacities in mode 1.  (Partial: a task
that draws duration zero must need nothing.) -/
theorem C148_finishes_partial (dom : Dom) (D : Nat) (hw : WellFormed dom) (hs : Simple dom)
    (hnd : dom.tasks.Nodup) (hpl : unconditional dom = dom.tasks) (hne : dom.tasks ≠ [])
    (hclosed : ∀ x ∈ dom.tasks, ∀ q ∈ dom.preds x, q ∈ dom.tasks) (g : Greedy) (luck : State → Luck)
    (hl : ∀ st, (luck st).InRange) (draw : State → Action → Draw) (hdr : ∀ st a, FitOneDraw dom D a (draw st a))
    (d0 : Draw) (hd0 : FitsOne dom d0.avail) (hH : (D * dom.tasks.length : Nat) ≤ dom.horizon)
    (n : Nat) (hn : (D + 1) * dom.tasks.length ≤ n) :
    ∃ st, pileFollow dom g luck draw n (initState dom d0) = .ok st ∧ isGoal st = true ∧
      st.t ≤ (D * dom.tasks.length : Nat) ∧ ∀ x ∈ dom.tasks, x ∈ st.complete := by
  have hi := initState_acc dom d0 hnd
  have hrem : (initState dom d0).remaining = dom.tasks := hpl
  have hL : Live dom D (initState dom d0) := by
    refine ⟨initState_safe d0 hnd, hi.1, hi.2.1, ?_, rfl, rfl, ?_, ?_, d0.avail, hd0.roomy, ?_⟩
    · have hn : ∀ (l : List Res) (m : Dict Res Int), m.keys.Nodup →
          (Dict.keys (l.foldl (fun m r => Dict.set m r (d0.avail r)) m)).Nodup := by
        intro l
        induction l with
        | nil => exact fun m h => h
        | cons r l ih => exact fun m h => ih _ (Dict.nodup_keys_set _ _ h)
      have := hn (dom.resTypes ++ dom.resUnits) [] (by simp [Dict.keys])
      show (List.map _ (List.map _ _)).Nodup
      rw [List.map_map]
      exact this
    · intro x hx; cases hx
    · intro x
      simp [allOf, initState]
    · intro r hr
      rw [(initState_get dom d0 r).1, if_pos hr]
  have hg : isGoal (initState dom d0) = false := by
    unfold isGoal
    rw [hrem]
    cases hd : dom.tasks with
    | nil => exact absurd hd hne
    | cons y l => rfl
  have ht0 : (initState dom d0).t = 0 := rfl
  obtain ⟨st, e1, e2, e3, e4⟩ := pile_follow hw hs hpl hclosed g hl hdr n (initState dom d0) 0 hL
    ⟨d0.avail, hd0, fun r hr => by rw [(initState_get dom d0 r).1, if_pos hr]⟩ hg (fun x hx => by cases hx)
    (by rw [hrem, ht0]; omega) (by rw [hrem]; omega)
  rw [hrem, ht0] at e4
  refine ⟨st, e1, e3, by omega, fun y hy => ?_⟩
  simp only [isGoal, Bool.and_eq_true, List.isEmpty_iff] at e3
  have hmem := (e2.all y).2 (by rw [hpl]; exact hy)
  simpa [allOf, e3.1.1, e3.1.2, e3.2] using hmem

/-! ### Examples -/

/-- Draws that take the first of the likeliest tasks and the last task. -/
def exLuck (dom : Dom) : Luck := ⟨fun x => dom.duration x 1, fun ps => ps.findIdx fun p => decide (0 < p), fun n => n - 1⟩

/-- Task 1 has two tasks after it, task 4 none; both can start (two units). -/
example : (descendants anDom 1, descendants anDom 2, descendants anDom 4) = ([2, 3], [3], []) ∧
    probs anDom [4, 1] = [0, 1] ∧ probs anDom [4, 3] = [1 / 2, 1 / 2] := by
  decide +kernel

example : ([.mostSuccessors, .sampleMostSuccessors, .fastest, .totallyRandom] : List Greedy).map (fun g =>
      (pileNext anDom g (exLuck anDom) { initState anDom ⟨0, fun _ => 2⟩ with remaining := [4, 1, 2, 3] }).map (·.task)) =
    [.ok (some 1), .ok (some 1), .ok (some 1), .ok (some 1)] := by
  decide +kernel

/-- With tasks 1 complete and 4 ongoing, task 2 (two units) cannot start. -/
example : pileNext anDom .mostSuccessors (exLuck anDom)
    { initState anDom ⟨0, fun _ => 2⟩ with remaining := [2, 3], complete := [1], ongoing := [4], used := [(0, 1)] } = .ok pileTime := by
  decide +kernel

theorem anDom_fitsOne : FitsOne anDom fun _ => 2 := by
  refine ⟨by simp, ?_⟩
  intro x hx
  have hx : x = 1 ∨ x = 2 ∨ x = 3 ∨ x = 4 := by simpa [anDom] using hx
  rcases hx with rfl | rfl | rfl | rfl <;>
    refine ⟨_, _, rfl, rfl, ?_⟩ <;> decide

example : WellFormed anDom ∧ Simple anDom ∧ unconditional anDom = anDom.tasks ∧ FitsOne anDom (fun _ => 2) ∧
    (∀ x ∈ anDom.tasks, ∀ q ∈ anDom.preds x, q ∈ anDom.tasks) ∧ (5 * anDom.tasks.length : Nat) ≤ anDom.horizon :=
  ⟨anDom_wellFormed, anDom_simple, by decide, anDom_fitsOne, by decide, by decide⟩

/-- Each rule on late durations (task `x` lasts `x + 1`): all finish by time 20. -/
example : ([.mostSuccessors, .sampleMostSuccessors, .fastest, .totallyRandom] : List Greedy).map (fun g =>
      (outcome (pileFollow anDom g (fun _ => exLuck anDom) lateDraw 24 (initState anDom ⟨0, fun _ => 2⟩))).map
        fun o => (o.t, o.left)) = [some (12, []), some (12, []), some (12, []), some (12, [])] := by
  decide +kernel

/-! ### What does not hold -/

/-- A ready task without mode 1 makes the policy raise `KeyError`, for every rule, though the domain offers its start in mode 2. -/
theorem C147_mode_names_refuted :
    let dom : Dom := { anDom with modes := [(1, [(2, .constant [(0, 1)])]), (2, exMode 2), (3, exMode 1), (4, exMode 1)] }
    let st := initState dom ⟨0, fun _ => 2⟩
    (∀ g ∈ ([.mostSuccessors, .sampleMostSuccessors, .fastest, .totallyRandom] : List Greedy),
      pileNext dom g (exLuck dom) st = .error .keyError) ∧
    (actionSpace dom st).map (fun l => l.contains ⟨some 1, .start, some 2, false, none⟩) = .ok true := by
  decide +kernel

/-- A task that fits the capacities only in mode 2 is never started: time passes beyond the horizon, while the list policies that
choose mode 2 finish. -/
theorem C148_other_modes_refuted :
    let dom : Dom := { anDom with modes := [(1, [(1, .constant [(0, 3)]), (2, .constant [(0, 1)])]), (2, exMode 2), (3, exMode 1), (4, exMode 1)] }
    outcome (pileFollow dom .mostSuccessors (fun _ => exLuck dom) lateDraw 40 (initState dom ⟨0, fun _ => 2⟩)) =
      some ⟨21, [1, 2, 3], [(1, none, none), (2, none, none), (3, none, none), (4, some 0, some 5)]⟩ ∧
    (outcome ({ anPol with modes := [(1, 2), (2, 1), (3, 1), (4, 1)] }.follow .ready id 0 0 dom lateDraw 40
      (initState dom ⟨0, fun _ => 2⟩))).map (fun o => (o.t, o.left)) = some (12, []) := by
  decide +kernel

end Verif.Sched
