import Verif.Model.GanttWork
import Verif.Props.GanttLp
/-
C201: what may be added to the program that gives individuals to activities.
-/
namespace Verif.GanttLp
open Verif.Milp

/-- The times from `lo` to before `hi` at which an individual works. -/
def worked (D : Data) (team : Var → Bool) (k : String) (i lo hi : Nat) : Nat :=
  ((D.jobs.filter (fun t => team (k, i, t))).map (fun t =>
    ((List.range hi).filter (fun m => lo ≤ m ∧ (D.time t).1 ≤ m ∧ m < (D.time t).2)).length)).sum

theorem count_range (lo s e : Nat) : ∀ hi, ((List.range hi).filter (fun m => lo ≤ m ∧ s ≤ m ∧ m < e)).length = min hi e - max lo s := by
  intro hi
  induction hi with
  | zero => simp
  | succ n ih =>
    rw [List.range_succ, List.filter_append, List.length_append, ih]
    by_cases h : lo ≤ n ∧ s ≤ n ∧ n < e
    · simp [h]; omega
    · simp [h]; omega

/-- The row and the time worked, for a list of activities. -/
theorem work_sum {D : Data} {p : Program Var} {k : String} {i lo hi : Nat} {team : Var → Bool} {a : Var → Int}
    (ha : ∀ v, v ∈ varsOf p → a v = if team v = true then 1 else 0) (hv : ∀ v, team v = true → v ∈ varsOf p) (hlh : lo ≤ hi)
    {l : List Nat} (ht : ∀ t, t ∈ l → (D.time t).1 ≤ (D.time t).2) :
    ((l.filter (fun t => (k, i, t) ∈ varsOf p ∧
      ((lo ≤ (D.time t).1 ∧ (D.time t).1 ≤ hi) ∨ (lo ≤ (D.time t).2 ∧ (D.time t).2 ≤ hi)))).map (fun t => part D lo hi t * a (k, i, t))).sum ≤
      (((l.filter (fun t => team (k, i, t))).map (fun t =>
        ((List.range hi).filter (fun m => lo ≤ m ∧ (D.time t).1 ≤ m ∧ m < (D.time t).2)).length)).sum : Int) ∧
    ((∀ t, t ∈ l → team (k, i, t) = true → ¬ ((D.time t).1 < lo ∧ hi < (D.time t).2)) →
      ((l.filter (fun t => (k, i, t) ∈ varsOf p ∧
        ((lo ≤ (D.time t).1 ∧ (D.time t).1 ≤ hi) ∨ (lo ≤ (D.time t).2 ∧ (D.time t).2 ≤ hi)))).map (fun t => part D lo hi t * a (k, i, t))).sum =
      (((l.filter (fun t => team (k, i, t))).map (fun t =>
        ((List.range hi).filter (fun m => lo ≤ m ∧ (D.time t).1 ≤ m ∧ m < (D.time t).2)).length)).sum : Int)) := by
  induction l with
  | nil => simp
  | cons t l ih =>
    obtain ⟨ih1, ih2⟩ := ih (fun x hx => ht x (List.mem_cons_of_mem _ hx))
    have hte := ht t (by simp)
    simp only [List.filter_cons]
    by_cases hteam : team (k, i, t) = true
    · have hm := hv _ hteam
      have hav : a (k, i, t) = 1 := by rw [ha _ hm, if_pos hteam]
      have hc := count_range lo (D.time t).1 (D.time t).2 hi
      by_cases hin : (lo ≤ (D.time t).1 ∧ (D.time t).1 ≤ hi) ∨ (lo ≤ (D.time t).2 ∧ (D.time t).2 ≤ hi)
      · have hpart : part D lo hi t = ((min hi (D.time t).2 - max lo (D.time t).1 : Nat) : Int) := by unfold part; omega
        simp only [hm, hin, and_self, decide_true, if_true, hteam, List.map_cons, List.sum_cons, hav, Int.mul_one, hc, hpart, Int.natCast_add]
        refine ⟨by omega, fun hh => ?_⟩
        have := ih2 (fun x hx => hh x (List.mem_cons_of_mem _ hx))
        omega
      · simp only [hin, and_false, decide_false, Bool.false_eq_true, if_false, hteam, if_true, List.map_cons, List.sum_cons, hc, Int.natCast_add]
        refine ⟨by omega, fun hh => ?_⟩
        have := ih2 (fun x hx => hh x (List.mem_cons_of_mem _ hx))
        have hn := hh t (by simp) hteam
        have hz : min hi (D.time t).2 - max lo (D.time t).1 = 0 := by omega
        omega
    · have ih2' : (∀ x, x ∈ t :: l → team (k, i, x) = true → ¬ ((D.time x).1 < lo ∧ hi < (D.time x).2)) → _ :=
        fun hh => ih2 (fun x hx => hh x (List.mem_cons_of_mem _ hx))
      simp only [hteam, Bool.false_eq_true, if_false]
      split
      · next hin =>
        have hm : (k, i, t) ∈ varsOf p := (of_decide_eq_true hin).1
        have hav : a (k, i, t) = 0 := by rw [ha _ hm, if_neg hteam]
        simp only [List.map_cons, List.sum_cons, hav, Int.mul_zero, Int.zero_add]
        exact ⟨ih1, ih2'⟩
      · exact ⟨ih1, ih2'⟩

theorem feasible_append {p : Program Var} {rs : List (Row Var)} {a : Var → Int} :
    Program.Feasible { p with rows := p.rows ++ rs } a ↔ p.Feasible a ∧ ∀ r, r ∈ rs → r.Holds a := by
  unfold Program.Feasible
  simp only [List.mem_append]
  constructor
  · rintro ⟨h1, h2⟩; exact ⟨⟨h1, fun r hr => h2 r (.inl hr)⟩, fun r hr => h2 r (.inr hr)⟩
  · rintro ⟨⟨h1, h2⟩, h3⟩; exact ⟨h1, fun r hr => hr.elim (h2 r) (h3 r)⟩

theorem vars_of_good {D : Data} {cliques : List (List Nat)} {p : Program Var} (hw : WF D) (h : init D cliques = .ok p) {team : Var → Bool}
    (hg : Good D team) : ∀ v, team v = true → v ∈ varsOf p := by
  obtain ⟨vs, hp, _, hm, _⟩ := init_ok hw h
  have : varsOf p = vs := by unfold varsOf; rw [hp]; simp [Function.comp_def]
  rw [this]
  rintro ⟨k, i, t⟩ ht
  obtain ⟨h1, h2, cals, cal, h3, h4, h5⟩ := hg.able k i t ht
  exact (hm _).2 ⟨h1, rfl, cals, h3, h2, cal, h4, h5⟩

/-- C201: a team that works at most `bound` in the interval is not cut off by the bound on working time. -/
theorem C201_work_valid {D : Data} {cliques : List (List Nat)} {p : Program Var} (hw : WF D) (h : init D cliques = .ok p)
    (ht : ∀ t, t ∈ D.jobs → (D.time t).1 ≤ (D.time t).2) {k : String} {i lo hi : Nat} (hlh : lo ≤ hi) {bound : Int} {team : Var → Bool}
    (hg : Good D team) (hp : p.Feasible (fun v => if team v = true then 1 else 0)) (hb : (worked D team k i lo hi : Int) ≤ bound) :
    (addWork D p k i lo hi bound).Feasible (fun v => if team v = true then 1 else 0) := by
  refine feasible_append.2 ⟨hp, ?_⟩
  intro r hr
  rw [List.mem_singleton] at hr
  subst hr
  simp only [Row.Holds, interest, value_map]
  exact Int.le_trans (work_sum (a := fun v => if team v = true then 1 else 0) (fun _ _ => rfl) (vars_of_good hw h hg) hlh ht).1 hb

/-- C201, partial: with a bound on working time, everybody the program allows works at most that long in the interval, unless on an activity that
begins before and ends after it. -/
theorem C201_work_partial {D : Data} {cliques : List (List Nat)} {p : Program Var} (hw : WF D) (hc : Cliques D cliques) (h : init D cliques = .ok p)
    (ht : ∀ t, t ∈ D.jobs → (D.time t).1 ≤ (D.time t).2) {k : String} {i lo hi : Nat} (hlh : lo ≤ hi) {bound : Int} {a : Var → Int}
    (hspan : ∀ t, t ∈ D.jobs → ¬ ((D.time t).1 < lo ∧ hi < (D.time t).2)) (ha : (addWork D p k i lo hi bound).Feasible a) :
    ∃ team, Good D team ∧ (∀ v, v ∈ varsOf p → a v = if team v = true then 1 else 0) ∧ (worked D team k i lo hi : Int) ≤ bound := by
  obtain ⟨hf, hr⟩ := feasible_append.1 ha
  obtain ⟨team, hg, hv⟩ := C200_sound hw hc h hf
  have hv' : ∀ v, v ∈ varsOf p → a v = if team v = true then 1 else 0 := by
    intro v hm
    obtain ⟨⟨w, kd⟩, hw', rfl⟩ := List.mem_map.1 hm
    exact hv w kd hw'
  refine ⟨team, hg, hv', ?_⟩
  have hrow := hr _ (List.mem_singleton.2 rfl)
  simp only [Row.Holds, interest, value_map] at hrow
  have := (work_sum (k := k) (i := i) hv' (vars_of_good hw h hg) hlh ht).2 (fun t htj _ => hspan t htj)
  unfold worked
  omega

/-- C201: an individual that has to do an activity, or must not, and can do it: it does, or does not. -/
theorem C201_tasks {p : Program Var} {l : List (Var × Bool)} {a : Var → Int} :
    (addTasks p l).Feasible a ↔ p.Feasible a ∧ ∀ v b, (v, b) ∈ l → v ∈ p.vars.map Prod.fst → a v = if b then 1 else 0 := by
  unfold addTasks
  rw [feasible_append]
  refine and_congr_right fun _ => ?_
  constructor
  · intro h v b hm hv
    have := h ⟨[(1, v)], .eq, if b then 1 else 0⟩ (List.mem_filterMap.2 ⟨(v, b), hm, if_pos hv⟩)
    simp only [Row.Holds, Lin.value, List.map_cons, List.map_nil, List.sum_cons, List.sum_nil, Int.one_mul, Int.add_zero] at this
    exact this
  · intro h r hr
    obtain ⟨⟨v, b⟩, hm, he⟩ := List.mem_filterMap.1 hr
    simp only at he
    split at he
    · next hv =>
      cases he
      simp only [Row.Holds, Lin.value, List.map_cons, List.map_nil, List.sum_cons, List.sum_nil, Int.one_mul, Int.add_zero]
      exact h v b hm hv
    · cases he

/-- C201: the objective is the number of activities taken from individuals that had them; `KeyError` exactly if one of these is not a variable. -/
theorem C201_objective {p : Program Var} (ignore : List Var) (u : List (Var × Bool)) :
    ((∃ v, (v, true) ∈ u ∧ v ∉ p.vars.map Prod.fst) → objective p ignore u = .error .keyError) ∧
    ((∀ v, (v, true) ∈ u → v ∈ p.vars.map Prod.fst) → ∃ r, objective p ignore u = .ok r ∧
      ∀ a : Var → Int, (∀ v, (v, true) ∈ u → a v = 0 ∨ a v = 1) → r.1 + r.2.value a = ((u.filter (fun x => x.2 = true ∧ a x.1 = 0)).length : Int)) := by
  induction u with
  | nil => exact ⟨by simp, fun _ => ⟨_, rfl, fun a _ => rfl⟩⟩
  | cons x u ih =>
    obtain ⟨v, b⟩ := x
    obtain ⟨ih1, ih2⟩ := ih
    cases b with
    | false =>
      simp only [objective, Bool.false_eq_true, if_false]
      refine ⟨?_, ?_⟩
      · rintro ⟨w, hw, hn⟩
        exact ih1 ⟨w, by simpa using hw, hn⟩
      · intro h
        obtain ⟨r, h1, h2⟩ := ih2 (fun w hw => h w (List.mem_cons_of_mem _ hw))
        refine ⟨r, h1, fun a ha => ?_⟩
        rw [h2 a (fun w hw => ha w (List.mem_cons_of_mem _ hw))]
        simp
    | true =>
      by_cases hv : v ∈ varsOf p
      · simp only [objective, if_true, if_pos hv]
        refine ⟨?_, ?_⟩
        · rintro ⟨w, hw, hn⟩
          rcases List.mem_cons.1 hw with he | hw
          · cases he; exact absurd hv hn
          · rw [ih1 ⟨w, hw, hn⟩]
        · intro h
          obtain ⟨r, h1, h2⟩ := ih2 (fun w hw => h w (List.mem_cons_of_mem _ hw))
          refine ⟨(1 + r.1, (-1, v) :: r.2), by rw [h1], fun a ha => ?_⟩
          have h3 := h2 a (fun w hw => ha w (List.mem_cons_of_mem _ hw))
          rw [value_cons]
          simp only [Bool.decide_and, Bool.decide_eq_true] at h3
          rcases ha v (by simp) with h0 | h0 <;> simp [h0] <;> omega
      · refine ⟨fun _ => by simp only [objective, if_true, if_neg hv], ?_⟩
        intro h
        exact absurd (h v (by simp)) hv

/-- One worker, one activity from 0 to 4. -/
def long : Data :=
  { jobs := [1], time := fun _ => (0, 4), units := [("w", [[true, true, true, true], [false, true, true, true]])], need := fun _ _ => 1 }

/-- C201, refuted: an activity that begins before the interval and ends after it is not counted, so the bound 0 is not kept. -/
theorem C201_work_refuted : ∃ p, init long [[1]] = .ok p ∧ (addWork long p "w" 0 1 3 0).Feasible (fun _ => 1) ∧
    Good long (fun v => v = ("w", 0, 1)) ∧ worked long (fun v => v = ("w", 0, 1)) "w" 0 1 3 = 2 := by
  refine ⟨{ vars := [(("w", 0, 1), .binary)], rows := [⟨[(1, ("w", 0, 1))], .eq, 1⟩, ⟨[(1, ("w", 0, 1))], .le, 1⟩], objective := [] },
    by decide +kernel, feasible_append.2 ⟨⟨?_, ?_⟩, ?_⟩, ⟨?_, ?_, ?_⟩, by decide +kernel⟩
  · intro v k hk
    simp only [List.mem_singleton, Prod.mk.injEq] at hk
    rw [hk.2]
    exact .inr rfl
  · intro r hr
    simp only [List.mem_cons, List.not_mem_nil, or_false] at hr
    rcases hr with rfl | rfl <;> simp [Row.Holds, Lin.value]
  · intro r hr
    rw [List.mem_singleton] at hr
    subst hr
    have : interest long { vars := [(("w", 0, 1), .binary)], rows := [⟨[(1, ("w", 0, 1))], .eq, 1⟩, ⟨[(1, ("w", 0, 1))], .le, 1⟩], objective := [] }
        "w" 0 1 3 = [] := by decide +kernel
    rw [this]
    simp [Row.Holds, Lin.value]
  · intro k i t h
    simp only [decide_eq_true_eq, Prod.mk.injEq] at h
    obtain ⟨rfl, rfl, rfl⟩ := h
    refine ⟨by decide, by decide, _, [true, true, true, true], List.mem_singleton.2 rfl, rfl, ?_⟩
    intro m _ h2
    have : m < 4 := h2
    rcases (by omega : m = 0 ∨ m = 1 ∨ m = 2 ∨ m = 3) with rfl | rfl | rfl | rfl <;> rfl
  · intro k cals t hk ht _
    simp only [long, List.mem_singleton, Prod.mk.injEq] at hk
    obtain ⟨rfl, rfl⟩ := hk
    simp only [long, List.mem_singleton] at ht
    subst ht
    decide +kernel
  · intro k i t t' h1 h2 hne
    simp only [decide_eq_true_eq, Prod.mk.injEq] at h1 h2
    exact absurd (h1.2.2.trans h2.2.2.symm) hne

/-- C201, refuted: that an individual who is not free has to do an activity is silently dropped. -/
theorem C201_tasks_refuted : ∃ p, init long [[1]] = .ok p ∧ (addTasks p [(("w", 1, 1), true)]).Feasible (fun v => if v = ("w", 0, 1) then 1 else 0) := by
  refine ⟨{ vars := [(("w", 0, 1), .binary)], rows := [⟨[(1, ("w", 0, 1))], .eq, 1⟩, ⟨[(1, ("w", 0, 1))], .le, 1⟩], objective := [] },
    by decide +kernel, C201_tasks.2 ⟨⟨?_, ?_⟩, ?_⟩⟩
  · intro v k hk
    simp only [List.mem_singleton, Prod.mk.injEq] at hk
    rw [hk.1, hk.2]
    exact .inr rfl
  · intro r hr
    simp only [List.mem_cons, List.not_mem_nil, or_false] at hr
    rcases hr with rfl | rfl <;> simp [Row.Holds, Lin.value]
  · intro v b hm hv
    simp only [List.mem_singleton, Prod.mk.injEq] at hm
    rw [hm.1] at hv
    simp at hv

/-- C201, refuted: entries to be ignored count all the same. -/
theorem C201_ignore_refuted : ∃ (p : Program Var) (v : Var), init long [[1]] = .ok p ∧ objective p [v] [(v, true)] = .ok (1, [(-1, v)]) :=
  ⟨{ vars := [(("w", 0, 1), .binary)], rows := [⟨[(1, ("w", 0, 1))], .eq, 1⟩, ⟨[(1, ("w", 0, 1))], .le, 1⟩], objective := [] }, ("w", 0, 1),
    by decide +kernel, by decide +kernel⟩

/-- In the shift, worker 0 between 1 and 3. -/
example : (init shift [[1, 2], [2, 3]]).toOption.map (fun p => ((addWork shift p "w" 0 1 3 2).rows.getLast?, interest shift p "w" 1 1 3)) =
    some (some ⟨[(1, ("w", 0, 1)), (2, ("w", 0, 2)), (1, ("w", 0, 3))], .le, 2⟩, [1, 2]) := by decide +kernel
example : worked shift crew "w" 0 1 3 = 1 ∧ worked shift crew "c" 0 1 4 = 3 ∧ ∀ t, t ∈ shift.jobs → ¬ ((shift.time t).1 < 1 ∧ 3 < (shift.time t).2) :=
  ⟨by decide +kernel, by decide +kernel, by decide +kernel⟩
example : (init shift [[1, 2], [2, 3]]).toOption.map (fun p => ((addTasks p [(("w", 0, 1), false), (("w", 2, 1), true), (("w", 1, 2), true)]).rows.drop p.rows.length)) =
    some [⟨[(1, ("w", 0, 1))], .eq, 0⟩, ⟨[(1, ("w", 1, 2))], .eq, 1⟩] := by decide +kernel
example : (init shift [[1, 2], [2, 3]] >>= fun p => objective p [] [(("w", 0, 1), true), (("w", 1, 1), false), (("c", 0, 1), true)]) =
    .ok (2, [(-1, ("w", 0, 1)), (-1, ("c", 0, 1))]) := by decide +kernel
example : (init shift [[1, 2], [2, 3]] >>= fun p => objective p [] [(("w", 2, 1), true)]) = .error .keyError := by decide +kernel

end Verif.GanttLp
