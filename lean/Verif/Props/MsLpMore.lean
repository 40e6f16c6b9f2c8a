import Verif.Props.MsLp
/-
The MILP solver for multi-skill project scheduling: when the program can be built, and instances.
-/
namespace Verif.MsLp
open Verif.Milp Verif.MultiSkill
open Verif.Rcpsp (Mode total dict_get_ok)

theorem allTrue_total (cal : List Bool) : ∀ n t, t + n ≤ cal.length → ∃ b, allTrue cal n t = .ok b := by
  intro n
  induction n with
  | zero => intro t _; exact ⟨true, rfl⟩
  | succ n ih =>
    intro t ht
    unfold allTrue
    have : pyGet cal t = .ok cal[t] := by
      unfold pyGet; rw [List.getElem?_eq_getElem (by omega)]
    rw [this, bind_ok]
    split
    · exact ih (t + 1) (by omega)
    · exact ⟨false, rfl⟩

theorem mapE_total {α β : Type} {f : α → Except PyErr β} {l : List α} (h : ∀ x, x ∈ l → ∃ y, f x = .ok y) : ∃ ys, mapE f l = .ok ys := by
  induction l with
  | nil => exact ⟨[], rfl⟩
  | cons x l ih =>
    obtain ⟨y, hy⟩ := h x (by simp)
    obtain ⟨ys, hys⟩ := ih (fun z hz => h z (List.mem_cons_of_mem _ hz))
    exact ⟨y :: ys, by unfold mapE; rw [hy, bind_ok, hys, bind_ok]⟩

/-- The program is built when every task has a mode, successors are tasks, modes list all resources, capacities are given up to the sum of the
longest durations plus 10, non-renewable resources have a capacity, and workers' calendars reach beyond that time by the longest duration. -/
theorem C155_builds {pb : Problem} (w : Wf pb) (hne : pb.modes ≠ []) (hmode : ∀ k d, pb.modes.get? k = some d → d ≠ [])
    (hsucc : ∀ k ss s, pb.successors.get? k = some ss → s ∈ ss → s ∈ pb.modes.keys)
    (hlist : ∀ k d m md r, pb.modes.get? k = some d → d.get? m = some md → r ∈ pb.resources.keys → ∃ n, md.needs.get? r = some n)
    (hnr : ∀ r, r ∈ pb.nonRenewable → ∃ row, pb.resources.get? r = some row ∧ row ≠ []) :
    ∃ D, maxDuration pb = .ok D ∧ ((∀ r row, pb.resources.get? r = some row → r ∉ pb.nonRenewable → D < row.length) →
      (∀ e emp, pb.employees.get? e = some emp → ∀ k d m md, pb.modes.get? k = some d → d.get? m = some md → D + md.duration ≤ emp.calendar.length) →
      ∃ p, build pb = .ok p) := by
  have hmax : ∀ l : List Nat, l ≠ [] → ∃ x, maxOf l = .ok x := by
    intro l hl
    cases l with
    | nil => exact absurd rfl hl
    | cons x l => exact ⟨_, rfl⟩
  have hD : ∃ D, maxDuration pb = .ok D := by
    unfold maxDuration
    obtain ⟨ds, hds⟩ := mapE_total (f := fun k => maxOf ((modesOf pb k).map (fun q => q.2.duration))) (l := pb.tasks) (by
      intro k hk
      refine hmax _ ?_
      have := hmode k _ (modesOf_get (mem_tasks.1 hk))
      simpa using this)
    exact ⟨_, by rw [hds, bind_ok]⟩
  obtain ⟨D, hD⟩ := hD
  refine ⟨D, hD, fun hcap hcal => ?_⟩
  have hneed : ∀ r, r ∈ pb.resources.keys → ∀ f, ∃ ts, needTerms pb (D + 1) r f = .ok ts := by
    intro r hr f
    unfold needTerms
    obtain ⟨ts, hts⟩ := mapE_total (f := fun k => mapE (fun q => do let n ← (theMode pb k q.1).needs.get r; .ok (n, Var.start k q.1 q.2))
        ((slots pb (D + 1) k).filter (f k))) (l := pb.modes.keys) (by
      intro k hk
      refine mapE_total ?_
      intro q hq
      have hm := (mem_slots.1 (List.mem_filter.1 hq).1).1
      obtain ⟨n, hn⟩ := hlist k _ _ _ r (modesOf_get hk) (theMode_get hm) hr
      exact ⟨_, by rw [dict_get_ok.2 hn, bind_ok]⟩)
    exact ⟨_, by rw [hts, bind_ok]⟩
  unfold build
  rw [hD, bind_ok]
  obtain ⟨x1, h1⟩ := mapE_total (f := fun r => pb.resources.get r) (l := pb.nonRenewable) (by
    intro r hr
    obtain ⟨row, h, _⟩ := hnr r hr
    exact ⟨row, dict_get_ok.2 h⟩)
  rw [h1, bind_ok]
  have hss : ∀ k, k ∈ pb.modes.keys → ∃ ss, pb.successors.get? k = some ss := by
    intro k hk
    have := (w.succ.2 k).2 hk
    rw [← Dict.get?_isSome_iff_mem_keys] at this
    exact Option.isSome_iff_exists.1 this
  have h2 : edges pb = .ok (pb.tasks.map (fun k => ((pb.successors.get? k).getD []).map (fun s => (k, s)))).flatten := by
    unfold edges
    rw [mapE_ok (g := fun k => ((pb.successors.get? k).getD []).map (fun s => (k, s))), bind_ok]
    intro k hk
    obtain ⟨ss, hs⟩ := hss k (mem_tasks.1 hk)
    rw [dict_get_ok.2 hs, bind_ok, hs]; rfl
  rw [h2, bind_ok]
  simp only
  obtain ⟨x3, h3⟩ := mapE_total (f := useRows pb) (l := uses pb (D + 1)) (by
    intro x hx
    obtain ⟨hm, ht, hl, _⟩ := (mem_uses w).1 hx
    obtain ⟨emp, he⟩ := emp_of_level hl
    have := hcal _ _ he x.task _ _ _ (modesOf_get (task_of_mode hm)) (theMode_get hm)
    obtain ⟨b, hb⟩ := allTrue_total emp.calendar (durOf pb x.task x.mode) x.time (by unfold durOf; omega)
    exact ⟨_, by unfold useRows; rw [dict_get_ok.2 he, bind_ok, hb, bind_ok]⟩)
  rw [h3, bind_ok]
  obtain ⟨x4, h4⟩ := mapE_total (f := renewableRow pb (D + 1)) (l := (renewables pb).flatMap (fun r => (List.range (D + 1)).map (fun t => (r, t)))) (by
    rintro ⟨r, t⟩ hq
    simp only [List.mem_flatMap, renewables, List.mem_filter, List.mem_map, List.mem_range, Prod.mk.injEq, Bool.not_eq_true',
      List.contains_eq_mem, decide_eq_false_iff_not] at hq
    obtain ⟨r', ⟨hr, hn⟩, t', ht, rfl, rfl⟩ := hq
    obtain ⟨ts, hts⟩ := hneed r' hr (fun k p => covers p.2 t' (durOf pb k p.1))
    have hr' := hr
    rw [← Dict.get?_isSome_iff_mem_keys] at hr'
    obtain ⟨row, hrow⟩ := Option.isSome_iff_exists.1 hr'
    have := hcap r' row hrow hn
    refine ⟨⟨ts, .le, row[t']⟩, ?_⟩
    unfold renewableRow
    rw [hts, bind_ok, dict_get_ok.2 hrow, bind_ok, pyGet_ok.2 (List.getElem?_eq_getElem (by omega)), bind_ok])
  rw [h4, bind_ok]
  obtain ⟨x5, h5⟩ := mapE_total (f := nonRenewableRow pb (D + 1)) (l := pb.nonRenewable) (by
    intro r hr
    obtain ⟨row, hrow, hne⟩ := hnr r hr
    obtain ⟨ts, hts⟩ := hneed r (by rw [← Dict.get?_isSome_iff_mem_keys, hrow]; rfl) (fun _ _ => true)
    cases row with
    | nil => exact absurd rfl hne
    | cons c row =>
      refine ⟨⟨ts, .le, c⟩, ?_⟩
      unfold nonRenewableRow
      rw [hts, bind_ok, dict_get_ok.2 hrow, bind_ok, pyGet_ok.2 (by rfl), bind_ok])
  rw [h5, bind_ok]
  obtain ⟨x6, h6⟩ := mapE_total (f := precRow pb) (l := (pb.tasks.map (fun k => ((pb.successors.get? k).getD []).map (fun s => (k, s)))).flatten) (by
    intro q hq
    obtain ⟨l, hl, hq⟩ := List.mem_flatten.1 hq
    obtain ⟨k, hk, rfl⟩ := List.mem_map.1 hl
    obtain ⟨s, hs, rfl⟩ := List.mem_map.1 hq
    obtain ⟨ss, hss⟩ := hss k (mem_tasks.1 hk)
    rw [hss] at hs
    exact ⟨_, by unfold precRow; rw [if_pos (hsucc k ss s hss hs)]⟩)
  rw [h6, bind_ok]
  obtain ⟨last, hlast⟩ := hmax pb.modes.keys (by simpa [Dict.keys] using hne)
  rw [hlast, bind_ok]
  exact ⟨_, rfl⟩

/-! ### Instances -/

theorem asg_shape' {pb : Problem} {D : Nat} {pl : Plan} (h1 : ∀ k, k ∈ pb.modes.keys → pl.mode k ∈ (modesOf pb k).keys ∧ pl.start k ≤ D)
    (h2 : ∀ k e s, pl.on k e s = true → k ∈ pb.modes.keys ∧ Fits pb e k (pl.mode k) s) : Shape pb D pl (asg pb pl) :=
  ⟨fun k hk => (h1 k hk).1, fun k hk => (h1 k hk).2, fun _ _ _ => rfl, fun _ _ _ _ => rfl, fun _ _ => rfl, fun _ _ => rfl, fun _ _ => rfl, fun _ _ => rfl, h2⟩

/-- A test of feasibility. -/
def Prog.test (p : Prog) (a : Var → Int) : Bool :=
  p.base.vars.all (fun q => match q.2 with
    | .binary => decide (a q.1 = 0) || decide (a q.1 = 1)
    | .integer lb ub => decide (lb ≤ a q.1) && ub.all (fun u => decide (a q.1 ≤ u))) &&
  p.base.rows.all (fun r => match r.cmp with
    | .le => decide (r.terms.value a ≤ r.rhs)
    | .ge => decide (r.terms.value a ≥ r.rhs)
    | .eq => decide (r.terms.value a = r.rhs)) &&
  p.skill.all (fun l => decide (0 ≤ l.value a))

theorem Prog.test_feasible {p : Prog} {a : Var → Int} (h : p.test a = true) : p.Feasible a := by
  unfold Prog.test at h
  simp only [Bool.and_eq_true, List.all_eq_true] at h
  obtain ⟨⟨h1, h2⟩, h3⟩ := h
  refine ⟨⟨?_, ?_⟩, ?_⟩
  · intro v k hv
    have := h1 _ hv
    cases k with
    | binary => simpa [Kind.Allows] using this
    | integer lb ub =>
      simp only [Bool.and_eq_true, decide_eq_true_eq] at this
      refine ⟨this.1, fun u hu => ?_⟩
      subst hu
      simpa using this.2
  · intro r hr
    have := h2 r hr
    unfold Row.Holds
    revert this
    cases r.cmp <;> simp
  · intro l hl
    simpa using h3 l hl

/-- Tasks 1 (start) and 4 (sink); task 2 needs skill A for one unit of time, or nobody for two units; task 3 needs skill B at level 2. -/
def site : Problem :=
  { skills := ["A", "B"], resources := [("R", List.replicate 14 1)], nonRenewable := [],
    employees := [(10, ⟨[("A", 1), ("B", 1)], List.replicate 20 true⟩), (11, ⟨[("B", 1)], false :: List.replicate 20 true⟩)],
    modes := [(1, [(1, ⟨0, [("R", 0)]⟩)]), (2, [(1, ⟨1, [("R", 1), ("A", 1)]⟩), (2, ⟨2, [("R", 1)]⟩)]), (3, [(1, ⟨1, [("R", 0), ("B", 2)]⟩)]), (4, [(1, ⟨0, [("R", 0)]⟩)])],
    successors := [(1, [2, 3]), (2, [4]), (3, [4]), (4, [])], horizon := 10, multiplier := 1, source := 1, sink := 4, oneUnit := false }

/-- Task 2 by worker 10, then task 3 by both. -/
def sitePlan : Plan where
  mode _ := 1
  start k := if k = 3 then 1 else if k = 4 then 2 else 0
  on k e s := decide ((k, e, s) ∈ [(2, 10, "A"), (3, 10, "B"), (3, 11, "B")])

theorem dict_cases {κ α : Type} [DecidableEq κ] {d : Dict κ α} {P : κ → α → Prop} (h : ∀ q, q ∈ d → P q.1 q.2) : ∀ k v, d.get? k = some v → P k v :=
  fun _ _ hg => h _ (Dict.mem_of_get? hg)

/-- A test of well-formedness. -/
def wfTest (pb : Problem) : Bool :=
  decide pb.resources.keys.Nodup && decide pb.employees.keys.Nodup && pb.employees.all (fun q => decide q.2.skills.keys.Nodup) &&
  pb.modes.all (fun q => decide q.2.keys.Nodup && q.2.all (fun r => decide r.2.needs.keys.Nodup)) && decide pb.modes.keys.Nodup &&
  decide pb.successors.keys.Nodup && pb.successors.keys.all (fun k => pb.modes.keys.contains k) && pb.modes.keys.all (fun k => pb.successors.keys.contains k)

theorem wf_of_test {pb : Problem} (h : wfTest pb = true) : Wf pb := by
  unfold wfTest at h
  simp only [Bool.and_eq_true, List.all_eq_true, decide_eq_true_eq, List.contains_eq_mem] at h
  obtain ⟨⟨⟨⟨⟨⟨⟨h1, h2⟩, h3⟩, h4⟩, h5⟩, h6⟩, h7⟩, h8⟩ := h
  exact ⟨⟨h1, h2, fun w e he => h3 _ (Dict.mem_of_get? he), fun a d k m hd hm => (h4 _ (Dict.mem_of_get? hd)).2 _ (Dict.mem_of_get? hm)⟩, h5,
    fun k d hd => (h4 _ (Dict.mem_of_get? hd)).1, h6, fun k => ⟨h7 k, h8 k⟩⟩

/-- Is the assignment of the plan feasible? -/
def feasibleFor (pb : Problem) (pl : Plan) : Bool := match build pb with
  | .ok p => p.test (asg pb pl)
  | .error _ => false

/-- The program of the instance can be built and the plan is one of its solutions. -/
example : wfTest site = true ∧ (maxDuration site).toOption = some 13 ∧ feasibleFor site sitePlan = true :=
  ⟨by decide +kernel, by decide +kernel, by decide +kernel⟩

/-- It is read as the schedule 0–0, 0–1, 1–2, 2–2 with these workers, which the check accepts. -/
example : (read site 14 (asg site sitePlan)).schedule = [(1, (0, 0)), (2, (0, 1)), (3, (1, 2)), (4, (2, 2))] ∧
    (read site 14 (asg site sitePlan)).usage = [(2, [(10, ["A"])]), (3, [(10, ["B"]), (11, ["B"])])] ∧
    (read site 14 (asg site sitePlan)).modes = [(1, 1), (2, 1), (3, 1), (4, 1)] ∧
    (satisfy site (read site 14 (asg site sitePlan))).toOption = some true :=
  ⟨by decide +kernel, by decide +kernel, by decide +kernel, by decide +kernel⟩

theorem sitePlan_able : ∀ k e s, sitePlan.on k e s = true → k ∈ site.modes.keys ∧ Fits site e k (sitePlan.mode k) s := by
  intro k e s h
  simp only [sitePlan, List.mem_cons, Prod.mk.injEq, List.not_mem_nil, or_false, decide_eq_true_eq] at h
  rcases h with ⟨rfl, rfl, rfl⟩ | ⟨rfl, rfl, rfl⟩ | ⟨rfl, rfl, rfl⟩
  · exact ⟨by decide, by decide +kernel, by decide, 1, by decide +kernel, by decide⟩
  · exact ⟨by decide, by decide +kernel, by decide, 2, by decide +kernel, by decide⟩
  · exact ⟨by decide, by decide +kernel, by decide, 2, by decide +kernel, by decide⟩

/-- The plan is one of those that the program finds. -/
example : Valid site 13 sitePlan := by
  have h : feasibleFor site sitePlan = true := by decide +kernel
  unfold feasibleFor at h
  cases hb : build site with
  | error e => rw [hb] at h; cases h
  | ok p =>
    rw [hb] at h
    have w : Wf site := wf_of_test (by decide +kernel)
    obtain ⟨D, hD⟩ := built w hb
    have h13 : maxDuration site = .ok 13 := by decide +kernel
    rw [hD.max] at h13
    cases h13
    exact ((asg_shape' (by decide +kernel) sitePlan_able).feasible_iff w hD).1 (Prog.test_feasible h)

theorem noted_mem {u : Usage} {k e : Nat} {s : String} (h : Noted u k e s) : ∃ p, p ∈ u ∧ p.1 = k ∧ ∃ q, q ∈ p.2 ∧ q.1 = e ∧ s ∈ q.2 := by
  obtain ⟨us, l, h1, h2, h3⟩ := h
  exact ⟨_, Dict.mem_of_get? h1, rfl, _, Dict.mem_of_get? h2, rfl, h3⟩

/-- The schedule of the plan. -/
def siteSol : Solution :=
  ⟨[(1, 1), (2, 1), (3, 1), (4, 1)], [(1, (0, 0)), (2, (0, 1)), (3, (1, 2)), (4, (2, 2))], [(2, [(10, ["A"])]), (3, [(10, ["B"]), (11, ["B"])])]⟩

/-- It meets the conditions of `C156_makespan_partial`. -/
example : Simple site 13 siteSol ∧ ∀ k us, siteSol.usage.get? k = some us → ∃ s e, siteSol.schedule.get? k = some (s, e) ∧ s < e := by
  have hn : ∀ k e s, Noted siteSol.usage k e s → (k, e, s) ∈ [(2, 10, "A"), (3, 10, "B"), (3, 11, "B")] := by
    intro k e s h
    obtain ⟨p, hp, rfl, q, hq, rfl, hs⟩ := noted_mem h
    have : siteSol.usage.all (fun p => p.2.all (fun q => q.2.all (fun s => decide ((p.1, q.1, s) ∈ [(2, 10, "A"), (3, 10, "B"), (3, 11, "B")])))) = true := by
      decide +kernel
    simp only [List.all_eq_true] at this
    exact of_decide_eq_true (this p hp q hq s hs)
  refine ⟨⟨by decide +kernel, ?_, ?_, ?_, ?_, ?_⟩, ?_⟩
  · intro k hk
    have : k = 1 ∨ k = 2 ∨ k = 3 ∨ k = 4 := by
      have h : site.modes.keys = [1, 2, 3, 4] := by decide
      rw [h] at hk; simpa using hk
    rcases this with rfl | rfl | rfl | rfl
    · exact ⟨0, 1, _, _, by decide, by decide, rfl, rfl⟩
    · exact ⟨0, 1, _, _, by decide, by decide, rfl, rfl⟩
    · exact ⟨1, 1, _, _, by decide, by decide, rfl, rfl⟩
    · exact ⟨2, 1, _, _, by decide, by decide, rfl, rfl⟩
  · intro k p q _ hp hq
    have : siteSol.schedule.all (fun p => siteSol.schedule.all (fun q => decide (q.1 ≠ 4) || (decide (p.2.2 ≤ q.2.2) && decide (q.2.2 ≤ 13)))) = true := by
      decide +kernel
    simp only [List.all_eq_true] at this
    have := this _ (Dict.mem_of_get? hp) _ (Dict.mem_of_get? hq)
    simpa [site] using this
  · intro k us hu
    have : siteSol.usage.all (fun p => decide (p.1 ∈ site.modes.keys) && decide p.2.keys.Nodup) = true := by decide +kernel
    have := List.all_eq_true.1 this _ (Dict.mem_of_get? hu)
    simpa using this
  · intro k e s h
    have := hn k e s h
    simp only [List.mem_cons, Prod.mk.injEq, List.not_mem_nil, or_false] at this
    rcases this with ⟨rfl, rfl, rfl⟩ | ⟨rfl, rfl, rfl⟩ | ⟨rfl, rfl, rfl⟩
    · exact ⟨by decide +kernel, by decide, 1, _, _, 1, by decide, rfl, rfl, by decide, by decide⟩
    · exact ⟨by decide +kernel, by decide, 1, _, _, 2, by decide, rfl, rfl, by decide, by decide⟩
    · exact ⟨by decide +kernel, by decide, 1, _, _, 2, by decide, rfl, rfl, by decide, by decide⟩
  · intro k e s s' h h'
    have h1 := hn k e s h
    have h2 := hn k e s' h'
    simp only [List.mem_cons, Prod.mk.injEq, List.not_mem_nil, or_false] at h1 h2
    rcases h1 with ⟨rfl, rfl, rfl⟩ | ⟨rfl, rfl, rfl⟩ | ⟨rfl, rfl, rfl⟩ <;> simp at h2 <;> exact h2.symm
  · intro k us hu
    have : siteSol.usage.all (fun p => (siteSol.schedule.get? p.1).any (fun q => decide (q.1 < q.2))) = true := by decide +kernel
    have := List.all_eq_true.1 this _ (Dict.mem_of_get? hu)
    obtain ⟨q, h1, h2⟩ := Option.any_eq_true .. |>.1 this
    exact ⟨q.1, q.2, h1, by simpa using h2⟩

/-! ### Where the claims fail -/

/-- Tasks 1, 2 (sink); task 1 needs skills A and B, and worker 7 has both. -/
def duo : Problem :=
  { skills := ["A", "B"], resources := [], nonRenewable := [], employees := [(7, ⟨[("A", 1), ("B", 1)], List.replicate 20 true⟩)],
    modes := [(1, [(1, ⟨1, [("A", 1), ("B", 1)]⟩)]), (2, [(1, ⟨0, []⟩)])], successors := [(1, [2]), (2, [])],
    horizon := 20, multiplier := 1, source := 1, sink := 2, oneUnit := false }

/-- The program has no solution for a task whose skills one worker has together, although the check accepts the schedule in which this worker does the task. -/
theorem C156_two_skills_refuted : (∃ p, build duo = .ok p ∧ ∀ a, ¬ p.Feasible a) ∧
    satisfy duo ⟨[(1, 1), (2, 1)], [(1, (0, 1)), (2, (1, 1))], [(1, [(7, ["A", "B"])])]⟩ = .ok true := by
  constructor
  · have hw : Wf duo := wf_of_test (by decide +kernel)
    have hbb : ∃ p, build duo = .ok p := by
      have : (match build duo with | .ok _ => true | .error _ => false) = true := by decide +kernel
      revert this
      cases build duo with
      | ok p => intro _; exact ⟨p, rfl⟩
      | error e => intro h; cases h
    obtain ⟨p, hp⟩ := hbb
    refine ⟨p, hp, fun a hf => ?_⟩
    obtain ⟨D, pl, hD, v, _⟩ := C155_sound hw hp hf
    have h1 : (1 : Nat) ∈ duo.modes.keys := by decide
    have hm : pl.mode 1 = 1 := by
      have := v.mode 1 h1
      have he : (modesOf duo 1).keys = [1] := by decide
      rw [he] at this
      simpa using this
    have hone : ∀ s, s ∈ duo.skills → (theMode duo 1 1).needs.get? s = some 1 → pl.on 1 7 s = true := by
      intro s hs hn
      have := v.skills 1 s 1 h1 hs (by rw [hm]; exact hn) (by decide)
      apply Classical.byContradiction
      intro hne
      have he : duo.employees.keys = [7] := by decide
      rw [he, List.filter_cons_of_neg (by simpa using hne)] at this
      simp at this
      exact absurd this (by decide +kernel)
    have hA := hone "A" (by decide) (by decide)
    have hB := hone "B" (by decide) (by decide)
    have hr : pl.runs duo (pl.start 1) 1 = true := by
      refine covers_iff.2 ⟨Nat.le_refl _, ?_⟩
      have : pl.dur duo 1 = 1 := by unfold Plan.dur; rw [hm]; decide
      omega
    have := (v.once 7 (pl.start 1) (v.start 1 h1) 1 "A" 1 "B" hA hB hr hr).2
    exact absurd this (by decide)
  · decide +kernel

/-- Tasks 1 and 2 both need skill A; task 2 takes no time; 3 is the sink. -/
def flash : Problem :=
  { skills := ["A"], resources := [], nonRenewable := [], employees := [(7, ⟨[("A", 1)], List.replicate 20 true⟩)],
    modes := [(1, [(1, ⟨2, [("A", 1)]⟩)]), (2, [(1, ⟨0, [("A", 1)]⟩)]), (3, [(1, ⟨0, []⟩)])], successors := [(1, [3]), (2, [3]), (3, [])],
    horizon := 20, multiplier := 1, source := 1, sink := 3, oneUnit := false }

/-- Task 2 in the middle of task 1, by the same worker. -/
def flashPlan : Plan where
  mode _ := 1
  start k := if k = 2 then 1 else if k = 3 then 2 else 0
  on k e s := decide ((k, e, s) ∈ [(1, 7, "A"), (2, 7, "A")])

/-- For tasks that take no time, workers are not kept from doing two things at once: a solution of the program is read as a schedule
that the check rejects. -/
theorem C155_instant_refuted : ∃ p, build flash = .ok p ∧ p.Feasible (asg flash flashPlan) ∧
    (maxDuration flash).toOption = some 12 ∧ (satisfy flash (read flash 13 (asg flash flashPlan))).toOption = some false := by
  have h : feasibleFor flash flashPlan = true := by decide +kernel
  unfold feasibleFor at h
  cases hb : build flash with
  | error e => rw [hb] at h; cases h
  | ok p =>
    rw [hb] at h
    exact ⟨p, rfl, Prog.test_feasible h, by decide +kernel, by decide +kernel⟩

/-- One task of one unit of time, needing skill A at level 2, and two workers; at most one worker per task. -/
def pair : Problem :=
  { skills := ["A"], resources := [], nonRenewable := [], employees := [(7, ⟨[("A", 1)], List.replicate 20 true⟩), (8, ⟨[("A", 1)], List.replicate 20 true⟩)],
    modes := [(1, [(1, ⟨1, [("A", 2)]⟩)]), (2, [(1, ⟨0, []⟩)])], successors := [(1, [2]), (2, [])],
    horizon := 20, multiplier := 1, source := 1, sink := 2, oneUnit := true }

def pairPlan : Plan where
  mode _ := 1
  start k := if k = 2 then 1 else 0
  on k e s := decide ((k, e, s) ∈ [(1, 7, "A"), (1, 8, "A")])

/-- The limit of one worker per task (`one_unit_per_task_max`) is not part of the program: a solution uses two workers for one task. -/
theorem C155_one_worker_refuted : pair.oneUnit = true ∧ ∃ p, build pair = .ok p ∧ p.Feasible (asg pair pairPlan) ∧
    (maxDuration pair).toOption = some 11 ∧ (read pair 12 (asg pair pairPlan)).usage = [(1, [(7, ["A"]), (8, ["A"])])] := by
  refine ⟨rfl, ?_⟩
  have h : feasibleFor pair pairPlan = true := by decide +kernel
  unfold feasibleFor at h
  cases hb : build pair with
  | error e => rw [hb] at h; cases h
  | ok p =>
    rw [hb] at h
    exact ⟨p, rfl, Prog.test_feasible h, by decide +kernel, by decide +kernel⟩

/-- The instance with calendars as long as the horizon, which is enough for generating schedules. -/
def shortDays : Problem := { pair with employees := [(7, ⟨[("A", 2)], List.replicate 5 true⟩)], horizon := 4, oneUnit := false }

/-- A worker's calendar that ends with the horizon makes the construction of the program raise `IndexError`, although a schedule is
generated. -/
theorem C155_calendar_refuted : (match build shortDays with | .error .indexError => true | _ => false) = true ∧
    (sgs shortDays [] [] [[7], [7]]).map (·.schedule) = .ok [(1, (0, 1)), (2, (1, 1))] ∧
    (sgs shortDays [] [] [[7], [7]]).map (·.feasible) = .ok true :=
  ⟨by decide +kernel, by decide +kernel, by decide +kernel⟩

/-- The conditions of `C155_accepted_partial` hold for the instance with workers 10 and 11. -/
example : ∀ p, build site = .ok p → ∀ a, p.Feasible a → satisfy site (read site 14 a) = .ok true := by
  intro p hp a hf
  refine C155_accepted_partial (D := 13) (wf_of_test (by decide +kernel)) hp hf (by decide +kernel) ?_ (by decide) ?_ ?_ ?_ ?_
  · intro k d m md r hd hm hr
    have : site.modes.all (fun q => q.2.all (fun z => site.resources.keys.all (fun r => (z.2.needs.get? r).isSome))) = true := by decide +kernel
    simp only [List.all_eq_true] at this
    exact Option.isSome_iff_exists.1 (this _ (Dict.mem_of_get? hd) _ (Dict.mem_of_get? hm) r hr)
  · intro d m md hd hm
    have : site.modes.all (fun q => decide (q.1 ≠ 4) || q.2.all (fun z => decide (z.2.duration = 0))) = true := by decide +kernel
    simp only [List.all_eq_true] at this
    have := this _ (Dict.mem_of_get? hd)
    simp only [site, ne_eq, not_true_eq_false, decide_false, Bool.false_or, List.all_eq_true, decide_eq_true_eq] at this
    exact this _ (Dict.mem_of_get? hm)
  · intro k d m md s n hd hm hs hn hp
    have : site.modes.all (fun q => q.2.all (fun z => decide (0 < z.2.duration) || z.2.needs.all (fun y => !site.skills.contains y.1))) = true := by decide +kernel
    simp only [List.all_eq_true] at this
    have := this _ (Dict.mem_of_get? hd) _ (Dict.mem_of_get? hm)
    rcases Bool.or_eq_true_iff.1 this with h | h
    · simpa using h
    · have := List.all_eq_true.1 h _ (Dict.mem_of_get? hn)
      simp only [Bool.not_eq_true', List.contains_eq_mem, decide_eq_false_iff_not] at this
      exact absurd hs this
  · intro k d m md r n _ _ hr; cases hr
  · intro r row t hr; cases hr

end Verif.MsLp
