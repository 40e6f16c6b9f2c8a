import Verif.Lemmas.CpRcpsp

/-!
C181: the constraint program of projects with one mode.
-/
namespace Verif.CpRcpsp
open Rcpsp Milp Robust

/-- Start of an activity in a schedule. -/
def startIn (sch : Dict Nat (Int × Int)) (a : Nat) : Int := ((sch.get? a).map Prod.fst).getD 0

theorem startIn_eq {pb : Problem} {s : List Int} {sch : Dict Nat (Int × Int)} (h : retrieve pb s = .ok sch) {i : Nat}
    (hi : i < s.length) : startIn sch (i + 1) = el s i := by
  obtain ⟨d, -, e2⟩ := (retrieve_spec h).2 i s[i] (List.getElem?_eq_getElem hi)
  rw [startIn, e2, el_of (List.getElem?_eq_getElem hi)]; rfl

/-- C181: every solution of the constraint program is retrieved as a schedule of all activities that keeps the precedences
and capacities of the project, starts at 0 or later, and ends by the objective. -/
theorem C181_sound {pb : Problem} {D : Single} {s : List Int} {obj : Int} {sch : Dict Nat (Int × Int)} (hn : Numbered pb)
    (h : single pb = .ok D) (hs : Solves D s obj) (hr : retrieve pb s = .ok sch)
    (hcap : ∀ r c, pb.resources.get? r = some (.const c) → 0 ≤ c)
    (hsuc : ∀ a l b, pb.successors.get? a = some l → b ∈ l → 1 ≤ b ∧ b ≤ pb.modes.length)
    (hkeys : ∀ a l, pb.successors.get? a = some l → 1 ≤ a ∧ a ≤ pb.modes.length) :
    sch.keys = List.range' 1 pb.modes.length ∧ (∀ a x y, sch.get? a = some (x, y) → 0 ≤ x ∧ ∃ d, durOf pb a 1 = some d ∧ y = x + d) ∧
      Valid pb (fun _ => 1) (startIn sch) ∧
      ∀ a x y, sch.get? a = some (x, y) → pb.successors.get? a = some [] → y ≤ obj := by
  have hd := single_data hn h
  obtain ⟨k1, k2⟩ := retrieve_spec hr
  have hlen : s.length = pb.modes.length := hs.len.trans hd.n
  have hst : ∀ i, i < D.d.length → startIn sch (i + 1) = el s i := fun i hi => startIn_eq hr (by rw [hs.len]; exact hi)
  have hin : ∀ a p, sch.get? a = some p → ∃ i, i < D.d.length ∧ a = i + 1 ∧ ∃ d, durOf pb (i + 1) 1 = some d ∧ p = (el s i, el s i + d) := by
    intro a p hp
    have hm : a ∈ sch.keys := (Dict.get?_isSome_iff_mem_keys _ _).1 (by rw [hp]; rfl)
    rw [k1, List.mem_range'_1] at hm
    obtain ⟨i, rfl⟩ : ∃ i, a = i + 1 := ⟨a - 1, by omega⟩
    have hi : i < s.length := by omega
    obtain ⟨d, e1, e2⟩ := k2 i s[i] (List.getElem?_eq_getElem hi)
    rw [e2] at hp
    refine ⟨i, by rw [← hs.len]; exact hi, rfl, d, e1, ?_⟩
    rw [el_of (List.getElem?_eq_getElem hi)]
    exact (Option.some.inj hp).symm
  refine ⟨by rw [k1, hlen], ?_, ⟨?_, ?_⟩, ?_⟩
  · intro a x y hxy
    obtain ⟨i, hi, rfl, d, e1, e2⟩ := hin a _ hxy
    obtain ⟨rfl, rfl⟩ := Prod.mk.inj e2
    exact ⟨(hs.times i hi).1, d, e1, rfl⟩
  · intro a l b hl hb
    obtain ⟨ha1, ha2⟩ := hkeys a l hl
    obtain ⟨hb1, hb2⟩ := hsuc a l b hl hb
    obtain ⟨i, rfl⟩ : ∃ i, a = i + 1 := ⟨a - 1, by omega⟩
    obtain ⟨j, rfl⟩ : ∃ j, b = j + 1 := ⟨b - 1, by omega⟩
    have hi : i < D.d.length := by rw [hd.n]; omega
    have hj : j < D.d.length := by rw [hd.n]; omega
    rw [hst i hi, hst j hj, hd.dur i hi, Option.getD_some]
    have hsu := hd.suc i hi
    rw [hl] at hsu
    have := hs.prec i hi (j + 1) (by rw [← Option.some.inj hsu]; exact hb)
    simpa using this
  · intro r c hc t
    obtain ⟨k, hk⟩ := List.mem_iff_getElem?.1 (Dict.mem_of_get? hc)
    have hkl : k < D.rc.length := by
      rw [hd.nres]
      by_contra hge
      rw [List.getElem?_eq_none (by omega)] at hk; cases hk
    have hrc : c = el D.rc k := by
      have := hd.cap k _ hk
      exact Capacity.const.inj this
    have e := required_eq hn hd (start := startIn sch) hk t
    rw [e]
    have e1 : (List.range D.d.length).filter (fun i => decide (startIn sch (i + 1) ≤ t ∧ t < startIn sch (i + 1) + el D.d i)) =
        (List.range D.d.length).filter (fun i => decide (el s i ≤ t ∧ t < el s i + el D.d i)) :=
      List.filter_congr (fun i hi => by rw [hst i (List.mem_range.1 hi)])
    rw [e1]
    refine le_trans (sum_filter_pos (r := el2 D.rr k) (Q := fun i => decide (el2 D.rr k i > 0 ∧ el D.d i > 0)) _ (by
      intro i _ hP hQ
      simp only [decide_eq_true_eq, decide_eq_false_iff_not] at hP hQ
      by_contra hc
      exact hQ ⟨by omega, by omega⟩)) ?_
    show (((rTasks D k).filter _).map _).sum ≤ c
    have hpos : ∀ i ∈ rTasks D k, 0 ≤ el2 D.rr k i := by
      intro i hi
      have := (List.mem_filter.1 hi).2
      simp only [decide_eq_true_eq] at this
      omega
    by_cases hcum : rTasks D k ≠ [] ∧ ((rTasks D k).map (el2 D.rr k)).sum > el D.rc k
    · rw [hrc]
      exact hs.cumulative k hkl hcum t
    · by_cases hnil : rTasks D k = []
      · rw [hnil]; simpa using hcap r c hc
      · have : ((rTasks D k).map (el2 D.rr k)).sum ≤ el D.rc k := by
          by_contra hgt
          exact hcum ⟨hnil, by omega⟩
        have h2 := (sum_filter_nonneg (P := fun i => decide (el s i ≤ t ∧ t < el s i + el D.d i)) _ hpos).1
        omega
  · intro a x y hxy hnil
    obtain ⟨i, hi, rfl, d, e1, e2⟩ := hin a _ hxy
    obtain ⟨rfl, rfl⟩ := Prod.mk.inj e2
    have hsu := hd.suc i hi
    rw [hnil] at hsu
    have := hs.ends i hi (Option.some.inj hsu).symm
    have e3 := hd.dur i hi
    rw [e1] at e3
    rw [Option.some.inj e3]
    exact this

/-- C181 (partial: starts below the sum of the durations): starting times that keep the precedences and capacities of
the project solve the program, with every objective between their makespan and the sum of the durations, when
activities without duration require nothing.  So an optimal solution of the program is no longer than these. -/
theorem C181_complete_partial {pb : Problem} {D : Single} {start : Nat → Int} {obj : Int} (hn : Numbered pb)
    (h : single pb = .ok D) (hv : Valid pb (fun _ => 1) start)
    (hcap : ∀ r c, pb.resources.get? r = some (.const c) → 0 ≤ c) (hneed : ∀ a k r x, needOf pb a k r = some x → 0 ≤ x)
    (hzero : ∀ a r x, durOf pb a 1 = some 0 → needOf pb a 1 r = some x → x = 0)
    (hsuc : ∀ a l b, pb.successors.get? a = some l → b ∈ l → 1 ≤ b ∧ b ≤ pb.modes.length)
    (h0 : ∀ a, 1 ≤ a → a ≤ pb.modes.length → 0 ≤ start a ∧ start a < tMax D) (hobj : 0 ≤ obj ∧ obj ≤ tMax D)
    (hend : ∀ a d, pb.successors.get? a = some [] → durOf pb a 1 = some d → start a + d ≤ obj) :
    Solves D ((List.range D.d.length).map (fun i => start (i + 1))) obj := by
  have hd := single_data hn h
  have hel : ∀ i, i < D.d.length → el ((List.range D.d.length).map (fun i => start (i + 1))) i = start (i + 1) := by
    intro i hi
    exact el_of (by simp [hi])
  have hdn : ∀ i, i < D.d.length → 0 ≤ el D.d i := by
    intro i hi
    have := hd.dur i hi
    simp only [durOf, Option.map_eq_some_iff] at this
    obtain ⟨m, -, hm⟩ := this
    omega
  -- what is there of each resource
  have hres : ∀ r, r < D.rc.length → ∃ p, pb.resources[r]? = some p ∧ pb.resources.get? p.1 = some (.const (el D.rc r)) := by
    intro r hr
    rw [hd.nres] at hr
    refine ⟨_, List.getElem?_eq_getElem hr, ?_⟩
    have hc := hd.cap r _ (List.getElem?_eq_getElem hr)
    rw [← hc]
    exact Dict.get?_of_mem hn.res (List.getElem_mem hr)
  have hload : ∀ r, r < D.rc.length → ∀ t, (((List.range D.d.length).filter
      (fun i => decide (start (i + 1) ≤ t ∧ t < start (i + 1) + el D.d i))).map (el2 D.rr r)).sum ≤ el D.rc r := by
    intro r hr t
    obtain ⟨p, hp, hg⟩ := hres r hr
    rw [← required_eq hn hd hp t]
    exact hv.res p.1 _ hg t
  have hrr : ∀ r, r < D.rc.length → ∀ i, i < D.d.length → 0 ≤ el2 D.rr r i ∧ (el D.d i = 0 → el2 D.rr r i = 0) := by
    intro r hr i hi
    obtain ⟨p, hp, hg⟩ := hres r hr
    have e := hd.need r p hp i hi
    refine ⟨hneed _ _ _ _ e, fun hz => hzero (i + 1) p.1 _ ?_ e⟩
    rw [hd.dur i hi, hz]
  have hone : ∀ r, r < D.rc.length → ∀ i, i < D.d.length → el2 D.rr r i ≤ el D.rc r := by
    intro r hr i hi
    obtain ⟨hn1, hn2⟩ := hrr r hr i hi
    by_cases hz : el D.d i = 0
    · obtain ⟨p, hp, hg⟩ := hres r hr
      have := hcap _ _ hg
      have := hn2 hz
      omega
    · have := hdn i hi
      refine le_trans ?_ (hload r hr (start (i + 1)))
      refine single_le_sum (r := el2 D.rr r) ?_ i ?_
      · intro j hj
        exact (hrr r hr j (List.mem_range.1 (List.mem_filter.1 hj).1)).1
      · rw [List.mem_filter, List.mem_range]
        exact ⟨hi, by simp only [decide_eq_true_eq]; omega⟩
  refine ⟨by simp, ?_, hobj, ?_, ?_, ?_, ?_, ?_⟩
  · intro i hi
    rw [hel i hi]
    have := h0 (i + 1) (by omega) (by rw [← hd.n]; omega)
    omega
  · intro i hi j hj
    have hb := hsuc _ _ j (hd.suc i hi) hj
    obtain ⟨k, rfl⟩ : ∃ k, j = k + 1 := ⟨j - 1, by omega⟩
    have hp := hv.prec (i + 1) _ (k + 1) (hd.suc i hi) hj
    rw [hd.dur i hi, Option.getD_some] at hp
    rw [hel i hi, Nat.add_sub_cancel, hel k (by rw [hd.n]; omega)]
    exact hp
  · rintro i j hij hj ⟨r, hr, hgt⟩
    have hi : i < D.d.length := by omega
    rw [hel i hi, hel j hj]
    by_contra hc
    have h1 := hdn i hi
    have h2 := hdn j hj
    obtain ⟨a1, a2⟩ := hrr r hr i hi
    obtain ⟨b1, b2⟩ := hrr r hr j hj
    by_cases hz : el D.d i = 0
    · have := hone r hr j hj; have := a2 hz; omega
    by_cases hz' : el D.d j = 0
    · have := hone r hr i hi; have := b2 hz'; omega
    have hl := hload r hr (max (start (i + 1)) (start (j + 1)))
    have := pair_le_sum (r := el2 D.rr r) (l := (List.range D.d.length).filter
      (fun k => decide (start (k + 1) ≤ max (start (i + 1)) (start (j + 1)) ∧ max (start (i + 1)) (start (j + 1)) < start (k + 1) + el D.d k)))
      (fun k hk => (hrr r hr k (List.mem_range.1 (List.mem_filter.1 hk).1)).1)
      i (by rw [List.mem_filter, List.mem_range]; exact ⟨hi, by simp only [decide_eq_true_eq]; omega⟩)
      j (by rw [List.mem_filter, List.mem_range]; exact ⟨hj, by simp only [decide_eq_true_eq]; omega⟩) (by omega)
    omega
  · intro r hr i hi _
    exact hone r hr i hi
  · intro r hr _ t
    have e1 : (rTasks D r).filter (fun i => decide (el ((List.range D.d.length).map (fun i => start (i + 1))) i ≤ t ∧
        t < el ((List.range D.d.length).map (fun i => start (i + 1))) i + el D.d i)) =
        ((List.range D.d.length).filter (fun i => decide (start (i + 1) ≤ t ∧ t < start (i + 1) + el D.d i))).filter
          (fun i => decide (el2 D.rr r i > 0 ∧ el D.d i > 0)) := by
      unfold rTasks
      rw [List.filter_filter, List.filter_filter]
      refine List.filter_congr (fun i hi => ?_)
      rw [hel i (List.mem_range.1 hi), Bool.and_comm]
    rw [e1]
    refine le_trans (sum_filter_nonneg _ ?_).1 (hload r hr t)
    intro i hi
    exact (hrr r hr i (List.mem_range.1 (List.mem_filter.1 hi).1)).1
  · intro i hi hnil
    rw [hel i hi]
    exact hend (i + 1) _ (by rw [hd.suc i hi, hnil]) (hd.dur i hi)

/-- The program of `trio 2`. -/
def trioData : Single := ⟨[2], [0, 2, 2, 1, 0], [[0, 1, 1, 2, 0]], (trio 2).successors.map Prod.snd⟩

theorem trio_single : single (trio 2) = .ok trioData := by decide +kernel

theorem trio_numbered : Numbered (trio 2) := ⟨by decide, by decide⟩

theorem trio_suc : ∀ a l b, (trio 2).successors.get? a = some l → b ∈ l → 1 ≤ b ∧ b ≤ (trio 2).modes.length := by
  intro a l b h hb
  have : ∀ q ∈ (trio 2).successors, ∀ b ∈ q.2, 1 ≤ b ∧ b ≤ (trio 2).modes.length := by decide +kernel
  exact this _ (Dict.mem_of_get? h) b hb

theorem trio_cap : ∀ r c, (trio 2).resources.get? r = some (.const c) → 0 ≤ c := by
  intro r c h
  have h := Dict.mem_of_get? h
  have h : (r, Capacity.const c) = ("R1", .const 2) := by simpa [trio] using h
  cases h; decide

theorem trio_solves : Solves trioData ((List.range trioData.d.length).map (fun i => sideBySide (i + 1))) 3 := by
  refine C181_complete_partial trio_numbered trio_single trio_valid trio_cap (trio_nonneg 2) ?_ trio_suc ?_ (by decide) ?_
  · intro a r x h1 h2
    have hall : ∀ q ∈ (trio 2).modes, ∀ p ∈ q.2, p.2.duration = 0 → ∀ n ∈ p.2.needs, n.2 = 0 := by decide +kernel
    unfold durOf at h1
    unfold needOf at h2
    cases hg : ((trio 2).modes.get? a).bind (fun ms => ms.get? 1) with
    | none => rw [hg] at h1; cases h1
    | some m =>
      rw [hg] at h1 h2
      obtain ⟨ms, h3, h4⟩ := Option.bind_eq_some_iff.1 hg
      have h1 : m.duration = 0 := by simpa using h1
      exact hall _ (Dict.mem_of_get? h3) _ (Dict.mem_of_get? h4) h1 _ (Dict.mem_of_get? h2)
  · intro a h1 h2
    have h2 : a ≤ 5 := h2
    have : ∀ a ∈ [1, 2, 3, 4, 5], 0 ≤ sideBySide a ∧ sideBySide a < tMax trioData := by decide +kernel
    exact this a (by simp; omega)
  · intro a d h1 h2
    have : ∀ q ∈ (trio 2).successors, q.2 = [] → sideBySide q.1 + (durOf (trio 2) q.1 1).getD 0 ≤ 3 := by decide +kernel
    have := this _ (Dict.mem_of_get? h1) rfl
    rw [h2] at this
    exact this

example : ∃ sch, retrieve (trio 2) [0, 0, 0, 2, 3] = .ok sch ∧ Valid (trio 2) (fun _ => 1) (startIn sch) := by
  have ⟨sch, h, _⟩ := okAnd_spec (e := retrieve (trio 2) [0, 0, 0, 2, 3]) (p := fun _ => true) (by decide +kernel)
  refine ⟨sch, h, (C181_sound trio_numbered trio_single (s := [0, 0, 0, 2, 3]) trio_solves h trio_cap trio_suc ?_).2.2.1⟩
  intro a l hl
  have : ∀ q ∈ (trio 2).successors, 1 ≤ q.1 ∧ q.1 ≤ (trio 2).modes.length := by decide +kernel
  exact this _ (Dict.mem_of_get? hl)

/-- One activity between source and sink. -/
def lone : Problem := ⟨[("R1", .const 1)], [], [(1, one 0 0), (2, one 3 1), (3, one 0 0)], [(1, [2]), (2, [3]), (3, [])], 20, 1⟩

/-- C181 refuted: starts are below the sum of the durations, also that of the sink, so the program of a project whose
activities follow each other (here one activity) has no solution; the project has a schedule. -/
theorem C181_chain_refuted : Numbered lone ∧ (∃ D, single lone = .ok D ∧ ∀ s obj, ¬ Solves D s obj) ∧
    (sgs lone [0] [1]).map (fun r => (r.feasible, r.schedule)) = .ok (true, [(1, (0, 0)), (2, (0, 3)), (3, (3, 3))]) := by
  refine ⟨⟨by decide, by decide⟩, ⟨⟨[1], [0, 3, 0], [[0, 1, 0]], [[2], [3], []]⟩, by decide +kernel, ?_⟩, by decide +kernel⟩
  intro s obj hs
  have h1 := (hs.times 1 (by decide)).1
  have h2 := (hs.times 2 (by decide)).2
  have h3 := hs.prec 1 (by decide) 3 (by decide)
  have e1 : tMax ⟨[1], [0, 3, 0], [[0, 1, 0]], [[2], [3], []]⟩ = 3 := by decide
  have e2 : el [0, 3, 0] 1 = 3 := by decide
  simp only [e1, e2] at h2 h3
  simp only [Nat.reduceSub] at h3
  omega

/-- A milestone that requires both units beside a long activity that requires one. -/
def milestone : Problem := ⟨[("R1", .const 2)], [],
  [(1, one 0 0), (2, one 1 1), (3, one 0 2), (4, one 1 1), (5, one 3 1), (6, one 0 0)],
  [(1, [2, 5]), (2, [3]), (3, [4]), (4, [6]), (5, [6]), (6, [])], 20, 1⟩

/-- C181 refuted: activities without duration use no resource in schedules of the project, the program keeps them off
all activities they have no room beside; its optimum is longer than a schedule of the project. -/
theorem C181_milestone_refuted : Numbered milestone ∧ (∃ D, single milestone = .ok D ∧ ∀ s obj, Solves D s obj → 4 ≤ obj) ∧
    (sgs milestone [0, 1, 2, 3] [1, 1, 1, 1]).map (fun r => (r.feasible, r.schedule.get? 6)) = .ok (true, some (3, 3)) := by
  refine ⟨⟨by decide, by decide⟩, ⟨⟨[2], [0, 1, 0, 1, 3, 0], [[0, 1, 2, 1, 1, 0]], [[2, 5], [3], [4], [6], [6], []]⟩, by decide +kernel, ?_⟩,
    by decide +kernel⟩
  intro s obj hs
  have h1 := (hs.times 1 (by decide)).1
  have h4 := (hs.times 4 (by decide)).1
  have p1 := hs.prec 1 (by decide) 3 (by decide)
  have p2 := hs.prec 2 (by decide) 4 (by decide)
  have p3 := hs.prec 3 (by decide) 6 (by decide)
  have p4 := hs.prec 4 (by decide) 6 (by decide)
  have p5 := hs.ends 5 (by decide) (by decide)
  have ap := hs.apart 2 4 (by decide) (by decide) ⟨0, by decide, by decide⟩
  have e1 : el [0, 1, 0, 1, 3, 0] 1 = 1 := by decide
  have e2 : el [0, 1, 0, 1, 3, 0] 2 = 0 := by decide
  have e3 : el [0, 1, 0, 1, 3, 0] 3 = 1 := by decide
  have e4 : el [0, 1, 0, 1, 3, 0] 4 = 3 := by decide
  have e5 : el [0, 1, 0, 1, 3, 0] 5 = 0 := by decide
  simp only [e1, e2, e3, e4, e5, Nat.reduceSub] at p1 p2 p3 p4 p5 ap
  omega

/-- C181: exceptions.  Projects with calendars raise `TypeError`; activities without mode 1 raise `KeyError`; partial
solutions raise `AttributeError` whenever the program can be made. -/
theorem C181_exceptions {pb : Problem} :
    (∀ r l, (r, Capacity.calendar l) ∈ pb.resources → single pb = .error .typeError) ∧
    ((∀ p ∈ pb.resources, ∃ c, p.2 = .const c) → (∃ a ∈ pb.modes.keys, durOf pb a 1 = none) → single pb = .error .keyError) ∧
    ∀ p D, single pb = .ok D → singleFrom pb (some p) = .error .attributeError := by
  refine ⟨?_, ?_, ?_⟩
  · intro r l hm
    unfold single
    rw [mapE_error (e := .typeError) (f := fun p : String × Capacity => number p.2) (by
      intro x e' hx
      unfold number at hx
      split at hx
      · cases hx
      · exact (Except.error.inj hx).symm) ⟨(r, .calendar l), hm, rfl⟩]
    rfl
  · rintro hc ⟨a, ha, hd⟩
    obtain ⟨rc, hrc⟩ := mapE_total (f := fun p : String × Capacity => number p.2) (l := pb.resources) (by
      intro p hp
      obtain ⟨c, e⟩ := hc p hp
      exact ⟨c, by rw [e]; rfl⟩)
    unfold single
    rw [hrc, bind_ok]
    have hget : ∀ {κ α : Type} [DecidableEq κ] (d : Dict κ α) (k : κ) (e' : PyErr), d.get k = .error e' → e' = .keyError := by
      intro κ α _ d k e' h
      unfold Dict.get at h
      split at h
      · cases h
      · exact (Except.error.inj h).symm
    rw [mapE_error (e := .keyError) (l := tasks pb) (f := fun t => do
      let m ← modeAt pb t 1
      .ok (m.duration : Int)) ?_ ⟨a, ?_, ?_⟩]
    · rfl
    · intro t e' h
      unfold modeAt at h
      cases hg : pb.modes.get t with
      | error e => rw [hg] at h; rw [hget _ _ _ hg] at h; exact (Except.error.inj h).symm
      | ok ms =>
        rw [hg, bind_ok] at h
        cases hg2 : ms.get 1 with
        | error e => rw [hg2] at h; rw [hget _ _ _ hg2] at h; exact (Except.error.inj h).symm
        | ok m => rw [hg2, bind_ok] at h; cases h
    · exact mem_sortBy.2 ha
    · unfold modeAt
      unfold durOf at hd
      cases hg : pb.modes.get? a with
      | none =>
        have := (Dict.get?_isSome_iff_mem_keys pb.modes a).2 ha
        rw [hg] at this; cases this
      | some ms =>
        rw [get_of hg, bind_ok]
        rw [hg] at hd
        cases hg2 : ms.get? 1 with
        | none =>
          have : ms.get 1 = .error .keyError := by unfold Dict.get; rw [hg2]
          rw [this]; rfl
        | some m => rw [Option.bind_some, hg2] at hd; cases hd
  · intro p D h
    unfold singleFrom
    rw [h, bind_ok]

example : single ⟨[("R1", .calendar [1, 1])], [], [(1, one 0 0), (2, one 0 0)], [(1, [2]), (2, [])], 20, 1⟩ = .error .typeError :=
  C181_exceptions.1 "R1" [1, 1] (by simp)

example : single ⟨[("R1", .const 1)], [], [(1, one 0 0), (2, [(2, ⟨1, [("R1", 1)]⟩)])], [(1, [2]), (2, [])], 20, 1⟩ = .error .keyError :=
  C181_exceptions.2.1 (by intro p hp; exact ⟨1, by simp at hp; rw [hp]⟩) ⟨2, by decide, by decide⟩

example : singleFrom lone (some ⟨none, none, none, none, none⟩) = .error .attributeError :=
  C181_exceptions.2.2 _ ⟨[1], [0, 3, 0], [[0, 1, 0]], [[2], [3], []]⟩ (by decide +kernel)

end Verif.CpRcpsp
