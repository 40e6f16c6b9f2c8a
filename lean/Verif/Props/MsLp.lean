import Verif.Lemmas.MsLpRead
/-
Properties of the MILP solver for multi-skill project scheduling
(`skdecide/builders/discrete_optimization/rcpsp_multiskill/solvers/lp_model.py`).
-/
namespace Verif.MsLp
open Verif.Milp Verif.MultiSkill
open Verif.Rcpsp (Mode total dict_get_ok)

/-! ### C155: what a solution of the program is read as -/

/-- Every assignment that meets the program is read as a plan: each task has one of its modes and starts no later than the sum of the
longest durations plus 10, and lasts as long as the mode says; precedences are respected; workers are used only for skills that they have and the mode
needs, only while they are at work, and for one skill of one task at a time; the workers used for a skill reach the level needed; and the
running tasks need no more than there is.  The solution returned says exactly this plan. -/
theorem C155_sound {pb : Problem} {p : Prog} {a : Var → Int} (w : Wf pb) (hb : build pb = .ok p) (hf : p.Feasible a) :
    ∃ D pl, maxDuration pb = .ok D ∧ Valid pb D pl ∧ Reads pb pl (read pb (D + 1) a) := by
  obtain ⟨D, hb⟩ := built w hb
  obtain ⟨pl, sh⟩ := exists_shape w hb hf
  exact ⟨D, pl, hb.max, (sh.feasible_iff w hb).1 hf, sh.reads w⟩

/-- A plan read from the program passes the check of the problem, provided that modes list all resources (as the check looks them up), the
sink takes no time, modes that need a skill take time, and non-renewable resources have requirements that are not negative and the
same capacity at all times. -/
theorem C155_accepted_partial {pb : Problem} {p : Prog} {a : Var → Int} {D : Nat} (w : Wf pb) (hb : build pb = .ok p) (hf : p.Feasible a)
    (hD : maxDuration pb = .ok D)
    (hlist : ∀ k d m md r, pb.modes.get? k = some d → d.get? m = some md → r ∈ pb.resources.keys → ∃ n, md.needs.get? r = some n)
    (hsink : pb.sink ∈ pb.modes.keys) (hsink0 : ∀ d m md, pb.modes.get? pb.sink = some d → d.get? m = some md → md.duration = 0)
    (htime : ∀ k d m md s n, pb.modes.get? k = some d → d.get? m = some md → s ∈ pb.skills → md.needs.get? s = some n → 0 < n → 0 < md.duration)
    (hneg : ∀ k d m md r n, pb.modes.get? k = some d → d.get? m = some md → r ∈ pb.nonRenewable → md.needs.get? r = some n → 0 ≤ n)
    (hconst : ∀ r row t, r ∈ pb.nonRenewable → pb.resources.get? r = some row → t < D → row[t]? = row[0]?) :
    satisfy pb (read pb (D + 1) a) = .ok true := by
  obtain ⟨D', hb⟩ := built w hb
  have := hb.max
  rw [hD] at this; cases this
  obtain ⟨pl, sh⟩ := exists_shape w hb hf
  have v := (sh.feasible_iff w hb).1 hf
  have rd := sh.reads w
  have hmodes : ∀ k, k ∈ pb.modes.keys → (modesOf pb k).get? (pl.mode k) = some (theMode pb k (pl.mode k)) := fun k hk => theMode_get (v.mode k hk)
  have hin : ∀ k, k ∈ pb.modes.keys → ModeIn pb (read pb (D + 1) a) k (theMode pb k (pl.mode k)) := by
    intro k hk
    refine ⟨pl.mode k, modesOf pb k, ?_, modesOf_get hk, hmodes k hk⟩
    rw [rd.modes k, if_pos hk]
  have hsch : ∀ k, k ∈ pb.modes.keys → (read pb (D + 1) a).schedule.get? k = some (pl.start k, pl.start k + pl.dur pb k) := by
    intro k hk; rw [rd.schedule k, if_pos hk]
  have hneed : ∀ k, k ∈ pb.modes.keys → ∀ r, r ∈ pb.resources.keys → (theMode pb k (pl.mode k)).needs.get? r = some (needIn pb r k (pl.mode k)) := by
    intro k hk r hr
    obtain ⟨n, hn⟩ := hlist k _ _ _ r (modesOf_get hk) (hmodes k hk) hr
    rw [needIn, hn]; rfl
  have hcov : Covered pb (read pb (D + 1) a) (fun r k => needIn pb r k (pl.mode k)) := by
    intro k hk
    exact ⟨⟨_, hsch k hk⟩, _, hin k hk, hneed k hk⟩
  have hnr : ∀ r ∈ pb.nonRenewable, r ∈ pb.resources.keys := by
    intro r hr
    obtain ⟨row, c, h1, _⟩ := hb.nonRenewable r hr
    rw [← Dict.get?_isSome_iff_mem_keys, h1]; rfl
  have hd0 : pl.dur pb pb.sink = 0 := hsink0 _ _ _ (modesOf_get hsink) (hmodes _ hsink)
  have hruns : ∀ t k, k ∈ pb.modes.keys → runsAt (read pb (D + 1) a).schedule t k = pl.runs pb t k := by
    intro t k hk
    unfold runsAt Plan.runs covers
    rw [hsch k hk]
  have hnonneg : ∀ r, r ∈ pb.nonRenewable → ∀ k, k ∈ pb.modes.keys → 0 ≤ needIn pb r k (pl.mode k) := by
    intro r hr k hk
    exact hneg k _ _ _ r _ (modesOf_get hk) (hmodes k hk) hr (hneed k hk r (hnr r hr))
  refine (C94_accepts_iff w.dicts hcov hnr (hsch _ hsink)).2 ⟨rd.length, ?_, ?_, ?_, ?_, ?_, ?_⟩
  · intro k hk m hm s n hs hn hp
    rw [modeIn_unique hm (hin k hk)] at hn
    have hsk := v.skills k s n hk hs hn hp
    have hex : ∃ e, pl.on k e s = true := by
      apply Classical.byContradiction
      intro hne
      have : pb.employees.keys.filter (fun e => pl.on k e s) = [] := by
        rw [List.filter_eq_nil_iff]
        intro e _ he
        exact hne ⟨e, he⟩
      rw [this] at hsk
      have h0 : (n : Rat) ≤ 0 := hsk
      have h0 : n ≤ 0 := by exact_mod_cast h0
      omega
    obtain ⟨e, he⟩ := hex
    obtain ⟨us, l, hu, _, _⟩ := (rd.noted k e s).2 he
    have hperm := rd.noted_perm w v hu s
    refine ⟨us, hu, ?_, ?_⟩
    · intro x hx
      have hon := (List.mem_filter.1 (hperm.mem_iff.1 hx)).2
      have hl := (v.able _ _ _ hon).2.1
      obtain ⟨emp, hemp⟩ := emp_of_level hl
      refine ⟨emp, hemp, ?_⟩
      rw [levelOf_eq hemp] at hl
      rw [← Dict.get?_isSome_iff_mem_keys]
      cases hg : emp.skills.get? s with
      | none => rw [hg] at hl; exact absurd hl (lt_irrefl _)
      | some _ => rfl
    · unfold teamLevel
      rw [(hperm.map (fun e => skillValue pb e s)).sum_eq]
      simp only [← levelOf_skillValue]
      exact hsk
  · intro k hk us e hu he
    obtain ⟨s, hs⟩ := (rd.some_ k us hu).2 e he
    obtain ⟨emp, h1, h2⟩ := v.atWork k e s hs
    exact ⟨_, _, hsch k hk, fun _ => ⟨emp, h1, h2⟩⟩
  · intro k hk k' hk' hlt sa ea sb eb h1 h2 l1 l2 e us vs hu hv he he'
    rw [hsch k hk] at h1; cases h1
    rw [hsch k' hk'] at h2; cases h2
    obtain ⟨s, hs⟩ := (rd.some_ k us hu).2 e he
    obtain ⟨s', hs'⟩ := (rd.some_ k' vs hv).2 e he'
    have pos : ∀ k s, k ∈ pb.modes.keys → pl.on k e s = true → 0 < pl.dur pb k := by
      intro k s hk hs
      obtain ⟨_, _, h3, n, h4, h5⟩ := v.able k e s hs
      exact htime k _ _ _ s n (modesOf_get hk) (hmodes k hk) h3 h4 h5
    have p1 := pos k s hk hs
    have p2 := pos k' s' hk' hs'
    have d1 := v.start k hk
    have d2 := v.start k' hk'
    have := v.once e (max (pl.start k) (pl.start k')) (by omega) k s k' s' hs hs' (covers_iff.2 (by omega)) (covers_iff.2 (by omega))
    have := this.1
    omega
  · intro r row hr t ht
    have htD : t < D := by
      have := v.start _ hsink
      simp only [hd0] at ht
      omega
    have hfil : pb.modes.keys.filter (runsAt (read pb (D + 1) a).schedule t) = pb.modes.keys.filter (pl.runs pb t) :=
      List.filter_congr (fun k hk => hruns t k hk)
    rw [hfil]
    by_cases hn : r ∈ pb.nonRenewable
    · obtain ⟨row', c, h1, h2⟩ := hb.nonRenewable r hn
      rw [hr] at h1; cases h1
      refine ⟨c, (hconst r row t hn hr htD).trans h2, le_trans ?_ (v.nonRenewable r row c hn hr h2)⟩
      rw [total_filter]
      refine sum_le_sum_int ?_
      intro k hk
      split
      · exact le_refl _
      · exact hnonneg r hn k hk
    · obtain ⟨c, hc⟩ := hb.cap r row hr hn t (by omega)
      exact ⟨c, hc, v.renewable r row c t hr hn (by omega) hc⟩
  · intro r hr
    obtain ⟨row, c, h1, h2⟩ := hb.nonRenewable r hr
    exact ⟨row, c, h1, h2, v.nonRenewable r row c hr h1 h2⟩
  · intro k ss hm s hs
    have hg := Dict.get?_of_mem w.succ.1 hm
    have hk : k ∈ pb.modes.keys := (w.succ.2 k).1 (List.mem_map.2 ⟨_, hm, rfl⟩)
    obtain ⟨ss', h1, h2⟩ := hb.succ k hk
    rw [hg] at h1; cases h1
    exact ⟨_, _, _, _, hsch k hk, hsch s (h2 s hs), v.prec k ss s hg hk hs⟩

/-! ### C156: which plans the program finds -/

/-- Every plan that starts in time and uses no worker for two things at once is a solution of the program, and is read back. -/
theorem C156_complete_partial {pb : Problem} {p : Prog} {D : Nat} {pl : Plan} (w : Wf pb) (hb : build pb = .ok p) (hD : maxDuration pb = .ok D)
    (v : Valid pb D pl) : ∃ a, p.Feasible a ∧ Reads pb pl (read pb (D + 1) a) := by
  obtain ⟨D', hb⟩ := built w hb
  have := hb.max
  rw [hD] at this; cases this
  exact ⟨asg pb pl, ((asg_shape v).feasible_iff w hb).2 v, (asg_shape v).reads w⟩

/-- A best solution is read as a plan whose last task (the one with the greatest number) starts no later than in any other plan of this
kind. -/
theorem C156_optimal {pb : Problem} {p : Prog} {D : Nat} {a : Var → Int} (w : Wf pb) (hb : build pb = .ok p) (hD : maxDuration pb = .ok D)
    (hl : p.Least a) : ∃ pl last, Valid pb D pl ∧ Reads pb pl (read pb (D + 1) a) ∧ last ∈ pb.modes.keys ∧ (∀ k, k ∈ pb.modes.keys → k ≤ last) ∧
      ∀ pl', Valid pb D pl' → pl.start last ≤ pl'.start last := by
  obtain ⟨D', hb⟩ := built w hb
  have := hb.max
  rw [hD] at this; cases this
  obtain ⟨pl, sh⟩ := exists_shape w hb hl.1
  obtain ⟨last, h1, h2, h3⟩ := hb.objective
  refine ⟨pl, last, (sh.feasible_iff w hb).1 hl.1, sh.reads w, h1, h2, fun pl' v' => ?_⟩
  have := hl.2 _ (((asg_shape v').feasible_iff w hb).2 v')
  rw [h3] at this
  simp only [value_cons, value_nil, sh.timeV last h1, (asg_shape v').timeV last h1] at this
  omega

/-- A schedule that the check accepts, in which tasks last as long as their modes say, none ends after the sink and the sink starts in time,
and in which each worker is noted for one skill per task, which the mode needs and the worker has. -/
structure Simple (pb : Problem) (D : Nat) (sol : Solution) : Prop where
  accepted : satisfy pb sol = .ok true
  task : ∀ k, k ∈ pb.modes.keys → ∃ s m d md, sol.schedule.get? k = some (s, s + md.duration) ∧ sol.modes.get? k = some m ∧
    pb.modes.get? k = some d ∧ d.get? m = some md
  early : ∀ k p q, k ∈ pb.modes.keys → sol.schedule.get? k = some p → sol.schedule.get? pb.sink = some q → p.2 ≤ q.2 ∧ q.2 ≤ D
  keys : ∀ k us, sol.usage.get? k = some us → k ∈ pb.modes.keys ∧ us.keys.Nodup
  able : ∀ k e s, Noted sol.usage k e s → 0 < levelOf pb e s ∧ s ∈ pb.skills ∧ ∃ m d md n, sol.modes.get? k = some m ∧
    pb.modes.get? k = some d ∧ d.get? m = some md ∧ md.needs.get? s = some n ∧ 0 < n
  one : ∀ k e s s', Noted sol.usage k e s → Noted sol.usage k e s' → s = s'

/-- The plan of a solution. -/
noncomputable def planOf (sol : Solution) : Plan where
  mode k := (sol.modes.get? k).getD 0
  start k := ((sol.schedule.get? k).map Prod.fst).getD 0
  on k e s := @decide (Noted sol.usage k e s) (Classical.propDecidable _)

theorem Simple.valid {pb : Problem} {D : Nat} {sol : Solution} (w : Wf pb) (hnr : ∀ res ∈ pb.nonRenewable, res ∈ pb.resources.keys)
    (hlist : ∀ k d m md r, pb.modes.get? k = some d → d.get? m = some md → r ∈ pb.resources.keys → ∃ n, md.needs.get? r = some n)
    (hcap : ∀ r row c (t : Nat), pb.resources.get? r = some row → row[t]? = some c → 0 ≤ c) (hsink : pb.sink ∈ pb.modes.keys)
    (hpos : ∀ k us, sol.usage.get? k = some us → ∃ s e, sol.schedule.get? k = some (s, e) ∧ s < e)
    (h : Simple pb D sol) : Valid pb D (planOf sol) := by
  have hon : ∀ k e s, (planOf sol).on k e s = true ↔ Noted sol.usage k e s := by
    intro k e s; simp [planOf]
  have hk1 : ∀ k, k ∈ pb.modes.keys → (planOf sol).mode k ∈ (modesOf pb k).keys ∧ sol.modes.get? k = some ((planOf sol).mode k) ∧
      sol.schedule.get? k = some ((planOf sol).start k, (planOf sol).start k + (planOf sol).dur pb k) := by
    intro k hk
    obtain ⟨s, m, d, md, h1, h2, h3, h4⟩ := h.task k hk
    rw [modesOf_get hk] at h3; cases h3
    have hm : (planOf sol).mode k = m := by simp [planOf, h2]
    have hmk : m ∈ (modesOf pb k).keys := by rw [← Dict.get?_isSome_iff_mem_keys, h4]; rfl
    have hmd : theMode pb k m = md := by rw [theMode_get hmk] at h4; exact Option.some.inj h4
    refine ⟨hm ▸ hmk, hm ▸ h2, ?_⟩
    have hs : (planOf sol).start k = s := by simp [planOf, h1]
    rw [hs, Plan.dur, durOf, hm, hmd]; exact h1
  have hin : ∀ k, k ∈ pb.modes.keys → ModeIn pb sol k (theMode pb k ((planOf sol).mode k)) := by
    intro k hk
    exact ⟨_, _, (hk1 k hk).2.1, modesOf_get hk, theMode_get (hk1 k hk).1⟩
  have hcov : Covered pb sol (fun r k => needIn pb r k ((planOf sol).mode k)) := by
    intro k hk
    refine ⟨⟨_, (hk1 k hk).2.2⟩, _, hin k hk, ?_⟩
    intro r hr
    obtain ⟨n, hn⟩ := hlist k _ _ _ r (modesOf_get hk) (theMode_get (hk1 k hk).1) hr
    simp only [needIn, hn, Option.getD_some]
  obtain ⟨_, a1, a2, a3, a4, a5, a6⟩ := (C94_accepts_iff w.dicts hcov hnr (hk1 _ hsink).2.2).1 h.accepted
  have hruns : ∀ t k, k ∈ pb.modes.keys → runsAt sol.schedule t k = (planOf sol).runs pb t k := by
    intro t k hk
    unfold runsAt Plan.runs covers
    rw [(hk1 k hk).2.2]
  have hearly : ∀ k, k ∈ pb.modes.keys → (planOf sol).start k + (planOf sol).dur pb k ≤
      (planOf sol).start pb.sink + (planOf sol).dur pb pb.sink ∧ (planOf sol).start pb.sink + (planOf sol).dur pb pb.sink ≤ D :=
    fun k hk => h.early k _ _ hk (hk1 k hk).2.2 (hk1 _ hsink).2.2
  have hable : ∀ k e s, (planOf sol).on k e s = true → k ∈ pb.modes.keys ∧ Fits pb e k ((planOf sol).mode k) s := by
    intro k e s hn
    have hn := (hon k e s).1 hn
    obtain ⟨us, l, hu, _, _⟩ := id hn
    have hk := (h.keys k us hu).1
    obtain ⟨g1, g2, m, d, md, n, g3, g4, g5, g6, g7⟩ := h.able k e s hn
    refine ⟨hk, g1, g2, n, ?_, g7⟩
    rw [(hk1 k hk).2.1] at g3; cases g3
    rw [modesOf_get hk] at g4; cases g4
    rw [theMode_get (hk1 k hk).1] at g5; cases g5
    exact g6
  refine ⟨fun k hk => (hk1 k hk).1, fun k hk => by have := hearly k hk; omega, ?_, hable, ?_, ?_, ?_, ?_, ?_⟩
  · intro k ss s hs hk hm
    obtain ⟨sa, ea, sb, eb, g1, g2, g3⟩ := a6 k ss (Dict.mem_of_get? hs) s hm
    rw [(hk1 k hk).2.2] at g1; cases g1
    have : (planOf sol).start s = sb := by simp [planOf, g2]
    omega
  · intro k e s hn
    obtain ⟨us, l, hu, hl, _⟩ := (hon k e s).1 hn
    have hk := (h.keys k us hu).1
    obtain ⟨s', e', g1, g2⟩ := a2 k hk us e hu (by rw [← Dict.get?_isSome_iff_mem_keys, hl]; rfl)
    rw [(hk1 k hk).2.2] at g1; cases g1
    obtain ⟨s', e', g1, g3⟩ := hpos k us hu
    rw [(hk1 k hk).2.2] at g1; cases g1
    exact g2 g3
  · intro e t ht k s k' s' hn hn' hr hr'
    obtain ⟨us, l, hu, hl, _⟩ := (hon k e s).1 hn
    obtain ⟨us', l', hu', hl', _⟩ := (hon k' e s').1 hn'
    have hk := (h.keys k us hu).1
    have hk' := (h.keys k' us' hu').1
    have r1 := covers_iff.1 hr
    have r2 := covers_iff.1 hr'
    have m1 : e ∈ us.keys := by rw [← Dict.get?_isSome_iff_mem_keys, hl]; rfl
    have m2 : e ∈ us'.keys := by rw [← Dict.get?_isSome_iff_mem_keys, hl']; rfl
    have hkk : k = k' := by
      rcases Nat.lt_trichotomy k k' with g | g | g
      · exact absurd m2 (a3 k hk k' hk' g _ _ _ _ (hk1 k hk).2.2 (hk1 k' hk').2.2 (by omega) (by omega) e us us' hu hu' m1)
      · exact g
      · exact absurd m1 (a3 k' hk' k hk g _ _ _ _ (hk1 k' hk').2.2 (hk1 k hk).2.2 (by omega) (by omega) e us' us hu' hu m2)
    subst hkk
    exact ⟨rfl, h.one k e s s' ((hon k e s).1 hn) ((hon k e s').1 hn')⟩
  · intro k s n hk hs hn hp
    obtain ⟨us, hu, _, g2⟩ := a1 k hk _ (hin k hk) s n hs hn hp
    refine le_trans g2 (le_of_eq ?_)
    have hnd := (h.keys k us hu).2
    have hperm : (notedFor us s).Perm (pb.employees.keys.filter (fun e => (planOf sol).on k e s)) := by
      rw [List.perm_ext_iff_of_nodup]
      · intro e
        unfold notedFor
        simp only [List.mem_map, List.mem_filter, List.contains_eq_mem, decide_eq_true_eq, hon]
        constructor
        · rintro ⟨⟨e', l⟩, ⟨hm, hs⟩, rfl⟩
          have hno : Noted sol.usage k e' s := ⟨us, l, hu, Dict.get?_of_mem hnd hm, hs⟩
          obtain ⟨emp, he⟩ := emp_of_level (h.able _ _ _ hno).1
          exact ⟨by rw [← Dict.get?_isSome_iff_mem_keys, he]; rfl, hno⟩
        · rintro ⟨_, us', l, h1, h2, h3⟩
          rw [hu] at h1; cases h1
          exact ⟨(e, l), ⟨Dict.mem_of_get? h2, h3⟩, rfl⟩
      · exact hnd.sublist (List.Sublist.map _ List.filter_sublist)
      · exact w.dicts.employees.filter _
    unfold teamLevel
    rw [(hperm.map (fun e => skillValue pb e s)).sum_eq]
    simp only [← levelOf_skillValue]
  · intro r row c t hr hn ht hc
    by_cases hlt : t < (planOf sol).start pb.sink + (planOf sol).dur pb pb.sink
    · obtain ⟨c', g1, g2⟩ := a4 r row hr t hlt
      rw [hc] at g1; cases g1
      rwa [List.filter_congr (fun k hk => hruns t k hk)] at g2
    · have : pb.modes.keys.filter ((planOf sol).runs pb t) = [] := by
        rw [List.filter_eq_nil_iff]
        intro k hk hr
        have := covers_iff.1 hr
        have := (hearly k hk).1
        omega
      rw [this]
      exact hcap r row c t hr hc
  · intro r row c hr hrow hc
    obtain ⟨row', c', g1, g2, g3⟩ := a5 r hr
    rw [hrow] at g1; cases g1
    rw [hc] at g2; cases g2
    exact g3

/-- When the sink has the greatest number, a best solution is read as a schedule whose sink starts no later than the sink of any schedule that
the check accepts and in which workers are used for one skill per task. -/
theorem C156_makespan_partial {pb : Problem} {p : Prog} {D : Nat} {a : Var → Int} {sol : Solution} (w : Wf pb) (hb : build pb = .ok p)
    (hD : maxDuration pb = .ok D) (hl : p.Least a)
    (hlist : ∀ k d m md r, pb.modes.get? k = some d → d.get? m = some md → r ∈ pb.resources.keys → ∃ n, md.needs.get? r = some n)
    (hcap : ∀ r row c (t : Nat), pb.resources.get? r = some row → row[t]? = some c → 0 ≤ c) (hsink : pb.sink ∈ pb.modes.keys)
    (hlast : ∀ k, k ∈ pb.modes.keys → k ≤ pb.sink) (hpos : ∀ k us, sol.usage.get? k = some us → ∃ s e, sol.schedule.get? k = some (s, e) ∧ s < e)
    (hs : Simple pb D sol) : ∃ q q', (read pb (D + 1) a).schedule.get? pb.sink = some q ∧ sol.schedule.get? pb.sink = some q' ∧ q.1 ≤ q'.1 := by
  obtain ⟨pl, last, v, rd, h1, h2, h3⟩ := C156_optimal w hb hD hl
  obtain ⟨D', hb⟩ := built w hb
  have hnr : ∀ r ∈ pb.nonRenewable, r ∈ pb.resources.keys := by
    intro r hr
    obtain ⟨row, c, h1, _⟩ := hb.nonRenewable r hr
    rw [← Dict.get?_isSome_iff_mem_keys, h1]; rfl
  have := h3 _ (hs.valid w hnr hlist hcap hsink hpos)
  have hls : last = pb.sink := Nat.le_antisymm (hlast last h1) (h2 _ hsink)
  subst hls
  obtain ⟨s, m, d, md, g1, _⟩ := hs.task _ hsink
  refine ⟨_, _, (rd.schedule _).trans (if_pos hsink), g1, ?_⟩
  simp only [planOf, g1] at this
  exact this

end Verif.MsLp
