import Verif.Lemmas.UnitsRun
import Verif.Props.Views
/- Properties of the schedules of the units of each resource (C175). -/
namespace Verif.Views
open Rcpsp

/-- C175: given a schedule in which some activity starts and ends at 0, activities are numbered from 1 to 100000, all
requirements are known and at no time more units are required than there are, the unit schedules are computed without
exception; in them every activity has, at each time from its start to its end, exactly as many units as it requires;
a unit works at one activity at a time, on all of it and only while it runs; and `total_activity` counts the times at
which the unit works. -/
theorem C175_units (pb : Problem) (sch : Schedule) (modes : List Nat) (resources : Option (List String))
    (use : Nat → String → Int) (cap : String → Int) (hk : sch.keys.Nodup)
    (hsrc : ∃ q ∈ sch, q.2 = (0, 0)) (hids : ∀ q ∈ sch, 1 ≤ q.1 ∧ q.1 ≤ 100000 ∧ q.2.1 ≤ q.2.2)
    (hrs : resources.getD pb.resources.keys ≠ [])
    (huse : ∀ q ∈ sch, ∀ r ∈ resources.getD pb.resources.keys,
      useOf pb (extend modes) q.1 r = .ok (use q.1 r) ∧ 0 ≤ use q.1 r)
    (hcap : ∀ r ∈ resources.getD pb.resources.keys, pb.resources.get? r = some (.const (cap r)) ∧ 0 ≤ cap r)
    (hfeas : ∀ r ∈ resources.getD pb.resources.keys, ∀ t,
      ((sch.filter (fun q => decide (q.2.1 ≤ t ∧ t < q.2.2))).map (fun q => use q.1 r)).sum ≤ cap r) :
    ∃ st, individual pb sch modes resources = .ok (0, st) ∧ ∀ r ∈ resources.getD pb.resources.keys,
      ∃ u, st.get? r = some u ∧
        (∀ a s e, sch.get? a = some (s, e) → ∀ t, s ≤ t → t < e →
          (((List.range (cap r).toNat).filter (fun i => u.activity t i == a)).length : Int) = use a r) ∧
        (∀ t i, u.activity t i ≠ 0 → i < (cap r).toNat ∧ ∃ s e, sch.get? (u.activity t i) = some (s, e) ∧ s ≤ t ∧ t < e ∧
          ∀ t', s ≤ t' → t' < e → u.activity t' i = u.activity t i) ∧
        (∀ T, (∀ q ∈ sch, q.2.2 ≤ T) → ∀ i, u.total i = ((List.range T).filter (fun t => u.activity t i != 0)).length) := by
  have hpE := sortBy_perm (fun p : Nat × Nat × Nat => ((100000 * p.2.2 + p.1 : Nat) : Int)) sch
  have hsE := sortBy_sorted (fun p : Nat × Nat × Nat => ((100000 * p.2.2 + p.1 : Nat) : Int)) sch
  have hpS := sortBy_perm (fun p : Nat × Nat × Nat => ((100000 * p.2.1 + p.1 : Nat) : Int)) sch
  have hsS := sortBy_sorted (fun p : Nat × Nat × Nat => ((100000 * p.2.1 + p.1 : Nat) : Int)) sch
  obtain ⟨q0, hq0, hq0z⟩ := hsrc
  have hneE : sortedBy Prod.snd sch ≠ [] := by
    intro hnil
    have : q0 ∈ sortedBy Prod.snd sch := hpE.mem_iff.2 hq0
    rw [hnil] at this
    simp at this
  obtain ⟨hd, hhd⟩ : ∃ p, (sortedBy Prod.snd sch).head? = some p := by
    cases h : sortedBy Prod.snd sch with
    | nil => exact absurd h hneE
    | cons a as => exact ⟨a, rfl⟩
  obtain ⟨tl, htl⟩ : ∃ p, (sortedBy Prod.snd sch).getLast? = some p := by
    cases h : (sortedBy Prod.snd sch).getLast? with
    | none => exact absurd (List.getLast?_eq_none_iff.1 h) hneE
    | some p => exact ⟨p, rfl⟩
  have hhdm : hd ∈ sch := hpE.mem_iff.1 (List.mem_of_head? hhd)
  have hmin := head_min _ _ hsE hhd q0 (hpE.mem_iff.2 hq0)
  have hlo : hd.2.1 = 0 := by
    have h1 := hids hd hhdm
    have h2 := hids q0 hq0
    rw [hq0z] at hmin
    simp only at hmin
    omega
  have htlm : tl ∈ sch := hpE.mem_iff.1 (List.mem_of_getLast? htl)
  have hhi : ∀ q ∈ sch, q.2.2 ≤ tl.2.2 := by
    intro q hq
    have := last_max _ _ hsE htl q (hpE.mem_iff.2 hq)
    have h1 := hids q hq
    have h2 := hids tl htlm
    omega
  obtain ⟨n1, n2, -⟩ := noUsage_spec (resources.getD pb.resources.keys) []
    { activity := fun _ _ => 0, total := fun _ => 0 } (by intro r v h; simp at h)
  have hrun := assignActs_ok pb (extend modes) sch tl.2.2 use cap (resources.getD pb.resources.keys) hrs
    (sortedBy Prod.fst sch) (noUsage (resources.getD pb.resources.keys))
    (by
      intro r hr
      rcases n1 r hr with h | h
      · simp [Dict.keys] at h
      · exact h)
    (by
      intro q hq
      have hqm : q ∈ sch := hpS.mem_iff.1 hq
      refine ⟨Dict.get?_of_mem hk (show (q.1, q.2) ∈ sch from hqm), ?_, hhi q hqm, fun r hr => (huse q hqm r hr).1⟩
      have := hids q hqm
      have := hhi q hqm
      omega)
    (fun r hr => (hcap r hr).1)
  refine ⟨(noUsage (resources.getD pb.resources.keys)).map (fun p =>
      (p.1, runJobs (List.range (cap p.1).toNat) (jobsOf use p.1 (sortedBy Prod.fst sch)) p.2)), ?_, ?_⟩
  · unfold individual
    simp only [htl, hhd, checkCaps_ok pb cap _ hcap, bind_ok, hlo, hrun]
  · intro r hr
    refine ⟨runJobs (List.range (cap r).toNat) (jobsOf use r (sortedBy Prod.fst sch))
      { activity := fun _ _ => 0, total := fun _ => 0 }, ?_, ?_⟩
    · rw [get_map (noUsage _) (fun r u => runJobs (List.range (cap r).toNat) (jobsOf use r (sortedBy Prod.fst sch)) u) r]
      unfold noUsage
      rw [n2 r hr]
      rfl
    -- the invariant
    have hjob : ∀ j ∈ jobsOf use r (sortedBy Prod.fst sch), ∃ q ∈ sch, q.2.1 ≠ q.2.2 ∧
        j = { act := q.1, x := q.2.1, y := q.2.2, n := (use q.1 r).toNat } := by
      intro j hj
      obtain ⟨q, hq, rfl⟩ := List.mem_map.1 hj
      obtain ⟨h1, h2⟩ := List.mem_filter.1 hq
      refine ⟨q, hpS.mem_iff.1 h1, ?_, rfl⟩
      simp only [bne_iff_ne, ne_eq] at h2
      exact fun h => h2 h.symm
    have hinv : ∀ T, (∀ q ∈ sch, q.2.2 ≤ T) → Inv (List.range (cap r).toNat) T (jobsOf use r (sortedBy Prod.fst sch))
        (runJobs (List.range (cap r).toNat) (jobsOf use r (sortedBy Prod.fst sch))
          { activity := fun _ _ => 0, total := fun _ => 0 }) := by
      intro T hT
      have := inv_run (units := List.range (cap r).toNat) (T := T) List.nodup_range
        (jobsOf use r (sortedBy Prod.fst sch)) []
        { activity := fun _ _ => 0, total := fun _ => 0 }
        ⟨by intro t i h; exact absurd rfl h, by simp, by intro i; simp⟩
        (by
          intro j hj
          obtain ⟨q, hq, hne, rfl⟩ := hjob j (by simpa using hj)
          have := hids q hq
          exact ⟨by simp only; omega, by simp only; omega, hT q hq⟩)
        (by
          have h1 : (sortedBy Prod.fst sch).map Prod.fst |>.Nodup := (hpS.map Prod.fst).nodup_iff.2 hk
          have h2 : ((jobsOf use r (sortedBy Prod.fst sch)).map Job.act).Sublist ((sortedBy Prod.fst sch).map Prod.fst) := by
            unfold jobsOf
            rw [List.map_map]
            exact List.filter_sublist.map Prod.fst
          exact h2.nodup h1)
        (by
          simp only [List.nil_append]
          unfold jobsOf
          rw [List.pairwise_map]
          apply List.Pairwise.filter
          have hs' : (sortedBy Prod.fst sch).Pairwise (fun a b => ((100000 * a.2.1 + a.1 : Nat) : Int) ≤ ((100000 * b.2.1 + b.1 : Nat) : Int)) := hsS
          apply hs'.imp_of_mem
          intro a b ha hb hab
          have h1 := hids a (hpS.mem_iff.1 ha)
          have h2 := hids b (hpS.mem_iff.1 hb)
          simp only
          omega)
        (by
          intro t
          simp only [List.nil_append, List.length_range]
          have hf := hfeas r hr t
          have hsum : ∀ l : Schedule, (∀ q ∈ l, q ∈ sch) →
              ((((jobsOf use r l).filter (fun j => decide (j.x ≤ t ∧ t < j.y))).map Job.n).sum : Int) =
                ((l.filter (fun q => decide (q.2.1 ≤ t ∧ t < q.2.2))).map (fun q => use q.1 r)).sum := by
            intro l
            induction l with
            | nil => intro _; rfl
            | cons q qs ih =>
              intro hl
              have hq0 := (huse q (hl q List.mem_cons_self) r hr).2
              have ih := ih (fun q hq => hl q (List.mem_cons_of_mem _ hq))
              unfold jobsOf at ih ⊢
              rw [List.filter_cons, List.filter_cons]
              by_cases hne : q.2.2 = q.2.1
              · have hd : decide (q.2.1 ≤ t ∧ t < q.2.2) = false := by simp; omega
                have hb : (q.2.2 != q.2.1) = false := by simpa using hne
                simp only [hb, hd, Bool.false_eq_true, if_false]
                exact ih
              · have hb : (q.2.2 != q.2.1) = true := by simpa using hne
                simp only [hb, if_true, List.map_cons]
                rw [List.filter_cons]
                by_cases hrunq : q.2.1 ≤ t ∧ t < q.2.2
                · simp only [hrunq, and_self, decide_true, if_true, List.map_cons, List.sum_cons]
                  push_cast
                  rw [ih]
                  omega
                · simp only [hrunq, decide_false, Bool.false_eq_true, if_false]
                  exact ih
          have h1 := hsum (sortedBy Prod.fst sch) (fun q hq => hpS.mem_iff.1 hq)
          have h2 : (((sortedBy Prod.fst sch).filter (fun q => decide (q.2.1 ≤ t ∧ t < q.2.2))).map
              (fun q => use q.1 r)).sum = ((sch.filter (fun q => decide (q.2.1 ≤ t ∧ t < q.2.2))).map
              (fun q => use q.1 r)).sum := ((hpS.filter _).map _).sum_eq
          rw [h2] at h1
          omega)
      simpa using this
    have hI := hinv tl.2.2 hhi
    refine ⟨?_, ?_, ?_⟩
    · intro a s e hg t ht1 ht2
      have hm := Dict.mem_of_get? hg
      have hj : ({ act := a, x := s, y := e, n := (use a r).toNat } : Job) ∈ jobsOf use r (sortedBy Prod.fst sch) := by
        unfold jobsOf
        refine List.mem_map.2 ⟨(a, s, e), List.mem_filter.2 ⟨hpS.mem_iff.2 hm, ?_⟩, rfl⟩
        simp only [bne_iff_ne, ne_eq]
        omega
      have := hI.count _ hj t ht1 ht2
      simp only at this
      have h0 := (huse _ hm r hr).2
      rw [this]
      simp only at h0
      omega
    · intro t i hne
      obtain ⟨hi, j, hj, hja, hx, hy, hall⟩ := hI.own t i hne
      obtain ⟨q, hq, -, rfl⟩ := hjob j hj
      simp only at hja hx hy hall
      refine ⟨List.mem_range.1 hi, q.2.1, q.2.2, ?_, hx, hy, ?_⟩
      · rw [← hja]
        exact Dict.get?_of_mem hk (show (q.1, q.2) ∈ sch from hq)
      · intro t' ht1 ht2
        rw [hall t' ht1 ht2, hja]
    · intro T hT i
      exact (hinv T hT).total i

/-- A project of four activities: two of them together. -/
def pb3 : Problem :=
  { resources := [("R", .const 3)], nonRenewable := [],
    modes := [(1, [(1, ⟨0, [("R", 0)]⟩)]), (2, [(1, ⟨3, [("R", 2)]⟩)]), (3, [(1, ⟨1, [("R", 1)]⟩)]),
      (4, [(1, ⟨2, [("R", 1)]⟩)]), (5, [(1, ⟨0, [("R", 0)]⟩)])],
    successors := [(1, [2, 3]), (2, [5]), (3, [4]), (4, [5]), (5, [])], horizon := 9, multiplier := 1 }

/-- Its schedule. -/
def sch3 : Schedule := [(1, 0, 0), (2, 0, 3), (3, 0, 1), (4, 1, 3), (5, 3, 3)]

example : (∃ q ∈ sch3, q.2 = (0, 0)) ∧ (∀ q ∈ sch3, 1 ≤ q.1 ∧ q.1 ≤ 100000 ∧ q.2.1 ≤ q.2.2) ∧
    (∀ q ∈ sch3, ∀ r ∈ pb3.resources.keys, useOf pb3 (extend [1, 1, 1]) q.1 r =
      .ok (if q.1 = 2 then 2 else if q.1 = 3 ∨ q.1 = 4 then 1 else 0)) ∧
    (individual pb3 sch3 [1, 1, 1] none).map (fun o => (o.1, o.2.map (fun p =>
      (p.1, (List.range 3).map (fun i => (List.range 3).map (fun t => p.2.activity t i)), (List.range 3).map p.2.total)))) =
      .ok (0, [("R", [[2, 2, 2], [2, 2, 2], [3, 4, 4]], [3, 3, 3])]) :=
  ⟨⟨(1, 0, 0), by decide +kernel, rfl⟩, by decide +kernel, by decide +kernel, by decide +kernel⟩

example (t : Nat) : ((sch3.filter (fun q => decide (q.2.1 ≤ t ∧ t < q.2.2))).map
    (fun q => if q.1 = 2 then (2 : Int) else if q.1 = 3 ∨ q.1 = 4 then 1 else 0)).sum ≤ 3 := by
  have h : t = 0 ∨ t = 1 ∨ t = 2 ∨ 3 ≤ t := by omega
  rcases h with rfl | rfl | rfl | h
  · decide +kernel
  · decide +kernel
  · decide +kernel
  · simp only [sch3, List.filter_cons]
    have h1 : decide (0 ≤ t ∧ t < 0) = false := by simp
    have h2 : decide (0 ≤ t ∧ t < 3) = false := by simp; omega
    have h3 : decide (0 ≤ t ∧ t < 1) = false := by simp; omega
    have h4 : decide (1 ≤ t ∧ t < 3) = false := by simp; omega
    have h5 : decide (3 ≤ t ∧ t < 3) = false := by simp
    simp only [h1, h2, h3, h4, h5, Bool.false_eq_true, if_false, List.filter_nil, List.map_nil, List.sum_nil]
    decide

/-- C175: an activity that needs one unit gets, among the units free at its start, one that has worked least so
far. -/
theorem C175_fair (units : List Nat) (act x y : Nat) (u : Usage) (i j : Nat)
    (hold : u.activity x i ≠ act) (hi : (assign units act x y 1 u).activity x i = act)
    (hj : j ∈ units) (hfree : u.activity x j = 0) : u.activity x i = 0 ∧ i ∈ units ∧ u.total i ≤ u.total j := by
  simp only [assign] at hi
  rcases firstMin_spec u.total (freeUnits units x u) with ⟨hnil, hf⟩ | ⟨k, hf, hk, hmin⟩
  · rw [hf] at hi
    exact absurd hi hold
  · rw [hf] at hi
    simp only [book] at hi
    by_cases hik : i = k
    · subst hik
      have := mem_freeUnits.1 hk
      exact ⟨this.2, this.1, hmin j (mem_freeUnits.2 ⟨hj, hfree⟩)⟩
    · rw [if_neg (fun hc => hik hc.1)] at hi
      exact absurd hi hold

example : (assign [0, 1, 2] 7 4 6 1 { activity := fun _ i => if i = 2 then 5 else 0, total := fun i => 9 - i }).activity 4 1 =
    7 := by decide +kernel

/-- C175 refuted: it does not work for every feasible schedule.  The time axis starts with the start of the activity
that ends first; when another one has started before, its start is not on the axis and `KeyError` is raised. -/
theorem C175_axis_refuted :
    ∃ (pb : Problem) (sch : Schedule) (modes : List Nat),
      consumption pb sch modes none false = .ok [("R", [1, 1, 2, 1, 0])] ∧ pb.resources.get? "R" = some (.const 2) ∧
      (individual pb sch modes none).map (fun o => o.1) = .error .keyError :=
  ⟨{ resources := [("R", .const 2)], nonRenewable := [],
     modes := [(1, [(1, ⟨4, [("R", 1)]⟩)]), (2, [(1, ⟨1, [("R", 1)]⟩)]), (3, [(1, ⟨0, [("R", 0)]⟩)])],
     successors := [(1, [3]), (2, [3]), (3, [])], horizon := 9, multiplier := 1 },
    [(1, 0, 4), (2, 2, 3), (3, 4, 4)], [1], by decide +kernel, by decide +kernel, by decide +kernel⟩

/-- C175 refuted: an activity may be left with fewer units than it requires, without exception: when the schedule
requires more units than there are, the rest is dropped. -/
theorem C175_short_refuted :
    ∃ (pb : Problem) (sch : Schedule) (modes : List Nat), useOf pb (extend modes) 3 "R" = .ok 2 ∧
      (individual pb sch modes none).map (fun o => o.2.map (fun p =>
        (List.range 2).map (fun i => (List.range 2).map (fun t => p.2.activity t i)))) = .ok [[[2, 2], [3, 3]]] :=
  ⟨{ resources := [("R", .const 2)], nonRenewable := [],
     modes := [(1, [(1, ⟨0, [("R", 0)]⟩)]), (2, [(1, ⟨2, [("R", 1)]⟩)]), (3, [(1, ⟨2, [("R", 2)]⟩)]),
       (4, [(1, ⟨0, [("R", 0)]⟩)])],
     successors := [(1, [2, 3]), (2, [4]), (3, [4]), (4, [])], horizon := 9, multiplier := 1 },
    [(1, 0, 0), (2, 0, 2), (3, 0, 2), (4, 2, 2)], [1, 1], by decide +kernel, by decide +kernel⟩

/-- C175 refuted: with a calendar a unit may work while it is off duty.  Units are chosen by the number on duty at the
start of an activity only: here unit 1 works at time 1, when one unit is on duty (unit 0, which is free), although the
schedule never requires more units than are on duty. -/
theorem C175_calendar_refuted :
    ∃ (pb : Problem) (sch : Schedule) (modes : List Nat),
      pb.resources = [("R", .calendar [2, 1, 1])] ∧
      consumption pb sch modes none false = .ok [("R", [2, 1, 0])] ∧
      (individual pb sch modes none).map (fun o => o.2.map (fun p =>
        (List.range 2).map (fun i => (List.range 2).map (fun t => p.2.activity t i)))) = .ok [[[2, 0], [3, 3]]] :=
  ⟨{ resources := [("R", .calendar [2, 1, 1])], nonRenewable := [],
     modes := [(1, [(1, ⟨0, [("R", 0)]⟩)]), (2, [(1, ⟨1, [("R", 1)]⟩)]), (3, [(1, ⟨2, [("R", 1)]⟩)]),
       (4, [(1, ⟨0, [("R", 0)]⟩)])],
     successors := [(1, [2, 3]), (2, [4]), (3, [4]), (4, [])], horizon := 9, multiplier := 1 },
    [(1, 0, 0), (2, 0, 1), (3, 0, 2), (4, 2, 2)], [1, 1], rfl, by decide +kernel, by decide +kernel⟩

end Verif.Views
