import Verif.Lemmas.GanttLp
/-
C200: the program that gives individuals to the activities of a schedule.
-/
namespace Verif.GanttLp
open Verif.Milp

/-- A team: the individuals chosen are free at all times of the activity and of a resource it needs, every activity gets as many as it needs,
and nobody works on two activities at the same time. -/
structure Good (D : Data) (team : Var → Bool) : Prop where
  able : ∀ k i t, team (k, i, t) = true → t ∈ D.jobs ∧ 0 < D.need t k ∧ ∃ cals cal, (k, cals) ∈ D.units ∧ cals[i]? = some cal ∧
    ∀ m, (D.time t).1 ≤ m → m < (D.time t).2 → cal[m]? = some true
  enough : ∀ k cals t, (k, cals) ∈ D.units → t ∈ D.jobs → 0 < D.need t k →
    (((List.range cals.length).filter (fun i => team (k, i, t))).length : Int) = D.need t k
  apart : ∀ k i t t', team (k, i, t) = true → team (k, i, t') = true → t ≠ t' →
    ¬ ∃ m, (D.time t).1 ≤ m ∧ m < (D.time t).2 ∧ (D.time t').1 ≤ m ∧ m < (D.time t').2

/-- Activities and resources are keys of dictionaries. -/
structure WF (D : Data) : Prop where
  jobs : D.jobs.Nodup
  units : (D.units.map Prod.fst).Nodup

/-- What `nx.find_cliques` promises: the members of a clique meet, two activities that meet are in a clique. -/
structure Cliques (D : Data) (cliques : List (List Nat)) : Prop where
  meet : ∀ c, c ∈ cliques → ∀ t t', t ∈ c → t' ∈ c → t ≠ t' → meets D t t' = true
  all : ∀ t t', t ∈ D.jobs → t' ∈ D.jobs → t ≠ t' → meets D t t' = true → ∃ c, c ∈ cliques ∧ t ∈ c ∧ t' ∈ c

theorem init_ok {D : Data} {cliques : List (List Nat)} {p : Program Var} (hw : WF D) (h : init D cliques = .ok p) :
    ∃ vs : List Var, p.vars = vs.map (fun v => (v, .binary)) ∧ vs.Nodup ∧ (∀ v, v ∈ vs ↔ v.2.2 ∈ D.jobs ∧ Able D v.2.2 D.units v) ∧
      ∀ a, p.Feasible a ↔ (∀ v, v ∈ vs → a v = 0 ∨ a v = 1) ∧
        (∀ t, t ∈ D.jobs → ∀ k cals, (k, cals) ∈ D.units → 0 < D.need t k →
          ((vs.filter (fun v => v.1 = k ∧ v.2.2 = t)).map a).sum = D.need t k) ∧
        ∀ c, c ∈ cliques → ∀ k i t t', (k, i, t) ∈ vs → (k, i, t') ∈ vs → t ∈ c → t' ∈ c →
          a (k, i, t) = 1 → a (k, i, t') = 1 → t = t' := by
  unfold init at h
  cases hj : jobsLoop D D.jobs [] [] with
  | error e => rw [hj] at h; cases h
  | ok r =>
    rw [hj] at h
    have hp : p = { vars := r.1.map (fun v => (v, .binary)), rows := r.2 ++ overlapRows cliques r.1, objective := [] } := by cases h; rfl
    obtain ⟨h1, h2, h3⟩ := jobsLoop_ok hw.units hw.jobs List.nodup_nil (by simp) hj
    refine ⟨r.1, by rw [hp], h1, fun v => by rw [h2]; simp, ?_⟩
    intro a
    have hb : (∀ v k, (v, k) ∈ p.vars → k.Allows (a v)) ↔ ∀ v, v ∈ r.1 → a v = 0 ∨ a v = 1 := by
      rw [hp]
      constructor
      · intro h v hv
        exact h v .binary (List.mem_map.2 ⟨v, hv, rfl⟩)
      · intro h v k hk
        obtain ⟨w, hw, he⟩ := List.mem_map.1 hk
        cases he
        exact h v hw
    have h3' := h3 a
    simp only [List.not_mem_nil, false_imp_iff, implies_true, true_and] at h3'
    constructor
    · rintro ⟨hf1, hf2⟩
      have h01 := hb.1 hf1
      rw [hp] at hf2
      exact ⟨h01, h3'.1 (fun x hx => hf2 x (List.mem_append_left _ hx)),
        (overlap_holds h1 h01).1 (fun x hx => hf2 x (List.mem_append_right _ hx))⟩
    · rintro ⟨h01, hn, hc⟩
      refine ⟨hb.2 h01, ?_⟩
      rw [hp]
      intro x hx
      rcases List.mem_append.1 hx with hx | hx
      · exact h3'.2 hn x hx
      · exact (overlap_holds h1 h01).2 hc x hx

theorem count_eq {D : Data} (hw : WF D) {vs : List Var} (hv : vs.Nodup) (hm : ∀ v, v ∈ vs ↔ v.2.2 ∈ D.jobs ∧ Able D v.2.2 D.units v)
    {a : Var → Int} (h01 : ∀ v, v ∈ vs → a v = 0 ∨ a v = 1) {team : Var → Bool} (ht : ∀ v, team v = true ↔ v ∈ vs ∧ a v = 1)
    {k : String} {cals : List (List Bool)} {t : Nat} (hk : (k, cals) ∈ D.units) :
    ((vs.filter (fun v => v.1 = k ∧ v.2.2 = t)).map a).sum = (((List.range cals.length).filter (fun i => team (k, i, t))).length : Int) := by
  rw [sum_count (fun x hx => h01 x (List.mem_filter.1 hx).1)]
  have hperm : List.Perm (((vs.filter (fun v => v.1 = k ∧ v.2.2 = t)).filter (fun x => a x = 1)))
      (((List.range cals.length).filter (fun i => team (k, i, t))).map (fun i => (k, i, t))) := by
    refine (List.perm_ext_iff_of_nodup ((hv.filter _).filter _) ?_).2 ?_
    · refine (List.nodup_range.filter _).map ?_
      intro i j hij
      simp only [Prod.mk.injEq, and_true, true_and] at hij
      exact hij
    · rintro ⟨x, i, y⟩
      simp only [List.mem_filter, decide_eq_true_eq, List.mem_map, List.mem_range, ht, Prod.mk.injEq]
      constructor
      · rintro ⟨⟨h1, rfl, rfl⟩, h2⟩
        refine ⟨i, ⟨?_, h1, h2⟩, rfl, rfl, rfl⟩
        obtain ⟨_, _, c, hc, _, cal, hcal, _⟩ := (hm _).1 h1
        have : c = cals := by
          have hget := (List.nodup_map_iff_inj_on (List.Nodup.of_map _ hw.units)).1 hw.units _ hc _ hk rfl
          cases hget; rfl
        subst this
        exact (List.getElem?_eq_some_iff.1 hcal).1
      · rintro ⟨j, ⟨_, h1, h2⟩, rfl, rfl, rfl⟩
        exact ⟨⟨h1, rfl, rfl⟩, h2⟩
  rw [hperm.length_eq, List.length_map]

/-- C200: every assignment the program allows is a team. -/
theorem C200_sound {D : Data} {cliques : List (List Nat)} {p : Program Var} (hw : WF D) (hc : Cliques D cliques)
    (h : init D cliques = .ok p) {a : Var → Int} (ha : p.Feasible a) :
    ∃ team, Good D team ∧ ∀ v k, (v, k) ∈ p.vars → a v = if team v = true then 1 else 0 := by
  obtain ⟨vs, hp, hv, hm, hf⟩ := init_ok hw h
  obtain ⟨h01, hn, ho⟩ := (hf a).1 ha
  have ht : ∀ v, decide (v ∈ vs ∧ a v = 1) = true ↔ v ∈ vs ∧ a v = 1 := fun v => decide_eq_true_iff
  refine ⟨fun v => decide (v ∈ vs ∧ a v = 1), ⟨?_, ?_, ?_⟩, ?_⟩
  · intro k i t hkt
    obtain ⟨h1, _, cals, h3, h4, cal, h5, h6⟩ := (hm _).1 ((ht _).1 hkt).1
    exact ⟨h1, h4, cals, cal, h3, h5, h6⟩
  · intro k cals t hk htj hnd
    rw [← count_eq hw hv hm h01 ht hk]
    exact hn t htj k cals hk hnd
  · rintro k i t t' h1 h2 hne ⟨m, m1, m2, m3, m4⟩
    obtain ⟨h1, a1⟩ := (ht _).1 h1
    obtain ⟨h2, a2⟩ := (ht _).1 h2
    have hmeet : meets D t t' = true := by
      simp only [meets, Bool.not_eq_true', Bool.or_eq_false_iff, decide_eq_false_iff_not]
      omega
    obtain ⟨c, hcc, hc1, hc2⟩ := hc.all t t' ((hm _).1 h1).1 ((hm _).1 h2).1 hne hmeet
    exact hne (ho c hcc k i t t' h1 h2 hc1 hc2 a1 a2)
  · intro v k hk
    rw [hp] at hk
    obtain ⟨w, hw', he⟩ := List.mem_map.1 hk
    cases he
    rcases h01 v hw' with h | h <;> simp [h, hw']

/-- C200, partial: every team is allowed when the activities take time. -/
theorem C200_complete_partial {D : Data} {cliques : List (List Nat)} {p : Program Var} (hw : WF D) (hc : Cliques D cliques)
    (hpos : ∀ t, t ∈ D.jobs → (D.time t).1 < (D.time t).2)
    (h : init D cliques = .ok p) {team : Var → Bool} (hg : Good D team) : p.Feasible (fun v => if team v = true then 1 else 0) := by
  obtain ⟨vs, hp, hv, hm, hf⟩ := init_ok hw h
  have h01 : ∀ v, v ∈ vs → (if team v = true then (1 : Int) else 0) = 0 ∨ (if team v = true then (1 : Int) else 0) = 1 := by
    intro v _; split <;> simp
  have ht : ∀ v, team v = true ↔ v ∈ vs ∧ (if team v = true then (1 : Int) else 0) = 1 := by
    rintro ⟨k, i, t⟩
    constructor
    · intro hteam
      obtain ⟨h1, h2, cals, cal, h3, h4, h5⟩ := hg.able k i t hteam
      exact ⟨(hm _).2 ⟨h1, rfl, cals, h3, h2, cal, h4, h5⟩, by simp [hteam]⟩
    · rintro ⟨_, h⟩
      by_contra hc
      simp [hc] at h
  refine (hf _).2 ⟨h01, ?_, ?_⟩
  · intro t htj k cals hk hnd
    rw [count_eq hw hv hm h01 ht hk]
    exact hg.enough k cals t hk htj hnd
  · intro c hcc k i t t' h1 h2 hc1 hc2 a1 a2
    by_contra hne
    have hmeet := hc.meet c hcc t t' hc1 hc2 hne
    simp only [meets, Bool.not_eq_true', Bool.or_eq_false_iff, decide_eq_false_iff_not] at hmeet
    have p1 := hpos t ((hm _).1 h1).1
    have p2 := hpos t' ((hm _).1 h2).1
    refine hg.apart k i t t' ((ht _).2 ⟨h1, a1⟩) ((ht _).2 ⟨h2, a2⟩) hne ⟨max (D.time t).1 (D.time t').1, ?_⟩
    omega

/-- Two activities needing a worker, the second of no length inside the first. -/
def stop : Data :=
  { jobs := [1, 2], time := fun t => if t = 1 then (0, 2) else (1, 1), units := [("w", [[true, true, true]])], need := fun _ _ => 1 }

/-- The team for it. -/
def all : Var → Bool := fun v => v = ("w", 0, 1) ∨ v = ("w", 0, 2)

/-- C200, refuted: an activity of no length inside another one counts as meeting it, so the only team is not allowed. -/
theorem C200_zero_refuted : ∃ p, init stop [[1, 2]] = .ok p ∧ WF stop ∧ Cliques stop [[1, 2]] ∧ Good stop all ∧ ∀ a, ¬ p.Feasible a := by
  refine ⟨{ vars := [(("w", 0, 1), .binary), (("w", 0, 2), .binary)],
            rows := [⟨[(1, ("w", 0, 1))], .eq, 1⟩, ⟨[(1, ("w", 0, 2))], .eq, 1⟩,
              ⟨[(1, ("w", 0, 1)), (1, ("w", 0, 2))], .le, 1⟩, ⟨[(1, ("w", 0, 1)), (1, ("w", 0, 2))], .le, 1⟩],
            objective := [] }, by decide +kernel, ⟨by decide, by decide⟩, ⟨?_, ?_⟩, ⟨?_, ?_, ?_⟩, ?_⟩
  · intro c hc t t' h1 h2 hne
    simp only [List.mem_singleton] at hc
    subst hc
    simp only [List.mem_cons, List.not_mem_nil, or_false] at h1 h2
    rcases h1 with rfl | rfl <;> rcases h2 with rfl | rfl <;> first | exact absurd rfl hne | decide
  · intro t t' h1 h2 _ _
    exact ⟨[1, 2], by simp, h1, h2⟩
  · intro k i t h
    simp only [all, decide_eq_true_eq, Prod.mk.injEq] at h
    rcases h with ⟨rfl, rfl, rfl⟩ | ⟨rfl, rfl, rfl⟩
    · refine ⟨by decide, by decide, _, [true, true, true], List.mem_singleton.2 rfl, rfl, ?_⟩
      intro m _ h2
      have : m < 2 := h2
      rcases (by omega : m = 0 ∨ m = 1) with rfl | rfl <;> rfl
    · refine ⟨by decide, by decide, _, [true, true, true], List.mem_singleton.2 rfl, rfl, ?_⟩
      intro m h1 h2
      have h1 : 1 ≤ m := h1
      have h2 : m < 1 := h2
      omega
  · intro k cals t hk ht _
    simp only [stop, List.mem_singleton, Prod.mk.injEq] at hk
    obtain ⟨rfl, rfl⟩ := hk
    simp only [stop, List.mem_cons, List.not_mem_nil, or_false] at ht
    rcases ht with rfl | rfl <;> decide
  · rintro k i t t' h1 h2 hne ⟨m, m1, m2, m3, m4⟩
    simp only [all, decide_eq_true_eq, Prod.mk.injEq] at h1 h2
    rcases h1 with ⟨rfl, rfl, rfl⟩ | ⟨rfl, rfl, rfl⟩ <;> rcases h2 with ⟨_, _, rfl⟩ | ⟨_, _, rfl⟩
    · exact hne rfl
    · have a : 1 ≤ m := m3
      have b : m < 1 := m4
      omega
    · have a : 1 ≤ m := m1
      have b : m < 1 := m2
      omega
    · exact hne rfl
  · rintro a ⟨_, h⟩
    have h1 := h ⟨[(1, ("w", 0, 1))], .eq, 1⟩ (by simp)
    have h2 := h ⟨[(1, ("w", 0, 2))], .eq, 1⟩ (by simp)
    have h3 := h ⟨[(1, ("w", 0, 1)), (1, ("w", 0, 2))], .le, 1⟩ (by simp)
    simp only [Row.Holds, Lin.value, List.map_cons, List.map_nil, List.sum_cons, List.sum_nil] at h1 h2 h3
    omega

/-- C200: with calendars long enough, `KeyError` is raised exactly if nobody is free for the first resource some activity needs. -/
theorem C200_nobody_raises {D : Data} {cliques : List (List Nat)}
    (hlen : ∀ t, t ∈ D.jobs → ∀ k cals, (k, cals) ∈ D.units → ∀ cal, cal ∈ cals → (D.time t).2 ≤ cal.length) :
    (init D cliques = .error .keyError ↔ ∃ t, t ∈ D.jobs ∧ ∃ pre k cals post, D.units = pre ++ (k, cals) :: post ∧
      (∀ x, x ∈ pre → D.need t x.1 ≤ 0) ∧ 0 < D.need t k ∧
      ∀ cal, cal ∈ cals → ∃ m, (D.time t).1 ≤ m ∧ m < (D.time t).2 ∧ cal[m]? = some false) ∧
    ∀ e, init D cliques = .error e → e = .keyError := by
  have hj : ∀ (ts : List Nat) (vs : List Var) (rows : List (Row Var)), (∀ t, t ∈ ts → t ∈ D.jobs) →
      (jobsLoop D ts vs rows = .error .keyError ∧ ∃ t, t ∈ ts ∧ Short D t D.units) ∨
        ((∃ r, jobsLoop D ts vs rows = .ok r) ∧ ∀ t, t ∈ ts → ¬ Short D t D.units) := by
    intro ts
    induction ts with
    | nil => intro vs rows _; exact .inr ⟨⟨_, rfl⟩, by simp⟩
    | cons t ts ih =>
      intro vs rows hts
      simp only [jobsLoop]
      rcases taskLoop_cases (hlen t (hts t (by simp))) [] [] with ⟨h1, _, h2⟩ | ⟨⟨r, h1⟩, h2⟩
      · exact .inl ⟨by rw [h1]; rfl, t, by simp, h2⟩
      · rw [h1]
        have h2 : ¬ Short D t D.units := fun h => h2 ⟨rfl, h⟩
        rcases ih (vs ++ r.1) (rows ++ r.2) (fun x hx => hts x (List.mem_cons_of_mem _ hx)) with ⟨h3, t', h4, h5⟩ | ⟨h3, h4⟩
        · exact .inl ⟨h3, t', List.mem_cons_of_mem _ h4, h5⟩
        · refine .inr ⟨h3, ?_⟩
          intro t' ht'
          rcases List.mem_cons.1 ht' with rfl | ht'
          · exact h2
          · exact h4 t' ht'
  have hs : ∀ t, Short D t D.units ↔ ∃ pre k cals post, D.units = pre ++ (k, cals) :: post ∧ (∀ x, x ∈ pre → D.need t x.1 ≤ 0) ∧
      0 < D.need t k ∧ ∀ cal, cal ∈ cals → ∃ m, (D.time t).1 ≤ m ∧ m < (D.time t).2 ∧ cal[m]? = some false := fun t => short_iff
  simp only [← hs]
  rcases hj D.jobs [] [] (fun _ h => h) with ⟨h1, h2⟩ | ⟨⟨r, h1⟩, h2⟩
  · have hi : init D cliques = .error .keyError := by unfold init; rw [h1]; rfl
    refine ⟨⟨fun _ => h2, fun _ => hi⟩, ?_⟩
    intro e he
    rw [hi] at he
    cases he; rfl
  · have hi : ∃ p, init D cliques = .ok p := by unfold init; rw [h1]; exact ⟨_, rfl⟩
    obtain ⟨p, hi⟩ := hi
    refine ⟨⟨fun h => ?_, ?_⟩, fun e he => ?_⟩
    · rw [hi] at h; cases h
    · rintro ⟨t, ht, hs⟩; exact absurd hs (h2 t ht)
    · rw [hi] at he; cases he

/-- A shift: two workers and a crane; the second worker is away at time 1. -/
def shift : Data :=
  { jobs := [1, 2, 3], time := fun t => if t = 1 then (0, 2) else if t = 2 then (1, 3) else (2, 4),
    units := [("w", [[true, true, true, true], [true, true, true, false], [false, true, true, true]]), ("c", [[true, true, true, true]])],
    need := fun t k => if k = "w" then 1 else if t = 2 then 0 else 1 }

/-- A team for it. -/
def crew : Var → Bool := fun v => v ∈ [("w", 0, 1), ("c", 0, 1), ("w", 1, 2), ("w", 2, 3), ("c", 0, 3)]

example : ∃ p, init shift [[1, 2], [2, 3]] = .ok p ∧
    p.vars.map Prod.fst = [("w", 0, 1), ("w", 1, 1), ("c", 0, 1), ("w", 0, 2), ("w", 1, 2), ("w", 2, 2), ("w", 0, 3), ("w", 2, 3), ("c", 0, 3)] ∧
    p.rows.take 5 = [⟨[(1, ("w", 0, 1)), (1, ("w", 1, 1))], .eq, 1⟩, ⟨[(1, ("c", 0, 1))], .eq, 1⟩,
      ⟨[(1, ("w", 0, 2)), (1, ("w", 1, 2)), (1, ("w", 2, 2))], .eq, 1⟩, ⟨[(1, ("w", 0, 3)), (1, ("w", 2, 3))], .eq, 1⟩, ⟨[(1, ("c", 0, 3))], .eq, 1⟩] ∧
    p.Feasible (fun v => if crew v = true then 1 else 0) := by
  refine ⟨_, rfl, by decide +kernel, by decide +kernel, ?_, ?_⟩
  · intro v k hk
    have : k = .binary := by
      have h : ∀ x, x ∈ (jobsLoop shift shift.jobs [] []).toOption.elim [] (fun r => r.1.map (fun v => (v, Kind.binary))) → x.2 = .binary := by
        decide +kernel
      exact h (v, k) hk
    subst this
    simp only [Kind.Allows]
    split <;> simp
  · intro r hr
    have h : ∀ x, x ∈ (init shift [[1, 2], [2, 3]]).toOption.elim [] (fun p => p.rows) →
        (match x.cmp with
          | .le => decide (x.terms.value (fun v => if crew v = true then 1 else 0) ≤ x.rhs)
          | .ge => decide (x.terms.value (fun v => if crew v = true then 1 else 0) ≥ x.rhs)
          | .eq => decide (x.terms.value (fun v => if crew v = true then 1 else 0) = x.rhs)) = true := by
      decide +kernel
    have h' := h r hr
    unfold Row.Holds
    split at h' <;> simp_all

example : meets shift 1 2 = true ∧ meets shift 2 1 = true ∧ meets shift 1 3 = false ∧ meets shift 3 2 = true :=
  ⟨by decide +kernel, by decide +kernel, by decide +kernel, by decide +kernel⟩

/-- Nobody free, a calendar too short, and a second resource nobody is free for (a row without variables instead of an error). -/
example : init { shift with units := [("w", [[true, false, true, true]])] } [] = .error .keyError ∧
    init { shift with units := [("w", [[true, true, true]])] } [] = .error .indexError ∧
    (init { shift with jobs := [1], units := [("w", [[true, true]]), ("c", [[true, false]])] } [[1]]).toOption.map (fun p => p.rows) =
      some [⟨[(1, ("w", 0, 1))], .eq, 1⟩, ⟨[], .eq, 1⟩, ⟨[(1, ("w", 0, 1))], .le, 1⟩] :=
  ⟨by decide +kernel, by decide +kernel, by decide +kernel⟩

end Verif.GanttLp
