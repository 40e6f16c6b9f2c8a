import Verif.Lemmas.LpLnsRcpsp
/- Property C119: the neighbourhoods of the searches for projects. -/
namespace Verif.LpLns
open Verif.Milp Verif.RcpspLp Verif.Rcpsp

/-- `top` is the latest end of the schedule. -/
def Latest (sch : Schedule) (top : Int) : Prop :=
  (∃ k s, sch.get? k = some (s, top)) ∧ ∀ k s e, sch.get? k = some (s, e) → e ≤ top

/-- Each task drawn that ends more than five before the end of `sch` starts in `sch'` at most `minus` before and `plus` after its start in `sch`, and
not after the end of `sch`. -/
def Near (sch : Schedule) (jobs : List Nat) (minus plus : Int) (sch' : Schedule) : Prop :=
  ∀ top, Latest sch top → ∀ job, job ∈ jobs → ∀ s e, sch.get? job = some (s, e) → e < top - 5 → ∀ s' e', sch'.get? job = some (s', e') →
    s - minus ≤ s' ∧ s' ≤ s + plus ∧ s' ≤ top

theorem latest_unique {sch : Schedule} {t u : Int} (h : Latest sch t) (h' : Latest sch u) : t = u := by
  obtain ⟨⟨k, s, hk⟩, h1⟩ := h
  obtain ⟨⟨k', s', hk'⟩, h2⟩ := h'
  have := h1 _ _ _ hk'
  have := h2 _ _ _ hk
  omega

theorem near_self {pb : Problem} {T : Nat} {modes : List Nat} {sch : Schedule} (hp : Plan pb T modes sch) {jobs : List Nat} {minus plus : Int}
    (hm : 0 ≤ minus) (hpl : 0 ≤ plus) : Near sch jobs minus plus sch := by
  intro top ht job _ s e h1 _ s' e' h2
  rw [h1] at h2
  cases h2
  obtain ⟨d, k, m, -, -, -, -, h5⟩ := hp.times job s e h1
  have := ht.2 _ _ _ h1
  omega

theorem near_congr {sch sch1 sch2 : Schedule} {jobs : List Nat} {minus plus : Int} (h : ∀ j, sch1.get? j = sch2.get? j)
    (hn : Near sch jobs minus plus sch2) : Near sch jobs minus plus sch1 := by
  intro top ht job hj s e h1 h2 s' e' h3
  rw [h] at h3
  exact hn top ht job hj s e h1 h2 s' e' h3

theorem schedOf_range {pb : Problem} {md st : Nat → Nat} {j : Nat} {q : Int × Int} (h : (schedOf pb md st (allTasks pb)).get? j = some q) :
    j ∈ allTasks pb := by
  have : j ∈ (schedOf pb md st (allTasks pb)).keys := by rw [← Dict.get?_isSome_iff_mem_keys, h]; rfl
  simpa [schedOf, Dict.keys, Function.comp_def] using this

/-! ### Several modes -/

/-- C119: with several modes the rows leave exactly the plans of the program that start the tasks drawn near their present start; the tasks of the last five
time units are free. -/
theorem C119_multi_exact {pb : Problem} (w : Project pb) {T : Nat} (hg : Given pb T) {ps : Option Partial} {P : Program Var}
    (hP : multi pb T ps = .ok P) {vd : Dict Nat (List Key)} (hvd : varDict pb T = .ok vd) {sch : Schedule} (h : Scheduled pb.modes.length sch)
    {jobs : List Nat} (hj : ∀ j, j ∈ jobs → 1 ≤ j ∧ j ≤ pb.modes.length) (minus plus : Int) :
    ∃ rows, intervalRowsMulti vd sch jobs minus plus = .ok rows ∧ ∀ a, (withRows P rows).Feasible a ↔
      P.Feasible a ∧ ∀ sch' modes', retrieve pb T a = .ok (sch', modes') → Near sch jobs minus plus sch' := by
  obtain ⟨rows, top, ht1, ht2, hrows, hmem⟩ := intervalRowsMulti_mem w hvd h hj minus plus
  refine ⟨rows, hrows, fun a => ?_⟩
  rw [feasible_with]
  refine and_congr_right fun ha => ?_
  obtain ⟨extra, -, rfl⟩ := multi_inv w hg hP
  obtain ⟨md, st, hpk⟩ := exists_picks w ha
  have hret := retrieve_eq w hpk
  constructor
  · intro hr sch' modes' hret' u hu job hjob s e hq hlt s' e' hq'
    have := latest_unique hu ⟨ht1, ht2⟩
    subst this
    rw [hret] at hret'
    cases hret'
    have hin := schedOf_range hq'
    rw [sched_get hin] at hq'
    cases hq'
    obtain ⟨hmd, hst, -, hx⟩ := hpk job hin
    have hk : (job, md job, st job) ∈ keysOf pb T job := mem_keysOf.2 ⟨rfl, hmd, hst⟩
    cases ho : outside s minus plus u (st job) with
    | false => exact outside_iff.1 ho
    | true =>
      have := hr _ ((hmem _).2 ⟨job, s, e, _, hjob, hq, hlt, hk, ho, rfl⟩)
      rw [fixed_holds, hx _ hk, if_pos rfl] at this
      cases this
  · intro hr r hr'
    obtain ⟨job, s, e, k, hjob, hq, hlt, hk, ho, rfl⟩ := (hmem r).1 hr'
    have hin := mem_allTasks.2 (hj job hjob)
    have hnear := hr _ _ hret top ⟨ht1, ht2⟩ job hjob s e hq hlt _ _ (sched_get hin)
    rw [fixed_holds, (hpk job hin).2.2.2 k hk]
    split
    · rename_i hkk
      rw [hkk] at ho
      rw [outside_iff.2 hnear] at ho
      cases ho
    · rfl

/-- C119: with several modes, when the deltas are not negative and the incumbent is a plan that starts within the times of the program, it stays possible, and a
best assignment is a plan near it whose last task starts no later than in any plan of those times near the incumbent, so no later than in the incumbent. -/
theorem C119_multi_best {pb : Problem} (w : Project pb) (hends : EndModes pb) {T : Nat} (hg : Given pb T) {P : Program Var}
    (hP : multi pb T none = .ok P) {vd : Dict Nat (List Key)} (hvd : varDict pb T = .ok vd) {sch : Schedule} {modes : List Nat} (hp : Plan pb T modes sch)
    (hs : ∀ j s e, sch.get? j = some (s, e) → s < T) {jobs : List Nat} (hj : ∀ j, j ∈ jobs → j ∈ sch.keys) {minus plus : Int}
    (hm : 0 ≤ minus) (hpl : 0 ≤ plus) :
    ∃ rows, intervalRowsMulti vd sch jobs minus plus = .ok rows ∧
      (∃ a sch', (withRows P rows).Feasible a ∧ retrieve pb T a = .ok (sch', modes) ∧ ∀ j, sch'.get? j = sch.get? j) ∧
      ∀ a, (withRows P rows).Least a → ∃ sch' modes', retrieve pb T a = .ok (sch', modes') ∧ Plan pb T modes' sch' ∧ Near sch jobs minus plus sch' ∧
        ∀ modes2 sch2, Plan pb T modes2 sch2 → (∀ j s e, sch2.get? j = some (s, e) → s < T) → Near sch jobs minus plus sch2 →
          ∀ s e s2 e2, sch'.get? pb.modes.length = some (s, e) → sch2.get? pb.modes.length = some (s2, e2) → s ≤ s2 := by
  obtain ⟨rows, hrows, hiff⟩ := C119_multi_exact w hg hP hvd hp.tasks (fun j h => (hp.tasks.2 j).1 (hj j h)) minus plus
  have back : ∀ {modes2 sch2}, Plan pb T modes2 sch2 → (∀ j s e, sch2.get? j = some (s, e) → s < T) → Near sch jobs minus plus sch2 →
      ∃ a sch', (withRows P rows).Feasible a ∧ retrieve pb T a = .ok (sch', modes2) ∧ ∀ j, sch'.get? j = sch2.get? j := by
    intro modes2 sch2 h1 h2 h3
    obtain ⟨a, sch', k1, k2, k3⟩ := C112_complete w hg hP h1 h2
    refine ⟨a, sch', (hiff a).2 ⟨k1, fun s2 m2 hr => ?_⟩, k2, k3⟩
    rw [k2] at hr; cases hr
    exact near_congr k3 h3
  refine ⟨rows, hrows, back hp hs (near_self hp hm hpl), ?_⟩
  rintro a ⟨ha, hleast⟩
  obtain ⟨h1, h2⟩ := (hiff a).1 ha
  obtain ⟨sch', modes', g1, g2, -, e0, g3⟩ := C112_sound w hends hg hP h1
  refine ⟨sch', modes', g1, g2, h2 _ _ g1, ?_⟩
  intro modes2 sch2 k1 k2 k3 s e s2 e2 q1 q2
  obtain ⟨b, sch3, b1, b2, b3⟩ := back k1 k2 k3
  have := hleast b b1
  obtain ⟨sch4, m4, c1, -, -, e4, c2⟩ := C112_sound w hends hg hP ((hiff b).1 b1).1
  rw [b2] at c1; cases c1
  rw [b3, q2] at c2
  cases c2
  rw [g3] at q1
  cases q1
  exact this

/-- C119: the incumbent of the search with several modes is the shorter one of the start solution and the best solution found. -/
theorem C119_incumbent (makespan : Schedule → Int) (start best : Schedule) :
    (incumbent (makespan start) (makespan best) start best = start ∨ incumbent (makespan start) (makespan best) start best = best) ∧
    makespan (incumbent (makespan start) (makespan best) start best) ≤ makespan start ∧
    makespan (incumbent (makespan start) (makespan best) start best) ≤ makespan best := by
  unfold incumbent
  split
  · exact ⟨.inl rfl, Int.le_refl _, by omega⟩
  · exact ⟨.inr rfl, by omega, Int.le_refl _⟩

/-! ### One mode -/

theorem singleWith_inv {pb : Problem} (w : Project pb) (h1 : OneMode pb) (hc : Constant pb) {H : Nat} {P : Program (Nat × Nat)}
    (hP : singleWith pb H none = .ok P) : P = sprog pb H := by
  rw [singleWith, single_eq w h1 hc H] at hP
  cases hP
  rfl

/-- C119: with one mode the rows leave exactly the plans of the program that start the tasks drawn near their present start. -/
theorem C119_single_exact {pb : Problem} (w : Project pb) (h1 : OneMode pb) (hc : Constant pb) {H : Nat} {P : Program (Nat × Nat)}
    (hP : singleWith pb H none = .ok P) {sch : Schedule} (h : Scheduled pb.modes.length sch)
    {jobs : List Nat} (hj : ∀ j, j ∈ jobs → 1 ≤ j ∧ j ≤ pb.modes.length) (minus plus : Int) :
    ∃ rows, intervalRows pb.modes.length H sch jobs minus plus = .ok rows ∧ ∀ a, (withRows P rows).Feasible a ↔
      P.Feasible a ∧ ∀ sch', readSingle pb pb.modes.length H a = .ok sch' → Near sch jobs minus plus sch' := by
  have htwo := w.two
  obtain ⟨rows, top, ht1, ht2, hrows, hmem⟩ := intervalRows_mem (n := pb.modes.length) (by omega) H h hj minus plus
  refine ⟨rows, hrows, fun a => ?_⟩
  rw [feasible_with]
  refine and_congr_right fun ha => ?_
  cases singleWith_inv w h1 hc hP
  obtain ⟨st, hpk⟩ := exists_picksS ha
  have hret := readSingle_eq w h1 hpk
  constructor
  · intro hr sch' hret' u hu job hjob s e hq hlt s' e' hq'
    have := latest_unique hu ⟨ht1, ht2⟩
    subst this
    rw [hret] at hret'
    cases hret'
    have hin := schedOf_range hq'
    rw [sched_get hin] at hq'
    cases hq'
    obtain ⟨hst, hx⟩ := hpk job hin
    cases ho : outside s minus plus u (st job) with
    | false => exact outside_iff.1 ho
    | true =>
      have := hr _ ((hmem _).2 ⟨job, s, e, _, hjob, hq, hlt, hst, ho, rfl⟩)
      rw [fixed_holds, hx _ hst, if_pos rfl] at this
      cases this
  · intro hr r hr'
    obtain ⟨job, s, e, t, hjob, hq, hlt, ht, ho, rfl⟩ := (hmem r).1 hr'
    have hin := mem_allTasks.2 (hj job hjob)
    have hnear := hr _ hret top ⟨ht1, ht2⟩ job hjob s e hq hlt _ _ (sched_get hin)
    rw [fixed_holds, (hpk job hin).2 t ht]
    split
    · rename_i hkk
      rw [hkk] at ho
      rw [outside_iff.2 hnear] at ho
      cases ho
    · rfl

/-- C119: with one mode and renewable resources only, when the deltas are not negative and the incumbent is a plan that starts within the times of the program, it
stays possible, and a best assignment is a plan near it whose last task starts no later than in any plan of those times near the incumbent. -/
theorem C119_single_best {pb : Problem} (w : Project pb) (h1 : OneMode pb) (hc : Constant pb) (hnr : pb.nonRenewable = [])
    (hneeds : ∀ j d k m res n, pb.modes.get? j = some d → d.get? k = some m → m.needs.get? res = some n → 0 ≤ n)
    {H : Nat} {P : Program (Nat × Nat)} (hP : singleWith pb H none = .ok P) {sch : Schedule} {modes : List Nat} (hp : Plan pb (H + 1) modes sch)
    (hs : ∀ j s e, sch.get? j = some (s, e) → s ≤ H) {jobs : List Nat} (hj : ∀ j, j ∈ jobs → j ∈ sch.keys) {minus plus : Int}
    (hm : 0 ≤ minus) (hpl : 0 ≤ plus) :
    ∃ rows, intervalRows pb.modes.length H sch jobs minus plus = .ok rows ∧
      (∃ a sch', (withRows P rows).Feasible a ∧ readSingle pb pb.modes.length H a = .ok sch' ∧ ∀ j, sch'.get? j = sch.get? j) ∧
      ∀ a, (withRows P rows).Least a → ∃ sch', readSingle pb pb.modes.length H a = .ok sch' ∧
        (∀ T, Plan pb T (List.replicate (pb.modes.length - 2) 1) sch') ∧ Near sch jobs minus plus sch' ∧
        ∀ modes2 sch2, Plan pb (H + 1) modes2 sch2 → (∀ j s e, sch2.get? j = some (s, e) → s ≤ H) → Near sch jobs minus plus sch2 →
          ∀ s e s2 e2, sch'.get? pb.modes.length = some (s, e) → sch2.get? pb.modes.length = some (s2, e2) → s ≤ s2 := by
  obtain ⟨rows, hrows, hiff⟩ := C119_single_exact w h1 hc hP hp.tasks (fun j h => (hp.tasks.2 j).1 (hj j h)) minus plus
  have back : ∀ {modes2 sch2}, Plan pb (H + 1) modes2 sch2 → (∀ j s e, sch2.get? j = some (s, e) → s ≤ H) → Near sch jobs minus plus sch2 →
      ∃ a sch', (withRows P rows).Feasible a ∧ readSingle pb pb.modes.length H a = .ok sch' ∧ ∀ j, sch'.get? j = sch2.get? j := by
    intro modes2 sch2 g1 g2 g3
    obtain ⟨a, sch', k1, k2, k3⟩ := C111_complete_partial w h1 hc hnr hP g1 g2
    refine ⟨a, sch', (hiff a).2 ⟨k1, fun s2 hr => ?_⟩, k2, k3⟩
    rw [k2] at hr; cases hr
    exact near_congr k3 g3
  refine ⟨rows, hrows, back hp hs (near_self hp hm hpl), ?_⟩
  rintro a ⟨ha, hleast⟩
  obtain ⟨h2, h3⟩ := (hiff a).1 ha
  obtain ⟨sch', g1, g2, -, e0, g3⟩ := C111_sound_partial w h1 hc hnr hneeds hP h2
  refine ⟨sch', g1, g2, h3 _ g1, ?_⟩
  intro modes2 sch2 k1 k2 k3 s e s2 e2 q1 q2
  obtain ⟨b, sch3, b1, b2, b3⟩ := back k1 k2 k3
  have := hleast b b1
  obtain ⟨sch4, c1, -, -, e4, c2⟩ := C111_sound_partial w h1 hc hnr hneeds hP ((hiff b).1 b1).1
  rw [b2] at c1; cases c1
  rw [b3, q2] at c2
  cases c2
  rw [g3] at q1
  cases q1
  exact this

/-- C119: a task drawn (not of the last five time units) whose window is after the times of the program leaves no plan at all.  The times end at the makespan of the
greedy start solution of the solver, and the incumbent of the search may be longer. -/
theorem C119_single_horizon_refuted {pb : Problem} (w : Project pb) (h1 : OneMode pb) (hc : Constant pb) {H : Nat} {P : Program (Nat × Nat)}
    (hP : singleWith pb H none = .ok P) {sch : Schedule} (h : Scheduled pb.modes.length sch)
    {jobs : List Nat} (hj : ∀ j, j ∈ jobs → 1 ≤ j ∧ j ≤ pb.modes.length) {minus plus top : Int} (ht : Latest sch top) {job : Nat} (hjob : job ∈ jobs) {s e : Int}
    (hq : sch.get? job = some (s, e)) (he : e < top - 5) (hlate : H < s - minus) :
    ∃ rows, intervalRows pb.modes.length H sch jobs minus plus = .ok rows ∧ ¬ ∃ a, (withRows P rows).Feasible a := by
  obtain ⟨rows, hrows, hiff⟩ := C119_single_exact w h1 hc hP h hj minus plus
  refine ⟨rows, hrows, ?_⟩
  rintro ⟨a, ha⟩
  obtain ⟨h2, h3⟩ := (hiff a).1 ha
  cases singleWith_inv w h1 hc hP
  obtain ⟨st, hpk⟩ := exists_picksS h2
  have hin := mem_allTasks.2 (hj job hjob)
  have hn := h3 _ (readSingle_eq w h1 hpk) top ht job hjob s e hq he _ _ (sched_get hin)
  have := (hpk job hin).1
  omega

/-! ### Fixed starts -/

/-- C119: the rows for fixed starts leave exactly the plans of the program that start the tasks drawn when they start now. -/
theorem C119_fix_exact {pb : Problem} (w : Project pb) (h1 : OneMode pb) (hc : Constant pb) {H : Nat} {P : Program (Nat × Nat)}
    (hP : singleWith pb H none = .ok P) {sch : Schedule} (h : Scheduled pb.modes.length sch)
    {jobs : List Nat} (hj : ∀ j, j ∈ jobs → 1 ≤ j ∧ j ≤ pb.modes.length) :
    ∃ rows, fixStartRows pb.modes.length H sch jobs = .ok rows ∧ ∀ a, (withRows P rows).Feasible a ↔
      P.Feasible a ∧ ∀ sch', readSingle pb pb.modes.length H a = .ok sch' → ∀ job, job ∈ jobs → ∀ s e s' e', sch.get? job = some (s, e) →
        sch'.get? job = some (s', e') → s' = s := by
  obtain ⟨rows, hrows, hmem⟩ := fixStartRows_mem H h hj
  refine ⟨rows, hrows, fun a => ?_⟩
  rw [feasible_with]
  refine and_congr_right fun ha => ?_
  cases singleWith_inv w h1 hc hP
  obtain ⟨st, hpk⟩ := exists_picksS ha
  have hret := readSingle_eq w h1 hpk
  constructor
  · intro hr sch' hret' job hjob s e s' e' hq hq'
    rw [hret] at hret'
    cases hret'
    have hin := schedOf_range hq'
    rw [sched_get hin] at hq'
    cases hq'
    obtain ⟨hst, hx⟩ := hpk job hin
    have := hr _ ((hmem _).2 ⟨job, s, e, _, hjob, hq, hst, rfl⟩)
    rw [fixed_holds, hx _ hst, if_pos rfl] at this
    split at this
    · rename_i he; exact he.symm
    · cases this
  · intro hr r hr'
    obtain ⟨job, s, e, t, hjob, hq, ht, rfl⟩ := (hmem r).1 hr'
    have hin := mem_allTasks.2 (hj job hjob)
    have heq := hr _ hret job hjob s e _ _ hq (sched_get hin)
    rw [fixed_holds, (hpk job hin).2 t ht, ← heq]
    by_cases he : t = st job
    · simp [he]
    · have : ¬ ((st job : Int) = (t : Int)) := by omega
      simp [he, this]

/-- C119: with fixed starts the incumbent stays possible when it starts within the times of the program. -/
theorem C119_fix_incumbent {pb : Problem} (w : Project pb) (h1 : OneMode pb) (hc : Constant pb) (hnr : pb.nonRenewable = [])
    {H : Nat} {P : Program (Nat × Nat)} (hP : singleWith pb H none = .ok P) {sch : Schedule} {modes : List Nat} (hp : Plan pb (H + 1) modes sch)
    (hs : ∀ j s e, sch.get? j = some (s, e) → s ≤ H) {jobs : List Nat} (hj : ∀ j, j ∈ jobs → j ∈ sch.keys) :
    ∃ rows, fixStartRows pb.modes.length H sch jobs = .ok rows ∧
      ∃ a sch', (withRows P rows).Feasible a ∧ readSingle pb pb.modes.length H a = .ok sch' ∧ ∀ j, sch'.get? j = sch.get? j := by
  obtain ⟨rows, hrows, hiff⟩ := C119_fix_exact w h1 hc hP hp.tasks (fun j h => (hp.tasks.2 j).1 (hj j h))
  obtain ⟨a, sch', k1, k2, k3⟩ := C111_complete_partial w h1 hc hnr hP hp hs
  refine ⟨rows, hrows, a, sch', (hiff a).2 ⟨k1, fun s2 hr job _ s e s' e' q1 q2 => ?_⟩, k2, k3⟩
  rw [k2] at hr; cases hr
  rw [k3, q1] at q2
  cases q2; rfl

/-- C119: when the last task is drawn, no assignment improves the incumbent: all have its objective. -/
theorem C119_fix_last_refuted {pb : Problem} (w : Project pb) (h1 : OneMode pb) (hc : Constant pb) {H : Nat} {P : Program (Nat × Nat)}
    (hP : singleWith pb H none = .ok P) {sch : Schedule} (h : Scheduled pb.modes.length sch)
    {jobs : List Nat} (hj : ∀ j, j ∈ jobs → 1 ≤ j ∧ j ≤ pb.modes.length) (hl : pb.modes.length ∈ jobs) {s e : Int}
    (hq : sch.get? pb.modes.length = some (s, e)) :
    ∃ rows, fixStartRows pb.modes.length H sch jobs = .ok rows ∧ ∀ a, (withRows P rows).Feasible a → P.objective.value a = s := by
  obtain ⟨rows, hrows, hiff⟩ := C119_fix_exact w h1 hc hP h hj
  refine ⟨rows, hrows, fun a ha => ?_⟩
  obtain ⟨h2, h3⟩ := (hiff a).1 ha
  cases singleWith_inv w h1 hc hP
  obtain ⟨st, hpk⟩ := exists_picksS h2
  have hin := mem_allTasks.2 (hj _ hl)
  have heq := h3 _ (readSingle_eq w h1 hpk) _ hl _ _ _ _ hq (sched_get hin)
  rw [← heq]
  show (startTerms 1 H (pb.modes.length - 1)).value a = _
  rw [hpk.time hin]; omega

/-- C119: a task drawn that starts after the times of the program leaves no plan at all. -/
theorem C119_fix_horizon_refuted {pb : Problem} (w : Project pb) (h1 : OneMode pb) (hc : Constant pb) {H : Nat} {P : Program (Nat × Nat)}
    (hP : singleWith pb H none = .ok P) {sch : Schedule} (h : Scheduled pb.modes.length sch)
    {jobs : List Nat} (hj : ∀ j, j ∈ jobs → 1 ≤ j ∧ j ≤ pb.modes.length) {job : Nat} (hjob : job ∈ jobs) {s e : Int}
    (hq : sch.get? job = some (s, e)) (hlate : H < s) :
    ∃ rows, fixStartRows pb.modes.length H sch jobs = .ok rows ∧ ¬ ∃ a, (withRows P rows).Feasible a := by
  obtain ⟨rows, hrows, hiff⟩ := C119_fix_exact w h1 hc hP h hj
  refine ⟨rows, hrows, ?_⟩
  rintro ⟨a, ha⟩
  obtain ⟨h2, h3⟩ := (hiff a).1 ha
  cases singleWith_inv w h1 hc hP
  obtain ⟨st, hpk⟩ := exists_picksS h2
  have hin := mem_allTasks.2 (hj _ hjob)
  have heq := h3 _ (readSingle_eq w h1 hpk) _ hjob _ _ _ _ hq (sched_get hin)
  have := (hpk job hin).1
  omega

/-- C119: without a schedule (an infeasible incumbent has none) all three raise: the windows of several modes `ValueError`, the others `KeyError`. -/
theorem C119_no_schedule {n : Nat} (hn : 0 < n) (H : Nat) (vd : Dict Nat (List Key)) (jobs : List Nat) (minus plus : Int) :
    intervalRowsMulti vd [] jobs minus plus = .error .valueError ∧ intervalRows n H [] jobs minus plus = .error .keyError ∧
    fixStartRows n H [] jobs = .error .keyError := by
  obtain ⟨m, rfl⟩ : ∃ m, n = m + 1 := ⟨n - 1, by omega⟩
  have : mapE (fun j => Dict.get ([] : Schedule) (j + 1)) (List.range (m + 1)) = .error .keyError := by
    rw [List.range_succ_eq_map]; rfl
  refine ⟨rfl, ?_, ?_⟩
  · rw [intervalRows, this]; rfl
  · rw [fixStartRows, this]; rfl

/-! ### Examples -/

/-- The project with one tool and two tasks; started at 0 and 2. -/
theorem stock_plan (T : Nat) : Plan (stock []) T [1, 1] [(1, (0, 0)), (2, (0, 2)), (3, (2, 4)), (4, (4, 4))] :=
  valid_plan (stock_project [] (by simp)) (stock_one []).ends (fun _ hj => one_mem (stock_project [] (by simp)) (stock_one []) hj) (stock_valid T)

theorem stock_starts : ∀ j s e, Dict.get? [(1, ((0 : Int), (0 : Int))), (2, (0, 2)), (3, (2, 4)), (4, (4, 4))] j = some (s, e) → s ≤ 4 := by
  intro j s e h
  simp only [Dict.get?] at h
  split at h
  · cases h; decide
  · split at h
    · cases h; decide
    · split at h
      · cases h; decide
      · split at h
        · cases h; decide
        · cases h

example : ∃ P rows a sch, singleWith (stock []) 4 none = .ok P ∧
    intervalRows 4 4 [(1, (0, 0)), (2, (0, 2)), (3, (2, 4)), (4, (4, 4))] [2, 3] 2 2 = .ok rows ∧ (withRows P rows).Feasible a ∧
    readSingle (stock []) 4 4 a = .ok sch ∧ sch.get? 3 = some (2, 4) := by
  have w := stock_project [] (by simp)
  obtain ⟨P, hP⟩ := C111_built_partial w (stock_one []) (stock_constant []) 4
  obtain ⟨rows, h1, ⟨a, sch, h2, h3, h4⟩, -⟩ := C119_single_best w (stock_one []) (stock_constant []) rfl
    (by
      intro j d k m res n hd hm hn
      simp only [stock, Dict.get?] at hd
      repeat' split at hd
      all_goals (cases hd; try (simp only [Dict.get?] at hm; split at hm <;> cases hm; simp only [Dict.get?] at hn; split at hn <;> cases hn; decide)))
    hP (stock_plan 5) stock_starts (jobs := [2, 3]) (by decide) (minus := 2) (plus := 2) (by decide) (by decide)
  exact ⟨P, rows, a, sch, hP, h1, h2, h3, h4 3⟩

/-- The windows of the tasks 2 and 3 (task 3 ends within the last five): only the first one is bound, to the times 1 to 5. -/
example : intervalRows 4 8 [(1, (0, 0)), (2, (3, 5)), (3, (16, 18)), (4, (20, 20))] [2, 3] 2 2 =
    .ok ([0, 6, 7, 8].map (fun t => fixed (1, t) 0)) := by rfl

example : fixStartRows 4 4 [(1, (0, 0)), (2, (0, 2)), (3, (2, 4)), (4, (4, 4))] [3] =
    .ok [fixed (2, 0) 0, fixed (2, 1) 0, fixed (2, 2) 1, fixed (2, 3) 0, fixed (2, 4) 0] := by rfl

theorem late_scheduled : Scheduled 4 [(1, (0, 0)), (2, (10, 12)), (3, (0, 2)), (4, (20, 20))] :=
  ⟨by decide, fun a => by simp [Dict.keys]; omega⟩

/-- A plan that starts the second task at 10, of a program with times up to 4: no plan is left. -/
example : ∃ rows, intervalRows 4 4 [(1, (0, 0)), (2, (10, 12)), (3, (0, 2)), (4, (20, 20))] [2] 2 2 = .ok rows ∧
    ¬ ∃ a, (withRows (sprog (stock []) 4) rows).Feasible a := by
  have w := stock_project [] (by simp)
  refine C119_single_horizon_refuted w (stock_one []) (stock_constant []) (single_eq w (stock_one []) (stock_constant []) 4)
    late_scheduled (by intro j hj; simp at hj; subst hj; exact ⟨by decide, by show 2 ≤ 4; decide⟩) (top := 20) ⟨⟨4, 20, by decide⟩, ?_⟩ (List.mem_singleton.2 rfl) (s := 10) (e := 12) (by decide)
    (by decide) (by decide)
  intro k s e h
  simp only [Dict.get?] at h
  repeat' split at h
  all_goals (cases h; try decide)

/-- The project with two modes keeps its plan. -/
example : ∃ P vd rows a sch, multi tools 4 none = .ok P ∧ varDict tools 4 = .ok vd ∧
    intervalRowsMulti vd [(1, (0, 0)), (2, (0, 3)), (3, (3, 3))] [2, 3] 2 2 = .ok rows ∧ (withRows P rows).Feasible a ∧
    retrieve tools 4 a = .ok (sch, [2]) ∧ sch.get? 3 = some (3, 3) := by
  obtain ⟨P, hP⟩ := C112_built (tools_project 1) (tools_given 1 (T := 4) (by decide))
  obtain ⟨rows, h1, ⟨a, sch, h2, h3, h4⟩, -⟩ := C119_multi_best (tools_project 1) (tools_ends 1) (tools_given 1 (by decide)) hP (varDict_eq (tools_project 1) 4)
    (tools_plan 1 2 (.inr ⟨rfl, by omega⟩) 4) (by
      intro j s e h
      rw [if_neg (by decide)] at h
      simp only [Dict.get?] at h
      repeat' split at h
      all_goals (cases h; try decide)) (jobs := [2, 3]) (by decide) (minus := 2) (plus := 2) (by decide) (by decide)
  exact ⟨P, _, rows, a, sch, hP, varDict_eq (tools_project 1) 4, h1, h2, h3, h4 3⟩

end Verif.LpLns
