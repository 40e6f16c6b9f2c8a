import Verif.Lemmas.Calendar
import Verif.Props.Pile

/-! Properties of `PileSolverRCPSP_Calendar` (rcpsp_pile.py). -/
namespace Verif.Pile.Calendar

/-- A schedule of the whole project that keeps the durations, the precedences and, at every time, the calendar
of every resource (its last entry holds for ever). -/
structure Feasible (p : Project) (calendar : String → List Int) (sched : Schedule) : Prop where
  once : (sched.map (·.1)).Nodup
  all : ∀ n, (∃ s e, (n, (s, e)) ∈ sched) ↔ 1 ≤ n ∧ n ≤ p.count
  source : (1, (0, 0)) ∈ sched
  duration : ∀ a s e, (a, (s, e)) ∈ sched → e = s + p.duration a
  precedence : ∀ a s e, (a, (s, e)) ∈ sched → ∀ b ∈ p.pred a, ∀ s' e', (b, (s', e')) ∈ sched → e' ≤ s
  capacity : ∀ r ∈ p.resources, ∀ t, load p sched r t ≤ capAt (calendar r) t

variable {p : Project} {calendar : String → List Int} {arrange : List Nat → List Nat}

theorem solve_inv (hwf : p.Wf) (hcal : ∀ r ∈ p.resources, calendar r ≠ [] ∧ ∀ v ∈ calendar r, 0 ≤ v) (harr : ∀ l, (arrange l).Perm l)
    (rule : Rule) (draws : Nat → Nat) {n : Nat} {sol : Solution} (h : solve p calendar arrange rule draws n = .ok (some sol)) :
    ∃ cs D, CInv p calendar D cs ∧ p.count ≤ cs.st.sched.length ∧
      sol = ⟨cs.st.started.dropLast.map fun a : Nat => (a : Int) - 2, cs.st.sched, (List.range (p.count - 2)).map fun i => p.mode (i + 2)⟩ := by
  obtain ⟨r, h1, h2⟩ := bind_eq_ok.1 h
  cases r with
  | none => cases h2
  | some cs =>
    obtain rfl := Option.some.inj (Except.ok.inj h2)
    obtain ⟨⟨D, hi⟩, hlen⟩ := loop_inv hwf harr (fun _ _ _ hc => choose_sound rule _ hc) _ _ _ (start_cinv hwf hcal) h1
    exact ⟨cs, D, hi, hlen, rfl⟩

/-! ### C86 -/

/-- **C86.** The schedule of the calendar solver has every activity once, keeps the durations and the
precedences, and at every time keeps the capacity that the calendar gives for that time. -/
theorem C86_feasible (hwf : p.Wf) (hcal : ∀ r ∈ p.resources, calendar r ≠ [] ∧ ∀ v ∈ calendar r, 0 ≤ v) (harr : ∀ l, (arrange l).Perm l)
    (rule : Rule) (draws : Nat → Nat) {n : Nat} {sol : Solution} (h : solve p calendar arrange rule draws n = .ok (some sol)) :
    Feasible p calendar sol.schedule := by
  obtain ⟨cs, D, hi, hlen, rfl⟩ := solve_inv hwf hcal harr rule draws h
  have hc := hi.core
  exact {
    once := hc.keysNodup
    all := fun n => ⟨fun ⟨s, e, hm⟩ => hc.inRange (bare_wf hwf) hm, fun ⟨n1, n2⟩ => hc.mem.1 (hc.complete hlen n n1 n2)⟩
    source := hi.source
    duration := fun a s e hm => (hc.entry a s e hm).2
    precedence := fun a s e hm b hb s' e' hm' => by
      obtain ⟨s'', e'', h1, h2⟩ := hc.prec a s e hm b hb
      obtain ⟨rfl, rfl⟩ := Prod.mk.inj (hc.unique hm' h1)
      exact h2
    capacity := hi.loads }

/-- **C86.** When every activity comes before the sink, the permutation returned has every activity but source
and sink once (counted from 0), in the order of the starts, after those it waits for; and the modes are those
of the activities. -/
theorem C86_permutation (hwf : p.Wf) (hcal : ∀ r ∈ p.resources, calendar r ≠ [] ∧ ∀ v ∈ calendar r, 0 ≤ v) (harr : ∀ l, (arrange l).Perm l)
    (rule : Rule) (draws : Nat → Nat) {n : Nat} {sol : Solution} (hc : 2 ≤ p.count) (hsink : ∀ n, 1 ≤ n → n < p.count → n ∈ p.pred p.count)
    (h : solve p calendar arrange rule draws n = .ok (some sol)) :
    sol.permutation.Perm ((List.range (p.count - 2)).map fun i : Nat => (i : Int)) ∧
    (sol.permutation.Pairwise fun i j => ∀ a b s e s' e' : Nat, (a : Int) = i + 2 → (b : Int) = j + 2 →
      (a, (s, e)) ∈ sol.schedule → (b, (s', e')) ∈ sol.schedule → s ≤ s' ∧ b ∉ p.pred a) ∧
    sol.modes.length = p.count - 2 ∧ ∀ i < p.count - 2, sol.modes[i]? = some (p.mode (i + 2)) := by
  obtain ⟨cs, D, hi, hlen, rfl⟩ := solve_inv hwf hcal harr rule draws h
  exact hi.core.permutation hc hsink hlen p.mode

/-- **C86.** No activity runs beyond the 100 times that are added to the shortest calendar. -/
theorem C86_horizon (hwf : p.Wf) (hcal : ∀ r ∈ p.resources, calendar r ≠ [] ∧ ∀ v ∈ calendar r, 0 ≤ v) (harr : ∀ l, (arrange l).Perm l)
    (rule : Rule) (draws : Nat → Nat) {n : Nat} {sol : Solution} (h : solve p calendar arrange rule draws n = .ok (some sol))
    {r : String} (hr : r ∈ p.resources) {a s e : Nat} (ha : (a, (s, e)) ∈ sol.schedule) (hd : p.duration a ≠ 0) :
    e ≤ (calendar r).length + 100 := by
  obtain ⟨cs, D, hi, hlen, rfl⟩ := solve_inv hwf hcal harr rule draws h
  have := (hi.core.entry a s e ha).2
  change e = s + p.duration a at this
  exact hi.ends r hr a s e ha (by omega)

/-- Activities 2 and 3 between the source 1 and the sink 4. -/
def two (d2 d3 : Nat) (n2 n3 : Int) : Project where
  count := 4
  pred n := if n = 1 then [] else if n = 4 then [1, 2, 3] else [1]
  succs n := if n = 4 then 0 else 1
  resources := ["R"]
  capacity _ := 2
  nonRenewable := []
  duration n := if n = 2 then d2 else if n = 3 then d3 else 0
  need n _ := if n = 2 then n2 else if n = 3 then n3 else 0

theorem two_wf (d2 d3 : Nat) {n2 n3 : Int} (h2 : 0 ≤ n2) (h3 : 0 ≤ n3) : (two d2 d3 n2 n3).Wf where
  count := by simp [two]
  source := rfl
  sourceDuration := rfl
  sourceNeed r := rfl
  range n _ h b hb := by
    simp only [two] at hb h ⊢
    split at hb
    · cases hb
    · split at hb <;> simp at hb <;> omega
  nodup n := by simp only [two]; split <;> [simp; (split <;> simp)]
  need n r _ _ := by simp only [two]; split <;> [exact h2; (split <;> [exact h3; exact le_refl 0])]
  capacity r _ := by simp [two]

example : (two 4 1 1 1).Wf ∧ ("R" ∈ (two 4 1 1 1).resources → [1, (2 : Int)] ≠ [] ∧ ∀ v ∈ [1, (2 : Int)], 0 ≤ v) ∧
    (∀ n, 1 ≤ n → n < (two 4 1 1 1).count → n ∈ (two 4 1 1 1).pred (two 4 1 1 1).count) ∧ (two 4 1 1 1).duration 2 ≠ 0 ∧
    solve (two 4 1 1 1) (fun _ => [1, 2]) id .mostSuccessors (fun _ => 0) 5 = .ok (some ⟨[0, 1], [(1, 0, 0), (2, 0, 4), (3, 4, 5), (4, 5, 5)], [1, 1]⟩) := by
  refine ⟨two_wf 4 1 (by decide) (by decide), by simp, fun n h1 h2 => ?_, by decide, by decide +kernel⟩
  simp only [two] at h2 ⊢
  simp
  omega

/-- The same with a resource that is not renewed. -/
def consumed : Project := { two 1 1 1 1 with nonRenewable := ["R"] }

/-- **C86, the limit.** The resources that are not renewed are booked only while an activity runs: two
activities of one unit each are scheduled though there is one unit. -/
theorem C86_nonrenewable_refuted : consumed.Wf ∧ "R" ∈ consumed.nonRenewable ∧
    ∃ sol, solve consumed (fun _ => [1]) id .mostSuccessors (fun _ => 0) 5 = .ok (some sol) ∧
      (sol.schedule.map fun x => consumed.need x.1 "R").sum = 2 ∧ ∀ t, capAt [1] t = 1 := by
  have hw := two_wf 1 1 (n2 := 1) (n3 := 1) (by decide) (by decide)
  refine ⟨⟨hw.count, hw.source, hw.sourceDuration, hw.sourceNeed, hw.range, hw.nodup, hw.need, hw.capacity⟩, by decide,
    ⟨[0, 1], [(1, 0, 0), (2, 0, 1), (3, 1, 2), (4, 2, 2)], [1, 1]⟩, by decide +kernel, by decide, fun t => ?_⟩
  simp [capAt]

/-! ### C87 -/

/-- **C87, in part.** If the precedences have no cycle, every activity fits alone at all times, and the sum of the
durations is less than the length of every calendar plus 100, the solver ends with a solution, after at most
`n_jobs + 3` rounds. -/
theorem C87_solves_partial (hwf : p.Wf) (hcal : ∀ r ∈ p.resources, calendar r ≠ [] ∧ ∀ v ∈ calendar r, 0 ≤ v) {rank : Nat → Nat}
    (hp : Possible p calendar rank) (harr : ∀ l, (arrange l).Perm l) (rule : Rule) (draws : Nat → Nat) :
    ∃ sol, solve p calendar arrange rule draws (p.count + 1) = .ok (some sol) := by
  obtain ⟨cs, hcs⟩ := loop_ok hwf (fun r hr => (hcal r hr).1) harr (pick := fun started l => choose p rule (draws started.length) l)
    (fun _ _ _ hc => choose_sound rule _ hc) (fun started l hne _ _ => choose_ok rule _ hne) hp (p.count + 1) ⟨start (bare p), table p calendar⟩
    (start_cinv hwf hcal) ⟨Nat.zero_le _, fun a s e hm => by
      have : a = 1 ∧ s = 0 ∧ e = 0 := by simpa [start, release] using hm
      omega⟩ (by omega)
  rw [solve, hcs]
  exact ⟨_, rfl⟩

theorem bind_eq_error {α β : Type} {x : Except PyErr α} {f : α → Except PyErr β} {e : PyErr} (h : (x >>= f) = .error e) :
    x = .error e ∨ ∃ a, x = .ok a ∧ f a = .error e := by
  cases x with
  | error e' => left; rw [bind_error] at h; rw [Except.error.inj h]
  | ok a => right; exact ⟨a, rfl, h⟩

theorem pyGet_error {l : List Int} {i : Nat} {e : PyErr} (h : pyGet l i = .error e) : e = .indexError := by
  rw [pyGet] at h
  split at h
  · cases h
  · exact (Except.error.inj h).symm

theorem enough_error {need : Int} {row : List Int} (ts : List Nat) {e : PyErr} (h : enough need row ts = .error e) : e = .indexError := by
  induction ts with
  | nil => cases h
  | cons t ts ih =>
    rw [enough] at h
    rcases bind_eq_error h with h | ⟨v, _, h⟩
    · exact pyGet_error h
    · split at h
      · exact ih h
      · cases h

theorem fitsStrict_error {time n : Nat} (tab : Table) {e : PyErr} (h : fitsStrict p time n tab = .error e) : e = .indexError := by
  induction tab with
  | nil => cases h
  | cons x tab ih =>
    rw [fitsStrict] at h
    rcases bind_eq_error h with h | ⟨b, _, h⟩
    · exact enough_error _ h
    · split at h
      · exact ih h
      · cases h

theorem possible_error {tab : Table} {time : Nat} (l : List Nat) {e : PyErr} (h : possible p tab time l = .error e) : e = .indexError := by
  induction l with
  | nil => cases h
  | cons x l ih =>
    rw [possible] at h
    rcases bind_eq_error h with h | ⟨b, _, h⟩
    · exact fitsStrict_error _ h
    · rcases bind_eq_error h with h | ⟨l', _, h⟩
      · exact ih h
      · cases h

theorem take_error {need : Int} (ts : List Nat) (row : List Int) {e : PyErr} (h : take need ts row = .error e) : e = .indexError := by
  induction ts generalizing row with
  | nil => cases h
  | cons t ts ih =>
    rw [take] at h
    rcases bind_eq_error h with h | ⟨v, _, h⟩
    · exact pyGet_error h
    · rcases bind_eq_error h with h | ⟨row', _, h⟩
      · rw [pySet] at h
        split at h
        · cases h
        · exact (Except.error.inj h).symm
      · exact ih _ h

theorem book_error {time n : Nat} (tab : Table) {e : PyErr} (h : book p time n tab = .error e) : e = .indexError := by
  induction tab with
  | nil => cases h
  | cons x tab ih =>
    rw [book] at h
    rcases bind_eq_error h with h | ⟨v, _, h⟩
    · exact take_error _ _ h
    · rcases bind_eq_error h with h | ⟨row', _, h⟩
      · exact ih h
      · cases h

theorem fill_error {pick : Pick} (hpick : ∀ started l, l ≠ [] → ∃ a, pick started l = .ok a) (n : Nat) (cs : CSt) (l : List Nat) {e : PyErr}
    (h : fill p arrange pick n cs l = .error e) : e = .indexError := by
  induction n generalizing cs l with
  | zero => cases l <;> cases h
  | succ n ih =>
    cases l with
    | nil => cases h
    | cons x l =>
      rw [fill] at h
      obtain ⟨a, ha⟩ := hpick cs.st.started (x :: l) (by simp)
      rw [ha, bind_ok] at h
      rcases bind_eq_error h with h | ⟨tab, _, h⟩
      · exact book_error _ h
      · rcases bind_eq_error h with h | ⟨l', _, h⟩
        · exact possible_error _ h
        · exact ih _ _ h

theorem loop_error {pick : Pick} (hpick : ∀ started l, l ≠ [] → ∃ a, pick started l = .ok a) (n : Nat) (cs : CSt) {e : PyErr}
    (h : loop p arrange pick n cs = .error e) : e = .indexError := by
  induction n generalizing cs with
  | zero =>
    rw [loop] at h
    split at h <;> cases h
  | succ n ih =>
    rw [loop] at h
    split at h
    · rcases bind_eq_error h with h | ⟨cs', _, h⟩
      · exact fill_error hpick _ _ _ h
      · exact ih _ h
    · cases h

/-- **C87.** The only exception the solver can raise is the `IndexError` of the end of a calendar. -/
theorem C87_errors (rule : Rule) (draws : Nat → Nat) {n : Nat} {e : PyErr} (h : solve p calendar arrange rule draws n = .error e) :
    e = .indexError := by
  rw [solve] at h
  rcases bind_eq_error h with h | ⟨r, _, h⟩
  · exact loop_error (fun started l hne => choose_ok rule _ hne) _ _ h
  · cases h

theorem two_possible {d2 d3 : Nat} {n2 n3 : Int} {cal : List Int} (h2 : ∀ v ∈ cal, n2 ≤ v ∧ n3 ≤ v ∧ 0 ≤ v) (hd : d2 + d3 < cal.length + 100) :
    Possible (two d2 d3 n2 n3) (fun _ => cal) id where
  acyclic n h1 h2 b hb := by
    simp only [two] at hb
    simp only [id]
    split at hb
    · cases hb
    · split at hb <;> simp at hb <;> omega
  alone n r _ _ _ v hv := by
    obtain ⟨a1, a2, a3⟩ := h2 v hv
    simp only [two]
    split <;> [exact a1; (split <;> [exact a2; exact a3])]
  long r _ := by
    have : ((nodes (two d2 d3 n2 n3)).map (two d2 d3 n2 n3).duration).sum = d2 + d3 := by
      simp [nodes, two, List.range']
    omega

example : (two 4 1 1 1).Wf ∧ Possible (two 4 1 1 1) (fun _ => [1, 2]) id :=
  ⟨two_wf 4 1 (by decide) (by decide), two_possible (by decide) (by decide)⟩

deriving instance DecidableEq for St, CSt

theorem two_feasible {d2 d3 s2 s3 u : Nat} {n2 n3 : Int} {cal : List Int} (h2 : s2 + d2 ≤ u) (h3 : s3 + d3 ≤ u)
    (hc : ∀ t, (if s2 ≤ t ∧ t < s2 + d2 then n2 else 0) + (if s3 ≤ t ∧ t < s3 + d3 then n3 else 0) ≤ capAt cal t) :
    Feasible (two d2 d3 n2 n3) (fun _ => cal) [(1, (0, 0)), (2, (s2, s2 + d2)), (3, (s3, s3 + d3)), (4, (u, u))] where
  once := by simp
  all n := by
    simp only [two, List.mem_cons, Prod.mk.injEq, List.not_mem_nil, or_false]
    constructor
    · rintro ⟨s, e, h⟩; omega
    · rintro ⟨n1, n2⟩
      have : n = 1 ∨ n = 2 ∨ n = 3 ∨ n = 4 := by omega
      rcases this with rfl | rfl | rfl | rfl
      · exact ⟨0, 0, by simp⟩
      · exact ⟨s2, s2 + d2, by simp⟩
      · exact ⟨s3, s3 + d3, by simp⟩
      · exact ⟨u, u, by simp⟩
  source := by simp
  duration a s e hm := by
    simp only [List.mem_cons, Prod.mk.injEq, List.not_mem_nil, or_false] at hm
    rcases hm with ⟨rfl, rfl, rfl⟩ | ⟨rfl, rfl, rfl⟩ | ⟨rfl, rfl, rfl⟩ | ⟨rfl, rfl, rfl⟩ <;> simp [two]
  precedence a s e hm b hb s' e' hm' := by
    simp only [List.mem_cons, Prod.mk.injEq, List.not_mem_nil, or_false] at hm hm'
    rcases hm with ⟨rfl, rfl, rfl⟩ | ⟨rfl, rfl, rfl⟩ | ⟨rfl, rfl, rfl⟩ | ⟨rfl, rfl, rfl⟩ <;> simp [two] at hb <;> omega
  capacity r _ t := by
    refine le_trans (le_of_eq ?_) (hc t)
    have e4 : ¬ (u ≤ t ∧ t < u) := by omega
    by_cases e2 : s2 ≤ t ∧ t < s2 + d2 <;> by_cases e3 : s3 ≤ t ∧ t < s3 + d3 <;>
      simp [load, two, e2, e3, e4]

/-- **C87, first limit: `IndexError`.** An activity of 102 time units does not fit the 101 entries of the extended calendar
`[1]`, though nothing hinders a schedule. -/
theorem C87_index_refuted : (two 102 0 1 1).Wf ∧
    Feasible (two 102 0 1 1) (fun _ => [1]) [(1, (0, 0)), (2, (0, 102)), (3, (0, 0)), (4, (102, 102))] ∧
    ∀ n, solve (two 102 0 1 1) (fun _ => [1]) id .mostSuccessors (fun _ => 0) (n + 1) = .error .indexError := by
  refine ⟨two_wf _ _ (by decide) (by decide), ?_, fun n => ?_⟩
  · refine two_feasible (s2 := 0) (s3 := 0) (by decide) (by decide) fun t => ?_
    simp only [capAt, List.length_singleton, Nat.sub_self, Nat.min_zero]
    split <;> split <;> first | omega | simp
  · rw [solve, loop, if_pos (by decide)]
    have : fill (two 102 0 1 1) id (fun started l => choose (two 102 0 1 1) .mostSuccessors 0 l)
        (CSt.st ⟨start { two 102 0 1 1 with resources := [] }, table (two 102 0 1 1) fun _ => [1]⟩).avail.length
        ⟨start { two 102 0 1 1 with resources := [] }, table (two 102 0 1 1) fun _ => [1]⟩
        ((id (CSt.st ⟨start { two 102 0 1 1 with resources := [] }, table (two 102 0 1 1) fun _ => [1]⟩).avail).filter
          (fits (two 102 0 1 1) (table (two 102 0 1 1) fun _ => [1]) 0)) = .error .indexError := by decide +kernel
    simp only at this ⊢
    erw [this]
    rfl

/-- **C87, second limit: no end.** The solver starts the activity 2 in the only time when 3 fits, and then waits for ever,
though there is a schedule. -/
theorem C87_end_refuted : (two 1 1 1 2).Wf ∧ Feasible (two 1 1 1 2) (fun _ => [2, 1]) [(1, (0, 0)), (2, (1, 2)), (3, (0, 1)), (4, (2, 2))] ∧
    ∀ n, solve (two 1 1 1 2) (fun _ => [2, 1]) id .mostSuccessors (fun _ => 0) n = .ok none := by
  refine ⟨two_wf _ _ (by decide) (by decide), ?_, fun n => ?_⟩
  · refine two_feasible (s2 := 1) (s3 := 0) (by decide) (by decide) fun t => ?_
    match t with
    | 0 => decide
    | 1 => decide
    | t + 2 => rw [if_neg (by omega), if_neg (by omega), capAt, Nat.min_eq_right (by simp)]; decide
  · rw [solve]
    have hstuck : ∀ n t, loop (two 1 1 1 2) id (fun started l => choose (two 1 1 1 2) .mostSuccessors 0 l) n
        ⟨{ sched := [(1, 0, 0), (2, 0, 1)], avail := [3], waiting := [(1, []), (2, []), (3, []), (4, [3])], free := [], queue := [], time := t + 1, started := [2] },
          [("R", 1 :: List.replicate 101 1)]⟩ = .ok none := by
      intro n
      induction n with
      | zero => intro t; rfl
      | succ n ih =>
        intro t
        rw [loop, if_pos (by simp [two])]
        have : fits (two 1 1 1 2) [("R", 1 :: List.replicate 101 1)] (t + 1) 3 = false := by
          have hg : ∀ i, (1 :: List.replicate 101 (1 : Int)).getD i 0 ≤ 1 := by
            intro i
            rw [List.getD_eq_getElem?_getD]
            cases hi : (1 :: List.replicate 101 (1 : Int))[i]? with
            | none => simp
            | some v =>
              have := List.mem_of_getElem? hi
              simp at this
              simp [this]
          have := hg (min (t + 1) (101))
          rw [fits, List.all_cons, List.all_nil, Bool.and_true]
          show (decide ((2 : Int) ≤ (1 :: List.replicate 101 (1 : Int)).getD (min (t + 1) 101) 0) && true) = false
          rw [Bool.and_true]
          exact decide_eq_false (by omega)
        simp only [id, List.filter_cons, this, List.filter_nil]
        exact ih (t + 1)
    cases n with
    | zero => rfl
    | succ n =>
      rw [loop, if_pos (by decide)]
      have : fill (two 1 1 1 2) id (fun started l => choose (two 1 1 1 2) .mostSuccessors 0 l)
          (CSt.st ⟨start { two 1 1 1 2 with resources := [] }, table (two 1 1 1 2) fun _ => [2, 1]⟩).avail.length
          ⟨start { two 1 1 1 2 with resources := [] }, table (two 1 1 1 2) fun _ => [2, 1]⟩
          ((id (CSt.st ⟨start { two 1 1 1 2 with resources := [] }, table (two 1 1 1 2) fun _ => [2, 1]⟩).avail).filter
            (fits (two 1 1 1 2) (table (two 1 1 1 2) fun _ => [2, 1]) 0)) =
          .ok ⟨{ sched := [(1, 0, 0), (2, 0, 1)], avail := [3], waiting := [(1, []), (2, []), (3, []), (4, [2, 3])], free := [], queue := [(1, 2)], time := 0, started := [2] },
            [("R", 1 :: List.replicate 101 1)]⟩ := by decide +kernel
      simp only at this ⊢
      erw [this]
      rw [bind_ok]
      erw [hstuck n 0]
      rfl

/-- **C87, third limit: idle waiting.** The activity 3 starts at 4 though at 1 the calendar has room for it, next to
everything else: the solver looks again only when an activity ends. -/
theorem C87_waiting_refuted : ∃ sol, solve (two 4 1 1 1) (fun _ => [1, 2]) id .mostSuccessors (fun _ => 0) 5 = .ok (some sol) ∧
    (3, (4, 5)) ∈ sol.schedule ∧ (∀ b ∈ (two 4 1 1 1).pred 3, (b, (0, 0)) ∈ sol.schedule) ∧
    load (two 4 1 1 1) sol.schedule "R" 1 + (two 4 1 1 1).need 3 "R" ≤ capAt [1, 2] 1 ∧ (two 4 1 1 1).duration 3 = 1 := by
  exact ⟨⟨[0, 1], [(1, 0, 0), (2, 0, 4), (3, 4, 5), (4, 5, 5)], [1, 1]⟩, by decide +kernel, by decide, by decide, by decide, by decide⟩

/-- **C87, fourth limit: one time too many.** Not the first activity of a round, 3 must find enough for one time more
than it lasts: it starts at 3 though at 0 the calendar has room for it. -/
theorem C87_slot_refuted : ∃ sol, solve (two 1 1 1 1) (fun _ => [2, 0, 0, 2]) id .mostSuccessors (fun _ => 0) 5 = .ok (some sol) ∧
    (3, (3, 4)) ∈ sol.schedule ∧ (∀ b ∈ (two 1 1 1 1).pred 3, (b, (0, 0)) ∈ sol.schedule) ∧
    load (two 1 1 1 1) sol.schedule "R" 0 + (two 1 1 1 1).need 3 "R" ≤ capAt [2, 0, 0, 2] 0 ∧ (two 1 1 1 1).duration 3 = 1 := by
  exact ⟨⟨[0, 1], [(1, 0, 0), (2, 0, 1), (3, 3, 4), (4, 4, 4)], [1, 1]⟩, by decide +kernel, by decide, by decide, by decide, by decide⟩

end Verif.Pile.Calendar
