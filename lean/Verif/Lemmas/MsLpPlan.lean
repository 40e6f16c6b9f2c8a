import Mathlib.Tactic.Linarith
import Verif.Lemmas.MsLp
/- Feasible assignments and plans. -/
namespace Verif.MsLp
open Verif.Milp Verif.MultiSkill
open Verif.Rcpsp (Mode total dict_get_ok)

/-- Modes, starting times, and which workers are used for which skills of which tasks. -/
structure Plan where
  mode : Nat → Nat
  start : Nat → Nat
  on : Nat → Nat → String → Bool

/-- Duration of a task. -/
def Plan.dur (pl : Plan) (pb : Problem) (k : Nat) : Nat := durOf pb k (pl.mode k)

/-- Does the task run at time `t`? -/
def Plan.runs (pl : Plan) (pb : Problem) (t k : Nat) : Bool := covers (pl.start k) t (pl.dur pb k)

/-- What a plan has to meet; `D` is the latest start. -/
structure Valid (pb : Problem) (D : Nat) (pl : Plan) : Prop where
  mode : ∀ k, k ∈ pb.modes.keys → pl.mode k ∈ (modesOf pb k).keys
  start : ∀ k, k ∈ pb.modes.keys → pl.start k ≤ D
  prec : ∀ k ss s, pb.successors.get? k = some ss → k ∈ pb.modes.keys → s ∈ ss → pl.start k + pl.dur pb k ≤ pl.start s
  able : ∀ k e s, pl.on k e s = true → k ∈ pb.modes.keys ∧ Fits pb e k (pl.mode k) s
  atWork : ∀ k e s, pl.on k e s = true → ∃ emp, pb.employees.get? e = some emp ∧
    ∀ t, pl.start k ≤ t → t < pl.start k + pl.dur pb k → emp.calendar[t]? = some true
  once : ∀ e t, t ≤ D → ∀ k s k' s', pl.on k e s = true → pl.on k' e s' = true → pl.runs pb t k = true → pl.runs pb t k' = true → k = k' ∧ s = s'
  skills : ∀ k s n, k ∈ pb.modes.keys → s ∈ pb.skills → (theMode pb k (pl.mode k)).needs.get? s = some n → 0 < n →
    (n : Rat) ≤ ((pb.employees.keys.filter (fun e => pl.on k e s)).map (fun e => levelOf pb e s)).sum
  renewable : ∀ r row c t, pb.resources.get? r = some row → r ∉ pb.nonRenewable → t ≤ D → row[t]? = some c →
    total (fun k => needIn pb r k (pl.mode k)) (pb.modes.keys.filter (pl.runs pb t)) ≤ c
  nonRenewable : ∀ r row c, r ∈ pb.nonRenewable → pb.resources.get? r = some row → row[0]? = some c →
    total (fun k => needIn pb r k (pl.mode k)) pb.modes.keys ≤ c

/-- The assignment is the plan. -/
structure Shape (pb : Problem) (D : Nat) (pl : Plan) (a : Var → Int) : Prop where
  mode : ∀ k, k ∈ pb.modes.keys → pl.mode k ∈ (modesOf pb k).keys
  late : ∀ k, k ∈ pb.modes.keys → pl.start k ≤ D
  modeV : ∀ k m, m ∈ (modesOf pb k).keys → a (.mode k m) = if m = pl.mode k then 1 else 0
  startV : ∀ k, k ∈ pb.modes.keys → ∀ q, q ∈ slots pb (D + 1) k → a (.start k q.1 q.2) = if q = (pl.mode k, pl.start k) then 1 else 0
  timeV : ∀ k, k ∈ pb.modes.keys → a (.startT k) = pl.start k
  durV : ∀ k, k ∈ pb.modes.keys → a (.dur k) = pl.dur pb k
  endV : ∀ k, k ∈ pb.modes.keys → a (.endT k) = pl.start k + pl.dur pb k
  useV : ∀ x, x ∈ uses pb (D + 1) → a (.use x) = if pl.on x.task x.emp x.skill = true ∧ x.mode = pl.mode x.task ∧ x.time = pl.start x.task then 1 else 0
  able : ∀ k e s, pl.on k e s = true → k ∈ pb.modes.keys ∧ Fits pb e k (pl.mode k) s

theorem sum_congr' {α β : Type} [Add β] [Zero β] {l : List α} {f g : α → β} (h : ∀ x, x ∈ l → f x = g x) : (l.map f).sum = (l.map g).sum := by
  rw [List.map_congr_left h]

/-- A sum over the members with some property of a function that is zero except for one member. -/
theorem sum_filter_indicator {α : Type} [DecidableEq α] {l : List α} (hl : l.Nodup) {x : α} (hx : x ∈ l) (w : α → Int) (f : α → Bool) :
    ((l.filter f).map (fun y => w y * (if y = x then 1 else 0))).sum = if f x = true then w x else 0 := by
  split
  · next h => exact sum_indicator (hl.filter f) (List.mem_filter.2 ⟨hx, h⟩) w
  · next h =>
    refine sum_zero_int ?_
    intro v hv
    obtain ⟨y, hy, rfl⟩ := List.mem_map.1 hv
    have : y ≠ x := by rintro rfl; exact h (List.mem_filter.1 hy).2
    simp [this]

/-- Numbers 0 and 1 add up to at most 1 when at most one of them is 1. -/
theorem sum_le_one {α : Type} {l : List α} (hl : l.Nodup) {f : α → Int} (h01 : ∀ x, x ∈ l → f x = 0 ∨ f x = 1) :
    (l.map f).sum ≤ 1 ↔ ∀ x, x ∈ l → ∀ y, y ∈ l → f x = 1 → f y = 1 → x = y := by
  induction l with
  | nil => simp
  | cons z l ih =>
    obtain ⟨hz, hl⟩ := List.nodup_cons.1 hl
    have ih := ih hl (fun x hx => h01 x (List.mem_cons_of_mem _ hx))
    have hnn : 0 ≤ (l.map f).sum := by
      refine sum_nonneg_int ?_
      intro v hv
      obtain ⟨y, hy, rfl⟩ := List.mem_map.1 hv
      rcases h01 y (List.mem_cons_of_mem _ hy) with h | h <;> rw [h] <;> decide
    rw [List.map_cons, List.sum_cons]
    constructor
    · intro hs x hx y hy h1 h2
      rcases h01 z (by simp) with hz0 | hz1
      · rw [hz0] at hs
        have h := ih.1 (by omega)
        rcases List.mem_cons.1 hx with rfl | hx
        · rw [hz0] at h1; cases h1
        · rcases List.mem_cons.1 hy with rfl | hy
          · rw [hz0] at h2; cases h2
          · exact h x hx y hy h1 h2
      · have hzero : ∀ y, y ∈ l → f y ≠ 1 := by
          intro y hy h
          have hle : f y ≤ (l.map f).sum := by
            refine le_sum_of_mem_int ?_ (List.mem_map.2 ⟨y, hy, rfl⟩)
            intro v hv
            obtain ⟨y, hy, rfl⟩ := List.mem_map.1 hv
            rcases h01 y (List.mem_cons_of_mem _ hy) with h | h <;> rw [h] <;> decide
          omega
        rcases List.mem_cons.1 hx with rfl | hx
        · rcases List.mem_cons.1 hy with rfl | hy
          · rfl
          · exact absurd h2 (hzero y hy)
        · exact absurd h1 (hzero x hx)
    · intro h
      have h1 := ih.2 (fun x hx y hy => h x (List.mem_cons_of_mem _ hx) y (List.mem_cons_of_mem _ hy))
      rcases h01 z (by simp) with hz0 | hz1
      · omega
      · have : (l.map f).sum = 0 := by
          refine sum_zero_int ?_
          intro v hv
          obtain ⟨y, hy, rfl⟩ := List.mem_map.1 hv
          rcases h01 y (List.mem_cons_of_mem _ hy) with h0 | h0
          · exact h0
          · have := h z (by simp) y (List.mem_cons_of_mem _ hy) hz1 h0
            subst this; exact absurd hy hz
        omega

theorem total_filter (f : Nat → Int) (g : Nat → Bool) (l : List Nat) :
    total f (l.filter g) = (l.map (fun k => if g k = true then f k else 0)).sum := by
  unfold total
  induction l with
  | nil => rfl
  | cons x l ih =>
    by_cases h : g x = true
    · rw [List.filter_cons_of_pos h, List.map_cons, List.map_cons, List.sum_cons, List.sum_cons, ih, if_pos h]
    · rw [List.filter_cons_of_neg h, List.map_cons, List.sum_cons, ih, if_neg h]; omega

section
variable {pb : Problem} {D : Nat} {pl : Plan} {a : Var → Int}

theorem Shape.slot (sh : Shape pb D pl a) {k : Nat} (hk : k ∈ pb.modes.keys) : (pl.mode k, pl.start k) ∈ slots pb (D + 1) k :=
  mem_slots.2 ⟨sh.mode k hk, Nat.lt_succ_of_le (sh.late k hk)⟩

theorem Shape.slotSum (w : Wf pb) (sh : Shape pb D pl a) {k : Nat} (hk : k ∈ pb.modes.keys) (c : Nat × Nat → Int) (f : Nat × Nat → Bool) :
    (((slots pb (D + 1) k).filter f).map (fun q => c q * a (.start k q.1 q.2))).sum =
      if f (pl.mode k, pl.start k) = true then c (pl.mode k, pl.start k) else 0 := by
  rw [← sum_filter_indicator (slots_nodup w (D + 1) k) (sh.slot hk) c f]
  refine sum_congr' ?_
  intro q hq
  rw [sh.startV k hk q (List.mem_filter.1 hq).1]

theorem Shape.slotSum' (w : Wf pb) (sh : Shape pb D pl a) {k : Nat} (hk : k ∈ pb.modes.keys) (c : Nat × Nat → Int) :
    ((slots pb (D + 1) k).map (fun q => c q * a (.start k q.1 q.2))).sum = c (pl.mode k, pl.start k) := by
  have := sh.slotSum w hk c (fun _ => true)
  simpa using this

theorem Shape.modeSum (w : Wf pb) (sh : Shape pb D pl a) {k : Nat} (hk : k ∈ pb.modes.keys) (c : Nat → Int) :
    ((modesOf pb k).keys.map (fun m => c m * a (.mode k m))).sum = c (pl.mode k) := by
  rw [← sum_indicator (modesOf_nodup w k) (sh.mode k hk) c]
  refine sum_congr' ?_
  intro m hm
  rw [sh.modeV k m hm]

theorem Shape.renewable_iff (w : Wf pb) (sh : Shape pb D pl a) (r : String) (t : Nat) (c : Int) :
    Row.Holds ⟨pb.modes.keys.flatMap (fun k => ((slots pb (D + 1) k).filter (fun q => covers q.2 t (durOf pb k q.1))).map
        (fun q => (needIn pb r k q.1, Var.start k q.1 q.2))), .le, c⟩ a ↔
    total (fun k => needIn pb r k (pl.mode k)) (pb.modes.keys.filter (pl.runs pb t)) ≤ c := by
  unfold Row.Holds
  simp only
  rw [value_flatMap, total_filter]
  have : ∀ k, k ∈ pb.modes.keys → Lin.value (((slots pb (D + 1) k).filter (fun q => covers q.2 t (durOf pb k q.1))).map
        (fun q => (needIn pb r k q.1, Var.start k q.1 q.2))) a = if pl.runs pb t k = true then needIn pb r k (pl.mode k) else 0 := by
    intro k hk
    rw [value_map]
    exact sh.slotSum w hk (fun q => needIn pb r k q.1) _
  rw [sum_congr' this]

theorem Shape.nonRenewable_iff (w : Wf pb) (sh : Shape pb D pl a) (r : String) (c : Int) :
    Row.Holds ⟨pb.modes.keys.flatMap (fun k => (slots pb (D + 1) k).map (fun q => (needIn pb r k q.1, Var.start k q.1 q.2))), .le, c⟩ a ↔
    total (fun k => needIn pb r k (pl.mode k)) pb.modes.keys ≤ c := by
  unfold Row.Holds
  simp only
  rw [value_flatMap]
  have : ∀ k, k ∈ pb.modes.keys → Lin.value ((slots pb (D + 1) k).map (fun q => (needIn pb r k q.1, Var.start k q.1 q.2))) a =
      needIn pb r k (pl.mode k) := by
    intro k hk
    rw [value_map]
    exact sh.slotSum' w hk (fun q => needIn pb r k q.1)
  rw [sum_congr' this]
  rfl

theorem Shape.prec_iff (sh : Shape pb D pl a) {k s : Nat} (hk : k ∈ pb.modes.keys) (hs : s ∈ pb.modes.keys) :
    Row.Holds ⟨[(1, Var.startT s), (-1, .endT k)], .ge, 0⟩ a ↔ pl.start k + pl.dur pb k ≤ pl.start s := by
  unfold Row.Holds
  simp only [value_cons, value_nil, sh.timeV s hs, sh.endV k hk]
  omega

theorem Shape.taskRows (w : Wf pb) (sh : Shape pb D pl a) : ∀ r, r ∈ taskRows pb (D + 1) → r.Holds a := by
  intro r hr
  unfold MsLp.taskRows at hr
  rcases List.mem_append.1 hr with hr | hr
  · rcases List.mem_append.1 hr with hr | hr
    · obtain ⟨k, hk, hr⟩ := List.mem_flatMap.1 hr
      rcases List.mem_cons.1 hr with rfl | hr
      · unfold oneRow Row.Holds
        simp only
        rw [value_map]
        exact sh.slotSum' w hk (fun _ => 1)
      · obtain ⟨m, hm, rfl⟩ := List.mem_map.1 hr
        unfold modeRow Row.Holds
        simp only
        rw [value_cons, value_map]
        simp only [sh.modeV k m hm]
        have : ∀ t, t ∈ List.range (D + 1) → -1 * a (.start k m t) = (if m = pl.mode k then -1 else 0) * (if t = pl.start k then 1 else 0) := by
          intro t ht
          have := sh.startV k hk (m, t) (mem_slots.2 ⟨hm, List.mem_range.1 ht⟩)
          simp only [Prod.mk.injEq] at this
          rw [this]
          by_cases h1 : m = pl.mode k <;> by_cases h2 : t = pl.start k <;> simp [h1, h2]
        rw [sum_congr' this, sum_indicator List.nodup_range (List.mem_range.2 (Nat.lt_succ_of_le (sh.late k hk)))
          (fun _ => if m = pl.mode k then -1 else 0)]
        by_cases h1 : m = pl.mode k <;> simp [h1]
    · obtain ⟨k, hk, hr⟩ := List.mem_flatMap.1 hr
      simp only [List.mem_cons, List.not_mem_nil, or_false] at hr
      rcases hr with rfl | rfl
      · unfold startRow Row.Holds
        simp only
        rw [value_append, value_map, value_cons, value_nil, sh.slotSum' w hk (fun q => (q.2 : Int)), sh.timeV k hk]
        simp
      · unfold endRow Row.Holds
        simp only [value_cons, value_nil, sh.timeV k hk, sh.endV k hk, sh.durV k hk]
        omega
  · obtain ⟨k, hk, rfl⟩ := List.mem_map.1 hr
    unfold durRow Row.Holds
    simp only
    rw [value_append, value_map, value_cons, value_nil, sh.modeSum w hk (fun m => (durOf pb k m : Int)), sh.durV k hk]
    simp [Plan.dur]

theorem Shape.vars (sh : Shape pb D pl a) : ∀ v k, (v, k) ∈ vars pb (D + 1) → k.Allows (a v) := by
  intro v kd hv
  simp only [MsLp.vars, List.mem_append, List.mem_flatMap, List.mem_map, Prod.mk.injEq, List.mem_cons, List.not_mem_nil, or_false] at hv
  rcases hv with ((⟨k, hk, m, hm, rfl, rfl⟩ | ⟨k, hk, q, hq, rfl, rfl⟩) | ⟨k, hk, ⟨rfl, rfl⟩ | ⟨rfl, rfl⟩ | ⟨rfl, rfl⟩⟩) | ⟨x, hx, rfl, rfl⟩
  · rw [sh.modeV k m hm]; split <;> simp [Kind.Allows]
  · rw [sh.startV k hk q hq]; split <;> simp [Kind.Allows]
  · rw [sh.durV k hk]; simp [Kind.Allows]
  · rw [sh.timeV k hk]; simp [Kind.Allows]
  · rw [sh.endV k hk]; simp only [Kind.Allows]; exact ⟨by omega, by simp⟩
  · rw [sh.useV x hx]; split <;> simp [Kind.Allows]

/-- The key of the use of a worker for a skill of a task. -/
def Plan.key (pl : Plan) (k e : Nat) (s : String) : Use := ⟨e, k, pl.mode k, pl.start k, s⟩

theorem Shape.key_mem (w : Wf pb) (sh : Shape pb D pl a) {k e : Nat} {s : String} (h : pl.on k e s = true) : pl.key k e s ∈ uses pb (D + 1) := by
  obtain ⟨hk, hf⟩ := sh.able k e s h
  exact (mem_uses w).2 ⟨sh.mode k hk, Nat.lt_succ_of_le (sh.late k hk), hf⟩

theorem Shape.use_one (sh : Shape pb D pl a) {x : Use} (hx : x ∈ uses pb (D + 1)) :
    (a (.use x) = 0 ∨ a (.use x) = 1) ∧ (a (.use x) = 1 ↔ pl.on x.task x.emp x.skill = true ∧ x = pl.key x.task x.emp x.skill) := by
  rw [sh.useV x hx]
  obtain ⟨e, k, m, t, s⟩ := x
  simp only [Plan.key, Use.mk.injEq, true_and, and_true]
  split
  · next h => exact ⟨.inr rfl, by simpa using h⟩
  · next h => exact ⟨.inl rfl, by simpa using h⟩

theorem Shape.useRows_iff (w : Wf pb) (sh : Shape pb D pl a) (hc : ∀ x, x ∈ uses pb (D + 1) → ∃ e b, pb.employees.get? x.emp = some e ∧
      allTrue e.calendar (durOf pb x.task x.mode) x.time = .ok b) :
    (∀ x, x ∈ uses pb (D + 1) → ∀ rs, useRows pb x = .ok rs → ∀ r, r ∈ rs → r.Holds a) ↔
    ∀ k e s, pl.on k e s = true → ∃ emp, pb.employees.get? e = some emp ∧
      ∀ t, pl.start k ≤ t → t < pl.start k + pl.dur pb k → emp.calendar[t]? = some true := by
  constructor
  · intro h k e s hon
    have hx := sh.key_mem w hon
    obtain ⟨emp, b, he, hb⟩ := hc _ hx
    refine ⟨emp, he, ?_⟩
    cases b with
    | true => exact (allTrue_iff _ _ _).1 hb
    | false =>
      have hr : useRows pb (pl.key k e s) = .ok ([⟨[(1, .use (pl.key k e s)), (-1, .mode k (pl.mode k))], .le, 0⟩,
          ⟨[(1, .use (pl.key k e s)), (-1, .start k (pl.mode k) (pl.start k))], .le, 0⟩] ++ [⟨[(1, .use (pl.key k e s))], .eq, 0⟩]) := by
        unfold useRows
        rw [dict_get_ok.2 he, bind_ok, hb, bind_ok]; rfl
      have h0 := h _ hx _ hr ⟨[(1, .use (pl.key k e s))], .eq, 0⟩ (by simp)
      simp only [Row.Holds, value_cons, value_nil] at h0
      have h1 := (sh.use_one hx).2.2 ⟨hon, rfl⟩
      omega
  · intro h x hx rs hrs r hr
    unfold useRows at hrs
    obtain ⟨emp, he, hrs⟩ := (bind_eq_ok ..).1 hrs
    obtain ⟨b, hb, hrs⟩ := (bind_eq_ok ..).1 hrs
    cases hrs
    obtain ⟨hm, ht, _⟩ := (mem_uses w).1 hx
    have hk := task_of_mode hm
    have h01 := sh.use_one hx
    have hs := sh.startV x.task hk (x.mode, x.time) (mem_slots.2 ⟨hm, ht⟩)
    have hmv := sh.modeV x.task x.mode hm
    rcases List.mem_append.1 hr with hr | hr
    · simp only [List.mem_cons, List.not_mem_nil, or_false] at hr
      rcases hr with rfl | rfl
      · simp only [Row.Holds, value_cons, value_nil, hmv]
        rcases h01.1 with h0 | h1
        · rw [h0]; split <;> omega
        · have := (h01.2.1 h1).2
          have hmm : x.mode = pl.mode x.task := by rw [this]; rfl
          rw [h1, if_pos hmm]; omega
      · simp only [Row.Holds, value_cons, value_nil, hs]
        rcases h01.1 with h0 | h1
        · rw [h0]; split <;> omega
        · have := (h01.2.1 h1).2
          have hmm : (x.mode, x.time) = (pl.mode x.task, pl.start x.task) := by rw [this]; rfl
          rw [h1, if_pos hmm]; omega
    · cases b with
      | true => simp at hr
      | false =>
        simp only [Bool.false_eq_true, ↓reduceIte, List.mem_cons, List.not_mem_nil, or_false] at hr
        subst hr
        simp only [Row.Holds, value_cons, value_nil]
        rcases h01.1 with h0 | h1
        · omega
        · obtain ⟨hon, hkey⟩ := h01.2.1 h1
          obtain ⟨emp', he', hw⟩ := h _ _ _ hon
          rw [dict_get_ok.1 he] at he'; cases he'
          obtain ⟨t, h1, h2, h3⟩ := (allTrue_spec _ _ _ _ hb).2 rfl
          have hmm : x.mode = pl.mode x.task := by rw [hkey]; rfl
          have htt : x.time = pl.start x.task := by rw [hkey]; rfl
          have := hw t (by omega) (by rw [← htt, Plan.dur, ← hmm]; exact h2)
          rw [h3] at this; cases this

theorem Shape.busy_iff (w : Wf pb) (sh : Shape pb D pl a) (e t : Nat) :
    (busyRow pb (uses pb (D + 1)) (e, t)).Holds a ↔
    ∀ k s k' s', pl.on k e s = true → pl.on k' e s' = true → pl.runs pb t k = true → pl.runs pb t k' = true → k = k' ∧ s = s' := by
  unfold busyRow Row.Holds
  simp only
  rw [value_map]
  simp only [one_mul]
  rw [sum_le_one ((uses_nodup w (D + 1)).filter _) (fun x hx => (sh.use_one (List.mem_filter.1 hx).1).1)]
  constructor
  · intro h k s k' s' h1 h2 r1 r2
    have := h (pl.key k e s) (List.mem_filter.2 ⟨sh.key_mem w h1, ?_⟩) (pl.key k' e s') (List.mem_filter.2 ⟨sh.key_mem w h2, ?_⟩)
      ((sh.use_one (sh.key_mem w h1)).2.2 ⟨h1, rfl⟩) ((sh.use_one (sh.key_mem w h2)).2.2 ⟨h2, rfl⟩)
    · simp only [Plan.key, Use.mk.injEq] at this
      exact ⟨this.2.1, this.2.2.2.2⟩
    · simp only [Plan.key, decide_true, Bool.true_and]; exact r1
    · simp only [Plan.key, decide_true, Bool.true_and]; exact r2
  · intro h x hx y hy h1 h2
    obtain ⟨mx, hx⟩ := List.mem_filter.1 hx
    obtain ⟨my, hy⟩ := List.mem_filter.1 hy
    simp only [Bool.and_eq_true, decide_eq_true_eq] at hx hy
    obtain ⟨o1, k1⟩ := (sh.use_one mx).2.1 h1
    obtain ⟨o2, k2⟩ := (sh.use_one my).2.1 h2
    have e1 : x.mode = pl.mode x.task := by rw [k1]; rfl
    have e2 : x.time = pl.start x.task := by rw [k1]; rfl
    have e3 : y.mode = pl.mode y.task := by rw [k2]; rfl
    have e4 : y.time = pl.start y.task := by rw [k2]; rfl
    have r1 := hx.2
    have r2 := hy.2
    rw [e1, e2] at r1
    rw [e3, e4] at r2
    rw [hx.1] at o1 k1
    rw [hy.1] at o2 k2
    obtain ⟨g1, g2⟩ := h _ _ _ _ o1 o2 r1 r2
    rw [k1, k2, g1, g2]

theorem sum_filter_one {α : Type} (l : List α) (f : α → Int) (c : α → Rat) (h01 : ∀ x, x ∈ l → f x = 0 ∨ f x = 1) :
    (l.map (fun x => c x * (f x : Rat))).sum = ((l.filter (fun x => decide (f x = 1))).map c).sum := by
  induction l with
  | nil => rfl
  | cons x l ih =>
    have ih := ih (fun y hy => h01 y (List.mem_cons_of_mem _ hy))
    rw [List.map_cons, List.sum_cons, ih]
    rcases h01 x (by simp) with h | h
    · rw [List.filter_cons_of_neg (by simp [h]), h]; simp
    · rw [List.filter_cons_of_pos (by simp [h]), h]; simp

/-- The sum of the levels of the workers used for a skill. -/
theorem Shape.levelSum (w : Wf pb) (sh : Shape pb D pl a) (k : Nat) (s : String) :
    (((uses pb (D + 1)).filter (fun x => decide (x.task = k) && decide (x.skill = s))).map (fun x => levelOf pb x.emp s * (a (.use x) : Rat))).sum =
    ((pb.employees.keys.filter (fun e => pl.on k e s)).map (fun e => levelOf pb e s)).sum := by
  rw [sum_filter_one _ (fun x => a (.use x)) (fun x => levelOf pb x.emp s) (fun x hx => (sh.use_one (List.mem_filter.1 hx).1).1), List.filter_filter]
  have hp : (((uses pb (D + 1)).filter (fun x => decide (a (.use x) = 1) && (decide (x.task = k) && decide (x.skill = s)))).map Use.emp).Perm
      (pb.employees.keys.filter (fun e => pl.on k e s)) := by
    rw [List.perm_ext_iff_of_nodup]
    · intro e
      simp only [List.mem_map, List.mem_filter, Bool.and_eq_true, decide_eq_true_eq]
      constructor
      · rintro ⟨x, ⟨hx, h1, rfl, rfl⟩, rfl⟩
        have hon := ((sh.use_one hx).2.1 h1).1
        obtain ⟨emp, he⟩ := emp_of_level (sh.able _ _ _ hon).2.1
        exact ⟨by rw [← Dict.get?_isSome_iff_mem_keys, he]; rfl, hon⟩
      · rintro ⟨_, hon⟩
        have hx := sh.key_mem w hon
        exact ⟨pl.key k e s, ⟨hx, (sh.use_one hx).2.2 ⟨hon, rfl⟩, rfl, rfl⟩, rfl⟩
    · refine List.Nodup.map_on ?_ ((uses_nodup w (D + 1)).filter _)
      intro x hx y hy hxy
      simp only [List.mem_filter, Bool.and_eq_true, decide_eq_true_eq] at hx hy
      have k1 := ((sh.use_one hx.1).2.1 hx.2.1).2
      have k2 := ((sh.use_one hy.1).2.1 hy.2.1).2
      rw [hx.2.2.1, hx.2.2.2, hxy] at k1
      rw [hy.2.2.1, hy.2.2.2] at k2
      exact k1.trans k2.symm
    · exact w.dicts.employees.filter _
  have := (hp.map (fun e => levelOf pb e s)).sum_eq
  rw [List.map_map] at this
  exact this

theorem Shape.skill_iff (w : Wf pb) (sh : Shape pb D pl a) {k : Nat} (hk : k ∈ pb.modes.keys) (s : String) :
    0 ≤ (skillRow pb (uses pb (D + 1)) (k, s)).value a ↔
    (needIn pb s k (pl.mode k) : Rat) ≤ ((pb.employees.keys.filter (fun e => pl.on k e s)).map (fun e => levelOf pb e s)).sum := by
  have : (skillRow pb (uses pb (D + 1)) (k, s)).value a =
      ((pb.employees.keys.filter (fun e => pl.on k e s)).map (fun e => levelOf pb e s)).sum - (needIn pb s k (pl.mode k) : Rat) := by
    unfold skillRow RatLin.value
    rw [List.map_append, List.sum_append, List.map_map, List.map_map]
    simp only [Function.comp_def]
    rw [sh.levelSum w k s, sub_eq_add_neg]
    congr 1
    have h := sh.modeSum w hk (fun m => -needIn pb s k m)
    have h2 := congrArg (fun z : Int => (z : Rat)) h
    rw [show ((-needIn pb s k (pl.mode k) : Int) : Rat) = -(needIn pb s k (pl.mode k) : Rat) from by push_cast; rfl] at h2
    rw [← h2]
    clear h h2
    generalize (modesOf pb k).keys = l
    induction l with
    | nil => simp
    | cons m l ih =>
      simp only [List.map_cons, List.sum_cons]
      rw [ih]
      push_cast
      rfl
  rw [this]
  exact sub_nonneg

theorem mem_taskSkills {pb : Problem} (w : Wf pb) {q : Nat × String} :
    q ∈ taskSkills pb ↔ q.1 ∈ pb.modes.keys ∧ ∃ m, m ∈ (modesOf pb q.1).keys ∧ q.2 ∈ pb.skills ∧ ∃ n, (theMode pb q.1 m).needs.get? q.2 = some n ∧ 0 < n := by
  obtain ⟨k, s⟩ := q
  simp only [taskSkills, List.mem_flatMap, List.mem_map, Prod.mk.injEq]
  constructor
  · rintro ⟨k', hk, s', ⟨⟨m, md⟩, hm, hs⟩, rfl, rfl⟩
    have hm' : m ∈ (modesOf pb k').keys := List.mem_map.2 ⟨_, hm, rfl⟩
    have hg := Dict.get?_of_mem (modesOf_nodup w k') hm
    rw [theMode_get hm'] at hg
    cases hg
    exact ⟨hk, m, hm', (mem_required_keys (needs_nodup w hm')).1 hs⟩
  · rintro ⟨hk, m, hm, hs⟩
    exact ⟨k, hk, s, ⟨(m, theMode pb k m), Dict.mem_of_get? (theMode_get hm), (mem_required_keys (needs_nodup w hm)).2 hs⟩, rfl, rfl⟩

theorem Shape.skills_iff (w : Wf pb) (sh : Shape pb D pl a) :
    (∀ q, q ∈ taskSkills pb → 0 ≤ (skillRow pb (uses pb (D + 1)) q).value a) ↔
    ∀ k s n, k ∈ pb.modes.keys → s ∈ pb.skills → (theMode pb k (pl.mode k)).needs.get? s = some n → 0 < n →
      (n : Rat) ≤ ((pb.employees.keys.filter (fun e => pl.on k e s)).map (fun e => levelOf pb e s)).sum := by
  constructor
  · intro h k s n hk hs hn hp
    have := (sh.skill_iff w hk s).1 (h (k, s) ((mem_taskSkills w).2 ⟨hk, pl.mode k, sh.mode k hk, hs, n, hn, hp⟩))
    unfold needIn at this
    rw [hn] at this
    exact this
  · rintro h ⟨k, s⟩ hq
    obtain ⟨hk, m, hm, hs, _⟩ := (mem_taskSkills w).1 hq
    refine (sh.skill_iff w hk s).2 ?_
    have hnn : (0 : Rat) ≤ ((pb.employees.keys.filter (fun e => pl.on k e s)).map (fun e => levelOf pb e s)).sum := by
      have : ∀ l : List Nat, (∀ e, e ∈ l → 0 ≤ levelOf pb e s) → 0 ≤ (l.map (fun e => levelOf pb e s)).sum := by
        intro l
        induction l with
        | nil => intro _; exact le_refl _
        | cons e l ih =>
          intro h
          rw [List.map_cons, List.sum_cons]
          exact add_nonneg (h e (by simp)) (ih (fun e he => h e (List.mem_cons_of_mem _ he)))
      refine this _ ?_
      intro e he
      exact le_of_lt (sh.able _ _ _ (List.mem_filter.1 he).2).2.1
    by_cases hp : ∃ n, (theMode pb k (pl.mode k)).needs.get? s = some n ∧ 0 < n
    · obtain ⟨n, hn, hp⟩ := hp
      have := h k s n hk hs hn hp
      unfold needIn
      rw [hn]
      exact this
    · refine le_trans ?_ hnn
      have : needIn pb s k (pl.mode k) ≤ 0 := by
        unfold needIn
        cases hg : (theMode pb k (pl.mode k)).needs.get? s with
        | none => simp
        | some n =>
          simp only [Option.getD_some]
          apply Classical.byContradiction
          intro hc
          exact hp ⟨n, hg, by omega⟩
      exact_mod_cast this

/-- An assignment that is a plan is feasible when the plan is valid. -/
theorem Shape.feasible_iff {p : Prog} (w : Wf pb) (hb : Built pb p D) (sh : Shape pb D pl a) : p.Feasible a ↔ Valid pb D pl := by
  rw [hb.feasible a, sh.useRows_iff w hb.cal, sh.skills_iff w]
  constructor
  · rintro ⟨_, _, h3, h4, h5, h6, h7, h8⟩
    exact ⟨sh.mode, sh.late, fun k ss s g1 g2 g3 => by
        obtain ⟨ss', g4, g5⟩ := hb.succ k g2
        rw [g1] at g4; cases g4
        exact (sh.prec_iff g2 (g5 s g3)).1 (h7 k ss s g1 g2 g3), sh.able, h3,
      fun e t ht => (sh.busy_iff w e t).1 (h4 e t ht), h8, fun r row c t g1 g2 g3 g4 => (sh.renewable_iff w r t c).1 (h5 r row c t g1 g2 g3 g4),
      fun r row c g1 g2 g3 => (sh.nonRenewable_iff w r c).1 (h6 r row c g1 g2 g3)⟩
  · intro v
    refine ⟨sh.vars, sh.taskRows w, v.atWork, fun e t ht => (sh.busy_iff w e t).2 (v.once e t ht), fun r row c t g1 g2 g3 g4 =>
      (sh.renewable_iff w r t c).2 (v.renewable r row c t g1 g2 g3 g4), fun r row c g1 g2 g3 => (sh.nonRenewable_iff w r c).2 (v.nonRenewable r row c g1 g2 g3),
      fun k ss s g1 g2 g3 => ?_, v.skills⟩
    obtain ⟨ss', g4, g5⟩ := hb.succ k g2
    rw [g1] at g4; cases g4
    exact (sh.prec_iff g2 (g5 s g3)).2 (v.prec k ss s g1 g2 g3)

end

/-- The assignment of a plan. -/
def asg (pb : Problem) (pl : Plan) : Var → Int
  | .mode k m => if m = pl.mode k then 1 else 0
  | .start k m t => if (m, t) = (pl.mode k, pl.start k) then 1 else 0
  | .dur k => pl.dur pb k
  | .startT k => pl.start k
  | .endT k => pl.start k + pl.dur pb k
  | .use x => if pl.on x.task x.emp x.skill = true ∧ x.mode = pl.mode x.task ∧ x.time = pl.start x.task then 1 else 0

theorem asg_shape {pb : Problem} {D : Nat} {pl : Plan} (v : Valid pb D pl) : Shape pb D pl (asg pb pl) :=
  ⟨v.mode, v.start, fun _ _ _ => rfl, fun _ _ _ _ => rfl, fun _ _ => rfl, fun _ _ => rfl, fun _ _ => rfl, fun _ _ => rfl, v.able⟩

/-- Every feasible assignment is a plan. -/
theorem exists_shape {pb : Problem} {D : Nat} {p : Prog} {a : Var → Int} (w : Wf pb) (hb : Built pb p D) (hf : p.Feasible a) :
    ∃ pl, Shape pb D pl a := by
  obtain ⟨hv, ht, hu, _⟩ := (hb.feasible a).1 hf
  have b1 : ∀ k, k ∈ pb.modes.keys → ∀ q, q ∈ slots pb (D + 1) k → a (.start k q.1 q.2) = 0 ∨ a (.start k q.1 q.2) = 1 := by
    intro k hk q hq
    refine hv (.start k q.1 q.2) .binary ?_
    simp only [vars, List.mem_append, List.mem_flatMap, List.mem_map]
    exact .inl (.inl (.inr ⟨k, hk, q, hq, rfl⟩))
  have b2 : ∀ x, x ∈ uses pb (D + 1) → a (.use x) = 0 ∨ a (.use x) = 1 := by
    intro x hx
    refine hv (.use x) .binary ?_
    simp only [vars, List.mem_append, List.mem_flatMap, List.mem_map]
    exact .inr ⟨x, hx, rfl⟩
  have key : ∀ k, ∃ q : Nat × Nat, k ∈ pb.modes.keys → q ∈ slots pb (D + 1) k ∧ a (.start k q.1 q.2) = 1 ∧
      (∀ y, y ∈ slots pb (D + 1) k → y ≠ q → a (.start k y.1 y.2) = 0) ∧
      ∀ c : Nat × Nat → Int, ((slots pb (D + 1) k).map (fun y => c y * a (.start k y.1 y.2))).sum = c q := by
    intro k
    by_cases hk : k ∈ pb.modes.keys
    · have h := ht (oneRow pb (D + 1) k) (by
        simp only [taskRows, List.mem_append, List.mem_flatMap, List.mem_cons]
        exact .inl (.inl ⟨k, hk, .inl rfl⟩))
      unfold oneRow Row.Holds at h
      simp only at h
      rw [value_map] at h
      simp only [one_mul] at h
      obtain ⟨q, h1, h2, h3, h4⟩ := sum_one_unique (slots_nodup w (D + 1) k) (fun q hq => b1 k hk q hq) h
      exact ⟨q, fun _ => ⟨h1, h2, h3, h4⟩⟩
    · exact ⟨(0, 0), fun h => absurd h hk⟩
  obtain ⟨q, hq⟩ := Classical.axiomOfChoice key
  have hstart : ∀ k, k ∈ pb.modes.keys → ∀ y, y ∈ slots pb (D + 1) k → a (.start k y.1 y.2) = if y = q k then 1 else 0 := by
    intro k hk y hy
    obtain ⟨_, h2, h3, _⟩ := hq k hk
    split
    · next h => rw [h]; exact h2
    · next h => exact h3 y hy h
  have hmode : ∀ k m, m ∈ (modesOf pb k).keys → a (.mode k m) = if m = (q k).1 then 1 else 0 := by
    intro k m hm
    have hk := task_of_mode hm
    have h := ht (modeRow (D + 1) k m) (by
        simp only [taskRows, List.mem_append, List.mem_flatMap, List.mem_cons, List.mem_map]
        exact .inl (.inl ⟨k, hk, .inr ⟨m, hm, rfl⟩⟩))
    unfold modeRow Row.Holds at h
    simp only at h
    rw [value_cons, value_map] at h
    have : ∀ t, t ∈ List.range (D + 1) → -1 * a (.start k m t) = (if m = (q k).1 then -1 else 0) * (if t = (q k).2 then 1 else 0) := by
      intro t ht
      have := hstart k hk (m, t) (mem_slots.2 ⟨hm, List.mem_range.1 ht⟩)
      simp only [Prod.ext_iff] at this
      rw [this]
      by_cases h1 : m = (q k).1 <;> by_cases h2 : t = (q k).2 <;> simp [h1, h2]
    rw [sum_congr' this, sum_indicator List.nodup_range (List.mem_range.2 (mem_slots.1 (hq k hk).1).2)
      (fun _ => if m = (q k).1 then -1 else 0)] at h
    by_cases h1 : m = (q k).1
    · rw [if_pos h1] at h ⊢; simp only at h; omega
    · rw [if_neg h1] at h ⊢; simp only at h; omega
  have htime : ∀ k, k ∈ pb.modes.keys → a (.startT k) = (q k).2 := by
    intro k hk
    have h := ht (startRow pb (D + 1) k) (by
        simp only [taskRows, List.mem_append, List.mem_flatMap, List.mem_cons]
        exact .inl (.inr ⟨k, hk, .inl rfl⟩))
    unfold startRow Row.Holds at h
    simp only at h
    rw [value_append, value_map, value_cons, value_nil, (hq k hk).2.2.2 (fun y => (y.2 : Int))] at h
    simp only at h; omega
  have hdur : ∀ k, k ∈ pb.modes.keys → a (.dur k) = durOf pb k (q k).1 := by
    intro k hk
    have h := ht (durRow pb k) (by
        simp only [taskRows, List.mem_append, List.mem_map]
        exact .inr ⟨k, hk, rfl⟩)
    unfold durRow Row.Holds at h
    simp only at h
    have : ∀ m, m ∈ (modesOf pb k).keys → (durOf pb k m : Int) * a (.mode k m) = (durOf pb k m : Int) * (if m = (q k).1 then 1 else 0) := by
      intro m hm; rw [hmode k m hm]
    rw [value_append, value_map, value_cons, value_nil, sum_congr' this,
      sum_indicator (modesOf_nodup w k) (mem_slots.1 (hq k hk).1).1 (fun m => (durOf pb k m : Int))] at h
    simp only at h; omega
  have hend : ∀ k, k ∈ pb.modes.keys → a (.endT k) = (q k).2 + durOf pb k (q k).1 := by
    intro k hk
    have h := ht (endRow k) (by
        simp only [taskRows, List.mem_append, List.mem_flatMap, List.mem_cons]
        exact .inl (.inr ⟨k, hk, .inr (.inl rfl)⟩))
    unfold endRow Row.Holds at h
    simp only [value_cons, value_nil, htime k hk, hdur k hk] at h
    omega
  have huse : ∀ x, x ∈ uses pb (D + 1) → a (.use x) = 1 → (x.mode, x.time) = q x.task := by
    intro x hx h1
    obtain ⟨hm, htm, _⟩ := (mem_uses w).1 hx
    have hk := task_of_mode hm
    obtain ⟨e, b, he, hbb⟩ := hb.cal x hx
    have h := hu x hx _ (by unfold useRows; rw [dict_get_ok.2 he, bind_ok, hbb, bind_ok]) ⟨[(1, .use x), (-1, .start x.task x.mode x.time)], .le, 0⟩ (by simp)
    simp only [Row.Holds, value_cons, value_nil, h1] at h
    have hs := hstart x.task hk (x.mode, x.time) (mem_slots.2 ⟨hm, htm⟩)
    simp only at hs
    apply Classical.byContradiction
    intro hne
    rw [if_neg hne] at hs
    omega
  refine ⟨⟨fun k => (q k).1, fun k => (q k).2, fun k e s =>
    decide (⟨e, k, (q k).1, (q k).2, s⟩ ∈ uses pb (D + 1)) && decide (a (.use ⟨e, k, (q k).1, (q k).2, s⟩) = 1)⟩, ?_, ?_, hmode, hstart, htime, hdur, hend, ?_, ?_⟩
  · intro k hk; exact (mem_slots.1 (hq k hk).1).1
  · intro k hk; exact Nat.le_of_lt_succ (mem_slots.1 (hq k hk).1).2
  · intro x hx
    obtain ⟨e, k, m, t, s⟩ := x
    simp only [Bool.and_eq_true, decide_eq_true_eq]
    rcases b2 _ hx with h0 | h1
    · rw [if_neg]
      · exact h0
      · rintro ⟨⟨_, h⟩, rfl, rfl⟩
        rw [h0] at h; cases h
    · have := huse _ hx h1
      simp only [Prod.ext_iff] at this
      obtain ⟨rfl, rfl⟩ := this
      rw [if_pos ⟨⟨hx, h1⟩, rfl, rfl⟩]
      exact h1
  · intro k e s h
    simp only [Bool.and_eq_true, decide_eq_true_eq] at h
    obtain ⟨hm, _, hf⟩ := (mem_uses w).1 h.1
    exact ⟨task_of_mode hm, hf⟩

end Verif.MsLp
