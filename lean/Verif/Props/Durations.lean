import Verif.Model.Durations
import Verif.Lemmas.Results
import Mathlib.Tactic.Linarith
import Mathlib.Tactic.FieldSimp

/-!
C45: task durations.
-/
namespace Verif.Durations

theorem mem_intRange {lo hi x : Int} : x ∈ intRange lo hi ↔ lo ≤ x ∧ x < hi := by
  simp only [intRange, List.mem_map, List.mem_range]
  constructor
  · rintro ⟨i, hi', rfl⟩
    have : Int.ofNat i = (i : Int) := rfl
    omega
  · rintro ⟨h1, h2⟩
    refine ⟨(x - lo).toNat, by omega, ?_⟩
    have : Int.ofNat (x - lo).toNat = ((x - lo).toNat : Int) := rfl
    omega

theorem intRange_nodup (lo hi : Int) : (intRange lo hi).Nodup := by
  rw [intRange]
  refine List.Pairwise.map _ ?_ List.nodup_range
  intro a b hab h
  apply hab
  have h1 : Int.ofNat a = (a : Int) := rfl
  have h2 : Int.ofNat b = (b : Int) := rfl
  omega

theorem sum_const (n : Nat) (c : Rat) : (List.replicate n c).sum = n * c := by
  induction n with
  | zero => simp
  | succ n ih =>
    rw [List.replicate_succ, List.sum_cons, ih]
    push_cast
    linarith

/-- With ordered bounds the uniform distribution lists every integer between them exactly once,
all with the same positive probability, and the probabilities sum to one. -/
theorem C45_uniform (lb ub : Int) (h : lb ≤ ub) :
    ∃ d, uniform lb ub = .ok d ∧ (d.map Prod.fst).Nodup ∧ (∀ x, x ∈ d.map Prod.fst ↔ lb ≤ x ∧ x ≤ ub) ∧
      (∀ p ∈ d, ∀ q ∈ d, p.2 = q.2) ∧ (∀ p ∈ d, 0 < p.2) ∧ (d.map Prod.snd).sum = 1 := by
  have hn : ub - lb + 1 ≠ 0 := by omega
  have hpos : (0 : Rat) < ((ub - lb + 1 : Int) : Rat) := by exact_mod_cast (by omega : (0 : Int) < ub - lb + 1)
  have hfst : ((intRange lb (ub + 1)).map (fun x => (x, 1 / ((ub - lb + 1 : Int) : Rat)))).map Prod.fst =
      intRange lb (ub + 1) := by
    rw [List.map_map]
    exact List.map_id _
  refine ⟨(intRange lb (ub + 1)).map (fun x => (x, 1 / ((ub - lb + 1 : Int) : Rat))), ?_, ?_, ?_, ?_, ?_, ?_⟩
  · rw [uniform]
    simp only [if_neg hn]
    rw [mkDiscrete, if_neg]
    intro hnil
    have hm : lb ∈ intRange lb (ub + 1) := mem_intRange.2 ⟨by omega, by omega⟩
    rw [List.map_eq_nil_iff] at hnil
    rw [hnil] at hm; simp at hm
  · rw [hfst]; exact intRange_nodup _ _
  · intro x
    rw [hfst, mem_intRange]; omega
  · intro p hp q hq
    obtain ⟨x, _, rfl⟩ := List.mem_map.1 hp
    obtain ⟨y, _, rfl⟩ := List.mem_map.1 hq
    rfl
  · intro p hp
    obtain ⟨x, _, rfl⟩ := List.mem_map.1 hp
    exact one_div_pos.2 hpos
  · rw [List.map_map]
    have : (intRange lb (ub + 1)).map (Prod.snd ∘ fun x => (x, 1 / ((ub - lb + 1 : Int) : Rat))) =
        List.replicate (ub + 1 - lb).toNat (1 / ((ub - lb + 1 : Int) : Rat)) := by
      rw [List.eq_replicate_iff]
      refine ⟨by simp [intRange], ?_⟩
      intro b hb
      obtain ⟨x, _, rfl⟩ := List.mem_map.1 hb
      rfl
    rw [this, sum_const]
    have hc : (((ub + 1 - lb).toNat : Nat) : Rat) = ((ub - lb + 1 : Int) : Rat) := by
      have : (((ub + 1 - lb).toNat : Nat) : Int) = ub - lb + 1 := by omega
      exact_mod_cast this
    rw [hc]
    field_simp

/-- With bounds in the wrong order the uniform distribution cannot be built. -/
theorem C45_uniform_bad_bounds (lb ub : Int) (h : ub < lb) :
    uniform lb ub = .error (if ub + 1 = lb then .zeroDivisionError else .indexError) := by
  rw [uniform]
  by_cases h1 : ub + 1 = lb
  · simp only [if_pos h1, if_pos (by omega : ub - lb + 1 = 0)]
  · simp only [if_neg h1, if_neg (by omega : ¬ ub - lb + 1 = 0)]
    have : intRange lb (ub + 1) = [] := by
      rw [intRange, show (ub + 1 - lb).toNat = 0 by omega]; rfl
    rw [this, mkDiscrete]; rfl

example : uniform 3 5 = .ok [(3, 1/3), (4, 1/3), (5, 1/3)] ∧ uniform 3 2 = .error .zeroDivisionError ∧
    uniform 3 1 = .error .indexError := by decide +kernel

/-- The bounds of an enumerable distribution are themselves possible durations and every possible
duration lies between them. -/
theorem C45_bounds_tight (values : List (Int × Rat)) (h : values ≠ []) :
    ∃ lo hi, enumLower values = .ok lo ∧ enumUpper values = .ok hi ∧
      (∃ p, (lo, p) ∈ values) ∧ (∃ p, (hi, p) ∈ values) ∧ ∀ x p, (x, p) ∈ values → lo ≤ x ∧ x ≤ hi := by
  have hne : values.map Prod.fst ≠ [] := by simpa using h
  obtain ⟨lo, hlo⟩ := Results.pyMinBy_defined (fun x : Int => x) hne
  obtain ⟨hi, hhi⟩ := Results.pyMaxBy_defined (fun x : Int => x) hne
  obtain ⟨l1, l2⟩ := Results.pyMinBy_spec hlo
  obtain ⟨u1, u2⟩ := Results.pyMaxBy_spec hhi
  refine ⟨lo, hi, hlo, hhi, ?_, ?_, ?_⟩
  · obtain ⟨q, h1, h2⟩ := List.mem_map.1 l1; exact ⟨q.2, by rw [← h2]; exact h1⟩
  · obtain ⟨q, h1, h2⟩ := List.mem_map.1 u1; exact ⟨q.2, by rw [← h2]; exact h1⟩
  · intro x p hx
    have hm : x ∈ values.map Prod.fst := List.mem_map.2 ⟨(x, p), hx, rfl⟩
    exact ⟨l2 x hm, u2 x hm⟩

/-- The bounds of a uniform distribution read back from its list are the bounds it was given. -/
theorem C45_uniform_bounds (lb ub : Int) (h : lb ≤ ub) :
    ∃ d, uniform lb ub = .ok d ∧ enumLower d = .ok lb ∧ enumUpper d = .ok ub := by
  obtain ⟨d, h1, _, h3, _⟩ := C45_uniform lb ub h
  have hne : d ≠ [] := by
    intro hn; rw [hn] at h3
    have := (h3 lb).2 ⟨by omega, by omega⟩
    simp at this
  obtain ⟨lo, hi, e1, e2, ⟨p, e3⟩, ⟨q, e4⟩, e5⟩ := C45_bounds_tight d hne
  have m1 := (h3 lo).1 (List.mem_map.2 ⟨_, e3, rfl⟩)
  have m2 := (h3 hi).1 (List.mem_map.2 ⟨_, e4, rfl⟩)
  obtain ⟨r1, hr1, hr1'⟩ := List.mem_map.1 ((h3 lb).2 ⟨by omega, by omega⟩)
  obtain ⟨r2, hr2, hr2'⟩ := List.mem_map.1 ((h3 ub).2 ⟨by omega, by omega⟩)
  have b1 := e5 r1.1 r1.2 hr1
  have b2 := e5 r2.1 r2.2 hr2
  refine ⟨d, h1, ?_, ?_⟩
  · rw [e1]; congr 1; omega
  · rw [e2]; congr 1; omega

example : enumLower [(4, 1/2), (2, 1/4), (9, 1/4)] = .ok 2 ∧ enumUpper [(4, 1/2), (2, 1/4), (9, 1/4)] = .ok 9 := by
  decide +kernel

/-! ### Remembering -/

variable [DecidableEq π]

omit [DecidableEq π] in
theorem ensure_spec [DecidableEq κ] (d : Dict κ β) (k : κ) (b : β) :
    (if d.contains k then d else d.set k b).get? k = some ((d.get? k).getD b) ∧
    ∀ k', k' ≠ k → (if d.contains k then d else d.set k b).get? k' = d.get? k' := by
  rw [Dict.contains_eq]
  cases h : d.get? k with
  | none =>
    simp only [Option.isSome_none, Bool.false_eq_true, if_false, Option.getD_none]
    exact ⟨Dict.get?_set_self _ _ _, fun k' hk => Dict.get?_set_ne _ _ hk⟩
  | some v =>
    simp only [Option.isSome_some, if_true, Option.getD_some]
    exact ⟨h, fun _ _ => trivial⟩

theorem recall_eq (mem : Memory π) (t m : Int) (q : π) :
    recall mem t m q = (((mem.get? t).getD []).get? m |>.getD []).get? q := by
  rw [recall]
  cases mem.get? t with
  | none => rfl
  | some d =>
    simp only [Option.getD_some]
    cases d.get? m <;> rfl

theorem sample_spec (draw : Int) (mem : Memory π) (task mode : Int) (progress : π) :
    ∃ mem' v, sample draw mem task mode progress = .ok (mem', v) ∧
      v = (recall mem task mode progress).getD draw ∧
      recall mem' task mode progress = some v ∧
      ∀ t m q, (t, m, q) ≠ (task, mode, progress) → recall mem' t m q = recall mem t m q := by
  obtain ⟨a1, a2⟩ := ensure_spec mem task []
  rw [sample]
  simp only
  generalize (if mem.contains task then mem else mem.set task []) = m1 at a1 a2
  rw [show m1.get task = .ok ((mem.get? task).getD []) by simp only [Dict.get, a1], bind_ok]
  generalize hd : (mem.get? task).getD [] = d at a1
  obtain ⟨b1, b2⟩ := ensure_spec d mode []
  generalize (if d.contains mode then d else d.set mode []) = d1 at b1 b2
  rw [show d1.get mode = .ok ((d.get? mode).getD []) by simp only [Dict.get, b1], bind_ok]
  generalize he : (d.get? mode).getD [] = e at b1
  obtain ⟨c1, c2⟩ := ensure_spec e progress draw
  generalize (if e.contains progress then e else e.set progress draw) = e1 at c1 c2
  rw [show e1.get progress = .ok ((e.get? progress).getD draw) by simp only [Dict.get, c1], bind_ok]
  refine ⟨_, _, rfl, ?_, ?_, ?_⟩
  · rw [recall_eq, hd, he]
  · rw [recall_eq, Dict.get?_set_self, Option.getD_some, Dict.get?_set_self, Option.getD_some, c1]
  · intro t m q hne
    rw [recall_eq, recall_eq]
    by_cases ht : t = task
    · subst ht
      rw [Dict.get?_set_self, Option.getD_some, hd]
      by_cases hm : m = mode
      · subst hm
        rw [Dict.get?_set_self, Option.getD_some, he]
        exact c2 q (by rintro rfl; exact hne rfl)
      · rw [Dict.get?_set_ne _ _ hm, b2 m hm]
    · rw [Dict.get?_set_ne _ _ ht, a2 t ht]

/-- A call of one of the two methods: which one, the draw it would use, its arguments. -/
structure Call (π : Type) where
  useLatest : Bool
  draw : Int
  task : Int
  mode : Int
  progress : π

/-- One call on the memory. -/
def Call.exec (c : Call π) (mem : Memory π) : Except PyErr (Memory π × Int) :=
  if c.useLatest then latest c.draw mem c.task c.mode c.progress
  else sample c.draw mem c.task c.mode c.progress

/-- A sequence of calls: the memory afterwards and the results in order. -/
def execAll : List (Call π) → Memory π → Except PyErr (Memory π × List Int)
  | [], mem => .ok (mem, [])
  | c :: cs, mem => do
    let (mem, v) ← c.exec mem
    let (mem, vs) ← execAll cs mem
    return (mem, v :: vs)

theorem exec_spec (c : Call π) (mem : Memory π) :
    ∃ mem' v, c.exec mem = .ok (mem', v) ∧ v = (recall mem c.task c.mode c.progress).getD c.draw ∧
      recall mem' c.task c.mode c.progress = some v ∧
      ∀ t m q, (t, m, q) ≠ (c.task, c.mode, c.progress) → recall mem' t m q = recall mem t m q := by
  rw [Call.exec]
  by_cases h : c.useLatest = true
  · rw [if_pos h, latest]
    cases hr : recall mem c.task c.mode c.progress with
    | some v => exact ⟨mem, v, rfl, rfl, hr, fun _ _ _ _ => rfl⟩
    | none =>
      have := sample_spec c.draw mem c.task c.mode c.progress
      rw [hr] at this
      exact this
  · rw [if_neg h]; exact sample_spec _ _ _ _ _

theorem execAll_kept (cs : List (Call π)) (mem : Memory π) (t m : Int) (q : π) (v : Int)
    (hv : recall mem t m q = some v) :
    ∃ mem' vs, execAll cs mem = .ok (mem', vs) ∧ recall mem' t m q = some v := by
  induction cs generalizing mem with
  | nil => exact ⟨mem, [], rfl, hv⟩
  | cons c cs ih =>
    obtain ⟨mem1, w, h1, h2, h3, h4⟩ := exec_spec c mem
    have hv1 : recall mem1 t m q = some v := by
      by_cases he : (t, m, q) = (c.task, c.mode, c.progress)
      · cases he
        rw [h3, h2, hv]; rfl
      · rw [h4 t m q he]; exact hv
    obtain ⟨mem2, vs, h5, h6⟩ := ih mem1 hv1
    refine ⟨mem2, w :: vs, ?_, h6⟩
    rw [execAll, h1, bind_ok]
    simp only
    rw [h5]; rfl

/-- In a simulated domain, after a duration has been sampled once for a task, mode and progress,
every later call of either method for them returns the same duration, whatever calls for
anything happen in between and whatever the draws.  Nothing ever raises. -/
theorem C45_remembered (mem : Memory π) (first : Call π) (between : List (Call π)) (again : Call π)
    (h : (again.task, again.mode, again.progress) = (first.task, first.mode, first.progress)) :
    ∃ mem1 v mem2 vs mem3, first.exec mem = .ok (mem1, v) ∧ execAll between mem1 = .ok (mem2, vs) ∧
      again.exec mem2 = .ok (mem3, v) := by
  obtain ⟨mem1, v, h1, _, h3, _⟩ := exec_spec first mem
  obtain ⟨mem2, vs, h5, h6⟩ := execAll_kept between mem1 _ _ _ v h3
  obtain ⟨mem3, w, h7, h8, _⟩ := exec_spec again mem2
  refine ⟨mem1, v, mem2, vs, mem3, h1, h5, ?_⟩
  rw [Prod.mk.injEq, Prod.mk.injEq] at h
  rw [h7, h8, h.1, h.2.1, h.2.2, h6]
  rfl

/-- A first call returns its own draw. -/
theorem C45_first_draw (mem : Memory π) (c : Call π) (h : recall mem c.task c.mode c.progress = none) :
    ∃ mem', c.exec mem = .ok (mem', c.draw) := by
  obtain ⟨mem', v, h1, h2, _⟩ := exec_spec c mem
  rw [h] at h2
  exact ⟨mem', by rw [h1, h2]; rfl⟩

example : execAll [⟨false, 5, 1, 1, 0⟩, ⟨false, 7, 1, 2, 0⟩, ⟨true, 9, 1, 1, 0⟩, ⟨false, 8, 1, 1, 0⟩]
    ([] : Memory Int) = .ok ([(1, [(1, [(0, 5)]), (2, [(0, 7)])])], [5, 7, 5, 5]) := rfl

omit [DecidableEq π] in
/-- In the uncertain domains nothing is remembered: the "latest" duration asked for right after
sampling 5 is a fresh draw. -/
theorem C45_uncertain_forgets : ∃ mem : Memory Int, sampleUncertain 5 ([] : Memory Int) = (mem, 5) ∧
    latestUncertain 6 mem 1 1 0 = (mem, 6) := ⟨[], rfl, rfl⟩

omit [DecidableEq π] in
/-- A deterministic duration: the distribution is the single sampled value and both bounds equal
it, from progress zero.  Missing: other progress, where it is false
(see `C45_fixed_ignores_progress`). -/
theorem C45_fixed_partial (f : Fixed) (task mode : Int) :
    fixedDistribution f task mode 0 = [(fixedSample f task mode 0, 1)] ∧
    fixedBound f task mode 0 = fixedSample f task mode 0 ∧
    enumLower (fixedDistribution f task mode 0) = .ok (fixedSample f task mode 0) ∧
    enumUpper (fixedDistribution f task mode 0) = .ok (fixedSample f task mode 0) := ⟨rfl, rfl, rfl, rfl⟩

omit [DecidableEq π] in
/-- The distribution and bounds ignore the progress that the sampled duration depends on. -/
theorem C45_fixed_ignores_progress : ∃ f : Fixed, fixedSample f 1 1 (1/2) = 2 ∧
    fixedDistribution f 1 1 (1/2) = [(4, 1)] ∧ fixedBound f 1 1 (1/2) = 4 :=
  ⟨fun _ _ p => if p = 0 then 4 else 2, by decide +kernel, by decide +kernel, by decide +kernel⟩

end Verif.Durations
