import Mathlib.Data.List.Perm.Subperm
import Verif.Props.MultiSkill
/-
Properties of the check of a multi-skill schedule
(`skdecide/builders/discrete_optimization/rcpsp_multiskill/rcpsp_multiskill.py`, `satisfy`).
-/
namespace Verif.MultiSkill
open Verif.Rcpsp (Mode total dict_get_ok)

/-- The mode that a solution gives for activity `a`. -/
def ModeIn (pb : Problem) (sol : Solution) (a : Nat) (m : Mode) : Prop :=
  ∃ k d, sol.modes.get? a = some k ∧ pb.modes.get? a = some d ∧ d.get? k = some m

/-- Every activity is scheduled and has a mode, and the mode lists the requirement `need res a` for every resource. -/
def Covered (pb : Problem) (sol : Solution) (need : String → Nat → Int) : Prop :=
  ∀ a ∈ pb.modes.keys, (∃ p, sol.schedule.get? a = some p) ∧ ∃ m, ModeIn pb sol a m ∧ ∀ res ∈ pb.resources.keys, m.needs.get? res = some (need res a)

theorem modeOf_ok {pb : Problem} {sol : Solution} {a : Nat} {m : Mode} : modeOf pb sol a = .ok m ↔ ModeIn pb sol a m := by
  unfold modeOf ModeIn
  constructor
  · intro h
    obtain ⟨k, h1, h⟩ := bind_eq_ok.1 h
    obtain ⟨d, h2, h⟩ := bind_eq_ok.1 h
    exact ⟨k, d, dict_get_ok.1 h1, dict_get_ok.1 h2, dict_get_ok.1 h⟩
  · rintro ⟨k, d, h1, h2, h3⟩
    rw [dict_get_ok.2 h1, bind_ok, dict_get_ok.2 h2, bind_ok, dict_get_ok.2 h3]

theorem tasks_perm (pb : Problem) : pb.tasks.Perm pb.modes.keys := sortBy_perm _ _

theorem mem_tasks {pb : Problem} {a : Nat} : a ∈ pb.tasks ↔ a ∈ pb.modes.keys := (tasks_perm pb).mem_iff

/-- The workers noted for the activity have the skills they are noted for, and reach the level needed. -/
def SkillsMet (pb : Problem) (sol : Solution) (a : Nat) (m : Mode) : Prop :=
  ∀ sk n, sk ∈ pb.skills → m.needs.get? sk = some n → 0 < n → ∃ us, sol.usage.get? a = some us ∧
    (∀ w ∈ notedFor us sk, HasSkill pb w sk) ∧ (n : Rat) ≤ teamLevel pb (notedFor us sk) sk

/-- The workers noted for the activity are at work during the activity. -/
def AtWork (pb : Problem) (sol : Solution) (a : Nat) : Prop :=
  ∀ us w, sol.usage.get? a = some us → w ∈ us.keys → ∃ s e, sol.schedule.get? a = some (s, e) ∧
    (s < e → ∃ emp, pb.employees.get? w = some emp ∧ ∀ t, s ≤ t → t < e → emp.calendar[t]? = some true)

theorem checkTask_iff {pb : Problem} {sol : Solution} {a : Nat} (hd : Dicts pb) : checkTask pb sol a = .ok true ↔
    ∃ m, ModeIn pb sol a m ∧ SkillsMet pb sol a m ∧ AtWork pb sol a := by
  have hreq : ∀ m, ModeIn pb sol a m → (allM (skillMet pb sol a) (required pb m) = .ok true ↔ SkillsMet pb sol a m) := by
    rintro m ⟨k, d, _, h2, h3⟩
    have hn := hd.needs a d k m h2 h3
    rw [allM_iff]
    constructor
    · intro h sk n h1 h2 h3
      exact skillMet_iff.1 (h (sk, n) ((required_iff hn sk n).2 ⟨h1, h2, h3⟩))
    · rintro h ⟨sk, n⟩ hq
      obtain ⟨h1, h2, h3⟩ := (required_iff hn sk n).1 hq
      exact skillMet_iff.2 (h sk n h1 h2 h3)
  have hwork : (match sol.usage.get? a with | some us => allM (workerFree pb sol a) us.keys | none => .ok true) = Except.ok true ↔ AtWork pb sol a := by
    unfold AtWork
    rcases hu : sol.usage.get? a with _ | us
    · simp
    · simp only [allM_iff, Option.some.injEq]
      constructor
      · rintro h us' w rfl hw; exact workerFree_iff.1 (h w hw)
      · intro h w hw; exact workerFree_iff.2 (h us w rfl hw)
  unfold checkTask
  constructor
  · intro h
    obtain ⟨m, hm, h⟩ := bind_eq_ok.1 h
    obtain ⟨b, hb, h⟩ := bind_eq_ok.1 h
    have hm := modeOf_ok.1 hm
    cases b with
    | false => cases h
    | true => exact ⟨m, hm, (hreq m hm).1 hb, hwork.1 h⟩
  · rintro ⟨m, hm, h1, h2⟩
    rw [modeOf_ok.2 hm, bind_ok, (hreq m hm).2 h1, bind_ok, if_pos rfl]
    exact hwork.2 h2

theorem modeIn_unique {pb : Problem} {sol : Solution} {a : Nat} {m m' : Mode} (h : ModeIn pb sol a m) (h' : ModeIn pb sol a m') : m = m' := by
  have := modeOf_ok.2 h
  rw [modeOf_ok.2 h'] at this
  exact (Except.ok.inj this).symm

/-! ### C94: the check -/

/-- For a schedule with all activities, the check accepts exactly when the schedule has as many entries as there are activities; the
workers noted for a needed skill have it and reach the level; they are at work; activities that overlap share no worker; the running
activities need no more than there is at every time before the end of the sink; the totals of non-renewable resources stay within
the capacity at time 0; and precedences are respected.  Nothing else is checked: not the durations, not what happens after the end of the
sink, not the limit of one worker per activity. -/
theorem C94_accepts_iff {pb : Problem} {sol : Solution} {need : String → Nat → Int} {p : Nat × Nat} (hd : Dicts pb) (hcov : Covered pb sol need)
    (hnr : ∀ res ∈ pb.nonRenewable, res ∈ pb.resources.keys) (hsink : sol.schedule.get? pb.sink = some p) :
    satisfy pb sol = .ok true ↔ sol.schedule.length = pb.modes.length ∧
      (∀ a ∈ pb.modes.keys, ∀ m, ModeIn pb sol a m → SkillsMet pb sol a m) ∧ (∀ a ∈ pb.modes.keys, AtWork pb sol a) ∧
      (∀ a ∈ pb.modes.keys, ∀ b ∈ pb.modes.keys, a < b → ∀ sa ea sb eb, sol.schedule.get? a = some (sa, ea) → sol.schedule.get? b = some (sb, eb) →
        sa < eb → sb < ea → Apart sol a b) ∧
      (∀ res row, pb.resources.get? res = some row → ∀ t < p.2, ∃ c, row[t]? = some c ∧
        total (need res) (pb.modes.keys.filter (runsAt sol.schedule t)) ≤ c) ∧
      (∀ res ∈ pb.nonRenewable, ∃ row c, pb.resources.get? res = some row ∧ row[0]? = some c ∧ total (need res) pb.modes.keys ≤ c) ∧
      (∀ a ss, (a, ss) ∈ pb.successors → ∀ b ∈ ss, ∃ sa ea sb eb, sol.schedule.get? a = some (sa, ea) ∧ sol.schedule.get? b = some (sb, eb) ∧ ea ≤ sb) := by
  have h1 : allM (checkTask pb sol) pb.tasks = .ok true ↔
      (∀ a ∈ pb.modes.keys, ∀ m, ModeIn pb sol a m → SkillsMet pb sol a m) ∧ (∀ a ∈ pb.modes.keys, AtWork pb sol a) := by
    rw [allM_iff]
    constructor
    · intro h
      refine ⟨fun a ha m hm => ?_, fun a ha => ?_⟩
      · obtain ⟨m', g1, g2, _⟩ := (checkTask_iff hd).1 (h a (mem_tasks.2 ha))
        rw [modeIn_unique hm g1]; exact g2
      · obtain ⟨m', _, _, g3⟩ := (checkTask_iff hd).1 (h a (mem_tasks.2 ha))
        exact g3
    · rintro ⟨g1, g2⟩ a ha
      have ha := mem_tasks.1 ha
      obtain ⟨_, m, hm, _⟩ := hcov a ha
      exact (checkTask_iff hd).2 ⟨m, hm, g1 a ha m hm, g2 a ha⟩
  have hov : ∀ t1 ∈ pb.tasks, ∀ t2 ∈ pb.tasks, ∃ b, overlap sol t1 t2 = .ok b := by
    intro t1 m1 t2 m2
    obtain ⟨⟨x, hx⟩, _⟩ := hcov t1 (mem_tasks.1 m1)
    obtain ⟨⟨y, hy⟩, _⟩ := hcov t2 (mem_tasks.1 m2)
    by_cases hlt : t1 < t2
    · exact ⟨intersects x y, overlap_iff.2 ⟨fun _ => ⟨x, y, hx, hy, rfl⟩, fun h => absurd hlt h⟩⟩
    · exact ⟨false, overlap_iff.2 ⟨fun h => absurd h hlt, fun _ => rfl⟩⟩
  obtain ⟨os, hos⟩ := overlaps_total pb.tasks hov
  have h2 : os.all (apart sol) = true ↔ (∀ a ∈ pb.modes.keys, ∀ b ∈ pb.modes.keys, a < b → ∀ sa ea sb eb,
      sol.schedule.get? a = some (sa, ea) → sol.schedule.get? b = some (sb, eb) → sa < eb → sb < ea → Apart sol a b) := by
    rw [List.all_eq_true]
    obtain ⟨_, hmem⟩ := overlaps_ok _ _ hos
    constructor
    · intro h a ha b hb hlt sa ea sb eb hsa hsb l1 l2
      refine apart_iff.1 (h (a, b) ((hmem (a, b)).2 ⟨mem_tasks.2 ha, mem_tasks.2 hb, ?_⟩))
      rw [overlap_iff]
      refine ⟨fun _ => ⟨_, _, hsa, hsb, ?_⟩, fun h => absurd hlt h⟩
      simp only [intersects, Bool.not_or, Bool.true_eq, Bool.and_eq_true, Bool.not_eq_eq_eq_not, Bool.not_true, decide_eq_false_iff_not]
      omega
    · rintro h ⟨a, b⟩ hab
      obtain ⟨m1, m2, m3⟩ := (hmem (a, b)).1 hab
      have hlt : a < b := by
        apply Classical.byContradiction
        intro hlt
        have := (overlap_iff.1 m3).2 hlt
        cases this
      obtain ⟨⟨sa, ea⟩, ⟨sb, eb⟩, hx, hy, hi⟩ := (overlap_iff.1 m3).1 hlt
      simp only [intersects, Bool.not_or, Bool.true_eq, Bool.and_eq_true, Bool.not_eq_eq_eq_not, Bool.not_true, decide_eq_false_iff_not] at hi
      exact apart_iff.2 (h a (mem_tasks.1 m1) b (mem_tasks.1 m2) hlt sa ea sb eb hx hy (by omega) (by omega))
  have h3 : allM (checkTime pb sol) (List.range p.2) = .ok true ↔ (∀ res row, pb.resources.get? res = some row → ∀ t < p.2, ∃ c, row[t]? = some c ∧
        total (need res) (pb.modes.keys.filter (runsAt sol.schedule t)) ≤ c) := by
    rw [allM_iff]
    have hu : ∀ t, checkTime pb sol t = .ok true ↔ ∀ res row, pb.resources.get? res = some row → ∃ c, row[t]? = some c ∧
        total (need res) (pb.modes.keys.filter (runsAt sol.schedule t)) ≤ c := by
      intro t
      have huse := usageAt_eq (pb := pb) (sol := sol) (t := t) (need := need) pb.tasks (pb.resources.map (fun p => (p.1, (0 : Int)))) (by
        intro a ha
        obtain ⟨g1, m, ⟨k, d, g2, g3, g4⟩, g5⟩ := hcov a (mem_tasks.1 ha)
        refine ⟨g1, k, g2, fun res hr => ⟨d, m, g3, g4, g5 res ?_⟩⟩
        simpa [Dict.keys] using hr)
      unfold checkTime
      rw [huse, bind_ok, Rcpsp.withinCaps_iff]
      have htot : ∀ res, total (need res) (pb.tasks.filter (runsAt sol.schedule t)) = total (need res) (pb.modes.keys.filter (runsAt sol.schedule t)) :=
        fun res => (((tasks_perm pb).filter _).map _).sum_eq
      constructor
      · intro h res row hrow
        have hm := Dict.mem_of_get? hrow
        obtain ⟨u, c, k1, k2, k3⟩ := h (res, .calendar row) (List.mem_map.2 ⟨(res, row), hm, rfl⟩)
        have := get?_zero (fun res => total (need res) (pb.tasks.filter (runsAt sol.schedule t))) res pb.resources (List.mem_map.2 ⟨_, hm, rfl⟩)
        simp only at k1
        rw [this] at k1
        cases k1
        rw [htot] at k3
        exact ⟨c, k2, k3⟩
      · rintro h q hq
        obtain ⟨⟨res, row⟩, hm, rfl⟩ := List.mem_map.1 hq
        obtain ⟨c, k1, k2⟩ := h res row (Dict.get?_of_mem hd.resources hm)
        refine ⟨_, c, get?_zero (fun res => total (need res) (pb.tasks.filter (runsAt sol.schedule t))) res pb.resources (List.mem_map.2 ⟨_, hm, rfl⟩), k1, ?_⟩
        rw [htot]; exact k2
    constructor
    · intro h res row hrow t ht
      exact (hu t).1 (h t (by simpa using ht)) res row hrow
    · intro h t ht
      exact (hu t).2 (fun res row hrow => h res row hrow t (by simpa using ht))
  have h4 : allM (checkTotal pb sol) pb.nonRenewable = .ok true ↔
      (∀ res ∈ pb.nonRenewable, ∃ row c, pb.resources.get? res = some row ∧ row[0]? = some c ∧ total (need res) pb.modes.keys ≤ c) := by
    rw [allM_iff]
    have : ∀ res ∈ pb.nonRenewable, (checkTotal pb sol res = .ok true ↔
        ∃ row c, pb.resources.get? res = some row ∧ row[0]? = some c ∧ total (need res) pb.modes.keys ≤ c) := by
      intro res hr
      have hsum := sumInt_eq (f := fun act => do let m ← modeOf pb sol act; m.needs.get res) (g := need res) pb.tasks (by
        intro a ha
        obtain ⟨_, m, g1, g2⟩ := hcov a (mem_tasks.1 ha)
        simp only [modeOf_ok.2 g1, bind_ok, dict_get_ok.2 (g2 res (hnr res hr))])
      unfold checkTotal
      rw [hsum, bind_ok]
      have htot : (pb.tasks.map (need res)).sum = total (need res) pb.modes.keys := ((tasks_perm pb).map _).sum_eq
      rw [htot]
      constructor
      · intro h
        obtain ⟨row, g1, h⟩ := bind_eq_ok.1 h
        obtain ⟨c, g2, h⟩ := bind_eq_ok.1 h
        exact ⟨row, c, dict_get_ok.1 g1, pyGet_ok_iff.1 g2, by simpa using Except.ok.inj h⟩
      · rintro ⟨row, c, g1, g2, g3⟩
        simp only [dict_get_ok.2 g1, bind_ok, pyGet_ok_iff.2 g2]
        simpa using g3
    constructor
    · intro h res hr; exact (this res hr).1 (h res hr)
    · intro h res hr; exact (this res hr).2 (h res hr)
  have h5 : allM (checkSuccs sol) pb.successors = .ok true ↔ (∀ a ss, (a, ss) ∈ pb.successors → ∀ b ∈ ss, ∃ sa ea sb eb,
      sol.schedule.get? a = some (sa, ea) ∧ sol.schedule.get? b = some (sb, eb) ∧ ea ≤ sb) := by
    rw [allM_iff]
    constructor
    · intro h a ss hm; exact checkSuccs_iff.1 (h (a, ss) hm)
    · rintro h ⟨a, ss⟩ hm; exact checkSuccs_iff.2 (h a ss hm)
  unfold satisfy
  split
  · rename_i hlen
    simp only [Except.ok.injEq, Bool.false_eq_true, false_iff]
    rintro ⟨h, _⟩
    exact hlen h
  · rename_i hlen
    have hlen : sol.schedule.length = pb.modes.length := by simpa using hlen
    rw [← h5, ← h4, ← h3, ← h2]
    constructor
    · intro h
      obtain ⟨b1, k1, h⟩ := bind_eq_ok.1 h
      cases b1 with
      | false => cases h
      | true =>
      simp only [↓reduceIte, hos, bind_ok, dict_get_ok.2 hsink] at h
      split at h
      · rename_i k2
        obtain ⟨b2, k3, h⟩ := bind_eq_ok.1 h
        cases b2 with
        | false => cases h
        | true =>
        simp only [↓reduceIte] at h
        obtain ⟨b3, k4, h⟩ := bind_eq_ok.1 h
        cases b3 with
        | false => cases h
        | true =>
        have := h1.1 k1
        exact ⟨hlen, this.1, this.2, k2, k3, k4, h⟩
      · cases h
    · rintro ⟨_, g1, g2, g3, g4, g5, g6⟩
      simp only [h1.2 ⟨g1, g2⟩, bind_ok, ↓reduceIte, hos, g3, dict_get_ok.2 hsink, g4, g5, g6]

theorem running_keys {sch : Schedule} (hn : sch.keys.Nodup) (t : Nat) : sch.keys.filter (runsAt sch t) = running sch t := by
  unfold Dict.keys running
  rw [List.filter_map]
  congr 1
  apply List.filter_congr
  rintro ⟨a, s, e⟩ hm
  simp [runsAt, Dict.get?_of_mem hn hm]

theorem total_split {need : Nat → Int} {sch : Schedule} (h : ∀ a s e, (a, (s, e)) ∈ sch → ¬ s < e → need a = 0) :
    total need sch.keys = total need (lasting sch) := by
  unfold lasting Dict.keys total
  induction sch with
  | nil => rfl
  | cons q sch ih =>
    obtain ⟨a, s, e⟩ := q
    have ih := ih (fun a s e hm => h a s e (by simp [hm]))
    simp only [List.map_cons, List.sum_cons, List.filter_cons, ih]
    split
    · simp
    · rename_i hlt
      rw [h a s e (by simp) (by simpa using hlt)]
      omega

theorem running_le_lasting {need : Nat → Int} {sch : Schedule} (h : ∀ a ∈ sch.keys, 0 ≤ need a) (t : Nat) :
    total need (running sch t) ≤ total need (lasting sch) := by
  unfold running lasting total
  induction sch with
  | nil => exact Int.le_refl _
  | cons q sch ih =>
    obtain ⟨a, s, e⟩ := q
    have ih := ih (fun a hm => h a (by simp only [Dict.keys, List.map_cons, List.mem_cons] at hm ⊢; exact .inr hm))
    have h0 := h a (by simp [Dict.keys])
    simp only [List.filter_cons]
    by_cases h1 : s ≤ t ∧ t < e
    · rw [if_pos (by simpa using h1), if_pos (by simp; omega)]
      simp only [List.map_cons, List.sum_cons]
      omega
    · rw [if_neg (by simpa using h1)]
      split
      · simp only [List.map_cons, List.sum_cons]
        omega
      · exact ih

theorem modesDict_get (modes : List Nat) (a : Nat) : (modesDict modes).get? a = if a = 0 then none else (1 :: modes ++ [1])[a - 1]? := by
  have key : ∀ (l : List Nat) (i : Nat), Dict.get? ((l.zipIdx i).map (fun p : Nat × Nat => (p.2 + 1, p.1))) a = if a < i + 1 then none else l[a - 1 - i]? := by
    intro l
    induction l with
    | nil => intro i; simp [Dict.get?]
    | cons x l ih =>
      intro i
      simp only [List.zipIdx_cons, List.map_cons, Dict.get?]
      rw [ih (i + 1)]
      by_cases h1 : i + 1 = a
      · subst h1; simp
      · by_cases h2 : a < i + 1
        · simp [h1, h2, show a < i + 1 + 1 by omega]
        · have e : a - 1 - i = (a - 1 - (i + 1)) + 1 := by omega
          simp [h1, h2, show ¬ a < i + 1 + 1 by omega, e]
  unfold modesDict
  rw [key _ 0]
  simp only [Nat.zero_add, Nat.lt_one_iff, Nat.sub_zero]

/-- Complete schedules are accepted: for a well-formed instance with constant capacities, modes that the activities have, and priority lists
that name every worker.  Needed as well: requirements are not negative, activities that need skills take time, and activities that take no
time need no non-renewable resource. -/
theorem C94_accepts_generated {pb : Problem} {perm modes : List Nat} {prio : List (List Nat)} {r : Result} (inst : Instance pb)
    (hp : perm.Perm (List.range (pb.modes.length - 2))) (hm : modes.length + 2 = pb.modes.length) (hfull : ∀ l ∈ prio, FullList pb l)
    (hmodes : ∀ (i k : Nat), modes[i]? = some k → ∃ d, pb.modes.get? (i + 2) = some d ∧ k ∈ d.keys)
    (hmult : 0 < pb.multiplier) (hsink : pb.sink = pb.modes.length)
    (hconst : ∀ res row, pb.resources.get? res = some row → ∃ c, 0 ≤ c ∧ ∀ (t : Nat) c', row[t]? = some c' → c' = c)
    (hnonren : ∀ res ∈ pb.nonRenewable, res ∈ pb.resources.keys)
    (hneeds : ∀ a d k m, pb.modes.get? a = some d → d.get? k = some m →
      (∀ res n, m.needs.get? res = some n → 0 ≤ n ∧ (res ∈ pb.nonRenewable → m.duration = 0 → n = 0)) ∧
      (∀ sk n, sk ∈ pb.skills → m.needs.get? sk = some n → 0 < n → 0 < m.duration))
    (h : sgs pb perm modes prio = .ok r) (hf : r.feasible = true) : satisfy pb ⟨r.modes, r.schedule, r.usage⟩ = .ok true := by
  have hd := inst.dicts
  have hEx := Rcpsp.extended_nodup inst.base.two hp
  have hE : (1 :: perm.map (· + 2) ++ [pb.modes.length]).Nodup := hEx.1
  obtain ⟨hnd, hkeys⟩ := C92_activities hd hE h hf
  have hkeys : ∀ a, a ∈ r.schedule.keys ↔ 1 ≤ a ∧ a ≤ pb.modes.length := by
    intro a
    rw [hkeys]
    have := hEx.2 a
    simp only [Rcpsp.extended, Rcpsp.Problem.sink, Problem.base, List.cons_append, List.mem_cons, List.mem_append, List.mem_map, List.not_mem_nil, or_false] at this
    rw [← this]
    grind
  have hrange : (List.range' 1 pb.modes.length).Perm pb.modes.keys := by
    apply List.Subperm.perm_of_length_le
    · apply List.Nodup.subperm List.nodup_range'
      intro a ha
      have ha := List.mem_range'_1.1 ha
      obtain ⟨d, hd, _⟩ := inst.base.activities a ha.1 (by show a ≤ pb.modes.length; omega)
      exact (Dict.get?_isSome_iff_mem_keys _ _).1 (by rw [show pb.modes.get? a = some d from hd]; rfl)
    · simp [Dict.keys]
  have hmk : ∀ a, a ∈ pb.modes.keys ↔ 1 ≤ a ∧ a ≤ pb.modes.length := fun a => by rw [← hrange.mem_iff, List.mem_range'_1]; omega
  have hperm : pb.modes.keys.Perm r.schedule.keys := by
    rw [List.perm_ext_iff_of_nodup (hrange.nodup_iff.1 List.nodup_range') hnd]
    intro a; rw [hmk, hkeys]
  obtain ⟨_, _, inv0, hfix, hrm, _⟩ := sgs_inv hd hE h
  -- the modes are not corrected
  have hext : r.ext = 1 :: modes ++ [1] := by
    obtain ⟨h1, h2⟩ := C92_modes hd hE h
    apply List.ext_getElem?
    intro i
    rcases hi : (1 :: modes ++ [1])[i]? with _ | k
    · rw [List.getElem?_eq_none_iff] at hi ⊢
      simp at hi ⊢; omega
    · obtain ⟨d, g1, g2⟩ := h2 i k hi
      rw [g2, if_pos]
      have hone : ∀ a, 1 ≤ a → a ≤ pb.modes.length → ∀ d, pb.modes.get? a = some d → 1 ∈ d.keys := by
        intro a h1 h2 d hd
        obtain ⟨d', e1, e2, _⟩ := inst.base.activities a h1 h2
        have e1 : pb.modes.get? a = some d' := e1
        rw [hd] at e1; cases e1; exact e2
      have hlt := (List.getElem?_eq_some_iff.1 hi).1
      simp at hlt
      cases i with
      | zero => simp at hi; subst hi; exact hone 1 (by omega) (by omega) d g1
      | succ i =>
        simp only [List.cons_append, List.getElem?_cons_succ] at hi
        by_cases hlt' : i < modes.length
        · rw [List.getElem?_append_left hlt'] at hi
          obtain ⟨d', e1, e2⟩ := hmodes i k hi
          rw [g1] at e1; cases e1; exact e2
        · rw [List.getElem?_append_right (by omega), show i - modes.length = 0 by omega] at hi
          simp at hi; subst hi
          exact hone _ (by omega) (by omega) d g1
  have hwf := Rcpsp.wf_of_instance inst.base hp hm hfix
  have hmode : ∀ a m, 1 ≤ a → (ModeIn pb ⟨r.modes, r.schedule, r.usage⟩ a m ↔ ChosenMode pb r.ext a m) := by
    intro a m ha
    unfold ModeIn ChosenMode
    simp only [hrm, modesDict_get, hext, if_neg (show ¬ a = 0 by omega)]
    grind
  have hex : ∃ need : String → Nat → Int, ∀ res, Requirement pb r.ext res (need res) := by
    refine ⟨fun res a => match details pb r.ext a with | .ok m => (m.needs.get? res).getD 0 | .error _ => 0, fun res a m hc => ?_⟩
    have : details pb r.ext a = .ok m := by
      obtain ⟨d, k, g1, g2, g3⟩ := hc
      unfold details
      rw [pyGet_ok_iff.2 g2, bind_ok, dict_get_ok.2 g1, bind_ok, dict_get_ok.2 g3]
    simp [this]
  obtain ⟨need, hneed⟩ := hex
  have hchosen : ∀ a, 1 ≤ a → a ≤ pb.modes.length → ∃ m, ChosenMode pb r.ext a m ∧ ∀ res ∈ pb.resources.keys, m.needs.get? res = some (need res a) := by
    intro a h1 h2
    obtain ⟨d, e1, e2, e3⟩ := inst.base.activities a h1 h2
    have e1 : pb.modes.get? a = some d := e1
    obtain ⟨m, hm', _⟩ := hwf.modes a ((hEx.2 a).2 ⟨h1, h2⟩)
    obtain ⟨d', k, f1, f2, f3⟩ := Rcpsp.details_ok hm'
    have f1 : pb.modes.get? a = some d' := f1
    rw [e1] at f1; cases f1
    have hc : ChosenMode pb r.ext a m := ⟨d, k, e1, f2, f3⟩
    refine ⟨m, hc, fun res hres => ?_⟩
    obtain ⟨n, hn⟩ := e3 k m f3 res (by simpa [Problem.base, Dict.keys] using hres)
    rw [hneed res a m hc, hn]; rfl
  have hsched : ∀ a, 1 ≤ a → a ≤ pb.modes.length → ∃ p, r.schedule.get? a = some p := fun a h1 h2 =>
    Option.isSome_iff_exists.1 ((Dict.get?_isSome_iff_mem_keys _ _).2 ((hkeys a).2 ⟨h1, h2⟩))
  have h2 : 2 ≤ pb.modes.length := inst.base.two
  obtain ⟨⟨ss, se⟩, hq⟩ := hsched pb.modes.length (by omega) (Nat.le_refl _)
  have hend : se < pb.horizon := by
    obtain ⟨_, _, _, g⟩ := C92_durations hd hE h hf _ _ _ (Dict.mem_of_get? hq)
    exact g
  have hnew : pb.horizon ≤ pb.horizon * pb.multiplier := Nat.le_mul_of_pos_right _ hmult
  have hrow : ∀ res row, pb.resources.get? res = some row → ∃ c, 0 ≤ c ∧ (∀ t, t < pb.horizon → row[t]? = some c) ∧ (∀ (t : Nat) c', row[t]? = some c' → 0 ≤ c') ∧
      row[pb.horizon * pb.multiplier - 1]? = some c := by
    intro res row hr
    obtain ⟨c, c0, hc⟩ := hconst res row hr
    have hcal : ∀ t, t < pb.horizon * pb.multiplier → row[t]? = some c := by
      intro t ht
      obtain ⟨c', g⟩ := inst.base.calendars res (.calendar row) 
        (Dict.get?_of_mem (by rw [base_keys]; exact hd.resources) (List.mem_map.2 ⟨_, Dict.mem_of_get? hr, rfl⟩)) t ht
      have g : row[t]? = some c' := g
      rw [g, hc t c' g]
    exact ⟨c, c0, fun t ht => hcal t (by omega), fun t c' h => by rw [hc t c' h]; exact c0, hcal _ (by omega)⟩
  have hdur : ∀ a s e m, (a, (s, e)) ∈ r.schedule → ChosenMode pb r.ext a m → e = s + m.duration := by
    intro a s e m hmem hc
    obtain ⟨m', g1, g2, _⟩ := C92_durations hd hE h hf a s e hmem
    rw [chosen_unique hc g1]; exact g2
  have hlast0 : ∀ res ∈ pb.nonRenewable, ∀ a s e, (a, (s, e)) ∈ r.schedule → ¬ s < e → need res a = 0 := by
    intro res hres a s e hmem hlt
    have hak := (hkeys a).1 (List.mem_map.2 ⟨_, hmem, rfl⟩)
    obtain ⟨m, hc, hn⟩ := hchosen a hak.1 hak.2
    have := hdur a s e m hmem hc
    obtain ⟨d, k, f1, f2, f3⟩ := hc
    exact ((hneeds a d k m f1 f3).1 res _ (hn res (hnonren res hres))).2 hres (by omega)
  have hnn : ∀ res ∈ pb.resources.keys, ∀ a ∈ r.schedule.keys, 0 ≤ need res a := by
    intro res hres a ha
    have hak := (hkeys a).1 ha
    obtain ⟨m, hc, hn⟩ := hchosen a hak.1 hak.2
    obtain ⟨d, k, f1, f2, f3⟩ := hc
    exact ((hneeds a d k m f1 f3).1 res _ (hn res hres)).1
  have hpos : ∀ a us w s e, r.usage.get? a = some us → w ∈ us.keys → (a, (s, e)) ∈ r.schedule → s < e := by
    intro a us w s e hu hw hmem
    obtain ⟨⟨_, l⟩, hwl, rfl⟩ := List.mem_map.1 hw
    obtain ⟨hne, hl⟩ := C93_noted_skills hd hE h (Dict.mem_of_get? hu) hwl
    obtain ⟨s0, l', rfl⟩ := List.exists_cons_of_ne_nil hne
    obtain ⟨⟨n, m, hc, g1, g2, g3⟩, _⟩ := (hl s0).1 (by simp)
    have := hdur a s e m hmem hc
    obtain ⟨d, k, f1, f2, f3⟩ := hc
    have := (hneeds a d k m f1 f3).2 s0 n g1 g2 g3
    omega
  have hcov : Covered pb ⟨r.modes, r.schedule, r.usage⟩ need := by
    intro a ha
    have ha := (hmk a).1 ha
    obtain ⟨m, hc, hn⟩ := hchosen a ha.1 ha.2
    exact ⟨hsched a ha.1 ha.2, m, (hmode a m ha.1).2 hc, hn⟩
  apply (C94_accepts_iff (p := (ss, se)) hd hcov hnonren (by rw [hsink]; exact hq)).2
  refine ⟨?_, ?_, ?_, ?_, ?_, ?_, ?_⟩
  · have := hperm.length_eq
    simpa [Dict.keys] using this.symm
  · intro a ha m hm' sk n g1 g2 g3
    have ha := (hmk a).1 ha
    have hc := (hmode a m ha.1).1 hm'
    obtain ⟨⟨s, e⟩, hse⟩ := hsched a ha.1 ha.2
    have hmem := Dict.mem_of_get? hse
    have hle : s ≤ e := by have := hdur a s e m hmem hc; omega
    have hlev := C93_levels hd hE h hfull hmem hle ⟨m, hc, g1, g2, g3⟩
    rcases hu : r.usage.get? a with _ | us
    · exfalso
      rw [hu] at hlev
      have : (n : Rat) ≤ 0 := by simpa [notedFor, teamLevel] using hlev
      have hn : (0 : Rat) < n := by exact_mod_cast g3
      exact absurd this (not_le.2 hn)
    · rw [hu] at hlev
      refine ⟨us, rfl, fun w hw => ?_, hlev⟩
      unfold notedFor at hw
      obtain ⟨⟨_, l⟩, hwl, rfl⟩ := List.mem_map.1 hw
      obtain ⟨h1, h2⟩ := List.mem_filter.1 hwl
      obtain ⟨_, hl⟩ := C93_noted_skills hd hE h (Dict.mem_of_get? hu) h1
      exact ((hl sk).1 (by simpa using h2)).2
  · intro a ha us w hu hw
    obtain ⟨s, e, emp, g1, g2, g3⟩ := C93_at_work hd hE h (Dict.mem_of_get? hu) hw
    exact ⟨s, e, Dict.get?_of_mem hnd g1, fun _ => ⟨emp, g2, g3⟩⟩
  · intro a ha b hb hlt sa ea sb eb g1 g2 l1 l2 w us vs u1 u2 w1 w2
    have g1 := Dict.mem_of_get? g1
    have g2 := Dict.mem_of_get? g2
    have p1 := hpos a us w sa ea u1 w1 g1
    have p2 := hpos b vs w sb eb u2 w2 g2
    have := C93_one_place hd hE h (by omega : a ≠ b) (Dict.mem_of_get? u1) w1 (Dict.mem_of_get? u2) w2 g1 g2 (max sa sb)
    omega
  · intro res row hres t ht
    obtain ⟨c, c0, hc, hcp, hcl⟩ := hrow res row hres
    refine ⟨c, hc t (by simp only at ht; omega), ?_⟩
    have hperm' := (((hperm.filter (runsAt r.schedule t)).map (need res)).sum_eq)
    have hk : res ∈ pb.resources.keys := (Dict.get?_isSome_iff_mem_keys _ _).1 (by rw [hres]; rfl)
    show total (need res) _ ≤ c
    unfold total
    rw [hperm', running_keys hnd]
    by_cases hr : res ∈ pb.nonRenewable
    · exact Int.le_trans (running_le_lasting (hnn res hk) t) (C92_nonrenewable_partial hd hE h hf hres hcp hr (hneed res) c hcl)
    · exact C92_renewable hd hE h hf hres hcp hr (hneed res) t c (hc t (by simp only at ht; omega))
  · intro res hres
    have hk := hnonren res hres
    obtain ⟨row, hr⟩ := Option.isSome_iff_exists.1 ((Dict.get?_isSome_iff_mem_keys _ _).2 hk)
    obtain ⟨c, c0, hc, hcp, hcl⟩ := hrow res row hr
    refine ⟨row, c, hr, hc 0 (by omega), ?_⟩
    have h1 : total (need res) pb.modes.keys = total (need res) r.schedule.keys := (hperm.map _).sum_eq
    rw [h1, total_split (hlast0 res hres)]
    exact C92_nonrenewable_partial hd hE h hf hr hcp hres (hneed res) c hcl
  · intro a ss' hm' b hb
    have hb' := inst.base.successors.2.2 a ss' hm' b hb
    have ha' := (inst.base.successors.2.1 a).1 (List.mem_map.2 ⟨_, hm', rfl⟩)
    obtain ⟨⟨sa, ea⟩, ga⟩ := hsched a ha'.1 ha'.2
    obtain ⟨⟨sb, eb⟩, gb⟩ := hsched b hb'.1 hb'.2
    exact ⟨sa, ea, sb, eb, ga, gb, C92_precedence hd hE inst.base.successors.1 h hf a ss' b hm' hb sa ea sb eb (Dict.mem_of_get? ga) (Dict.mem_of_get? gb)⟩

/-! ### Examples, and what is not checked -/

/-- The hypotheses of `C94_accepts_generated` hold for the demonstration. -/
example : (∀ (i k : Nat), [2, 1][i]? = some k → ∃ d, demo.modes.get? (i + 2) = some d ∧ k ∈ d.keys) ∧
    (∀ res row, demo.resources.get? res = some row → ∃ c, 0 ≤ c ∧ ∀ (t : Nat) c', row[t]? = some c' → c' = c) ∧
    (∀ a d k m, demo.modes.get? a = some d → d.get? k = some m →
      (∀ res n, m.needs.get? res = some n → 0 ≤ n ∧ (res ∈ demo.nonRenewable → m.duration = 0 → n = 0)) ∧
      (∀ sk n, sk ∈ demo.skills → m.needs.get? sk = some n → 0 < n → 0 < m.duration)) := by
  refine ⟨?_, ?_, ?_⟩
  · intro i k h
    match i, h with
    | 0, h => cases h; exact ⟨_, rfl, by decide⟩
    | 1, h => cases h; exact ⟨_, rfl, by decide⟩
  · intro res row h
    have := Dict.mem_of_get? h
    simp only [demo, List.mem_cons, Prod.mk.injEq, List.not_mem_nil, or_false] at this
    obtain ⟨_, rfl⟩ := this
    refine ⟨1, by decide, fun t c' h => ?_⟩
    rw [List.getElem?_replicate] at h
    split at h
    · cases h; rfl
    · cases h
  · have k1 : ∀ p ∈ demo.modes, ∀ q ∈ p.2, ∀ x ∈ q.2.needs, 0 ≤ x.2 ∧ (x.1 ∈ demo.nonRenewable → q.2.duration = 0 → x.2 = 0) ∧
      (x.1 ∈ demo.skills → 0 < x.2 → 0 < q.2.duration) := by decide
    intro a d k m h1 h2
    have := k1 _ (Dict.mem_of_get? h1) _ (Dict.mem_of_get? h2)
    exact ⟨fun res n hn => ⟨(this _ (Dict.mem_of_get? hn)).1, (this _ (Dict.mem_of_get? hn)).2.1⟩, fun sk n hs hn => (this _ (Dict.mem_of_get? hn)).2.2 hs⟩

example : satisfy demo ⟨[(1, 1), (2, 1), (3, 1), (4, 1)], [(1, (0, 0)), (2, (0, 2)), (3, (2, 3)), (4, (3, 3))],
    [(2, [(5, ["weld"]), (8, ["weld"])]), (3, [(8, ["paint"])])]⟩ = .ok true := by decide +kernel

/-- Worker 8 paints at a time at which they are away, or while they weld. -/
example : satisfy demo ⟨[(1, 1), (2, 1), (3, 1), (4, 1)], [(1, (0, 0)), (2, (0, 2)), (3, (3, 4)), (4, (4, 4))],
      [(2, [(5, ["weld"]), (8, ["weld"])]), (3, [(8, ["paint"])])]⟩ = .ok false ∧
    satisfy demo ⟨[(1, 1), (2, 1), (3, 1), (4, 1)], [(1, (0, 0)), (2, (0, 2)), (3, (1, 2)), (4, (2, 2))],
      [(2, [(5, ["weld"]), (8, ["weld"])]), (3, [(8, ["paint"])])]⟩ = .ok false := by
  constructor <;> decide +kernel

/-- Durations are not checked: activity 2 takes two time units but is accepted with one.  Nor is the limit of one worker per activity. -/
theorem C94_durations_refuted :
    satisfy demo ⟨[(1, 1), (2, 1), (3, 1), (4, 1)], [(1, (0, 0)), (2, (0, 1)), (3, (1, 2)), (4, (2, 2))],
      [(2, [(5, ["weld"]), (8, ["weld"])]), (3, [(8, ["paint"])])]⟩ = .ok true ∧
    satisfy { demo with oneUnit := true } ⟨[(1, 1), (2, 1), (3, 1), (4, 1)], [(1, (0, 0)), (2, (0, 2)), (3, (2, 3)), (4, (3, 3))],
      [(2, [(5, ["weld"]), (8, ["weld"])]), (3, [(8, ["paint"])])]⟩ = .ok true := by
  constructor <;> decide +kernel

/-- Resources are checked only until the end of the sink: here activity 2 runs on when the sink has ended, at a time without machine. -/
theorem C94_after_sink_refuted :
    satisfy { two with resources := [("machine", [1, 0, 1, 1, 1, 1, 1, 1, 1, 1])], successors := [(1, [2, 3]), (2, []), (3, [4]), (4, [])] }
      ⟨[(1, 1), (2, 1), (3, 1), (4, 1)], [(1, (0, 0)), (2, (0, 2)), (3, (0, 1)), (4, (1, 1))], [(2, [(5, ["weld"])]), (3, [(9, ["paint"])])]⟩ = .ok true := by
  decide +kernel

/-- A generated schedule whose workers are missing makes the check raise `KeyError` in place of an answer (the lists have ranks in place of
workers); so does one with a mode that was corrected, since the solution keeps the mode that does not exist. -/
theorem C94_raises_refuted :
    (∃ r, sgs demo [0, 1] [1, 1] [[1, 2], [1, 2]] = .ok r ∧ r.feasible = true ∧ satisfy demo ⟨r.modes, r.schedule, r.usage⟩ = .error .keyError) ∧
    (∃ r, sgs demo [0, 1] [2, 7] [[8, 5], [8, 5]] = .ok r ∧ r.feasible = true ∧ satisfy demo ⟨r.modes, r.schedule, r.usage⟩ = .error .keyError) := by
  constructor
  · exact ⟨⟨[(1, (0, 0)), (2, (0, 2)), (3, (0, 1)), (4, (2, 2))], [1, 1, 1, 1], [], [(1, 1), (2, 1), (3, 1), (4, 1)], true⟩,
      by decide +kernel, rfl, by decide +kernel⟩
  · exact ⟨⟨[(1, (0, 0)), (2, (0, 3)), (3, (4, 5)), (4, (5, 5))], [1, 2, 1, 1], [(2, [(8, ["weld"])]), (3, [(8, ["paint"])])],
      [(1, 1), (2, 2), (3, 7), (4, 1)], true⟩, by decide +kernel, rfl, by decide +kernel⟩

/-- Activity 4 takes no time and needs a welder, at a time at which the welder is busy. -/
def glance : Problem :=
  { two with
    modes := [(1, [(1, ⟨0, [("machine", 0)]⟩)]), (2, [(1, ⟨2, [("machine", 1), ("weld", 1)]⟩)]), (3, [(1, ⟨1, [("machine", 0), ("paint", 1)]⟩)]),
      (4, [(1, ⟨0, [("machine", 0), ("weld", 1)]⟩)]), (5, [(1, ⟨0, [("machine", 0)]⟩)])]
    successors := [(1, [2, 3]), (2, [5]), (3, [4]), (4, [5]), (5, [])], sink := 5 }

/-- Why activities that need skills have to take time: an activity without duration gets a worker who is busy, which the check rejects. -/
theorem C94_instant_rejected : ∃ r, sgs glance [0, 1, 2] [1, 1, 1] [[5, 9], [9, 5], [5, 9]] = .ok r ∧ r.feasible = true ∧
    satisfy glance ⟨r.modes, r.schedule, r.usage⟩ = .ok false := by
  refine ⟨⟨[(1, (0, 0)), (2, (0, 2)), (3, (0, 1)), (4, (1, 1)), (5, (2, 2))], [1, 1, 1, 1, 1],
    [(2, [(5, ["weld"])]), (3, [(9, ["paint"])]), (4, [(5, ["weld"])])], [(1, 1), (2, 1), (3, 1), (4, 1), (5, 1)], true⟩, by decide +kernel, rfl, by decide +kernel⟩

end Verif.MultiSkill
