import Mathlib.Data.List.Nodup
import Verif.Lemmas.MultiSkillCheck
/-
Properties of multi-skill project scheduling
(`skdecide/builders/discrete_optimization/rcpsp_multiskill/rcpsp_multiskill.py`).
-/
namespace Verif.MultiSkill
open Verif.Rcpsp (Mode total)

section generation
variable {pb : Problem} {perm modes : List Nat} {prio : List (List Nat)} {r : Result}

theorem schedOf_keys (log : List Placement) : Dict.keys (schedOf log) = log.map Placement.act := by simp [schedOf, Dict.keys, Function.comp_def]

theorem mem_schedOf {log : List Placement} {a s e : Nat} : (a, (s, e)) ∈ schedOf log ↔ ∃ p ∈ log, p.act = a ∧ p.start = s ∧ p.stop = e := by
  simp [schedOf, List.mem_map]

/-! ### C92: schedule generation -/

/-- Whatever the instance, the priority lists and the modes: when the schedule is complete (the flag of the code is set), every activity
occurs exactly once. -/
theorem C92_activities (hd : Dicts pb) (hE : (1 :: perm.map (· + 2) ++ [pb.modes.length]).Nodup) (h : sgs pb perm modes prio = .ok r)
    (hf : r.feasible = true) :
    r.schedule.keys.Nodup ∧ ∀ a, a ∈ r.schedule.keys ↔ a = 1 ∨ (∃ x ∈ perm, a = x + 2) ∨ a = pb.modes.length := by
  obtain ⟨st, log, inv, _, _, _, _, hok, _⟩ := sgs_inv hd hE h
  obtain ⟨_, hp, hs⟩ := hok hf
  rw [hs, schedOf_keys]
  refine ⟨inv.nodup, fun a => ?_⟩
  rw [all_placed inv hp a]
  simp only [extended, List.cons_append, List.mem_cons, List.mem_append, List.mem_map, List.not_mem_nil, or_false]
  constructor
  · rintro (h | ⟨x, hx, rfl⟩ | h)
    · exact .inl h
    · exact .inr (.inl ⟨x, hx, rfl⟩)
    · exact .inr (.inr h)
  · rintro (h | ⟨x, hx, rfl⟩ | h)
    · exact .inl h
    · exact .inr (.inl ⟨x, hx, rfl⟩)
    · exact .inr (.inr h)

/-- The modes used are the modes given, with mode 1 in place of a mode that the activity does not have. -/
theorem C92_modes (hd : Dicts pb) (hE : (1 :: perm.map (· + 2) ++ [pb.modes.length]).Nodup) (h : sgs pb perm modes prio = .ok r) :
    r.ext.length = modes.length + 2 ∧ ∀ (i m : Nat), (1 :: modes ++ [1])[i]? = some m →
      ∃ d, pb.modes.get? (i + 1) = some d ∧ r.ext[i]? = some (if m ∈ d.keys then m else 1) := by
  obtain ⟨st, log, inv, hext, _⟩ := sgs_inv hd hE h
  obtain ⟨h1, h2⟩ := Rcpsp.fixModes_spec _ _ _ _ hext
  refine ⟨by simpa using h1, fun i m hi => ?_⟩
  obtain ⟨d, g1, g2⟩ := h2 i m hi
  exact ⟨d, by rw [← g1]; simp [Problem.base], g2⟩

/-- Every activity lasts as long as its mode says and ends before the horizon. -/
theorem C92_durations (hd : Dicts pb) (hE : (1 :: perm.map (· + 2) ++ [pb.modes.length]).Nodup) (h : sgs pb perm modes prio = .ok r)
    (hf : r.feasible = true) : ∀ a s e, (a, (s, e)) ∈ r.schedule → ∃ m, ChosenMode pb r.ext a m ∧ e = s + m.duration ∧ e < pb.horizon := by
  obtain ⟨st, log, inv, _, _, _, _, hok, _⟩ := sgs_inv hd hE h
  obtain ⟨_, _, hs⟩ := hok hf
  intro a s e hm
  rw [hs] at hm
  obtain ⟨p, hp, rfl, rfl, rfl⟩ := mem_schedOf.1 hm
  obtain ⟨_, _, _, he⟩ := entry_of_mem inv hp
  exact ⟨p.mode, details_ok he.mode, rfl, he.inside.1⟩

/-- No activity starts before the end of one that precedes it. -/
theorem C92_precedence (hd : Dicts pb) (hE : (1 :: perm.map (· + 2) ++ [pb.modes.length]).Nodup) (hsucc : pb.successors.keys.Nodup)
    (h : sgs pb perm modes prio = .ok r) (hf : r.feasible = true) :
    ∀ a ss b, (a, ss) ∈ pb.successors → b ∈ ss → ∀ sa ea sb eb, (a, (sa, ea)) ∈ r.schedule → (b, (sb, eb)) ∈ r.schedule → ea ≤ sb := by
  obtain ⟨st, log, inv, _, _, _, _, hok, _⟩ := sgs_inv hd hE h
  obtain ⟨_, _, hs⟩ := hok hf
  intro a ss b hss hb sa ea sb eb ha hb'
  rw [hs] at ha hb'
  obtain ⟨p, hp, rfl, rfl, rfl⟩ := mem_schedOf.1 ha
  obtain ⟨q, hq, rfl, rfl, rfl⟩ := mem_schedOf.1 hb'
  obtain ⟨pre, post, hlog, he⟩ := entry_of_mem inv hq
  obtain ⟨_, _, _, hready, _⟩ := he.first
  obtain ⟨p', hp', e1⟩ := List.mem_map.1 (hready p.act ss hss hb (inv.sub p hp))
  have : p' = p := by
    have hnd := inv.nodup
    have hp'' : p' ∈ log := by rw [hlog]; simp [hp']
    exact List.inj_on_of_nodup_map hnd hp'' hp e1
  subst this
  exact he.after p' hp' ss (Dict.get?_of_mem hsucc hss) hb

/-- At no time the activities that run need more of a renewable resource than there is. -/
theorem C92_renewable (hd : Dicts pb) (hE : (1 :: perm.map (· + 2) ++ [pb.modes.length]).Nodup) (h : sgs pb perm modes prio = .ok r)
    (hf : r.feasible = true) {res : String} {cap : List Int} (hcap : pb.resources.get? res = some cap)
    (hpos : ∀ (t : Nat) c, cap[t]? = some c → 0 ≤ c) (hr : res ∉ pb.nonRenewable) {need : Nat → Int} (hneed : Requirement pb r.ext res need) :
    ∀ (t : Nat) c, cap[t]? = some c → total need (running r.schedule t) ≤ c := by
  obtain ⟨st, log, inv, _, _, _, _, hok, _⟩ := sgs_inv hd hE h
  obtain ⟨hnr, _, hs⟩ := hok hf
  intro t c hc
  have hu := used_eq hneed false t log (fun p hp => by obtain ⟨_, _, _, he⟩ := entry_of_mem inv hp; exact he.mode)
  rw [if_neg (by simp)] at hu
  rw [hs, ← hu]
  obtain ⟨row, r1, r2, r3⟩ := inv.row res cap hcap
  have hbool : pb.nonRenewable.contains res = false := by simpa using hr
  rw [hbool] at r2
  by_cases ht : t < pb.newHorizon
  · have hrow := r2 t ht
    rw [hc] at hrow
    have := r3 hnr (fun t _ c hc => hpos t c hc) t ht _ hrow
    simp only at this
    omega
  · have : used false res log t = 0 := by
      unfold used
      have : ∀ p ∈ log, (if p.charged false t then needOf p.mode res else 0) = 0 := by
        intro p hp
        obtain ⟨_, _, _, he⟩ := entry_of_mem inv hp
        have : p.charged false t = false := by
          simp only [Placement.charged, Bool.false_eq_true, ↓reduceIte, Placement.runs, Bool.and_eq_false_iff, decide_eq_false_iff_not]
          rcases he.inside.2.2 with g | g | g
          · rw [g] at hcap; cases hcap
          · have : p.stop = p.start := by simp [Placement.stop, g]
            omega
          · omega
        rw [this]; rfl
      rw [List.map_congr_left this]
      simp
    rw [this]
    exact hpos t c hc

/-- The activities that take time need no more of a non-renewable resource than there is at the last time before the horizon.  Partial:
activities without duration are not charged. -/
theorem C92_nonrenewable_partial (hd : Dicts pb) (hE : (1 :: perm.map (· + 2) ++ [pb.modes.length]).Nodup) (h : sgs pb perm modes prio = .ok r)
    (hf : r.feasible = true) {res : String} {cap : List Int} (hcap : pb.resources.get? res = some cap)
    (hpos : ∀ (t : Nat) c, cap[t]? = some c → 0 ≤ c) (hr : res ∈ pb.nonRenewable) {need : Nat → Int} (hneed : Requirement pb r.ext res need) :
    ∀ c, cap[pb.horizon * pb.multiplier - 1]? = some c → total need (lasting r.schedule) ≤ c := by
  obtain ⟨st, log, inv, _, _, _, _, hok, _⟩ := sgs_inv hd hE h
  obtain ⟨hnr, _, hs⟩ := hok hf
  intro c hc
  have hu := used_eq hneed true (pb.newHorizon - 1) log (fun p hp => by obtain ⟨_, _, _, he⟩ := entry_of_mem inv hp; exact he.mode)
  rw [if_pos rfl] at hu
  have hlast : begun (schedOf log) (pb.newHorizon - 1) = lasting (schedOf log) := by
    unfold begun lasting
    congr 1
    apply List.filter_congr
    rintro ⟨a, s, e⟩ hm
    obtain ⟨p, hp, rfl, rfl, rfl⟩ := mem_schedOf.1 hm
    obtain ⟨_, _, _, he⟩ := entry_of_mem inv hp
    by_cases hlt : p.start < p.stop
    · have : p.start ≤ pb.newHorizon - 1 := by
        rcases he.inside.2.2 with g | g | g
        · rw [g] at hcap; cases hcap
        · have : p.stop = p.start := by simp [Placement.stop, g]
          omega
        · omega
      simp [hlt, this]
    · simp [hlt]
  rw [hs, ← hlast, ← hu]
  by_cases h0 : pb.newHorizon = 0
  · have : used true res log (pb.newHorizon - 1) = 0 := by
      rw [hu, hlast]
      have : lasting (schedOf log) = [] := by
        unfold lasting
        rw [List.filter_eq_nil_iff.2]
        · rfl
        rintro ⟨a, s, e⟩ hm
        obtain ⟨p, hp, rfl, rfl, rfl⟩ := mem_schedOf.1 hm
        obtain ⟨_, _, _, he⟩ := entry_of_mem inv hp
        simp only [decide_eq_true_eq]
        rcases he.inside.2.2 with g | g | g
        · rw [g] at hcap; cases hcap
        · have : p.stop = p.start := by simp [Placement.stop, g]
          omega
        · omega
      rw [this]; rfl
    rw [this]
    exact hpos _ c hc
  · obtain ⟨row, r1, r2, r3⟩ := inv.row res cap hcap
    have hbool : pb.nonRenewable.contains res = true := by simpa using hr
    rw [hbool] at r2
    have hrow := r2 (pb.newHorizon - 1) (by omega)
    rw [show cap[pb.newHorizon - 1]? = some c from hc] at hrow
    have := r3 hnr (fun t _ c hc => hpos t c hc) (pb.newHorizon - 1) (by omega) _ hrow
    simp only at this
    omega

/-- The schedule lists the activities in the order of placement.  When an activity is placed, all its predecessors have been placed, and
every activity that comes earlier in the priority list and is not yet placed has a predecessor that is not placed. -/
theorem C92_priority (hd : Dicts pb) (hE : (1 :: perm.map (· + 2) ++ [pb.modes.length]).Nodup) (h : sgs pb perm modes prio = .ok r)
    (hf : r.feasible = true) (pre post : Schedule) (b : Nat) (p : Nat × Nat) (hsplit : r.schedule = pre ++ (b, p) :: post) :
    (∀ a ss, (a, ss) ∈ pb.successors → b ∈ ss → a ∈ 1 :: perm.map (· + 2) ++ [pb.modes.length] → a ∈ pre.keys) ∧
    ∃ l1 l2, 1 :: perm.map (· + 2) ++ [pb.modes.length] = l1 ++ b :: l2 ∧ ∀ x ∈ l1, x ∉ pre.keys →
      ∃ a ss, (a, ss) ∈ pb.successors ∧ x ∈ ss ∧ a ∈ 1 :: perm.map (· + 2) ++ [pb.modes.length] ∧ a ∉ pre.keys := by
  obtain ⟨st, log, inv, _, _, _, _, hok, _⟩ := sgs_inv hd hE h
  obtain ⟨_, _, hs⟩ := hok hf
  rw [hs] at hsplit
  obtain ⟨lpre, lrest, rfl, hpre, hrest⟩ := List.map_eq_append_iff.1 hsplit
  obtain ⟨q, lpost, rfl, hq, _⟩ := List.map_eq_cons_iff.1 hrest
  have he := inv.entry lpre q lpost rfl
  have hb : q.act = b := by cases hq; rfl
  subst hb
  have hk : pre.keys = lpre.map Placement.act := by rw [← hpre]; exact schedOf_keys lpre
  obtain ⟨l1, l2, e1, e2, e3⟩ := he.first
  refine ⟨fun a ss h1 h2 h3 => by rw [hk]; exact e2 a ss h1 h2 h3, l1, l2, e1, fun x hx hn => ?_⟩
  rw [hk] at hn ⊢
  have := e3 x hx hn
  unfold Ready at this
  simp only [not_forall] at this
  obtain ⟨a, ss, g1, g2, g3, g4⟩ := this
  exact ⟨a, ss, g1, g2, g3, g4⟩

/-! ### C93: workers -/

/-- The skills that activity `a` needs, with the levels. -/
def Needs (pb : Problem) (ext : List Nat) (a : Nat) (s : String) (n : Int) : Prop :=
  ∃ m, ChosenMode pb ext a m ∧ s ∈ pb.skills ∧ m.needs.get? s = some n ∧ 0 < n

theorem required_iff {m : Mode} (hn : m.needs.keys.Nodup) (s : String) (n : Int) :
    (s, n) ∈ required pb m ↔ s ∈ pb.skills ∧ m.needs.get? s = some n ∧ 0 < n := by
  unfold required
  simp only [List.mem_filter, Bool.and_eq_true, List.contains_eq_mem, decide_eq_true_eq]
  constructor
  · rintro ⟨h1, h2, h3⟩; exact ⟨h2, Dict.get?_of_mem hn h1, h3⟩
  · rintro ⟨h1, h2, h3⟩; exact ⟨Dict.mem_of_get? h2, h1, h3⟩

theorem chosen_unique {ext : List Nat} {a : Nat} {m m' : Mode} (h : ChosenMode pb ext a m) (h' : ChosenMode pb ext a m') : m = m' := by
  obtain ⟨d, k, h1, h2, h3⟩ := h
  obtain ⟨d', k', g1, g2, g3⟩ := h'
  rw [h1] at g1; cases g1
  rw [h2] at g2; cases g2
  rw [h3] at g3; cases g3
  rfl

theorem needs_iff (hd : Dicts pb) {ext : List Nat} {p : Placement} (hm : details pb ext p.act = .ok p.mode) (s : String) (n : Int) :
    Needs pb ext p.act s n ↔ (s, n) ∈ required pb p.mode := by
  have hc := details_ok hm
  have hn : p.mode.needs.keys.Nodup := by obtain ⟨d, k, h1, h2, h3⟩ := hc; exact hd.needs _ _ _ _ h1 h3
  rw [required_iff hn]
  constructor
  · rintro ⟨m, h1, h2⟩
    rw [← chosen_unique h1 hc]; exact h2
  · intro h; exact ⟨p.mode, hc, h⟩

theorem mem_keys_req {m : Mode} {s : String} : s ∈ (required pb m).keys ↔ ∃ n, (s, n) ∈ required pb m := by
  simp [Dict.keys]

/-- The placements behind a result, whether complete or not. -/
theorem sgs_log (hd : Dicts pb) (hE : (1 :: perm.map (· + 2) ++ [pb.modes.length]).Nodup) (h : sgs pb perm modes prio = .ok r) :
    ∃ st log, Inv pb prio r.ext (extended pb perm) st log ∧
      r.usage = (log.filter (fun p => !p.usage.isEmpty)).map (fun p => (p.act, p.usage)) ∧
      (∀ p ∈ log, (p.act, (p.start, p.stop)) ∈ r.schedule) ∧ r.schedule.keys.Nodup ∧
      ∀ a s e, (a, (s, e)) ∈ r.schedule → (∃ p ∈ log, p.act = a ∧ p.start = s ∧ p.stop = e) ∨
        (r.feasible = false ∧ s = 99999999 ∧ e = 9999999 ∧ a ∉ log.map Placement.act) := by
  obtain ⟨st, log, inv, _, _, _, husage, hok, hbad⟩ := sgs_inv hd hE h
  refine ⟨st, log, inv, husage, ?_⟩
  cases hf : r.feasible with
  | true =>
    obtain ⟨_, _, hs⟩ := hok hf
    rw [hs]
    exact ⟨fun p hp => mem_schedOf.2 ⟨p, hp, rfl, rfl, rfl⟩, by rw [schedOf_keys]; exact inv.nodup, fun a s e hm => .inl (mem_schedOf.1 hm)⟩
  | false =>
    obtain ⟨l, _, hs⟩ := hbad hf
    rw [hs]
    split
    · exact ⟨fun p hp => mem_schedOf.2 ⟨p, hp, rfl, rfl, rfl⟩, by rw [schedOf_keys]; exact inv.nodup, fun a s e hm => .inl (mem_schedOf.1 hm)⟩
    · rename_i hl
      refine ⟨fun p hp => List.mem_append_left _ (mem_schedOf.2 ⟨p, hp, rfl, rfl, rfl⟩), ?_, fun a s e hm => ?_⟩
      · have : Dict.keys (schedOf log ++ [(l, (99999999, 9999999))]) = log.map Placement.act ++ [l] := by
          rw [← schedOf_keys log]; simp [Dict.keys]
        rw [this, List.nodup_append]
        refine ⟨inv.nodup, by simp, fun a ha b hb => ?_⟩
        simp only [List.mem_singleton] at hb
        subst hb
        rintro rfl
        exact hl ha
      · rcases List.mem_append.1 hm with g | g
        · exact .inl (mem_schedOf.1 g)
        · simp only [List.mem_singleton, Prod.mk.injEq] at g
          obtain ⟨rfl, rfl, rfl⟩ := g
          exact .inr ⟨rfl, rfl, rfl, hl⟩

theorem log_of_usage (hd : Dicts pb) (hE : (1 :: perm.map (· + 2) ++ [pb.modes.length]).Nodup) (h : sgs pb perm modes prio = .ok r)
    {a : Nat} {us : Dict Nat (List String)} (ha : (a, us) ∈ r.usage) :
    ∃ st log, Inv pb prio r.ext (extended pb perm) st log ∧ ∃ pre p post, log = pre ++ p :: post ∧ p.act = a ∧ p.usage = us ∧
      Entry pb prio r.ext (extended pb perm) pre p ∧ (∀ s e, (a, (s, e)) ∈ r.schedule ↔ s = p.start ∧ e = p.stop) := by
  obtain ⟨st, log, inv, husage, h1, h2, h3⟩ := sgs_log hd hE h
  rw [husage] at ha
  obtain ⟨p, hp, e⟩ := List.mem_map.1 ha
  cases e
  have hp := (List.mem_filter.1 hp).1
  obtain ⟨pre, post, hlog, he⟩ := entry_of_mem inv hp
  refine ⟨st, log, inv, pre, p, post, hlog, rfl, rfl, he, fun s e => ⟨fun hm => ?_, ?_⟩⟩
  · have g1 := Dict.get?_of_mem h2 hm
    have g2 := Dict.get?_of_mem h2 (h1 p hp)
    rw [g1] at g2
    cases g2
    exact ⟨rfl, rfl⟩
  · rintro ⟨rfl, rfl⟩
    exact h1 p hp

theorem crew_free {ext E : List Nat} {pre : List Placement} {p : Placement} (he : Entry pb prio ext E pre p) {w : Nat} (hw : w ∈ p.crew) :
    Free pb pre w p.start p.mode.duration := by
  by_cases hr : required pb p.mode = []
  · rw [(he.staffed.none hr).1] at hw; cases hw
  · obtain ⟨l, ids, _, hat, hch⟩ := he.staffed.some hr
    obtain ⟨k, hk, _⟩ := hch.prefix_
    rw [hk] at hw
    exact hat.free w (by simpa using (List.mem_filter.1 hw).2)

theorem noted_crew {ext E : List Nat} {pre : List Placement} {p : Placement} (he : Entry pb prio ext E pre p) {w : Nat} (hw : w ∈ p.usage.keys) :
    w ∈ p.crew := by
  by_cases hr : required pb p.mode = []
  · rw [(he.staffed.none hr).2] at hw; cases hw
  · obtain ⟨l, ids, _, hat, hch⟩ := he.staffed.some hr
    exact ((hch.keys w).1 hw).1

/-- Complete or not: a worker assigned to an activity is an employee who is at work during the whole activity. -/
theorem C93_at_work (hd : Dicts pb) (hE : (1 :: perm.map (· + 2) ++ [pb.modes.length]).Nodup) (h : sgs pb perm modes prio = .ok r)
    {a w : Nat} {us : Dict Nat (List String)} (ha : (a, us) ∈ r.usage) (hw : w ∈ us.keys) :
    ∃ s e emp, (a, (s, e)) ∈ r.schedule ∧ pb.employees.get? w = some emp ∧ ∀ t, s ≤ t → t < e → emp.calendar[t]? = some true := by
  obtain ⟨st, log, inv, pre, p, post, hlog, rfl, rfl, he, hs⟩ := log_of_usage hd hE h ha
  obtain ⟨emp, he1, he2⟩ := crew_free he (noted_crew he hw)
  exact ⟨p.start, p.stop, emp, (hs _ _).2 ⟨rfl, rfl⟩, he1, fun t t1 t2 => (he2 t t1 t2).1⟩

/-- Complete or not: nobody is assigned to two activities that run at the same time. -/
theorem C93_one_place (hd : Dicts pb) (hE : (1 :: perm.map (· + 2) ++ [pb.modes.length]).Nodup) (h : sgs pb perm modes prio = .ok r)
    {a b w : Nat} {us vs : Dict Nat (List String)} (hab : a ≠ b) (ha : (a, us) ∈ r.usage) (hwa : w ∈ us.keys) (hb : (b, vs) ∈ r.usage) (hwb : w ∈ vs.keys)
    {sa ea sb eb : Nat} (hsa : (a, (sa, ea)) ∈ r.schedule) (hsb : (b, (sb, eb)) ∈ r.schedule) : ∀ t, ¬ (sa ≤ t ∧ t < ea ∧ sb ≤ t ∧ t < eb) := by
  obtain ⟨st, log, inv, husage, h1, h2, h3⟩ := sgs_log hd hE h
  rw [husage] at ha hb
  obtain ⟨p, hp, e⟩ := List.mem_map.1 ha
  cases e
  obtain ⟨q, hq, e⟩ := List.mem_map.1 hb
  cases e
  have hp := (List.mem_filter.1 hp).1
  have hq := (List.mem_filter.1 hq).1
  have key : ∀ p q : Placement, p ∈ log → q ∈ log → p.act ≠ q.act → w ∈ p.usage.keys → w ∈ q.usage.keys → ∀ t,
      ¬ (p.start ≤ t ∧ t < p.stop ∧ q.start ≤ t ∧ t < q.stop) := by
    intro p q hp hq hne hwp hwq t ht
    obtain ⟨pre, post, hlog, he⟩ := entry_of_mem inv hp
    obtain ⟨pre', post', hlog', he'⟩ := entry_of_mem inv hq
    have hcp := noted_crew he hwp
    have hcq := noted_crew he' hwq
    have hfree : ∀ {pre : List Placement} {p q : Placement}, Entry pb prio r.ext (extended pb perm) pre p → w ∈ p.crew → w ∈ q.crew → q ∈ pre →
        p.start ≤ t → t < p.stop → q.start ≤ t → t < q.stop → False := by
      intro pre p q he h1 h2 hq a1 a2 a3 a4
      obtain ⟨_, _, hf⟩ := crew_free he h1
      have := (hf t a1 a2).2
      unfold engagedAt at this
      rw [List.any_eq_false] at this
      apply this q hq
      simp [Placement.runs, h2, a3, a4]
    have hmem : q ∈ pre ∨ p ∈ pre' := by
      rw [hlog] at hlog'
      rcases List.append_eq_append_iff.1 hlog' with ⟨as, g1, g2⟩ | ⟨as, g1, g2⟩
      · right
        cases as with
        | nil => simp only [List.nil_append, List.cons.injEq] at g2; exact absurd (by rw [g2.1]) hne
        | cons x as => simp only [List.cons_append, List.cons.injEq] at g2; rw [g1, g2.1]; simp
      · left
        cases as with
        | nil => simp only [List.nil_append, List.cons.injEq] at g2; exact absurd (by rw [g2.1]) hne
        | cons x as => simp only [List.cons_append, List.cons.injEq] at g2; rw [g1, g2.1]; simp
    rcases hmem with g | g
    · exact hfree he hcp hcq g ht.1 ht.2.1 ht.2.2.1 ht.2.2.2
    · exact hfree he' hcq hcp g ht.2.2.1 ht.2.2.2 ht.1 ht.2.1
  have e1 : sa = p.start ∧ ea = p.stop := by
    have g1 := Dict.get?_of_mem h2 hsa
    rw [Dict.get?_of_mem h2 (h1 p hp)] at g1
    cases g1; exact ⟨rfl, rfl⟩
  have e2 : sb = q.start ∧ eb = q.stop := by
    have g1 := Dict.get?_of_mem h2 hsb
    rw [Dict.get?_of_mem h2 (h1 q hq)] at g1
    cases g1; exact ⟨rfl, rfl⟩
  obtain ⟨rfl, rfl⟩ := e1
  obtain ⟨rfl, rfl⟩ := e2
  exact key p q hp hq hab hwa hwb

/-- A list that names every worker, nobody twice. -/
def FullList (pb : Problem) (l : List Nat) : Prop := l.Nodup ∧ ∀ w ∈ pb.employees.keys, w ∈ l

theorem prioOf_mem {a : Nat} {l : List Nat} (h : prioOf prio a = .ok l) : l ∈ prio := by
  unfold prioOf at h
  split at h
  · split at h
    · rename_i l' hl; cases h; exact List.mem_of_getLast? hl
    · cases h
  · exact List.mem_of_getElem? (pyGet_ok_iff.1 h)

theorem sum_sub (f : Nat → Rat) : ∀ l1 l2 : List Nat, l1.Nodup → l2.Nodup → (∀ w ∈ l2, w ∈ l1) → (∀ w ∈ l1, w ∉ l2 → f w = 0) →
    (l1.map f).sum = (l2.map f).sum := by
  intro l1 l2 h1 h2 h3 h4
  have hp : (l1.filter (fun w => decide (w ∈ l2))).Perm l2 := by
    apply (List.perm_ext_iff_of_nodup (h1.filter _) h2).2
    intro w
    simp only [List.mem_filter, decide_eq_true_eq]
    exact ⟨fun h => h.2, fun h => ⟨h3 w h, h⟩⟩
  rw [← (hp.map f).sum_eq]
  clear hp h1 h2 h3
  induction l1 with
  | nil => rfl
  | cons w l1 ih =>
    have ih := ih (fun x hx => h4 x (by simp [hx]))
    simp only [List.map_cons, List.sum_cons, List.filter_cons, ih]
    split
    · simp
    · rename_i hw
      rw [h4 w (by simp) (by simpa using hw)]
      simp

theorem usage_get {ext E : List Nat} {st : St} {log : List Placement} (inv : Inv pb prio ext E st log)
    (hu : r.usage = (log.filter (fun p => !p.usage.isEmpty)).map (fun p => (p.act, p.usage))) {p : Placement} (hp : p ∈ log) :
    (r.usage.get? p.act).getD [] = p.usage := by
  have hk : Dict.keys ((log.filter (fun p => !p.usage.isEmpty)).map (fun p => (p.act, p.usage))) = (log.filter (fun p => !p.usage.isEmpty)).map Placement.act := by
    simp [Dict.keys, Function.comp_def]
  have hnd : r.usage.keys.Nodup := by
    rw [hu, hk]; exact inv.nodup.sublist (List.filter_sublist.map _)
  by_cases he : p.usage = []
  · have : r.usage.get? p.act = none := by
      rcases hg : r.usage.get? p.act with _ | us
      · rfl
      · exfalso
        have hm := Dict.mem_of_get? hg
        rw [hu] at hm
        obtain ⟨q, hq, e⟩ := List.mem_map.1 hm
        obtain ⟨hq1, hq2⟩ := List.mem_filter.1 hq
        have : q = p := List.inj_on_of_nodup_map inv.nodup hq1 hp (Prod.mk.inj e).1
        rw [this, he] at hq2
        cases hq2
    rw [this, he]; rfl
  · have hm : (p.act, p.usage) ∈ r.usage := by
      rw [hu]
      refine List.mem_map.2 ⟨p, List.mem_filter.2 ⟨hp, ?_⟩, rfl⟩
      cases h : p.usage with
      | nil => exact absurd h he
      | cons _ _ => rfl
    rw [Dict.get?_of_mem hnd hm]; rfl

/-- The team chosen from a full list meets the requirement. -/
theorem crew_full {ext E : List Nat} {pre : List Placement} {p : Placement} (he : Entry pb prio ext E pre p) (hfull : ∀ l ∈ prio, FullList pb l)
    (hr : required pb p.mode ≠ []) : Meets pb p.mode p.crew ∧ p.crew.Nodup ∧ (pb.oneUnit = true → ∃ w, p.crew = [w] ∧ Alone pb p.mode w) := by
  obtain ⟨l, ids, hl, hat, hch⟩ := he.staffed.some hr
  obtain ⟨hnd, hall⟩ := hfull l (prioOf_mem hl)
  obtain ⟨k, hk, hend, _⟩ := hch.prefix_
  have hsub : ∀ w ∈ ids, w ∈ l := fun w hw => by
    obtain ⟨e, h1, _⟩ := hat.free w hw
    exact hall w ((Dict.get?_isSome_iff_mem_keys _ _).1 (by rw [h1]; rfl))
  have hcn : p.crew.Nodup := by rw [hk]; exact (hnd.sublist (List.take_sublist _ _)).filter _
  have hfullcrew : k = l.length → p.crew.Perm ids := by
    rintro rfl
    rw [hk, List.take_length]
    apply (List.perm_ext_iff_of_nodup (hnd.filter _) hat.nodup).2
    intro w
    simp only [List.mem_filter, decide_eq_true_eq]
    exact ⟨fun h => h.2, fun h => ⟨hsub w h, h⟩⟩
  have halone : ∀ w, Alone pb p.mode w → Meets pb p.mode [w] := by
    rintro w ⟨e, h1, h2⟩ q hq
    obtain ⟨v, hv, hle⟩ := h2 q hq
    simpa [teamLevel, skillValue, h1, hv] using hle
  have hids : Meets pb p.mode ids := by
    by_cases ho : pb.oneUnit = true
    · obtain ⟨w, rfl, hw⟩ := hat.one ho
      exact halone w hw
    · exact (hat.many (by simpa using ho)).2
  have hmeets : Meets pb p.mode p.crew := by
    rcases hend with g | g
    · intro q hq
      have := hids q hq
      unfold teamLevel at this ⊢
      rw [((hfullcrew g).map _).sum_eq]
      exact this
    · exact g
  refine ⟨hmeets, hcn, fun ho => ?_⟩
  obtain ⟨w, rfl, hw⟩ := hat.one ho
  refine ⟨w, ?_, hw⟩
  have hsubc : ∀ x ∈ p.crew, x = w := fun x hx => by
    rw [hk] at hx
    simpa using (List.mem_filter.1 hx).2
  have hne : p.crew ≠ [] := by
    intro h0
    rw [h0] at hmeets
    obtain ⟨q, qs, hq⟩ := List.exists_cons_of_ne_nil hr
    have := hmeets q (by rw [hq]; simp)
    have hpos : 0 < q.2 := by
      have : q ∈ required pb p.mode := by rw [hq]; simp
      unfold required at this
      simp only [List.mem_filter, Bool.and_eq_true, decide_eq_true_eq] at this
      exact this.2.2
    have : (q.2 : Rat) ≤ 0 := by simpa [teamLevel] using this
    have hpos : (0 : Rat) < q.2 := by exact_mod_cast hpos
    exact absurd this (not_le.2 hpos)
  obtain ⟨x, xs, hx⟩ := List.exists_cons_of_ne_nil hne
  have hxw := hsubc x (by rw [hx]; simp)
  cases xs with
  | nil => rw [hx, hxw]
  | cons y ys =>
    exfalso
    have hyw := hsubc y (by rw [hx]; simp)
    rw [hx, hxw, hyw] at hcn
    simp at hcn

theorem noted_level {ext E : List Nat} {pre : List Placement} {p : Placement} (he : Entry pb prio ext E pre p) (hcn : p.crew.Nodup)
    {s : String} (hs : s ∈ (required pb p.mode).keys) : teamLevel pb (notedFor p.usage s) s = teamLevel pb p.crew s := by
  have hr : required pb p.mode ≠ [] := by intro h; rw [h] at hs; cases hs
  obtain ⟨l, ids, hl, hat, hch⟩ := he.staffed.some hr
  have hmem : ∀ w, w ∈ notedFor p.usage s ↔ s ∈ (p.usage.get? w).getD [] := by
    intro w
    unfold notedFor
    simp only [List.mem_map, List.mem_filter, List.contains_eq_mem, decide_eq_true_eq, Prod.exists, exists_and_right, exists_eq_right]
    constructor
    · rintro ⟨x, h1, h2⟩
      rw [Dict.get?_of_mem hch.nodup h1]; exact h2
    · intro h
      rcases hg : p.usage.get? w with _ | x
      · rw [hg] at h; cases h
      · rw [hg] at h; exact ⟨x, Dict.mem_of_get? hg, h⟩
  symm
  apply sum_sub
  · exact hcn
  · exact hch.nodup.sublist (List.filter_sublist.map _)
  · intro w hw
    exact ((hch.noted w s).1 ((hmem w).1 hw)).1
  · intro w hw hnot
    by_cases hh : HasSkill pb w s
    · exact absurd ((hmem w).2 ((hch.noted w s).2 ⟨hw, hs, hh⟩)) hnot
    · unfold skillValue
      rcases hg : pb.employees.get? w with _ | e
      · rfl
      · simp only
        rcases hg2 : e.skills.get? s with _ | v
        · rfl
        · exact absurd ⟨e, hg, (Dict.get?_isSome_iff_mem_keys _ _).1 (by rw [hg2]; rfl)⟩ hh

/-- Complete or not: what is noted about a worker are exactly those of the needed skills that the worker has, and at least one. -/
theorem C93_noted_skills (hd : Dicts pb) (hE : (1 :: perm.map (· + 2) ++ [pb.modes.length]).Nodup) (h : sgs pb perm modes prio = .ok r)
    {a w : Nat} {us : Dict Nat (List String)} {l : List String} (ha : (a, us) ∈ r.usage) (hw : (w, l) ∈ us) :
    l ≠ [] ∧ ∀ s, s ∈ l ↔ (∃ n, Needs pb r.ext a s n) ∧ ∃ emp, pb.employees.get? w = some emp ∧ s ∈ emp.skills.keys := by
  obtain ⟨st, log, inv, pre, p, post, hlog, rfl, rfl, he, hs⟩ := log_of_usage hd hE h ha
  by_cases hr : required pb p.mode = []
  · rw [(he.staffed.none hr).2] at hw; cases hw
  · obtain ⟨pl, ids, hl, hat, hch⟩ := he.staffed.some hr
    have hk : w ∈ p.usage.keys := List.mem_map.2 ⟨_, hw, rfl⟩
    obtain ⟨hcrew, s0, hs0, hhas⟩ := (hch.keys w).1 hk
    have hg : (p.usage.get? w).getD [] = l := by rw [Dict.get?_of_mem hch.nodup hw]; rfl
    constructor
    · intro h0
      have := (hch.noted w s0).2 ⟨hcrew, hs0, hhas⟩
      rw [hg, h0] at this
      cases this
    · intro s
      have := hch.noted w s
      rw [hg] at this
      rw [this]
      constructor
      · rintro ⟨_, h1, h2⟩
        obtain ⟨n, hn⟩ := mem_keys_req.1 h1
        exact ⟨⟨n, (needs_iff hd he.mode s n).2 hn⟩, h2⟩
      · rintro ⟨⟨n, h1⟩, h2⟩
        exact ⟨hcrew, mem_keys_req.2 ⟨n, (needs_iff hd he.mode s n).1 h1⟩, h2⟩

/-- When the priority lists name every worker, nobody twice, the workers assigned to an activity that has been placed reach together the
level that it needs of each skill. -/
theorem C93_levels (hd : Dicts pb) (hE : (1 :: perm.map (· + 2) ++ [pb.modes.length]).Nodup) (h : sgs pb perm modes prio = .ok r)
    (hfull : ∀ l ∈ prio, FullList pb l) {a s e : Nat} (ha : (a, (s, e)) ∈ r.schedule) (hse : s ≤ e) {sk : String} {n : Int} (hn : Needs pb r.ext a sk n) :
    (n : Rat) ≤ teamLevel pb (notedFor ((r.usage.get? a).getD []) sk) sk := by
  obtain ⟨st, log, inv, husage, h1, h2, h3⟩ := sgs_log hd hE h
  rcases h3 a s e ha with ⟨p, hp, rfl, rfl, rfl⟩ | ⟨_, hs1, hs2, _⟩
  · obtain ⟨pre, post, hlog, he⟩ := entry_of_mem inv hp
    have hreq := (needs_iff hd he.mode sk n).1 hn
    have hr : required pb p.mode ≠ [] := by intro h; rw [h] at hreq; cases hreq
    obtain ⟨hm, hcn, _⟩ := crew_full he hfull hr
    rw [usage_get inv husage hp, noted_level he hcn (mem_keys_req.2 ⟨n, hreq⟩)]
    have := hm (sk, n) hreq
    exact this
  · omega

/-- When moreover only one worker per activity is allowed, the only worker assigned to an activity that needs skills has each of them at
the level needed. -/
theorem C93_one_worker (hd : Dicts pb) (hE : (1 :: perm.map (· + 2) ++ [pb.modes.length]).Nodup) (h : sgs pb perm modes prio = .ok r)
    (hfull : ∀ l ∈ prio, FullList pb l) (hone : pb.oneUnit = true) {a s e : Nat} (ha : (a, (s, e)) ∈ r.schedule) (hse : s ≤ e)
    (hn : ∃ sk n, Needs pb r.ext a sk n) :
    ∃ w emp, ((r.usage.get? a).getD []).keys = [w] ∧ pb.employees.get? w = some emp ∧
      ∀ sk n, Needs pb r.ext a sk n → ∃ v, emp.skills.get? sk = some v ∧ (n : Rat) ≤ v := by
  obtain ⟨st, log, inv, husage, h1, h2, h3⟩ := sgs_log hd hE h
  rcases h3 a s e ha with ⟨p, hp, rfl, rfl, rfl⟩ | ⟨_, hs1, hs2, _⟩
  · obtain ⟨pre, post, hlog, he⟩ := entry_of_mem inv hp
    obtain ⟨sk, n, hn⟩ := hn
    have hreq := (needs_iff hd he.mode sk n).1 hn
    have hr : required pb p.mode ≠ [] := by intro h; rw [h] at hreq; cases hreq
    obtain ⟨hm, hcn, hw⟩ := crew_full he hfull hr
    obtain ⟨w, hcrew, emp, hemp, hall⟩ := hw hone
    obtain ⟨pl, ids, hl, hat, hch⟩ := he.staffed.some hr
    refine ⟨w, emp, ?_, hemp, fun sk n hn => hall (sk, n) ((needs_iff hd he.mode sk n).1 hn)⟩
    rw [usage_get inv husage hp]
    obtain ⟨v, hv, _⟩ := hall (sk, n) hreq
    have hmem : w ∈ p.usage.keys := (hch.keys w).2 ⟨by rw [hcrew]; simp, sk, mem_keys_req.2 ⟨n, hreq⟩, emp, hemp,
      (Dict.get?_isSome_iff_mem_keys _ _).1 (by rw [hv]; rfl)⟩
    have honly : ∀ x ∈ p.usage.keys, x = w := fun x hx => by
      have := ((hch.keys x).1 hx).1
      rw [hcrew] at this
      simpa using this
    have hnd := hch.nodup
    match hk : p.usage.keys, hmem, honly, hnd with
    | [], hmem, _, _ => cases hmem
    | [x], _, honly, _ => rw [honly x (by simp)]
    | x :: y :: ys, _, honly, hnd =>
      exfalso
      rw [honly x (by simp), honly y (by simp)] at hnd
      simp at hnd
  · omega

/-- Worker `w` is at work at the `n` times from `s` on, and none of the activities in `pre` for which they are blocked runs. -/
def FreeFor (pb : Problem) (pre : Schedule) (blocked : Nat → List Nat) (w s n : Nat) : Prop :=
  ∃ emp, pb.employees.get? w = some emp ∧ ∀ t, s ≤ t → t < s + n → emp.calendar[t]? = some true ∧
    ¬ ∃ a sa ea, (a, (sa, ea)) ∈ pre ∧ w ∈ blocked a ∧ sa ≤ t ∧ t < ea

/-- On top of the activities in `pre` there is not enough of some resource for mode `m` at time `t`. -/
def ShortAt (pb : Problem) (ext : List Nat) (pre : Schedule) (m : Mode) (t : Nat) : Prop :=
  ∃ res row c n, pb.resources.get? res = some row ∧ row[t]? = some c ∧ m.needs.get? res = some n ∧ ∀ need, Requirement pb ext res need →
    c - total need (if res ∈ pb.nonRenewable then begun pre t else running pre t) < n

/-- At time `s` the workers who are free do not suffice for activity `b`. -/
def Understaffed (pb : Problem) (ext : List Nat) (pre : Schedule) (blocked : Nat → List Nat) (b s n : Nat) : Prop :=
  (∃ sk k, Needs pb ext b sk k) ∧
  (pb.oneUnit = true → ∀ w emp, FreeFor pb pre blocked w s n → pb.employees.get? w = some emp →
    ∃ sk k, Needs pb ext b sk k ∧ ∀ v, emp.skills.get? sk = some v → v < k) ∧
  (pb.oneUnit = false → ∀ team : List Nat, team.Nodup → (∀ w, w ∈ team ↔ FreeFor pb pre blocked w s n) →
    ∃ sk k, Needs pb ext b sk k ∧ teamLevel pb team sk < k)

theorem blocked_eq {ext E : List Nat} {st : St} {log : List Placement} (inv : Inv pb prio ext E st log) {p : Placement} (hp : p ∈ log) :
    (match log.find? (fun q => q.act == p.act) with | some q => q.crew | none => []) = p.crew := by
  rcases hf : log.find? (fun q => q.act == p.act) with _ | q
  · have := List.find?_eq_none.1 hf p hp
    simp at this
  · have h1 := List.mem_of_find?_eq_some hf
    have h2 := List.find?_some hf
    have : q = p := List.inj_on_of_nodup_map inv.nodup h1 hp (by simpa using h2)
    rw [hf, this]

theorem freeFor_iff {blocked : Nat → List Nat} {log : List Placement} (hb : ∀ p ∈ log, blocked p.act = p.crew) (w s n : Nat) :
    FreeFor pb (schedOf log) blocked w s n ↔ Free pb log w s n := by
  have : ∀ t, (¬ ∃ a sa ea, (a, (sa, ea)) ∈ schedOf log ∧ w ∈ blocked a ∧ sa ≤ t ∧ t < ea) ↔ engagedAt log w t = false := by
    intro t
    unfold engagedAt
    rw [List.any_eq_false]
    constructor
    · intro h p hp hr
      simp only [Placement.runs, Bool.and_eq_true, decide_eq_true_eq] at hr
      exact h ⟨p.act, p.start, p.stop, mem_schedOf.2 ⟨p, hp, rfl, rfl, rfl⟩, by rw [hb p hp]; exact hr.1, hr.2⟩
    · rintro h ⟨a, sa, ea, hm, h1, h2⟩
      obtain ⟨p, hp, rfl, rfl, rfl⟩ := mem_schedOf.1 hm
      apply h p hp
      rw [hb p hp] at h1
      simp [Placement.runs, h1, h2]
  unfold FreeFor Free
  simp only [this]

/-- The workers engaged for an activity (`blocked`) are those noted and possibly others.  They are free at the time; of the workers of
the priority list who are free none is passed over; and the activity starts as early as possible: at every earlier time `s'` at which its
predecessors have ended, some resource or the free workers do not suffice, given what was placed before it. -/
theorem C92_earliest (hd : Dicts pb) (hE : (1 :: perm.map (· + 2) ++ [pb.modes.length]).Nodup) (h : sgs pb perm modes prio = .ok r)
    (hf : r.feasible = true) : ∃ blocked : Nat → List Nat,
    (∀ a us, (a, us) ∈ r.usage → ∀ w ∈ us.keys, w ∈ blocked a) ∧
    ∀ pre post b s e, r.schedule = pre ++ (b, (s, e)) :: post →
      (∀ w ∈ blocked b, FreeFor pb pre blocked w s (e - s)) ∧
      (pb.oneUnit = false → ∀ l, prioOf prio b = .ok l → ∀ l1 w l2, l = l1 ++ w :: l2 → w ∈ blocked b → w ∉ l1 →
        ∀ w' ∈ l1, FreeFor pb pre blocked w' s (e - s) → w' ∈ blocked b) ∧
      ∀ s' < s, (∀ a sa ea, (a, (sa, ea)) ∈ pre → ∀ ss, pb.successors.get? a = some ss → b ∈ ss → ea ≤ s') →
        (∃ m t, ChosenMode pb r.ext b m ∧ s' ≤ t ∧ t < s' + m.duration ∧ t < pb.horizon * pb.multiplier ∧ ShortAt pb r.ext pre m t) ∨
        Understaffed pb r.ext pre blocked b s' (e - s) := by
  obtain ⟨st, log, inv, _, _, _, husage, hok, _⟩ := sgs_inv hd hE h
  obtain ⟨_, _, hs⟩ := hok hf
  let blocked : Nat → List Nat := fun a => match log.find? (fun q => q.act == a) with | some q => q.crew | none => []
  have hb : ∀ p ∈ log, blocked p.act = p.crew := fun p hp => blocked_eq inv hp
  refine ⟨blocked, fun a us ha w hw => ?_, fun pre post b s e hsplit => ?_⟩
  · rw [husage] at ha
    obtain ⟨p, hp, e⟩ := List.mem_map.1 ha
    cases e
    have hp := (List.mem_filter.1 hp).1
    obtain ⟨_, _, _, he⟩ := entry_of_mem inv hp
    rw [hb p hp]
    exact noted_crew he hw
  · rw [hs] at hsplit
    obtain ⟨lpre, lrest, hlog, hpre, hrest⟩ := List.map_eq_append_iff.1 hsplit
    obtain ⟨q, lpost, hlr, hq, _⟩ := List.map_eq_cons_iff.1 hrest
    subst hlr
    have he := inv.entry lpre q lpost hlog
    cases hq
    have hpre : pre = schedOf lpre := hpre.symm
    subst hpre
    have hbq : blocked q.act = q.crew := hb q (by rw [hlog]; simp)
    have hbl : ∀ p ∈ lpre, blocked p.act = p.crew := fun p hp => hb p (by rw [hlog]; simp [hp])
    have hfree := fun w s n => freeFor_iff (pb := pb) hbl w s n
    have hdur : q.stop - q.start = q.mode.duration := by simp [Placement.stop]
    rw [hdur]
    refine ⟨fun w hw => ?_, fun hone l hl l1 w l2 hsp hw hnot w' hw' hfr => ?_, fun s' hs' hpred => ?_⟩
    · rw [hbq] at hw
      exact (hfree _ _ _).2 (crew_free he hw)
    · rw [hbq] at hw ⊢
      by_cases hr : required pb q.mode = []
      · rw [(he.staffed.none hr).1] at hw; cases hw
      · obtain ⟨l', ids, hl', hat, hch⟩ := he.staffed.some hr
        rw [hl] at hl'; cases hl'
        obtain ⟨k, hk, _⟩ := hch.prefix_
        have hw2 := hw
        rw [hk] at hw2 ⊢
        have hwt := (List.mem_filter.1 hw2).1
        refine List.mem_filter.2 ⟨?_, by simpa using (hat.many hone).1 w' ((hfree _ _ _).1 hfr)⟩
        rw [hsp] at hwt ⊢
        have hlen : l1.length ≤ k := by
          apply Nat.le_of_not_lt
          intro hlt
          rw [List.take_append_of_le_length (by omega)] at hwt
          exact hnot (List.mem_of_mem_take hwt)
        rw [List.take_append]
        rw [List.take_of_length_le hlen]
        exact List.mem_append_left _ hw'
    · have hend : Ended pb lpre q.act s' := fun p hp ss h1 h2 => hpred p.act p.start p.stop (mem_schedOf.2 ⟨p, hp, rfl, rfl, rfl⟩) ss h1 h2
      rcases he.earliest s' hs' hend with ⟨t, t1, t2, t3, res, row, c, n, g1, g2, g3, g4⟩ | ⟨u1, u2, u3⟩
      · left
        refine ⟨q.mode, t, details_ok he.mode, t1, t2, t3, res, row, c, n, g1, g2, g3, fun need hneed => ?_⟩
        have hu := used_eq hneed (pb.nonRenewable.contains res) t lpre (fun p hp => by
          obtain ⟨_, _, _, he⟩ := entry_of_mem inv (by rw [hlog]; simp [hp] : p ∈ log); exact he.mode)
        rw [hu] at g4
        by_cases hnr : res ∈ pb.nonRenewable
        · rw [if_pos hnr]; rw [if_pos (by simpa using hnr)] at g4; exact g4
        · rw [if_neg hnr]; rw [if_neg (by simpa using hnr)] at g4; exact g4
      · right
        refine ⟨?_, fun hone w emp hw hemp => ?_, fun hone team hnd hteam => ?_⟩
        · obtain ⟨x, xs, hx⟩ := List.exists_cons_of_ne_nil u1
          exact ⟨x.1, x.2, (needs_iff hd he.mode x.1 x.2).2 (by rw [hx]; simp)⟩
        · have := u2 hone w ((hfree _ _ _).1 hw)
          unfold Alone at this
          simp only [not_exists, not_and, not_forall] at this
          obtain ⟨x, hx, h2⟩ := this emp hemp
          refine ⟨x.1, x.2, (needs_iff hd he.mode x.1 x.2).2 hx, fun v hv => ?_⟩
          exact not_le.1 (h2 v hv)
        · have := u3 hone team hnd (fun w => by rw [hteam w, hfree])
          unfold Meets at this
          simp only [not_forall, not_le] at this
          obtain ⟨x, hx, h2⟩ := this
          exact ⟨x.1, x.2, (needs_iff hd he.mode x.1 x.2).2 hx, h2⟩

/-- A well-formed instance with workers: their calendars reach the horizon, and the first and the last activity need no skill. -/
structure Instance (pb : Problem) : Prop where
  base : Rcpsp.Instance pb.base
  dicts : Dicts pb
  calendars : ∀ w emp, pb.employees.get? w = some emp → pb.horizon ≤ emp.calendar.length
  ends : ∀ a d k m, a = 1 ∨ a = pb.modes.length → pb.modes.get? a = some d → d.get? k = some m → ∀ q ∈ m.needs, q.1 ∈ pb.skills → q.2 ≤ 0

theorem manned_of_instance (inst : Instance pb) (hp : perm.Perm (List.range (pb.modes.length - 2))) (hl : prio.length + 2 = pb.modes.length) (ext : List Nat) :
    Manned pb prio ext (extended pb perm) := by
  refine ⟨inst.calendars, fun a ha m hm hr => ?_⟩
  have hmem := (Rcpsp.extended_nodup inst.base.two hp).2 a
  have hmem : a ∈ extended pb perm ↔ 1 ≤ a ∧ a ≤ pb.modes.length := hmem
  have hr' := hmem.1 ha
  by_cases h1 : a = 1 ∨ a = pb.modes.length
  · exfalso
    obtain ⟨d, k, g1, _, g3⟩ := details_ok hm
    apply hr
    unfold required
    rw [List.filter_eq_nil_iff]
    intro q hq
    have := inst.ends a d k m h1 g1 g3 q hq
    simp only [Bool.and_eq_true, List.contains_eq_mem, decide_eq_true_eq, not_and]
    intro h; have := this h; omega
  · simp only [not_or] at h1
    unfold prioOf
    rw [if_neg (by omega)]
    exact ⟨_, pyGet_of_lt (by omega)⟩

/-- On a well-formed instance schedule generation never raises, whatever the priority lists and the modes. -/
theorem C92_never_raises (inst : Instance pb) (hp : perm.Perm (List.range (pb.modes.length - 2)))
    (hm : modes.length + 2 = pb.modes.length) (hl : prio.length + 2 = pb.modes.length) : ∃ r, sgs pb perm modes prio = .ok r := by
  obtain ⟨ext, hext⟩ := Rcpsp.fix_of_instance inst.base hm
  have wf := Rcpsp.wf_of_instance inst.base hp hm hext
  exact sgs_total inst.dicts (Rcpsp.extended_nodup inst.base.two hp).1 hext wf (manned_of_instance inst hp hl ext)

end generation
/-! ### Examples, and what fails -/

/-- Welding with one machine, and painting.  Worker 8 does both but is away at time 3. -/
def demo : Problem where
  skills := ["weld", "paint"]
  resources := [("machine", List.replicate 10 1)]
  nonRenewable := []
  employees := [(5, ⟨[("weld", 1)], List.replicate 10 true⟩), (8, ⟨[("paint", 1), ("weld", 1)], [true, true, true, false, true, true, true, true, true, true]⟩)]
  modes := [(1, [(1, ⟨0, [("machine", 0)]⟩)]), (2, [(1, ⟨2, [("machine", 1), ("weld", 2)]⟩), (2, ⟨3, [("machine", 1), ("weld", 1)]⟩)]),
    (3, [(1, ⟨1, [("machine", 0), ("paint", 1)]⟩)]), (4, [(1, ⟨0, [("machine", 0)]⟩)])]
  successors := [(1, [2, 3]), (2, [4]), (3, [4]), (4, [])]
  horizon := 9
  multiplier := 1
  source := 1
  sink := 4
  oneUnit := false

/-- In mode 1 activity 2 needs both workers. -/
example : sgs demo [0, 1] [1, 1] [[5, 8], [5, 8]] = .ok ⟨[(1, (0, 0)), (2, (0, 2)), (3, (2, 3)), (4, (3, 3))], [1, 1, 1, 1],
    [(2, [(5, ["weld"]), (8, ["weld"])]), (3, [(8, ["paint"])])], [(1, 1), (2, 1), (3, 1), (4, 1)], true⟩ := by decide +kernel

/-- In mode 2 the list prefers worker 8, so activity 3 waits until they are back.  Mode 7 of activity 3 does not exist and becomes mode 1. -/
example : sgs demo [0, 1] [2, 7] [[8, 5], [8, 5]] = .ok ⟨[(1, (0, 0)), (2, (0, 3)), (3, (4, 5)), (4, (5, 5))], [1, 2, 1, 1],
    [(2, [(8, ["weld"])]), (3, [(8, ["paint"])])], [(1, 1), (2, 2), (3, 7), (4, 1)], true⟩ := by decide +kernel

/-- One worker per activity. -/
example : sgs { demo with oneUnit := true } [1, 0] [2, 1] [[5, 8], [5, 8]] = .ok ⟨[(1, (0, 0)), (3, (0, 1)), (2, (0, 3)), (4, (3, 3))], [1, 2, 1, 1],
    [(3, [(8, ["paint"])]), (2, [(5, ["weld"])])], [(1, 1), (2, 2), (3, 1), (4, 1)], true⟩ := by decide +kernel

example : (1 :: [0, 1].map (· + 2) ++ [demo.modes.length]).Nodup ∧ demo.successors.keys.Nodup ∧ (∀ l ∈ [[5, 8], [8, 5]], FullList demo l) := by
  refine ⟨by decide, by decide, ?_⟩
  have : ∀ l ∈ [[5, 8], [8, 5]], l.Nodup ∧ ∀ w ∈ demo.employees.keys, w ∈ l := by decide
  exact this

theorem demo_dicts : Dicts demo := by
  have k1 : ∀ p ∈ demo.employees, (Dict.keys p.2.skills).Nodup := by decide
  have k2 : ∀ p ∈ demo.modes, ∀ q ∈ p.2, (Dict.keys q.2.needs).Nodup := by decide
  exact ⟨by decide, by decide, fun w e h => k1 _ (Dict.mem_of_get? h), fun a d k m h1 h2 => k2 _ (Dict.mem_of_get? h1) _ (Dict.mem_of_get? h2)⟩

theorem demo_instance : Instance demo := by
  have k1 : ∀ p ∈ demo.modes, 1 ∈ Dict.keys p.2 ∧ ∀ q ∈ p.2, ∀ res ∈ demo.resources.keys, (q.2.needs.get? res).isSome = true := by decide
  have k2 : ∀ p ∈ demo.successors, ∀ b ∈ p.2, 1 ≤ b ∧ b ≤ demo.modes.length := by decide
  have k3 : ∀ p ∈ demo.successors, ∀ b ∈ p.2, p.1 < b := by decide
  have k4 : ∀ a, a ∈ [1, 2, 3, 4] ↔ 1 ≤ a ∧ a ≤ 4 := by
    intro a
    simp only [List.mem_cons, List.not_mem_nil, or_false]
    omega
  have k5 : ∀ p ∈ demo.employees, demo.horizon ≤ p.2.calendar.length := by decide
  have k6 : ∀ p ∈ demo.modes, p.1 = 1 ∨ p.1 = demo.modes.length → ∀ q ∈ p.2, ∀ x ∈ q.2.needs, x.1 ∈ demo.skills → x.2 ≤ 0 := by decide
  refine ⟨⟨by decide, ?_, by decide, ?_, ⟨by decide, k4, fun a ss h => k2 (a, ss) h⟩, ⟨id, fun a ss h => k3 (a, ss) h⟩⟩, demo_dicts,
    fun w e h => k5 _ (Dict.mem_of_get? h), fun a d k m h h1 h2 => k6 _ (Dict.mem_of_get? h1) h _ (Dict.mem_of_get? h2)⟩
  · intro a h1 h2
    have ha : a ∈ demo.modes.keys := (k4 a).2 ⟨h1, h2⟩
    obtain ⟨d, hd⟩ := Option.isSome_iff_exists.1 ((Dict.get?_isSome_iff_mem_keys _ _).2 ha)
    have := k1 (a, d) (Dict.mem_of_get? hd)
    exact ⟨d, hd, this.1, fun k m hm res hr => Option.isSome_iff_exists.1 (this.2 (k, m) (Dict.mem_of_get? hm) res hr)⟩
  · intro res cap h t ht
    have := Dict.mem_of_get? h
    simp only [demo, Problem.base, List.map_cons, List.map_nil, List.mem_cons, Prod.mk.injEq, List.not_mem_nil, or_false] at this
    obtain ⟨_, rfl⟩ := this
    have ht : t < 9 := ht
    exact ⟨1, by show (List.replicate 10 (1 : Int))[t]? = some 1; rw [List.getElem?_replicate, if_pos (by omega)]⟩

example : Requirement demo [1, 1, 1, 1] "machine" (fun a => if a = 2 then 1 else 0) := by
  have k : ∀ p ∈ demo.modes, ∀ q ∈ p.2, (if p.1 = 2 then (1 : Int) else 0) = (q.2.needs.get? "machine").getD 0 := by decide
  rintro a m ⟨d, k', h1, _, h3⟩
  exact k _ (Dict.mem_of_get? h1) _ (Dict.mem_of_get? h3)

example : Needs demo [1, 1, 1, 1] 2 "weld" 2 := ⟨⟨2, [("machine", 1), ("weld", 2)]⟩, ⟨_, 1, rfl, rfl, rfl⟩, by decide, rfl, by decide⟩

/-- One activity of three time units on a machine, within a horizon of three. -/
def tight (mult : Nat) : Problem :=
  { demo with
    modes := [(1, [(1, ⟨0, [("machine", 0)]⟩)]), (2, [(1, ⟨3, [("machine", 1)]⟩)]), (3, [(1, ⟨0, [("machine", 0)]⟩)])]
    successors := [(1, [2]), (2, [3]), (3, [])], horizon := 3, multiplier := mult, sink := 3 }

/-- An activity that would end at the horizon is never placed, whatever the horizon multiplier (the only order and the only modes are
these): the last activity gets a start of 99999999 and an end of 9999999.  Yet the check accepts the schedule with the activity from 0 to 3. -/
theorem C92_ends_at_horizon_refuted (mult : Nat) (prio : List (List Nat)) :
    sgs (tight mult) [0] [1] prio = .ok ⟨[(1, (0, 0)), (3, (99999999, 9999999))], [1, 1, 1], [], [(1, 1), (2, 1), (3, 1)], false⟩ ∧
    satisfy (tight mult) ⟨[(1, 1), (2, 1), (3, 1)], [(1, (0, 0)), (2, (0, 3)), (3, (3, 3))], []⟩ = .ok true := ⟨rfl, rfl⟩

/-- An activity without duration that needs more tools than there are. -/
def instant : Problem :=
  { demo with
    resources := [("tool", List.replicate 10 1)], nonRenewable := ["tool"]
    modes := [(1, [(1, ⟨0, [("tool", 0)]⟩)]), (2, [(1, ⟨0, [("tool", 5)]⟩)]), (3, [(1, ⟨0, [("tool", 0)]⟩)])]
    successors := [(1, [2]), (2, [3]), (3, [])], sink := 3 }

/-- Why the claim on non-renewable resources is restricted to activities that take time: the schedule is complete although five tools are
needed and there is one.  The check rejects the schedule. -/
theorem C92_instant_activities_not_charged :
    sgs instant [0] [1] [[]] = .ok ⟨[(1, (0, 0)), (2, (0, 0)), (3, (0, 0))], [1, 1, 1], [], [(1, 1), (2, 1), (3, 1)], true⟩ ∧
    satisfy instant ⟨[(1, 1), (2, 1), (3, 1)], [(1, (0, 0)), (2, (0, 0)), (3, (0, 0))], []⟩ = .ok false := by
  constructor <;> decide +kernel

/-- A cycle raises `KeyError`. -/
theorem C92_cycle_raises : sgs { demo with successors := [(1, [2]), (2, [3]), (3, [2]), (4, [])] } [0, 1] [1, 1] [[5, 8], [5, 8]] = .error .keyError := by
  decide +kernel

/-- There are no priority lists for the first and the last activity: when the last one needs a skill, `IndexError` is raised. -/
theorem C92_sink_with_skill_raises :
    sgs { demo with modes := demo.modes.set 4 [(1, ⟨0, [("machine", 0), ("weld", 1)]⟩)] } [0, 1] [1, 1] [[5, 8], [5, 8]] = .error .indexError := by
  decide +kernel

/-- Why the lists have to name every worker: with a worker named twice, or with ranks in place of workers, activities are placed
without the workers they need, and the schedule counts as feasible. -/
theorem C93_incomplete_lists_refuted :
    sgs demo [0, 1] [1, 1] [[5, 5], [5, 8]] = .ok ⟨[(1, (0, 0)), (2, (0, 2)), (3, (0, 1)), (4, (2, 2))], [1, 1, 1, 1],
      [(2, [(5, ["weld"])]), (3, [(8, ["paint"])])], [(1, 1), (2, 1), (3, 1), (4, 1)], true⟩ ∧
    sgs demo [0, 1] [1, 1] [[1, 2], [1, 2]] = .ok ⟨[(1, (0, 0)), (2, (0, 2)), (3, (0, 1)), (4, (2, 2))], [1, 1, 1, 1],
      [], [(1, 1), (2, 1), (3, 1), (4, 1)], true⟩ := by
  constructor <;> decide +kernel

/-- Welding and painting by two workers who can do only one of them. -/
def two : Problem :=
  { demo with
    employees := [(5, ⟨[("weld", 1)], List.replicate 10 true⟩), (9, ⟨[("paint", 1)], List.replicate 10 true⟩)]
    modes := [(1, [(1, ⟨0, [("machine", 0)]⟩)]), (2, [(1, ⟨2, [("machine", 1), ("weld", 1)]⟩)]),
      (3, [(1, ⟨1, [("machine", 0), ("paint", 1)]⟩)]), (4, [(1, ⟨0, [("machine", 0)]⟩)])] }

/-- Workers without any needed skill are engaged when their turn comes: here the painter is blocked during the welding without being
noted, and the painting is delayed. -/
theorem C93_idle_worker_blocked :
    sgs two [0, 1] [1, 1] [[5, 9], [5, 9]] = .ok ⟨[(1, (0, 0)), (2, (0, 2)), (3, (0, 1)), (4, (2, 2))], [1, 1, 1, 1],
      [(2, [(5, ["weld"])]), (3, [(9, ["paint"])])], [(1, 1), (2, 1), (3, 1), (4, 1)], true⟩ ∧
    sgs two [0, 1] [1, 1] [[9, 5], [5, 9]] = .ok ⟨[(1, (0, 0)), (2, (0, 2)), (3, (2, 3)), (4, (3, 3))], [1, 1, 1, 1],
      [(2, [(5, ["weld"])]), (3, [(9, ["paint"])])], [(1, 1), (2, 1), (3, 1), (4, 1)], true⟩ := by
  constructor <;> decide +kernel

end Verif.MultiSkill
