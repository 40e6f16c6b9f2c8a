import Mathlib.Algebra.Order.BigOperators.Group.List
import Verif.Lemmas.MsRep
import Verif.Props.MsEncoding

/-! Claim C98: the project in which skills are resources. -/

namespace Verif.MultiSkill
open Verif.Rcpsp (Mode Capacity capOf total dict_get_ok)

variable {pb : Problem} {sol : Solution}

/-- The workers at work at time `t`. -/
def workersAt (pb : Problem) (t : Nat) : List Nat := (pb.employees.filter (fun p => decide (p.2.calendar[t]? = some true))).map (·.1)

theorem mem_workersAt (hd : Dicts pb) {t w : Nat} : w ∈ workersAt pb t ↔ ∃ e, pb.employees.get? w = some e ∧ e.calendar[t]? = some true := by
  unfold workersAt
  simp only [List.mem_map, List.mem_filter, decide_eq_true_eq, Prod.exists]
  constructor
  · rintro ⟨w', e, ⟨h1, h2⟩, rfl⟩
    exact ⟨e, Dict.get?_of_mem hd.employees h1, h2⟩
  · rintro ⟨e, h1, h2⟩
    exact ⟨w, e, ⟨Dict.mem_of_get? h1, h2⟩, rfl⟩

theorem level_at (hd : Dicts pb) (t : Nat) (s : String) :
    teamLevel pb (workersAt pb t) s = (pb.employees.map (fun p => ((if p.2.calendar[t]? = some true then 1 else 0 : Nat) : Rat) * (p.2.skills.get? s).getD 0)).sum := by
  have key : ∀ (l : Dict Nat Employee), (∀ p ∈ l, pb.employees.get? p.1 = some p.2) →
      teamLevel pb ((l.filter (fun p => decide (p.2.calendar[t]? = some true))).map (·.1)) s =
        (l.map (fun p => ((if p.2.calendar[t]? = some true then 1 else 0 : Nat) : Rat) * (p.2.skills.get? s).getD 0)).sum := by
    intro l
    induction l with
    | nil => intro _; rfl
    | cons p l ih =>
      intro h
      have hp := h p (by simp)
      have ih := ih fun q hq => h q (by simp [hq])
      by_cases hc : p.2.calendar[t]? = some true
      · rw [List.filter_cons_of_pos (by simpa using hc), List.map_cons, List.map_cons, List.sum_cons, ← ih]
        simp only [teamLevel, List.map_cons, List.sum_cons, skillValue, hp, hc, if_true]
        push_cast; ring
      · rw [List.filter_cons_of_neg (by simpa using hc), List.map_cons, List.sum_cons, ← ih]
        simp [hc]
  exact key pb.employees fun p hp => Dict.get?_of_mem hd.employees hp

/-- The setting: skills are named once, every skill of an employee is among them, and the rows of skills have `L` positions, at least one. -/
structure Rep (pb : Problem) (first : String) (L : Nat) : Prop where
  dicts : Dicts pb
  skills : pb.skills.Nodup
  known : ∀ w e, pb.employees.get? w = some e → ∀ s ∈ e.skills.keys, s ∈ pb.skills
  len : skillLen pb first = .ok L
  pos : 0 < L

theorem rep_spec {first : String} {L : Nat} (hr : Rep pb first L) : ∃ rows : Dict String (List Rat), rows.keys = pb.skills ∧ Shape L rows ∧
    (∀ s i, i < L → slot rows s i = (pb.employees.map (fun p => (days L p.2.calendar 0 i : Rat) * (p.2.skills.get? s).getD 0)).sum) ∧
    representative pb first = .ok { resources := rows.foldl (fun d p => Dict.set d p.1 (.calendar (p.2.map trunc))) pb.base.resources
                                    nonRenewable := pb.nonRenewable
                                    modes := pb.modes.map (fun p => (p.1, p.2.map (fun q : Nat × Mode => (q.1, fillMode pb q.2))))
                                    successors := pb.successors, horizon := pb.horizon, multiplier := pb.multiplier } := by
  have hk0 : Dict.keys (pb.skills.map (fun s => (s, List.replicate L (0 : Rat)))) = pb.skills := by
    simp [Dict.keys, Function.comp_def]
  have hsh : Shape L (pb.skills.map (fun s => (s, List.replicate L (0 : Rat)))) := by
    intro s row h
    obtain ⟨s', _, h'⟩ := List.mem_map.1 (Dict.mem_of_get? h)
    rw [← (Prod.mk.inj h').2]; simp
  have h0 : ∀ s i, slot (pb.skills.map (fun s => (s, List.replicate L (0 : Rat)))) s i = 0 := by
    intro s i
    unfold slot
    rcases h : Dict.get? (pb.skills.map (fun s => (s, List.replicate L (0 : Rat)))) s with _ | row
    · rfl
    · obtain ⟨s', _, h'⟩ := List.mem_map.1 (Dict.mem_of_get? h)
      rw [← (Prod.mk.inj h').2]
      simp only [Option.bind_some, List.getElem?_replicate]
      split <;> rfl
  obtain ⟨rows, h1, h2, h3, h4⟩ := creditAll_spec hr.pos pb.employees _ (fun p hp => by
    have := Dict.get?_of_mem hr.dicts.employees hp
    exact ⟨hr.dicts.skills _ _ this, fun s hs => by rw [hk0]; exact hr.known _ _ this s hs⟩) hsh
  refine ⟨rows, by rw [h2, hk0], h3, fun s i hi => by rw [h4 s i hi, h0, zero_add], ?_⟩
  unfold representative
  rw [hr.len, bind_ok, h1, bind_ok]

theorem row_slot {L : Nat} {rows : Dict String (List Rat)} {s : String} (hs : s ∈ rows.keys) (hsh : Shape L rows) :
    ∃ row, rows.get? s = some row ∧ row.length = L ∧ ∀ i, i < L → row[i]? = some (slot rows s i) := by
  obtain ⟨row, hrow⟩ := Option.isSome_iff_exists.1 ((Dict.get?_isSome_iff_mem_keys rows s).2 hs)
  have hl := hsh s row hrow
  refine ⟨row, hrow, hl, fun i hi => ?_⟩
  unfold slot
  rw [hrow, Option.bind_some, List.getElem?_eq_getElem (by omega)]
  rfl

/-- A skill becomes a resource.  At every time but the last one of the row — and there as well, if no calendar is longer than the row — its
capacity is what all workers who are at work have of the skill together, rounded towards zero. -/
theorem C98_rows {first : String} {L : Nat} (hr : Rep pb first L) : ∃ rep, representative pb first = .ok rep ∧ ∀ s ∈ pb.skills, ∃ row,
    rep.resources.get? s = some (.calendar row) ∧ row.length = L ∧ ∀ t, t < L → (t + 1 < L ∨ ∀ w e, pb.employees.get? w = some e → e.calendar.length ≤ L) →
      row[t]? = some (trunc (teamLevel pb (workersAt pb t) s)) := by
  obtain ⟨rows, hk, hsh, hslot, hrep⟩ := rep_spec hr
  refine ⟨_, hrep, fun s hs => ?_⟩
  obtain ⟨row, h1, h2, h3⟩ := row_slot (by rw [hk]; exact hs) hsh
  refine ⟨row.map trunc, ?_, by simp [h2], fun t ht hcase => ?_⟩
  · have := foldl_set_get? (f := fun l => Capacity.calendar (l.map trunc)) s rows pb.base.resources (by rw [hk]; exact hr.skills)
    rw [h1] at this
    exact this
  · rw [List.getElem?_map, h3 t ht, hslot s t ht, level_at hr.dicts]
    simp only [Option.map_some, Option.some.injEq]
    congr 2
    refine List.map_congr_left fun p hp => ?_
    congr 2
    by_cases hlast : t + 1 < L
    · rw [days_inner _ _ _ (by omega)]; simp
    · have : t = L - 1 := by omega
      subst this
      have hcal := hcase.resolve_left hlast p.1 p.2 (Dict.get?_of_mem hr.dicts.employees hp)
      rw [days_last hr.pos _ _ (by omega)]; simp

/-- The other resources keep their capacities; activities keep their modes, durations and requirements, and get requirements of 0 where
they had none. -/
theorem C98_project {first : String} {L : Nat} (hr : Rep pb first L) : ∃ rep, representative pb first = .ok rep ∧
    (∀ res, res ∉ pb.skills → rep.resources.get? res = (pb.resources.get? res).map .calendar) ∧
    (∀ res, res ∈ rep.resources.keys ↔ res ∈ pb.skills ∨ res ∈ pb.resources.keys) ∧ rep.resources.keys.Nodup ∧
    rep.nonRenewable = pb.nonRenewable ∧ rep.successors = pb.successors ∧ rep.horizon = pb.horizon ∧ rep.multiplier = pb.multiplier ∧
    ∀ a d k m, pb.modes.get? a = some d → d.get? k = some m → ∃ d' m', rep.modes.get? a = some d' ∧ d'.get? k = some m' ∧ d'.keys = d.keys ∧
      m'.duration = m.duration ∧ ∀ res, m'.needs.get? res = if res ∈ pb.skills ∨ res ∈ pb.resources.keys then some ((m.needs.get? res).getD 0) else m.needs.get? res := by
  obtain ⟨rows, hk, hsh, hslot, hrep⟩ := rep_spec hr
  have hbase : pb.base.resources.keys = pb.resources.keys := by simp [Problem.base, Dict.keys]
  obtain ⟨k1, k2⟩ := foldl_set_keys (f := fun l => Capacity.calendar (l.map trunc)) rows pb.base.resources (by rw [hbase]; exact hr.dicts.resources)
  have hmap : ∀ {α β : Type} (f : α → β) (d : Dict Nat α) (k : Nat), Dict.get? (d.map (fun p => (p.1, f p.2))) k = (d.get? k).map f := by
    intro α β f d k
    induction d with
    | nil => rfl
    | cons p d ih =>
      simp only [List.map_cons, Dict.get?]
      split
      · rfl
      · exact ih
  have hmap' : ∀ (d : Dict String (List Int)) (k : String), Dict.get? (d.map (fun p => (p.1, Capacity.calendar p.2))) k = (d.get? k).map .calendar := by
    intro d k
    induction d with
    | nil => rfl
    | cons p d ih =>
      simp only [List.map_cons, Dict.get?]
      split
      · rfl
      · exact ih
  refine ⟨_, hrep, fun res hres => ?_, fun res => ?_, k1, rfl, rfl, rfl, rfl, fun a d k m hd hm => ?_⟩
  · have := foldl_set_get? (f := fun l => Capacity.calendar (l.map trunc)) res rows pb.base.resources (by rw [hk]; exact hr.skills)
    have hn : rows.get? res = none := by
      by_contra hc
      exact hres (by rw [← hk]; exact (Dict.get?_isSome_iff_mem_keys rows res).1 (Option.isSome_iff_ne_none.2 hc))
    rw [hn] at this
    refine this.trans ?_
    exact hmap' pb.resources res
  · rw [show (res ∈ pb.skills ∨ res ∈ pb.resources.keys) ↔ (res ∈ rows.keys ∨ res ∈ pb.base.resources.keys) by rw [hk, hbase]]
    exact k2 res
  · refine ⟨d.map (fun q : Nat × Mode => (q.1, fillMode pb q.2)), fillMode pb m, ?_, ?_, by simp [Dict.keys], rfl, fun res => ?_⟩
    · have := hmap (fun d : Dict Nat Mode => d.map (fun q : Nat × Mode => (q.1, fillMode pb q.2))) pb.modes a
      rw [hd] at this
      exact this
    · have := hmap (fillMode pb) d k
      rw [hm] at this
      exact this
    · unfold fillMode
      simp only [fill_get?]
      by_cases h1 : res ∈ pb.skills
      · simp only [h1, if_true, true_or]
        split <;> simp
      · simp only [h1, if_false, false_or]

theorem teamLevel_mono {s : String} {l l' : List Nat} (hn : l.Nodup) (hs : ∀ w ∈ l, w ∈ l') (hv : ∀ w ∈ l', 0 ≤ skillValue pb w s) :
    teamLevel pb l s ≤ teamLevel pb l' s := by
  obtain ⟨l0, hp, hsub⟩ := List.subperm_of_subset hn hs
  unfold teamLevel
  rw [← (hp.map (skillValue pb · s)).sum_eq]
  exact (hsub.map _).sum_le_sum fun x hx => by
    obtain ⟨w, hw, rfl⟩ := List.mem_map.1 hx
    exact hv w hw

theorem teamLevel_flatMap {s : String} (f : Nat → List Nat) (l : List Nat) : teamLevel pb (l.flatMap f) s = (l.map (fun a => teamLevel pb (f a) s)).sum := by
  induction l with
  | nil => rfl
  | cons a l ih =>
    rw [List.flatMap_cons, List.map_cons, List.sum_cons, ← ih]
    simp [teamLevel]

theorem sum_le_levels {s : String} {need : Nat → Int} {f : Nat → List Nat} : ∀ (l : List Nat), (∀ a ∈ l, (need a : Rat) ≤ teamLevel pb (f a) s) →
    ((total need l : Int) : Rat) ≤ (l.map (fun a => teamLevel pb (f a) s)).sum
  | [], _ => by simp [total]
  | a :: l, h => by
    have h1 := h a (by simp)
    have h2 := sum_le_levels l fun b hb => h b (by simp [hb])
    simp only [total, List.map_cons, List.sum_cons] at h2 ⊢
    push_cast at h2 ⊢
    exact add_le_add h1 h2

/-- In a solution that the check accepts, what the running activities need of a skill is no more than the workers at work have of it
together. -/
theorem C98_skill_load {need : String → Nat → Int} {p : Nat × Nat} (hd : Dicts pb) (hcov : Covered pb sol need)
    (hnr : ∀ res ∈ pb.nonRenewable, res ∈ pb.resources.keys) (hsink : sol.schedule.get? pb.sink = some p) (hnd : pb.modes.keys.Nodup)
    (hus : ∀ a us, sol.usage.get? a = some us → us.keys.Nodup) (hpos : ∀ w e s v, pb.employees.get? w = some e → e.skills.get? s = some v → 0 ≤ v)
    (h : satisfy pb sol = .ok true) {s : String} (hs : s ∈ pb.skills) {skill : Nat → Int}
    (hskill : ∀ a m, ModeIn pb sol a m → skill a = (m.needs.get? s).getD 0) (t : Nat) :
    ((total skill (pb.modes.keys.filter (runsAt sol.schedule t)) : Int) : Rat) ≤ teamLevel pb (workersAt pb t) s := by
  obtain ⟨_, c2, c3, c4, _, _, _⟩ := (C94_accepts_iff hd hcov hnr hsink).1 h
  have hv : ∀ w, 0 ≤ skillValue pb w s := by
    intro w
    unfold skillValue
    rcases he : pb.employees.get? w with _ | e
    · simp
    · simp only []
      rcases hv : e.skills.get? s with _ | v
      · simp
      · simpa using hpos w e s v he hv
  let team : Nat → List Nat := fun a => if 0 < skill a then notedFor ((sol.usage.get? a).getD []) s else []
  have hteam : ∀ a w, w ∈ team a → ∃ us, sol.usage.get? a = some us ∧ w ∈ us.keys := by
    intro a w hw
    by_cases h0 : 0 < skill a
    · simp only [team, if_pos h0] at hw
      rcases hu : sol.usage.get? a with _ | us
      · rw [hu] at hw; simp [notedFor] at hw
      · rw [hu] at hw
        refine ⟨us, rfl, ?_⟩
        simp only [notedFor, Option.getD_some, List.mem_map, List.mem_filter] at hw
        obtain ⟨q, ⟨hq, _⟩, rfl⟩ := hw
        exact List.mem_map.2 ⟨q, hq, rfl⟩
    · simp only [team, if_neg h0] at hw; cases hw
  have hlevel : ∀ a ∈ pb.modes.keys, (skill a : Rat) ≤ teamLevel pb (team a) s := by
    intro a ha
    by_cases h0 : 0 < skill a
    · obtain ⟨_, m, hm, _⟩ := hcov a ha
      have hsk := hskill a m hm
      rcases hn : m.needs.get? s with _ | n
      · rw [hn] at hsk; simp at hsk; omega
      · rw [hn] at hsk
        have hsk : skill a = n := hsk
        obtain ⟨us, hu, _, hl⟩ := c2 a ha m hm s n hs hn (by omega)
        simp only [team, if_pos h0, hu, Option.getD_some]
        rw [hsk]; exact hl
    · simp only [team, if_neg h0, teamLevel, List.map_nil, List.sum_nil]
      have : (skill a : Rat) ≤ ((0 : Int) : Rat) := by exact_mod_cast Int.not_lt.1 h0
      simpa using this
  have hrun : ∀ a, runsAt sol.schedule t a = true → ∃ sa ea, sol.schedule.get? a = some (sa, ea) ∧ sa ≤ t ∧ t < ea := by
    intro a ha
    unfold runsAt at ha
    rcases hg : sol.schedule.get? a with _ | q
    · rw [hg] at ha; cases ha
    · rw [hg] at ha
      simp only [Bool.and_eq_true, decide_eq_true_eq] at ha
      exact ⟨q.1, q.2, rfl, ha.1, ha.2⟩
  refine (sum_le_levels (f := team) _ fun a ha => hlevel a (List.mem_filter.1 ha).1).trans ?_
  rw [← teamLevel_flatMap]
  refine teamLevel_mono ?_ ?_ fun w _ => hv w
  · rw [List.nodup_flatMap]
    constructor
    · intro a _
      by_cases h0 : 0 < skill a
      · simp only [team, if_pos h0]
        rcases hu : sol.usage.get? a with _ | us
        · simp [notedFor]
        · simp only [Option.getD_some, notedFor]
          exact List.Nodup.sublist (List.Sublist.map (fun q : Nat × List String => q.1) List.filter_sublist) (hus a us hu)
      · simp only [team, if_neg h0]; exact List.nodup_nil
    · refine List.Pairwise.imp_of_mem ?_ (hnd.filter _)
      intro a b ha hb hab w hwa hwb
      obtain ⟨ha1, ha2⟩ := List.mem_filter.1 ha
      obtain ⟨hb1, hb2⟩ := List.mem_filter.1 hb
      obtain ⟨sa, ea, ga, ga1, ga2⟩ := hrun a ha2
      obtain ⟨sb, eb, gb, gb1, gb2⟩ := hrun b hb2
      obtain ⟨us, hu, hwu⟩ := hteam a w hwa
      obtain ⟨vs, hv', hwv⟩ := hteam b w hwb
      rcases Nat.lt_or_gt_of_ne hab with hlt | hlt
      · exact c4 a ha1 b hb1 hlt sa ea sb eb ga gb (by omega) (by omega) w us vs hu hv' hwu hwv
      · exact c4 b hb1 a ha1 hlt sb eb sa ea gb ga (by omega) (by omega) w vs us hv' hu hwv hwu
  · intro w hw
    obtain ⟨a, ha, hwa⟩ := List.mem_flatMap.1 hw
    obtain ⟨ha1, ha2⟩ := List.mem_filter.1 ha
    obtain ⟨us, hu, hwu⟩ := hteam a w hwa
    obtain ⟨sa, ea, ga, ga1, ga2⟩ := hrun a ha2
    obtain ⟨s', e', g, gw⟩ := c3 a ha1 us w hu hwu
    rw [ga] at g
    obtain ⟨rfl, rfl⟩ := Prod.mk.inj (Option.some.inj g)
    obtain ⟨emp, he, hc⟩ := gw (by omega)
    exact (mem_workersAt hd).2 ⟨emp, he, hc t ga1 ga2⟩

/-- The schedule of a solution as a schedule of the project without workers. -/
def plainTimes (sol : Solution) : Dict Nat (Int × Int) := sol.schedule.map (fun p => (p.1, ((p.2.1 : Int), (p.2.2 : Int))))

theorem plainTimes_get? (sol : Solution) (a : Nat) : (plainTimes sol).get? a = (sol.schedule.get? a).map (fun p => ((p.1 : Int), (p.2 : Int))) := by
  unfold plainTimes
  generalize sol.schedule = d
  induction d with
  | nil => rfl
  | cons p d ih =>
    simp only [List.map_cons, Dict.get?]
    split
    · rfl
    · exact ih

theorem plainTimes_runsAt (sol : Solution) (t a : Nat) : Rcpsp.runsAt (plainTimes sol) t a = runsAt sol.schedule t a := by
  unfold Rcpsp.runsAt runsAt
  rw [plainTimes_get?]
  rcases sol.schedule.get? a with _ | p
  · rfl
  · simp only [Option.map_some]
    rw [Bool.eq_iff_iff]
    simp only [decide_eq_true_eq, Bool.and_eq_true]
    omega

/-- Every solution that the check of the multi-skill project accepts is accepted by the check of the project in which skills are resources.
Needed besides well-formedness: resources are no skills, levels are not negative, the first and the last activity have mode 1, and without
resources the schedule ends at the horizon at the latest. -/
theorem C98_relaxation {first : String} {L : Nat} {need : String → Nat → Int} {p : Nat × Nat} {modes : List Nat} (inst : Instance pb) (hr : Rep pb first L)
    (hsk : pb.sink = pb.modes.length) (hrec : Recorded pb sol) (hcov : Covered pb sol need) (hsink : sol.schedule.get? pb.sink = some p)
    (hnr : ∀ res ∈ pb.nonRenewable, res ∈ pb.resources.keys) (hdis : ∀ res ∈ pb.resources.keys, res ∉ pb.skills)
    (hpos : ∀ w e s v, pb.employees.get? w = some e → e.skills.get? s = some v → 0 ≤ v)
    (hmodes : ∀ a, 1 ≤ a → a ≤ pb.modes.length → sol.modes.get? a = (1 :: modes ++ [1])[a - 1]?) (hml : modes.length + 2 = pb.modes.length)
    (hhor : pb.resources = [] → p.2 ≤ pb.horizon) (h : satisfy pb sol = .ok true) (flag : Option Bool) (hflag : flag ≠ some false) :
    ∃ rep, representative pb first = .ok rep ∧ Rcpsp.satisfy rep flag modes (plainTimes sol) = .ok true := by
  obtain ⟨rep, hrep, hres, hreskeys, hresnd, e1, e2, _, _, hmode⟩ := C98_project hr
  obtain ⟨rep', hrep', hrows⟩ := C98_rows hr
  rw [hrep] at hrep'; cases hrep'
  obtain ⟨rows, hk, hsh, hslot, hrep'⟩ := rep_spec hr
  have hkeys := keys_range inst
  have hnd : pb.modes.keys.Nodup := hkeys.nodup_iff.2 List.nodup_range'
  have hmk : ∀ a, a ∈ pb.modes.keys ↔ 1 ≤ a ∧ a ≤ pb.modes.length := fun a => by rw [hkeys.mem_iff, List.mem_range'_1]; omega
  have hsu := inst.base.successors
  have hsucc : pb.successors.keys.Perm pb.modes.keys := by
    refine (List.perm_ext_iff_of_nodup hsu.1 hnd).2 fun a => ?_
    rw [hmk]; exact hsu.2.1 a
  obtain ⟨_, c2, c3, c4, c5, c6, c7⟩ := (C94_accepts_iff hr.dicts hcov hnr hsink).1 h
  have hpL : p.2 ≤ L := by
    have hl := hr.len
    unfold skillLen at hl
    by_cases hc : pb.resources.isEmpty = true
    · rw [if_pos hc] at hl; cases hl
      exact hhor (List.isEmpty_iff.1 hc)
    · rw [if_neg hc] at hl
      obtain ⟨row, g1, g2⟩ := bind_eq_ok.1 hl
      cases g2
      by_contra hlt
      obtain ⟨c, g, _⟩ := c5 first row (dict_get_ok.1 g1) row.length (by omega)
      rw [List.getElem?_eq_none (Nat.le_refl _)] at g; cases g
  -- the requirements of the modes
  let need' : String → Nat → Int := fun res a => match modeOf pb sol a with
    | .ok m => (m.needs.get? res).getD 0
    | .error _ => 0
  have hneed' : ∀ res a m, ModeIn pb sol a m → need' res a = (m.needs.get? res).getD 0 := by
    intro res a m hm
    simp only [need', modeOf_ok.2 hm]
  have htot : ∀ (f : Nat → Int) (t : Nat), Rcpsp.load f (plainTimes sol) t rep.successors.keys = total f (pb.modes.keys.filter (runsAt sol.schedule t)) := by
    intro f t
    rw [e2]
    unfold Rcpsp.load
    have : pb.successors.keys.filter (Rcpsp.runsAt (plainTimes sol) t) = pb.successors.keys.filter (runsAt sol.schedule t) :=
      List.filter_congr fun a _ => plainTimes_runsAt sol t a
    rw [this]
    exact ((hsucc.filter _).map f).sum_eq
  have hres_need : ∀ res ∈ pb.resources.keys, ∀ a ∈ pb.modes.keys, need' res a = need res a := by
    intro res hr' a ha
    obtain ⟨_, m, hm, hn⟩ := hcov a ha
    rw [hneed' res a m hm, hn res hr']; rfl
  have htotal_eq : ∀ res ∈ pb.resources.keys, ∀ l : List Nat, (∀ a ∈ l, a ∈ pb.modes.keys) → total (need' res) l = total (need res) l := by
    intro res hr' l hl
    unfold total
    rw [List.map_congr_left fun a ha => hres_need res hr' a (hl a ha)]
  have hschk : ∀ a, a ∈ (plainTimes sol).keys ↔ 1 ≤ a ∧ a ≤ pb.modes.length := by
    intro a
    have : (plainTimes sol).keys = sol.schedule.keys := by simp [plainTimes, Dict.keys]
    rw [this, hrec.activities.mem_iff, List.mem_range'_1]; omega
  refine ⟨rep, hrep, ?_⟩
  refine (Rcpsp.C28_accepts_iff_partial (pb := rep) (need := need') (last := pb.modes.length) (p := ((p.1 : Int), (p.2 : Int))) flag
    (by rw [plainTimes_get?, ← hsk, hsink]; rfl) (fun a ha => ((hschk a).1 ha).2) hresnd ?_ ?_).2 ⟨hflag, ?_, ?_, ?_⟩
  · intro a ha
    rw [e2] at ha
    have := (hsu.2.1 a).1 ha
    have this : 1 ≤ a ∧ a ≤ pb.modes.length := this
    exact ⟨(hschk a).2 this, by omega⟩
  · intro a ha res hres'
    rw [e2] at ha
    have har := (hmk a).1 (hsucc.mem_iff.1 ha)
    obtain ⟨_, m, hm, _⟩ := hcov a (hsucc.mem_iff.1 ha)
    obtain ⟨k, d, g1, g2, g3⟩ := hm
    obtain ⟨d', m', f1, f2, _, _, f5⟩ := hmode a d k m g2 g3
    refine ⟨d', k, m', f1, by rw [← hmodes a har.1 har.2]; exact g1, f2, ?_⟩
    rw [f5 res, if_pos ((hreskeys res).1 hres'), hneed' res a m ⟨k, d, g1, g2, g3⟩]
  · intro res cap hcap t ht
    have ht : t < p.2 := by simpa using ht
    by_cases hs : res ∈ pb.skills
    · obtain ⟨row, g1, g2, _⟩ := hrows res hs
      rw [hcap] at g1; cases g1
      -- the value of the slot is at least the level of the workers at work
      obtain ⟨row', r1, r2, r3⟩ := row_slot (L := L) (rows := rows) (by rw [hk]; exact hs) hsh
      have hrow : row = row'.map trunc := by
        have := foldl_set_get? (f := fun l => Capacity.calendar (l.map trunc)) res rows pb.base.resources (by rw [hk]; exact hr.skills)
        rw [r1] at this
        rw [hrep] at hrep'
        rw [Except.ok.inj hrep'] at hcap
        have h2 := hcap.symm.trans this
        simpa using h2
      refine ⟨trunc (slot rows res t), ?_, ?_⟩
      · show row[t]? = _
        rw [hrow, List.getElem?_map, r3 t (by omega)]; rfl
      · rw [htot]
        have hload := C98_skill_load hr.dicts hcov hnr hsink hnd (fun a us hu => (hrec.workers a us hu).1) hpos h hs (skill := need' res)
          (fun a m hm => hneed' res a m hm) t
        have hval : ∀ q ∈ pb.employees, (0 : Rat) ≤ (q.2.skills.get? res).getD 0 := by
          intro q hq
          rcases hv : q.2.skills.get? res with _ | v
          · simp
          · simpa using hpos q.1 q.2 res v (Dict.get?_of_mem hr.dicts.employees hq) hv
        have hslot' := hslot res t (by omega)
        have hge : teamLevel pb (workersAt pb t) res ≤ slot rows res t := by
          rw [hslot', level_at hr.dicts]
          refine List.sum_le_sum fun q hq => ?_
          refine mul_le_mul_of_nonneg_right ?_ (hval q hq)
          by_cases hc : q.2.calendar[t]? = some true
          · have := days_ge (L := L) q.2.calendar 0 t (by omega) (by omega) (by simpa using hc)
            rw [if_pos hc]; exact_mod_cast this
          · rw [if_neg hc]; exact_mod_cast Nat.zero_le _
        refine le_trunc ?_ (hload.trans hge)
        rw [hslot']
        refine List.sum_nonneg fun x hx => ?_
        obtain ⟨q, hq, rfl⟩ := List.mem_map.1 hx
        exact mul_nonneg (by exact_mod_cast Nat.zero_le _) (hval q hq)
    · rw [hres res hs] at hcap
      obtain ⟨row, g1, rfl⟩ := Option.map_eq_some_iff.1 hcap
      have hmem : res ∈ pb.resources.keys := (Dict.get?_isSome_iff_mem_keys _ _).1 (by rw [g1]; rfl)
      obtain ⟨c, g2, g3⟩ := c5 res row g1 t ht
      refine ⟨c, g2, ?_⟩
      rw [htot, htotal_eq res hmem _ fun a ha => (List.mem_filter.1 ha).1]
      exact g3
  · intro res hres'
    rw [e1] at hres'
    have hmem := hnr res hres'
    obtain ⟨row, c, g1, g2, g3⟩ := c6 res hres'
    refine ⟨.calendar row, c, by rw [hres res (hdis res hmem), g1]; rfl, g2, ?_⟩
    rw [e2]
    have : total (need' res) pb.successors.keys = total (need' res) pb.modes.keys := (hsucc.map _).sum_eq
    rw [this, htotal_eq res hmem _ fun a ha => ha]
    exact g3
  · intro a ss hss b hb
    rw [e2] at hss
    obtain ⟨sa, ea, sb, eb, g1, g2, g3⟩ := c7 a ss hss b hb
    exact ⟨sa, ea, sb, eb, by rw [plainTimes_get?, g1]; rfl, by rw [plainTimes_get?, g2]; rfl, by exact_mod_cast g3⟩

/-! ### Examples and what is not true -/

/-- The rows of the example: worker 8 is away at time 3. -/
example : ∃ rep, representative demo "machine" = .ok rep ∧ rep.resources = [("machine", .calendar (List.replicate 10 1)),
    ("weld", .calendar [2, 2, 2, 1, 2, 2, 2, 2, 2, 2]), ("paint", .calendar [1, 1, 1, 0, 1, 1, 1, 1, 1, 1])] := by
  refine ⟨_, rfl, ?_⟩
  decide +kernel

theorem demo_rep : Rep demo "machine" 10 := by
  refine ⟨demo_instance.dicts, by decide, fun w e h => ?_, rfl, by decide⟩
  simp only [demo, Dict.get?] at h
  split at h
  · cases h; decide
  · split at h
    · cases h; decide
    · cases h

/-- The solution of the example satisfies all conditions. -/
example : ∃ rep, representative demo "machine" = .ok rep ∧ Rcpsp.satisfy rep none [1, 1] (plainTimes demoSol) = .ok true := by
  have hcov : Covered demo demoSol (fun _ a => if a = 2 then 1 else 0) := by
    intro a ha
    simp only [demo, Dict.keys, List.map_cons, List.map_nil, List.mem_cons, List.not_mem_nil, or_false] at ha
    have hres : ∀ res ∈ demo.resources.keys, res = "machine" := by
      intro res hr
      simpa [demo, Dict.keys] using hr
    rcases ha with rfl | rfl | rfl | rfl <;>
      exact ⟨⟨_, rfl⟩, _, ⟨_, _, rfl, rfl, rfl⟩, fun res hr => by rw [hres res hr]; rfl⟩
  refine C98_relaxation (p := (5, 5)) demo_instance demo_rep rfl demoSol_recorded hcov rfl (by decide) (by decide) ?_ ?_ rfl (by decide)
    (by decide +kernel) none (by decide)
  · intro w e s v he hv
    simp only [demo, Dict.get?] at he
    split at he
    · cases he
      have := Dict.mem_of_get? hv
      simp only [List.mem_cons, List.not_mem_nil, or_false, Prod.mk.injEq] at this
      rcases this with ⟨_, rfl⟩
      decide +kernel
    · split at he
      · cases he
        have := Dict.mem_of_get? hv
        simp only [List.mem_cons, List.not_mem_nil, or_false, Prod.mk.injEq] at this
        rcases this with ⟨_, rfl⟩ | ⟨_, rfl⟩ <;> decide +kernel
      · cases he
  · intro a h1 h2
    have h2 : a ≤ 4 := h2
    have : a = 1 ∨ a = 2 ∨ a = 3 ∨ a = 4 := by omega
    rcases this with rfl | rfl | rfl | rfl <;> rfl

/-- One worker who can weld and paint, and two activities that need one of the two each, at the same time. -/
def single : Problem :=
  { demo with
    employees := [(5, ⟨[("weld", 1), ("paint", 1)], List.replicate 10 true⟩)]
    modes := [(1, [(1, ⟨0, [("machine", 0)]⟩)]), (2, [(1, ⟨2, [("machine", 0), ("weld", 1)]⟩)]),
      (3, [(1, ⟨2, [("machine", 0), ("paint", 1)]⟩)]), (4, [(1, ⟨0, [("machine", 0)]⟩)])] }

theorem single_dicts : Dicts single := by
  refine ⟨by decide, by decide, fun w e h => ?_, fun a d k m h1 h2 => ?_⟩
  · simp only [single, Dict.get?] at h
    split at h
    · cases h; decide
    · cases h
  · have hm := Dict.mem_of_get? h1
    simp only [single, List.mem_cons, List.not_mem_nil, or_false, Prod.mk.injEq] at hm
    rcases hm with ⟨_, rfl⟩ | ⟨_, rfl⟩ | ⟨_, rfl⟩ | ⟨_, rfl⟩ <;>
      (have hm := Dict.mem_of_get? h2; simp only [List.mem_cons, List.not_mem_nil, or_false, Prod.mk.injEq] at hm; obtain ⟨_, rfl⟩ := hm; decide)

/-- The converse fails: both activities at once are accepted in the project with skills as resources, but no assignment of workers makes
the schedule acceptable. -/
theorem C98_converse_refuted : (∃ rep, representative single "machine" = .ok rep ∧
      Rcpsp.satisfy rep none [1, 1] [(1, (0, 0)), (2, (0, 2)), (3, (0, 2)), (4, (2, 2))] = .ok true) ∧
    ∀ usage, satisfy single ⟨[(1, 1), (2, 1), (3, 1), (4, 1)], [(1, (0, 0)), (2, (0, 2)), (3, (0, 2)), (4, (2, 2))], usage⟩ ≠ .ok true := by
  refine ⟨⟨_, rfl, by decide +kernel⟩, fun usage h => ?_⟩
  have hcov : Covered single ⟨[(1, 1), (2, 1), (3, 1), (4, 1)], [(1, (0, 0)), (2, (0, 2)), (3, (0, 2)), (4, (2, 2))], usage⟩ (fun _ _ => 0) := by
    intro a ha
    simp only [single, Dict.keys, List.map_cons, List.map_nil, List.mem_cons, List.not_mem_nil, or_false] at ha
    have hres : ∀ res ∈ single.resources.keys, res = "machine" := by
      intro res hr
      simpa [single, demo, Dict.keys] using hr
    rcases ha with rfl | rfl | rfl | rfl <;>
      exact ⟨⟨_, rfl⟩, _, ⟨_, _, rfl, rfl, rfl⟩, fun res hr => by rw [hres res hr]; rfl⟩
  obtain ⟨_, c2, _, c4, _, _, _⟩ := (C94_accepts_iff single_dicts hcov (by intro res hres; cases hres) (p := (2, 2)) rfl).1 h
  have hwho : ∀ (l : List Nat) (s : String), (1 : Rat) ≤ teamLevel single l s → 5 ∈ l := by
    intro l s hl
    by_contra hc
    have : teamLevel single l s = 0 := by
      unfold teamLevel
      refine List.sum_eq_zero fun x hx => ?_
      obtain ⟨w, hw, rfl⟩ := List.mem_map.1 hx
      have h5 : ¬ (5 = w) := fun h => hc (h ▸ hw)
      simp [skillValue, single, Dict.get?, h5]
    rw [this] at hl
    exact absurd hl (by decide +kernel)
  have hkey : ∀ (us : Dict Nat (List String)) s, 5 ∈ notedFor us s → 5 ∈ us.keys := by
    intro us s h
    obtain ⟨q, hq, hq'⟩ := List.mem_map.1 h
    exact List.mem_map.2 ⟨q, (List.mem_filter.1 hq).1, hq'⟩
  obtain ⟨us, hu, _, hl⟩ := c2 2 (by decide) ⟨2, [("machine", 0), ("weld", 1)]⟩ ⟨1, _, rfl, rfl, rfl⟩ "weld" 1 (by decide) rfl (by decide)
  obtain ⟨vs, hv, _, hl'⟩ := c2 3 (by decide) ⟨2, [("machine", 0), ("paint", 1)]⟩ ⟨1, _, rfl, rfl, rfl⟩ "paint" 1 (by decide) rfl (by decide)
  exact c4 2 (by decide) 3 (by decide) (by decide) 0 2 0 2 rfl rfl (by decide) (by decide) 5 us vs hu hv
    (hkey us _ (hwho _ _ (by simpa using hl))) (hkey vs _ (hwho _ _ (by simpa using hl')))

/-- Two painting jobs, a machine row of three times, and one painter whose calendar has ten. -/
def long : Problem :=
  { single with
    resources := [("machine", [1, 1, 1])]
    modes := [(1, [(1, ⟨0, [("machine", 0)]⟩)]), (2, [(1, ⟨1, [("machine", 0), ("paint", 1)]⟩)]),
      (3, [(1, ⟨1, [("machine", 0), ("paint", 1)]⟩)]), (4, [(1, ⟨0, [("machine", 0)]⟩)])] }

/-- A calendar longer than the row adds all its remaining days to the last position: eight painters at time 2 where there is one, and a
schedule with two painting jobs at that time is accepted. -/
theorem C98_last_refuted : ∃ rep, representative long "machine" = .ok rep ∧ rep.resources.get? "paint" = some (.calendar [1, 1, 8]) ∧
    workersAt long 2 = [5] ∧ Rcpsp.satisfy rep none [1, 1] [(1, (0, 0)), (2, (2, 3)), (3, (2, 3)), (4, (3, 3))] = .ok true := by
  refine ⟨_, rfl, ?_, ?_, ?_⟩ <;> decide +kernel

/-- A skill that is not among those of the project raises `KeyError`; rows without positions raise `IndexError`. -/
theorem C98_raises_refuted : representative { demo with skills := ["weld"] } "machine" = .error .keyError ∧
    representative { demo with resources := [("machine", [])] } "machine" = .error .indexError := ⟨rfl, rfl⟩

/-- Which resource comes first decides about the length of the rows, when these differ. -/
theorem C98_first_refuted : ∃ rep rep', representative { demo with resources := [("machine", [1, 1, 1]), ("crane", [1, 1])] } "machine" = .ok rep ∧
    representative { demo with resources := [("machine", [1, 1, 1]), ("crane", [1, 1])] } "crane" = .ok rep' ∧
    rep.resources.get? "paint" = some (.calendar [1, 1, 7]) ∧ rep'.resources.get? "paint" = some (.calendar [1, 8]) := by
  refine ⟨_, _, rfl, rfl, ?_, ?_⟩ <;> decide +kernel

end Verif.MultiSkill
