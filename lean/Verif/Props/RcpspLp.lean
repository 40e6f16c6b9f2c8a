import Verif.Lemmas.RcpspLp
import Verif.Lemmas.Sched
import Verif.Props.Rcpsp
import Mathlib.Logic.Relation
/- Property C112: the linear program for projects with several modes. -/
namespace Verif.RcpspLp
open Verif.Milp Verif.Rcpsp
open Verif.FacilityLp (sum_map_congr)

/-- Schedule and modes (of the tasks between the first and the last) form a plan whose use of renewable resources is within the capacities at
all times below `T`. -/
structure Plan (pb : Problem) (T : Nat) (modes : List Nat) (sch : Dict Nat (Int × Int)) : Prop where
  tasks : sch.keys.Nodup ∧ ∀ a, a ∈ sch.keys ↔ 1 ≤ a ∧ a ≤ pb.modes.length
  count : modes.length + 2 = pb.modes.length
  times : ∀ a s e, sch.get? a = some (s, e) → ∃ d k m, pb.modes.get? a = some d ∧ (1 :: modes ++ [1])[a - 1]? = some k ∧
    d.get? k = some m ∧ 0 ≤ s ∧ e = s + m.duration
  precedence : ∀ a ss, (a, ss) ∈ pb.successors → ∀ b ∈ ss, ∀ sa ea sb eb, sch.get? a = some (sa, ea) → sch.get? b = some (sb, eb) → ea ≤ sb
  renewable : ∀ need, NeedTable pb (1 :: modes ++ [1]) need → ∀ res cap, pb.resources.get? res = some cap → res ∉ pb.nonRenewable →
    ∀ t : Nat, t < T → ∀ c, capOf cap t = some c → load (need res) sch t (List.range' 1 pb.modes.length) ≤ c
  nonrenewable : ∀ need, NeedTable pb (1 :: modes ++ [1]) need → ∀ res ∈ pb.nonRenewable, ∀ cap c, pb.resources.get? res = some cap →
    capOf cap 0 = some c → total (need res) (List.range' 1 pb.modes.length) ≤ c

/-- The first and the last task have mode 1 only. -/
def EndModes (pb : Problem) : Prop := ∀ a d, a = 1 ∨ a = pb.modes.length → pb.modes.get? a = some d → d.keys = [1]

theorem total_filter (need : Nat → Int) (l : List Nat) (q : Nat → Bool) :
    total need (l.filter q) = (l.map (fun j => if q j then need j else 0)).sum := by
  unfold total
  induction l with
  | nil => rfl
  | cons x l ih =>
    rw [List.filter_cons, List.map_cons, List.sum_cons, ← ih]
    by_cases h : q x <;> simp [h]

theorem ext_get {pb : Problem} (w : Project pb) (hends : EndModes pb) {md : Nat → Nat} (hmd : ∀ j, j ∈ allTasks pb → md j ∈ (modesOf pb j).keys)
    {j : Nat} (hj : j ∈ allTasks pb) :
    (1 :: (List.range' 2 (pb.modes.length - 2)).map md ++ [1])[j - 1]? = some (md j) := by
  have htwo := w.two
  have hend : ∀ a, a ∈ allTasks pb → a = 1 ∨ a = pb.modes.length → md a = 1 := by
    intro a ha h
    have := hmd a ha
    rw [hends a _ h (modesOf_get w ha)] at this
    simpa using this
  obtain ⟨h1, h2⟩ := mem_allTasks.1 hj
  by_cases hj1 : j = 1
  · subst hj1; rw [hend 1 hj (.inl rfl)]; rfl
  · by_cases hjn : j = pb.modes.length
    · rw [hend j hj (.inr hjn), List.getElem?_append_right (by simp; omega)]
      simp only [List.length_cons, List.length_map, List.length_range']
      have : j - 1 - (pb.modes.length - 2 + 1) = 0 := by omega
      rw [this]; rfl
    · rw [List.getElem?_append_left (by simp; omega)]
      obtain ⟨i, rfl⟩ : ∃ i, j = i + 2 := ⟨j - 2, by omega⟩
      rw [show i + 2 - 1 = i + 1 by omega, List.getElem?_cons_succ, List.getElem?_map, List.getElem?_range' (by omega)]
      simp [Nat.add_comm]

theorem needTable_eq {pb : Problem} (w : Project pb) {modes : List Nat} {need : String → Nat → Int} (h : NeedTable pb (1 :: modes ++ [1]) need)
    {md : Nat → Nat} {j : Nat} (hj : j ∈ allTasks pb) (he : (1 :: modes ++ [1])[j - 1]? = some (md j)) {r : String} (hr : r ∈ pb.resources.keys) :
    need r j = needIn pb r j (md j) := by
  obtain ⟨d, k, m, h1, h2, h3, h4⟩ := h j ((w.successors.2.1 j).2 (mem_allTasks.1 hj)) r hr
  rw [he] at h2
  cases h2
  simp [needIn, theMode, modesOf, h1, h3, h4]

theorem load_eq {pb : Problem} {md st : Nat → Nat} {sch : Dict Nat (Int × Int)}
    (hs : ∀ j, j ∈ allTasks pb → sch.get? j = some ((st j : Int), (st j : Int) + (theMode pb j (md j)).duration))
    {need : Nat → Int} {r : String} (hn : ∀ j, j ∈ allTasks pb → need j = needIn pb r j (md j)) (t : Nat) :
    load need sch t (allTasks pb) =
      ((allTasks pb).map (fun j => if st j ≤ t ∧ t < st j + (theMode pb j (md j)).duration then needIn pb r j (md j) else 0)).sum := by
  unfold load
  rw [total_filter]
  refine sum_map_congr ?_
  intro j hj
  have : runsAt sch t j = decide (st j ≤ t ∧ t < st j + (theMode pb j (md j)).duration) := by
    rw [runsAt, hs j hj]
    simp only
    congr 1
    apply propext
    constructor <;> rintro ⟨h1, h2⟩ <;> constructor <;> omega
  rw [this, hn j hj]
  simp

theorem valid_plan {pb : Problem} (w : Project pb) (hends : EndModes pb) {T : Nat} {md st : Nat → Nat}
    (hmd : ∀ j, j ∈ allTasks pb → md j ∈ (modesOf pb j).keys) (hv : Valid pb T md st) :
    Plan pb T ((List.range' 2 (pb.modes.length - 2)).map md) (schedOf pb md st (allTasks pb)) := by
  have htwo := w.two
  have hget := fun j (hj : j ∈ allTasks pb) => sched_get (md := md) (st := st) hj
  have hkeys : (schedOf pb md st (allTasks pb)).keys = allTasks pb := by simp [schedOf, Dict.keys, Function.comp_def]
  have hin : ∀ {a p}, (schedOf pb md st (allTasks pb)).get? a = some p → a ∈ allTasks pb := by
    intro a p h
    rw [← hkeys, ← Dict.get?_isSome_iff_mem_keys, h]; rfl
  refine ⟨⟨by rw [hkeys]; exact allTasks_nodup pb, fun a => by rw [hkeys, mem_allTasks]⟩, by simp; omega, ?_, ?_, ?_, ?_⟩
  · intro a s e h
    have ha := hin h
    rw [hget a ha] at h
    cases h
    exact ⟨_, _, _, modesOf_get w ha, ext_get w hends hmd ha, theMode_get (hmd a ha), by omega, rfl⟩
  · intro a ss hm b hb sa ea sb eb h1 h2
    have ha := hin h1
    have hb' := hin h2
    rw [hget a ha] at h1
    rw [hget b hb'] at h2
    cases h1; cases h2
    have := hv.precedence a b ⟨ss, hm, hb⟩
    omega
  · intro need hnt res cap hcap hnr t ht c hc
    have hr : res ∈ pb.resources.keys := by rw [← Dict.get?_isSome_iff_mem_keys, hcap]; rfl
    have h := hv.renewable res t hr hnr ht
    rw [← load_eq hget (need := need res) (fun j hj => needTable_eq w hnt hj (ext_get w hends hmd hj) hr) t] at h
    have hcv : capVal pb res t = c := by simp [capVal, hcap, hc]
    rw [hcv] at h
    exact h
  · intro need hnt res hres cap c hcap hc
    have hr : res ∈ pb.resources.keys := by rw [← Dict.get?_isSome_iff_mem_keys, hcap]; rfl
    have h := hv.nonrenewable res hres
    have hcv : capVal pb res 0 = c := by simp [capVal, hcap, hc]
    rw [hcv] at h
    refine Int.le_trans (Int.le_of_eq ?_) h
    exact sum_map_congr (fun j hj => needTable_eq w hnt hj (ext_get w hends hmd hj) hr)

theorem plan_valid {pb : Problem} (w : Project pb) {T : Nat} (hg : Given pb T) {modes : List Nat} {sch : Dict Nat (Int × Int)} (hp : Plan pb T modes sch) :
    ∃ md st, (∀ j, j ∈ allTasks pb → md j ∈ (modesOf pb j).keys ∧ sch.get? j = some ((st j : Int), (st j : Int) + (theMode pb j (md j)).duration)) ∧
      modes = (List.range' 2 (pb.modes.length - 2)).map md ∧ Valid pb T md st := by
  have htwo := w.two
  have hlen := hp.count
  have hsch : ∀ j, j ∈ allTasks pb → ∃ s e, sch.get? j = some (s, e) := by
    intro j hj
    have := (hp.tasks.2 j).2 (mem_allTasks.1 hj)
    rw [← Dict.get?_isSome_iff_mem_keys] at this
    obtain ⟨p, hp⟩ := Option.isSome_iff_exists.1 this
    exact ⟨p.1, p.2, hp⟩
  let md : Nat → Nat := fun j => ((1 :: modes ++ [1])[j - 1]?).getD 0
  let st : Nat → Nat := fun j => (((sch.get? j).getD (0, 0)).1).toNat
  have hext : ∀ j, j ∈ allTasks pb → (1 :: modes ++ [1])[j - 1]? = some (md j) := by
    intro j hj
    obtain ⟨s, e, he⟩ := hsch j hj
    obtain ⟨d, k, m, -, h2, -⟩ := hp.times j s e he
    simp only [md]
    rw [h2]; rfl
  have hfst : ∀ j, j ∈ allTasks pb → md j ∈ (modesOf pb j).keys ∧ sch.get? j = some ((st j : Int), (st j : Int) + (theMode pb j (md j)).duration) := by
    intro j hj
    obtain ⟨s, e, he⟩ := hsch j hj
    obtain ⟨d, k, m, h1, h2, h3, h4, h5⟩ := hp.times j s e he
    have hk : k = md j := by
      have := hext j hj
      rw [h2] at this
      exact Option.some.inj this
    subst hk
    have hd : modesOf pb j = d := by simp [modesOf, h1]
    have hm : theMode pb j (md j) = m := by simp [theMode, hd, h3]
    have hst : (st j : Int) = s := by simp only [st, he, Option.getD_some]; omega
    refine ⟨?_, by rw [he, hst, hm, h5]⟩
    rw [hd, ← Dict.get?_isSome_iff_mem_keys, h3]; rfl
  have hnt : NeedTable pb (1 :: modes ++ [1]) (fun r j => needIn pb r j (md j)) := by
    intro a ha res hres
    have ha := mem_allTasks.2 ((w.successors.2.1 a).1 ha)
    refine ⟨_, _, _, modesOf_get w ha, hext a ha, theMode_get (hfst a ha).1, ?_⟩
    have := need_ok w ha (hfst a ha).1 hres
    rw [Dict.get] at this
    cases hq : (theMode pb a (md a)).needs.get? res with
    | none => rw [hq] at this; cases this
    | some v => rw [hq] at this; cases this; rfl
  refine ⟨md, st, hfst, ?_, ?_, ?_, ?_⟩
  · apply List.ext_getElem?
    intro i
    by_cases hi : i < modes.length
    · have := hext (i + 2) (mem_allTasks.2 ⟨by omega, by omega⟩)
      rw [show i + 2 - 1 = i + 1 by omega, List.getElem?_append_left (by simp; omega), List.getElem?_cons_succ] at this
      rw [this, List.getElem?_map, List.getElem?_range' (by omega)]
      simp [Nat.add_comm]
    · rw [List.getElem?_eq_none (by omega), List.getElem?_eq_none (by simp; omega)]
  · intro r t hr hnr ht
    have hr' := hr
    rw [← Dict.get?_isSome_iff_mem_keys] at hr'
    obtain ⟨cap, hcap⟩ := Option.isSome_iff_exists.1 hr'
    obtain ⟨c, hc⟩ := hg.2 r cap hcap t ht (fun h => absurd h hnr)
    have h := hp.renewable _ hnt r cap hcap hnr t ht c hc
    have hcv : capVal pb r t = c := by simp [capVal, hcap, hc]
    rw [hcv]
    have hl := load_eq (fun j hj => (hfst j hj).2) (need := fun j => needIn pb r j (md j)) (r := r) (fun _ _ => rfl) t
    unfold allTasks at hl ⊢
    rw [← hl]; exact h
  · intro r hr
    have hr' := w.resources.2 r hr
    rw [← Dict.get?_isSome_iff_mem_keys] at hr'
    obtain ⟨cap, hcap⟩ := Option.isSome_iff_exists.1 hr'
    obtain ⟨c, hc⟩ := hg.2 r cap hcap 0 hg.1 (fun _ => rfl)
    have hcv : capVal pb r 0 = c := by simp [capVal, hcap, hc]
    rw [hcv]
    exact hp.nonrenewable _ hnt r hr cap c hcap hc
  · intro i j hb
    obtain ⟨hi, hj⟩ := before_tasks w hb
    obtain ⟨ss, hm, hb⟩ := hb
    have := hp.precedence i ss hm j hb _ _ _ _ (hfst i hi).2 (hfst j hj).2
    omega

/-- C112: the program can be built for every project. -/
theorem C112_built {pb : Problem} (w : Project pb) {T : Nat} (hg : Given pb T) : ∃ P, multi pb T none = .ok P :=
  ⟨prog pb T [], by rw [multi_eq w hg]; rfl⟩

theorem multi_inv {pb : Problem} (w : Project pb) {T : Nat} (hg : Given pb T) {ps : Option Partial} {P : Program Var} (h : multi pb T ps = .ok P) :
    ∃ extra, partialRows (vdOf pb T) ps = .ok extra ∧ P = prog pb T extra := by
  rw [multi_eq w hg] at h
  cases hx : partialRows (vdOf pb T) ps with
  | error e => rw [hx] at h; cases h
  | ok extra => rw [hx] at h; cases h; exact ⟨extra, rfl, rfl⟩

/-- C112: every feasible assignment, also with the rows of a partial solution, is read as a plan with starts below `T`; the objective is
the start of the last task. -/
theorem C112_sound {pb : Problem} (w : Project pb) (hends : EndModes pb) {T : Nat} (hg : Given pb T) {ps : Option Partial} {P : Program Var}
    (hP : multi pb T ps = .ok P) {a : Var → Int} (ha : P.Feasible a) :
    ∃ sch modes, retrieve pb T a = .ok (sch, modes) ∧ Plan pb T modes sch ∧ (∀ j s e, sch.get? j = some (s, e) → s < T) ∧
      ∃ e, sch.get? pb.modes.length = some (P.objective.value a, e) := by
  have htwo := w.two
  obtain ⟨extra, -, rfl⟩ := multi_inv w hg hP
  obtain ⟨md, st, hpk⟩ := exists_picks w ha
  have hv := ((picks_iff w hpk extra).1 ha).1
  refine ⟨_, _, retrieve_eq w hpk, valid_plan w hends (fun j hj => (hpk j hj).1) hv, ?_, ?_⟩
  · intro j s e h
    have hj : j ∈ allTasks pb := by
      have : j ∈ (schedOf pb md st (allTasks pb)).keys := by rw [← Dict.get?_isSome_iff_mem_keys, h]; rfl
      simpa [schedOf, Dict.keys, Function.comp_def] using this
    rw [sched_get hj] at h
    cases h
    have := (hpk j hj).2.1
    omega
  · have hn : pb.modes.length ∈ allTasks pb := mem_allTasks.2 ⟨by omega, by omega⟩
    have : (prog pb T extra).objective.value a = st pb.modes.length := by
      show (timeTerms 1 (keysOf pb T pb.modes.length)).value a = _
      rw [hpk.time w hn]; omega
    rw [this]
    exact ⟨_, sched_get hn⟩

/-- C112: every plan with starts below `T` is read from a feasible assignment. -/
theorem C112_complete {pb : Problem} (w : Project pb) {T : Nat} (hg : Given pb T) {P : Program Var} (hP : multi pb T none = .ok P)
    {modes : List Nat} {sch : Dict Nat (Int × Int)} (hp : Plan pb T modes sch) (hs : ∀ j s e, sch.get? j = some (s, e) → s < T) :
    ∃ a sch', P.Feasible a ∧ retrieve pb T a = .ok (sch', modes) ∧ ∀ j, sch'.get? j = sch.get? j := by
  obtain ⟨extra, hx, rfl⟩ := multi_inv w hg hP
  cases hx
  obtain ⟨md, st, h1, h2, h3⟩ := plan_valid w hg hp
  have hpk : Picks pb T (assign pb md st) md st := by
    refine assign_picks ?_
    intro j hj
    refine ⟨(h1 j hj).1, ?_⟩
    have := hs j _ _ (h1 j hj).2
    omega
  refine ⟨assign pb md st, _, (picks_iff w hpk []).2 ⟨h3, by simp⟩, h2 ▸ retrieve_eq w hpk, ?_⟩
  intro j
  by_cases hj : j ∈ allTasks pb
  · rw [sched_get hj, (h1 j hj).2]
  · have hA : (schedOf pb md st (allTasks pb)).get? j = none := by
      cases hq : (schedOf pb md st (allTasks pb)).get? j with
      | none => rfl
      | some p =>
        have : j ∈ (schedOf pb md st (allTasks pb)).keys := by rw [← Dict.get?_isSome_iff_mem_keys, hq]; rfl
        exact absurd (by simpa [schedOf, Dict.keys, Function.comp_def] using this) hj
    have hB : sch.get? j = none := by
      cases hq : sch.get? j with
      | none => rfl
      | some p =>
        have : j ∈ sch.keys := by rw [← Dict.get?_isSome_iff_mem_keys, hq]; rfl
        exact absurd (mem_allTasks.2 ((hp.tasks.2 j).1 this)) hj
    rw [hA, hB]

theorem plan_start_le {pb : Problem} {T : Nat} {modes : List Nat} {sch : Dict Nat (Int × Int)} (w : Project pb) (hp : Plan pb T modes sch)
    {i j : Nat} (h : Relation.TransGen (Before pb) i j) {si ei sj ej : Int} (h1 : sch.get? i = some (si, ei)) (h2 : sch.get? j = some (sj, ej)) :
    si ≤ ei ∧ ei ≤ sj := by
  have hle : ∀ {a s e}, sch.get? a = some (s, e) → s ≤ e := by
    intro a s e h
    obtain ⟨d, k, m, -, -, -, -, h5⟩ := hp.times a s e h
    omega
  refine ⟨hle h1, ?_⟩
  induction h generalizing sj ej with
  | single hb =>
    obtain ⟨ss, hm, hb⟩ := hb
    exact hp.precedence _ ss hm _ hb _ _ _ _ h1 h2
  | @tail b c _ hb ih =>
    have hb' := mem_allTasks.1 (before_tasks w hb).1
    have := (hp.tasks.2 b).2 hb'
    rw [← Dict.get?_isSome_iff_mem_keys] at this
    obtain ⟨q, hq⟩ := Option.isSome_iff_exists.1 this
    have h3 := ih (sj := q.1) (ej := q.2) hq
    obtain ⟨ss, hm, hb⟩ := hb
    have h4 := hp.precedence _ ss hm _ hb _ _ _ _ hq h2
    have := hle (a := b) (s := q.1) (e := q.2) hq
    omega

/-- C112: with the times the solver takes after a feasible start solution, that solution itself (no start is after its makespan), and every plan that
is no longer, is read from a feasible assignment. -/
theorem C112_start_fits {pb : Problem} (w : Project pb) {T makespan : Nat} (hT : horizonLen pb true makespan = .ok T) (hg : Given pb T)
    {P : Program Var} (hP : multi pb T none = .ok P) {modes : List Nat} {sch : Dict Nat (Int × Int)} (hp : Plan pb T modes sch)
    (hs : ∀ j s e, sch.get? j = some (s, e) → s ≤ makespan) :
    ∃ a sch', P.Feasible a ∧ retrieve pb T a = .ok (sch', modes) ∧ ∀ j, sch'.get? j = sch.get? j := by
  refine C112_complete w hg hP hp fun j s e h => ?_
  have := hs j s e h
  unfold horizonLen at hT
  obtain ⟨p, _, hT⟩ := bind_eq_ok.1 hT
  simp only [if_true, Except.ok.injEq] at hT
  omega

/-- C112: when every task precedes the last one, which takes no time, and capacities are not negative, a best assignment is read as a plan
within the capacities at all times, and no plan starts the last task earlier. -/
theorem C112_optimal_partial {pb : Problem} (w : Project pb) (hends : EndModes pb) {T : Nat} (hg : Given pb T) {P : Program Var}
    (hP : multi pb T none = .ok P) (hlast : ∀ j, 1 ≤ j → j < pb.modes.length → Relation.TransGen (Before pb) j pb.modes.length)
    (hzero : ∀ d m, pb.modes.get? pb.modes.length = some d → d.get? 1 = some m → m.duration = 0)
    (hcap : ∀ res cap t c, pb.resources.get? res = some cap → capOf cap t = some c → 0 ≤ c) {a : Var → Int} (ha : P.Least a) :
    ∃ sch modes, retrieve pb T a = .ok (sch, modes) ∧ (∀ T', Plan pb T' modes sch) ∧
      ∀ modes' sch', (∀ T', Plan pb T' modes' sch') → ∀ s e s' e', sch.get? pb.modes.length = some (s, e) →
        sch'.get? pb.modes.length = some (s', e') → s ≤ s' := by
  have htwo := w.two
  obtain ⟨sch, modes, hret, hplan, hstart, e₀, hobj⟩ := C112_sound w hends hg hP ha.1
  have hin : ∀ {sch' : Dict Nat (Int × Int)} {T' modes'}, Plan pb T' modes' sch' → ∀ {j p}, sch'.get? j = some p → 1 ≤ j ∧ j ≤ pb.modes.length := by
    intro sch' T' modes' hp j p h
    refine (hp.tasks.2 j).1 ?_
    rw [← Dict.get?_isSome_iff_mem_keys, h]; rfl
  refine ⟨sch, modes, hret, ?_, ?_⟩
  · intro T'
    refine ⟨hplan.tasks, hplan.count, hplan.times, hplan.precedence, ?_, hplan.nonrenewable⟩
    intro need hnt res cap hcap' hnr t ht c hc
    by_cases htT : t < T
    · exact hplan.renewable need hnt res cap hcap' hnr t htT c hc
    · have hnone : load (need res) sch t (List.range' 1 pb.modes.length) = 0 := by
        unfold load
        have : (List.range' 1 pb.modes.length).filter (runsAt sch t) = [] := by
          rw [List.filter_eq_nil_iff]
          intro j _ hrun
          unfold runsAt at hrun
          cases hq : sch.get? j with
          | none => rw [hq] at hrun; cases hrun
          | some p =>
            rw [hq] at hrun
            simp only [decide_eq_true_eq] at hrun
            have hj := hin hplan hq
            have hT := hstart _ _ _ hobj
            by_cases hjn : j = pb.modes.length
            · subst hjn
              obtain ⟨d, k, m, h1, h2, h3, h4, h5⟩ := hplan.times _ p.1 p.2 hq
              have hk := hends _ d (.inr rfl) h1
              have hk1 : k = 1 := by
                have : k ∈ d.keys := by rw [← Dict.get?_isSome_iff_mem_keys, h3]; rfl
                rw [hk] at this; simpa using this
              subst hk1
              have := hzero d m h1 h3
              omega
            · have := (plan_start_le w hplan (hlast j hj.1 (by omega)) (si := p.1) (ei := p.2) hq hobj).2
              omega
        rw [this]; rfl
      rw [hnone]
      exact hcap res cap t c hcap' hc
  · intro modes' sch' hp' s e s' e' h1 h2
    rw [hobj] at h1
    cases h1
    by_cases hs' : s' < T
    · have hall : ∀ j s e, sch'.get? j = some (s, e) → s < T := by
        intro j s e h
        have hj := hin (hp' T) h
        by_cases hjn : j = pb.modes.length
        · subst hjn; rw [h2] at h; cases h; exact hs'
        · have := plan_start_le w (hp' T) (hlast j hj.1 (by omega)) h h2
          omega
      obtain ⟨b, sch'', hb, hrb, hget⟩ := C112_complete w hg hP (hp' T) hall
      obtain ⟨sch3, modes3, hr3, -, -, e3, ho3⟩ := C112_sound w hends hg hP hb
      rw [hrb] at hr3
      cases hr3
      rw [hget, h2] at ho3
      have := ha.2 b hb
      cases ho3
      exact this
    · have := hstart _ _ _ hobj
      omega

/-- C112: the start times, permutation and orders of a partial solution are kept. -/
theorem C112_kept {pb : Problem} (w : Project pb) {T : Nat} (hg : Given pb T) {ps : Partial} {P : Program Var}
    (hP : multi pb T (some ps) = .ok P) {a : Var → Int} (ha : P.Feasible a) {sch : Dict Nat (Int × Int)} {modes : List Nat}
    (hr : retrieve pb T a = .ok (sch, modes)) :
    (∀ d, ps.startTimes = some d → ∀ j s, (j, s) ∈ d → ∃ e, sch.get? j = some ((s : Int), e)) ∧
    (∀ l, (ps.permutation = some l ∨ ∃ ls, ps.orders = some ls ∧ l ∈ ls) → ∀ i x y, l[i]? = some x → l[i + 1]? = some y →
      ∃ sx ex sy ey, sch.get? x = some (sx, ex) ∧ sch.get? y = some (sy, ey) ∧ sx ≤ sy) := by
  obtain ⟨extra, hx, rfl⟩ := multi_inv w hg hP
  obtain ⟨md, st, hpk⟩ := exists_picks w ha
  have hext := ((picks_iff w hpk extra).1 ha).2
  rw [retrieve_eq w hpk] at hr
  cases hr
  have hvd : ∀ {j ks}, Dict.get (vdOf pb T) j = .ok ks → j ∈ allTasks pb ∧ ks = keysOf pb T j := by
    intro j ks h
    have hj : j ∈ allTasks pb := by
      rw [Dict.get_ok_iff] at h
      have : j ∈ Dict.keys (vdOf pb T) := by rw [← Dict.get?_isSome_iff_mem_keys, h]; rfl
      simpa [vdOf, Dict.keys, Function.comp_def] using this
    refine ⟨hj, ?_⟩
    have h' := vd_get (T := T) hj
    rw [vdOf, h'] at h
    exact (Except.ok.inj h).symm
  simp only [partialRows] at hx
  obtain ⟨r1, h1, hx⟩ := (bind_eq_ok ..).1 hx
  obtain ⟨r2, h2, hx⟩ := (bind_eq_ok ..).1 hx
  obtain ⟨r3, h3, hx⟩ := (bind_eq_ok ..).1 hx
  cases hx
  have hmem : ∀ {α : Type} {f : α → Except PyErr (Row Var)} {l : List α} {rs}, mapE f l = .ok rs → ∀ x, x ∈ l → ∃ r, f x = .ok r ∧ r ∈ rs := by
    intro α f l
    induction l with
    | nil => intro rs _ x hx; simp at hx
    | cons y l ih =>
      intro rs h x hx
      rw [mapE] at h
      obtain ⟨ry, hy, h⟩ := (bind_eq_ok ..).1 h
      obtain ⟨rl, hl, h⟩ := (bind_eq_ok ..).1 h
      cases h
      rcases List.mem_cons.1 hx with rfl | hx
      · exact ⟨ry, hy, by simp⟩
      · obtain ⟨r, hr, hm⟩ := ih hl x hx
        exact ⟨r, hr, by simp [hm]⟩
  have hbefore : ∀ x y r, beforeRow (vdOf pb T) (x, y) = .ok r → r ∈ r1 ++ r2 ++ r3 →
      ∃ sx ex sy ey, (schedOf pb md st (allTasks pb)).get? x = some (sx, ex) ∧ (schedOf pb md st (allTasks pb)).get? y = some (sy, ey) ∧ sx ≤ sy := by
    intro x y r hb hm
    rw [beforeRow] at hb
    obtain ⟨k1, hk1, hb⟩ := (bind_eq_ok ..).1 hb
    obtain ⟨k2, hk2, hb⟩ := (bind_eq_ok ..).1 hb
    cases hb
    obtain ⟨hxt, rfl⟩ := hvd hk1
    obtain ⟨hyt, rfl⟩ := hvd hk2
    have := hext _ hm
    simp only [Row.Holds] at this
    rw [value_append, hpk.time w hxt, hpk.time w hyt] at this
    simp only at this
    exact ⟨_, _, _, _, sched_get hxt, sched_get hyt, by omega⟩
  have hcons : ∀ (l : List Nat) i x y, l[i]? = some x → l[i + 1]? = some y → (x, y) ∈ consecutive l := by
    intro l i x y hx hy
    unfold consecutive
    refine List.mem_of_getElem? (i := i) ?_
    have hy' : l.tail[i]? = some y := by rw [List.getElem?_tail]; exact hy
    exact List.getElem?_zip_eq_some.2 ⟨hx, hy'⟩
  refine ⟨?_, ?_⟩
  · intro d hd j s hjs
    rw [hd] at h1
    obtain ⟨r, hr, hm⟩ := hmem h1 (j, s) hjs
    rw [fixRow] at hr
    obtain ⟨ks, hks, hr⟩ := (bind_eq_ok ..).1 hr
    cases hr
    obtain ⟨hj, rfl⟩ := hvd hks
    have := hext _ (by simp only [List.mem_append]; exact .inl (.inl hm))
    simp only [Row.Holds] at this
    rw [value_map] at this
    simp only [Int.one_mul] at this
    rw [KnapsackLp.sum_filter_int (w := fun k => a (.x k))] at this
    rw [hpk.sum w hj (fun k => if decide (k.2.2 = s) then 1 else 0)] at this
    have hs : st j = s := by
      by_cases h : st j = s
      · exact h
      · simp [h] at this
    rw [← hs]
    exact ⟨_, sched_get hj⟩
  · rintro l (hl | ⟨ls, hls, hl⟩) i x y hx hy
    · rw [hl] at h2
      obtain ⟨r, hr, hm⟩ := hmem h2 (x, y) (hcons l i x y hx hy)
      exact hbefore x y r hr (by simp [hm])
    · rw [hls] at h3
      obtain ⟨r, hr, hm⟩ := hmem h3 (x, y) (List.mem_flatMap.2 ⟨l, hl, hcons l i x y hx hy⟩)
      exact hbefore x y r hr (by simp [hm])

/-- C112: with a constant stock of every non-renewable resource, no negative requirement and a last task that takes no time, the plan that is read is accepted
by the check of the problem. -/
theorem C112_accepted {pb : Problem} (w : Project pb) (hends : EndModes pb) {T : Nat} (hg : Given pb T) {ps : Option Partial} {P : Program Var}
    (hP : multi pb T ps = .ok P) (hzero : ∀ d m, pb.modes.get? pb.modes.length = some d → d.get? 1 = some m → m.duration = 0)
    (hstock : ∀ res ∈ pb.nonRenewable, ∃ c, pb.resources.get? res = some (.const c))
    (hneeds : ∀ j d k m res n, pb.modes.get? j = some d → d.get? k = some m → m.needs.get? res = some n → 0 ≤ n)
    {a : Var → Int} (ha : P.Feasible a) :
    ∃ sch modes, retrieve pb T a = .ok (sch, modes) ∧ satisfy pb (some true) modes sch = .ok true := by
  have htwo := w.two
  obtain ⟨sch, modes, hret, hplan, hstart, e₀, hobj⟩ := C112_sound w hends hg hP ha
  refine ⟨sch, modes, hret, ?_⟩
  obtain ⟨md, st, h1, -, -⟩ := plan_valid w hg hplan
  have hkeysIff : ∀ j, j ∈ pb.successors.keys ↔ j ∈ allTasks pb := fun j => by rw [w.successors.2.1, mem_allTasks]
  have hperm : pb.successors.keys.Perm (allTasks pb) := (List.perm_ext_iff_of_nodup w.successors.1 (allTasks_nodup pb)).2 hkeysIff
  have htot : ∀ (need : Nat → Int) l l', List.Perm l l' → total need l = total need l' := by
    intro need l l' h
    exact perm_sum (h.map need)
  have hex : ∀ j, j ∈ allTasks pb → ∃ k m, (1 :: modes ++ [1])[j - 1]? = some k ∧ (modesOf pb j).get? k = some m := by
    intro j hj
    obtain ⟨d, k, m, h2, h3, h4, -, -⟩ := hplan.times j _ _ (h1 j hj).2
    have hd : modesOf pb j = d := by simp [modesOf, h2]
    exact ⟨k, m, h3, hd ▸ h4⟩
  let need : String → Nat → Int := fun r j => needIn pb r j (((1 :: modes ++ [1])[j - 1]?).getD 0)
  have hnt : NeedTable pb (1 :: modes ++ [1]) need := by
    intro j hj res hres
    have hj := (hkeysIff j).1 hj
    obtain ⟨k, m, h3, h4⟩ := hex j hj
    refine ⟨_, k, m, modesOf_get w hj, h3, h4, ?_⟩
    obtain ⟨n, hn⟩ := (w.modes j _ (modesOf_get w hj)).2.2 k m h4 res hres
    simp only [need, h3, Option.getD_some]
    rw [hn]; simp [needIn, theMode, h4, hn]
  have hneed0 : ∀ res j, j ∈ allTasks pb → 0 ≤ need res j := by
    intro res j hj
    obtain ⟨k, m, h3, h4⟩ := hex j hj
    simp only [need, h3, Option.getD_some, needIn, theMode, h4]
    cases hq : m.needs.get? res with
    | none => simp
    | some n => exact hneeds j _ k m res n (modesOf_get w hj) h4 hq
  rw [C28_accepts_iff_partial (need := need) (last := pb.modes.length) (some true) hobj (fun j hj => ((hplan.tasks.2 j).1 hj).2) w.resources.1 ?_ hnt]
  · have hend : e₀ = P.objective.value a := by
      obtain ⟨d, k, m, h2, h3, h4, -, h5⟩ := hplan.times _ _ _ hobj
      have hk := hends _ d (.inr rfl) h2
      have hk1 : k = 1 := by
        have : k ∈ d.keys := by rw [← Dict.get?_isSome_iff_mem_keys, h4]; rfl
        rw [hk] at this; simpa using this
      subst hk1
      have := hzero d m h2 h4
      omega
    have hT := hstart _ _ _ hobj
    refine ⟨by simp, ?_, ?_, ?_⟩
    · intro res cap hcap t ht
      simp only at ht
      have hload : load (need res) sch t pb.successors.keys = load (need res) sch t (allTasks pb) := htot _ _ _ (hperm.filter _)
      rw [hload]
      by_cases hnr : res ∈ pb.nonRenewable
      · obtain ⟨c, hc⟩ := hstock res hnr
        rw [hcap] at hc
        cases hc
        refine ⟨c, rfl, ?_⟩
        refine Int.le_trans ?_ (hplan.nonrenewable need hnt res hnr _ c hcap rfl)
        unfold load
        rw [total_filter]
        refine sum_le_sum_int ?_
        intro j hj
        split
        · omega
        · exact hneed0 res j hj
      · obtain ⟨c, hc⟩ := hg.2 res cap hcap t (by omega) (fun h => absurd h hnr)
        exact ⟨c, hc, hplan.renewable need hnt res cap hcap hnr t (by omega) c hc⟩
    · intro res hres
      obtain ⟨c, hc⟩ := hstock res hres
      refine ⟨_, c, hc, rfl, ?_⟩
      rw [htot _ _ _ hperm]
      exact hplan.nonrenewable need hnt res hres _ c hc rfl
    · intro i ss hm j hj
      have hi := (before_tasks w ⟨ss, hm, hj⟩).1
      have hj' := (before_tasks w ⟨ss, hm, hj⟩).2
      exact ⟨_, _, _, _, (h1 i hi).2, (h1 j hj').2, hplan.precedence i ss hm j hj _ _ _ _ (h1 i hi).2 (h1 j hj').2⟩
  · intro j hj
    have hj := (w.successors.2.1 j).1 hj
    refine ⟨(hplan.tasks.2 j).2 hj, ?_⟩
    have := hplan.count
    omega

/-- A task of two modes: mode 1 is quick but takes two tools, mode 2 is slow and takes one. -/
def tools : Problem :=
  { resources := [("crew", .const 1), ("tool", .const 1)], nonRenewable := ["tool"],
    modes := [(1, [(1, ⟨0, [("crew", 0), ("tool", 0)]⟩)]),
      (2, [(1, ⟨1, [("crew", 1), ("tool", 2)]⟩), (2, ⟨3, [("crew", 1), ("tool", 1)]⟩)]),
      (3, [(1, ⟨0, [("crew", 0), ("tool", 0)]⟩)])],
    successors := [(1, [2]), (2, [3]), (3, [])], horizon := 10, multiplier := 1 }

theorem tools_project (c : Int) : Project { tools with resources := [("crew", .const 1), ("tool", .const c)] } := by
  have hres : ∀ (x y : Int) (res : String), res ∈ Dict.keys [("crew", Capacity.const 1), ("tool", Capacity.const c)] →
      ∃ n, Dict.get? [("crew", x), ("tool", y)] res = some n := by
    intro x y res h
    simp only [Dict.keys, List.map_cons, List.map_nil, List.mem_cons, List.not_mem_nil, or_false] at h
    rcases h with rfl | rfl
    · exact ⟨x, by simp [Dict.get?]⟩
    · exact ⟨y, by simp [Dict.get?]⟩
  have hone : ∀ (m : Mode) (x y : Int), m.needs = [("crew", x), ("tool", y)] → ∀ k m', Dict.get? [(1, m)] k = some m' →
      ∀ res ∈ Dict.keys [("crew", Capacity.const 1), ("tool", Capacity.const c)], ∃ n, m'.needs.get? res = some n := by
    intro m x y hm k m' h
    simp only [Dict.get?] at h
    split at h
    · cases h; rw [hm]; exact hres x y
    · cases h
  refine ⟨by show 2 ≤ 3; decide, ⟨by show [1, 2, 3].Nodup; decide, ?_⟩, ?_, ⟨by show ["crew", "tool"].Nodup; decide, ?_⟩,
    by show [1, 2, 3].Nodup; decide, ?_, ?_⟩
  · intro a; simp [tools, Dict.keys]; omega
  · intro a d h
    simp only [tools, Dict.get?] at h
    split at h
    · cases h; exact ⟨by decide, by decide, hone _ 0 0 rfl⟩
    · split at h
      · cases h
        refine ⟨by decide, by decide, ?_⟩
        intro k m hk
        simp only [Dict.get?] at hk
        split at hk
        · cases hk; exact hres 1 2
        · split at hk
          · cases hk; exact hres 1 1
          · cases hk
      · split at h
        · cases h; exact ⟨by decide, by decide, hone _ 0 0 rfl⟩
        · cases h
  · intro res h
    simp only [tools, List.mem_singleton] at h
    subst h; simp [Dict.keys]
  · intro a; simp [tools, Dict.keys]; omega
  · intro a ss hm b hb
    show 1 ≤ b ∧ b ≤ 3
    simp only [tools, List.mem_cons, Prod.mk.injEq, List.not_mem_nil, or_false] at hm
    rcases hm with ⟨rfl, rfl⟩ | ⟨rfl, rfl⟩ | ⟨rfl, rfl⟩ <;> simp at hb <;> subst hb <;> decide

theorem tools_ends (c : Int) : EndModes { tools with resources := [("crew", .const 1), ("tool", .const c)] } := by
  rintro a d (rfl | rfl) h
  · simp only [tools, Dict.get?, if_true] at h; cases h; rfl
  · have : d = [(1, ⟨0, [("crew", 0), ("tool", 0)]⟩)] := by
      have h' : Dict.get? tools.modes 3 = some d := h
      simp [tools, Dict.get?] at h'
      exact h'.symm
    subst this; rfl

theorem tools_given (c : Int) {T : Nat} (hT : 0 < T) : Given { tools with resources := [("crew", .const 1), ("tool", .const c)] } T := by
  refine ⟨hT, ?_⟩
  intro res cap h t _ _
  simp only [Dict.get?] at h
  split at h
  · cases h; exact ⟨_, rfl⟩
  · split at h
    · cases h; exact ⟨_, rfl⟩
    · cases h

/-- A plan of the example project: the task in the given mode from time 0 on. -/
theorem tools_plan (c : Int) (k : Nat) (hk : (k = 1 ∧ 2 ≤ c) ∨ (k = 2 ∧ 1 ≤ c)) (T : Nat) :
    Plan { tools with resources := [("crew", .const 1), ("tool", .const c)] } T [k] (if k = 1 then [(1, (0, 0)), (2, (0, 1)), (3, (1, 1))] else [(1, (0, 0)), (2, (0, 3)), (3, (3, 3))]) := by
  have w := tools_project c
  let md : Nat → Nat := fun j => if j = 2 then k else 1
  let st : Nat → Nat := fun j => if j = 3 then (if k = 1 then 1 else 3) else 0
  have hv : Valid { tools with resources := [("crew", .const 1), ("tool", .const c)] } T md st := by
    refine ⟨?_, ?_, ?_⟩
    · intro r t hr hnr _
      have : r = "crew" := by
        simp [Dict.keys] at hr
        rcases hr with h | h
        · exact h
        · exact absurd (by simp [tools, h]) hnr
      subst this
      rcases hk with ⟨rfl, _⟩ | ⟨rfl, _⟩ <;>
        simp [allTasks, tools, List.range'_succ, needIn, theMode, modesOf, Dict.get?, md, st, capVal, capOf] <;> split <;> omega
    · intro r hr
      simp only [tools, List.mem_singleton] at hr
      subst hr
      rcases hk with ⟨rfl, _⟩ | ⟨rfl, _⟩ <;>
        simp [allTasks, tools, List.range'_succ, needIn, theMode, modesOf, Dict.get?, md, capVal, capOf] <;> omega
    · rintro i j ⟨ss, hm, hb⟩
      simp only [tools, List.mem_cons, Prod.mk.injEq, List.not_mem_nil, or_false] at hm
      rcases hm with ⟨rfl, rfl⟩ | ⟨rfl, rfl⟩ | ⟨rfl, rfl⟩ <;> simp at hb <;> subst hb <;>
        rcases hk with ⟨rfl, _⟩ | ⟨rfl, _⟩ <;> simp [theMode, modesOf, tools, Dict.get?, md, st]
  have hmd : ∀ j, j ∈ allTasks { tools with resources := [("crew", .const 1), ("tool", .const c)] } →
      md j ∈ (modesOf { tools with resources := [("crew", .const 1), ("tool", .const c)] } j).keys := by
    intro j hj
    have hj := mem_allTasks.1 hj
    have hj3 : j ≤ 3 := hj.2
    have : j = 1 ∨ j = 2 ∨ j = 3 := by omega
    rcases this with rfl | rfl | rfl <;> rcases hk with ⟨rfl, _⟩ | ⟨rfl, _⟩ <;> simp [md, modesOf, tools, Dict.get?, Dict.keys]
  have h := valid_plan w (tools_ends c) hmd hv
  rcases hk with ⟨rfl, _⟩ | ⟨rfl, _⟩ <;> exact h

/-- The hypotheses are met; the project has a plan, which is read from a feasible assignment. -/
example : ∃ P a sch, multi tools 4 none = .ok P ∧ P.Feasible a ∧ retrieve tools 4 a = .ok (sch, [2]) ∧ sch.get? 3 = some (3, 3) := by
  obtain ⟨P, hP⟩ := C112_built (tools_project 1) (tools_given 1 (T := 4) (by decide))
  obtain ⟨a, sch, h1, h2, h3⟩ := C112_complete (tools_project 1) (tools_given 1 (by decide)) hP (tools_plan 1 2 (.inr ⟨rfl, by omega⟩) 4) (by
    intro j s e h
    rw [if_neg (by decide)] at h
    simp only [Dict.get?] at h
    split at h
    · cases h; decide
    · split at h
      · cases h; decide
      · split at h
        · cases h; decide
        · cases h)
  exact ⟨P, a, sch, hP, h1, h2, h3 3⟩

example : horizonLen tools true 3 = .ok 4 := by decide

/-- C112: when the start solution is infeasible, the times end one before the sum of the longest durations, so the last task can not start there: the
program of a project that has a plan has no feasible assignment.  The default start (every task in mode 1) is infeasible here. -/
theorem C112_horizon_refuted :
    Project tools ∧ EndModes tools ∧ (∃ sch, ∀ T, Plan tools T [2] sch) ∧ (∃ r, sgs tools [0] [1] = .ok r ∧ r.feasible = false) ∧
    ∀ makespan, ∃ T P, horizonLen tools false makespan = .ok T ∧ multi tools T none = .ok P ∧ ¬ ∃ a, P.Feasible a := by
  refine ⟨tools_project 1, tools_ends 1, ⟨_, fun T => tools_plan 1 2 (.inr ⟨rfl, by omega⟩) T⟩, ⟨⟨[(1, (0, 0)), (3, (99999999, 9999999))], false, [1, 1, 1]⟩, by decide +kernel, rfl⟩, ?_⟩
  intro makespan
  have hg := tools_given 1 (T := 3) (by decide)
  obtain ⟨P, hP⟩ := C112_built (tools_project 1) hg
  refine ⟨3, P, rfl, hP, ?_⟩
  rintro ⟨a, ha⟩
  obtain ⟨sch, modes, hret, hplan, hstart, e, hobj⟩ := C112_sound (tools_project 1) (tools_ends 1) hg hP ha
  obtain ⟨md, st, h1, h2, h3⟩ := plan_valid (tools_project 1) hg hplan
  have hlt := hstart _ _ _ hobj
  have h3s := (h1 3 (by decide)).2
  have hobj' : sch.get? 3 = some (P.objective.value a, e) := hobj
  rw [hobj'] at h3s
  have hmd := (h1 2 (by decide)).1
  have hmd2 : md 2 = 1 ∨ md 2 = 2 := by simpa [modesOf, tools, Dict.get?, Dict.keys] using hmd
  have hnon := h3.nonrenewable "tool" (by decide)
  have hmd1 := (h1 1 (by decide)).1
  have hmd3 := (h1 3 (by decide)).1
  have e1 : md 1 = 1 := by simpa [modesOf, tools, Dict.get?, Dict.keys] using hmd1
  have e3 : md 3 = 1 := by simpa [modesOf, tools, Dict.get?, Dict.keys] using hmd3
  have hpre := h3.precedence 2 3 ⟨[3], by decide, by decide⟩
  rcases hmd2 with hm | hm
  · simp [allTasks, tools, List.range'_succ, e1, e3, hm, needIn, theMode, modesOf, Dict.get?, capVal, capOf] at hnon
  · rw [hm] at hpre
    have hd : (theMode { tools with resources := [("crew", .const 1), ("tool", .const 1)] } 2 2).duration = 3 := by decide
    rw [hd] at hpre
    simp only [Option.some.injEq, Prod.mk.injEq] at h3s
    omega

/-- C112: modes and end times of a partial solution are not read: mode 2 and the end 3 are demanded of a task, which a feasible assignment runs in mode 1 until 1. -/
theorem C112_modes_refuted :
    ∃ (pb : Problem) (T : Nat) (ps : Partial) (P : Program Var) (a : Var → Int) (sch : Dict Nat (Int × Int)),
      Project pb ∧ EndModes pb ∧ ps.taskMode = some [(2, 2)] ∧ ps.endTimes = some [(2, 3)] ∧ Plan pb T [2] [(1, (0, 0)), (2, (0, 3)), (3, (3, 3))] ∧
      multi pb T (some ps) = .ok P ∧ P.Feasible a ∧ retrieve pb T a = .ok (sch, [1]) ∧ sch.get? 2 = some (0, 1) := by
  have hg := tools_given 2 (T := 4) (by decide)
  obtain ⟨P, hP⟩ := C112_built (tools_project 2) hg
  obtain ⟨a, sch, h1, h2, h3⟩ := C112_complete (tools_project 2) hg hP (tools_plan 2 1 (.inl ⟨rfl, by omega⟩) 4) (by
    intro j s e h
    rw [if_pos rfl] at h
    simp only [Dict.get?] at h
    split at h
    · cases h; decide
    · split at h
      · cases h; decide
      · split at h
        · cases h; decide
        · cases h)
  refine ⟨_, 4, ⟨some [(2, 2)], none, some [(2, 3)], none, none⟩, P, a, sch, tools_project 2, tools_ends 2, rfl, rfl,
    tools_plan 2 2 (.inr ⟨rfl, by omega⟩) 4, ?_, h1, h2, h3 2⟩
  rw [multi_eq (tools_project 2) hg] at hP ⊢
  exact hP

end Verif.RcpspLp
