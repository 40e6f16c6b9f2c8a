import Verif.Lemmas.RcpspLpSingle
import Verif.Props.RcpspLp
/- Property C111: the linear program for projects with one mode. -/
namespace Verif.RcpspLp
open Verif.Milp Verif.Rcpsp
open Verif.FacilityLp (sum_map_congr)

theorem OneMode.ends {pb : Problem} (h : OneMode pb) : EndModes pb := fun a d _ hd => h a d hd

theorem Constant.given {pb : Problem} (h : Constant pb) (T : Nat) (hT : 0 < T) : Given pb T := by
  refine ⟨hT, ?_⟩
  intro res cap hcap t _ _
  obtain ⟨c, hc⟩ := h _ (Dict.mem_of_get? hcap)
  simp only at hc
  subst hc
  exact ⟨c, rfl⟩

theorem map_one (n : Nat) : (List.range' 2 n).map (fun _ => 1) = List.replicate n 1 := by
  apply List.ext_getElem?
  intro i
  by_cases hi : i < n
  · simp [hi]
  · rw [List.getElem?_eq_none (by simp; omega), List.getElem?_eq_none (by simp; omega)]

/-- With no negative requirement, what runs after the last possible start ran at that time. -/
theorem valid_later {pb : Problem} (w : Project pb) (hc : Constant pb) {H : Nat} {md st : Nat → Nat} (hst : ∀ j, j ∈ allTasks pb → st j < H + 1)
    (hmd : ∀ j, j ∈ allTasks pb → md j ∈ (modesOf pb j).keys)
    (hneeds : ∀ j d k m res n, pb.modes.get? j = some d → d.get? k = some m → m.needs.get? res = some n → 0 ≤ n)
    (hv : Valid pb (H + 1) md st) (T : Nat) : Valid pb T md st := by
  refine ⟨?_, hv.nonrenewable, hv.precedence⟩
  intro r t hr hnr _
  by_cases ht : t < H + 1
  · exact hv.renewable r t hr hnr ht
  · have h := hv.renewable r H hr hnr (by omega)
    have hcv : capVal pb r H = capVal pb r t := by
      have hr' := hr
      rw [← Dict.get?_isSome_iff_mem_keys] at hr'
      obtain ⟨cap, hcap⟩ := Option.isSome_iff_exists.1 hr'
      obtain ⟨c, hcc⟩ := hc _ (Dict.mem_of_get? hcap)
      simp only at hcc
      subst hcc
      simp [capVal, hcap, capOf]
    rw [hcv] at h
    refine Int.le_trans (sum_le_sum_int ?_) h
    intro j hj
    have hs := hst j hj
    have h0 : 0 ≤ needIn pb r j (md j) := by
      obtain ⟨n, hn⟩ := (w.modes j _ (modesOf_get w hj)).2.2 _ _ (theMode_get (hmd j hj)) r hr
      have := hneeds j _ _ _ r n (modesOf_get w hj) (theMode_get (hmd j hj)) hn
      simpa [needIn, hn] using this
    split <;> split <;> omega

/-- C111: the program can be built for every project with constant capacities and without partial solution. -/
theorem C111_built_partial {pb : Problem} (w : Project pb) (h1 : OneMode pb) (hc : Constant pb) (H : Nat) : ∃ P, singleWith pb H none = .ok P :=
  ⟨_, single_eq w h1 hc H⟩

/-- C111: with any partial solution building the program raises: the attribute `start_at_end` does not exist, unless a task or time out of
range raises first. -/
theorem C111_partial_refuted (pb : Problem) (H : Nat) (ps : Partial) : ∃ e, singleWith pb H (some ps) = .error e := by
  cases h : singleWith pb H (some ps) with
  | error e => exact ⟨e, rfl⟩
  | ok P =>
    exfalso
    simp only [singleWith] at h
    obtain ⟨_, _, h⟩ := (bind_eq_ok ..).1 h
    obtain ⟨_, _, h⟩ := (bind_eq_ok ..).1 h
    obtain ⟨_, _, h⟩ := (bind_eq_ok ..).1 h
    obtain ⟨_, _, h⟩ := (bind_eq_ok ..).1 h
    obtain ⟨_, _, h⟩ := (bind_eq_ok ..).1 h
    cases h

/-- C111: for a well-formed project and a partial solution that demands nothing it is `AttributeError`. -/
theorem C111_attribute {pb : Problem} (w : Project pb) (h1 : OneMode pb) (hc : Constant pb) (H : Nat) (tm et : Option (Dict Nat Nat)) :
    singleWith pb H (some ⟨tm, none, et, none, none⟩) = .error .attributeError := by
  simp only [singleWith, single_eq w h1 hc H, data_eq w h1, bind_ok, Option.getD_none]
  rfl

/-- C111: when all resources are renewable and no requirement is negative, every feasible assignment is read as a plan within the capacities at all times,
with starts up to the makespan `H` of the start solution; the objective is the start of the last task. -/
theorem C111_sound_partial {pb : Problem} (w : Project pb) (h1 : OneMode pb) (hc : Constant pb) (hnr : pb.nonRenewable = [])
    (hneeds : ∀ j d k m res n, pb.modes.get? j = some d → d.get? k = some m → m.needs.get? res = some n → 0 ≤ n)
    {H : Nat} {P : Program (Nat × Nat)} (hP : singleWith pb H none = .ok P) {a : Nat × Nat → Int} (ha : P.Feasible a) :
    ∃ sch, readSingle pb pb.modes.length H a = .ok sch ∧ (∀ T, Plan pb T (List.replicate (pb.modes.length - 2) 1) sch) ∧
      (∀ j s e, sch.get? j = some (s, e) → s ≤ H) ∧ ∃ e, sch.get? pb.modes.length = some (P.objective.value a, e) := by
  have htwo := w.two
  have hP' := single_eq w h1 hc H
  rw [singleWith, hP'] at hP
  cases hP
  obtain ⟨st, hpk⟩ := exists_picksS ha
  have hmd : ∀ j, j ∈ allTasks pb → 1 ∈ (modesOf pb j).keys := fun j hj => one_mem w h1 hj
  have hv := (picksS_iff w hc hnr hpk).1 ha
  refine ⟨_, readSingle_eq w h1 hpk, ?_, ?_, ?_⟩
  · intro T
    have := valid_plan w h1.ends hmd (valid_later w hc (fun j hj => (hpk j hj).1) hmd hneeds hv T)
    rw [map_one] at this
    exact this
  · intro j s e h
    have hj : j ∈ allTasks pb := by
      have : j ∈ (schedOf pb (fun _ => 1) st (allTasks pb)).keys := by rw [← Dict.get?_isSome_iff_mem_keys, h]; rfl
      simpa [schedOf, Dict.keys, Function.comp_def] using this
    rw [sched_get hj] at h
    cases h
    have := (hpk j hj).1
    omega
  · have hn : pb.modes.length ∈ allTasks pb := mem_allTasks.2 ⟨by omega, by omega⟩
    have : (sprog pb H).objective.value a = st pb.modes.length := by
      show (startTerms 1 H (pb.modes.length - 1)).value a = _
      rw [hpk.time hn]; omega
    rw [this]
    exact ⟨_, sched_get hn⟩

/-- C111: every plan with starts up to `H` is read from a feasible assignment. -/
theorem C111_complete_partial {pb : Problem} (w : Project pb) (h1 : OneMode pb) (hc : Constant pb) (hnr : pb.nonRenewable = [])
    {H : Nat} {P : Program (Nat × Nat)} (hP : singleWith pb H none = .ok P) {modes : List Nat} {sch : Dict Nat (Int × Int)} (hp : Plan pb (H + 1) modes sch)
    (hs : ∀ j s e, sch.get? j = some (s, e) → s ≤ H) :
    ∃ a sch', P.Feasible a ∧ readSingle pb pb.modes.length H a = .ok sch' ∧ ∀ j, sch'.get? j = sch.get? j := by
  have hP' := single_eq w h1 hc H
  rw [singleWith, hP'] at hP
  cases hP
  obtain ⟨md, st, h2, h3, h4⟩ := plan_valid w (hc.given (H + 1) (by omega)) hp
  have hmd : ∀ j, j ∈ allTasks pb → md j = 1 := by
    intro j hj
    have := (h2 j hj).1
    rw [h1 j _ (modesOf_get w hj)] at this
    simpa using this
  have hv : Valid pb (H + 1) (fun _ => 1) st := by
    refine ⟨?_, ?_, ?_⟩
    · intro r t hr hnr' ht
      refine Int.le_trans (Int.le_of_eq ?_) (h4.renewable r t hr hnr' ht)
      exact sum_map_congr (fun j hj => by rw [hmd j hj])
    · intro r hr; rw [hnr] at hr; simp at hr
    · intro i j hb
      have := h4.precedence i j hb
      rw [hmd i (before_tasks w hb).1] at this
      exact this
  have hpk : PicksS pb H (assignS st) st := by
    refine assignS_picks ?_
    intro j hj
    have := hs j _ _ (h2 j hj).2
    omega
  refine ⟨_, _, (picksS_iff w hc hnr hpk).2 hv, readSingle_eq w h1 hpk, ?_⟩
  intro j
  by_cases hj : j ∈ allTasks pb
  · rw [sched_get hj, (h2 j hj).2, hmd j hj]
  · have hA : (schedOf pb (fun _ => 1) st (allTasks pb)).get? j = none := by
      cases hq : (schedOf pb (fun _ => 1) st (allTasks pb)).get? j with
      | none => rfl
      | some p =>
        have : j ∈ (schedOf pb (fun _ => 1) st (allTasks pb)).keys := by rw [← Dict.get?_isSome_iff_mem_keys, hq]; rfl
        exact absurd (by simpa [schedOf, Dict.keys, Function.comp_def] using this) hj
    have hB : sch.get? j = none := by
      cases hq : sch.get? j with
      | none => rfl
      | some p =>
        have : j ∈ sch.keys := by rw [← Dict.get?_isSome_iff_mem_keys, hq]; rfl
        exact absurd (mem_allTasks.2 ((hp.tasks.2 j).1 this)) hj
    rw [hA, hB]

/-- C111: when also every task precedes the last one, no plan starts the last task earlier than the plan of a best assignment. -/
theorem C111_optimal_partial {pb : Problem} (w : Project pb) (h1 : OneMode pb) (hc : Constant pb) (hnr : pb.nonRenewable = [])
    (hneeds : ∀ j d k m res n, pb.modes.get? j = some d → d.get? k = some m → m.needs.get? res = some n → 0 ≤ n)
    (hlast : ∀ j, 1 ≤ j → j < pb.modes.length → Relation.TransGen (Before pb) j pb.modes.length)
    {H : Nat} {P : Program (Nat × Nat)} (hP : singleWith pb H none = .ok P) {a : Nat × Nat → Int} (ha : P.Least a) :
    ∃ sch, readSingle pb pb.modes.length H a = .ok sch ∧ (∀ T, Plan pb T (List.replicate (pb.modes.length - 2) 1) sch) ∧
      ∀ modes' sch', (∀ T, Plan pb T modes' sch') → ∀ s e s' e', sch.get? pb.modes.length = some (s, e) →
        sch'.get? pb.modes.length = some (s', e') → s ≤ s' := by
  have htwo := w.two
  obtain ⟨sch, hr, hplan, hstart, e₀, hobj⟩ := C111_sound_partial w h1 hc hnr hneeds hP ha.1
  refine ⟨sch, hr, hplan, ?_⟩
  intro modes' sch' hp' s e s' e' h2 h3
  rw [hobj] at h2
  cases h2
  by_cases hs' : s' ≤ H
  · have hall : ∀ j s e, sch'.get? j = some (s, e) → s ≤ H := by
      intro j s e h
      have hj : 1 ≤ j ∧ j ≤ pb.modes.length := by
        refine ((hp' 0).tasks.2 j).1 ?_
        rw [← Dict.get?_isSome_iff_mem_keys, h]; rfl
      by_cases hjn : j = pb.modes.length
      · subst hjn; rw [h3] at h; cases h; exact hs'
      · have := plan_start_le w (hp' 0) (hlast j hj.1 (by omega)) h h3
        omega
    obtain ⟨b, sch'', hb, hrb, hget⟩ := C111_complete_partial w h1 hc hnr hP (hp' (H + 1)) hall
    obtain ⟨sch3, hr3, -, -, e3, ho3⟩ := C111_sound_partial w h1 hc hnr hneeds hP hb
    rw [hrb] at hr3
    cases hr3
    rw [hget, h3] at ho3
    have := ha.2 b hb
    cases ho3
    exact this
  · have := hstart _ _ _ hobj
    omega

/-- Two tasks in sequence, each of which uses up one of the tools, of which there is one. -/
def stock (nr : List String) : Problem :=
  { resources := [("tool", .const 1)], nonRenewable := nr,
    modes := [(1, [(1, ⟨0, [("tool", 0)]⟩)]), (2, [(1, ⟨2, [("tool", 1)]⟩)]), (3, [(1, ⟨2, [("tool", 1)]⟩)]), (4, [(1, ⟨0, [("tool", 0)]⟩)])],
    successors := [(1, [2, 3]), (2, [4]), (3, [4]), (4, [])], horizon := 10, multiplier := 1 }

theorem stock_project (nr : List String) (hnr : ∀ r, r ∈ nr → r = "tool") : Project (stock nr) := by
  have hone : ∀ (m : Mode) (x : Int), m.needs = [("tool", x)] → ∀ k m', Dict.get? [(1, m)] k = some m' →
      ∀ res ∈ Dict.keys [("tool", Capacity.const 1)], ∃ n, m'.needs.get? res = some n := by
    intro m x hm k m' h res hres
    simp only [Dict.keys, List.map_cons, List.map_nil, List.mem_singleton] at hres
    subst hres
    simp only [Dict.get?] at h
    split at h
    · cases h; exact ⟨x, by rw [hm]; simp [Dict.get?]⟩
    · cases h
  refine ⟨by show 2 ≤ 4; decide, ⟨by show [1, 2, 3, 4].Nodup; decide, ?_⟩, ?_, ⟨by show ["tool"].Nodup; decide, ?_⟩,
    by show [1, 2, 3, 4].Nodup; decide, ?_, ?_⟩
  · intro a; simp [stock, Dict.keys]; omega
  · intro a d h
    simp only [stock, Dict.get?] at h
    split at h
    · cases h; exact ⟨by decide, by decide, hone _ 0 rfl⟩
    · split at h
      · cases h; exact ⟨by decide, by decide, hone _ 1 rfl⟩
      · split at h
        · cases h; exact ⟨by decide, by decide, hone _ 1 rfl⟩
        · split at h
          · cases h; exact ⟨by decide, by decide, hone _ 0 rfl⟩
          · cases h
  · intro res h
    rw [hnr res h]; simp [stock, Dict.keys]
  · intro a; simp [stock, Dict.keys]; omega
  · intro a ss hm b hb
    show 1 ≤ b ∧ b ≤ 4
    simp only [stock, List.mem_cons, Prod.mk.injEq, List.not_mem_nil, or_false] at hm
    rcases hm with ⟨rfl, rfl⟩ | ⟨rfl, rfl⟩ | ⟨rfl, rfl⟩ | ⟨rfl, rfl⟩ <;> simp at hb <;> omega

theorem stock_one (nr : List String) : OneMode (stock nr) := by
  intro a d h
  simp only [stock, Dict.get?] at h
  split at h
  · cases h; rfl
  · split at h
    · cases h; rfl
    · split at h
      · cases h; rfl
      · split at h
        · cases h; rfl
        · cases h

theorem stock_constant (nr : List String) : Constant (stock nr) := by
  intro q hq
  simp only [stock, List.mem_singleton] at hq
  subst hq
  exact ⟨1, rfl⟩

/-- The starts 0, 0, 2, 4. -/
def starts : Nat → Nat := fun j => if j = 3 then 2 else if j = 4 then 4 else 0

theorem stock_valid (T : Nat) : Valid (stock []) T (fun _ => 1) starts := by
  refine ⟨?_, ?_, ?_⟩
  · intro r t hr _ _
    have : r = "tool" := by simpa [stock, Dict.keys] using hr
    subst this
    simp [allTasks, stock, List.range'_succ, needIn, theMode, modesOf, Dict.get?, starts, capVal, capOf]
    split <;> split <;> omega
  · intro r hr; simp [stock] at hr
  · rintro i j ⟨ss, hm, hb⟩
    simp only [stock, List.mem_cons, Prod.mk.injEq, List.not_mem_nil, or_false] at hm
    rcases hm with ⟨rfl, rfl⟩ | ⟨rfl, rfl⟩ | ⟨rfl, rfl⟩ | ⟨rfl, rfl⟩ <;> simp at hb
    · rcases hb with rfl | rfl <;> simp [theMode, modesOf, stock, Dict.get?, starts]
    · subst hb; simp [theMode, modesOf, stock, Dict.get?, starts]
    · subst hb; simp [theMode, modesOf, stock, Dict.get?, starts]

theorem stock_picks (nr : List String) : PicksS (stock nr) 4 (assignS starts) starts := by
  refine assignS_picks ?_
  intro j _
  simp only [starts]
  split <;> [omega; split <;> omega]

/-- The hypotheses are met: the project with a renewable tool has a plan that is read from a feasible assignment. -/
example : ∃ P a, singleWith (stock []) 4 none = .ok P ∧ P.Feasible a ∧
    readSingle (stock []) 4 4 a = .ok [(1, (0, 0)), (2, (0, 2)), (3, (2, 4)), (4, (4, 4))] := by
  have w := stock_project [] (by simp)
  refine ⟨_, assignS starts, single_eq w (stock_one []) (stock_constant []) 4, ?_, readSingle_eq w (stock_one []) (stock_picks [])⟩
  exact (picksS_iff w (stock_constant []) rfl (stock_picks [])).2 (stock_valid _)

/-- C111: non-renewable resources are treated as renewable: a feasible assignment is read as a schedule that uses two tools up where there is one, which the check of
the problem rejects. -/
theorem C111_nonrenewable_refuted :
    Project (stock ["tool"]) ∧ OneMode (stock ["tool"]) ∧ Constant (stock ["tool"]) ∧ ∃ P a sch, singleWith (stock ["tool"]) 4 none = .ok P ∧ P.Feasible a ∧
      readSingle (stock ["tool"]) 4 4 a = .ok sch ∧ satisfy (stock ["tool"]) (some true) [1, 1] sch = .ok false ∧
      ∀ T, ¬ Plan (stock ["tool"]) T [1, 1] sch := by
  have w := stock_project ["tool"] (by simp)
  refine ⟨w, stock_one _, stock_constant _, sprog (stock []) 4, assignS starts, _, single_eq w (stock_one _) (stock_constant _) 4, ?_,
    readSingle_eq w (stock_one _) (stock_picks _), by decide +kernel, ?_⟩
  · exact (picksS_iff (stock_project [] (by simp)) (stock_constant []) rfl (stock_picks [])).2 (stock_valid _)
  · intro T hp
    obtain ⟨md, st, h1, h2, h3⟩ := plan_valid w ((stock_constant _).given (T + 1) (by omega)) (T := T + 1) (by
      refine ⟨hp.tasks, hp.count, hp.times, hp.precedence, ?_, hp.nonrenewable⟩
      intro need _ res cap hcap hnr
      exfalso
      have : res ∈ (stock ["tool"]).resources.keys := by rw [← Dict.get?_isSome_iff_mem_keys, hcap]; rfl
      apply hnr
      simpa [stock, Dict.keys] using this)
    have hn := h3.nonrenewable "tool" (by simp [stock])
    have hmd : ∀ j, j ∈ allTasks (stock ["tool"]) → md j = 1 := by
      intro j hj
      have := (h1 j hj).1
      rw [stock_one _ j _ (modesOf_get w hj)] at this
      simpa using this
    have h2 : (List.map (fun j => needIn (stock ["tool"]) "tool" j (md j)) (allTasks (stock ["tool"]))).sum =
        (List.map (fun j => needIn (stock ["tool"]) "tool" j 1) (allTasks (stock ["tool"]))).sum :=
      sum_map_congr (fun j hj => by rw [hmd j hj])
    rw [h2] at hn
    revert hn
    decide

end Verif.RcpspLp
