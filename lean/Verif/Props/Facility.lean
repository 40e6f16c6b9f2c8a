import Verif.Lemmas.Facility
/- Property C33: facility location. -/
namespace Verif.Facility
open Verif.Coloring (distinct distinct_nodup mem_distinct)

/-- Specification: total demand of the customers `0..customerCount-1` assigned to `f`. -/
def demandAt (p : Problem) (assign : List Int) (f : Int) : Int :=
  ((((assign.zip p.customers).take p.customerCount).filter (fun q => q.1 = f)).map Prod.snd).sum

/-- Specification: no facility that has customers is overloaded. -/
def Within (p : Problem) (assign : List Int) : Prop :=
  ∀ f fac, f ∈ assign.take p.customerCount → p.facilities[f.toNat]? = some fac →
    demandAt p assign f ≤ fac.capacity

/-- `f` is the facility whose first customer comes last: customer `i` is its first one, and each later
customer goes to a facility already used. -/
def LastOpened (p : Problem) (assign : List Int) (f : Int) : Prop :=
  ∃ i : Nat, (assign.take p.customerCount)[i]? = some f ∧ f ∉ (assign.take p.customerCount).take i ∧
    ∀ g, g ∈ assign.take p.customerCount → g ∈ (assign.take p.customerCount).take (i + 1)

theorem distinct_append_mem (l m : List Int) (h : ∀ x, x ∈ m → x ∈ l) : distinct (l ++ m) = distinct l := by
  induction m generalizing l with
  | nil => simp
  | cons x m ih =>
    have : distinct (l ++ [x]) = distinct l := by
      rw [distinct_snoc, if_pos (mem_distinct.2 (h x (by simp)))]
    rw [show l ++ x :: m = (l ++ [x]) ++ m by simp,
      ih (l ++ [x]) (fun y hy => by simp [h y (List.mem_cons_of_mem _ hy)]), this]

theorem distinct_last {l : List Int} {i : Nat} {f : Int} (h1 : l[i]? = some f) (h2 : f ∉ l.take i)
    (h3 : ∀ g, g ∈ l → g ∈ l.take (i + 1)) : (distinct l).getLast? = some f := by
  have hi : i < l.length := (List.getElem?_eq_some_iff.1 h1).1
  have hs : l.take (i + 1) = l.take i ++ [f] := by
    rw [List.take_succ_eq_append_getElem hi]
    rw [List.getElem?_eq_getElem hi] at h1
    rw [Option.some.inj h1]
  have : distinct l = distinct (l.take i) ++ [f] := by
    conv => lhs; rw [← List.take_append_drop (i + 1) l]
    rw [distinct_append_mem _ _ (fun x hx => h3 x (List.drop_subset _ _ hx)), hs, distinct_snoc, if_neg]
    rw [mem_distinct]; exact h2
  rw [this]; simp

/-- The facility opened last exists as soon as there is a customer. -/
theorem exists_lastOpened (l : List Int) (hl : l ≠ []) :
    ∃ (f : Int) (i : Nat), l[i]? = some f ∧ f ∉ l.take i ∧ ∀ g, g ∈ l → g ∈ l.take (i + 1) := by
  rw [← List.reverse_reverse l] at hl ⊢
  generalize l.reverse = r at hl ⊢
  induction r with
  | nil => exact absurd rfl hl
  | cons x r ih =>
    rw [List.reverse_cons]
    generalize r.reverse = l at ih
    by_cases hx : x ∈ l
    · obtain ⟨f, i, h1, h2, h3⟩ := ih (by rintro rfl; simp at hx)
      have hi : i < l.length := (List.getElem?_eq_some_iff.1 h1).1
      refine ⟨f, i, by rw [List.getElem?_append_left hi]; exact h1, ?_, ?_⟩
      · rw [List.take_append_of_le_length (by omega)]; exact h2
      · intro g hg
        rw [List.take_append_of_le_length (by omega)]
        rcases List.mem_append.1 hg with hg | hg
        · exact h3 g hg
        · simp only [List.mem_singleton] at hg; subst hg; exact h3 g hx
    · refine ⟨x, l.length, by simp, by simpa using hx, ?_⟩
      intro g hg
      rw [List.take_of_length_le (by simp)]
      exact hg

theorem evaluate_spec {p : Problem} {assign : List Int} (hw : WF p assign) :
    ∃ e, evaluate p assign = .ok e ∧
      Dict.keys e.details = distinct (assign.take p.customerCount) ∧
      (∀ f d, e.details.get? f = some d → d.used = demandAt p assign f) ∧
      e.setup = ((records p (distinct (assign.take p.customerCount))).map Fac.setup).sum ∧
      e.cost = costs p 0 (assign.take p.customerCount) ∧
      (assign.take p.customerCount = [] → e.violation = 0) ∧
      ∀ f, LastOpened p assign f → ∃ fac, p.facilities[f.toNat]? = some fac ∧
        e.violation = max (demandAt p assign f - fac.capacity) 0 := by
  obtain ⟨acc, h1, hi⟩ := evaluateCost_inv hw
  have hk : Dict.keys acc.details = distinct (assign.take p.customerCount) := by
    rw [hi.keys, pairs_fst hw]
  have hn : (Dict.keys acc.details).Nodup := by rw [hk]; exact distinct_nodup _
  have hr : InRange p (Dict.keys acc.details) := by
    intro f hf
    rw [hk, mem_distinct] at hf
    exact hw.range f hf
  obtain ⟨w, h2, h3, h4⟩ := violationLoop_spec p acc.details hr 0
  refine ⟨{ cost := acc.cost, setup := acc.setup, details := acc.details, violation := w },
    by simp [evaluate, h1, h2], hk, hi.used, ?_, ?_, ?_, ?_⟩
  · rw [← pairs_fst hw]; exact hi.setup
  · rw [← pairs_fst hw]; exact hi.cost
  · intro he
    apply h3
    rw [he] at hk
    exact List.map_eq_nil_iff.1 hk
  · rintro f ⟨i, g1, g2, g3⟩
    have hl := distinct_last g1 g2 g3
    rw [← hk, Dict.keys, List.getLast?_map, Option.map_eq_some_iff] at hl
    obtain ⟨⟨f', d⟩, hl, rfl⟩ := hl
    obtain ⟨fac, h5, h6⟩ := h4 f' d hl
    refine ⟨fac, h5, ?_⟩
    show w = _
    rw [h6, hi.used f' d (Dict.get?_of_mem hn (List.mem_of_getLast? hl))]
    rfl

/-- C33 (what the check really tests): an assignment is accepted exactly when the facility opened last
is not overloaded.  Missing from the claim: the other facilities, see `C33_accepts_overload`. -/
theorem C33_accepts_iff_partial {p : Problem} {assign : List Int} (hw : WF p assign) :
    satisfy p assign = .ok true ↔ ∀ f fac, LastOpened p assign f → p.facilities[f.toNat]? = some fac →
      demandAt p assign f ≤ fac.capacity := by
  obtain ⟨e, he, _, _, _, _, h0, hv⟩ := evaluate_spec hw
  simp only [satisfy, he, bind_ok, Except.ok.injEq, decide_eq_true_eq]
  constructor
  · intro h f fac hf hfac
    obtain ⟨fac', h1, h2⟩ := hv f hf
    rw [hfac] at h1; cases h1
    omega
  · intro h
    by_cases hl : assign.take p.customerCount = []
    · exact h0 hl
    · obtain ⟨f, i, g1, g2, g3⟩ := exists_lastOpened _ hl
      obtain ⟨fac, h1, h2⟩ := hv f ⟨i, g1, g2, g3⟩
      have := h f fac ⟨i, g1, g2, g3⟩ h1
      omega

/-- C33: an assignment that overloads no facility is accepted. -/
theorem C33_within_accepted {p : Problem} {assign : List Int} (hw : WF p assign) (h : Within p assign) :
    satisfy p assign = .ok true := by
  rw [C33_accepts_iff_partial hw]
  rintro f fac ⟨i, g1, _, _⟩ hfac
  exact h f fac (List.mem_of_getElem? g1) hfac

/-- C33: when all customers go to one facility, accepted means not overloaded. -/
theorem C33_single_facility_partial {p : Problem} {assign : List Int} (hw : WF p assign)
    (h1 : ∀ f g, f ∈ assign.take p.customerCount → g ∈ assign.take p.customerCount → f = g) :
    satisfy p assign = .ok true ↔ Within p assign := by
  refine ⟨fun h => ?_, C33_within_accepted hw⟩
  rw [C33_accepts_iff_partial hw] at h
  intro f fac hf hfac
  refine h f fac ⟨0, ?_, by simp, ?_⟩ hfac
  · rcases hl : assign.take p.customerCount with _ | ⟨a, l⟩
    · rw [hl] at hf; simp at hf
    · simp [h1 a f (by rw [hl]; simp) hf]
  · intro g hg
    rw [h1 g f hg hf]
    rcases hl : assign.take p.customerCount with _ | ⟨a, l⟩
    · rw [hl] at hf; simp at hf
    · simp [h1 a f (by rw [hl]; simp) hf]

/-- Two facilities, three customers. -/
def prob : Problem :=
  { customerCount := 3
    facilities := [{ setup := 5, capacity := 10 }, { setup := 7, capacity := 4 }]
    customers := [8, 6, 4]
    cost := fun f i => 2 * f + i }

/-- C33 fails: an assignment that puts demand 14 in a facility of capacity 10 is accepted. -/
theorem C33_accepts_overload :
    ∃ (p : Problem) (assign : List Int), WF p assign ∧ satisfy p assign = .ok true ∧ ¬ Within p assign := by
  refine ⟨prob, [0, 0, 1], ⟨by decide, by decide, ?_⟩, by decide +kernel, ?_⟩
  · unfold InRange; decide
  · intro h
    have := h 0 { setup := 5, capacity := 10 } (by decide) rfl
    revert this; decide +kernel

example : Within prob [0, 1, 1] → False := by
  intro h
  have := h 1 { setup := 7, capacity := 4 } (by decide) rfl
  revert this; decide +kernel
example : satisfy prob [0, 1, 1] = .ok false := by decide +kernel

/-- C33: the setup cost counts each used facility exactly once, the cost is the sum of the connection
costs, and the recorded load of each used facility is its demand. -/
theorem C33_costs {p : Problem} {assign : List Int} (hw : WF p assign) :
    ∃ (e : Eval) (opened : List Int), evaluate p assign = .ok e ∧ opened.Nodup ∧
      (∀ f, f ∈ opened ↔ f ∈ assign.take p.customerCount) ∧
      e.setup = ((opened.filterMap (fun f => p.facilities[f.toNat]?)).map Fac.setup).sum ∧
      (opened.filterMap (fun f => p.facilities[f.toNat]?)).length = opened.length ∧
      e.cost = costs p 0 (assign.take p.customerCount) ∧
      ∀ f, f ∈ opened → ∃ d, e.details.get? f = some d ∧ d.used = demandAt p assign f := by
  obtain ⟨e, he, hk, hu, hs, hc, _, _⟩ := evaluate_spec hw
  refine ⟨e, distinct (assign.take p.customerCount), he, distinct_nodup _, fun f => mem_distinct, hs, ?_, hc, ?_⟩
  · have : ∀ l : List Int, (∀ f, f ∈ l → f.toNat < p.facilities.length) →
        (l.filterMap (fun f => p.facilities[f.toNat]?)).length = l.length := by
      intro l
      induction l with
      | nil => simp
      | cons f l ih =>
        intro h
        have h1 := h f (by simp)
        simp [h1, ih (fun g hg => h g (List.mem_cons_of_mem _ hg))]
    exact this _ (fun f hf => (hw.range f (mem_distinct.1 hf)).2)
  · intro f hf
    rw [← hk] at hf
    obtain ⟨d, hd⟩ := Option.isSome_iff_exists.1 ((Dict.get?_isSome_iff_mem_keys _ _).2 hf)
    exact ⟨d, hd, hu f d hd⟩

example : (evaluate prob [1, 0, 1]).map (fun e => (e.cost, e.setup)) = .ok (7, 12) := by decide +kernel

theorem zip_fst_snd (l : List (Int × Int)) : (l.map Prod.fst).zip (l.map Prod.snd) = l := by
  induction l with
  | nil => rfl
  | cons q l ih => simp [ih]

/-- C33: when the greedy solver returns an assignment (there being as many customers as announced), every
customer has a facility, no facility is overloaded, and the assignment is accepted. -/
theorem C33_greedy {p : Problem} (hp : p.customers.length = p.customerCount) {assign : List Int}
    (h : greedy p = .ok assign) :
    assign.length = p.customerCount ∧ WF p assign ∧ Within p assign ∧ satisfy p assign = .ok true := by
  simp only [greedy, bind_eq_ok] at h
  obtain ⟨g, h1, h2⟩ := h
  cases h2
  obtain ⟨l, h3, hi⟩ := greedyLoop_inv p.customers [] _ g (GInv.init p) h1
  simp only [List.nil_append] at hi
  have hlen : l.length = p.customerCount := by rw [← hp, ← h3]; simp
  have hsol : g.solution = l.map Prod.fst := by
    rw [hi.sol]; simp [hlen]
  have htake : g.solution.take p.customerCount = l.map Prod.fst := by
    rw [hsol, List.take_of_length_le (by simp [hlen])]
  have hzip : (g.solution.zip p.customers).take p.customerCount = l := by
    rw [hsol, ← h3, zip_fst_snd]
    exact List.take_of_length_le (by omega)
  have hw : WF p g.solution := ⟨by rw [hsol]; simp [hlen], by omega, by rw [htake]; exact hi.range⟩
  have hin : Within p g.solution := by
    intro f fac hf hfac
    rw [htake] at hf
    have hr := hi.range f hf
    obtain ⟨k, rfl⟩ := Int.eq_ofNat_of_zero_le hr.1
    unfold demandAt
    rw [hzip]
    exact hi.fits k fac hf (by simpa using hfac)
  exact ⟨by rw [hsol]; simp [hlen], hw, hin, C33_within_accepted hw hin⟩

example : greedy { prob with customers := [7, 3, 4] } = .ok [0, 0, 1] := by decide +kernel

/-- The greedy solver can fail although a feasible assignment exists: it never goes back. -/
theorem C33_greedy_gives_up :
    ∃ (p : Problem) (assign : List Int), p.customers.length = p.customerCount ∧ WF p assign ∧ Within p assign ∧
      greedy p = .error .indexError := by
  refine ⟨{ prob with facilities := [{ setup := 5, capacity := 10 }, { setup := 7, capacity := 5 }], customers := [6, 5, 4] },
    [0, 1, 0], rfl, ⟨by decide, by decide, by unfold InRange; decide⟩, ?_, by decide +kernel⟩
  intro f fac hf hfac
  simp only [prob, List.take_succ_cons, List.take_zero, List.mem_cons, List.not_mem_nil, or_false] at hf
  rcases hf with rfl | rfl | rfl <;> (cases hfac; decide +kernel)

end Verif.Facility
