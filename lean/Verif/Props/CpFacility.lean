import Verif.Lemmas.CpFacility
/- Property C184: the constraint program of the facility solver and its large neighbourhood search. -/
namespace Verif.CpFacility
open Facility FacilityLp

/-- C184: whatever the solver answers, every customer has a facility and no facility is overloaded; the problem accepts the
assignment; the objective is the cost of the assignment, less the setup costs of the facilities whose customers demand nothing
in total. -/
theorem C184_sound {p : Problem} (hp : p.customers.length = p.customerCount) {v : Vars} (h : Solves p v) :
    Assigned p (decode v) ∧ satisfy p (decode v) = .ok true ∧ ∃ e, evaluate p (decode v) = .ok e ∧
      v.objective = e.cost + e.setup - ((List.range p.facilities.length).map (fun (f : Nat) =>
        if (f : Int) ∈ decode v ∧ demandAt p (decode v) f ≤ 0 then setupOf p f else 0)).sum := by
  have hcol : ∀ c, c < p.customerCount → col v c < p.facilities.length := fun c hc => (facility_get h hc).2.1
  have hw : Within p (decode v) := by
    intro f fac hf hfac
    have hm := List.mem_of_mem_take hf
    rw [decode_eq h] at hm
    obtain ⟨c, hc, rfl⟩ := List.mem_map.1 hm
    have hc' := hcol c (List.mem_range.1 hc)
    rw [← load_eq hp h hc']
    have := h.cap _ hc'
    simp only [Int.toNat_natCast] at hfac
    rw [capOf, hfac] at this
    exact this
  refine ⟨⟨by rw [decode, List.length_map, h.len], ?_, hw⟩, ?_, value_spec hp h⟩
  · intro f hf
    rw [decode_eq h] at hf
    obtain ⟨c, hc, rfl⟩ := List.mem_map.1 hf
    have := hcol c (List.mem_range.1 hc)
    omega
  · have hwf := wf_of_col hp hcol
    rw [← decode_eq h] at hwf
    exact C33_within_accepted hwf hw

/-- C184: with positive demands the objective is the cost of the assignment. -/
theorem C184_objective_partial {p : Problem} (hp : p.customers.length = p.customerCount) (hd : ∀ d ∈ p.customers, 0 < d) {v : Vars} (h : Solves p v) :
    ∃ e, evaluate p (decode v) = .ok e ∧ v.objective = e.cost + e.setup := by
  obtain ⟨e, he, ho⟩ := value_spec hp h
  refine ⟨e, he, ?_⟩
  rw [ho, sum_zero_int, Int.sub_zero]
  intro x hx
  obtain ⟨f, -, rfl⟩ := List.mem_map.1 hx
  refine if_neg ?_
  rintro ⟨hm, hle⟩
  rw [decode_eq h] at hm
  obtain ⟨c, hc, he⟩ := List.mem_map.1 hm
  have : f = col v c := by omega
  subst this
  have := demandAt_pos hp hd (col v) (List.mem_range.1 hc)
  rw [decode_eq h] at hle
  omega

/-- C184: no assignment that overloads nothing is lost. -/
theorem C184_complete {p : Problem} (hp : p.customers.length = p.customerCount) (hcap : ∀ fac, fac ∈ p.facilities → 0 ≤ fac.capacity)
    {assign : List Int} (h : Assigned p assign) : ∃ v, Solves p v ∧ decode v = assign :=
  exists_solution hp hcap h

/-- C184 (partial: positive demands): a best answer is a cheapest assignment among those that overload nothing. -/
theorem C184_optimal_partial {p : Problem} (hp : p.customers.length = p.customerCount) (hd : ∀ d ∈ p.customers, 0 < d)
    (hcap : ∀ fac, fac ∈ p.facilities → 0 ≤ fac.capacity) {v : Vars} (h : Least p v) :
    ∃ e, evaluate p (decode v) = .ok e ∧ e.cost + e.setup = v.objective ∧
      ∀ assign, Assigned p assign → ∃ e', evaluate p assign = .ok e' ∧ e.cost + e.setup ≤ e'.cost + e'.setup := by
  obtain ⟨e, he, ho⟩ := C184_objective_partial hp hd h.1
  refine ⟨e, he, ho.symm, ?_⟩
  intro assign ha
  obtain ⟨v', hv', rfl⟩ := exists_solution hp hcap ha
  obtain ⟨e', he', ho'⟩ := C184_objective_partial hp hd hv'
  have := h.2 v' hv'
  exact ⟨e', he', by omega⟩

/-- One customer that demands nothing; the facility next to it costs `n` to open, the other nothing. -/
def free (n : Int) : Problem := ⟨1, [⟨n, 1⟩, ⟨0, 1⟩], [0], fun f _ => f⟩

theorem free_objective {n : Int} {v : Vars} (h : Solves (free n) v) : v.objective = col v 0 := by
  have h0 := facility_get h (c := 0) (show 0 < 1 by decide)
  have hld : ∀ f, f < 2 → v.opened f = false := by
    intro f hf
    have h1 := h.load f hf
    have h2 := h.opened f hf
    have hz : v.load f = 0 := by
      rw [← h1]
      show ((List.range 1).map _).sum = 0
      simp [List.range_succ, demandOf, free]
    rw [hz] at h2
    simpa using h2
  have := h.objective
  have hr : List.range (free n).facilities.length = [0, 1] := rfl
  have hr1 : List.range (free n).customerCount = [0] := rfl
  rw [hr, hr1] at this
  simp only [List.map_cons, List.map_nil, List.sum_cons, List.sum_nil, hld 0 (by omega), hld 1 (by omega)] at this
  rw [h0.2.2] at this
  simpa [free] using this

/-- C184: customers that demand nothing open facilities for nothing in the program, however much these cost: the best answer
costs `n`, another assignment 1. -/
theorem C184_free_refuted (n : Int) (hn : 1 < n) : ∃ v, Least (free n) v ∧
    ∀ v, Least (free n) v → ∃ e e', evaluate (free n) (decode v) = .ok e ∧ e.cost + e.setup = n ∧
      Assigned (free n) [1] ∧ evaluate (free n) [1] = .ok e' ∧ e'.cost + e'.setup = 1 := by
  have hw : ∀ f : Int, f = 0 ∨ f = 1 → Assigned (free n) [f] := by
    intro f hf
    refine ⟨rfl, ?_, ?_⟩
    · intro g hg
      rw [List.mem_singleton] at hg
      simp only [free, List.length_cons, List.length_nil]
      omega
    · intro g fac hg hfac
      simp only [free, List.take_succ_cons, List.take_zero, List.mem_singleton] at hg
      subst hg
      have hdm : demandAt (free n) [g] g = 0 := by simp [demandAt, free]
      rw [hdm]
      rcases hf with rfl | rfl <;>
        (simp only [free] at hfac; cases hfac; show (0 : Int) ≤ 1; decide)
  have hcap : ∀ fac, fac ∈ (free n).facilities → 0 ≤ fac.capacity := by
    intro fac hf
    simp only [free, List.mem_cons, List.not_mem_nil, or_false] at hf
    rcases hf with rfl | rfl <;> (show (0 : Int) ≤ 1; decide)
  obtain ⟨v0, hs0, hd0⟩ := C184_complete (p := free n) rfl hcap (hw 0 (Or.inl rfl))
  have hc0 : ∀ v, Solves (free n) v → decode v = [(col v 0 : Int)] := by
    intro v hv
    rw [decode_eq hv]; rfl
  have hv0 : v0.objective = 0 := by
    rw [free_objective hs0]
    have := hc0 v0 hs0
    rw [hd0] at this
    simpa using this.symm
  refine ⟨v0, ⟨hs0, fun v' hv' => by rw [hv0, free_objective hv']; omega⟩, ?_⟩
  intro v hv
  have h1 := hv.2 v0 hs0
  rw [hv0, free_objective hv.1] at h1
  have h2 := hc0 v hv.1
  have h3 : (col v 0 : Int) = 0 := by omega
  rw [h3] at h2
  rw [h2]
  refine ⟨⟨0, n, [(0, ⟨0, 0, n⟩)], 0⟩, ⟨1, 0, [(1, ⟨0, 1, 0⟩)], 0⟩, ?_, by simp, hw 1 (Or.inr rfl), ?_, by decide⟩
  · simp [evaluate, evaluateCost, costLoop, stepCost, openFac, pyGet, pyGetI, free, Dict.contains, Dict.get?, Dict.get, Dict.set, violationLoop, bind, Except.bind]
    decide
  · simp [evaluate, evaluateCost, costLoop, stepCost, openFac, pyGet, pyGetI, free, Dict.contains, Dict.get?, Dict.get, Dict.set, violationLoop, bind, Except.bind]
    decide

/-- The demand put on a facility, in the real numbers of the problem. -/
def rawDemand (r : Raw) (assign : List Int) (f : Int) : Rat :=
  (((assign.zip r.customers).filter (fun q => q.1 = f)).map Prod.snd).sum

/-- Two customers that demand three halves each, and one facility for two. -/
def halves : Raw := ⟨[(0, 2)], [3/2, 3/2], fun _ _ => 0⟩

/-- C184: numbers are cut off: the program accepts, as only answer, an assignment that overloads a facility. -/
theorem C184_truncation_refuted : (∃ v, Solves (data halves) v) ∧
    ∀ v, Solves (data halves) v → decode v = [0, 0] ∧ (2 : Rat) < rawDemand halves (decode v) 0 := by
  have hd : data halves = ⟨2, [⟨0, 2⟩], [1, 1], fun _ _ => 0⟩ := by
    simp only [data, halves, List.map_cons, List.map_nil, List.length_cons, List.length_nil]
    have h1 : trunc 0 = 0 := by decide +kernel
    have h2 : trunc 2 = 2 := by decide +kernel
    have h3 : trunc (3/2) = 1 := by decide +kernel
    rw [h1, h2, h3]
  refine ⟨?_, ?_⟩
  · obtain ⟨v, hv, -⟩ := C184_complete (p := data halves) (by rw [hd]; rfl) (by rw [hd]; simp) (assign := [0, 0]) (by
      rw [hd]
      refine ⟨rfl, by simp, ?_⟩
      intro f fac hf hfac
      simp at hf
      subst hf
      cases hfac
      decide)
    exact ⟨v, hv⟩
  · intro v hv
    have h : decode v = [0, 0] := by
      have h1 := decode_eq hv
      have a0 := (facility_get hv (c := 0) (by rw [hd]; decide)).2.1
      have a1 := (facility_get hv (c := 1) (by rw [hd]; decide)).2.1
      rw [hd] at h1 a0 a1
      simp only [List.length_cons, List.length_nil] at a0 a1
      rw [h1]
      have : List.range 2 = [0, 1] := rfl
      simp only [this, List.map_cons, List.map_nil]
      have b0 : col v 0 = 0 := by omega
      have b1 : col v 1 = 0 := by omega
      rw [b0, b1]; rfl
    rw [h]
    exact ⟨rfl, by decide +kernel⟩

/-! ### The large neighbourhood search -/

/-- The answers of a run: each is a solution of the program restricted by fixed customers of the assignment held then. -/
inductive Answers (p : Problem) : State → List (Option Vars) → Prop where
  | nil (st) : Answers p st []
  | failed (st rest) : Answers p st rest → Answers p st (none :: rest)
  | solved (st rest fixed v) : Child p st.current fixed v → Answers p (lnsStep st (some v)) rest → Answers p st (some v :: rest)

theorem fitness_assigned {p : Problem} (hp : p.customers.length = p.customerCount) (hd : ∀ d ∈ p.customers, 0 < d) {v : Vars} (h : Solves p v) :
    fitness p (decode v) = .ok (- v.objective) := by
  obtain ⟨e, he, ho⟩ := C184_objective_partial hp hd h
  have hs := (C184_sound hp h).2.1
  simp only [satisfy, he, bind_ok, Except.ok.injEq, decide_eq_true_eq] at hs
  simp only [fitness, he, bind_ok, hs]
  congr 1
  omega

/-- C184 (partial: positive demands): the search returns the first assignment or one that overloads nothing, with its own
fitness, at least that of the first and that of every answer. -/
theorem C184_lns_partial {p : Problem} (hp : p.customers.length = p.customerCount) (hd : ∀ d ∈ p.customers, 0 < d) {first : List Int} {o : Int}
    (h0 : fitness p first = .ok o) {answers : List (Option Vars)} (ha : Answers p ⟨first, o⟩ answers) :
    ∃ out, lns p first answers = .ok out ∧ fitness p out.current = .ok out.objective ∧ (out.current = first ∨ Assigned p out.current) ∧
      o ≤ out.objective ∧ ∀ v, some v ∈ answers → - v.objective ≤ out.objective := by
  have key : ∀ st answers, Answers p st answers → fitness p st.current = .ok st.objective → (st.current = first ∨ Assigned p st.current) →
      fitness p (answers.foldl lnsStep st).current = .ok (answers.foldl lnsStep st).objective ∧
      ((answers.foldl lnsStep st).current = first ∨ Assigned p (answers.foldl lnsStep st).current) ∧
      st.objective ≤ (answers.foldl lnsStep st).objective ∧ ∀ v, some v ∈ answers → - v.objective ≤ (answers.foldl lnsStep st).objective := by
    intro st answers ha
    induction ha with
    | nil st => intro h1 h2; exact ⟨h1, h2, by simp, by simp⟩
    | failed st rest _ ih =>
      intro h1 h2
      obtain ⟨a, b, c, d⟩ := ih h1 h2
      exact ⟨a, b, c, fun v hv => d v (by simpa using hv)⟩
    | solved st rest fixed v hc _ ih =>
      intro h1 h2
      have hs : fitness p (lnsStep st (some v)).current = .ok (lnsStep st (some v)).objective ∧
          ((lnsStep st (some v)).current = first ∨ Assigned p (lnsStep st (some v)).current) ∧
          st.objective ≤ (lnsStep st (some v)).objective ∧ - v.objective ≤ (lnsStep st (some v)).objective := by
        simp only [lnsStep]
        split
        · exact ⟨fitness_assigned hp hd hc.1, Or.inr (C184_sound hp hc.1).1, by show st.objective ≤ -v.objective; omega, Int.le_refl _⟩
        · exact ⟨h1, h2, Int.le_refl _, by omega⟩
      obtain ⟨a, b, c, d⟩ := ih hs.1 hs.2.1
      rw [List.foldl_cons]
      refine ⟨a, b, by omega, ?_⟩
      intro w hw
      rcases List.mem_cons.1 hw with hw | hw
      · obtain rfl := Option.some.inj hw
        omega
      · exact d w hw
  obtain ⟨a, b, c, d⟩ := key ⟨first, o⟩ answers ha h0 (Or.inl rfl)
  exact ⟨_, by simp only [lns, h0, bind_ok], a, b, c, d⟩

/-- An iteration can always repeat the assignment held, if this overloads nothing: no choice of fixed customers makes the
program infeasible. -/
theorem C184_neighbourhood {p : Problem} (hp : p.customers.length = p.customerCount) (hcap : ∀ fac, fac ∈ p.facilities → 0 ≤ fac.capacity)
    {current : List Int} (h : Assigned p current) (fixed : List Nat) : ∃ v, Child p current fixed v ∧ decode v = current := by
  obtain ⟨v, hv, hd⟩ := C184_complete hp hcap h
  exact ⟨v, ⟨hv, fun i _ => by rw [hd]⟩, hd⟩

/-- Two customers, one facility too small for both, a second one that costs more than the penalty. -/
def costly : Problem := ⟨2, [⟨0, 1⟩, ⟨20000, 1⟩], [1, 1], fun _ _ => 0⟩

theorem costly_big : ∀ a : Nat, a < 2 → ∀ b : Nat, b < 2 → ¬ (a = 0 ∧ b = 0) →
    ((evaluate costly [(a : Int), (b : Int)]).map (fun e => decide (20000 ≤ e.cost + e.setup))).toOption = some true := by
  decide +kernel

/-- C184: an overloaded first assignment can be kept for good, every answer refused. -/
theorem C184_overload_refuted : ¬ Within costly [0, 0] ∧ Assigned costly [0, 1] ∧
    ∀ answers, (∀ v, some v ∈ answers → Solves costly v) → lns costly [0, 0] answers = .ok ⟨[0, 0], -10000⟩ := by
  refine ⟨?_, ⟨rfl, by decide, ?_⟩, ?_⟩
  · intro h
    have := h 0 ⟨0, 1⟩ (by decide) rfl
    exact absurd this (by decide)
  · intro f fac hf hfac
    simp only [costly, List.take_succ_cons, List.take_zero, List.mem_cons, List.not_mem_nil, or_false] at hf
    rcases hf with rfl | rfl <;> (cases hfac; decide)
  · intro answers ha
    have h0 : fitness costly [0, 0] = .ok (-10000) := by decide +kernel
    simp only [lns, h0, bind_ok, Except.ok.injEq]
    induction answers with
    | nil => rfl
    | cons x l ih =>
      rw [List.foldl_cons]
      have hx : lnsStep ⟨[0, 0], -10000⟩ x = ⟨[0, 0], -10000⟩ := by
        cases x with
        | none => rfl
        | some v =>
          have hv := ha v (by simp)
          obtain ⟨e, he, ho⟩ := C184_objective_partial (p := costly) rfl (by decide) hv
          have hA := (C184_sound (p := costly) rfl hv).1
          have hdec := decode_eq hv
          have a0 := (facility_get hv (c := 0) (by decide)).2.1
          have a1 := (facility_get hv (c := 1) (by decide)).2.1
          have a0' : col v 0 < 2 := a0
          have a1' : col v 1 < 2 := a1
          have hr : List.range costly.customerCount = [0, 1] := rfl
          rw [hr] at hdec
          simp only [List.map_cons, List.map_nil] at hdec
          have hbig : 20000 ≤ e.cost + e.setup := by
            rw [hdec] at he hA
            have hne : ¬ (col v 0 = 0 ∧ col v 1 = 0) := by
              rintro ⟨c0, c1⟩
              rw [c0, c1] at hA
              have := hA.2.2 0 ⟨0, 1⟩ (by decide) rfl
              exact absurd this (by decide)
            have hb := costly_big (col v 0) a0' (col v 1) a1' hne
            rw [he] at hb
            exact of_decide_eq_true (Option.some.inj hb)
          simp only [lnsStep]
          rw [if_neg (by omega)]
      rw [hx]
      exact ih (fun v hv => ha v (List.mem_cons_of_mem _ hv))

/-! ### Examples -/

/-- Two facilities for three customers; the first two can share one. -/
def shop : Problem := ⟨3, [⟨5, 10⟩, ⟨3, 7⟩], [4, 6, 5], fun f c => if f = 0 then 1 else (c : Int)⟩

theorem shop_assigned : Assigned shop [0, 0, 1] := by
  refine ⟨rfl, by decide, ?_⟩
  intro f fac hf hfac
  simp only [shop, List.take_succ_cons, List.take_zero, List.mem_cons, List.not_mem_nil, or_false] at hf
  rcases hf with rfl | rfl | rfl <;> (cases hfac; decide)

/-- A better solution of the program. -/
def shopVars : Vars := ⟨[1, 2, 1], fun f => if f = 0 then 9 else 6, fun _ => true, 11⟩

theorem shop_solves : Solves shop shopVars where
  len := rfl
  dom := by decide
  load := by decide
  cap := by decide
  opened := by decide
  objective := by decide

example : Assigned shop (decode shopVars) ∧ ∃ e, evaluate shop (decode shopVars) = .ok e ∧ shopVars.objective = e.cost + e.setup :=
  ⟨(C184_sound rfl shop_solves).1, C184_objective_partial rfl (by decide) shop_solves⟩

example : ∃ v, Child shop [0, 0, 1] [0, 2] v ∧ decode v = [0, 0, 1] := C184_neighbourhood rfl (by decide) shop_assigned _

/-- A run: a failed iteration, then an answer that keeps the first customer and is better. -/
example : ∃ out, lns shop [0, 0, 1] [none, some shopVars] = .ok out ∧ out.objective = -11 ∧ fitness shop out.current = .ok out.objective ∧ -12 ≤ out.objective := by
  obtain ⟨out, h1, h2, -, h4, -⟩ := C184_lns_partial (p := shop) rfl (by decide) (first := [0, 0, 1]) (o := -12) (by decide +kernel)
    (.failed _ _ (.solved _ _ [0] _ ⟨shop_solves, by decide⟩ (.nil _)))
  have h : lns shop [0, 0, 1] [none, some shopVars] = .ok ⟨[0, 1, 0], -11⟩ := by decide +kernel
  rw [h] at h1
  obtain rfl := Except.ok.inj h1
  exact ⟨_, h, rfl, h2, h4⟩

end Verif.CpFacility
