import Verif.Lemmas.FacilityLp
/- Property C109: the linear program of the facility solver. -/
namespace Verif.FacilityLp
open Verif.Milp Verif.Facility

/-- Specification: every customer has a facility of the list, and no facility is overloaded. -/
def Assigned (p : Problem) (assign : List Int) : Prop :=
  assign.length = p.customerCount ∧ (∀ f, f ∈ assign → 0 ≤ f ∧ f < p.facilities.length) ∧ Within p assign

/-- Specification: the pairs of the assignment are not pruned. -/
def Unpruned (keep : Nat → Nat → Bool) (assign : List Int) : Prop :=
  ∀ (c : Nat) (f : Int), assign[c]? = some f → keep f.toNat c = true

theorem col_of_assign {p : Problem} {assign : List Int} (h : Assigned p assign) :
    ∃ col : Nat → Nat, (∀ c, c < p.customerCount → col c < p.facilities.length) ∧
      assign = (List.range p.customerCount).map (fun c => (col c : Int)) := by
  refine ⟨fun c => (assign.getD c 0).toNat, ?_, ?_⟩
  · intro c hc
    have hc' : c < assign.length := by rw [h.1]; exact hc
    have := h.2.1 assign[c] (List.getElem_mem hc')
    simp only [List.getD_eq_getElem?_getD, List.getElem?_eq_getElem hc', Option.getD_some]
    omega
  · apply List.ext_getElem?
    intro c
    by_cases hc : c < p.customerCount
    · have hc' : c < assign.length := by rw [h.1]; exact hc
      have := h.2.1 assign[c] (List.getElem_mem hc')
      simp only [List.getElem?_map, List.getElem?_range hc, Option.map_some, List.getElem?_eq_getElem hc',
        List.getD_eq_getElem?_getD, Option.getD_some]
      congr 1; omega
    · rw [List.getElem?_eq_none (by rw [h.1]; omega), List.getElem?_eq_none (by simp; omega)]

/-- C109: every feasible assignment of the program gives each customer one facility that is not pruned,
overloads no facility, and costs at most the objective. -/
theorem C109_sound {p : Problem} (hp : p.customers.length = p.customerCount) (hs : ∀ fac, fac ∈ p.facilities → 0 ≤ fac.setup)
    (keep : Nat → Nat → Bool) {a : Var → Int} (ha : (initModel p keep).Feasible a) :
    ∃ assign e, retrieve p keep a = .ok assign ∧ Assigned p assign ∧ Unpruned keep assign ∧
      satisfy p assign = .ok true ∧ evaluate p assign = .ok e ∧
      e.cost + e.setup ≤ (initModel p keep).objective.value a := by
  rw [feasible_iff] at ha
  have hex : ∀ c, ∃ f, c < p.customerCount → f < p.facilities.length ∧ valueOf keep a f c = 1 ∧
      (∀ g, g < p.facilities.length → g ≠ f → valueOf keep a g c = 0) ∧
      ∀ w : Nat → Int, ((List.range p.facilities.length).map (fun g => w g * valueOf keep a g c)).sum = w f := by
    intro c
    by_cases hc : c < p.customerCount
    · obtain ⟨f, hf, h1, h2, h3⟩ := sum_one_unique List.nodup_range
        (fun f hf => ha.bin f c (List.mem_range.1 hf) (by omega)) (ha.one c (by omega))
      exact ⟨f, fun _ => ⟨List.mem_range.1 hf, h1, fun g hg => h2 g (List.mem_range.2 hg), h3⟩⟩
    · exact ⟨0, fun h => absurd h hc⟩
  choose col hcol using hex
  have hval : ∀ f c, f < p.facilities.length → c < p.customers.length →
      valueOf keep a f c = if f = col c then 1 else 0 := by
    intro f c hf hc
    obtain ⟨-, h1, h2, -⟩ := hcol c (by omega)
    split
    · rename_i h; rw [h]; exact h1
    · rename_i h; exact h2 f hf h
  have hret := retrieve_spec (a := a) (keep := keep) (col := col) hp (by
    intro c hc
    obtain ⟨h1, h2, h3, -⟩ := hcol c hc
    refine ⟨h1, h2, fun f hf h => ?_⟩
    by_contra hne
    have := h3 f hf hne
    omega)
  have hwf := wf_of_col hp (fun c hc => (hcol c hc).1)
  have hwithin : Within p ((List.range p.customerCount).map (fun c => (col c : Int))) := by
    intro f fac hf hfac
    obtain ⟨c, hc, rfl⟩ := List.mem_map.1 (List.mem_of_mem_take hf)
    have hlt := (hcol c (List.mem_range.1 hc)).1
    rw [demandAt_eq hp]
    have hcap := ha.cap (col c) hlt
    have hc2 : capOf p (col c) = fac.capacity := by
      have : p.facilities[col c]? = some fac := by simpa using hfac
      simp [capOf, this]
    rw [hc2] at hcap
    refine Int.le_trans (Int.le_of_eq ?_) hcap
    refine sum_map_congr ?_
    intro d hd
    rw [hval _ _ hlt (List.mem_range.1 hd)]
  obtain ⟨e, opened, he, hon, hom, hos, -, hoc, -⟩ := C33_costs hwf
  have htake : ((List.range p.customerCount).map (fun c => (col c : Int))).take p.customerCount =
      (List.range p.customerCount).map (fun c => (col c : Int)) := List.take_of_length_le (by simp)
  rw [htake] at hom hoc
  refine ⟨_, e, hret, ⟨by simp, ?_, hwithin⟩, ?_, C33_within_accepted hwf hwithin, he, ?_⟩
  · intro f hf
    obtain ⟨c, hc, rfl⟩ := List.mem_map.1 hf
    have := (hcol c (List.mem_range.1 hc)).1
    omega
  · intro c f hcf
    have hc : c < p.customerCount := by
      have := (List.getElem?_eq_some_iff.1 hcf).1
      simpa using this
    have hf : (col c : Int) = f := by simpa [hc] using hcf
    subst hf
    have h1 := (hcol c hc).2.1
    by_contra hk
    have : keep (col c) c = false := by simpa using hk
    simp [valueOf, this] at h1
  · rw [objective_value, hos, hoc, costs_eq]
    have h1 : ((List.range p.customers.length).map (fun (c : Nat) => ((List.range p.facilities.length).map
        (fun (f : Nat) => p.cost f c * valueOf keep a f c)).sum)).sum =
        ((List.range p.customerCount).map (fun c => p.cost (col c) c)).sum := by
      rw [hp]
      refine sum_map_congr ?_
      intro c hc
      exact (hcol c (List.mem_range.1 hc)).2.2.2 (fun f => p.cost f c)
    have hir : ∀ f, f ∈ opened → 0 ≤ f ∧ f.toNat < p.facilities.length := by
      intro f hf
      obtain ⟨c, hc, rfl⟩ := List.mem_map.1 ((hom f).1 hf)
      have := (hcol c (List.mem_range.1 hc)).1
      exact ⟨by omega, by simpa using this⟩
    have h2 := setup_eq hon hir
    have h3 : ((List.range p.facilities.length).map (fun (f : Nat) => setupOf p f * (if (f : Int) ∈ opened then 1 else 0))).sum ≤
        ((List.range p.facilities.length).map (fun f => setupOf p f * a (.used f))).sum := by
      refine sum_le_sum_int ?_
      intro f hf
      have hf := List.mem_range.1 hf
      have hset : 0 ≤ setupOf p f := by
        simp only [setupOf, List.getElem?_eq_getElem hf, Option.map_some, Option.getD_some]
        exact hs _ (List.getElem_mem hf)
      refine Int.mul_le_mul_of_nonneg_left ?_ hset
      split
      · rename_i hmem
        obtain ⟨c, hc, heq⟩ := List.mem_map.1 ((hom _).1 hmem)
        have hfc : col c = f := by omega
        have := ha.used f c hf (by have := List.mem_range.1 hc; omega)
        rw [hval f c hf (by have := List.mem_range.1 hc; omega), if_pos hfc.symm] at this
        exact this
      · rcases ha.bin' f hf with h | h <;> omega
    omega

/-- C109: every assignment that overloads no facility and uses no pruned pair is read from a feasible
assignment whose objective is its total cost. -/
theorem C109_complete {p : Problem} (hp : p.customers.length = p.customerCount) {keep : Nat → Nat → Bool}
    (hcap : ∀ fac, fac ∈ p.facilities → 0 ≤ fac.capacity) {assign : List Int} (h : Assigned p assign)
    (hk : Unpruned keep assign) :
    ∃ a e, (initModel p keep).Feasible a ∧ retrieve p keep a = .ok assign ∧ evaluate p assign = .ok e ∧
      (initModel p keep).objective.value a = e.cost + e.setup := by
  obtain ⟨col, hcol, rfl⟩ := col_of_assign h
  have hwf := wf_of_col hp hcol
  obtain ⟨e, opened, he, hon, hom, hos, -, hoc, -⟩ := C33_costs hwf
  have htake : ((List.range p.customerCount).map (fun c => (col c : Int))).take p.customerCount =
      (List.range p.customerCount).map (fun c => (col c : Int)) := List.take_of_length_le (by simp)
  rw [htake] at hom hoc
  let a : Var → Int := fun | .x f c => if f = col c then 1 else 0 | .used f => if (f : Int) ∈ opened then 1 else 0
  have hkeep : ∀ c, c < p.customerCount → keep (col c) c = true := by
    intro c hc
    have := hk c (col c : Int) (by simp [hc])
    simpa using this
  have hval : ∀ f c, f < p.facilities.length → c < p.customers.length →
      valueOf keep a f c = if f = col c then 1 else 0 := by
    intro f c _ hc
    by_cases hf : f = col c
    · subst hf
      simp [valueOf, hkeep c (by omega), a]
    · simp [valueOf, a, hf]
  have hsat : Sat p keep a := by
    refine ⟨?_, ?_, ?_, ?_, ?_⟩
    · intro f c hf hc
      rw [hval f c hf hc]; split <;> simp
    · intro f _
      simp only [a]; split <;> simp
    · intro c hc
      have h1 := sum_indicator (l := List.range p.facilities.length) List.nodup_range
        (List.mem_range.2 (hcol c (by omega))) (fun _ => 1)
      rw [← h1]
      refine sum_map_congr ?_
      intro f hf
      rw [hval f c (List.mem_range.1 hf) hc]; simp
    · intro f c hf hc
      rw [hval f c hf hc]
      split
      · rename_i heq
        have : (f : Int) ∈ opened := (hom _).2 (List.mem_map.2 ⟨c, List.mem_range.2 (by omega), by omega⟩)
        simp [a, this]
      · simp only [a]; split <;> simp
    · intro f hf
      have h1 : ((List.range p.customers.length).map (fun c => demandOf p c * valueOf keep a f c)).sum =
          demandAt p ((List.range p.customerCount).map (fun c => (col c : Int))) f := by
        rw [demandAt_eq hp]
        refine sum_map_congr ?_
        intro c hc
        rw [hval f c hf (List.mem_range.1 hc)]
      rw [h1]
      have hfac : p.facilities[f]? = some p.facilities[f] := List.getElem?_eq_getElem hf
      have hc2 : capOf p f = p.facilities[f].capacity := by simp [capOf, hfac]
      rw [hc2]
      by_cases hu : ∃ c, c < p.customerCount ∧ col c = f
      · obtain ⟨c, hc, rfl⟩ := hu
        refine h.2.2 _ _ ?_ (by simp)
        rw [htake]
        exact List.mem_map.2 ⟨c, List.mem_range.2 hc, rfl⟩
      · rw [demandAt_eq hp, sum_zero_int]
        · exact hcap _ (List.getElem_mem hf)
        · intro v hv
          obtain ⟨c, hc, rfl⟩ := List.mem_map.1 hv
          have : ¬ f = col c := fun heq => hu ⟨c, by have := List.mem_range.1 hc; omega, heq.symm⟩
          simp [this]
  refine ⟨a, e, feasible_iff.2 hsat, ?_, he, ?_⟩
  · refine retrieve_spec hp ?_
    intro c hc
    refine ⟨hcol c hc, by rw [hval _ _ (hcol c hc) (by omega)]; simp, ?_⟩
    intro f hf h1
    rw [hval f c hf (by omega)] at h1
    by_contra hne
    rw [if_neg hne] at h1
    omega
  · rw [objective_value, hos, hoc, costs_eq]
    have h1 : ((List.range p.customers.length).map (fun (c : Nat) => ((List.range p.facilities.length).map
        (fun (f : Nat) => p.cost f c * valueOf keep a f c)).sum)).sum =
        ((List.range p.customerCount).map (fun c => p.cost (col c) c)).sum := by
      rw [hp]
      refine sum_map_congr ?_
      intro c hc
      have hc := List.mem_range.1 hc
      rw [← sum_indicator (l := List.range p.facilities.length) List.nodup_range
        (List.mem_range.2 (hcol c hc)) (fun f => p.cost f c)]
      refine sum_map_congr ?_
      intro f hf
      rw [hval f c (List.mem_range.1 hf) (by omega)]
    have hir : ∀ f, f ∈ opened → 0 ≤ f ∧ f.toNat < p.facilities.length := by
      intro f hf
      obtain ⟨c, hc, rfl⟩ := List.mem_map.1 ((hom f).1 hf)
      have := hcol c (List.mem_range.1 hc)
      exact ⟨by omega, by simpa using this⟩
    have h2 := setup_eq hon hir
    rw [h1, h2]
    have : ((List.range p.facilities.length).map (fun f => setupOf p f * a (.used f))).sum =
        ((List.range p.facilities.length).map (fun (f : Nat) => setupOf p f * (if (f : Int) ∈ opened then 1 else 0))).sum := rfl
    omega

/-- C109: a best assignment of the program costs the objective, and no assignment without pruned pairs that
overloads no facility is cheaper. -/
theorem C109_optimal_partial {p : Problem} (hp : p.customers.length = p.customerCount)
    (hs : ∀ fac, fac ∈ p.facilities → 0 ≤ fac.setup) (hcap : ∀ fac, fac ∈ p.facilities → 0 ≤ fac.capacity)
    (keep : Nat → Nat → Bool) {a : Var → Int} (ha : (initModel p keep).Least a) :
    ∃ assign e, retrieve p keep a = .ok assign ∧ Assigned p assign ∧ evaluate p assign = .ok e ∧
      e.cost + e.setup = (initModel p keep).objective.value a ∧
      ∀ other e', Assigned p other → Unpruned keep other → evaluate p other = .ok e' →
        e.cost + e.setup ≤ e'.cost + e'.setup := by
  obtain ⟨assign, e, h1, h2, h3, -, h4, h5⟩ := C109_sound hp hs keep ha.1
  obtain ⟨b, e2, hb, -, he2, hv⟩ := C109_complete hp hcap h2 h3
  have hee : e2 = e := by rw [h4] at he2; cases he2; rfl
  subst hee
  have := ha.2 b hb
  refine ⟨assign, e2, h1, h2, h4, by omega, ?_⟩
  intro other e' ho hu he'
  obtain ⟨b, e3, hb, -, he3, hv⟩ := C109_complete hp hcap ho hu
  have hee : e3 = e' := by rw [he'] at he3; cases he3; rfl
  subst hee
  have := ha.2 b hb
  omega

/-- C109: without the pruning (`use_matrix_indicator_heuristic=False`) no pair is pruned, so a best assignment is
the cheapest of all that overload no facility. -/
theorem C109_unpruned {p : Problem} {sortedCosts : List Nat} {closest : Nat → List Nat}
    (h1 : sortedCosts.Perm (List.range p.facilities.length)) {assign : List Int} (ha : Assigned p assign) :
    Unpruned (kept sortedCosts closest p.facilities.length p.facilities.length) assign := by
  intro c f hf
  have := ha.2.1 f (List.mem_of_getElem? hf)
  have hm : f.toNat ∈ sortedCosts := h1.mem_iff.2 (List.mem_range.2 (by omega))
  unfold kept
  rw [List.take_of_length_le (by rw [h1.length_eq]; simp)]
  simp [hm]

/-- `n` facilities without room, free and close, and one with room that costs. -/
def full (n : Nat) : Problem :=
  ⟨1, List.replicate n ⟨0, 0⟩ ++ [⟨1, 1⟩], [1], fun f _ => if f = n then 1 else 0⟩

/-- C109: the pruning can lose every solution, whatever the numbers of cheapest and closest facilities kept (the default
is 10): the remaining program is infeasible although an assignment that overloads no facility exists. -/
theorem C109_pruned_refuted (n : Nat) :
    ∃ (p : Problem) (sortedCosts : List Nat) (closest : Nat → List Nat) (assign : List Int),
      p.customers.length = p.customerCount ∧
      sortedCosts.Perm (List.range p.facilities.length) ∧ sortedCosts.Pairwise (fun f g => setupOf p f ≤ setupOf p g) ∧
      (∀ c, (closest c).Perm (List.range p.facilities.length) ∧ (closest c).Pairwise (fun (f g : Nat) => p.cost f c ≤ p.cost g c)) ∧
      Assigned p assign ∧ satisfy p assign = .ok true ∧
      ¬ ∃ a, (initModel p (kept sortedCosts closest n n)).Feasible a := by
  have hlen : (full n).facilities.length = n + 1 := by simp [full]
  have hset : ∀ f, f < n → setupOf (full n) f = 0 := by
    intro f hf
    simp only [setupOf, full]
    rw [List.getElem?_append_left (by simpa using hf)]
    simp [hf]
  have hcapo : ∀ f, f < n → capOf (full n) f = 0 := by
    intro f hf
    simp only [capOf, full]
    rw [List.getElem?_append_left (by simpa using hf)]
    simp [hf]
  have hsetn : setupOf (full n) n = 1 := by
    simp only [setupOf, full]
    rw [List.getElem?_append_right (by simp)]
    simp
  have hwithin : Within (full n) [(n : Int)] := by
    intro f fac hf hfac
    have : f = n := by simpa [full] using hf
    subst this
    have hn : (full n).facilities[n]? = some ⟨1, 1⟩ := by
      simp only [full]
      rw [List.getElem?_append_right (by simp)]
      simp
    rw [show ((n : Int)).toNat = n by simp, hn] at hfac
    cases hfac
    simp [demandAt, full]
  have hass : Assigned (full n) [(n : Int)] := by
    refine ⟨rfl, ?_, hwithin⟩
    intro f hf
    rw [hlen]
    simp only [List.mem_singleton] at hf
    omega
  have hwf : WF (full n) [(n : Int)] := by
    have := wf_of_col (p := full n) rfl (col := fun _ => n) (by intro c _; simp [hlen])
    simpa [full] using this
  refine ⟨full n, List.range (n + 1), fun _ => List.range (n + 1), [(n : Int)], rfl, by rw [hlen], ?_, ?_, hass,
    C33_within_accepted hwf hwithin, ?_⟩
  · rw [List.pairwise_iff_getElem]
    intro i j hi hj hij
    simp only [List.getElem_range]
    simp only [List.length_range] at hi hj
    rw [hset i (by omega)]
    by_cases hjn : j = n
    · rw [hjn, hsetn]; omega
    · rw [hset j (by omega)]; omega
  · intro c
    refine ⟨by rw [hlen], ?_⟩
    rw [List.pairwise_iff_getElem]
    intro i j hi hj hij
    simp only [List.getElem_range, full]
    simp only [List.length_range] at hi hj
    have : ¬ (i : Int) = n := by omega
    rw [if_neg this]
    split <;> omega
  · rintro ⟨a, ha⟩
    rw [feasible_iff] at ha
    obtain ⟨f, hf, h1, -, -⟩ := sum_one_unique List.nodup_range
      (fun f hf => ha.bin f 0 (List.mem_range.1 hf) (by simp [full])) (ha.one 0 (by simp [full]))
    rw [List.mem_range, hlen] at hf
    by_cases hfn : f < n
    · have := ha.cap f (by omega)
      rw [hcapo f hfn] at this
      rw [show (full n).customers.length = 1 from rfl, show List.range 1 = [0] from rfl, List.map_cons, h1] at this
      simp [demandOf, full] at this
    · have hfe : f = n := by omega
      subst hfe
      have hk : kept (List.range (f + 1)) (fun _ => List.range (f + 1)) f f f 0 = false := by
        simp [kept, List.take_range]
      simp [valueOf, hk] at h1

/-- Two facilities and three customers: the hypotheses of the theorems are met. -/
def exF : Problem := ⟨3, [⟨5, 10⟩, ⟨3, 7⟩], [4, 6, 5], fun f c => if f = 0 then 1 else (c : Int)⟩

example : ∃ a e, (initModel exF (fun _ _ => true)).Feasible a ∧ retrieve exF (fun _ _ => true) a = .ok [0, 0, 1] ∧
    evaluate exF [0, 0, 1] = .ok e ∧ (initModel exF (fun _ _ => true)).objective.value a = e.cost + e.setup := by
  refine C109_complete (p := exF) rfl ?_ ⟨rfl, ?_, ?_⟩ (fun _ _ _ => rfl)
  · simp [exF]
  · simp [exF]
  · intro f fac hf hfac
    simp only [exF, List.take, List.mem_cons, List.not_mem_nil, or_false] at hf
    rcases hf with rfl | rfl | rfl <;> simp [exF] at hfac <;> subst hfac <;> decide

end Verif.FacilityLp
