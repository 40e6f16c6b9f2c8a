import Verif.Lemmas.OrTools
/-
C197: tours and vehicle routing with a routing library.
-/
namespace Verif.OrTools
open VrpTools (cut matrix)

/-- An assignment of the library for a problem of vehicle routing: the demands of the nodes that a vehicle leaves fit into it. -/
structure Accepted (p : Vrp.Problem) (R : Routing) (N : Nat) (routes : List (List Nat)) : Prop where
  visits : Visits p.vehicleCount p.customerCount p.starts p.ends R N routes
  load : ∀ (v : Nat) l q, routes[v]? = some l → p.capacities[v]? = some q → ((l.map R.node).filterMap (fun c => p.demands[c]?)).sum ≤ q

/-- C197: the tours read from an assignment are one for each vehicle, go through every customer that is no depot exactly once and
nothing else, and the demands of the start and the customers of a tour fit into its vehicle. -/
theorem C197_retrieve {p : Vrp.Problem} (hw : Vrp.WF p) {R : Routing} {N : Nat} {routes : List (List Nat)} (h : Accepted p R N routes)
    {fuel : Nat} (hf : N < fuel) :
    ∃ paths, retrieve p R fuel = .ok (some paths) ∧ paths.length = p.vehicleCount ∧ paths.flatten.Nodup ∧
      (∀ c, c ∈ paths.flatten ↔ c < p.customerCount ∧ Vrp.NoDepot p c) ∧
      ∀ (v : Nat) path s q, paths[v]? = some path → p.starts[v]? = some s → p.capacities[v]? = some q →
        ((s :: path).filterMap (fun c => p.demands[c]?)).sum ≤ q := by
  have hv := h.visits
  have hlt : ∀ i, i ∈ routes.flatten ↔ i < N := fun i => by rw [hv.once.mem_iff, List.mem_range]
  have hdem : ∀ i, i < N → R.node i < p.demands.length := by
    intro i hi
    rcases hv.known i hi with ⟨v, hvv, rfl⟩ | h2
    · exact hw.depots _ (.inl (List.mem_of_getElem? (hv.first v hvv).2))
    · have := hw.cust; omega
  have hlen : ∀ l ∈ routes, l.length ≤ N := by
    intro l hl
    have h1 : l.length ≤ routes.flatten.length := (List.sublist_flatten_of_mem hl).length_le
    rw [hv.once.length_eq, List.length_range] at h1
    exact h1
  have hr := retrieveFrom_routes (R := R) (demands := p.demands) (fuel := fuel) routes 0 (fun k l hk => by
    have hl := List.mem_of_getElem? hk
    obtain ⟨e, h1, _⟩ := hv.route k l hk
    refine ⟨⟨e, by rwa [Nat.zero_add]⟩, fun x hx => hdem x ((hlt x).1 (List.mem_flatten.2 ⟨l, hl, hx⟩)), ?_⟩
    have := hlen l hl
    omega)
  rw [hv.count] at hr
  refine ⟨_, hr, by simp [hv.count], hv.inner.1, hv.inner.2, ?_⟩
  intro v path s q hpath hs hq
  rw [List.getElem?_map, Option.map_eq_some_iff] at hpath
  obtain ⟨l, hl, rfl⟩ := hpath
  have hvV : v < p.vehicleCount := by rw [← hv.count]; exact (List.getElem?_eq_some_iff.1 hl).1
  obtain ⟨h1, h2⟩ := hv.first v hvV
  obtain ⟨e, h3, _⟩ := hv.route v l hl
  obtain ⟨m, rfl⟩ := route_cons h3 h1
  rw [hs] at h2
  cases h2
  exact h.load v _ q hl hq

/-- C197, partially: the tours are accepted by the problem if the ends have no demand or are the starts. -/
theorem C197_satisfied_partial {p : Vrp.Problem} (hw : Vrp.WF p) {R : Routing} {N : Nat} {routes : List (List Nat)} (h : Accepted p R N routes)
    (he : ∀ (v : Nat) s e, p.starts[v]? = some s → p.ends[v]? = some e → e = s ∨ p.demands[e]? = some 0) {fuel : Nat} (hf : N < fuel) :
    ∃ paths, retrieve p R fuel = .ok (some paths) ∧ Vrp.satisfy p p.starts p.ends paths = .ok true := by
  obtain ⟨paths, h1, h2, _, h4, h5⟩ := C197_retrieve hw h hf
  refine ⟨paths, h1, ?_⟩
  have hcust := hw.cust
  have hst := hw.starts
  have hen := hw.ends
  have hca := hw.caps
  obtain ⟨rs, hrs⟩ := Vrp.sequential_total hw.depots paths 0 (fun c hc => by have := ((h4 c).1 hc).1; omega) (by omega) (by omega)
  have hlen := (Vrp.sequential_spec _ _ _ hrs).1
  obtain ⟨w, hv⟩ := Vrp.violation_total (p := p) (loads := rs.map (fun r => r.2.2)) p.vehicleCount 0
    (by rw [List.length_map]; omega) (by omega)
  obtain ⟨b, hb⟩ : ∃ b, Vrp.satisfy p p.starts p.ends paths = .ok b :=
    ⟨decide (w = 0), by simp only [Vrp.satisfy, Vrp.evaluate, hrs, hv, bind_ok]⟩
  have hiff := Vrp.C34_satisfy_iff_partial hb
  have : b = true := by
    rw [hiff]
    intro v path s e q _ hpath hs he' hq
    have hl := h5 v path s q hpath hs hq
    unfold Vrp.loadOf
    rcases he v s e hs he' with rfl | h0
    · simpa using hl
    · split
      · simp only [List.cons_append, List.nil_append, List.filterMap_cons, h0] at hl ⊢
        revert hl
        cases p.demands[s]? <;> simp
      · simpa using hl
  rw [hb, this]

/-- From depot 0 to the depots 0 and 4. -/
def plan : Vrp.Problem :=
  { vehicleCount := 2, capacities := [10, 5], customerCount := 5, demands := [0, 6, 5, 4, 0]
    starts := [0, 0], ends := [0, 4], dist := fun a b => if a ≤ b then b - a else a - b }

/-- The indices 0 and 4 are the starts, 5 and 6 the ends; 0 → 1 → 3 → 5 and 4 → 2 → 6. -/
def planR : Routing :=
  { node := fun i => [0, 1, 2, 3, 0, 0, 4].getD i 0, start := fun v => [0, 4].getD v 0, isEnd := fun i => decide (5 ≤ i)
    next := fun i => [1, 3, 6, 5, 2].getD i 0 }

theorem plan_free {c : Nat} : Free 2 [0, 0] [0, 4] c ↔ c ≠ 0 ∧ c ≠ 4 := by
  constructor
  · intro h
    have h0 := h 0 (by omega)
    have h1 := h 1 (by omega)
    simp at h0 h1
    omega
  · intro h v hv
    have : v = 0 ∨ v = 1 := by omega
    rcases this with rfl | rfl <;> simp <;> omega

theorem plan_accepted : Accepted plan planR 5 [[0, 1, 3], [4, 2]] := by
  refine ⟨⟨rfl, ?_, by decide, by decide, ?_, ?_, ?_⟩, ?_⟩
  · intro v l hl
    match v, hl with
    | 0, hl => cases hl; exact ⟨5, .step rfl (.step rfl (.step rfl (.fin rfl))), rfl⟩
    | 1, hl => cases hl; exact ⟨6, .step rfl (.step rfl (.fin rfl)), rfl⟩
  · intro i hi
    have : i = 0 ∨ i = 1 ∨ i = 2 ∨ i = 3 ∨ i = 4 := by omega
    rcases this with rfl | rfl | rfl | rfl | rfl
    · exact .inl ⟨0, by decide, rfl⟩
    · exact .inr ⟨by decide, plan_free.2 (by decide)⟩
    · exact .inr ⟨by decide, plan_free.2 (by decide)⟩
    · exact .inr ⟨by decide, plan_free.2 (by decide)⟩
    · exact .inl ⟨1, by decide, rfl⟩
  · intro i j hi hj hij hf
    have hf := plan_free.1 hf
    revert hij hf
    have h1 : i = 0 ∨ i = 1 ∨ i = 2 ∨ i = 3 ∨ i = 4 := by omega
    have h2 : j = 0 ∨ j = 1 ∨ j = 2 ∨ j = 3 ∨ j = 4 := by omega
    rcases h1 with rfl | rfl | rfl | rfl | rfl <;> rcases h2 with rfl | rfl | rfl | rfl | rfl <;> decide
  · intro c hc hf
    have hf := plan_free.1 hf
    have hc : c < 5 := hc
    have h1 : c = 1 ∨ c = 2 ∨ c = 3 := by omega
    rcases h1 with rfl | rfl | rfl
    · exact ⟨1, by decide, rfl⟩
    · exact ⟨2, by decide, rfl⟩
    · exact ⟨3, by decide, rfl⟩
  · intro v l q hl hq
    match v, hl, hq with
    | 0, hl, hq => cases hl; cases hq; decide
    | 1, hl, hq => cases hl; cases hq; decide

example : Vrp.WF plan := ⟨by decide, by decide, by decide, by decide, by simp [plan]⟩
example : retrieve plan planR 6 = .ok (some [[1, 3], [2]]) := by decide +kernel
example : Vrp.satisfy plan plan.starts plan.ends [[1, 3], [2]] = .ok true := by decide +kernel

/-- C197 fails: the demand of an end that is not the start is left out, so the library accepts tours that the problem rejects. -/
theorem C197_end_refuted :
    ∃ p R N routes paths, Vrp.WF p ∧ Accepted p R N routes ∧ retrieve p R (N + 1) = .ok (some paths) ∧
      Vrp.satisfy p p.starts p.ends paths = .ok false := by
  refine ⟨{ plan with demands := [0, 6, 5, 4, 1] }, planR, 5, _, [[1, 3], [2]], ⟨by decide, by decide, by decide, by decide, by simp [plan]⟩,
    ⟨plan_accepted.visits, ?_⟩, by decide +kernel, by decide +kernel⟩
  intro v l q hl hq
  match v, hl, hq with
  | 0, hl, hq => cases hl; cases hq; decide
  | 1, hl, hq => cases hl; cases hq; decide

/-- The arcs along routes. -/
def arcs (routes : List (List Nat)) : List (Nat × Nat) := routes.flatMap (fun l => l.zip (l.drop 1))

theorem cost_sum {ev : Nat → Nat → Rat} (h0 : ∀ a b, 0 ≤ ev a b) (hs : ∀ a b, ev a b = ev b a) (hd : ∀ a, ev a a = 0) (l : List (Nat × Nat)) :
    (((l.map (fun a => vrpCost ev a.1 a.2)).sum : Int) : Rat) ≤ 10 ^ 5 * (l.map (fun a => ev a.1 a.2)).sum ∧
    10 ^ 5 * (l.map (fun a => ev a.1 a.2)).sum ≤ (((l.map (fun a => vrpCost ev a.1 a.2)).sum : Int) : Rat) + l.length := by
  induction l with
  | nil => simp
  | cons a l ih =>
    have hm : matrix ev a.1 a.2 = ev a.1 a.2 := by
      unfold matrix
      split
      · rfl
      · split
        · exact hs _ _
        · rw [show a.1 = a.2 by omega, hd]
    have hb := cut_bounds (x := 10 ^ 5 * ev a.1 a.2) (by have := h0 a.1 a.2; linarith)
    simp only [List.map_cons, List.sum_cons, List.length_cons, vrpCost, hm] at ih ⊢
    push_cast at ih ⊢
    constructor <;> linarith [ih.1, ih.2, hb.1, hb.2]

/-- C197: routes that the library finds no more costly than others are longer than these by at most one hundred thousandth for each of
their arcs. -/
theorem C197_cost {ev : Nat → Nat → Rat} (h0 : ∀ a b, 0 ≤ ev a b) (hs : ∀ a b, ev a b = ev b a) (hd : ∀ a, ev a a = 0) {found other : List (List Nat)}
    (h : ((arcs found).map (fun a => vrpCost ev a.1 a.2)).sum ≤ ((arcs other).map (fun a => vrpCost ev a.1 a.2)).sum) :
    ((arcs found).map (fun a => ev a.1 a.2)).sum ≤ ((arcs other).map (fun a => ev a.1 a.2)).sum + (arcs found).length / 10 ^ 5 := by
  have h1 := (cost_sum h0 hs hd (arcs found)).2
  have h2 := (cost_sum h0 hs hd (arcs other)).1
  have h3 : (((arcs found).map (fun a => vrpCost ev a.1 a.2)).sum : Rat) ≤ (((arcs other).map (fun a => vrpCost ev a.1 a.2)).sum : Int) := by
    exact_mod_cast h
  linarith

example : arcs [[0, 1, 3, 0], [0, 2, 4]] = [(0, 1), (1, 3), (3, 0), (0, 2), (2, 4)] := by decide
example : vrpCost (fun a b => if a = b then 0 else 1 / 3) 0 1 = 33333 := by decide +kernel

/-- C197, partially: the costs of tours of fewer than 1000 nodes are the distances, a million times, if these are whole numbers. -/
theorem C197_tour_cost_partial {ev : Nat → Nat → Rat} (hz : ∀ a b, ∃ z : Int, ev a b = z) (hs : ∀ a b, ev a b = ev b a) (hd : ∀ a, ev a a = 0) {n : Nat}
    (hn : n < 1000) (a b : Nat) : ∃ c, tspCost ev n a b = .ok c ∧ (c : Rat) = 10 ^ 6 * ev a b := by
  have hm : matrix ev a b = ev a b := by
    unfold matrix
    split
    · rfl
    · split
      · exact hs _ _
      · rw [show a = b by omega, hd]
  obtain ⟨z, hz⟩ := hz a b
  refine ⟨10 ^ 6 * z, ?_, by rw [hz]; norm_num⟩
  unfold tspCost
  rw [if_pos hn, hm, hz, cut_int]

/-- C197 fails: distances are cut off to whole numbers before they are multiplied; all tours of distances below 1 cost 0. -/
theorem C197_tour_cost_refuted {ev : Nat → Nat → Rat} (h0 : ∀ a b, 0 ≤ ev a b) (h1 : ∀ a b, ev a b < 1) {n : Nat} (hn : n < 1000) (a b : Nat) :
    tspCost ev n a b = .ok 0 := by
  have : cut (matrix ev a b) = 0 := by
    have h2 : 0 ≤ matrix ev a b ∧ matrix ev a b < 1 := by
      unfold matrix
      split
      · exact ⟨h0 _ _, h1 _ _⟩
      · split
        · exact ⟨h0 _ _, h1 _ _⟩
        · exact ⟨by simp, by simp⟩
    have hb := cut_bounds h2.1
    have e1 : cut (matrix ev a b) < 1 := by
      have : ((cut (matrix ev a b) : Int) : Rat) < (1 : Int) := by push_cast; linarith [hb.1, h2.2]
      exact_mod_cast this
    have e2 : -1 < cut (matrix ev a b) := by
      have : (((-1 : Int)) : Rat) < (cut (matrix ev a b) : Int) := by push_cast; linarith [hb.2, h2.1]
      exact_mod_cast this
    omega
  unfold tspCost
  rw [if_pos hn, this]
  rfl

/-- Four points on a line. -/
def line (a b : Nat) : Rat := if a ≤ b then (b - a : Nat) / 4 else (a - b : Nat) / 4

/-- C197 fails: a tour that costs no more than another is longer by a third. -/
theorem C197_tour_longer_refuted :
    ∃ (ev : Nat → Nat → Rat) (found other : List Nat) (c : Int), found.Perm other ∧
      (∀ a ∈ arcs [found ++ [0]], tspCost ev 4 a.1 a.2 = .ok c) ∧ (∀ a ∈ arcs [other ++ [0]], tspCost ev 4 a.1 a.2 = .ok c) ∧
      (arcs [found ++ [0]]).length = (arcs [other ++ [0]]).length ∧
      3 * ((arcs [found ++ [0]]).map (fun a => ev a.1 a.2)).sum = 4 * ((arcs [other ++ [0]]).map (fun a => ev a.1 a.2)).sum ∧
      0 < ((arcs [other ++ [0]]).map (fun a => ev a.1 a.2)).sum :=
  ⟨line, [0, 2, 1, 3], [0, 1, 2, 3], 0, by decide, by decide +kernel, by decide +kernel, by decide, by decide +kernel, by decide +kernel⟩

/-- C197 fails: with 1000 nodes or more the costs raise `TypeError`, as points are taken for indices. -/
theorem C197_large_refuted (ev : Nat → Nat → Rat) {n : Nat} (hn : 1000 ≤ n) (a b : Nat) : tspCost ev n a b = .error .typeError := by
  unfold tspCost
  rw [if_neg (by omega)]
  rfl

/-- C197: the permutation read from an assignment goes through every node but the start and the end exactly once. -/
theorem C197_tour {n s e : Nat} {R : Routing} {N : Nat} {l : List Nat} (h : Visits 1 n [s] [e] R N [l]) {fuel : Nat} (hf : N < fuel) :
    ∃ perm, tspSolve R fuel = some perm ∧ perm.Nodup ∧ (∀ c, c ∈ perm ↔ c < n ∧ c ≠ s ∧ c ≠ e) ∧
      l.map R.node = s :: perm := by
  obtain ⟨z, h1, h2⟩ := h.route 0 l rfl
  obtain ⟨h3, h4⟩ := h.first 0 (by omega)
  obtain ⟨m, rfl⟩ := route_cons h1 h3
  have hlen : (R.start 0 :: m).length = N := by
    have := h.once.length_eq
    simpa using this
  have hi := h.inner
  simp only [List.map_cons, List.map_nil, List.flatten_cons, List.flatten_nil, List.append_nil, List.drop_one, List.tail_cons] at hi
  refine ⟨m.map R.node, ?_, hi.1, ?_, ?_⟩
  · rw [tspSolve, tspWalk_route h1 fuel _ (by omega)]
    simp
  · intro c
    rw [hi.2 c]
    refine and_congr_right fun _ => ?_
    constructor
    · intro hc
      have := hc 0 (by omega)
      simp at this
      exact ⟨fun e => this.1 e.symm, fun e => this.2 e.symm⟩
    · intro hc v hv
      have : v = 0 := by omega
      subst this
      simp
      exact ⟨fun e => hc.1 e.symm, fun e => hc.2 e.symm⟩
  · simp at h4
    simp [h4]

/-- From node 0 to node 2: 0 → 3 → 1 → 2. -/
def tourR : Routing :=
  { node := fun i => [0, 1, 3, 2].getD i 0, start := fun _ => 0, isEnd := fun i => decide (i = 3), next := fun i => [2, 3, 1].getD i 0 }

example : Visits 1 4 [0] [2] tourR 3 [[0, 2, 1]] := by
  have free : ∀ c, Free 1 [0] [2] c ↔ c ≠ 0 ∧ c ≠ 2 := by
    intro c
    constructor
    · intro h
      have := h 0 (by omega)
      simp at this
      omega
    · intro h v hv
      have : v = 0 := by omega
      subst this
      simp
      omega
  refine ⟨rfl, ?_, by decide, by decide, ?_, ?_, ?_⟩
  · intro v l hl
    match v, hl with
    | 0, hl => cases hl; exact ⟨3, .step rfl (.step rfl (.step rfl (.fin rfl))), rfl⟩
  · intro i hi
    have : i = 0 ∨ i = 1 ∨ i = 2 := by omega
    rcases this with rfl | rfl | rfl
    · exact .inl ⟨0, by decide, rfl⟩
    · exact .inr ⟨by decide, (free _).2 (by decide)⟩
    · exact .inr ⟨by decide, (free _).2 (by decide)⟩
  · intro i j hi hj hij hf
    have h1 : i = 0 ∨ i = 1 ∨ i = 2 := by omega
    have h2 : j = 0 ∨ j = 1 ∨ j = 2 := by omega
    revert hij
    rcases h1 with rfl | rfl | rfl <;> rcases h2 with rfl | rfl | rfl <;> decide
  · intro c hc hf
    have hf := (free c).1 hf
    have h1 : c = 1 ∨ c = 3 := by omega
    rcases h1 with rfl | rfl
    · exact ⟨1, by decide, rfl⟩
    · exact ⟨2, by decide, rfl⟩

example : tspSolve tourR 4 = some [3, 1] := by decide +kernel

end Verif.OrTools
