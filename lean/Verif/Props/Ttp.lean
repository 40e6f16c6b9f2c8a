import Verif.Lemmas.Ttp
import Mathlib.Algebra.Order.BigOperators.Group.List

/-!
C128-C129: the travelling thief problem.
-/
namespace Verif.Ttp
open Verif

/-! ### C128: the evaluation -/

/-- C128: profit and weight count each item as often as its city is left, the distance adds up all legs, and each leg takes its
distance by the speed with the weight of the cities so far. -/
theorem C128_sums {p : Problem} {tour packing : List Int} {r : Score} (h : score p tour packing = .ok (some r)) :
    r.profit = picked Item.profit p packing tour.dropLast ∧ r.used = picked Item.weight p packing tour.dropLast ∧ r.left = p.capacity - r.used ∧
    r.distance = ((tour.zip tour.tail).map fun x => p.dist x.1 x.2).sum ∧
    r.weights = (List.range (tour.length - 1)).map (fun i => picked Item.weight p packing (tour.take (i + 1))) ∧
    r.time = (List.zipWith (fun x w => p.dist x.1 x.2 / (p.vmax - w * (p.vmax - p.vmin) / p.capacity)) (tour.zip tour.tail) r.weights).sum ∧
    r.objective = r.profit - r.time * p.rent := by
  unfold score at h
  split at h
  · split at h
    · simp at h
    · obtain ⟨w, hw, h⟩ := bind_eq_ok.1 h
      simp only [pure, Except.pure, Except.ok.injEq, Option.some.injEq] at h
      obtain ⟨g1, g2, g3, g4, g5, -⟩ := walk_spec p packing tour [] {} w hw (picked_nil _ _ _).symm (picked_nil _ _ _).symm
      rw [List.nil_append] at g1 g2
      have e3 : w.weights = loads p packing [] tour := by rw [g3]; rfl
      have e4 : w.distance = ((tour.zip tour.tail).map fun x => p.dist x.1 x.2).sum := by rw [g4]; exact zero_add _
      have e5 : w.time = (List.zipWith (fun x v => p.dist x.1 x.2 / speed p v) (tour.zip tour.tail) (loads p packing [] tour)).sum := by rw [g5]; exact zero_add _
      rw [← h]
      refine ⟨g2, g1, rfl, e4, ?_, ?_, rfl⟩
      · dsimp only
        rw [e3]
        unfold loads
        simp
      · dsimp only
        rw [e5, e3]
        rfl
  · simp at h

/-- C128: if no city is left twice, profit and weight are those of the items that the packing takes in a city that is left. -/
theorem C128_once {p : Problem} {tour packing : List Int} {r : Score} (h : score p tour packing = .ok (some r)) (hn : tour.dropLast.Nodup) :
    r.profit = ((p.items.zip packing).map fun x => if x.2 ∈ tour.dropLast then x.1.profit else 0).sum ∧
    r.used = ((p.items.zip packing).map fun x => if x.2 ∈ tour.dropLast then x.1.weight else 0).sum := by
  obtain ⟨h1, h2, -⟩ := C128_sums h
  have key : ∀ f : Item → Rat, picked f p packing tour.dropLast = ((p.items.zip packing).map fun x => if x.2 ∈ tour.dropLast then f x.1 else 0).sum := by
    intro f
    unfold picked
    congr 1
    apply List.map_congr_left
    intro x _
    rw [hn.count]
    split <;> simp
  rw [h1, h2, key, key]
  exact ⟨rfl, rfl⟩

/-- C128: if the knapsack is not overloaded, the evaluation of a closed tour returns, the trip takes between its distance at full and its
distance at least speed, and the objective is at most the profit. -/
theorem C128_bounds {p : Problem} {tour packing : List Int} {c : Int} (hhead : tour.head? = some c) (hlast : tour.getLast? = some c)
    (hc : 0 < p.capacity) (hv0 : 0 < p.vmin) (hv : p.vmin ≤ p.vmax) (hr : 0 ≤ p.rent) (hw : ∀ x ∈ p.items, 0 ≤ x.weight) (hd : ∀ a b, 0 ≤ p.dist a b)
    (hload : picked Item.weight p packing tour.dropLast ≤ p.capacity) :
    ∃ r, score p tour packing = .ok (some r) ∧ r.distance / p.vmax ≤ r.time ∧ r.time ≤ r.distance / p.vmin ∧ r.objective ≤ r.profit ∧ 0 ≤ r.left := by
  have hs : ∀ v ∈ loads p packing [] tour, p.vmin ≤ speed p v ∧ speed p v ≤ p.vmax := by
    intro v hv'
    obtain ⟨h1, h2⟩ := loads_le hw hv'
    exact speed_bounds hc hv h1 (le_trans h2 hload)
  obtain ⟨w, hw'⟩ := walk_ok p packing (ne_of_gt hc) tour [] {} (picked_nil _ _ _).symm fun v hv' => by
    have := (hs v hv').1
    intro e
    rw [e] at this
    linarith
  have hsc : score p tour packing = .ok (some { objective := w.profit - w.time * p.rent, profit := w.profit, distance := w.distance, time := w.time, used := w.weight, left := p.capacity - w.weight, weights := w.weights }) := by
    unfold score
    rw [hhead, hlast]
    simp only [ne_eq, not_true_eq_false, if_false]
    rw [hw', bind_ok]
    rfl
  refine ⟨_, hsc, ?_⟩
  obtain ⟨g1, g2, g3, g4, g5, -⟩ := walk_spec p packing tour [] {} w hw' (picked_nil _ _ _).symm (picked_nil _ _ _).symm
  have e4 : w.distance = ((tour.zip tour.tail).map fun x => p.dist x.1 x.2).sum := by rw [g4]; exact zero_add _
  have e5 : w.time = (List.zipWith (fun x v => p.dist x.1 x.2 / speed p v) (tour.zip tour.tail) (loads p packing [] tour)).sum := by rw [g5]; exact zero_add _
  obtain ⟨b1, b2⟩ := zipWith_bounds (length_loads p packing [] tour) hv0 (fun x _ => hd x.1 x.2) hs
  rw [← e4, ← e5] at b1 b2
  have hdist : 0 ≤ w.distance := by
    rw [e4]
    apply List.sum_nonneg
    intro y hy
    obtain ⟨x, -, rfl⟩ := List.mem_map.1 hy
    exact hd x.1 x.2
  have htime : 0 ≤ w.time := le_trans (div_nonneg hdist (by linarith)) b1
  refine ⟨b1, b2, ?_, ?_⟩
  · dsimp only
    have := mul_nonneg htime hr
    linarith
  · dsimp only
    rw [g1, List.nil_append]
    linarith

/-- C128: the errors: a tour that is not closed gives no result, with `TypeError` in `TTPModel.evaluate`; else the only error is a
division by zero, because of a knapsack without capacity or a load with which the speed is zero. -/
theorem C128_errors {p : Problem} {s : Solution} {a b : Int} (ha : s.tour.head? = some a) (hb : s.tour.getLast? = some b) :
    (a ≠ b → evaluate p s = .error .typeError) ∧
    (a = b → ∀ e, evaluate p s = .error e → e = .zeroDivisionError ∧
      (p.capacity = 0 ∨ ∃ i < s.tour.length - 1, p.vmax - picked Item.weight p s.packing (s.tour.take (i + 1)) * (p.vmax - p.vmin) / p.capacity = 0)) := by
  constructor
  · intro h
    unfold evaluate score
    rw [ha, hb]
    simp [h]
  · intro h e he
    unfold evaluate score at he
    rw [ha, hb] at he
    simp only [h, ne_eq, not_true_eq_false, if_false] at he
    cases hw : walk p s.packing s.tour {} with
    | ok w =>
      rw [hw, bind_ok] at he
      simp [pure, Except.pure] at he
    | error e' =>
      rw [hw, bind_error] at he
      simp only [Except.error.injEq] at he
      obtain ⟨h1, h2⟩ := walk_error p s.packing s.tour [] {} e' hw (picked_nil _ _ _).symm
      refine ⟨by rw [← he, h1], ?_⟩
      rcases h2 with h2 | ⟨v, hv, hz⟩
      · exact Or.inl h2
      · right
        unfold loads at hv
        obtain ⟨i, hi, rfl⟩ := List.mem_map.1 hv
        rw [List.nil_append] at hz
        exact ⟨i, List.mem_range.1 hi, hz⟩

/-- Three cities in a row with two items in city 1 and one in city 2. -/
def small : Problem where
  capacity := 10
  rent := 1
  vmin := 1
  vmax := 2
  nodes := 3
  items := [⟨20, 5, 1⟩, ⟨6, 5, 1⟩, ⟨30, 15, 2⟩]
  dist a b := 6 * (if a ≤ b then (b : Rat) - a else a - b)

/-- Non-vacuity of C128: from city 0 to 1 at speed 2, then with weight 5 at speed 3/2. -/
example : score small [0, 1, 2, 0] [1, -1, -1] = .ok (some { objective := 5, profit := 20, distance := 24, time := 15, used := 5, left := 5, weights := [0, 5, 5] }) := by
  decide +kernel

/-- C128 fails beyond the capacity: nothing is checked, the speed becomes negative, and the trip takes a time below zero, so that
the objective is greater than the profit; with another load the evaluation raises. -/
theorem C128_overload_refuted :
    (∃ r, score { small with capacity := 5 } [0, 2, 1, 0] [-1, -1, 2] = .ok (some r) ∧ r.left = -10 ∧ r.time < 0 ∧ r.profit < r.objective) ∧
    score { small with capacity := 5 } [0, 1, 0] [1, 1, -1] = .error .zeroDivisionError := by
  refine ⟨⟨{ objective := 36, profit := 30, distance := 24, time := -6, used := 15, left := -10, weights := [0, 15, 15] }, ?_⟩, ?_⟩ <;> decide +kernel

/-- C128 fails for packings and tours of other forms: an item is taken in a city where it is not, and a city that is left twice gives its
items twice. -/
theorem C128_twice_refuted :
    (∃ r, score small [0, 1, 0] [0, -1, -1] = .ok (some r) ∧ r.profit = 20) ∧
    (∃ r, score small [0, 1, 0, 1, 0] [1, -1, -1] = .ok (some r) ∧ r.profit = 40 ∧ r.used = 10) := by
  refine ⟨⟨{ objective := 20 - 8, profit := 20, distance := 12, time := 8, used := 5, left := 5, weights := [5, 5] }, ?_⟩,
    ⟨{ objective := 40 - 17, profit := 40, distance := 24, time := 17, used := 10, left := 0, weights := [0, 5, 5, 10] }, ?_⟩⟩ <;> decide +kernel

/-! ### C129: the mutations -/

/-- C129: `MutationTTPKnapsack` changes one item, takes it in its city or leaves it, and keeps the tour; the answer
notes no weight. -/
theorem C129_flip {p : Problem} {draw : Nat → Nat} {s s' : Solution} : ∀ {on : Bool} {depth : Nat}, switch p draw s on depth = .ok s' →
    s'.tour = s.tour ∧ s'.used = 0 ∧ ∃ i x c, p.items[i]? = some x ∧ s.packing[i]? = some c ∧
      ((c = -1 ∧ s.used + x.weight ≤ p.capacity ∧ s'.packing = s.packing.set i x.node) ∨ (c ≠ -1 ∧ s'.packing = s.packing.set i (-1))) := by
  intro on depth
  induction depth generalizing on with
  | zero => intro h; cases on <;> simp [switch] at h
  | succ depth ih =>
    intro h
    cases on with
    | true =>
      unfold switch at h
      split at h
      · rename_i i hi
        simp only [Except.ok.injEq] at h
        obtain ⟨x, h1, h2, h3⟩ := mem_notUsed.1 (List.mem_of_getElem? hi)
        rw [← h]
        refine ⟨rfl, rfl, i, x, -1, h1, h2, Or.inl ⟨rfl, h3, ?_⟩⟩
        simp [take, h1]
      · exact ih h
    | false =>
      unfold switch at h
      split at h
      · rename_i i hi
        simp only [Except.ok.injEq] at h
        obtain ⟨h1, c, h2, h3⟩ := mem_usedItems.1 (List.mem_of_getElem? hi)
        rw [← h]
        exact ⟨rfl, rfl, i, p.items[i], c, List.getElem?_eq_getElem h1, h2, Or.inr ⟨h3, rfl⟩⟩
      · exact ih h

/-- C129: if the weight that is noted in the solution is at least that of its packing, and this is within the capacity, the packing of the
answer is within the capacity. -/
theorem C129_capacity {p : Problem} {draw : Nat → Nat} {s s' : Solution} {on : Bool} {depth : Nat} (h : switch p draw s on depth = .ok s')
    (hu : packed p s.packing ≤ s.used) (hc : packed p s.packing ≤ p.capacity) (hw : ∀ x ∈ p.items, 0 ≤ x.weight) : packed p s'.packing ≤ p.capacity := by
  obtain ⟨-, -, i, x, c, h1, h2, h3⟩ := C129_flip h
  have hx := hw x (List.mem_of_getElem? h1)
  rcases h3 with ⟨rfl, h4, h5⟩ | ⟨h4, h5⟩
  · rw [h5, packed_set p h1 h2]
    split <;> simp only [if_true] <;> linarith
  · rw [h5, packed_set p h1 h2, if_neg h4]
    simp only [if_true]
    linarith

/-- The cities of `small` with lighter items. -/
def light : Problem := { small with items := [⟨20, 5, 1⟩, ⟨6, 5, 1⟩, ⟨30, 9, 2⟩] }

/-- C129 fails for two mutations in a row: the answer of the first notes no weight, and the second packs more than the capacity. -/
theorem C129_capacity_refuted : ∃ s₁ s₂, switch light (fun _ => 0) { tour := [0, 1, 2, 0], packing := [-1, 1, -1], used := 5 } true 9 = .ok s₁ ∧
    switch light (fun _ => 0) s₁ true 9 = .ok s₂ ∧ packed light s₂.packing = 19 ∧ light.capacity = 10 :=
  ⟨{ tour := [0, 1, 2, 0], packing := [1, 1, -1] }, { tour := [0, 1, 2, 0], packing := [1, 1, 2] }, by decide +kernel, by decide +kernel, by decide +kernel, rfl⟩

/-- C129: the two switches of `MutationTTPKnapsack` return, unless nothing is taken and nothing fits; then they call each other until the
recursion limit. -/
theorem C129_recursion {p : Problem} {draw : Nat → Nat} {s : Solution} (on : Bool) (depth : Nat) :
    (∀ e, switch p draw s on (depth + 2) = .error e → notUsed p s = [] ∧ usedItems p s = []) ∧
    (notUsed p s = [] → usedItems p s = [] → switch p draw s on depth = .error .runtimeError) := by
  constructor
  · intro e h
    cases on with
    | true =>
      unfold switch at h
      split at h
      · simp at h
      · rename_i h1
        unfold switch at h
        split at h
        · simp at h
        · rename_i h2
          exact ⟨pick_none.1 h1, pick_none.1 h2⟩
    | false =>
      unfold switch at h
      split at h
      · simp at h
      · rename_i h1
        unfold switch at h
        split at h
        · simp at h
        · rename_i h2
          exact ⟨pick_none.1 h2, pick_none.1 h1⟩
  · intro h1 h2
    induction depth generalizing on with
    | zero => cases on <;> rfl
    | succ depth ih =>
      cases on with
      | true =>
        unfold switch
        rw [pick_none.2 h1]
        exact ih false
      | false =>
        unfold switch
        rw [pick_none.2 h2]
        exact ih true

/-- Non-vacuity of C129: an item is taken; and items that are too heavy for an empty knapsack give the recursion error. -/
example : switch small (fun _ => 1) { tour := [0, 1, 2, 0], packing := [-1, -1, -1] } true 1000 = .ok { tour := [0, 1, 2, 0], packing := [-1, 1, -1] } ∧
    switch { small with capacity := 1 } (fun _ => 1) { tour := [0, 1, 2, 0], packing := [-1, -1, -1] } true 50 = .error .runtimeError := by
  decide +kernel

/-- C129 fails for `MutationTTPKnapsackBest`: with an item to take or to leave it never returns (a dictionary is compared with a number), and it
leaves the given solution with another packing. -/
theorem C129_best_refuted {p : Problem} {s : Solution} (draw : Nat) :
    (notUsed p s ≠ [] → (∃ e, (bestOn p draw s).1 = .error e) ∧ ((∀ x ∈ p.items, x.node ≠ -1) → (bestOn p draw s).2 ≠ s.packing)) ∧
    (usedItems p s ≠ [] → (∃ e, (bestOff p draw s).1 = .error e) ∧ (bestOff p draw s).2 ≠ s.packing) := by
  constructor
  · intro h
    unfold bestOn
    split
    · rename_i hn
      exact absurd (pick_none.1 hn) h
    · rename_i i hi
      obtain ⟨x, h1, h2, -⟩ := mem_notUsed.1 (List.mem_of_getElem? hi)
      have hne : (∀ x ∈ p.items, x.node ≠ -1) → (take p s i).packing ≠ s.packing := by
        intro hx he
        have : (take p s i).packing[i]? = some x.node := by
          unfold take
          rw [h1]
          simp [(List.getElem?_eq_some_iff.1 h2).1]
        rw [he, h2] at this
        simp only [Option.some.injEq] at this
        exact hx x (List.mem_of_getElem? h1) this.symm
      dsimp only
      split
      · exact ⟨⟨_, rfl⟩, hne⟩
      · exact ⟨⟨_, rfl⟩, hne⟩
  · intro h
    unfold bestOff
    split
    · rename_i hn
      exact absurd (pick_none.1 hn) h
    · rename_i i hi
      obtain ⟨h1, c, h2, h3⟩ := mem_usedItems.1 (List.mem_of_getElem? hi)
      have hne : (leave s i).packing ≠ s.packing := by
        intro he
        have : (leave s i).packing[i]? = some (-1) := by
          unfold leave
          simp [(List.getElem?_eq_some_iff.1 h2).1]
        rw [he, h2] at this
        simp only [Option.some.injEq] at this
        exact h3 this
      dsimp only
      split
      · exact ⟨⟨_, rfl⟩, hne⟩
      · exact ⟨⟨_, rfl⟩, hne⟩

/-- C129: the tours that `Mutation2Opt` tries have the cities of the tour and are closed in the same city. -/
theorem C129_candidates {tour : List Int} {n i j : Nat} (hlen : tour.length = n + 1) (h : (i, j) ∈ allPairs n) :
    (reversed tour i j).Perm tour ∧ (reversed tour i j).head? = tour.head? ∧ (reversed tour i j).getLast? = tour.getLast? := by
  obtain ⟨h1, h2, h3⟩ := mem_allPairs.1 h
  refine ⟨?_, ?_, ?_⟩
  · have := reversed_perm tour i j
    rwa [reversed_parts (by omega)] at this
  · unfold reversed
    cases tour with
    | nil => simp at hlen
    | cons x tour =>
      obtain ⟨i', rfl⟩ : ∃ i', i = i' + 1 := ⟨i - 1, by omega⟩
      simp
  · unfold reversed
    have hne : tour.drop (j + 1) ≠ [] := by
      intro e
      have := congrArg List.length e
      simp at this
      omega
    rw [List.getLast?_append_of_ne_nil _ hne, List.getLast?_drop, if_neg (by omega)]

/-- C129 fails for `Mutation2Opt`: with a pair to try it never returns (a number is subtracted from a dictionary), so that it never changes a
solution; and its default of 1000 tests raises for every problem with up to 1000 cities. -/
theorem C129_two_opt_refuted {p : Problem} {s : Solution} {pairs : List (Nat × Nat)} :
    (pairs ≠ [] → ∀ testAll nbTest, ∃ e, twoOpt p testAll nbTest pairs s = .error e) ∧
    (p.nodes ≤ 1000 → twoOpt p false 1000 pairs s = .error .valueError) := by
  constructor
  · intro h testAll nbTest
    unfold twoOpt
    split
    · exact ⟨_, rfl⟩
    · split
      · exact absurd rfl h
      · split
        · exact ⟨_, rfl⟩
        · exact ⟨_, rfl⟩
  · intro h
    unfold twoOpt
    rw [if_pos ⟨rfl, by omega⟩]

/-- Non-vacuity of C129: the pairs of five cities, a tour that is tried, and an evaluated one. -/
example : allPairs 5 = [(1, 2), (1, 3), (2, 3)] ∧ reversed [0, 1, 2, 3, 4, 0] 1 3 = [0, 3, 2, 1, 4, 0] ∧
    twoOpt small true 0 [(1, 2)] { tour := [0, 1, 2, 0], packing := [1, -1, -1] } = .error .typeError := by
  decide +kernel

end Verif.Ttp
