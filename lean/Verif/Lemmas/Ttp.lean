import Verif.Model.Ttp
import Mathlib.Tactic.Linarith
import Mathlib.Tactic.Ring
import Mathlib.Tactic.FieldSimp
import Mathlib.Algebra.BigOperators.Group.List.Basic

namespace Verif.Ttp
open Verif

/-- What the items that the packing takes in these cities add up to, each as often as its city occurs. -/
def picked (f : Item → Rat) (p : Problem) (packing cities : List Int) : Rat :=
  ((p.items.zip packing).map fun x => (cities.count x.2 : Nat) * f x.1).sum

theorem picked_nil (f : Item → Rat) (p : Problem) (packing : List Int) : picked f p packing [] = 0 := by
  unfold picked
  generalize p.items.zip packing = l
  induction l with
  | nil => rfl
  | cons x l ih => rw [List.map_cons, List.sum_cons, ih]; simp

theorem picked_snoc (f : Item → Rat) (p : Problem) (packing cities : List Int) (c : Int) :
    picked f p packing (cities ++ [c]) = picked f p packing cities + ((selected p packing c).map f).sum := by
  unfold picked selected
  generalize p.items.zip packing = l
  induction l with
  | nil => simp
  | cons x l ih =>
    rw [List.map_cons, List.sum_cons, ih, List.map_cons, List.sum_cons, List.filterMap_cons, List.count_append]
    by_cases h : x.2 = c
    · simp only [h, if_true, List.map_cons, List.sum_cons, List.count_singleton_self]
      push_cast
      ring
    · have : [c].count x.2 = 0 := List.count_eq_zero.2 (by simpa using h)
      rw [this]
      simp only [h, if_false]
      push_cast
      ring

/-- The weights with which the cities are left. -/
def loads (p : Problem) (packing pre tour : List Int) : List Rat :=
  (List.range (tour.length - 1)).map fun i => picked Item.weight p packing (pre ++ tour.take (i + 1))

theorem loads_cons (p : Problem) (packing pre : List Int) (a b : Int) (tour : List Int) :
    loads p packing pre (a :: b :: tour) = picked Item.weight p packing (pre ++ [a]) :: loads p packing (pre ++ [a]) (b :: tour) := by
  unfold loads
  have : (a :: b :: tour).length - 1 = ((b :: tour).length - 1) + 1 := by simp
  rw [this, List.range_succ_eq_map, List.map_cons, List.map_map]
  congr 1
  apply List.map_congr_left
  intro i _
  simp

theorem walk_spec (p : Problem) (packing : List Int) : ∀ (tour : List Int) (pre : List Int) (w w' : Walk), walk p packing tour w = .ok w' →
    w.weight = picked Item.weight p packing pre → w.profit = picked Item.profit p packing pre →
      w'.weight = picked Item.weight p packing (pre ++ tour.dropLast) ∧ w'.profit = picked Item.profit p packing (pre ++ tour.dropLast) ∧
      w'.weights = w.weights ++ loads p packing pre tour ∧ w'.distance = w.distance + ((tour.zip tour.tail).map fun x => p.dist x.1 x.2).sum ∧
      w'.time = w.time + (List.zipWith (fun x v => p.dist x.1 x.2 / speed p v) (tour.zip tour.tail) (loads p packing pre tour)).sum ∧
      ∀ v ∈ loads p packing pre tour, speed p v ≠ 0 := by
  intro tour
  induction tour with
  | nil =>
    intro pre w w' h h1 h2
    simp only [walk, Except.ok.injEq] at h
    rw [← h]
    simp [h1, h2, loads]
  | cons a tour ih =>
    cases tour with
    | nil =>
      intro pre w w' h h1 h2
      simp only [walk, Except.ok.injEq] at h
      rw [← h]
      simp [h1, h2, loads]
    | cons b tour =>
      intro pre w w' h h1 h2
      unfold walk at h
      obtain ⟨w₁, hl, h⟩ := bind_eq_ok.1 h
      unfold leg at hl
      dsimp only at hl
      split at hl
      · simp at hl
      · rename_i hne
        simp only [Except.ok.injEq] at hl
        have e1 : w₁.weight = picked Item.weight p packing (pre ++ [a]) := by rw [picked_snoc, ← hl, ← h1]
        have e2 : w₁.profit = picked Item.profit p packing (pre ++ [a]) := by rw [picked_snoc, ← hl, ← h2]
        obtain ⟨g1, g2, g3, g4, g5, g6⟩ := ih (pre ++ [a]) w₁ w' h e1 e2
        have ew : w.weight + ((selected p packing a).map Item.weight).sum = picked Item.weight p packing (pre ++ [a]) := by rw [picked_snoc, h1]
        rw [loads_cons]
        refine ⟨?_, ?_, ?_, ?_, ?_, ?_⟩
        · rw [g1]; simp
        · rw [g2]; simp
        · rw [g3, ← hl, ew]; simp
        · rw [g4, ← hl]
          simp only [List.tail_cons, List.zip_cons_cons, List.map_cons, List.sum_cons]
          ring
        · rw [g5, ← hl, ew]
          simp only [List.tail_cons, List.zip_cons_cons, List.zipWith_cons_cons, List.sum_cons]
          ring
        · intro v hv
          rcases List.mem_cons.1 hv with rfl | hv
          · rw [ew] at hne
            exact fun c => hne (Or.inr c)
          · exact g6 v hv

/-- The loop returns if no speed is zero. -/
theorem walk_ok (p : Problem) (packing : List Int) (hc : p.capacity ≠ 0) : ∀ (tour : List Int) (pre : List Int) (w : Walk), w.weight = picked Item.weight p packing pre →
    (∀ v ∈ loads p packing pre tour, speed p v ≠ 0) → ∃ w', walk p packing tour w = .ok w' := by
  intro tour
  induction tour with
  | nil => intro pre w _ _; exact ⟨w, rfl⟩
  | cons a tour ih =>
    cases tour with
    | nil => intro pre w _ _; exact ⟨w, rfl⟩
    | cons b tour =>
      intro pre w h1 hs
      rw [loads_cons] at hs
      have ew : w.weight + ((selected p packing a).map Item.weight).sum = picked Item.weight p packing (pre ++ [a]) := by rw [picked_snoc, h1]
      unfold walk leg
      dsimp only
      rw [if_neg, bind_ok]
      · exact ih (pre ++ [a]) _ ew fun v hv => hs v (List.mem_cons_of_mem _ hv)
      · rintro (h | h)
        · exact hc h
        · rw [ew] at h
          exact hs _ List.mem_cons_self h

/-- The only error of the loop. -/
theorem walk_error (p : Problem) (packing : List Int) : ∀ (tour : List Int) (pre : List Int) (w : Walk) (e : PyErr), walk p packing tour w = .error e → w.weight = picked Item.weight p packing pre →
    e = .zeroDivisionError ∧ (p.capacity = 0 ∨ ∃ v ∈ loads p packing pre tour, speed p v = 0) := by
  intro tour
  induction tour with
  | nil => intro pre w e h _; simp [walk] at h
  | cons a tour ih =>
    cases tour with
    | nil => intro pre w e h _; simp [walk] at h
    | cons b tour =>
      intro pre w e h h1
      have ew : w.weight + ((selected p packing a).map Item.weight).sum = picked Item.weight p packing (pre ++ [a]) := by rw [picked_snoc, h1]
      rw [loads_cons]
      unfold walk leg at h
      dsimp only at h
      split at h
      · rename_i hz
        rw [bind_error] at h
        simp only [Except.error.injEq] at h
        refine ⟨h.symm, ?_⟩
        rcases hz with hz | hz
        · exact Or.inl hz
        · rw [ew] at hz
          exact Or.inr ⟨_, List.mem_cons_self, hz⟩
      · rw [bind_ok] at h
        obtain ⟨g1, g2⟩ := ih (pre ++ [a]) _ e h ew
        refine ⟨g1, ?_⟩
        rcases g2 with g2 | ⟨v, hv, hz⟩
        · exact Or.inl g2
        · exact Or.inr ⟨v, List.mem_cons_of_mem _ hv, hz⟩

theorem picked_mono {f : Item → Rat} {p : Problem} (hf : ∀ x ∈ p.items, 0 ≤ f x) (packing cities more : List Int) :
    0 ≤ picked f p packing cities ∧ picked f p packing cities ≤ picked f p packing (cities ++ more) := by
  unfold picked
  have hz : ∀ x ∈ p.items.zip packing, 0 ≤ f x.1 := fun x hx => hf x.1 (List.of_mem_zip hx).1
  generalize p.items.zip packing = l at *
  induction l with
  | nil => simp
  | cons x l ih =>
    obtain ⟨h1, h2⟩ := ih fun y hy => hz y (List.mem_cons_of_mem _ hy)
    have h3 := hz x List.mem_cons_self
    simp only [List.map_cons, List.sum_cons]
    have h4 : (0 : Rat) ≤ ((cities.count x.2 : Nat) : Rat) := Nat.cast_nonneg _
    have h5 : ((cities.count x.2 : Nat) : Rat) ≤ (((cities ++ more).count x.2 : Nat) : Rat) := by
      rw [List.count_append]
      exact_mod_cast Nat.le_add_right _ _
    have h6 := mul_nonneg h4 h3
    have h7 := mul_le_mul_of_nonneg_right h5 h3
    exact ⟨by linarith, by linarith⟩

theorem loads_le {p : Problem} (hw : ∀ x ∈ p.items, 0 ≤ x.weight) {packing tour : List Int} {v : Rat} (hv : v ∈ loads p packing [] tour) :
    0 ≤ v ∧ v ≤ picked Item.weight p packing tour.dropLast := by
  unfold loads at hv
  obtain ⟨i, hi, rfl⟩ := List.mem_map.1 hv
  rw [List.mem_range] at hi
  rw [List.nil_append]
  refine ⟨(picked_mono (f := Item.weight) hw packing _ []).1, ?_⟩
  have : tour.dropLast = tour.take (i + 1) ++ tour.dropLast.drop (i + 1) := by
    have h1 : tour.take (i + 1) = tour.dropLast.take (i + 1) := by
      rw [List.dropLast_eq_take, List.take_take, Nat.min_eq_left (by omega)]
    rw [h1, List.take_append_drop]
  rw [this]
  exact (picked_mono (f := Item.weight) hw packing _ _).2

/-- The speed of a knapsack that is not overloaded. -/
theorem speed_bounds {p : Problem} (hc : 0 < p.capacity) (hv : p.vmin ≤ p.vmax) {w : Rat} (h0 : 0 ≤ w) (hw : w ≤ p.capacity) : p.vmin ≤ speed p w ∧ speed p w ≤ p.vmax := by
  unfold speed
  have h1 : 0 ≤ w * (p.vmax - p.vmin) / p.capacity := div_nonneg (mul_nonneg h0 (by linarith)) (le_of_lt hc)
  have h2 : w * (p.vmax - p.vmin) / p.capacity ≤ p.vmax - p.vmin := by
    rw [div_le_iff₀ hc]
    nlinarith
  exact ⟨by linarith, by linarith⟩

theorem zipWith_bounds {l : List (Int × Int)} {vs : List Rat} {p : Problem} (hlen : l.length = vs.length) (hv0 : 0 < p.vmin)
    (hd : ∀ x ∈ l, 0 ≤ p.dist x.1 x.2) (hs : ∀ v ∈ vs, p.vmin ≤ speed p v ∧ speed p v ≤ p.vmax) :
    (l.map fun x => p.dist x.1 x.2).sum / p.vmax ≤ (List.zipWith (fun x v => p.dist x.1 x.2 / speed p v) l vs).sum ∧
    (List.zipWith (fun x v => p.dist x.1 x.2 / speed p v) l vs).sum ≤ (l.map fun x => p.dist x.1 x.2).sum / p.vmin := by
  induction l generalizing vs with
  | nil => simp
  | cons x l ih =>
    cases vs with
    | nil => simp at hlen
    | cons v vs =>
      obtain ⟨h1, h2⟩ := ih (by simpa using hlen) (fun y hy => hd y (List.mem_cons_of_mem _ hy)) (fun y hy => hs y (List.mem_cons_of_mem _ hy))
      obtain ⟨h3, h4⟩ := hs v List.mem_cons_self
      have h5 := hd x List.mem_cons_self
      simp only [List.map_cons, List.sum_cons, List.zipWith_cons_cons, add_div]
      have h6 : p.dist x.1 x.2 / p.vmax ≤ p.dist x.1 x.2 / speed p v := div_le_div_of_nonneg_left h5 (by linarith) h4
      have h7 : p.dist x.1 x.2 / speed p v ≤ p.dist x.1 x.2 / p.vmin := div_le_div_of_nonneg_left h5 hv0 h3
      exact ⟨by linarith, by linarith⟩

theorem length_loads (p : Problem) (packing pre tour : List Int) : (tour.zip tour.tail).length = (loads p packing pre tour).length := by
  unfold loads
  simp

/-! ### Mutations -/

/-- The weight of the items that a packing takes. -/
def packed (p : Problem) (packing : List Int) : Rat := ((p.items.zip packing).map fun x => if x.2 = -1 then 0 else x.1.weight).sum

theorem packed_set_aux : ∀ (items : List Item) (packing : List Int) (i : Nat) (c : Int) (x : Item) (old : Int), items[i]? = some x → packing[i]? = some old →
    ((items.zip (packing.set i c)).map fun x => if x.2 = -1 then (0 : Rat) else x.1.weight).sum =
      ((items.zip packing).map fun x => if x.2 = -1 then (0 : Rat) else x.1.weight).sum + (if c = -1 then 0 else x.weight) - (if old = -1 then 0 else x.weight) := by
  intro items
  induction items with
  | nil => intro packing i c x old h; simp at h
  | cons y items ih =>
    intro packing i c x old h h'
    cases packing with
    | nil => simp at h'
    | cons z packing =>
      cases i with
      | zero =>
        simp only [List.getElem?_cons_zero, Option.some.injEq] at h h'
        rw [← h, ← h']
        simp only [List.set_cons_zero, List.zip_cons_cons, List.map_cons, List.sum_cons]
        ring
      | succ i =>
        simp only [List.getElem?_cons_succ] at h h'
        simp only [List.set_cons_succ, List.zip_cons_cons, List.map_cons, List.sum_cons]
        rw [ih packing i c x old h h']
        ring

theorem packed_set (p : Problem) {packing : List Int} {i : Nat} {c : Int} {x : Item} {old : Int} (h : p.items[i]? = some x) (h' : packing[i]? = some old) :
    packed p (packing.set i c) = packed p packing + (if c = -1 then 0 else x.weight) - (if old = -1 then 0 else x.weight) :=
  packed_set_aux _ _ _ _ _ _ h h'

theorem mem_notUsed {p : Problem} {s : Solution} {i : Nat} : i ∈ notUsed p s ↔ ∃ x, p.items[i]? = some x ∧ s.packing[i]? = some (-1) ∧ s.used + x.weight ≤ p.capacity := by
  unfold notUsed
  rw [List.mem_filter, List.mem_range]
  constructor
  · rintro ⟨-, h⟩
    split at h
    · rename_i x c hx hc
      simp only [Bool.and_eq_true, decide_eq_true_eq] at h
      exact ⟨x, hx, by rw [hc, h.1], h.2⟩
    · simp at h
  · rintro ⟨x, h1, h2, h3⟩
    refine ⟨(List.getElem?_eq_some_iff.1 h1).1, ?_⟩
    rw [h1, h2]
    simp [h3]

theorem mem_usedItems {p : Problem} {s : Solution} {i : Nat} : i ∈ usedItems p s ↔ i < p.items.length ∧ ∃ c, s.packing[i]? = some c ∧ c ≠ -1 := by
  unfold usedItems
  rw [List.mem_filter, List.mem_range]
  constructor
  · rintro ⟨h1, h⟩
    split at h
    · rename_i c hc
      exact ⟨h1, c, hc, by simpa using h⟩
    · simp at h
  · rintro ⟨h1, c, h2, h3⟩
    refine ⟨h1, ?_⟩
    rw [h2]
    simp [h3]

theorem pick_none {l : List Nat} {k : Nat} : l[k % l.length]? = none ↔ l = [] := by
  constructor
  · intro h
    cases l with
    | nil => rfl
    | cons x l =>
      rw [List.getElem?_eq_none_iff] at h
      have := Nat.mod_lt k (show (x :: l).length > 0 by simp)
      omega
  · rintro rfl
    rfl

theorem reversed_perm (tour : List Int) (i j : Nat) : (reversed tour i j).Perm (tour.take i ++ (tour.take (j + 1)).drop i ++ tour.drop (j + 1)) := by
  unfold reversed
  exact ((List.Perm.refl _).append (List.reverse_perm _)).append (List.Perm.refl _)

theorem reversed_parts {tour : List Int} {i j : Nat} (h : i ≤ j + 1) : tour.take i ++ (tour.take (j + 1)).drop i ++ tour.drop (j + 1) = tour := by
  have : tour.take i = (tour.take (j + 1)).take i := by rw [List.take_take, Nat.min_eq_left h]
  rw [this, List.take_append_drop, List.take_append_drop]

theorem mem_allPairs {n i j : Nat} : (i, j) ∈ allPairs n ↔ 1 ≤ i ∧ i < j ∧ j + 1 < n := by
  unfold allPairs
  rw [List.mem_flatMap]
  constructor
  · rintro ⟨i', h1, h2⟩
    obtain ⟨j', h3, h4⟩ := List.mem_map.1 h2
    rw [List.mem_range'_1] at h1 h3
    simp only [Prod.mk.injEq] at h4
    omega
  · rintro ⟨h1, h2, h3⟩
    refine ⟨i, List.mem_range'_1.2 (by omega), List.mem_map.2 ⟨j, List.mem_range'_1.2 (by omega), rfl⟩⟩

end Verif.Ttp
