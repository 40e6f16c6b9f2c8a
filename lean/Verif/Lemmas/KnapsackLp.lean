import Verif.Model.KnapsackLp
import Verif.Lemmas.Milp
import Verif.Lemmas.FacilityLp
import Verif.Lemmas.Knapsack
/- Helper lemmas about the program of the knapsack solvers. -/
namespace Verif.KnapsackLp
open Verif.Milp Verif.Knapsack
open Verif.FacilityLp (sum_map_congr)

/-- Items in the order of their indices. -/
def Increasing (items : List Item) : Prop := items.Pairwise (fun a b => a.index < b.index)

theorem set_fresh {α : Type} (d : Dict Nat α) (k : Nat) (v : α) (h : k ∉ Dict.keys d) : d.set k v = d ++ [(k, v)] := by
  induction d with
  | nil => rfl
  | cons q d ih =>
    obtain ⟨k', v'⟩ := q
    have h1 : k' ≠ k := fun e => h (by simp [Dict.keys, e])
    have h2 : k ∉ Dict.keys d := fun e => h (by simp only [Dict.keys, List.map_cons, List.mem_cons]; exact .inr e)
    rw [Dict.set, if_neg h1, ih h2]; rfl

theorem fold_set (l : List (Item × Nat)) (hl : (l.map (fun q => q.1.index)).Nodup) : ∀ d : Dict Nat Nat,
    (∀ q, q ∈ l → q.1.index ∉ Dict.keys d) →
    l.foldl (fun d q => d.set q.1.index q.2) d = d ++ l.map (fun q => (q.1.index, q.2)) := by
  induction l with
  | nil => intro d _; simp
  | cons q l ih =>
    intro d hd
    rw [List.map_cons, List.nodup_cons] at hl
    rw [List.foldl_cons, set_fresh d _ _ (hd q (by simp)), ih hl.2]
    · simp
    · intro r hr hmem
      simp only [Dict.keys, List.map_append, List.map_cons, List.map_nil, List.mem_append, List.mem_singleton] at hmem
      rcases hmem with h | h
      · exact hd r (by simp [hr]) h
      · exact hl.1 (List.mem_map.2 ⟨r, hr, h⟩)

theorem zipIdx_eq (items : List Item) :
    items.zipIdx = (List.range items.length).map (fun p => (itemAt items p, p)) := by
  apply List.ext_getElem?
  intro i
  by_cases hi : i < items.length
  · simp [hi, itemAt]
  · rw [List.getElem?_eq_none (by simp; omega), List.getElem?_eq_none (by simp; omega)]

theorem Increasing.nodup {items : List Item} (h : Increasing items) :
    ((List.range items.length).map (fun p => (itemAt items p).index)).Nodup := by
  have : (List.range items.length).map (fun p => (itemAt items p).index) = items.map Item.index := by
    apply List.ext_getElem?
    intro i
    by_cases hi : i < items.length
    · simp [hi, itemAt]
    · rw [List.getElem?_eq_none (by simp; omega), List.getElem?_eq_none (by simp; omega)]
  rw [this]
  refine List.pairwise_map.2 (h.imp ?_)
  intro a b hab; omega

theorem xDict_eq {items : List Item} (h : Increasing items) :
    xDict items = (List.range items.length).map (fun p => ((itemAt items p).index, p)) := by
  unfold xDict
  rw [fold_set, zipIdx_eq]
  · simp [Function.comp_def]
  · rw [zipIdx_eq, List.map_map]; exact h.nodup
  · simp [Dict.keys]

theorem sortBy_of_sorted {α : Type} {key : α → Int} {l : List α} (h : l.Pairwise (fun a b => key a < key b)) :
    sortBy key l = l := by
  refine List.Perm.eq_of_pairwise (le := fun a b : α => key a ≤ key b) ?_ (sortBy_sorted key l)
    (h.imp (by intro a b hab; omega)) (sortBy_perm key l)
  intro a b ha hb h1 h2
  have ha := mem_sortBy.1 ha
  obtain ⟨i, hi, rfl⟩ := List.mem_iff_getElem.1 ha
  obtain ⟨j, hj, rfl⟩ := List.mem_iff_getElem.1 hb
  rw [List.pairwise_iff_getElem] at h
  rcases Nat.lt_trichotomy i j with hij | hij | hij
  · have := h i j hi hj hij; omega
  · subst hij; rfl
  · have := h j i hj hi hij; omega

theorem itemAt_lt {items : List Item} (h : Increasing items) {p q : Nat} (hq : q < items.length) (hpq : p < q) :
    (itemAt items p).index < (itemAt items q).index := by
  have := List.pairwise_iff_getElem.1 h p q (by omega) hq hpq
  simpa [itemAt, hq, show p < items.length by omega] using this

theorem retrieve_taken {items : List Item} (h : Increasing items) (a : Nat → Int) :
    (retrieve items a).taken = (List.range items.length).map (fun p => if 10 * a p ≤ 1 then 0 else 1) := by
  unfold retrieve readX
  simp only
  rw [xDict_eq h, List.map_map, sortBy_of_sorted]
  · simp [Function.comp_def]
  · rw [List.pairwise_map, List.pairwise_iff_getElem]
    intro i j hi hj hij
    simp only [List.length_range] at hi hj
    simp only [List.getElem_range, Function.comp_def]
    have := itemAt_lt h hj hij
    omega

theorem sum_filter_int {α : Type} (l : List α) (q : α → Bool) (w : α → Int) :
    ((l.filter q).map w).sum = (l.map (fun x => (if q x then 1 else 0) * w x)).sum := by
  induction l with
  | nil => rfl
  | cons x l ih =>
    rw [List.filter_cons, List.map_cons, List.sum_cons, ← ih]
    by_cases h : q x <;> simp [h]

theorem packSum_range (f : Item → Int) (items : List Item) (t : Nat → Int) :
    packSum f items ((List.range items.length).map t) = ((List.range items.length).map (fun p => t p * f (itemAt items p))).sum := by
  unfold packSum
  congr 1
  apply List.ext_getElem?
  intro i
  by_cases hi : i < items.length
  · simp [hi, itemAt]
  · rw [List.getElem?_eq_none (by simp; omega), List.getElem?_eq_none (by simp; omega)]

/-- What feasibility says. -/
theorem feasible_iff {items : List Item} (h : Increasing items) {cap : Int} {a : Nat → Int} :
    (initModel items cap).Feasible a ↔ (∀ p, p < items.length → a p = 0 ∨ a p = 1) ∧
      ((List.range items.length).map (fun p => (itemAt items p).weight * a p)).sum ≤ cap := by
  have hrow : (Row.Holds ⟨(xDict items).map (fun q => ((itemAt items q.2).weight, q.2)), .le, cap⟩ a) ↔
      ((List.range items.length).map (fun p => (itemAt items p).weight * a p)).sum ≤ cap := by
    simp only [Row.Holds]
    rw [xDict_eq h, List.map_map, value_map]; rfl
  constructor
  · rintro ⟨hv, hr⟩
    refine ⟨?_, hrow.1 (hr _ (by simp [initModel]))⟩
    intro p hp
    exact hv p .binary (List.mem_map.2 ⟨p, List.mem_range.2 hp, rfl⟩)
  · rintro ⟨h1, h2⟩
    constructor
    · intro v k hk
      obtain ⟨p, hp, heq⟩ := List.mem_map.1 hk
      cases heq
      exact h1 _ (List.mem_range.1 hp)
    · intro r hr
      simp only [initModel, List.mem_singleton] at hr
      subst hr
      exact hrow.2 h2

theorem objective_value (items : List Item) (cap : Int) (a : Nat → Int) :
    (initModel items cap).objective.value a = ((List.range items.length).map (fun p => (itemAt items p).value * a p)).sum := by
  simp only [initModel, value_map]

/-- The packing read from zeros and ones. -/
theorem retrieve_bin {items : List Item} (h : Increasing items) {a : Nat → Int}
    (ha : ∀ p, p < items.length → a p = 0 ∨ a p = 1) :
    (retrieve items a).taken = (List.range items.length).map a ∧
    (retrieve items a).value = some (packSum Item.value items ((List.range items.length).map a)) ∧
    (retrieve items a).weight = some (packSum Item.weight items ((List.range items.length).map a)) := by
  have hsel : ∀ f : Item → Int, (((xDict items).filter (fun q => !decide (10 * a q.2 ≤ 1))).map (fun q => f (itemAt items q.2))).sum =
      packSum f items ((List.range items.length).map a) := by
    intro f
    rw [packSum_range, sum_filter_int, xDict_eq h, List.map_map]
    refine sum_map_congr ?_
    intro p hp
    simp only [Function.comp_def]
    rcases ha p (List.mem_range.1 hp) with h0 | h0 <;> simp [h0]
  refine ⟨?_, congrArg some (hsel _), congrArg some (hsel _)⟩
  rw [retrieve_taken h]
  refine List.map_congr_left ?_
  intro p hp
  rcases ha p (List.mem_range.1 hp) with h0 | h0 <;> simp [h0]

end Verif.KnapsackLp
