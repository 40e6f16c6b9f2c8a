import Verif.Lemmas.KnapsackLp
import Verif.Props.Knapsack
/- Property C110: the linear programs of the knapsack solvers. -/
namespace Verif.KnapsackLp
open Verif.Milp Verif.Knapsack
open Verif.FacilityLp (sum_map_congr)

/-- C110: with items listed by increasing index, every feasible assignment is read as a packing that fits, with the value
and weight of that packing, and the value is the objective; every fitting packing is read from such an assignment. -/
theorem C110_packings_partial {items : List Item} (h : Increasing items) (cap : Int) :
    (∀ a, (initModel items cap).Feasible a →
      IsPacking items (retrieve items a).taken ∧
      (retrieve items a).value = some (packSum Item.value items (retrieve items a).taken) ∧
      (retrieve items a).weight = some (packSum Item.weight items (retrieve items a).taken) ∧
      packSum Item.weight items (retrieve items a).taken ≤ cap ∧
      (initModel items cap).objective.value a = packSum Item.value items (retrieve items a).taken) ∧
    ∀ t, IsPacking items t → packSum Item.weight items t ≤ cap →
      ∃ a, (initModel items cap).Feasible a ∧ (retrieve items a).taken = t := by
  constructor
  · intro a ha
    obtain ⟨h01, hcap⟩ := (feasible_iff h).1 ha
    obtain ⟨h1, h2, h3⟩ := retrieve_bin h h01
    rw [h1, h2, h3, objective_value, packSum_range, packSum_range]
    refine ⟨⟨by simp, ?_⟩, rfl, rfl, ?_, ?_⟩
    · intro x hx
      obtain ⟨p, hp, rfl⟩ := List.mem_map.1 hx
      exact h01 p (List.mem_range.1 hp)
    · refine Int.le_trans (Int.le_of_eq ?_) hcap
      exact sum_map_congr (fun p _ => Int.mul_comm _ _)
    · exact sum_map_congr (fun p _ => Int.mul_comm _ _)
  · rintro t ⟨hlen, h01⟩ hcap
    have ht : t = (List.range items.length).map (fun p => t.getD p 0) := by
      apply List.ext_getElem?
      intro i
      by_cases hi : i < items.length
      · simp [hi, hlen]
      · rw [List.getElem?_eq_none (by omega), List.getElem?_eq_none (by simp; omega)]
    have hb : ∀ p, p < items.length → t.getD p 0 = 0 ∨ t.getD p 0 = 1 := by
      intro p hp
      refine h01 _ ?_
      rw [List.getD_eq_getElem?_getD, List.getElem?_eq_getElem (by omega)]
      simp
    refine ⟨fun p => t.getD p 0, (feasible_iff h).2 ⟨hb, ?_⟩, ?_⟩
    · rw [ht, packSum_range] at hcap
      refine Int.le_trans (Int.le_of_eq ?_) hcap
      exact sum_map_congr (fun p _ => Int.mul_comm _ _)
    · rw [(retrieve_bin h hb).1]; exact ht.symm

/-- C110: with items listed by increasing index, a best assignment is read as a fitting packing of the greatest value. -/
theorem C110_optimal_partial {items : List Item} (h : Increasing items) {cap : Int} {a : Nat → Int}
    (ha : (initModel items cap).Greatest a) :
    packSum Item.weight items (retrieve items a).taken ≤ cap ∧
    ∀ t, IsPacking items t → packSum Item.weight items t ≤ cap →
      packSum Item.value items t ≤ packSum Item.value items (retrieve items a).taken := by
  obtain ⟨h1, h2⟩ := C110_packings_partial h cap
  obtain ⟨-, -, -, hw, hv⟩ := h1 a ha.1
  refine ⟨hw, ?_⟩
  intro t ht hc
  obtain ⟨b, hb, hbt⟩ := h2 t ht hc
  have h3 := (h1 b hb).2.2.2.2
  rw [hbt] at h3
  have := ha.2 b hb
  omega

theorem xDict_get {items : List Item} (h : Numbered items) {i : Nat} (hi : i < items.length) : (xDict items).get i = .ok i := by
  have hinc : Increasing items := by
    unfold Increasing
    rw [List.pairwise_iff_getElem]
    intro p q hp hq hpq
    rw [h p hp, h q hq]; exact hpq
  rw [xDict_eq hinc]
  have : (List.range items.length).map (fun p => ((itemAt items p).index, p)) = (List.range items.length).map (fun p => (p, p)) := by
    refine List.map_congr_left ?_
    intro p hp
    have hp := List.mem_range.1 hp
    have := h p hp
    simp [itemAt, hp, this]
  rw [this]
  have hg : Dict.get? ((List.range items.length).map (fun p => (p, p))) i = some i := by
    refine Dict.get?_of_mem ?_ (List.mem_map.2 ⟨i, List.mem_range.2 hi, rfl⟩)
    simp [Dict.keys, Function.comp_def, List.nodup_range]
  simp [Dict.get, hg]

theorem numbered_increasing {items : List Item} (h : Numbered items) : Increasing items := by
  unfold Increasing
  rw [List.pairwise_iff_getElem]
  intro p q hp hq hpq
  rw [h p hp, h q hq]; exact hpq

/-- C110: in the large neighbourhood search over items numbered by position, fixing any decisions of a fitting packing leaves
it feasible; so a best assignment of the restricted program fits, is at least as valuable, and keeps the
fixed decisions. -/
theorem C110_lns_partial {items : List Item} (hn : Numbered items) {cap : Int} {t : List Int} (ht : IsPacking items t)
    (hc : packSum Item.weight items t ≤ cap) {fixed : List Nat} (hf : ∀ i, i ∈ fixed → i < items.length) :
    ∃ rows, fixRows items t fixed = .ok rows ∧ (∃ a, (withRows (initModel items cap) rows).Feasible a) ∧
      ∀ a, (withRows (initModel items cap) rows).Greatest a →
        IsPacking items (retrieve items a).taken ∧ packSum Item.weight items (retrieve items a).taken ≤ cap ∧
        packSum Item.value items t ≤ packSum Item.value items (retrieve items a).taken ∧
        ∀ i, i ∈ fixed → (retrieve items a).taken[i]? = t[i]? := by
  have h := numbered_increasing hn
  have hrows : fixRows items t fixed = .ok (fixed.map (fun i => ⟨[(1, i)], .eq, t.getD i 0⟩)) := by
    refine mapE_ok (g := fun i => (⟨[(1, i)], .eq, t.getD i 0⟩ : Row Nat)) ?_
    intro i hi
    have hi := hf i hi
    have : pyGet t i = .ok (t.getD i 0) := by
      rw [pyGet_ok_iff, List.getD_eq_getElem?_getD, List.getElem?_eq_getElem (by rw [ht.1]; exact hi)]; rfl
    rw [xDict_get hn hi, bind_ok, this, bind_ok]
  have hsplit : ∀ a, (withRows (initModel items cap) (fixed.map (fun i => ⟨[(1, i)], .eq, t.getD i 0⟩))).Feasible a ↔
      (initModel items cap).Feasible a ∧ ∀ i, i ∈ fixed → a i = t.getD i 0 := by
    intro a
    unfold withRows Program.Feasible
    simp only [List.mem_append, List.mem_map]
    constructor
    · rintro ⟨h1, h2⟩
      refine ⟨⟨h1, fun r hr => h2 r (.inl hr)⟩, ?_⟩
      intro i hi
      have := h2 _ (.inr ⟨i, hi, rfl⟩)
      simpa [Row.Holds, Lin.value] using this
    · rintro ⟨⟨h1, h2⟩, h3⟩
      refine ⟨h1, ?_⟩
      rintro r (hr | ⟨i, hi, rfl⟩)
      · exact h2 r hr
      · simpa [Row.Holds, Lin.value] using h3 i hi
  obtain ⟨hsound, hcomp⟩ := C110_packings_partial h cap
  obtain ⟨b, hb, hbt⟩ := hcomp t ht hc
  have hb01 := ((feasible_iff h).1 hb).1
  have hbr := (retrieve_bin h hb01).1
  have hbf : ∀ i, i ∈ fixed → b i = t.getD i 0 := by
    intro i hi
    have hi := hf i hi
    rw [← hbt, hbr]
    simp [hi]
  refine ⟨_, hrows, ⟨b, (hsplit b).2 ⟨hb, hbf⟩⟩, ?_⟩
  intro a ha
  obtain ⟨haf, hafix⟩ := (hsplit a).1 ha.1
  obtain ⟨h1, -, -, h2, h3⟩ := hsound a haf
  refine ⟨h1, h2, ?_, ?_⟩
  · have hbv := (hsound b hb).2.2.2.2
    rw [hbt] at hbv
    have := ha.2 b ((hsplit b).2 ⟨hb, hbf⟩)
    have hobj : ∀ c, (withRows (initModel items cap) (fixed.map (fun i => ⟨[(1, i)], .eq, t.getD i 0⟩))).objective.value c =
      (initModel items cap).objective.value c := fun _ => rfl
    rw [hobj, hobj] at this
    omega
  · intro i hi
    have hi' := hf i hi
    rw [(retrieve_bin h ((feasible_iff h).1 haf).1).1]
    have : t[i]? = some (t.getD i 0) := by
      rw [List.getD_eq_getElem?_getD, List.getElem?_eq_getElem (by rw [ht.1]; exact hi')]; rfl
    rw [this, ← hafix i hi]
    simp [hi']

/-- C110: with items not listed by index the entries of `list_taken` are those of other items: the best assignment is read
as a vector whose weight, by the problem's own count, exceeds the capacity and whose value is not the reported one. -/
theorem C110_order_refuted :
    ∃ (items : List Item) (cap : Int) (a : Nat → Int), (items.map Item.index).Nodup ∧ (initModel items cap).Greatest a ∧
      (∀ it, it ∈ items → 0 ≤ it.weight ∧ 0 ≤ it.value) ∧
      IsPacking items (retrieve items a).taken ∧ ¬ packSum Item.weight items (retrieve items a).taken ≤ cap ∧
      (retrieve items a).value ≠ some (packSum Item.value items (retrieve items a).taken) := by
  refine ⟨[⟨1, 5, 1⟩, ⟨0, 9, 4⟩], 3, fun p => if p = 0 then 1 else 0, by decide, ⟨?_, ?_⟩, by decide, ?_, by decide, by decide⟩
  · constructor
    · intro v k hk
      simp only [initModel, List.length_cons, List.length_nil, List.range_succ, List.range_zero, List.nil_append,
        List.cons_append, List.map_cons, List.map_nil, List.mem_cons, Prod.mk.injEq, List.not_mem_nil, or_false] at hk
      rcases hk with ⟨rfl, rfl⟩ | ⟨rfl, rfl⟩ <;> simp [Kind.Allows]
    · intro r hr
      simp only [initModel, List.mem_singleton] at hr
      subst hr
      simp only [Row.Holds]
      decide
  · intro b hb
    have h0 : b 0 = 0 ∨ b 0 = 1 := hb.1 0 .binary (by decide)
    have h1 : b 1 = 0 ∨ b 1 = 1 := hb.1 1 .binary (by decide)
    have hrow := hb.2 ⟨[(1, 0), (4, 1)], .le, 3⟩ (by decide)
    have hr : b 0 + 4 * b 1 ≤ 3 := by
      simp only [Row.Holds, Lin.value, List.map_cons, List.map_nil, List.sum_cons, List.sum_nil] at hrow
      omega
    have hobj : ∀ c : Nat → Int, (initModel [⟨1, 5, 1⟩, ⟨0, 9, 4⟩] 3).objective.value c = 5 * c 0 + (9 * c 1 + 0) := by
      intro c; rfl
    rw [hobj, hobj]
    simp only [if_true, show ((1 : Nat) = 0) = False by simp, if_false]
    omega
  · exact ⟨by decide, by decide⟩

/-- Items numbered from 3 on with gaps; the hypotheses of the theorems are met. -/
example : Increasing [⟨3, 5, 1⟩, ⟨4, 2, 2⟩, ⟨9, 9, 4⟩] ∧
    ∃ a, (initModel [⟨3, 5, 1⟩, ⟨4, 2, 2⟩, ⟨9, 9, 4⟩] 5).Feasible a ∧
      (retrieve [⟨3, 5, 1⟩, ⟨4, 2, 2⟩, ⟨9, 9, 4⟩] a).taken = [1, 0, 1] := by
  have h : Increasing [⟨3, 5, 1⟩, ⟨4, 2, 2⟩, ⟨9, 9, 4⟩] := by unfold Increasing; decide
  exact ⟨h, (C110_packings_partial h 5).2 [1, 0, 1] ⟨rfl, by decide⟩ (by decide)⟩

/-- Items numbered by position: decisions fixed for items 0 and 2. -/
example : ∃ rows, fixRows [⟨0, 5, 1⟩, ⟨1, 2, 2⟩, ⟨2, 9, 4⟩] [1, 1, 0] [0, 2] = .ok rows ∧ rows.length = 2 := by
  exact ⟨_, rfl, rfl⟩

end Verif.KnapsackLp
