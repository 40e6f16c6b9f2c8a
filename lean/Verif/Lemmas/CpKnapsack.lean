import Verif.Model.CpKnapsack
import Verif.Lemmas.Knapsack2
import Verif.Props.Knapsack
import Verif.Lemmas.Milp
import Mathlib.Data.List.Sort

namespace Verif.CpKnapsack
open Knapsack

/-- The items of a list of numbers, 0 standing for none. -/
def chosen (items : List Item) (l : List Nat) : List Item := l.filterMap (fun x => if x = 0 then none else items[x - 1]?)

theorem chosen_cons_zero (items : List Item) (l : List Nat) : chosen items (0 :: l) = chosen items l := by simp [chosen]

theorem chosen_cons {items : List Item} {x : Nat} (hx : x ≠ 0) {it : Item} (h : items[x - 1]? = some it) (l : List Nat) :
    chosen items (x :: l) = it :: chosen items l := by
  rw [chosen, List.filterMap_cons_some (b := it) (by simp [hx, h])]; rfl

theorem get_of_dom {items : List Item} {x : Nat} (h0 : x ≠ 0) (h : x ≤ items.length) : ∃ it, items[x - 1]? = some it :=
  ⟨_, List.getElem?_eq_getElem (by omega)⟩

theorem numbered_get {items : List Item} (hn : Numbered items) {i : Nat} {it : Item} (h : items[i]? = some it) : it.index = i ∧ i < items.length := by
  obtain ⟨hi, e⟩ := List.getElem?_eq_some_iff.1 h
  rw [← e]; exact ⟨hn i hi, hi⟩

theorem readItems_spec {items : List Item} (hn : Numbered items) : ∀ (l : List Nat) (t : List Int) (w v : Int), (∀ x ∈ l, x ≤ items.length) →
    t.length = items.length → readItems items l (t, w, v) =
      .ok (mark t (chosen items l), w + ((chosen items l).map Item.weight).sum, v + ((chosen items l).map Item.value).sum)
  | [], t, w, v, _, _ => by simp [readItems, chosen, mark]
  | x :: l, t, w, v, hd, ht => by
    have hd' : ∀ x ∈ l, x ≤ items.length := fun y hy => hd y (List.mem_cons_of_mem _ hy)
    by_cases hx : x = 0
    · subst hx
      rw [readItems, if_neg (by simp), chosen_cons_zero]
      exact readItems_spec hn l t w v hd' ht
    · obtain ⟨it, hit⟩ := get_of_dom hx (hd x (by simp))
      obtain ⟨hidx, hlt⟩ := numbered_get hn hit
      have e1 : pyGet items (x - 1) = .ok it := by unfold pyGet; rw [hit]
      have e2 : pySet t it.index 1 = .ok (t.set it.index 1) := by unfold pySet; rw [if_pos (by omega)]
      rw [readItems, if_pos hx, e1, bind_ok, e2, bind_ok, chosen_cons hx hit,
        readItems_spec hn l (t.set it.index 1) _ _ hd' (by simpa using ht)]
      simp only [mark, List.map_cons, List.sum_cons, Int.add_assoc]

theorem sum_at0 (f : Item → Int) (items : List Item) : ∀ (l : List Nat), (∀ x ∈ l, x ≤ items.length) →
    (l.map (at0 f items)).sum = ((chosen items l).map f).sum
  | [], _ => rfl
  | x :: l, hd => by
    have ih := sum_at0 f items l (fun y hy => hd y (List.mem_cons_of_mem _ hy))
    by_cases hx : x = 0
    · subst hx
      rw [chosen_cons_zero, ← ih]; simp [at0]
    · obtain ⟨it, hit⟩ := get_of_dom hx (hd x (by simp))
      rw [chosen_cons hx hit, List.map_cons, List.sum_cons, List.map_cons, List.sum_cons, ih]
      congr 1
      obtain ⟨y, rfl⟩ : ∃ y, x = y + 1 := ⟨x - 1, by omega⟩
      rw [Nat.add_sub_cancel] at hit
      simp [at0, List.getD, hit]

theorem mem_chosen {items : List Item} (hn : Numbered items) {l : List Nat} {it : Item} :
    it ∈ chosen items l ↔ it.index + 1 ∈ l ∧ items[it.index]? = some it := by
  rw [chosen, List.mem_filterMap]
  constructor
  · rintro ⟨x, hx, h⟩
    by_cases h0 : x = 0
    · simp [h0] at h
    · rw [if_neg h0] at h
      obtain ⟨hidx, -⟩ := numbered_get hn h
      rw [hidx]
      exact ⟨by rw [Nat.sub_add_cancel (by omega)]; exact hx, h⟩
  · rintro ⟨h1, h2⟩
    exact ⟨it.index + 1, h1, by simpa using h2⟩

theorem chosen_nodup {items : List Item} (hn : Numbered items) : ∀ {l : List Nat}, l.Pairwise (fun x y => x = y → x = 0) →
    (∀ x ∈ l, x ≤ items.length) → (chosen items l).Nodup
  | [], _, _ => by simp [chosen]
  | x :: l, h, hd => by
    rw [List.pairwise_cons] at h
    have ih := chosen_nodup hn h.2 (fun y hy => hd y (List.mem_cons_of_mem _ hy))
    by_cases hx : x = 0
    · subst hx; rw [chosen_cons_zero]; exact ih
    · obtain ⟨it, hit⟩ := get_of_dom hx (hd x (by simp))
      rw [chosen_cons hx hit, List.nodup_cons]
      refine ⟨?_, ih⟩
      intro hm
      obtain ⟨h1, -⟩ := (mem_chosen hn).1 hm
      obtain ⟨hidx, -⟩ := numbered_get hn hit
      have : it.index + 1 = x := by omega
      rw [this] at h1
      exact hx (h.1 x h1 rfl)

/-- The packing of a list of numbers. -/
theorem mark_chosen {items : List Item} (hn : Numbered items) {l : List Nat} {p : Nat} (hp : p < items.length) :
    (mark (List.replicate items.length 0) (chosen items l))[p]? = some (if p + 1 ∈ l then 1 else 0) := by
  rw [mark_get _ _ _ (by simpa using hp)]
  by_cases h : p + 1 ∈ l
  · rw [if_pos h, if_pos]
    rw [List.any_eq_true]
    refine ⟨items[p], (mem_chosen hn).2 ?_, by simp [hn p hp]⟩
    rw [hn p hp]
    exact ⟨h, List.getElem?_eq_getElem hp⟩
  · rw [if_neg h, if_neg]
    · simp [hp]
    · rw [List.any_eq_true]
      rintro ⟨it, hm, he⟩
      have he : it.index = p := by simpa using he
      have := ((mem_chosen hn).1 hm).1
      rw [he] at this
      exact h this

theorem packing_of_list {items : List Item} (hn : Numbered items) (l : List Nat) :
    IsPacking items (mark (List.replicate items.length 0) (chosen items l)) := by
  have hl : (mark (List.replicate items.length 0) (chosen items l)).length = items.length := by rw [mark_length]; simp
  refine ⟨hl, ?_⟩
  intro x hx
  obtain ⟨p, hp⟩ := List.mem_iff_getElem?.1 hx
  have hpl : p < items.length := by
    rw [← hl]
    exact (List.getElem?_eq_some_iff.1 hp).1
  rw [mark_chosen hn hpl] at hp
  have := (Option.some.inj hp).symm
  split at this <;> omega

theorem packSum_chosen {items : List Item} (hn : Numbered items) {l : List Nat} (h : l.Pairwise (fun x y => x = y → x = 0))
    (hd : ∀ x ∈ l, x ≤ items.length) (f : Item → Int) :
    packSum f items (mark (List.replicate items.length 0) (chosen items l)) = ((chosen items l).map f).sum := by
  rw [packSum_mark f items hn _ _ (by simp) ?_ (chosen_nodup hn h hd) ?_]
  · have : packSum f items (List.replicate items.length 0) = 0 := by
      unfold packSum
      clear hn h hd
      induction items with
      | nil => rfl
      | cons it items ih => simp only [List.length_cons, List.replicate_succ, List.zipWith_cons_cons, List.sum_cons, ih]; simp
    omega
  · intro it hit
    exact List.mem_of_getElem? ((mem_chosen hn).1 hit).2
  · intro it hit
    have := ((mem_chosen hn).1 hit).2
    have := (List.getElem?_eq_some_iff.1 this).1
    simp [this]

/-! ### Order -/

theorem zeros_last : ∀ {l : List Nat}, l.Pairwise (fun x y => y ≤ x) →
    l = l.filter (fun x => decide (x ≠ 0)) ++ List.replicate (l.length - (l.filter (fun x => decide (x ≠ 0))).length) 0
  | [], _ => rfl
  | x :: l, h => by
    rw [List.pairwise_cons] at h
    by_cases hx : x = 0
    · subst hx
      have hz : ∀ y ∈ l, y = 0 := fun y hy => Nat.le_zero.1 (h.1 y hy)
      have : l.filter (fun x => decide (x ≠ 0)) = [] := by
        rw [List.filter_eq_nil_iff]; intro y hy; simp [hz y hy]
      rw [List.filter_cons_of_neg (by simp), this]
      simp only [List.length_nil, Nat.sub_zero, List.nil_append, List.length_cons, List.replicate_succ]
      congr 1
      exact List.eq_replicate_iff.2 ⟨rfl, hz⟩
    · rw [List.filter_cons_of_pos (by simpa using hx)]
      rw [List.cons_append, List.length_cons, List.length_cons, Nat.add_sub_add_right]
      congr 1
      exact zeros_last h.2

/-- Decreasing lists of equal length with the same numbers, none twice but 0, are equal. -/
theorem decreasing_unique {l l' : List Nat} (hl : l.length = l'.length) (h1 : l.Pairwise (fun x y => y ≤ x))
    (h1' : l'.Pairwise (fun x y => y ≤ x)) (h2 : l.Pairwise (fun x y => x = y → x = 0)) (h2' : l'.Pairwise (fun x y => x = y → x = 0))
    (hm : ∀ x, x ≠ 0 → (x ∈ l ↔ x ∈ l')) : l = l' := by
  have hnd : ∀ {l : List Nat}, l.Pairwise (fun x y => x = y → x = 0) → (l.filter (fun x => decide (x ≠ 0))).Nodup := by
    intro l h
    refine List.Pairwise.imp_of_mem ?_ (List.Pairwise.filter _ h)
    intro a b ha _ hab e
    have := (List.mem_filter.1 ha).2
    simp only [decide_eq_true_eq] at this
    exact this (hab e)
  have hperm : (l.filter (fun x => decide (x ≠ 0))).Perm (l'.filter (fun x => decide (x ≠ 0))) := by
    refine (List.perm_ext_iff_of_nodup (hnd h2) (hnd h2')).2 (fun x => ?_)
    simp only [List.mem_filter, decide_eq_true_eq]
    constructor
    · rintro ⟨a, b⟩; exact ⟨(hm x b).1 a, b⟩
    · rintro ⟨a, b⟩; exact ⟨(hm x b).2 a, b⟩
  have he : l.filter (fun x => decide (x ≠ 0)) = l'.filter (fun x => decide (x ≠ 0)) :=
    List.Perm.eq_of_pairwise (le := fun x y => y ≤ x) (by intro a b _ _ hab hba; omega) (List.Pairwise.filter _ h1) (List.Pairwise.filter _ h1') hperm
  rw [zeros_last h1, zeros_last h1', he, hl]

/-! ### The global constraint -/

/-- Numbers of the items that are taken. -/
def numbers (l : List (Int × Nat)) : List Nat := l.filterMap (fun p => if p.1 ≠ 0 then some (p.2 + 1) else none)

theorem readTaken_eq (items : List Item) : ∀ (l : List (Int × Nat)) (st : List Int × Int × Int),
    readTaken items l st = readItems items (numbers l) st
  | [], st => by simp [readTaken, numbers, readItems]
  | (x, i) :: l, (t, w, v) => by
    have ih := readTaken_eq items l
    by_cases hx : x = 0
    · subst hx
      have e : numbers ((0, i) :: l) = numbers l := by
        rw [numbers, List.filterMap_cons_none (by simp)]; rfl
      rw [readTaken, if_neg (by simp), ih, e]
    · have e : numbers ((x, i) :: l) = (i + 1) :: numbers l := by
        rw [numbers, List.filterMap_cons_some (b := i + 1) (by simp [hx])]; rfl
      rw [readTaken, if_pos hx, e, readItems, if_pos (by simp), Nat.add_sub_cancel]
      simp only [ih]

theorem mem_numbers {ts : List Int} {x : Nat} : x ∈ numbers ts.zipIdx ↔ ∃ i y, x = i + 1 ∧ ts[i]? = some y ∧ y ≠ 0 := by
  rw [numbers, List.mem_filterMap]
  constructor
  · rintro ⟨⟨y, i⟩, hm, h⟩
    rw [List.mem_zipIdx_iff_getElem?] at hm
    by_cases hy : y = 0
    · simp [hy] at h
    · rw [if_pos hy] at h
      exact ⟨i, y, (Option.some.inj h).symm, hm, hy⟩
  · rintro ⟨i, y, rfl, hm, hy⟩
    exact ⟨(y, i), List.mem_zipIdx_iff_getElem?.2 hm, by simp [hy]⟩

theorem numbers_different (ts : List Int) : (numbers ts.zipIdx).Pairwise (fun x y => x = y → x = 0) := by
  unfold numbers
  rw [List.pairwise_filterMap]
  have : ∀ (l : List Int) (k : Nat), (l.zipIdx k).Pairwise (fun p q => p.2 ≠ q.2) := by
    intro l
    induction l with
    | nil => intro k; simp
    | cons x l ih =>
      intro k
      rw [List.zipIdx_cons, List.pairwise_cons]
      refine ⟨?_, ih _⟩
      rintro ⟨y, j⟩ hm
      have := (List.mem_zipIdx hm).1
      show k ≠ j
      omega
  refine List.Pairwise.imp ?_ (this ts 0)
  rintro ⟨x, i⟩ ⟨y, j⟩ hij a ha b hb e
  have hij : i ≠ j := hij
  by_cases hx : x = 0
  · simp [hx] at ha
  · by_cases hy : y = 0
    · simp [hy] at hb
    · simp only [ne_eq, hx, hy, not_false_eq_true, if_true, Option.some.injEq] at ha hb
      omega

/-- A packing is read as itself, with its value and weight. -/
theorem retrieveTaken_spec {items : List Item} (hn : Numbered items) {ts : List Int} (hp : IsPacking items ts) :
    retrieveTaken items ts = .ok ⟨ts, some (packSum Item.value items ts), some (packSum Item.weight items ts)⟩ := by
  have hd : ∀ x ∈ numbers ts.zipIdx, x ≤ items.length := by
    intro x hx
    obtain ⟨i, y, rfl, h, -⟩ := mem_numbers.1 hx
    have := (List.getElem?_eq_some_iff.1 h).1
    rw [hp.1] at this; omega
  have he : mark (List.replicate items.length 0) (chosen items (numbers ts.zipIdx)) = ts := by
    refine List.ext_getElem? (fun p => ?_)
    by_cases h : p < items.length
    · rw [mark_chosen hn h]
      have hpl : p < ts.length := by rw [hp.1]; exact h
      have h01 := hp.2 _ (List.getElem_mem hpl)
      rw [List.getElem?_eq_getElem hpl]
      congr 1
      split
      · rename_i hm
        obtain ⟨i, y, e1, e2, e3⟩ := mem_numbers.1 hm
        obtain rfl : p = i := by omega
        rw [List.getElem?_eq_getElem hpl] at e2
        rw [← Option.some.inj e2] at e3
        omega
      · rename_i hm
        rcases h01 with h0 | h1
        · exact h0.symm
        · exact absurd (mem_numbers.2 ⟨p, ts[p], rfl, List.getElem?_eq_getElem hpl, by omega⟩) hm
    · rw [List.getElem?_eq_none (by rw [mark_length]; simp; omega), List.getElem?_eq_none (by rw [hp.1]; omega)]
  unfold retrieveTaken
  rw [readTaken_eq, readItems_spec hn _ _ _ _ hd (by simp), bind_ok]
  simp only [Int.zero_add]
  rw [← packSum_chosen hn (numbers_different ts) hd, ← packSum_chosen hn (numbers_different ts) hd, he]

theorem inOrder_spec {items : List Item} (hn : Numbered items) {t : List Int} (hl : t.length = items.length) : inOrder items t = .ok t := by
  have : ∀ (k : Nat) (its : List Item) (u : List Int), (∀ (i : Nat) (it : Item), its[i]? = some it → it.index = k + i) → u.length = its.length →
      (∀ i, i < u.length → t[k + i]? = u[i]?) → Milp.mapE (fun it : Item => pyGet t it.index) its = .ok u := by
    intro k its
    induction its generalizing k with
    | nil => intro u _ hu _; simp at hu; subst hu; rfl
    | cons it its ih =>
      intro u h1 h2 h3
      cases u with
      | nil => simp at h2
      | cons x u =>
        have e0 := h1 0 it rfl
        have e1 := h3 0 (by simp)
        rw [Nat.add_zero] at e0 e1
        have e2 : pyGet t it.index = .ok x := by unfold pyGet; rw [e0, e1]; rfl
        have e3 := ih (k + 1) u (by
          intro i it' h
          have := h1 (i + 1) it' (by simpa using h)
          omega) (by simpa using h2) (by
          intro i hi
          have := h3 (i + 1) (by simp; omega)
          rw [List.getElem?_cons_succ] at this
          rw [← this]; congr 1; omega)
        rw [Milp.mapE, e2, bind_ok, e3, bind_ok]
  refine this 0 items t ?_ hl (fun i _ => by rw [Nat.zero_add])
  intro i it h
  rw [Nat.zero_add]
  exact (numbered_get hn h).1

end Verif.CpKnapsack
