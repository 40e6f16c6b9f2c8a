import Verif.Lemmas.Knapsack
import Verif.Lemmas.Moves
/-
Helper lemmas: packings under flips, sorting of items, the greedy loop.
-/
namespace Verif.Knapsack

theorem packSum_set (f : Item → Int) : ∀ (items : List Item) (l : List Int) (i : Nat) (y : Int)
    (h1 : i < l.length) (h2 : i < items.length),
    packSum f items (l.set i y) = packSum f items l + (y - l[i]) * f items[i]
  | [], _, _, _, _, h => by simp at h
  | _, [], _, _, h, _ => by simp at h
  | it :: items, x :: l, 0, y, _, _ => by
    simp only [packSum, List.set_cons_zero, List.zipWith_cons_cons, List.sum_cons,
      List.getElem_cons_zero, Int.sub_mul]
    omega
  | it :: items, x :: l, i + 1, y, h1, h2 => by
    have ih := packSum_set f items l i y (by simpa using h1) (by simpa using h2)
    simp only [packSum, List.set_cons_succ, List.zipWith_cons_cons, List.sum_cons,
      List.getElem_cons_succ] at ih ⊢
    omega

/-- The flip loop computes the flipped list and keeps weight and value exact. -/
theorem flipLoop_spec (items : List Item) : ∀ (is : List Nat) (l : List Int),
    l.length = items.length → (∀ x ∈ l, x = 0 ∨ x = 1) → (∀ i ∈ is, i < items.length) →
    ∃ l', flipLoop items is (l, packSum Item.weight items l, packSum Item.value items l)
        = .ok (l', packSum Item.weight items l', packSum Item.value items l') ∧
      Moves.bitFlipApply is l = .ok l' ∧ l'.length = items.length ∧ (∀ x ∈ l', x = 0 ∨ x = 1)
  | [], l, hl, h01, _ => ⟨l, rfl, rfl, hl, h01⟩
  | i :: is, l, hl, h01, hi => by
    have h2 : i < items.length := hi i (by simp)
    have h1 : i < l.length := by omega
    have hx := h01 _ (List.getElem_mem h1)
    have h01' : ∀ x ∈ l.set i (1 - l[i]), x = 0 ∨ x = 1 := by
      intro x hx'
      rcases List.mem_or_eq_of_mem_set hx' with h | h
      · exact h01 x h
      · omega
    obtain ⟨l', q1, q2, q3, q4⟩ := flipLoop_spec items is (l.set i (1 - l[i])) (by simpa using hl) h01'
      (fun j hj => hi j (by simp [hj]))
    refine ⟨l', ?_, ?_, q3, q4⟩
    · simp only [flipLoop, pyGet_of_lt h1, pyGet_of_lt h2, bind_ok, pySet, h1, if_true]
      rw [packSum_set _ _ _ _ _ h1 h2, packSum_set _ _ _ _ _ h1 h2] at q1
      split
      · rename_i h
        have e : 1 - l[i] - l[i] = -1 := by omega
        rw [e] at q1
        simp only [Int.neg_mul, Int.one_mul] at q1
        exact q1
      · rename_i h
        have e : 1 - l[i] - l[i] = 1 := by omega
        rw [e] at q1
        simp only [Int.one_mul] at q1
        exact q1
    · simp only [Moves.bitFlipApply, pyGet_of_lt h1, bind_ok, pySet, h1, if_true, q2]

/-! ### Sorting -/

theorem insDesc_perm (key : Item → Rat) (x : Item) (l : List Item) :
    (insDesc key x l).Perm (x :: l) := by
  induction l with
  | nil => exact List.Perm.refl _
  | cons y l ih =>
    simp only [insDesc]
    split
    · exact List.Perm.refl _
    · exact (ih.cons y).trans (List.Perm.swap x y l)

theorem sortDesc_perm (key : Item → Rat) (l : List Item) : (sortDesc key l).Perm l := by
  induction l with
  | nil => exact List.Perm.refl _
  | cons x l ih => exact (insDesc_perm key x _).trans (ih.cons x)

theorem insDesc_sorted (key : Item → Rat) (x : Item) (l : List Item)
    (h : l.Pairwise (fun a b => key b ≤ key a)) :
    (insDesc key x l).Pairwise (fun a b => key b ≤ key a) := by
  induction l with
  | nil => simp [insDesc]
  | cons y l ih =>
    simp only [insDesc]
    rw [List.pairwise_cons] at h
    split
    · rename_i hxy
      rw [List.pairwise_cons, List.pairwise_cons]
      refine ⟨?_, h⟩
      intro z hz
      rcases List.mem_cons.1 hz with rfl | hz
      · exact hxy
      · exact Rat.le_trans (h.1 z hz) hxy
    · rename_i hxy
      rw [List.pairwise_cons]
      refine ⟨?_, ih h.2⟩
      intro z hz
      rcases List.mem_cons.1 ((insDesc_perm key x l).mem_iff.1 hz) with rfl | hz
      · exact (Rat.le_total (a := key z) (b := key y)).resolve_right hxy
      · exact h.1 z hz

theorem sortDesc_sorted (key : Item → Rat) (l : List Item) :
    (sortDesc key l).Pairwise (fun a b => key b ≤ key a) := by
  induction l with
  | nil => simp [sortDesc]
  | cons x l ih => exact insDesc_sorted key x _ ih

/-! ### Greedy -/

/-- The greedy rule on a queue, without the `taken` bookkeeping: the list of chosen items,
scanning the queue with the weight used so far. -/
def choose (cap : Int) : Int → List Item → List Item
  | _, [] => []
  | w, it :: q => if it.weight + w ≤ cap then it :: choose cap (w + it.weight) q else choose cap w q

theorem choose_sublist (cap : Int) (w : Int) (q : List Item) : (choose cap w q).Sublist q := by
  induction q generalizing w with
  | nil => exact List.Sublist.refl _
  | cons it q ih =>
    simp only [choose]
    split
    · exact (ih _).cons_cons it
    · exact (ih _).cons it

theorem choose_weight (cap : Int) (w : Int) (q : List Item) (hw : w ≤ cap) :
    w + ((choose cap w q).map Item.weight).sum ≤ cap := by
  induction q generalizing w with
  | nil => simpa [choose] using hw
  | cons it q ih =>
    simp only [choose]
    split
    · rename_i h
      have := ih (w + it.weight) (by omega)
      simp only [List.map_cons, List.sum_cons]
      omega
    · exact ih w hw

/-- Set position `index` of each listed item to 1. -/
def mark (t : List Int) : List Item → List Int
  | [] => t
  | it :: q => mark (t.set it.index 1) q

theorem mark_length (t : List Int) (q : List Item) : (mark t q).length = t.length := by
  induction q generalizing t with
  | nil => rfl
  | cons it q ih => simp [mark, ih]

theorem greedyLoop_spec (cap : Int) (queue : List Item) : ∀ (q pre : List Item) (t : List Int) (v w : Int),
    queue = pre ++ q → (∀ it ∈ q, it.index < t.length) →
    greedyLoop cap queue (List.range' pre.length q.length) (t, v, w) =
      .ok (mark t (choose cap w q), v + ((choose cap w q).map Item.value).sum,
        w + ((choose cap w q).map Item.weight).sum)
  | [], pre, t, v, w, _, _ => by simp [greedyLoop, choose, mark]
  | it :: q, pre, t, v, w, hq, hi => by
    have hget : pyGet queue pre.length = .ok it := by
      rw [pyGet_ok_iff, hq]; simp
    have hl : it.index < t.length := hi it (by simp)
    have hpre : queue = (pre ++ [it]) ++ q := by simp [hq]
    simp only [List.length_cons, List.range'_succ, greedyLoop, hget, bind_ok]
    by_cases h : it.weight + w ≤ cap
    · have := greedyLoop_spec cap queue q (pre ++ [it]) (t.set it.index 1) (v + it.value)
        (w + it.weight) hpre (fun j hj => by simpa using hi j (by simp [hj]))
      simp only [List.length_append, List.length_singleton] at this
      simp only [h, if_true, pySet, hl, bind_ok, this, choose, mark, List.map_cons, List.sum_cons]
      simp only [Int.add_assoc]
    · have := greedyLoop_spec cap queue q (pre ++ [it]) t v w hpre (fun j hj => hi j (by simp [hj]))
      simp only [List.length_append, List.length_singleton] at this
      simp only [h, if_false, this, choose]

theorem mark_get (t : List Int) (q : List Item) (p : Nat) (hp : p < t.length) :
    (mark t q)[p]? = if q.any (fun it => decide (it.index = p)) then some 1 else t[p]? := by
  induction q generalizing t with
  | nil => simp [mark]
  | cons it q ih =>
    rw [mark, ih _ (by simpa using hp)]
    simp only [List.any_cons, Bool.or_eq_true]
    by_cases h1 : it.index = p
    · subst h1
      simp [hp]
    · simp [h1, List.getElem?_set_ne h1]

/-- The value of the packing marked by distinct items of a numbered instance. -/
theorem packSum_mark (f : Item → Int) (items : List Item) (hn : Numbered items) :
    ∀ (q : List Item) (t : List Int), t.length = items.length → (∀ it ∈ q, it ∈ items) → q.Nodup →
    (∀ it ∈ q, t[it.index]? = some 0) →
    packSum f items (mark t q) = packSum f items t + (q.map f).sum
  | [], t, _, _, _, _ => by simp [mark]
  | it :: q, t, hl, hm, hnd, hz => by
    rw [List.nodup_cons] at hnd
    have hit := hm it (by simp)
    obtain ⟨i, hi, hie⟩ := List.mem_iff_getElem.1 hit
    have hidx : it.index = i := by rw [← hie]; exact hn i hi
    have hil : it.index < t.length := by omega
    rw [mark, packSum_mark f items hn q (t.set it.index 1) (by simpa using hl)
      (fun j hj => hm j (by simp [hj])) hnd.2]
    · rw [packSum_set f items t it.index 1 hil (by omega)]
      have h0 := hz it (by simp)
      rw [List.getElem?_eq_getElem hil] at h0
      simp only [Option.some.injEq] at h0
      have e : items[it.index]'(by omega) = it := by simp [hidx, hie]
      rw [h0, e]
      simp only [List.map_cons, List.sum_cons]
      omega
    · intro j hj
      have hne : it.index ≠ j.index := by
        intro h
        obtain ⟨k, hk, hke⟩ := List.mem_iff_getElem.1 (hm j (by simp [hj]))
        have hjdx : j.index = k := by rw [← hke]; exact hn k hk
        have : it = j := by
          rw [← hie, ← hke]
          congr 1; omega
        subst this
        exact hnd.1 hj
      rw [List.getElem?_set_ne hne]
      exact hz j (by simp [hj])

end Verif.Knapsack
