import Verif.Lemmas.Knapsack2
/-
Properties C17, C18, C19: knapsack dynamic programming, evaluation and moves, greedy.
-/
namespace Verif.Knapsack
open Verif.Core (mapE)

/-- A packing: one 0/1 entry per item. -/
def IsPacking (items : List Item) (t : List Int) : Prop :=
  t.length = items.length ∧ ∀ x ∈ t, x = 0 ∨ x = 1

/-- Every taken item is one of the listed positions. -/
def TakenAmong (ps : List Nat) (t : List Int) : Prop :=
  ∀ (p : Nat), t[p]? = some 1 → p ∈ ps

/-! ## C17 -/

/-- C17 in general form: for items numbered by position with non-negative weights, any
duplicate-free processing order and any number of processed items (the solver may be stopped
by its item or time limit), the solver returns without error a packing of processed items
that fits, whose reported value and weight are its own, and which is at least as valuable as
every fitting packing of processed items. -/
theorem C17_optimal_among_processed (items : List Item) (cap : Int) (order : List Nat) (iters : Nat)
    (hnum : Numbered items) (hw : ∀ it ∈ items, 0 ≤ it.weight) (hcap : 0 ≤ cap)
    (hnd : order.Nodup) (hlt : ∀ p ∈ order, p < items.length) (hit : iters ≤ order.length) :
    ∃ t v w, dpSolve items cap order iters = .ok (t, v, w) ∧ IsPacking items t ∧
      TakenAmong (order.take iters) t ∧
      v = packSum Item.value items t ∧ w = packSum Item.weight items t ∧ w ≤ cap ∧
      ∀ t', IsPacking items t' → TakenAmong (order.take iters) t' →
        packSum Item.weight items t' ≤ cap → packSum Item.value items t' ≤ v := by
  -- the processed items
  have hres : mapE (fun k => do
      let idx ← pyGet order k
      let p ← indexToPos items idx
      pyGet items p) (List.range iters)
      = .ok ((List.range iters).map (fun k => (items[(order[k]?).getD 0]?).getD ⟨0, 0, 0⟩)) := by
    apply mapE_ok_map
    intro k hk
    rw [List.mem_range] at hk
    have hk' : k < order.length := by omega
    have hp : order[k] < items.length := hlt _ (List.getElem_mem hk')
    rw [pyGet_of_lt hk']
    simp only [bind_ok, indexToPos_numbered hnum hp, pyGet_of_lt hp]
    simp [hk', hp]
  generalize hosdef : (List.range iters).map (fun k => (items[(order[k]?).getD 0]?).getD ⟨0, 0, 0⟩)
    = os at hres
  have hos : ∀ (j : Nat) (h : j < iters), os[j]? = items[order[j]]? := by
    intro j h
    have hp : order[j] < items.length := hlt _ (List.getElem_mem (by omega))
    have hj : j < order.length := by omega
    subst hosdef
    simp [h, hj, hp]
  have hosl : os.length = iters := by rw [← hosdef]; simp
  have hosmem : ∀ it ∈ os, it ∈ items ∧ it.index < items.length := by
    intro it h
    obtain ⟨j, hj, rfl⟩ := List.mem_iff_getElem.1 h
    have h1 := hos j (by omega)
    rw [List.getElem?_eq_getElem hj] at h1
    have h2 : order[j]'(by omega) < items.length := hlt _ (List.getElem_mem (by omega))
    rw [List.getElem?_eq_getElem h2] at h1
    simp only [Option.some.injEq] at h1
    rw [h1]
    exact ⟨List.getElem_mem h2, by rw [hnum _ h2]; exact h2⟩
  have hosidx : ∀ (j : Nat) (it : Item) (h : j < iters), os[j]? = some it → it.index = order[j] := by
    intro j it h hj
    rw [hos j h] at hj
    have h2 : order[j] < items.length := hlt _ (List.getElem_mem (by omega))
    rw [List.getElem?_eq_getElem h2] at hj
    cases hj
    exact hnum _ h2
  obtain ⟨hs1, hs2⟩ := startRow_spec os cap iters
  generalize hk0 : startRow os cap iters = k0 at hs1 hs2
  obtain ⟨x, t, h1, h2, h3, h4, h5, h6⟩ := backtrack_spec os k0 (if k0 = 0 then 0 else cap)
    (List.replicate items.length 0) 0 0 (by simpa using fun it h => (hosmem it h).2) (by omega)
  have hlen : t.length = items.length := by simpa using h5
  -- the packing read at the processed positions is the selection
  have hx : ∀ (j : Nat) (h : j < k0), x j = (t[order[j]]?).getD 0 := by
    intro j h
    have hj : j < iters := by omega
    have hp : order[j] < items.length := hlt _ (List.getElem_mem (by omega))
    have hosj := hos j hj
    rw [List.getElem?_eq_getElem hp] at hosj
    rcases h6 order[j] (by simpa using hp) with ⟨q1, j', it, q2, q3, q4, q5⟩ | ⟨q1, q2⟩
    · have e := hosidx j' it (by omega) q3
      rw [q5] at e
      have : j = j' := (List.getElem_inj hnd).1 e
      subst this
      rw [q1, q4]; rfl
    · have e := q2 j _ h hosj
      rcases h2 j with h0 | h0
      · rw [q1, h0]; simp [hp]
      · exact absurd (hosidx j _ hj hosj) (e h0)
  have hsup : ∀ p, p < items.length → p ∉ order.take k0 → t[p]? = some 0 := by
    intro p hp hnp
    rcases h6 p (by simpa using hp) with ⟨q1, j', it, q2, q3, q4, q5⟩ | ⟨q1, q2⟩
    · exfalso
      apply hnp
      have e := hosidx j' it (by omega) q3
      rw [q5] at e
      rw [List.mem_take_iff_getElem]
      exact ⟨j', by omega, e.symm⟩
    · rw [q1]; simp [hp]
  have hval : ∀ f : Item → Int, ssum (fun j => x j * (os[j]?.elim 0 f)) k0 = packSum f items t :=
    fun f => ssum_order f hlen hnd hlt (by omega) hsup x hx os (fun j h => hos j (by omega))
  have hpack : IsPacking items t := by
    refine ⟨hlen, ?_⟩
    intro y hy
    obtain ⟨p, hp, rfl⟩ := List.mem_iff_getElem.1 hy
    rcases h6 p (by simpa using (by omega : p < items.length)) with ⟨q1, _⟩ | ⟨q1, _⟩
    · rw [List.getElem?_eq_getElem hp] at q1; exact .inr (by simpa using q1)
    · rw [List.getElem?_eq_getElem hp, List.getElem?_replicate_of_lt (by omega)] at q1
      simp at q1; exact .inl q1
  refine ⟨t, packSum Item.value items t, packSum Item.weight items t, ?_, hpack, ?_, rfl, rfl, ?_, ?_⟩
  · unfold dpSolve
    rw [hres]
    simp only [bind_ok, hk0, h1, hval, Int.zero_add]
  · intro p hp
    have hpl : p < items.length := by
      have := (List.getElem?_eq_some_iff.1 hp).1; omega
    have : p ∈ order.take k0 := by
      apply Classical.byContradiction
      intro hn
      rw [hsup p hpl hn] at hp; cases hp
    exact (List.take_sublist_take_left hs1).subset this
  · rw [← hval]
    have := h4 (by split <;> omega)
    split at this <;> omega
  · intro t' ht' hta hfit
    have hrow : packSum Item.value items t = row os iters cap := by
      rw [← hval, h3]
      split
      · rename_i h0
        subst h0
        rw [← hs2]; rfl
      · exact hs2
    rw [hrow]
    let x' : Nat → Int := fun j => if h : j < iters then (t'[order[j]]?).getD 0 else 0
    have hx'01 : ∀ j, x' j = 0 ∨ x' j = 1 := by
      intro j
      simp only [x']
      split
      · rename_i h
        cases hq : t'[order[j]]? with
        | none => exact .inl rfl
        | some z => exact ht'.2 z (List.mem_of_getElem? hq)
      · exact .inl rfl
    have hsup' : ∀ p, p < items.length → p ∉ order.take iters → t'[p]? = some 0 := by
      intro p hp hnp
      have hp' : p < t'.length := by rw [ht'.1]; exact hp
      rw [List.getElem?_eq_getElem hp']
      rcases ht'.2 _ (List.getElem_mem hp') with h | h
      · rw [h]
      · exact absurd (hta p (by rw [List.getElem?_eq_getElem hp', h])) hnp
    have hval' : ∀ f : Item → Int,
        ssum (fun j => x' j * (os[j]?.elim 0 f)) iters = packSum f items t' :=
      fun f => ssum_order f ht'.1 hnd hlt hit hsup' x'
        (fun j h => by simp only [x', dif_pos h]) os hos
    rw [← hval']
    apply row_upper os (fun it h => hw it (hosmem it h).1) x' hx'01
    rw [hval']; exact hfit

/-- C17: with the default order the solver is optimal among all fitting packings. -/
theorem C17_optimal (items : List Item) (cap : Int)
    (hnum : Numbered items) (hw : ∀ it ∈ items, 0 ≤ it.weight) (hcap : 0 ≤ cap) :
    ∃ t v w, dpSolve items cap (defaultOrder items) items.length = .ok (t, v, w) ∧
      IsPacking items t ∧ v = packSum Item.value items t ∧ w = packSum Item.weight items t ∧
      w ≤ cap ∧ ∀ t', IsPacking items t' → packSum Item.weight items t' ≤ cap →
        packSum Item.value items t' ≤ v := by
  have hord : defaultOrder items = List.range items.length := by
    apply List.ext_getElem
    · simp [defaultOrder]
    · intro i h1 h2
      simp [defaultOrder]
      exact hnum i (by simpa using h2)
  obtain ⟨t, v, w, h1, h2, _, h4, h5, h6, h7⟩ := C17_optimal_among_processed items cap
    (defaultOrder items) items.length hnum hw hcap (by rw [hord]; exact List.nodup_range)
    (by rw [hord]; simp) (by rw [hord]; simp)
  refine ⟨t, v, w, h1, h2, h4, h5, h6, fun t' ht' hfit => h7 t' ht' ?_ hfit⟩
  intro p hp
  rw [hord, List.take_of_length_le (by simp), List.mem_range, ← ht'.1]
  exact (List.getElem?_eq_some_iff.1 hp).1

/-- A numbered three-item instance with its optimum. -/
example : dpSolve [⟨0, 6, 2⟩, ⟨1, 10, 3⟩, ⟨2, 12, 4⟩] 6 [0, 1, 2] 3 = .ok ([1, 0, 1], 18, 6) := by
  decide

example : Numbered [⟨0, 6, 2⟩, ⟨1, 10, 3⟩, ⟨2, 12, 4⟩] ∧
    ∀ it ∈ [(⟨0, 6, 2⟩ : Item), ⟨1, 10, 3⟩, ⟨2, 12, 4⟩], 0 ≤ it.weight := by
  refine ⟨?_, by decide⟩
  intro i h
  simp at h
  match i, h with
  | 0, _ => rfl
  | 1, _ => rfl
  | 2, _ => rfl

/-- The numbering hypothesis is needed: the solver writes `taken` by item index while the
model reads it by position, so with other indices the reported value is not the value of the
returned packing (here two items numbered in reverse). -/
theorem C17_needs_numbering : ∃ items : List Item, ∃ t v w,
    dpSolve items 1 (defaultOrder items) items.length = .ok (t, v, w) ∧
    v ≠ packSum Item.value items t ∧ ¬ packSum Item.weight items t ≤ 1 :=
  ⟨[⟨1, 5, 1⟩, ⟨0, 4, 3⟩], [0, 1], 5, 1, by decide, by decide, by decide⟩

/-- Items numbered from one make the solver raise. -/
theorem C17_one_based_raises :
    dpSolve [⟨1, 5, 1⟩] 1 (defaultOrder [⟨1, 5, 1⟩]) 1 = .error .indexError := by decide

/-- With `greedy_start` a heavier-than-capacity item makes the solver raise `IndexError`
(the sorted list is shorter than the number of items). -/
theorem C17_greedy_start_heavy_raises :
    ∃ order, greedyOrder [⟨0, 4, 9⟩, ⟨1, 5, 1⟩] 3 = .ok order ∧
      dpSolve [⟨0, 4, 9⟩, ⟨1, 5, 1⟩] 3 order 2 = .error .indexError :=
  ⟨[1], by decide, by decide⟩

/-- The vectorised variant `solve_np` takes an item heavier than the capacity. -/
theorem C17_np_overweight : ∃ items : List Item, ∃ t v w,
    Numbered items ∧ (∀ it ∈ items, 0 ≤ it.weight) ∧
    dpSolveNp items 3 = .ok (t, v, w) ∧ ¬ w ≤ 3 := by
  refine ⟨[⟨0, 7, 5⟩], [1], 7, 5, ?_, by decide, by decide, by decide⟩
  intro i h
  simp at h
  subst h; rfl

theorem Numbered.nodup {items : List Item} (hn : Numbered items) : items.Nodup := by
  rw [List.nodup_iff_pairwise_ne, List.pairwise_iff_getElem]
  intro i j _ hj hij h
  have h1 := hn i (by omega)
  have h2 := hn j hj
  rw [h] at h1
  omega

/-- When no item is heavier than the capacity and no weight is zero, the density queue is a
rearrangement of all items, by decreasing value per weight. -/
theorem computeDensity_spec (items : List Item) (cap : Int) (hfit : ∀ it ∈ items, it.weight ≤ cap)
    (hz : ∀ it ∈ items, it.weight ≠ 0) :
    ∃ q, computeDensity items cap = .ok q ∧ q.Perm items ∧
      q.Pairwise (fun a b => (b.value : Rat) / b.weight ≤ (a.value : Rat) / a.weight) := by
  have hf : items.filter (fun it => decide (it.weight ≤ cap)) = items := by
    rw [List.filter_eq_self]; simpa using hfit
  refine ⟨sortDesc (fun it => (it.value : Rat) / it.weight) items, ?_, sortDesc_perm _ _,
    sortDesc_sorted (fun it => (it.value : Rat) / it.weight) items⟩
  unfold computeDensity
  simp only [hf]
  rw [if_neg]
  simp only [List.any_eq_true, decide_eq_true_eq]
  rintro ⟨it, h1, h2⟩
  exact hz it h1 h2

theorem computeDensityPenalty_spec (items : List Item) (cap : Int)
    (hfit : ∀ it ∈ items, it.weight ≤ cap) (hz : ∀ it ∈ items, it.weight ≠ 0) :
    ∃ q, computeDensityPenalty items cap = .ok q ∧ q.Perm items ∧
      q.Pairwise (fun a b => (b.value : Rat) / b.weight - b.weight ≤
        (a.value : Rat) / a.weight - a.weight) := by
  have hf : items.filter (fun it => decide (it.weight ≤ cap)) = items := by
    rw [List.filter_eq_self]; simpa using hfit
  refine ⟨sortDesc (fun it => (it.value : Rat) / it.weight - it.weight) items, ?_, sortDesc_perm _ _,
    sortDesc_sorted (fun it => (it.value : Rat) / it.weight - it.weight) items⟩
  unfold computeDensityPenalty
  simp only [hf]
  rw [if_neg]
  simp only [List.any_eq_true, decide_eq_true_eq]
  rintro ⟨it, h1, h2⟩
  exact hz it h1 h2

/-- C17: with `greedy_start`, when every item fits alone and has positive weight, the answer is
optimal too. -/
theorem C17_greedy_start_optimal (items : List Item) (cap : Int)
    (hnum : Numbered items) (hw : ∀ it ∈ items, 0 < it.weight) (hfit : ∀ it ∈ items, it.weight ≤ cap)
    (hcap : 0 ≤ cap) :
    ∃ order t v w, greedyOrder items cap = .ok order ∧
      dpSolve items cap order items.length = .ok (t, v, w) ∧
      IsPacking items t ∧ v = packSum Item.value items t ∧ w = packSum Item.weight items t ∧
      w ≤ cap ∧ ∀ t', IsPacking items t' → packSum Item.weight items t' ≤ cap →
        packSum Item.value items t' ≤ v := by
  obtain ⟨q, hq, hp, _⟩ := computeDensity_spec items cap hfit
    (fun it h => by have := hw it h; omega)
  have hord : items.map Item.index = List.range items.length := by
    apply List.ext_getElem
    · simp
    · intro i h1 h2
      simp
      exact hnum i (by simpa using h2)
  have hperm : (q.map Item.index).Perm (List.range items.length) := by
    have := hp.map Item.index
    rwa [hord] at this
  obtain ⟨t, v, w, h1, h2, _, h4, h5, h6, h7⟩ := C17_optimal_among_processed items cap
    (q.map Item.index) items.length hnum (fun it h => by have := hw it h; omega) hcap
    (hperm.nodup_iff.2 List.nodup_range) (fun p hp => by simpa using hperm.mem_iff.1 hp)
    (by rw [hperm.length_eq]; simp)
  refine ⟨q.map Item.index, t, v, w, by simp [greedyOrder, hq], h1, h2, h4, h5, h6,
    fun t' ht' hfit' => h7 t' ht' ?_ hfit'⟩
  intro p hp'
  rw [List.take_of_length_le (by rw [hperm.length_eq]; simp), hperm.mem_iff, List.mem_range, ← ht'.1]
  exact (List.getElem?_eq_some_iff.1 hp').1

example : greedyOrder [⟨0, 6, 2⟩, ⟨1, 10, 3⟩, ⟨2, 12, 4⟩] 6 = .ok [1, 0, 2] := by decide +kernel

/-! ## C18 -/

/-- The cached fields of a solution are both absent, or both equal to the true totals. -/
def Coherent (items : List Item) (s : Sol) : Prop :=
  IsPacking items s.taken ∧
  ((s.value = none ∧ s.weight = none) ∨
   (s.value = some (packSum Item.value items s.taken) ∧
    s.weight = some (packSum Item.weight items s.taken)))

/-- The same packing with its true totals cached. -/
def evaluated (items : List Item) (t : List Int) : Sol :=
  ⟨t, some (packSum Item.value items t), some (packSum Item.weight items t)⟩

theorem evaluate_coherent (items : List Item) (cap : Int) (force : Bool) (s : Sol)
    (h : Coherent items s) : evaluate items cap force s = .ok (evaluated items s.taken,
      packSum Item.value items s.taken, max 0 (packSum Item.weight items s.taken - cap)) := by
  obtain ⟨⟨hl, _⟩, h⟩ := h
  have hev : evaluateValue items s
      = .ok (evaluated items s.taken, packSum Item.value items s.taken) := by
    unfold evaluateValue
    rw [sumTaken_eq _ _ _ hl, sumTaken_eq _ _ _ hl]
    rfl
  unfold evaluate
  rcases h with ⟨h1, h2⟩ | ⟨h1, h2⟩
  · rw [h1]
    simp only [hev, bind_ok]
    rfl
  · rw [h1]
    cases force with
    | true => simp only [if_true, hev, bind_ok]; rfl
    | false =>
      simp only [Bool.false_eq_true, if_false, bind_ok, h2]
      congr 2
      obtain ⟨t, v, w⟩ := s
      simp only at h1 h2
      simp [evaluated, h1, h2]

/-- C18: evaluating a coherent solution gives the total value of the taken items and the
amount by which their weight exceeds the capacity; `satisfy` says exactly whether it fits;
the violation is zero exactly then. -/
theorem C18_evaluate (items : List Item) (cap : Int) (force : Bool) (s : Sol)
    (h : Coherent items s) :
    (∃ s', evaluate items cap force s = .ok (s', packSum Item.value items s.taken,
        max 0 (packSum Item.weight items s.taken - cap)) ∧ s'.taken = s.taken ∧ Coherent items s') ∧
    (∃ s' b, satisfy items cap force s = .ok (s', b) ∧ s'.taken = s.taken ∧ Coherent items s' ∧
      (b = true ↔ packSum Item.weight items s.taken ≤ cap)) ∧
    (max 0 (packSum Item.weight items s.taken - cap) = 0 ↔ packSum Item.weight items s.taken ≤ cap) := by
  have hev := evaluate_coherent items cap force s h
  have hco : Coherent items (evaluated items s.taken) := ⟨h.1, .inr ⟨rfl, rfl⟩⟩
  refine ⟨⟨_, hev, rfl, hco⟩, ?_, by omega⟩
  rcases h.2 with ⟨h1, h2⟩ | ⟨h1, h2⟩
  · refine ⟨evaluated items s.taken, decide (packSum Item.weight items s.taken ≤ cap), ?_, rfl, hco,
      by simp⟩
    unfold satisfy
    rw [h1]
    simp only [hev, bind_ok]
    rfl
  · refine ⟨s, decide (packSum Item.weight items s.taken ≤ cap), ?_, rfl, h, by simp⟩
    unfold satisfy
    rw [h1]
    simp only [bind_ok, h2]

example : Coherent [⟨0, 6, 2⟩, ⟨1, 10, 3⟩] ⟨[1, 1], none, none⟩ ∧
    evaluate [⟨0, 6, 2⟩, ⟨1, 10, 3⟩] 4 false ⟨[1, 1], none, none⟩
      = .ok (⟨[1, 1], some 16, some 5⟩, 16, 1) := by
  refine ⟨⟨⟨rfl, by decide⟩, .inl ⟨rfl, rfl⟩⟩, by decide⟩

theorem flipMove_coherent (items : List Item) (cap : Int) (force : Bool) (is : List Nat) (s : Sol)
    (h : Coherent items s) (hi : ∀ i ∈ is, i < items.length) :
    ∃ l, Moves.bitFlipApply is s.taken = .ok l ∧ IsPacking items l ∧
      flipMove items cap force is s = .ok (evaluated items l) := by
  obtain ⟨l, q1, q2, q3, q4⟩ := flipLoop_spec items is s.taken h.1.1 h.1.2 hi
  refine ⟨l, q2, ⟨q3, q4⟩, ?_⟩
  unfold flipMove
  rcases h.2 with ⟨h1, h2⟩ | ⟨h1, h2⟩
  · rw [h2]
    simp only [evaluate_coherent items cap force s h, bind_ok, evaluated]
    change (do
      let (l, w', v') ← flipLoop items is (s.taken, packSum Item.weight items s.taken,
        packSum Item.value items s.taken)
      return (⟨l, some v', some w'⟩ : Sol)) = _
    rw [q1]; rfl
  · rw [h2]
    simp only [bind_ok, h1, h2]
    rw [q1]; rfl

/-- C18: a bit-flip move on existing positions keeps the cached totals exact and flips
exactly the listed positions (twice listed means unchanged). -/
theorem C18_flip_move (items : List Item) (cap : Int) (force : Bool) (is : List Nat) (s : Sol)
    (h : Coherent items s) (hi : ∀ i ∈ is, i < items.length) :
    ∃ s', flipMove items cap force is s = .ok s' ∧ Coherent items s' ∧
      s'.value = some (packSum Item.value items s'.taken) ∧
      s'.weight = some (packSum Item.weight items s'.taken) ∧
      ∀ k : Nat, s'.taken[k]? = (s.taken[k]?).map (fun x => if is.count k % 2 = 0 then x else 1 - x) := by
  obtain ⟨l, q1, q2, q3⟩ := flipMove_coherent items cap force is s h hi
  exact ⟨_, q3, ⟨q2, .inr ⟨rfl, rfl⟩⟩, rfl, rfl, (Moves.bitFlipApply_ok q1).2.2⟩

/-- C18: a sequence of bit-flip moves (some of them undoing others) keeps the cached totals
exact, so evaluation and satisfiability afterwards are those of the packing reached. -/
theorem C18_flip_sequence (items : List Item) (cap : Int) (force : Bool) (moves : List (List Nat))
    (s : Sol) (h : Coherent items s) (hi : ∀ is ∈ moves, ∀ i ∈ is, i < items.length) :
    ∃ s', moves.foldlM (fun s is => flipMove items cap force is s) s = .ok s' ∧ Coherent items s' ∧
      (∃ s'', evaluate items cap force s' = .ok (s'', packSum Item.value items s'.taken,
        max 0 (packSum Item.weight items s'.taken - cap))) := by
  induction moves generalizing s with
  | nil => exact ⟨s, rfl, h, _, evaluate_coherent items cap force s h⟩
  | cons is moves ih =>
    obtain ⟨s1, h1, h2, _⟩ := C18_flip_move items cap force is s h (hi is (by simp))
    obtain ⟨s', h3, h4⟩ := ih s1 h2 (fun js hj => hi js (by simp [hj]))
    exact ⟨s', by simp only [List.foldlM_cons, h1, bind_ok, h3], h4⟩

/-- C18: applying a bit-flip move and undoing it restores packing, value and weight. -/
theorem C18_flip_undo (items : List Item) (cap : Int) (force : Bool) (is : List Nat) (s : Sol)
    (h : Coherent items s) (hi : ∀ i ∈ is, i < items.length) :
    ∃ s', flipMove items cap force is s = .ok s' ∧
      flipMove items cap force is s' = .ok (evaluated items s.taken) := by
  obtain ⟨l, q1, q2, q3⟩ := flipMove_coherent items cap force is s h hi
  refine ⟨_, q3, ?_⟩
  obtain ⟨l2, r1, _, r3⟩ := flipMove_coherent items cap force is (evaluated items l)
    ⟨q2, .inr ⟨rfl, rfl⟩⟩ hi
  rw [r3]
  have hu : Moves.bitFlipApply is l = .ok s.taken := by
    obtain ⟨h1, h2, h3⟩ := Moves.bitFlipApply_ok q1
    obtain ⟨l3, h4⟩ := Moves.bitFlipApply_defined (is := is) (l := l) (fun i hi' => by
      rw [h1]; exact h2 i hi')
    obtain ⟨_, _, h7⟩ := Moves.bitFlipApply_ok h4
    rw [h4]
    congr 1
    apply List.ext_getElem?
    intro k
    rw [h7, h3]
    cases s.taken[k]? with
    | none => rfl
    | some x =>
      simp only [Option.map_some, Option.some.injEq]
      unfold Moves.flipN
      split <;> omega
  have : l2 = s.taken := by
    have r1' : Moves.bitFlipApply is l = .ok l2 := r1
    rw [hu] at r1'
    exact (Except.ok.inj r1').symm
  rw [this]

example : flipMove [⟨0, 6, 2⟩, ⟨1, 10, 3⟩] 4 false [1, 0, 1] ⟨[1, 0], none, none⟩
    = .ok ⟨[0, 0], some 0, some 0⟩ := by decide

/-- C18 (single-bit mutation, partial: cached totals present): the objective reported with
the mutated solution is the evaluation of that solution. -/
theorem C18_single_flip_objective_partial (items : List Item) (cap : Int) (force : Bool) (i : Nat)
    (t : List Int) (hp : IsPacking items t) (hi : i < items.length) :
    ∃ s' v viol s'', singleFlipMutate items cap force i (evaluated items t) = .ok (s', v, viol) ∧
      s'.taken[i]? = (t[i]?).map (1 - ·) ∧ (∀ j, j ≠ i → s'.taken[j]? = t[j]?) ∧
      evaluate items cap force s' = .ok (s'', v, viol) := by
  have hil : i < t.length := by rw [hp.1]; exact hi
  have hx := hp.2 _ (List.getElem_mem hil)
  have habs : (((t[i] - 1).natAbs : Nat) : Int) = 1 - t[i] := by omega
  have hsf : singleFlip i (evaluated items t) = .ok ⟨t.set i (1 - t[i]), none, none⟩ := by
    simp only [singleFlip, evaluated, pyGet_of_lt hil, bind_ok, pySet, hil, if_true, habs]
    rfl
  have hp' : IsPacking items (t.set i (1 - t[i])) := by
    refine ⟨by simpa using hp.1, ?_⟩
    intro x hx'
    rcases List.mem_or_eq_of_mem_set hx' with h | h
    · exact hp.2 x h
    · omega
  have hco : Coherent items ⟨t.set i (1 - t[i]), none, none⟩ := ⟨hp', .inl ⟨rfl, rfl⟩⟩
  refine ⟨⟨t.set i (1 - t[i]), none, none⟩, packSum Item.value items (t.set i (1 - t[i])),
    max 0 (packSum Item.weight items (t.set i (1 - t[i])) - cap), _, ?_, ?_, ?_,
    evaluate_coherent items cap force _ hco⟩
  · unfold singleFlipMutate
    rw [hsf]
    simp only [bind_ok, evaluated, pyGet_of_lt hi]
    rw [pyGet_of_lt (by simpa using hil)]
    simp only [bind_ok, List.getElem_set_self]
    rw [packSum_set _ _ _ _ _ hil hi, packSum_set _ _ _ _ _ hil hi]
    rcases hx with h | h <;> simp only [h] <;> simp <;> rfl
  · simp [hil]
  · intro j hj
    simp [List.getElem?_set_ne (Ne.symm hj)]

/-- Without cached totals the mutation reports the evaluation of the *old* solution. -/
theorem C18_single_flip_objective_wrong : ∃ s' v viol,
    singleFlipMutate [⟨0, 6, 2⟩] 4 false 0 ⟨[0], none, none⟩ = .ok (s', v, viol) ∧
    ∀ s'' v' viol', evaluate [⟨0, 6, 2⟩] 4 false s' = .ok (s'', v', viol') → v' ≠ v := by
  refine ⟨⟨[1], none, none⟩, 0, 0, by decide, ?_⟩
  intro s'' v' viol' h
  have : evaluate [⟨0, 6, 2⟩] 4 false ⟨[1], none, none⟩ = .ok (⟨[1], some 6, some 2⟩, 6, 0) := by decide
  rw [this] at h
  cases h
  decide

/-- C18 (knapsack mutation): from a coherent solution within capacity, every random choice
leads to a coherent solution within capacity, and the reported objective is its own. -/
theorem C18_mutation_keeps_feasible (items : List Item) (cap : Int) (force on : Bool) (k : Nat)
    (s : Sol) (h : Coherent items s) (hw : ∀ it ∈ items, 0 ≤ it.weight)
    (hfit : packSum Item.weight items s.taken ≤ cap) :
    ∃ s' v viol, mutate items cap force on k s = .ok (s', v, viol) ∧ Coherent items s' ∧
      v = packSum Item.value items s'.taken ∧ viol = 0 ∧
      packSum Item.weight items s'.taken ≤ cap := by
  have hred : ∀ R, mutate items cap force on k (evaluated items s.taken) = R →
      mutate items cap force on k s = R := by
    intro R hR
    rcases h.2 with ⟨h1, h2⟩ | ⟨h1, h2⟩
    · rw [← hR]
      unfold mutate
      rw [h2]
      simp only [evaluate_coherent items cap force s h, bind_ok, evaluated]
      rfl
    · have : s = evaluated items s.taken := by
        obtain ⟨t, v, w⟩ := s
        simp only at h1 h2
        simp [evaluated, h1, h2]
      rw [this]; exact hR
  suffices hS : ∃ s' v viol, mutate items cap force on k (evaluated items s.taken) = .ok (s', v, viol) ∧
      Coherent items s' ∧ v = packSum Item.value items s'.taken ∧ viol = 0 ∧
      packSum Item.weight items s'.taken ≤ cap by
    obtain ⟨s', v, viol, h1, h2⟩ := hS
    exact ⟨s', v, viol, hred _ h1, h2⟩
  unfold mutate
  simp only [bind_ok, evaluated]
  generalize hc : (if on = true then (if notUsed items cap s.taken (packSum Item.weight items s.taken) = []
      then used items s.taken else notUsed items cap s.taken (packSum Item.weight items s.taken))
    else (if used items s.taken = [] then notUsed items cap s.taken (packSum Item.weight items s.taken)
      else used items s.taken)) = cands
  have hmem : ∀ i ∈ cands, i ∈ notUsed items cap s.taken (packSum Item.weight items s.taken) ∨
      i ∈ used items s.taken := by
    intro i hi
    rw [← hc] at hi
    split at hi
    · split at hi
      · exact .inr hi
      · exact .inl hi
    · split at hi
      · exact .inl hi
      · exact .inr hi
  cases hg : cands[k % cands.length]? with
  | none =>
    refine ⟨_, _, _, rfl, ⟨h.1, .inr ⟨rfl, rfl⟩⟩, rfl, by omega, hfit⟩
  | some i =>
    have hi := hmem i (List.mem_of_getElem? hg)
    have hil : i < items.length := by
      rcases hi with hi | hi
      · simp only [notUsed, List.mem_filter, List.mem_range] at hi; exact hi.1
      · simp only [used, List.mem_filter, List.mem_range] at hi; exact hi.1
    have hit : i < s.taken.length := by rw [h.1.1]; exact hil
    have hco : Coherent items (evaluated items s.taken) := ⟨h.1, .inr ⟨rfl, rfl⟩⟩
    obtain ⟨l, q1, q2, q3⟩ := flipMove_coherent items cap force [i] (evaluated items s.taken) hco
      (by simpa using hil)
    have hl : l = s.taken.set i (1 - s.taken[i]) := by
      have q1' : Moves.bitFlipApply [i] s.taken = .ok l := q1
      simp only [Moves.bitFlipApply, pyGet_of_lt hit, bind_ok, pySet, hit, if_true] at q1'
      exact (Except.ok.inj q1').symm
    simp only [evaluated] at q3
    simp only [q3, bind_ok]
    have hfl : packSum Item.weight items l ≤ cap := by
      rw [hl, packSum_set _ _ _ _ _ hit hil]
      have hwi := hw _ (List.getElem_mem hil)
      rcases hi with hi | hi
      · simp only [notUsed, List.mem_filter, List.mem_range, List.getElem?_eq_getElem hit,
          List.getElem?_eq_getElem hil, Bool.and_eq_true, decide_eq_true_eq] at hi
        rw [hi.2.1]
        simp only [Int.sub_zero, Int.one_mul]
        exact hi.2.2
      · simp only [used, List.mem_filter, List.mem_range, List.getElem?_eq_getElem hit,
          decide_eq_true_eq] at hi
        rw [hi.2]
        simp only [Int.sub_self, Int.zero_sub, Int.neg_mul, Int.one_mul]
        omega
    exact ⟨_, _, _, rfl, ⟨q2, .inr ⟨rfl, rfl⟩⟩, rfl, by omega, hfl⟩

example : mutate [⟨0, 6, 2⟩, ⟨1, 10, 3⟩] 4 false true 0 ⟨[1, 0], none, none⟩
    = .ok (⟨[0, 0], some 0, some 0⟩, 0, 0) := by decide

/-! ## C19 -/

/-- C19 (partial: the queue holds every item, i.e. none is heavier than the capacity).  For any such queue
the greedy solver returns a packing that fits, with its own value and weight, and an item is
taken exactly when it fits together with the taken items before it in the queue. -/
theorem C19_greedy_partial (items : List Item) (cap : Int) (queue : List Item)
    (hnum : Numbered items) (hq : queue.Perm items) (hcap : 0 ≤ cap) :
    ∃ t v w, greedy items cap queue = .ok (t, v, w) ∧ IsPacking items t ∧
      v = packSum Item.value items t ∧ w = packSum Item.weight items t ∧ w ≤ cap ∧
      ∀ pre it post, queue = pre ++ it :: post →
        (t[it.index]? = some 1 ↔
          it.weight + ((pre.filter (fun j => decide (t[j.index]? = some 1))).map Item.weight).sum ≤ cap) := by
  have hidx : ∀ it ∈ queue, it.index < items.length := by
    intro it h
    obtain ⟨i, hi, rfl⟩ := List.mem_iff_getElem.1 (hq.mem_iff.1 h)
    rw [hnum i hi]; exact hi
  have hrun := greedyLoop_spec cap queue queue [] (List.replicate items.length 0) 0 0 rfl
    (by simpa using hidx)
  have hr : List.range items.length = List.range' ([] : List Item).length queue.length := by
    rw [List.range_eq_range', hq.length_eq]; rfl
  have hqn : queue.Nodup := hq.nodup_iff.2 hnum.nodup
  have hsub := choose_sublist cap 0 queue
  have hcn : (choose cap 0 queue).Nodup := hqn.sublist hsub
  have hcm : ∀ it ∈ choose cap 0 queue, it ∈ items := fun it h => hq.mem_iff.1 (hsub.subset h)
  have hz : packSum Item.value items (List.replicate items.length 0) = 0 ∧
      packSum Item.weight items (List.replicate items.length 0) = 0 := by
    have : ∀ f : Item → Int, packSum f items (List.replicate items.length 0) = 0 := by
      intro f
      rw [packSum_eq_ssum f _ _ (by simp), ssum_eq]
      apply sum_zero_int
      intro x hx
      obtain ⟨i, hi, rfl⟩ := List.mem_map.1 hx
      rw [List.mem_range] at hi
      simp [hi]
    exact ⟨this _, this _⟩
  have hsum : ∀ f : Item → Int, packSum f items (List.replicate items.length 0) = 0 →
      packSum f items (mark (List.replicate items.length 0) (choose cap 0 queue))
        = ((choose cap 0 queue).map f).sum := by
    intro f hf
    rw [packSum_mark f items hnum _ _ (by simp) hcm hcn, hf, Int.zero_add]
    intro it h
    simp [hidx it (hsub.subset h)]
  have hget : ∀ it ∈ queue, ((mark (List.replicate items.length 0) (choose cap 0 queue))[it.index]? = some 1
      ↔ it ∈ choose cap 0 queue) := by
    intro it h
    rw [mark_get _ _ _ (by simpa using hidx it h)]
    constructor
    · intro hs
      split at hs
      · rename_i ha
        rw [List.any_eq_true] at ha
        obtain ⟨j, hj, hji⟩ := ha
        simp only [decide_eq_true_eq] at hji
        obtain ⟨a, ha, rfl⟩ := List.mem_iff_getElem.1 (hq.mem_iff.1 h)
        obtain ⟨b, hb, hbe⟩ := List.mem_iff_getElem.1 (hcm j hj)
        subst hbe
        rw [hnum a ha, hnum b hb] at hji
        subst hji
        exact hj
      · simp [hidx it h] at hs
    · intro hc
      rw [if_pos]
      rw [List.any_eq_true]
      exact ⟨it, hc, by simp⟩
  refine ⟨mark (List.replicate items.length 0) (choose cap 0 queue),
    ((choose cap 0 queue).map Item.value).sum, ((choose cap 0 queue).map Item.weight).sum,
    ?_, ⟨by rw [mark_length]; simp, ?_⟩, (hsum _ hz.1).symm, (hsum _ hz.2).symm, ?_, ?_⟩
  · unfold greedy
    rw [hr, hrun]
    simp
  · intro x hx
    obtain ⟨p, hp, rfl⟩ := List.mem_iff_getElem.1 hx
    have hp' : p < items.length := by rw [mark_length] at hp; simpa using hp
    have := mark_get (List.replicate items.length (0 : Int)) (choose cap 0 queue) p (by simpa using hp')
    rw [List.getElem?_eq_getElem hp] at this
    split at this
    · right; simpa using this
    · left; simpa [hp'] using this
  · have := choose_weight cap 0 queue hcap
    omega
  · intro pre it post hsplit
    have hitq : it ∈ queue := by rw [hsplit]; simp
    have hfil : pre.filter (fun j => decide ((mark (List.replicate items.length 0)
        (choose cap 0 queue))[j.index]? = some 1))
        = pre.filter (fun j => decide (j ∈ choose cap 0 queue)) := by
      apply List.filter_congr
      intro j hj
      have := hget j (by rw [hsplit]; simp [hj])
      simp only [this]
    rw [hget it hitq, hfil]
    -- a statement about `choose` alone
    have key : ∀ (pre : List Item) (w : Int), (pre ++ it :: post).Nodup →
        (it ∈ choose cap w (pre ++ it :: post) ↔
          it.weight + (w + ((pre.filter (fun j => decide (j ∈ choose cap w (pre ++ it :: post)))).map
            Item.weight).sum) ≤ cap) := by
      intro pre
      induction pre with
      | nil =>
        intro w hnd
        simp only [List.nil_append, choose]
        rw [List.nil_append, List.nodup_cons] at hnd
        split
        · rename_i h
          simp only [List.mem_cons, true_or, List.filter_nil, List.map_nil, List.sum_nil, true_iff]
          omega
        · rename_i h
          have hn : it ∉ choose cap w post := fun hm => hnd.1 ((choose_sublist cap w post).subset hm)
          simp only [hn, List.filter_nil, List.map_nil, List.sum_nil, false_iff]
          omega
      | cons a pre ih =>
        intro w hnd
        rw [List.cons_append, List.nodup_cons] at hnd
        have hne : it ≠ a := by
          rintro rfl
          exact hnd.1 (by simp)
        simp only [List.cons_append, choose]
        split
        · rename_i h
          have hfe : (a :: pre).filter (fun j => decide (j ∈ a :: choose cap (w + a.weight) (pre ++ it :: post)))
              = a :: pre.filter (fun j => decide (j ∈ choose cap (w + a.weight) (pre ++ it :: post))) := by
            rw [List.filter_cons_of_pos (by simp)]
            congr 1
            apply List.filter_congr
            intro j hj
            have hja : j ≠ a := by rintro rfl; exact hnd.1 (by simp [hj])
            simp [hja]
          rw [hfe]
          simp only [List.mem_cons, hne, false_or, List.map_cons, List.sum_cons]
          rw [ih (w + a.weight) hnd.2]
          constructor <;> intro h <;> omega
        · rename_i h
          have ha : a ∉ choose cap w (pre ++ it :: post) :=
            fun hm => hnd.1 ((choose_sublist cap w _).subset hm)
          rw [List.filter_cons_of_neg (by simpa using ha)]
          exact ih w hnd.2
    have := key pre 0 (by rw [← hsplit]; exact hqn)
    rw [← hsplit] at this
    rw [this]
    simp only [Int.zero_add]

/-- C19: the better of the two greedy rules, under the same hypotheses and non-zero weights. -/
theorem C19_best_of_greedy_partial (items : List Item) (cap : Int) (hnum : Numbered items)
    (hfit : ∀ it ∈ items, it.weight ≤ cap) (hz : ∀ it ∈ items, it.weight ≠ 0) (hcap : 0 ≤ cap) :
    ∃ t v w, bestOfGreedy items cap = .ok (t, v, w) ∧ IsPacking items t ∧
      v = packSum Item.value items t ∧ w = packSum Item.weight items t ∧ w ≤ cap ∧
      (∀ q t' v' w', (computeDensity items cap = .ok q ∨ computeDensityPenalty items cap = .ok q) →
        greedy items cap q = .ok (t', v', w') → v' ≤ v) := by
  obtain ⟨q1, a1, a2, _⟩ := computeDensity_spec items cap hfit hz
  obtain ⟨q2, b1, b2, _⟩ := computeDensityPenalty_spec items cap hfit hz
  obtain ⟨t1, v1, w1, c1, c2, c3, c4, c5, _⟩ := C19_greedy_partial items cap q1 hnum a2 hcap
  obtain ⟨t2, v2, w2, d1, d2, d3, d4, d5, _⟩ := C19_greedy_partial items cap q2 hnum b2 hcap
  have hr : bestOfGreedy items cap = .ok (if v1 > v2 then (t1, v1, w1) else (t2, v2, w2)) := by
    unfold bestOfGreedy
    simp only [a1, b1, c1, d1, bind_ok]
    rfl
  have hcomp : ∀ q t' v' w', (computeDensity items cap = .ok q ∨ computeDensityPenalty items cap = .ok q) →
        greedy items cap q = .ok (t', v', w') → v' = v1 ∨ v' = v2 := by
    intro q t' v' w' hq hg
    rcases hq with hq | hq
    · rw [a1] at hq; cases hq
      rw [c1] at hg; cases hg; exact .inl rfl
    · rw [b1] at hq; cases hq
      rw [d1] at hg; cases hg; exact .inr rfl
  by_cases h : v1 > v2
  · rw [if_pos h] at hr
    refine ⟨t1, v1, w1, hr, c2, c3, c4, c5, fun q t' v' w' hq hg => ?_⟩
    rcases hcomp q t' v' w' hq hg with h' | h' <;> omega
  · rw [if_neg h] at hr
    refine ⟨t2, v2, w2, hr, d2, d3, d4, d5, fun q t' v' w' hq hg => ?_⟩
    rcases hcomp q t' v' w' hq hg with h' | h' <;> omega

example : bestOfGreedy [⟨0, 6, 2⟩, ⟨1, 10, 3⟩, ⟨2, 12, 4⟩] 6 = .ok ([1, 1, 0], 16, 5) := by decide +kernel

/-- An item heavier than the capacity makes the greedy solver raise `IndexError`: the queue
leaves it out but the loop still runs over all items. -/
theorem C19_heavy_item_raises (items : List Item) (cap : Int) (q : List Item)
    (hq : computeDensity items cap = .ok q ∨ computeDensityPenalty items cap = .ok q)
    (hheavy : ∃ it ∈ items, cap < it.weight) (hidx : ∀ it ∈ items, it.index < items.length) :
    greedy items cap q = .error .indexError := by
  have hqp : q.Perm (items.filter (fun it => decide (it.weight ≤ cap))) := by
    rcases hq with hq | hq
    · unfold computeDensity at hq
      simp only at hq
      split at hq
      · simp at hq
      · cases hq; exact sortDesc_perm _ _
    · unfold computeDensityPenalty at hq
      simp only at hq
      split at hq
      · simp at hq
      · cases hq; exact sortDesc_perm _ _
  have hlen : q.length < items.length := by
    rw [hqp.length_eq]
    obtain ⟨it, h1, h2⟩ := hheavy
    apply Nat.lt_of_le_of_ne (List.length_filter_le _ _)
    intro he
    rw [List.length_filter_eq_length_iff] at he
    have := he it h1
    simp at this
    omega
  have key : ∀ (n : Nat) (i : Nat) (t : List Int) (v w : Int), i + n > q.length → i ≤ q.length →
      (∀ it ∈ q, it.index < t.length) →
      greedyLoop cap q (List.range' i n) (t, v, w) = .error .indexError := by
    intro n
    induction n with
    | zero => intro i t v w h1 h2; omega
    | succ n ih =>
      intro i t v w h1 h2 h3
      simp only [List.range'_succ, greedyLoop]
      by_cases hi : i < q.length
      · rw [pyGet_of_lt hi]
        have hl := h3 _ (List.getElem_mem hi)
        simp only [bind_ok]
        split
        · simp only [pySet, hl, if_true, bind_ok]
          exact ih (i + 1) _ _ _ (by omega) (by omega) (by simpa using h3)
        · exact ih (i + 1) _ _ _ (by omega) (by omega) h3
      · have : pyGet q i = .error .indexError := by
          unfold pyGet
          rw [List.getElem?_eq_none (by omega)]
        rw [this]; rfl
  unfold greedy
  rw [List.range_eq_range']
  apply key
  · omega
  · omega
  · intro it h
    have := hqp.mem_iff.1 h
    rw [List.mem_filter] at this
    simpa using hidx it this.1

example : computeDensity [⟨0, 6, 2⟩, ⟨1, 10, 9⟩] 6 = .ok [⟨0, 6, 2⟩] ∧
    greedy [⟨0, 6, 2⟩, ⟨1, 10, 9⟩] 6 [⟨0, 6, 2⟩] = .error .indexError := by decide

end Verif.Knapsack
