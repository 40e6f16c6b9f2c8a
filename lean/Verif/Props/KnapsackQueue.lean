import Verif.Props.Knapsack
/-
Properties C18, C19: forced evaluation, the effect of the mutation, the greedy queues.
-/
namespace Verif.Knapsack

/-- C18: an evaluation with forced recomputation does not depend on what was cached, even when
the cached totals are wrong: it reports, and stores, those of the packing. -/
theorem C18_forced_evaluation (items : List Item) (cap : Int) (s : Sol) (hp : IsPacking items s.taken) :
    evaluate items cap true s = .ok (⟨s.taken, some (packSum Item.value items s.taken),
      some (packSum Item.weight items s.taken)⟩, packSum Item.value items s.taken,
      max 0 (packSum Item.weight items s.taken - cap)) := by
  have hlen : s.taken.length = items.length := hp.1
  have hv := sumTaken_eq Item.value items s.taken (by omega)
  have hw := sumTaken_eq Item.weight items s.taken (by omega)
  unfold evaluate
  cases hc : s.value <;> simp [evaluateValue, hv, hw]

example : evaluate [⟨0, 6, 2⟩, ⟨1, 10, 3⟩] 4 true ⟨[1, 1], some 99, some 1⟩
    = .ok (⟨[1, 1], some 16, some 5⟩, 16, 1) := by decide

/-- Item `i` is not taken and still fits. -/
def CanTake (items : List Item) (cap : Int) (t : List Int) (i : Nat) : Prop :=
  t[i]? = some 0 ∧ ∃ it, items[i]? = some it ∧ packSum Item.weight items t + it.weight ≤ cap

theorem mem_notUsed {items : List Item} {cap : Int} {t : List Int} {i : Nat} :
    i ∈ notUsed items cap t (packSum Item.weight items t) ↔ CanTake items cap t i := by
  simp only [notUsed, List.mem_filter, List.mem_range, CanTake]
  constructor
  · rintro ⟨h1, h2⟩
    split at h2
    · rename_i x it hx hi
      simp only [Bool.and_eq_true, decide_eq_true_eq] at h2
      exact ⟨by rw [hx, h2.1], it, hi, h2.2⟩
    · cases h2
  · rintro ⟨h1, it, h2, h3⟩
    refine ⟨(List.getElem?_eq_some_iff.1 h2).1, ?_⟩
    rw [h1, h2]
    simpa using h3

theorem mem_used {items : List Item} {t : List Int} {i : Nat} (hl : t.length = items.length) :
    i ∈ used items t ↔ t[i]? = some 1 := by
  simp only [used, List.mem_filter, List.mem_range]
  constructor
  · rintro ⟨h1, h2⟩
    split at h2
    · rename_i x hx; rw [hx]; simpa using h2
    · cases h2
  · intro h
    refine ⟨by rw [← hl]; exact (List.getElem?_eq_some_iff.1 h).1, ?_⟩
    rw [h]
    simp

/-- C18 (knapsack mutation): the move drawn is made whenever it is possible.  When adding is
drawn and some item can be added, one such item is added; when removing is drawn and some item
is taken, one taken item is removed; when only the other kind of move is possible that one is
made; nothing else changes. -/
theorem C18_mutation_effect (items : List Item) (cap : Int) (force on : Bool) (k : Nat)
    (s s' : Sol) (v viol : Int) (h : Coherent items s)
    (hm : mutate items cap force on k s = .ok (s', v, viol)) :
    let add := ∃ i, CanTake items cap s.taken i ∧ s'.taken = s.taken.set i 1
    let drop := ∃ i : Nat, s.taken[i]? = some 1 ∧ s'.taken = s.taken.set i 0
    let canAdd := ∃ i, CanTake items cap s.taken i
    let canDrop := ∃ i : Nat, s.taken[i]? = some 1
    (on = true → canAdd → add) ∧ (on = true → ¬ canAdd → canDrop → drop) ∧
    (on = false → canDrop → drop) ∧ (on = false → ¬ canDrop → canAdd → add) ∧
    (¬ canAdd → ¬ canDrop → s'.taken = s.taken) := by
  have hl : s.taken.length = items.length := h.1.1
  have hm' : mutate items cap force on k (evaluated items s.taken) = .ok (s', v, viol) := by
    rcases h.2 with ⟨h1, h2⟩ | ⟨h1, h2⟩
    · rw [← hm]
      conv => rhs; unfold mutate
      rw [h2]
      simp only [evaluate_coherent items cap force s h, bind_ok]
      unfold mutate
      simp only [evaluated, bind_ok]
      rfl
    · have : s = evaluated items s.taken := by
        obtain ⟨t, v, w⟩ := s
        simp only at h1 h2
        simp [evaluated, h1, h2]
      rw [← this]; exact hm
  clear hm
  unfold mutate at hm'
  simp only [bind_ok, evaluated] at hm'
  generalize hc : (if on = true then (if notUsed items cap s.taken (packSum Item.weight items s.taken) = []
      then used items s.taken else notUsed items cap s.taken (packSum Item.weight items s.taken))
    else (if used items s.taken = [] then notUsed items cap s.taken (packSum Item.weight items s.taken)
      else used items s.taken)) = cands at hm'
  have hA : notUsed items cap s.taken (packSum Item.weight items s.taken) = [] ↔
      ¬ ∃ i, CanTake items cap s.taken i := by
    rw [List.eq_nil_iff_forall_not_mem]
    simp only [mem_notUsed, not_exists]
  have hU : used items s.taken = [] ↔ ¬ ∃ i : Nat, s.taken[i]? = some 1 := by
    rw [List.eq_nil_iff_forall_not_mem]
    simp only [mem_used hl, not_exists]
  have hadd : cands = notUsed items cap s.taken (packSum Item.weight items s.taken) → cands ≠ [] →
      ∃ i, CanTake items cap s.taken i ∧ s'.taken = s.taken.set i 1 := by
    intro he hne
    have hlt : k % cands.length < cands.length := Nat.mod_lt _ (List.length_pos_iff.2 hne)
    rw [List.getElem?_eq_getElem hlt] at hm'
    have hin := List.getElem_mem hlt
    generalize cands[k % cands.length] = i at hm' hin
    rw [he, mem_notUsed] at hin
    have hco : Coherent items (evaluated items s.taken) := ⟨h.1, .inr ⟨rfl, rfl⟩⟩
    obtain ⟨hit, hx⟩ := List.getElem?_eq_some_iff.1 hin.1
    obtain ⟨l, q1, q2, q3⟩ := flipMove_coherent items cap force [i] (evaluated items s.taken) hco
      (by simpa using hl ▸ hit)
    have q1' : Moves.bitFlipApply [i] s.taken = .ok l := q1
    simp only [Moves.bitFlipApply, pyGet_of_lt hit, bind_ok, pySet, hit, if_true, hx] at q1'
    simp only [evaluated] at q3
    simp only [q3, bind_ok, Except.ok.injEq, Prod.mk.injEq] at hm'
    refine ⟨i, hin, ?_⟩
    rw [← hm'.1]
    exact (Except.ok.inj q1').symm
  have hdrop : cands = used items s.taken → cands ≠ [] →
      ∃ i : Nat, s.taken[i]? = some 1 ∧ s'.taken = s.taken.set i 0 := by
    intro he hne
    have hlt : k % cands.length < cands.length := Nat.mod_lt _ (List.length_pos_iff.2 hne)
    rw [List.getElem?_eq_getElem hlt] at hm'
    have hin := List.getElem_mem hlt
    generalize cands[k % cands.length] = i at hm' hin
    rw [he, mem_used hl] at hin
    have hco : Coherent items (evaluated items s.taken) := ⟨h.1, .inr ⟨rfl, rfl⟩⟩
    obtain ⟨hit, hx⟩ := List.getElem?_eq_some_iff.1 hin
    obtain ⟨l, q1, q2, q3⟩ := flipMove_coherent items cap force [i] (evaluated items s.taken) hco
      (by simpa using hl ▸ hit)
    have q1' : Moves.bitFlipApply [i] s.taken = .ok l := q1
    simp only [Moves.bitFlipApply, pyGet_of_lt hit, bind_ok, pySet, hit, if_true, hx] at q1'
    simp only [evaluated] at q3
    simp only [q3, bind_ok, Except.ok.injEq, Prod.mk.injEq] at hm'
    refine ⟨i, hin, ?_⟩
    rw [← hm'.1]
    exact (Except.ok.inj q1').symm
  refine ⟨?_, ?_, ?_, ?_, ?_⟩
  · intro ho ha
    have hne : ¬ notUsed items cap s.taken (packSum Item.weight items s.taken) = [] := fun e => hA.1 e ha
    rw [if_pos ho, if_neg hne] at hc
    exact hadd hc.symm (by rw [← hc]; exact hne)
  · intro ho ha hd
    have hne : ¬ used items s.taken = [] := fun e => hU.1 e hd
    rw [if_pos ho, if_pos (hA.2 ha)] at hc
    exact hdrop hc.symm (by rw [← hc]; exact hne)
  · intro ho hd
    have hne : ¬ used items s.taken = [] := fun e => hU.1 e hd
    rw [if_neg (by simp [ho]), if_neg hne] at hc
    exact hdrop hc.symm (by rw [← hc]; exact hne)
  · intro ho hd ha
    have hne : ¬ notUsed items cap s.taken (packSum Item.weight items s.taken) = [] := fun e => hA.1 e ha
    rw [if_neg (by simp [ho]), if_pos (hU.2 hd)] at hc
    exact hadd hc.symm (by rw [← hc]; exact hne)
  · intro ha hd
    have hce : cands = [] := by
      rw [← hc, hA.2 ha, hU.2 hd]; simp
    subst hce
    simp only [List.length_nil, List.getElem?_nil, Except.ok.injEq, Prod.mk.injEq] at hm'
    rw [← hm'.1]

example : mutate [⟨0, 6, 2⟩, ⟨1, 10, 3⟩] 5 false true 7 ⟨[1, 0], none, none⟩
    = .ok (⟨[1, 1], some 16, some 5⟩, 16, 0) := by decide

/-- C19: the two greedy queues hold exactly the items that fit alone, each as often as it is
listed, the first by decreasing value per weight, the second by decreasing value per weight less
the weight; both raise exactly when such an item weighs nothing. -/
theorem C19_queues (items : List Item) (cap : Int) :
    ((∃ it ∈ items, it.weight ≤ cap ∧ it.weight = 0) →
      computeDensity items cap = .error .zeroDivisionError ∧
      computeDensityPenalty items cap = .error .zeroDivisionError) ∧
    ((∀ it ∈ items, it.weight ≤ cap → it.weight ≠ 0) →
      (∃ q, computeDensity items cap = .ok q ∧ q.Perm (items.filter fun it => decide (it.weight ≤ cap)) ∧
        q.Pairwise fun a b => (b.value : Rat) / b.weight ≤ (a.value : Rat) / a.weight) ∧
      (∃ q, computeDensityPenalty items cap = .ok q ∧ q.Perm (items.filter fun it => decide (it.weight ≤ cap)) ∧
        q.Pairwise fun a b => (b.value : Rat) / b.weight - b.weight ≤ (a.value : Rat) / a.weight - a.weight)) := by
  constructor
  · rintro ⟨it, h1, h2, h3⟩
    have : (items.filter fun it => decide (it.weight ≤ cap)).any (fun it => decide (it.weight = 0)) = true :=
      List.any_eq_true.2 ⟨it, List.mem_filter.2 ⟨h1, by simpa using h2⟩, by simpa using h3⟩
    simp only [computeDensity, computeDensityPenalty, this, if_true, and_self]
  · intro h
    have : (items.filter fun it => decide (it.weight ≤ cap)).any (fun it => decide (it.weight = 0)) = false := by
      rw [List.any_eq_false]
      intro it hit
      obtain ⟨h1, h2⟩ := List.mem_filter.1 hit
      simpa using h it h1 (by simpa using h2)
    simp only [computeDensity, computeDensityPenalty, this, Bool.false_eq_true, if_false, Except.ok.injEq]
    exact ⟨⟨_, rfl, sortDesc_perm _ _, sortDesc_sorted _ _⟩, ⟨_, rfl, sortDesc_perm _ _, sortDesc_sorted _ _⟩⟩

example : computeDensity [⟨0, 6, 3⟩, ⟨1, 10, 2⟩, ⟨2, 9, 8⟩] 4 = .ok [⟨1, 10, 2⟩, ⟨0, 6, 3⟩] := by decide +kernel

end Verif.Knapsack
