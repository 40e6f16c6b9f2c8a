import Verif.Props.RiwAcyclic
import Verif.Lemmas.RiwTreeTag

/-!
C123: the answers of the solver RIW on trees.
-/
namespace Verif.Riw
open Verif.Iw (Tuple Holds)

variable {σ α φ κ : Type}

/-- The value of the state and the action are those of a plan that no other plan beats. -/
def BestAt [DecidableEq κ] (d : Domain σ α φ) (c : Config σ κ) (st : St σ α φ) (s : σ) : Prop :=
  ∃ v a as st', bestValue c st.graph s = .ok (some v) ∧ getBestAction c st s = .ok (a, st') ∧ Plan d c.discount s (a :: as) v ∧
    ∀ as' v', Plan d c.discount s as' v' → v' ≤ v

/-- C123: on a tree, in which each state has actions unless it is terminal and no path from the start is longer than `max_depth`,
a search that ends before its budgets are consumed and prunes nothing gives the start its best discounted return as value, and
the first action of a plan with this return as action, whatever the random draws and the order of the sets. -/
theorem C123_optimal [DecidableEq κ] [DecidableEq φ] {d : Domain σ α φ} {c : Config σ κ} (rank : σ → Nat) (hinj : ∀ x y, c.key x = c.key y → x = y)
    (hdown : ∀ s, ∀ a ∈ d.actions s, rank (d.next s a) < rank s) (hlive : ∀ s, ∀ a ∈ d.actions s, d.terminal s a = false → d.actions (d.next s a) ≠ [])
    (hone : ∀ s s' a a', a ∈ d.actions s → a' ∈ d.actions s' → d.next s a = d.next s' a' → s = s' ∧ a = a') (hnd : ∀ s, (d.actions s).Nodup)
    (ho : ∀ l x, x ∈ c.order l ↔ x ∈ l) (hγ : 0 ≤ c.discount) {s : σ} (hs : d.actions s ≠ []) (hf : d.features s ≠ []) (hr : rank s ≤ c.maxDepth)
    {fuel : Nat} {st : St σ α φ} {b : Bool} (h : solve d c fuel s {} = some (.ok (st, b))) (hlate : ∀ t, c.late t = false) (hbud : st.rollouts < c.budget)
    (hp : ∀ n ∈ st.graph, n.pruned = false) : BestAt d c st s := by
  have ha : Acyclic d c.key rank := ⟨hinj, hdown⟩
  obtain ⟨he, i, n, hn, hns, hnt, hsol⟩ := Exact.solve ha ⟨hone, hnd⟩ ho hlive hr hs hf Reached.new.good h hlate hbud
  obtain ⟨v, as, k, a, r, j, e1, e2, e3, e4, e5⟩ := (he.value ha hγ (fun i n hn => hp n (List.mem_of_getElem? hn)) (rank n.state + 1) i n (Nat.lt_succ_self _) hn hsol).2 hnt
  have hloc : locate c.key st.graph s = some i := by
    cases hl : locate c.key st.graph s with
    | none => exact absurd (by rw [hns]) (locate_none hl hn)
    | some x =>
      obtain ⟨m, hm, hk⟩ := locate_some hl
      rw [he.sane.good.1.keys x i m n hm hn (by rw [hk, hns])]
  rw [hns] at e4 e5
  refine ⟨v, a, as, updateGraph c st (reachable st.graph i), ?_, ?_, e4, e5⟩
  · unfold bestValue
    rw [hloc]
    simp only [Option.bind_some, hn, e1]
  · unfold getBestAction
    rw [hloc]
    simp only [hn, e2, e3]

/-- C123: if one feature tells all states apart, nothing is pruned: on such a tree `solve` returns and, unless its budgets are consumed,
the answer is optimal. -/
theorem C123_told_apart [DecidableEq κ] [DecidableEq φ] {d : Domain σ α φ} {c : Config σ κ} (rank : σ → Nat) (hinj : ∀ x y, c.key x = c.key y → x = y)
    (hdown : ∀ s, ∀ a ∈ d.actions s, rank (d.next s a) < rank s) (hlive : ∀ s, ∀ a ∈ d.actions s, d.terminal s a = false → d.actions (d.next s a) ≠ [])
    (hone : ∀ s s' a a', a ∈ d.actions s → a' ∈ d.actions s' → d.next s a = d.next s' a' → s = s' ∧ a = a') (hnd : ∀ s, (d.actions s).Nodup)
    (ho : ∀ l x, x ∈ c.order l ↔ x ∈ l) (hγ : 0 ≤ c.discount) {s : σ} (hs : d.actions s ≠ []) (hr : rank s ≤ c.maxDepth)
    (p : Nat) (hlen : ∀ s, p < (d.features s).length) (htell : ∀ s s', (d.features s)[p]? = (d.features s')[p]? → s = s')
    {fuel : Nat} (hf : rank s < fuel) :
    ∃ st b, solve d c fuel s {} = some (.ok (st, b)) ∧ (∀ n ∈ st.graph, n.pruned = false) ∧
      ((∀ t, c.late t = false) → st.rollouts < c.budget → BestAt d c st s) := by
  obtain ⟨st, b, h⟩ := C122_returns rank hinj hdown hlive ho hs hr hf
  have hfs : d.features s ≠ [] := by
    intro e
    have := hlen s
    rw [e] at this
    simp at this
  have htag : Tag d fun s => [(p, (d.features s)[p]?)] := by
    refine ⟨fun _ => rfl, fun s => ⟨List.pairwise_singleton _ _, ?_⟩, ?_⟩
    · intro e he
      simp only [List.mem_singleton] at he
      subst he
      exact ⟨rfl, by simp [hlen s]⟩
    · intro s s' hh
      exact htell s' s (hh.2 _ (List.mem_singleton.2 rfl)).1
  have hp : ∀ n ∈ st.graph, n.pruned = false := by
    intro n hn
    obtain ⟨i, hi⟩ := List.getElem?_of_mem hn
    exact Tagged.solve ⟨hinj, hdown⟩ ⟨hone, hnd⟩ ho hlive hr hs hfs Reached.new.good htag h i n hi
  exact ⟨st, b, h, hp, fun hlate hbud => C123_optimal rank hinj hdown hlive hone hnd ho hγ hs hfs hr h hlate hbud hp⟩

/-! Examples -/

/-- A tree: the first action is better at first and worse in the end. -/
def fork : Domain Nat Nat Nat where
  actions := fun s => match s with
    | 0 => [1, 2]
    | 1 => [3]
    | 2 => [4, 5]
    | _ => []
  next := fun _ a => a
  reward := fun _ a => match a with
    | 1 => 5
    | 3 => 1
    | 4 => 2
    | 5 => 9
    | _ => 0
  terminal := fun s _ => s = 1 || s = 2
  features := fun s => [7, s]

theorem fork_actions {s a : Nat} (h : a ∈ fork.actions s) : (s, a) ∈ [(0, 1), (0, 2), (1, 3), (2, 4), (2, 5)] := by
  match s with
  | 0 => simp [fork] at h; rcases h with rfl | rfl <;> decide
  | 1 => simp [fork] at h; subst h; decide
  | 2 => simp [fork] at h; rcases h with rfl | rfl <;> decide
  | s + 3 => simp [fork] at h

theorem fork_down : ∀ s, ∀ a ∈ fork.actions s, height (fork.next s a) < height s := by
  intro s a h
  have := fork_actions h
  simp only [List.mem_cons, Prod.mk.injEq, List.not_mem_nil, or_false] at this
  rcases this with ⟨rfl, rfl⟩ | ⟨rfl, rfl⟩ | ⟨rfl, rfl⟩ | ⟨rfl, rfl⟩ | ⟨rfl, rfl⟩ <;> decide

theorem fork_live : ∀ s, ∀ a ∈ fork.actions s, fork.terminal s a = false → fork.actions (fork.next s a) ≠ [] := by
  intro s a h
  have := fork_actions h
  simp only [List.mem_cons, Prod.mk.injEq, List.not_mem_nil, or_false] at this
  rcases this with ⟨rfl, rfl⟩ | ⟨rfl, rfl⟩ | ⟨rfl, rfl⟩ | ⟨rfl, rfl⟩ | ⟨rfl, rfl⟩ <;> decide

theorem fork_one : ∀ s s' a a', a ∈ fork.actions s → a' ∈ fork.actions s' → fork.next s a = fork.next s' a' → s = s' ∧ a = a' := by
  intro s s' a a' h h' e
  have e' : a = a' := e
  subst e'
  have h1 := fork_actions h
  have h2 := fork_actions h'
  simp only [List.mem_cons, Prod.mk.injEq, List.not_mem_nil, or_false] at h1 h2
  refine ⟨?_, rfl⟩
  rcases h1 with ⟨rfl, rfl⟩ | ⟨rfl, rfl⟩ | ⟨rfl, rfl⟩ | ⟨rfl, rfl⟩ | ⟨rfl, rfl⟩ <;> simp_all

theorem fork_nodup : ∀ s, (fork.actions s).Nodup := by
  intro s
  match s with
  | 0 | 1 | 2 => decide
  | s + 3 => simp [fork]

-- the hypotheses of `C123_told_apart`, the second feature being the state; and what is found
example : ∃ st b, solve fork { key := id, maxDepth := 2, order := List.reverse } 3 0 {} = some (.ok (st, b)) ∧ (∀ n ∈ st.graph, n.pruned = false) ∧
    ((∀ _ : Nat, false = false) → st.rollouts < 100000 → BestAt fork { key := id, maxDepth := 2, order := List.reverse } st 0) :=
  C123_told_apart height (fun _ _ h => h) fork_down fork_live fork_one fork_nodup (by simp) (by decide) (by decide) (by decide) 1 (fun _ => by simp [fork]) (by intro s s' h; simpa [fork] using h) (by decide)

example : okAnd (bestValue { key := id, maxDepth := 2 } (after (solve fork { key := id, maxDepth := 2 } 3 0 {})).graph 0) (fun v => decide (v = some 9)) = true ∧
    okAnd (getBestAction { key := id, maxDepth := 2 } (after (solve fork { key := id, maxDepth := 2 } 3 0 {})) 0) (fun r => decide (r.1 = 2)) = true ∧
    (after (solve fork { key := id, maxDepth := 2 } 3 0 {})).rollouts = 3 := by decide +kernel

-- the hypotheses of `C123_optimal`
example : BestAt fork { key := id, maxDepth := 2 } (after (solve fork { key := id, maxDepth := 2 } 3 0 {})) 0 :=
  C123_optimal height (fun _ _ h => h) fork_down fork_live fork_one fork_nodup (by simp) (by decide) (by decide) (by decide) (by decide) (fuel := 3) (b := true)
    (ok_of_found (by decide +kernel)) (fun _ => rfl) (by decide +kernel) (by decide +kernel)

/-- C123 disagreement: neither the depth limit nor the budget may be left out. With `max_depth` 1 the states after one step count as worth nothing
and are solved, so that the search ends by itself and the worse action is the answer; likewise after one rollout. -/
theorem C123_cut_refuted : (∃ (c : Config Nat Nat) (st : St Nat Nat Nat), c.maxDepth = 1 ∧ solve fork c 3 0 {} = some (.ok (st, true)) ∧ st.rollouts < c.budget ∧ (∀ n ∈ st.graph, n.pruned = false) ∧
      okAnd (bestValue c st.graph 0) (fun v => decide (v = some 5)) = true ∧ okAnd (getBestAction c st 0) (fun r => decide (r.1 = 1)) = true) ∧
    (∃ (c : Config Nat Nat) (st : St Nat Nat Nat), c.budget = 1 ∧ solve fork c 3 0 {} = some (.ok (st, true)) ∧ (∀ n ∈ st.graph, n.pruned = false) ∧
      okAnd (bestValue c st.graph 0) (fun v => decide (v = some 6)) = true ∧ okAnd (getBestAction c st 0) (fun r => decide (r.1 = 1)) = true) ∧
    Plan fork 1 0 [2, 5] 9 := by
  refine ⟨⟨{ key := id, maxDepth := 1 }, after (solve fork { key := id, maxDepth := 1 } 3 0 {}), rfl, ok_of_found (by decide +kernel), by decide +kernel, by decide +kernel, by decide +kernel, by decide +kernel⟩,
    ⟨{ key := id, budget := 1 }, after (solve fork { key := id, budget := 1 } 3 0 {}), rfl, ok_of_found (by decide +kernel), by decide +kernel, by decide +kernel, by decide +kernel⟩, ?_⟩
  have h1 : Plan fork 1 2 [5] 9 := .last (by decide) (by decide)
  have h2 : Plan fork 1 0 [2, 5] (0 + 1 * 9) := .step (a := 2) (by decide) (by decide) h1
  have e : (0 : Rat) + 1 * 9 = 9 := by decide +kernel
  rw [e] at h2
  exact h2

end Verif.Riw
