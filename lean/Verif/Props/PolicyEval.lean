import Verif.Lemmas.PolicyRoll

/-!
C124-C127: the policy evaluators and `MetaPolicy`.
-/
namespace Verif.PolicyEval
open Verif

variable {σ α κ : Type}

/-! ### C124: `construct_dict_policy` -/

/-- C124: the dictionaries hold exactly the states that the policy reaches and that are not terminal, with the action of the policy
and its outcomes, and exactly the predecessors. -/
theorem C124_exact [DecidableEq σ] {d : Domain σ α} {pol : σ → α} {fuel : Nat} {b : Build σ α} (h : construct d pol fuel = some (.ok b)) (s : σ) :
    (∀ a, b.policy.get? s = some a ↔ Reach d pol s ∧ d.terminal s = false ∧ a = pol s) ∧
    (∀ l, b.succs.get? s = some l ↔ Reach d pol s ∧ d.terminal s = false ∧ l = d.dist s (pol s)) ∧
    (∀ q, q ∈ at_ b.preds s ↔ Reach d pol q ∧ d.terminal q = false ∧ Step d pol q s) := by
  obtain ⟨hb, -⟩ := construct_ok h
  refine ⟨?_, ?_, ?_⟩
  · intro a
    constructor
    · exact hb.sound s a
    · rintro ⟨h1, h2, rfl⟩
      exact (hb.look ((hb.contains_iff s).2 ⟨h1, h2⟩)).2
  · intro l
    rw [hb.succ s]
    by_cases hc : b.policy.contains s = true
    · rw [if_pos hc]
      have := (hb.contains_iff s).1 hc
      simp only [Option.some.injEq]
      exact ⟨fun e => ⟨this.1, this.2, e.symm⟩, fun e => e.2.2.symm⟩
    · rw [if_neg hc]
      constructor
      · intro e; simp at e
      · rintro ⟨h1, h2, -⟩
        exact absurd ((hb.contains_iff s).2 ⟨h1, h2⟩) hc
  · intro q
    rw [hb.pred, hb.contains_iff, and_assoc]

/-- C124: the function raises exactly if a state that is left has an outcome that is only listed with probability zero,
and then it raises `AssertionError`. -/
theorem C124_assert [DecidableEq σ] {d : Domain σ α} {pol : σ → α} {fuel : Nat} {r : Except PyErr (Build σ α)} (h : construct d pol fuel = some r) :
    ((∃ e, r = .error e) ↔ ∃ s x, Reach d pol s ∧ d.terminal s = false ∧ (x, 0) ∈ d.dist s (pol s) ∧ ¬Step d pol s x) ∧
    ∀ e, r = .error e → e = .assertionError := by
  obtain ⟨b, hb, e⟩ := construct_cases h
  have hs := sane_iff hb
  by_cases hsane : sane b = true
  · rw [if_pos hsane] at e
    rw [e]
    refine ⟨⟨by rintro ⟨e, h⟩; simp at h, ?_⟩, by intro e h; simp at h⟩
    rintro ⟨s, x, h1, h2, h3, h4⟩
    exact absurd (hs.1 hsane s x 0 h1 h2 h3) h4
  · rw [if_neg hsane] at e
    rw [e]
    refine ⟨⟨fun _ => ?_, fun _ => ⟨_, rfl⟩⟩, by intro e h; simp at h; exact h.symm⟩
    apply Classical.byContradiction
    intro hno
    apply hsane
    rw [hs]
    intro s x p h1 h2 h3
    apply Classical.byContradiction
    intro h4
    apply hno
    refine ⟨s, x, h1, h2, ?_, h4⟩
    by_cases hp : p = 0
    · rw [← hp]; exact h3
    · exact absurd ⟨p, h3, hp⟩ h4

/-- C124: if the policy reaches finitely many states, the function returns or raises. -/
theorem C124_ends [DecidableEq σ] {d : Domain σ α} {pol : σ → α} {L : List σ} (hL : ∀ s, Reach d pol s → s ∈ L) : ∃ N, ∀ fuel, N ≤ fuel → ∃ r, construct d pol fuel = some r := by
  obtain ⟨M, hM⟩ : ∃ M, ∀ s ∈ L, (d.dist s (pol s)).length ≤ M := by
    clear hL
    induction L with
    | nil => exact ⟨0, by simp⟩
    | cons x L ih =>
      obtain ⟨M, hM⟩ := ih
      refine ⟨M + (d.dist x (pol x)).length, ?_⟩
      intro s hs
      rcases List.mem_cons.1 hs with rfl | hs
      · omega
      · have := hM s hs
        omega
  refine ⟨[d.init].length + (L.filter fun x => !Dict.contains ([] : Dict σ α) x).length * (M + 1) + 1, fun fuel hf => ?_⟩
  obtain ⟨b, hb⟩ := buildLoop_ends hL hM fuel ({ stack := [d.init] } : Build σ α) (Inv.start d pol) (Nat.lt_of_succ_le hf)
  unfold construct
  rw [hb]
  exact ⟨_, rfl⟩

/-! ### C125: `expected_costs_for_policy` -/

/-- C125: each value is the expected cost of a state from which the goal is surely reached within finitely many steps. -/
theorem C125_correct [DecidableEq σ] {d : Domain σ α} {pol : σ → α} (hP : Probs d pol) (hg : d.goal d.init = true → d.terminal d.init = true)
    {pick : Nat → Nat} {fuel : Nat} {val : Dict σ Rat} {b : Build σ α} (h : computeExpected d pol pick fuel = some (.ok (val, b))) {s : σ} {v : Rat} (hv : val.get? s = some v) :
    Reach d pol s ∧ ∃ N, ∀ n, N ≤ n → hit d pol n s = 1 ∧ spend d pol n s = v := by
  unfold computeExpected at h
  split at h
  · simp at h
  · simp at h
  · rename_i b' hb
    obtain ⟨hi, hs⟩ := construct_ok hb
    unfold expected at h
    cases hr : costLoop d b' pick fuel (goals d b').1 (goals d b').2 with
    | none => rw [hr] at h; simp at h
    | some r =>
      rw [hr] at h
      obtain ⟨val', e, hc, hV⟩ := costLoop_spec hi hP hs hg pick _ _ _ _ (goals_costs hi hP) (fun s v => goals_sure) hr
      rw [e] at h
      simp only [Option.map_some, Except.map, Option.some.injEq, Except.ok.injEq, Prod.mk.injEq] at h
      rw [← h.1] at hv
      refine ⟨?_, hV s v hv⟩
      have hcon : val'.contains s = true := by rw [Dict.contains_iff, hv]; rfl
      rcases hc.mem s hcon with h1 | h1
      · obtain ⟨q, h2, p, h3, h4⟩ := (hi.keys s).1 h1
        have := (hi.contains_iff q).1 h2
        exact .next this.1 this.2 h3 h4
      · exact ((hi.contains_iff s).1 h1).1

/-- C125: each state that is reached and from which the goal is surely reached within finitely many steps has a value, apart from
an initial state that is itself a goal. -/
theorem C125_complete [DecidableEq σ] {d : Domain σ α} {pol : σ → α} (hP : Probs d pol) (hg : d.goal d.init = true → d.terminal d.init = true)
    {pick : Nat → Nat} {fuel : Nat} {val : Dict σ Rat} {b : Build σ α} (h : computeExpected d pol pick fuel = some (.ok (val, b))) {s : σ} (hr : Reach d pol s)
    (hs : d.goal s = true → s ≠ d.init) {n : Nat} (hn : hit d pol n s = 1) : ∃ v, val.get? s = some v := by
  unfold computeExpected at h
  split at h
  · simp at h
  · simp at h
  · rename_i b' hb
    obtain ⟨hi, hsane⟩ := construct_ok hb
    unfold expected at h
    cases hr' : costLoop d b' pick fuel (goals d b').1 (goals d b').2 with
    | none => rw [hr'] at h; simp at h
    | some r =>
      rw [hr'] at h
      obtain ⟨val', e, hc, hV⟩ := costLoop_spec hi hP hsane hg pick _ _ _ _ (goals_costs hi hP) (fun s v => goals_sure) hr'
      rw [e] at h
      simp only [Option.map_some, Except.map, Option.some.injEq, Except.ok.injEq, Prod.mk.injEq] at h
      have := hc.complete hi hP n s hr ?_ hn
      · rw [← h.1]
        rw [Dict.contains_iff, Option.isSome_iff_exists] at this
        exact this
      · intro hgs
        cases hr with
        | init => exact absurd rfl (hs hgs)
        | next h1 h2 h3 h4 => exact (hi.keys s).2 ⟨_, (hi.contains_iff _).2 ⟨h1, h2⟩, _, h3, h4⟩

/-- C125: if the policy reaches finitely many states and no outcome is listed with probability zero, the function returns, whatever
state leaves the set first. -/
theorem C125_returns [DecidableEq σ] {d : Domain σ α} {pol : σ → α} (hP : Probs d pol) (hg : d.goal d.init = true → d.terminal d.init = true)
    {L : List σ} (hL : ∀ s, Reach d pol s → s ∈ L) (hz : ∀ s x, (x, 0) ∉ d.dist s (pol s)) :
    ∃ N, ∀ fuel, N ≤ fuel → ∀ pick, ∃ val b, computeExpected d pol pick fuel = some (.ok (val, b)) := by
  obtain ⟨N, hN⟩ := C124_ends hL
  obtain ⟨r, hr⟩ := hN N (Nat.le_refl _)
  have hok : ∀ fuel r, construct d pol fuel = some r → ∃ b, r = .ok b := by
    intro fuel r h
    cases r with
    | ok b => exact ⟨b, rfl⟩
    | error e =>
      obtain ⟨s, x, -, -, h3, -⟩ := (C124_assert h).1.1 ⟨e, rfl⟩
      exact absurd h3 (hz s x)
  have hlen : ∀ fuel b, construct d pol fuel = some (.ok b) → b.policy.keys.length ≤ L.length := by
    intro fuel b h
    obtain ⟨hi, -⟩ := construct_ok h
    refine (List.Nodup.subperm hi.nodup ?_).length_le
    intro x hx
    rw [← Dict.get?_isSome_iff_mem_keys, ← Dict.contains_iff] at hx
    exact hL x ((hi.contains_iff x).1 hx).1
  refine ⟨N + (L.length + L.length * (L.length + 1) + 1), fun fuel hf pick => ?_⟩
  obtain ⟨r, hr⟩ := hN fuel (by omega)
  obtain ⟨b, rfl⟩ := hok fuel r hr
  obtain ⟨hi, hsane⟩ := construct_ok hr
  have hc := goals_costs hi hP
  have hl := hlen fuel b hr
  have h1 : (goals d b).2.length ≤ b.policy.keys.length := by
    refine (List.Nodup.subperm hc.nodup ?_).length_le
    intro x hx
    have := hc.sub x hx
    rwa [Dict.contains_iff, Dict.get?_isSome_iff_mem_keys] at this
  have h2 : (b.policy.keys.filter fun x => !(goals d b).1.contains x).length ≤ b.policy.keys.length := List.length_filter_le _ _
  have h3 : (b.policy.keys.filter fun x => !(goals d b).1.contains x).length * (b.policy.keys.length + 1) ≤ L.length * (L.length + 1) := Nat.mul_le_mul (by omega) (by omega)
  obtain ⟨r, hr'⟩ := costLoop_ends hi pick fuel _ _ hc (by omega)
  obtain ⟨val, e, -, -⟩ := costLoop_spec hi hP hsane hg pick _ _ _ _ hc (fun s v => goals_sure) hr'
  refine ⟨val, b, ?_⟩
  unfold computeExpected expected
  rw [hr]
  dsimp only
  rw [hr', e]
  rfl

/-- A start that leads to the goal 1 or the way 2 to it, with equal probabilities and costs 1, 3 and 5. -/
def twoWays : Domain Nat Unit where
  init := 0
  terminal s := s == 1
  goal s := s == 1
  dist s _ := if s = 0 then [(1, 1 / 2), (2, 1 / 2)] else [(1, 1)]
  cost s _ s' := if s = 0 then (if s' = 1 then 1 else 3) else 5

/-- Non-vacuity of C124 and C125: the expected cost is (1 + 3 + 5) / 2. -/
example : computeExpected twoWays (fun _ => ()) (fun k => k) 20 = some (.ok ([(1, 0), (2, 5), (0, 9 / 2)],
    { stack := [], preds := [(1, [0, 2]), (2, [0])], succs := [(0, [(1, 1 / 2), (2, 1 / 2)]), (2, [(1, 1)])], policy := [(0, ()), (2, ())] })) := by
  decide +kernel

/-- A loop: each step costs 1 and ends with probability 1/2. -/
def coin : Domain Nat Unit where
  init := 0
  terminal s := s == 1
  goal s := s == 1
  dist _ _ := [(0, 1 / 2), (1, 1 / 2)]
  cost _ _ _ := 1

/-- C125 fails with loops: the policy reaches the goal with probability 1 and its expected cost is 2, but its start has no value. -/
theorem C125_loop_refuted : (∀ n, hit coin (fun _ => ()) n 0 = 1 - (1 / 2) ^ n ∧ spend coin (fun _ => ()) n 0 = 2 - 2 * (1 / 2) ^ n) ∧
    (computeExpected coin (fun _ => ()) (fun k => k) 20).map (fun r => r.map (·.1)) = some (.ok [(1, 0)]) := by
  refine ⟨?_, by decide +kernel⟩
  intro n
  induction n with
  | zero => exact ⟨by simp [hit, coin], by simp [spend]⟩
  | succ n ih =>
    have h1 : hit coin (fun _ => ()) n 1 = 1 := hit_goal rfl n
    have h2 : spend coin (fun _ => ()) n 1 = 0 := spend_goal rfl n
    have e1 : hit coin (fun _ => ()) (n + 1) 0 = 1 / 2 * hit coin (fun _ => ()) n 0 + (1 / 2 * hit coin (fun _ => ()) n 1 + 0) := rfl
    have e2 : spend coin (fun _ => ()) (n + 1) 0 = 1 / 2 * (1 + spend coin (fun _ => ()) n 0) + (1 / 2 * (1 + spend coin (fun _ => ()) n 1) + 0) := rfl
    rw [e1, e2, h1, h2, ih.1, ih.2, pow_succ]
    exact ⟨by ring, by ring⟩

/-- A start that is a goal, and that is left or not. -/
def goalStart (ends : Bool) : Domain Nat Unit where
  init := 0
  terminal s := s == 1 || ends
  goal _ := true
  dist _ _ := [(1, 1)]
  cost _ _ _ := 7

/-- C125 fails for a start that is a goal: it has no value if it is terminal, and a cost if it is not, though no step is needed. -/
theorem C125_start_refuted : (computeExpected (goalStart true) (fun _ => ()) (fun k => k) 20).map (fun r => r.map (·.1)) = some (.ok []) ∧
    (computeExpected (goalStart false) (fun _ => ()) (fun k => k) 20).map (fun r => r.map (·.1)) = some (.ok [(1, 0), (0, 7)]) ∧
    ∀ e n, hit (goalStart e) (fun _ => ()) n 0 = 1 ∧ spend (goalStart e) (fun _ => ()) n 0 = 0 :=
  ⟨by decide +kernel, by decide +kernel, fun _ n => ⟨hit_goal rfl n, spend_goal rfl n⟩⟩

/-- A step that lists an outcome of probability zero. -/
def listed : Domain Nat Unit where
  init := 0
  terminal s := s == 1
  goal s := s == 1
  dist _ _ := [(1, 1), (2, 0)]
  cost _ _ _ := 1

/-- C124: the evaluation of a policy that surely reaches the goal in one step raises because of such an outcome. -/
theorem C124_zero_refuted : (∀ n, hit listed (fun _ => ()) (n + 1) 0 = 1) ∧ computeExpected listed (fun _ => ()) (fun k => k) 20 = some (.error .assertionError) := by
  refine ⟨?_, by decide +kernel⟩
  intro n
  have h1 : hit listed (fun _ => ()) n 1 = 1 := hit_goal rfl n
  have e1 : hit listed (fun _ => ()) (n + 1) 0 = 1 * hit listed (fun _ => ()) n 1 + (0 * hit listed (fun _ => ()) n 2 + 0) := rfl
  rw [e1, h1]
  ring

/-! ### C126: rollouts -/

/-- C126: the values are the averages, over all visits in all rollouts, of the costs from the visit to the end of the rollout; the
actions are those of the policy, and the predecessors and successors are those of the rollouts. -/
theorem C126_average [DecidableEq σ] {d : Domain σ α} {pol : σ → α} {draw : Nat → σ → α → σ} {fuel n : Nat} {final : Dict σ Rat} {e : Est σ α}
    (h : estimate d pol draw fuel n = some (final, e)) :
    ∃ ts, ts.length = n ∧ Series d pol draw 0 ts ∧ ∀ s,
      (final.get? s = if ts.flatMap (gains · s) = [] then none else some ((ts.flatMap (gains · s)).sum / ((ts.flatMap (gains · s)).length : Nat))) ∧
      (e.policy.get? s = if ts.flatMap (gains · s) = [] then none else some (pol s)) ∧
      (∀ q, q ∈ at_ e.preds s ↔ ∃ t ∈ ts, ∃ j, j + 1 < t.actions.length ∧ Follows t j q s) ∧
      (∀ q, q ∈ at_ e.succs s ↔ ∃ t ∈ ts, ∃ j, j < t.actions.length ∧ Follows t j s q) := by
  unfold estimate at h
  obtain ⟨e', he, h⟩ := Option.map_eq_some_iff.1 h
  simp only [Prod.mk.injEq] at h
  obtain ⟨h1, rfl⟩ := h
  obtain ⟨ts, h2, h3, h4⟩ := estLoop_spec _ _ _ _ he
  have hb := Book.traces (pol := pol) ts (fun t ht => by
    obtain ⟨k, hk⟩ := h3.mem t ht
    exact ⟨hk.len, hk.act⟩) {} _ _ _ (Book.empty pol)
  rw [← h4] at hb
  simp only [List.append_nil, false_or] at hb
  refine ⟨ts, h2, h3, fun s => ?_⟩
  have hr := sum_flatMap_reverse (gains · s) ts
  have hnil : ts.reverse.flatMap (gains · s) = [] ↔ ts.flatMap (gains · s) = [] := by
    rw [← List.length_eq_zero_iff, hr.2, List.length_eq_zero_iff]
  refine ⟨?_, ?_, ?_, ?_⟩
  · rw [← h1, get?_map_values (fun k v => v / (((e'.visits.get? k).getD 0 : Nat) : Rat)) s e'.summed, hb.summed s, hb.visits s]
    by_cases hn : ts.flatMap (gains · s) = []
    · simp only [hnil, hn, if_true]
      rfl
    · rw [if_neg hn, if_neg fun c => hn (hnil.1 c)]
      simp only [Option.map_some, Option.getD_some, hr.1, hr.2, hnil, hn, if_false]
  · rw [hb.policy s]
    by_cases hn : ts.flatMap (gains · s) = []
    · rw [if_pos hn, if_pos (hnil.2 hn)]
    · rw [if_neg hn, if_neg fun c => hn (hnil.1 c)]
  · intro q
    exact hb.pred s q
  · intro q
    exact hb.succ s q

/-- C126: if the outcomes are certain and the rollouts end in goals, each estimated value is the expected cost. -/
theorem C126_deterministic [DecidableEq σ] {d : Domain σ α} {pol : σ → α} {draw : Nat → σ → α → σ} {fuel n : Nat} {final : Dict σ Rat} {e : Est σ α} {next : σ → σ}
    (hdist : ∀ s, d.dist s (pol s) = [(next s, 1)]) (hdraw : ∀ k s, draw k s (pol s) = next s) (hinit : d.goal d.init = false ∧ d.terminal d.init = false)
    (hend : ∀ s, d.terminal s = true → d.goal s = true) (h : estimate d pol draw fuel n = some (final, e)) {s : σ} {v : Rat} (hv : final.get? s = some v) :
    ∃ N, ∀ n, N ≤ n → hit d pol n s = 1 ∧ spend d pol n s = v := by
  obtain ⟨ts, -, h2, h3⟩ := C126_average h
  have h4 := (h3 s).1
  rw [hv] at h4
  split at h4
  · simp at h4
  · rename_i hn
    simp only [Option.some.injEq] at h4
    have hall : ∀ x ∈ ts.flatMap (gains · s), Sure d pol s x := by
      intro x hx
      obtain ⟨t, ht, hx⟩ := List.mem_flatMap.1 hx
      obtain ⟨k, hk⟩ := h2.mem t ht
      obtain ⟨j, hj, hx⟩ := List.mem_filterMap.1 hx
      rw [List.mem_range] at hj
      split at hx
      · rename_i hs
        simp only [Option.some.injEq] at hx
        rw [← hx]
        refine hk.sure hdist hdraw hinit ?_ (t.actions.length - j) j s (by omega) hs
        intro s' hs'
        rcases (hk.stop _ s' hk.pos hs').2 rfl with h | h
        · exact h
        · exact hend s' h
      · simp at hx
    obtain ⟨x, hx⟩ := List.exists_mem_of_ne_nil _ hn
    have hsum := sum_const (v := x) (fun y hy => (hall y hy).unique (hall x hx))
    have hne : (((ts.flatMap (gains · s)).length : Nat) : Rat) ≠ 0 := by
      intro c
      apply hn
      rw [← List.length_eq_zero_iff]
      exact_mod_cast c
    rw [hsum, mul_div_cancel_left₀ _ hne] at h4
    rw [h4]
    exact hall x hx

/-- A start that leads to the goal 1 with cost 3 by `true` and to the dead end 2 with cost 1 by `false`. -/
def trap : Domain Nat Bool where
  init := 0
  terminal s := s != 0
  goal s := s == 1
  dist _ a := if a then [(1, 1)] else [(2, 1)]
  cost _ a _ := if a then 3 else 1

/-- The outcome of `trap`. -/
def trapDraw (_ _ : Nat) (a : Bool) : Nat := if a then 1 else 2

/-- C126 fails for rollouts that end elsewhere: `my_custom_rollout` adds 1000 to its sum, but the values of the estimation do not, so
the policy that never reaches the goal looks better. -/
theorem C126_penalty_refuted : (customRollout trap (fun _ => false) trapDraw 5 0 0).map (·.1.total) = some 1001 ∧
    (estimate trap (fun _ => false) trapDraw 5 2).map (fun r => r.1.get? 0) = some (some 1) ∧
    (estimate trap (fun _ => true) trapDraw 5 2).map (fun r => r.1.get? 0) = some (some 3) := by
  refine ⟨?_, ?_, ?_⟩ <;> decide +kernel

/-- Non-vacuity of C126: a walk down from 3 with costs 1, 2 and 3; the second rollout repeats the first. -/
example : (estimate ({ init := 3, terminal := (· == 0), goal := (· == 0), dist := fun s _ => [(s - 1, 1)], cost := fun s _ _ => s } : Domain Nat Unit) (fun _ => ()) (fun _ s _ => s - 1) 9 2).map
    (fun r => (r.1, r.2.preds, r.2.succs)) = some ([(1, 1), (2, 3), (3, 6)], [(1, [2]), (2, [3]), (3, [])], [(1, [0]), (2, [1]), (3, [2])]) := by
  decide +kernel

/-- C126: the variant for scheduling domains gives the initial state the average of the times that the rollouts take, and raises
`ZeroDivisionError` without rollouts. -/
theorem C126_fast {d : Domain σ α} {time : σ → Int} {pol : σ → α} {draw : Nat → σ → α → σ} {fuel n : Nat} {r : Except PyErr Rat}
    (h : fastEstimate d time pol draw fuel n = some r) :
    (n = 0 ∧ r = .error .zeroDivisionError) ∨ (0 < n ∧ ∃ ts, ts.length = n ∧ Series d pol draw 0 ts ∧
      r = .ok (((ts.map fun t => time (t.states.getLast?.getD d.init) - time d.init).sum : Int) / (n : Rat))) := by
  have key : ∀ (n k : Nat) (acc v : Int), fastLoop d time pol draw fuel n k acc = some v →
      ∃ ts, ts.length = n ∧ Series d pol draw k ts ∧ v = acc + (ts.map fun t => time (t.states.getLast?.getD d.init) - time d.init).sum := by
    intro n
    induction n with
    | zero =>
      intro k acc v h
      simp only [fastLoop, Option.some.injEq] at h
      exact ⟨[], rfl, trivial, by simp [h]⟩
    | succ n ih =>
      intro k acc v h
      unfold fastLoop at h
      split at h
      · simp at h
      · rename_i t k' ht
        obtain ⟨h1, h2⟩ := customRollout_spec ht
        obtain ⟨ts, h3, h4, h5⟩ := ih _ _ _ h
        refine ⟨t :: ts, by simp [h3], ⟨h1, by rw [← h2]; exact h4⟩, ?_⟩
        rw [h5, List.map_cons, List.sum_cons]
        ring
  unfold fastEstimate at h
  split at h
  · simp at h
  · rename_i v hv
    simp only [Option.some.injEq] at h
    by_cases hn : n = 0
    · rw [if_pos hn] at h
      exact Or.inl ⟨hn, h.symm⟩
    · rw [if_neg hn] at h
      obtain ⟨ts, h1, h2, h3⟩ := key _ _ _ _ hv
      refine Or.inr ⟨by omega, ts, h1, h2, ?_⟩
      rw [← h, h3]
      simp

/-! ### C127: `MetaPolicy` -/

/-- C127: if all policies agree, their common action is the answer, and nothing is simulated. -/
theorem C127_agree [DecidableEq α] {policies : List (κ × (σ → α))} {obs : σ} {a : α} (hne : policies ≠ []) (h : ∀ m ∈ policies, m.2 obs = a)
    (rollout : κ → Nat → Episode α) (n : Nat) (now : Int) : metaAction policies rollout n now obs = .ok a := by
  unfold metaAction
  dsimp only
  rw [if_neg]
  · cases policies with
    | nil => exact absurd rfl hne
    | cons m ms =>
      simp only [List.map_cons]
      rw [h m List.mem_cons_self]
  · rw [dedup_long]
    rintro ⟨x, hx, y, hy, hxy⟩
    obtain ⟨m, hm, rfl⟩ := List.mem_map.1 hx
    obtain ⟨m', hm', rfl⟩ := List.mem_map.1 hy
    exact hxy ((h m hm).trans (h m' hm').symm)

/-- C127: if they do not agree, the answer is the action of the first policy whose simulated episodes take the least time in total,
provided that episodes begin with the action of their policy. -/
theorem C127_best [DecidableEq α] {policies : List (κ × (σ → α))} {obs : σ} {rollout : κ → Nat → Episode α} {n : Nat} {now : Int} {a : α}
    (hdis : ∃ m ∈ policies, ∃ m' ∈ policies, m.2 obs ≠ m'.2 obs) (hfirst : ∀ m ∈ policies, ∀ i < n, ∀ x, (rollout m.1 i).actions.head? = some x → x = m.2 obs)
    (h : metaAction policies rollout n now obs = .ok a) :
    ∃ l m l', policies = l ++ m :: l' ∧ a = m.2 obs ∧ (∀ x ∈ l, spent rollout now n m.1 < spent rollout now n x.1) ∧ ∀ x ∈ l', spent rollout now n m.1 ≤ spent rollout now n x.1 := by
  unfold metaAction at h
  dsimp only at h
  rw [if_pos] at h
  · obtain ⟨rs, hrs, h⟩ := bind_eq_ok.1 h
    obtain ⟨e, -⟩ := simulateAll_ok _ _ hrs
    rw [List.map_map] at e
    split at h
    · simp at h
    · rename_i r rs'
      obtain ⟨l₁, l₂, h1, h2, h3⟩ := firstMin_spec rs' r
      generalize firstMin r rs' = b at *
      rw [h1] at e
      obtain ⟨l, l'', e1, e2, e3⟩ := List.map_eq_append_iff.1 e.symm
      obtain ⟨m, l', e4, e5, e6⟩ := List.map_eq_cons_iff.1 e3
      refine ⟨l, m, l', by rw [e1, e4], ?_, ?_, ?_⟩
      · rw [← e5] at h
        simp only [Function.comp_apply] at h
        split at h
        · rename_i x hx
          simp only [pure, Except.pure, Except.ok.injEq] at h
          split at hx
          · simp at hx
          · rename_i hn
            rw [← h]
            exact hfirst m (by rw [e1, e4]; simp) (n - 1) (by omega) x hx
        · simp at h
      · intro x hx
        have := h2 _ (by rw [← e2]; exact List.mem_map.2 ⟨x, hx, rfl⟩)
        rw [← e5] at this
        exact this
      · intro x hx
        have := h3 _ (by rw [← e6]; exact List.mem_map.2 ⟨x, hx, rfl⟩)
        rw [← e5] at this
        exact this
  · rw [gt_iff_lt, ← gt_iff_lt, dedup_long]
    obtain ⟨m, hm, m', hm', hne⟩ := hdis
    exact ⟨_, List.mem_map.2 ⟨m, hm, rfl⟩, _, List.mem_map.2 ⟨m', hm', rfl⟩, hne⟩

/-- C127: the errors: `IndexError` without policies or for an episode without actions, `KeyError` if the policies do not agree
and nothing is to be simulated; none else. -/
theorem C127_errors [DecidableEq α] {policies : List (κ × (σ → α))} {obs : σ} {rollout : κ → Nat → Episode α} {n : Nat} {now : Int} {e : PyErr}
    (h : metaAction policies rollout n now obs = .error e) :
    (e = .indexError ∧ (policies = [] ∨ ∃ m ∈ policies, ∃ i < n, (rollout m.1 i).actions = [])) ∨
    (e = .keyError ∧ n = 0 ∧ ∃ m ∈ policies, ∃ m' ∈ policies, m.2 obs ≠ m'.2 obs) := by
  unfold metaAction at h
  dsimp only at h
  split at h
  · rename_i hd
    rw [dedup_long] at hd
    obtain ⟨x, hx, y, hy, hxy⟩ := hd
    obtain ⟨m, hm, rfl⟩ := List.mem_map.1 hx
    obtain ⟨m', hm', rfl⟩ := List.mem_map.1 hy
    cases hr : simulateAll rollout now n (policies.map (·.1)) with
    | error e' =>
      rw [hr, bind_error] at h
      simp only [Except.error.injEq] at h
      obtain ⟨h1, k, h2, i, h3, h4⟩ := simulateAll_error _ _ hr
      obtain ⟨p, hp, rfl⟩ := List.mem_map.1 h2
      exact Or.inl ⟨by rw [← h, h1], Or.inr ⟨p, hp, i, h3, h4⟩⟩
    | ok rs =>
      rw [hr, bind_ok] at h
      obtain ⟨e1, e2⟩ := simulateAll_ok _ _ hr
      split at h
      · have := congrArg List.length e1
        simp at this
        rw [List.length_eq_zero_iff.1 this.symm] at hm
        simp at hm
      · rename_i r rs'
        obtain ⟨l₁, l₂, h1, -, -⟩ := firstMin_spec rs' r
        split at h
        · simp [pure, Except.pure] at h
        · rename_i hx
          simp only [Except.error.injEq] at h
          right
          refine ⟨h.symm, ?_, m, hm, m', hm', hxy⟩
          apply Classical.byContradiction
          intro hn
          have hmem : firstMin r rs' ∈ (policies.map (·.1)).map (fun m => (m, spent rollout now n m, if n = 0 then none else (rollout m (n - 1)).actions.head?)) := by
            rw [← e1, h1]; simp
          obtain ⟨k, hk, e3⟩ := List.mem_map.1 hmem
          rw [← e3] at hx
          dsimp only at hx
          rw [if_neg hn] at hx
          exact e2 k hk (n - 1) (by omega) (List.head?_eq_none_iff.1 hx)
  · split at h
    · rename_i hnil
      simp only [Except.error.injEq] at h
      exact Or.inl ⟨h.symm, Or.inl (List.map_eq_nil_iff.1 hnil)⟩
    · simp at h

/-- Non-vacuity of C127: three policies; the second and third take the least time, and the second is first. -/
example : metaAction (σ := Unit) [("a", fun _ => 1), ("b", fun _ => 2), ("c", fun _ => 3)]
    (fun m i => if m = "a" then ⟨9, [1]⟩ else if m = "b" then ⟨5 + i, [2, 7]⟩ else ⟨6 - i, [3]⟩) 2 1 () = .ok 2 := by
  decide +kernel

/-- C127: without episodes to simulate, two policies that disagree make the answer a `KeyError`. -/
theorem C127_zero_refuted (rollout : Nat → Nat → Episode Nat) (now : Int) :
    metaAction (σ := Unit) [(0, fun _ => 1), (1, fun _ => 2)] rollout 0 now () = .error .keyError := by
  rfl

end Verif.PolicyEval
