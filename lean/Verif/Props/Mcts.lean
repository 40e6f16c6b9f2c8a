import Verif.Lemmas.Mcts
import Mathlib.Analysis.SpecialFunctions.Log.Basic
import Mathlib.Analysis.SpecialFunctions.Sqrt
import Mathlib.Data.Rat.Defs
import Mathlib.Algebra.Order.Ring.Rat

/-!
C88: the Monte Carlo tree search returns, and its answer is an applicable action; it fails at states without
actions, terminal ones included.
C89: values stay within the discounted bounds of the rewards; every rollout is counted.
C90: all actions of the root are tried, and UCB1 tries each of them any number of times.
C91: one step from the end the best action is the right one, unless terminal states go on paying.
-/
set_option linter.unusedSectionVars false
namespace Verif.Mcts
variable {σ Act F : Type} [DecidableEq σ] [DecidableEq Act] [Field F] [LinearOrder F] {p : Problem σ Act F} {st st' : St σ Act F} {s root : σ}

/-- The states of a solver: new, or after calls of `solve` that returned. -/
inductive Reach (p : Problem σ Act F) : St σ Act F → Prop
  | new : Reach p St.empty
  | solve {st st' : St σ Act F} {root : σ} {n : Nat} : Reach p st → solve p st root n = .ok st' → Reach p st'

theorem Reach.inv (hd : Total p) (ho : Orders p) (h : Reach p st) : Inv p none st := by
  induction h with
  | new => exact empty_inv
  | solve _ hx ih => exact (iterate_inv hd ho _ _ ih.emplace (has_emplace.2 (.inl rfl)) hx).1

/-- A problem to look at: two actions in the root `0`, one of them with two outcomes; the states `1` and `2`
lead back and on; everything goes on. -/
def loop : Problem Nat Bool ℚ where
  actions _ := [true, false]
  dist s a := if s = 0 ∧ a = true then [1, 2] else if a then [s] else [0]
  reward s a t := if s = 0 ∧ a = true then (if t = 1 then 1 else -1) else if s = 2 then 1/2 else 0
  terminal _ := false
  heuristic _ := (0, 0)
  maxDepth := 2
  discount := 1/2
  bonus n m := (n : ℚ) / m
  draws k := 3 * k + 1
  order l := l.reverse
  orderP l := l

theorem loop_total : Total loop := by
  intro s a _
  simp only [loop]
  split
  · simp
  · split <;> simp

theorem loop_orders : Orders loop := ⟨fun l => List.reverse_perm l, fun l => List.Perm.refl l⟩

/-! ### C88 -/

/-- If every state, terminal or not, has an applicable action, and every applicable action a next state, no call
of `solve` fails, whatever was solved before. -/
theorem C88_runs_partial (ha : ∀ s, p.actions s ≠ []) (hd : ∀ s, ∀ a ∈ p.actions s, p.dist s a ≠ []) (ho : Orders p) (h : Reach p st) (root : σ) (n : Nat) :
    ∃ st', solve p st root n = .ok st' :=
  iterate_isOk ha hd ho n _ (h.inv hd ho).emplace (has_emplace.2 (.inl rfl))

example : ∃ st', solve loop St.empty 0 7 = .ok st' := C88_runs_partial (fun _ => by simp [loop]) loop_total loop_orders .new 0 7

/-- Asking for an action where none was tried is an error, and only there. -/
theorem C88_defined (st : St σ Act F) (s : σ) : (isSolutionDefined st s = true ↔ ∃ a, bestAction st s = .ok a) ∧
    (isSolutionDefined st s = true ↔ ∃ v, bestValue st s = .ok v) ∧
    (isSolutionDefined st s = false → bestAction st s = .error .runtimeError ∧ bestValue st s = .error .runtimeError) := by
  rw [isSolutionDefined, bestAction, bestValue]
  cases Dict.contains st.graph s <;> cases bestQ st s <;> simp

example : isSolutionDefined (St.empty : St Nat Bool ℚ) 0 = false := rfl

theorem bestQ_some {a : Act} (h : bestQ st s = some a) : a ∈ (st.node s).actions ∧ 0 < (st.act s a).visits ∧
    ∀ b ∈ (st.node s).actions, 0 < (st.act s b).visits → (st.act s b).value ≤ (st.act s a).value := by
  obtain ⟨h1, h2, _⟩ := (best_spec _ _ _ _).2 a h
  exact ⟨(h1.resolve_left (by simp)).1, (h1.resolve_left (by simp)).2, h2⟩

/-- The action given for any state is applicable, has been tried, and none that has been tried has a larger value. -/
theorem C88_best (hd : Total p) (ho : Orders p) (h : Reach p st) {a : Act} (hx : bestAction st s = .ok a) :
    a ∈ p.actions s ∧ 0 < (st.act s a).visits ∧ bestValue st s = .ok (st.act s a).value ∧
      ∀ b ∈ p.actions s, 0 < (st.act s b).visits → (st.act s b).value ≤ (st.act s a).value := by
  have hi := h.inv hd ho
  rw [bestAction] at hx
  split at hx
  · cases hx
  · rename_i a' hq
    obtain rfl := Except.ok.inj hx
    have hq' := hq
    split at hq
    · obtain ⟨b1, b2, b3⟩ := bestQ_some hq
      have hA : (st.node s).actions = p.actions s := (hi.actions s).resolve_left (List.ne_nil_of_mem b1)
      rw [hA] at b1 b3
      refine ⟨b1, b2, ?_, b3⟩
      rw [bestValue]
      simp only [hq']
    · cases hq

example : (solve loop St.empty 0 9).toOption.map (fun st => ((bestAction st 0).toOption, (bestValue st 0).toOption == some (st.act 0 true).value, (bestAction st 7).toOption)) =
    some (some true, true, none) := by decide +kernel

/-- After a rollout of at least one step there is an action for the root. -/
theorem C88_root (hd : Total p) (ho : Orders p) (h : Reach p st) (hm : 0 < p.maxDepth) (ht : p.terminal root = false) (ha : p.actions root ≠ []) {n : Nat} (hn : 0 < n)
    (hx : solve p st root n = .ok st') : ∃ a, bestAction st' root = .ok a := by
  have hi := h.inv hd ho
  obtain ⟨n, rfl⟩ : ∃ m, n = m + 1 := ⟨n - 1, by omega⟩
  have hs : (st.emplace root).has root := has_emplace.2 (.inl rfl)
  rw [solve, iterate] at hx
  obtain ⟨st1, h1, h2⟩ := bind_eq_ok.1 hx
  have ht' : ((st.emplace root).node root).terminal = false := by
    by_contra hn
    have := hi.emplace.terminal root (by simpa using hn)
    rw [ht] at this
    cases this
  obtain ⟨a, a1, a2, _, _⟩ := iteration_first hd ho hi.emplace hs ha ht' hm h1
  obtain ⟨i1, i2, _⟩ := iteration_inv hd ho hi.emplace hs h1
  obtain ⟨j1, j2, _⟩ := iterate_inv hd ho _ _ i1 (i2.has root hs) h2
  have hv := j2.tried root a
  have hh : st'.has root := j2.has root (i2.has root hs)
  have hpos : 0 < (st'.act root a).visits := by omega
  have hmem : a ∈ (st'.node root).actions := j1.mem root a (j1.known root a hpos)
  rw [bestAction, if_pos (contains_iff_has.2 hh)]
  cases hq : bestQ st' root with
  | none =>
    have := ((best_spec _ _ _ _).1.1 hq).2 a hmem
    omega
  | some b => exact ⟨b, rfl⟩

example : (solve loop St.empty 0 3).toOption.map (fun st => (bestAction st 0).toOption) = some (some true) := by decide +kernel

example : ∃ st', solve loop St.empty 0 3 = .ok st' ∧ ∃ a, bestAction st' 0 = .ok a := by
  obtain ⟨st', h⟩ := C88_runs_partial (fun _ => by simp [loop]) loop_total loop_orders .new 0 3
  exact ⟨st', h, C88_root loop_total loop_orders .new (by simp [loop]) rfl (by simp [loop]) (by omega) h⟩

/-- A goal next to the root, without actions of its own. -/
def goal (draws : Nat → Nat) : Problem Bool Unit ℚ where
  actions s := if s then [] else [()]
  dist _ _ := [true]
  reward _ _ _ := 1
  terminal s := s
  heuristic _ := (0, 0)
  maxDepth := 2
  discount := 1
  bonus _ _ := 0
  draws := draws
  order l := l
  orderP l := l

/-- The simulation does not look whether its first state is terminal: with a goal without actions in reach of
the root (and `max_depth` at least two), `solve` fails at its first rollout. -/
theorem C88_goal_refuted (draws : Nat → Nat) (n : Nat) : solve (goal draws) St.empty false (n + 1) = .error .runtimeError := by
  simp [solve, iterate, iteration, treePolicy, expand, expandAction, generate, untried, pick, goal, St.emplace, St.empty, St.node, St.act, St.setNode, St.setAct,
    Dict.set, Dict.get?, Dict.contains, addOutcome, Nat.mod_one, rollout, walk]

/-! ### C89 -/

section bounds
variable [IsStrictOrderedRing F] {lo hi : F}

/-- If discounting keeps the interval from `lo` to `hi`, all values stay in it. -/
theorem C89_bounds (hb : Bounds p lo hi) (hd : Total p) (ho : Orders p) (h : Reach p st) : (∀ s, lo ≤ (st.node s).value ∧ (st.node s).value ≤ hi) ∧
    (∀ s a, lo ≤ (st.act s a).value ∧ (st.act s a).value ≤ hi) ∧ ∀ s v, bestValue st s = .ok v → lo ≤ v ∧ v ≤ hi := by
  have hB : Bnd lo hi st := by
    induction h with
    | new => exact empty_bnd hb
    | solve h hx ih =>
      refine iterate_bnd hb hd ho _ _ (h.inv hd ho).emplace (has_emplace.2 (.inl rfl)) ⟨fun s => ?_, fun s a => ?_⟩ hx
      · rw [node_emplace]; exact ih.node s
      · rw [act_emplace]; exact ih.act s a
  refine ⟨hB.node, hB.act, fun s v hv => ?_⟩
  rw [bestValue] at hv
  split at hv
  · cases hv
  · obtain rfl := Except.ok.inj hv
    exact hB.act _ _

/-- With rewards of size at most `R`, a discount `γ` below one, and heuristics of size at most `R / (1 - γ)`, the
value of a state is never larger than `R / (1 - γ)` in size. -/
theorem C89_geometric {R : F} (hR : 0 ≤ R) (hg0 : 0 ≤ p.discount) (hg : p.discount < 1)
    (hr : ∀ s a t, a ∈ p.actions s → t ∈ p.dist s a → -R ≤ p.reward s a t ∧ p.reward s a t ≤ R)
    (hh : ∀ s, -(R / (1 - p.discount)) ≤ (p.heuristic s).1 ∧ (p.heuristic s).1 ≤ R / (1 - p.discount)) (hd : Total p) (ho : Orders p) (h : Reach p st) {v : F}
    (hv : bestValue st s = .ok v) : -(R / (1 - p.discount)) ≤ v ∧ v ≤ R / (1 - p.discount) := by
  have h1 : 0 < 1 - p.discount := by linarith
  have h2 : 0 ≤ R / (1 - p.discount) := div_nonneg hR (le_of_lt h1)
  have h3 : R + p.discount * (R / (1 - p.discount)) = R / (1 - p.discount) := by
    field_simp
    ring
  refine (C89_bounds ⟨by linarith, h2, hg0, fun s a t ha ht => ?_, hh⟩ hd ho h).2.2 s v hv
  obtain ⟨r1, r2⟩ := hr s a t ha ht
  constructor <;> linarith

end bounds

theorem loop_bounds : Bounds loop (-2) 2 := by
  refine ⟨by norm_num, by norm_num, by norm_num [loop], fun s a t _ _ => ?_, fun s => by norm_num [loop]⟩
  simp only [loop]
  split <;> split <;> norm_num

example : ∃ st', solve loop St.empty 0 9 = .ok st' ∧ ∀ v, bestValue st' 0 = .ok v → -2 ≤ v ∧ v ≤ 2 := by
  obtain ⟨st', h⟩ := C88_runs_partial (fun _ => by simp [loop]) loop_total loop_orders .new 0 9
  exact ⟨st', h, (C89_bounds loop_bounds loop_total loop_orders (.solve .new h)).2.2 0⟩

example : ∃ st', solve loop St.empty 0 9 = .ok st' ∧ ∀ v, bestValue st' 0 = .ok v → -(1 / (1 - 1/2)) ≤ v ∧ v ≤ 1 / (1 - 1/2) := by
  obtain ⟨st', h⟩ := C88_runs_partial (fun _ => by simp [loop]) loop_total loop_orders .new 0 9
  refine ⟨st', h, fun v hv => C89_geometric (p := loop) (R := 1) (by norm_num) (by norm_num [loop]) (by norm_num [loop]) (fun s a t _ _ => ?_) (fun s => ?_)
    loop_total loop_orders (.solve .new h) hv⟩
  · simp only [loop]
    split <;> split <;> norm_num
  · norm_num [loop]

/-- Every rollout is counted at the root at least once, and nothing is forgotten. -/
theorem C89_visits (hd : Total p) (ho : Orders p) (h : Reach p st) {n : Nat} (hx : solve p st root n = .ok st') :
    (st.node root).visits + n ≤ (st'.node root).visits ∧ (∀ s, (st.node s).visits ≤ (st'.node s).visits) ∧
    ∀ s a, (st.act s a).visits ≤ (st'.act s a).visits := by
  obtain ⟨_, i2, i3⟩ := iterate_inv hd ho n _ (h.inv hd ho).emplace (has_emplace.2 (.inl rfl)) hx
  rw [node_emplace] at i3
  refine ⟨i3, fun s => ?_, fun s a => ?_⟩
  · have := i2.visits s
    rwa [node_emplace] at this
  · have := i2.tried s a
    rwa [act_emplace] at this

example : ∃ st', solve loop St.empty 0 9 = .ok st' ∧ 9 ≤ (st'.node 0).visits := by
  obtain ⟨st', h⟩ := C88_runs_partial (fun _ => by simp [loop]) loop_total loop_orders .new 0 9
  have := (C89_visits loop_total loop_orders .new h).1
  exact ⟨st', h, by omega⟩

/-- A state that leads to itself. -/
def self : Problem Unit Unit ℚ where
  actions _ := [()]
  dist _ _ := [()]
  reward _ _ _ := 1
  terminal _ := false
  heuristic _ := (0, 0)
  maxDepth := 1
  discount := 1
  bonus _ _ := 0
  draws k := k
  order l := l
  orderP l := l

/-- A rollout may be counted more than once (the graph is backed up through cycles), and the value of a state may
exceed all that can be earned within `max_depth` steps: here one step of reward one. -/
theorem C89_cycle_refuted : ∃ st' v, solve self St.empty () 3 = .ok st' ∧ (st'.node ()).visits = 9 ∧ bestValue st' () = .ok v ∧ 1 < v := by
  have h : (solve self St.empty () 3).toOption.map (fun st => ((st.node ()).visits, (bestValue st ()).toOption.map fun v => decide (1 < v))) = some (9, some true) := by
    decide +kernel
  cases hx : solve self St.empty () 3 with
  | error e => rw [hx] at h; cases h
  | ok st' =>
    rw [hx] at h
    simp only [Except.toOption, Option.map_some, Option.some.injEq, Prod.mk.injEq] at h
    cases hv : bestValue st' () with
    | error e => rw [hv] at h; cases h.2
    | ok v =>
      rw [hv] at h
      exact ⟨st', v, rfl, h.1, hv, by simpa using h.2⟩

/-! ### C90 -/

/-- With at least one rollout for every action of the root and one for each of its outcomes, every action and
every outcome has been tried. -/
theorem C90_explored (hd : Total p) (ho : Orders p) (h : Reach p st) (hm : 0 < p.maxDepth) (ht : p.terminal root = false) (ha : p.actions root ≠ []) {n : Nat}
    (hn : ((p.actions root).map fun a => 1 + (p.dist root a).length).sum ≤ n) (hx : solve p st root n = .ok st') :
    ∀ a ∈ p.actions root, 0 < (st'.act root a).visits ∧ ∀ t ∈ p.dist root a, 0 < (st'.node t).visits := by
  have hi := h.inv hd ho
  have hs : (st.emplace root).has root := has_emplace.2 (.inl rfl)
  have hle : ((p.actions root).map (left p (st.emplace root) root)).sum ≤ n := le_trans (List.sum_le_sum fun a _ => left_le hi.emplace) hn
  have hE := iterate_explored hd ho ha ht hm n _ hi.emplace hs hle hx
  have hi' := (iterate_inv hd ho _ _ hi.emplace hs hx).1
  intro a ha
  obtain ⟨h1, h2⟩ := hE a ha
  rw [(hi'.outcomes root a).resolve_left h1] at h2
  exact ⟨(hi'.visited root a h1).resolve_right (by simp), h2⟩

example : ∃ st', solve loop St.empty 0 5 = .ok st' ∧ 0 < (st'.act 0 false).visits ∧ 0 < (st'.node 2).visits := by
  obtain ⟨st', h⟩ := C88_runs_partial (fun _ => by simp [loop]) loop_total loop_orders .new 0 5
  have := C90_explored loop_total loop_orders .new (by simp [loop]) rfl (by simp [loop]) (by simp [loop]) h
  exact ⟨st', h, (this false (by simp [loop])).1, (this true (by simp [loop])).2 2 (by simp [loop])⟩

/-- If values are bounded and the bonus of rarely tried actions grows beyond that of the others with the number of
visits, every action of the root is tried any number of times, given enough rollouts. -/
theorem C90_unbounded [IsStrictOrderedRing F] {lo hi : F} (hf : Forcing p) (hb : Bounds p lo hi) (hd : Total p) (ho : Orders p) (h : Reach p st) (hm : 0 < p.maxDepth)
    (ht : p.terminal root = false) (ha : p.actions root ≠ []) (K : Nat) :
    ∃ N, ∀ n ≥ N, ∀ st', solve p st root n = .ok st' → ∀ a ∈ p.actions root, K < (st'.act root a).visits := by
  obtain ⟨N, hN⟩ := hf K (hi - lo)
  have hi := h.inv hd ho
  have hs : (st.emplace root).has root := has_emplace.2 (.inl rfl)
  have hB := C89_bounds hb hd ho h
  have hB0 : Bnd lo _ (st.emplace root) := ⟨fun s => by rw [node_emplace]; exact hB.1 s, fun s a => by rw [act_emplace]; exact hB.2.1 s a⟩
  refine ⟨(((p.actions root).map fun a => 1 + (p.dist root a).length).sum + N) + (p.actions root).length * (K + 1), fun n hn st' hx => ?_⟩
  obtain ⟨m, rfl⟩ := Nat.exists_eq_add_of_le hn
  have hx' := hx
  rw [solve, Nat.add_assoc, iterate_add] at hx
  obtain ⟨st1, h1, h2⟩ := bind_eq_ok.1 hx
  have hle : ((p.actions root).map (left p (st.emplace root) root)).sum ≤ ((p.actions root).map fun a => 1 + (p.dist root a).length).sum + N :=
    le_trans (List.sum_le_sum fun a _ => left_le hi.emplace) (Nat.le_add_right _ _)
  have hE := iterate_explored hd ho ha ht hm _ _ hi.emplace hs hle h1
  obtain ⟨i1, i2, i3⟩ := iterate_inv hd ho _ _ hi.emplace hs h1
  have hB1 := iterate_bnd hb hd ho _ _ hi.emplace hs hB0 h1
  refine iterate_tries hN hb hd ho ha ht hm _ _ i1 (i2.has root hs) hB1 hE (by omega) ?_ h2
  have : ((p.actions root).map fun a => K + 1 - (st1.act root a).visits).sum ≤ ((p.actions root).map fun _ => K + 1).sum := List.sum_le_sum fun a _ => by omega
  rw [List.map_const', List.sum_replicate, smul_eq_mul] at this
  omega

theorem loop_forcing : Forcing loop := by
  intro K B
  obtain ⟨N, hN⟩ := exists_nat_gt (max B 0 * ((K : ℚ) * (K + 1)))
  refine ⟨N + 1, fun n hn m hm k hk hkK => ?_⟩
  have h1 : (0 : ℚ) < k := by exact_mod_cast hk
  have h2 : (0 : ℚ) < m := by exact_mod_cast (show 0 < m by omega)
  have h3 : (k : ℚ) ≤ K := by exact_mod_cast hkK
  have h4 : (K : ℚ) + 1 ≤ m := by exact_mod_cast hm
  have h5 : (N : ℚ) ≤ n := by exact_mod_cast (show N ≤ n by omega)
  have h6 : (0 : ℚ) < K := lt_of_lt_of_le h1 h3
  have h8 : (0 : ℚ) < n := by exact_mod_cast (show 0 < n by omega)
  have h7 : (n : ℚ) / m ≤ n / (K + 1) := div_le_div_of_nonneg_left (le_of_lt h8) (by linarith) h4
  have h9 : (n : ℚ) / K ≤ n / k := div_le_div_of_nonneg_left (le_of_lt h8) h1 h3
  have h10 : (n : ℚ) / K - n / (K + 1) = n / (K * (K + 1)) := by
    field_simp
    ring
  have h11 : max B 0 < (n : ℚ) / (K * (K + 1)) := by
    rw [lt_div_iff₀ (by positivity)]
    linarith
  have := le_max_left B 0
  simp only [loop]
  linarith

example : ∃ N, ∀ n ≥ N, ∀ st', solve loop St.empty 0 n = .ok st' → ∀ a ∈ loop.actions 0, 100 < (st'.act 0 a).visits :=
  C90_unbounded loop_forcing loop_bounds loop_total loop_orders .new (by simp [loop]) rfl (by simp [loop]) 100

/-- The bonus of line 696. -/
noncomputable def ucb1 (c : ℝ) (n m : Nat) : ℝ := 2 * c * Real.sqrt (2 * Real.log n / m)

/-- The bonus of the code is such, for any positive constant. -/
theorem C90_ucb1 {p : Problem σ Act ℝ} {c : ℝ} (hc : 0 < c) (hp : p.bonus = ucb1 c) : Forcing p := by
  intro K B
  rw [hp]
  by_cases hK : K = 0
  · exact ⟨0, fun n _ m _ k h1 h2 => by omega⟩
  have hK0 : (0 : ℝ) < K := by exact_mod_cast Nat.pos_of_ne_zero hK
  have hs1 : 0 < Real.sqrt K := Real.sqrt_pos.2 hK0
  have hs2 : Real.sqrt K < Real.sqrt (K + 1) := Real.sqrt_lt_sqrt (le_of_lt hK0) (by linarith)
  have hs3 : 0 < Real.sqrt ((K : ℝ) + 1) := lt_trans hs1 hs2
  obtain ⟨δ, hδ⟩ : ∃ δ, δ = 1 / Real.sqrt K - 1 / Real.sqrt ((K : ℝ) + 1) := ⟨_, rfl⟩
  have hδ0 : 0 < δ := by
    rw [hδ]
    have := one_div_lt_one_div_of_lt hs1 hs2
    linarith
  obtain ⟨X, hX⟩ : ∃ X, X = |B| / (2 * c * δ) + 1 := ⟨_, rfl⟩
  have hX0 : 0 < X := by rw [hX]; positivity
  obtain ⟨N, hN⟩ := exists_nat_ge (Real.exp (X ^ 2))
  refine ⟨N, fun n hn m hm k hk hkK => ?_⟩
  have hn' : Real.exp (X ^ 2) ≤ (n : ℝ) := le_trans hN (by exact_mod_cast hn)
  have hnpos : (0 : ℝ) < n := lt_of_lt_of_le (Real.exp_pos _) hn'
  have hlog : X ^ 2 ≤ Real.log n := (Real.le_log_iff_exp_le hnpos).2 hn'
  have hlog0 : 0 ≤ 2 * Real.log n := by nlinarith [sq_nonneg X]
  obtain ⟨L, hL⟩ : ∃ L, L = Real.sqrt (2 * Real.log n) := ⟨_, rfl⟩
  have hLX : X ≤ L := by
    rw [hL]
    apply Real.le_sqrt_of_sq_le
    nlinarith [sq_nonneg X]
  have hk0 : (0 : ℝ) < k := by exact_mod_cast hk
  have hm1 : Real.sqrt ((K : ℝ) + 1) ≤ Real.sqrt m := Real.sqrt_le_sqrt (by exact_mod_cast hm)
  have hk1 : Real.sqrt k ≤ Real.sqrt K := Real.sqrt_le_sqrt (by exact_mod_cast hkK)
  have e1 : L * (1 / Real.sqrt m) ≤ L * (1 / Real.sqrt ((K : ℝ) + 1)) :=
    mul_le_mul_of_nonneg_left (one_div_le_one_div_of_le hs3 hm1) (by linarith)
  have e2 : L * (1 / Real.sqrt K) ≤ L * (1 / Real.sqrt k) :=
    mul_le_mul_of_nonneg_left (one_div_le_one_div_of_le (Real.sqrt_pos.2 hk0) hk1) (by linarith)
  have e3 : L * (1 / Real.sqrt K) - L * (1 / Real.sqrt ((K : ℝ) + 1)) = L * δ := by rw [hδ]; ring
  have e4 : X * δ ≤ L * δ := mul_le_mul_of_nonneg_right hLX (le_of_lt hδ0)
  have e5 : |B| < 2 * c * (X * δ) := by
    have : 2 * c * (X * δ) = |B| + 2 * c * δ := by
      rw [hX]
      field_simp
    rw [this]
    have : 0 < 2 * c * δ := by positivity
    linarith
  have e6 := le_abs_self B
  have e7 : 2 * c * (L * (1 / Real.sqrt m)) + 2 * c * (X * δ) ≤ 2 * c * (L * (1 / Real.sqrt k)) := by
    have : L * (1 / Real.sqrt m) + X * δ ≤ L * (1 / Real.sqrt k) := by linarith
    have := mul_le_mul_of_nonneg_left this (by linarith : (0 : ℝ) ≤ 2 * c)
    linarith
  rw [ucb1, ucb1, Real.sqrt_div hlog0, Real.sqrt_div hlog0, ← hL, div_eq_mul_one_div L, div_eq_mul_one_div L]
  linarith

/-- The problem above with real numbers and the bonus of the code. -/
noncomputable def loopR : Problem Nat Bool ℝ where
  actions := loop.actions
  dist := loop.dist
  reward s a t := loop.reward s a t
  terminal := loop.terminal
  heuristic _ := (0, 0)
  maxDepth := 2
  discount := 1/2
  bonus := ucb1 (1 / Real.sqrt 2)
  draws := loop.draws
  order := loop.order
  orderP := loop.orderP

example : ∃ N, ∀ n ≥ N, ∀ st', solve loopR St.empty 0 n = .ok st' → ∀ a ∈ loopR.actions 0, 100 < (st'.act 0 a).visits := by
  have hb : Bounds loopR (-2) 2 := by
    refine ⟨by norm_num, by norm_num, by norm_num [loopR], fun s a t ha ht => ?_, fun s => by norm_num [loopR]⟩
    obtain ⟨h1, h2⟩ := loop_bounds.reward s a t ha ht
    have h1' : ((-2 : ℚ) : ℝ) ≤ ((loop.reward s a t + loop.discount * -2 : ℚ) : ℝ) := by exact_mod_cast h1
    have h2' : ((loop.reward s a t + loop.discount * 2 : ℚ) : ℝ) ≤ ((2 : ℚ) : ℝ) := by exact_mod_cast h2
    have hd : loop.discount = 1/2 := rfl
    rw [hd] at h1' h2'
    push_cast at h1' h2'
    simp only [loopR]
    constructor <;> linarith
  exact C90_unbounded (C90_ucb1 (by positivity) rfl) hb loop_total ⟨loop_orders.states, loop_orders.parents⟩ .new (by simp [loopR]) rfl (by simp [loopR, loop]) 100

/-! ### C91 -/

section onestep
variable [IsStrictOrderedRing F] {w : σ → F}

theorem solve_one (hw : OneStep p root w) (hd : Total p) (ho : Orders p) {n : Nat} (hx : solve p St.empty root n = .ok st') : One p root w st' :=
  iterate_ind (P := One p root w) hd ho (fun _ _ h hs h1 hx => iteration_one hw hd ho h hs h1 hx) n _ empty_inv.emplace (has_emplace.2 (.inl rfl)) start_one hx

/-- What becomes of a problem that ends after one step with certain outcomes: the value of the best action is
the largest of `reward + γ w`, where `w` is what a simulation from the outcome yields. -/
theorem one_step (hw : OneStep p root w) (hd : Total p) (ho : Orders p) (f : Act → σ) (hdet : ∀ a ∈ p.actions root, p.dist root a = [f a]) {n : Nat}
    (hn : 2 * (p.actions root).length ≤ n) (hx : solve p St.empty root n = .ok st') :
    ∃ a ∈ p.actions root, bestAction st' root = .ok a ∧ bestValue st' root = .ok (p.reward root a (f a) + p.discount * w (f a)) ∧
      ∀ b ∈ p.actions root, p.reward root b (f b) + p.discount * w (f b) ≤ p.reward root a (f a) + p.discount * w (f a) := by
  have hpos : 0 < n := by
    have := List.length_pos_iff.2 hw.actions
    omega
  have hsum : ((p.actions root).map fun a => 1 + (p.dist root a).length).sum ≤ n := by
    have h1 : (p.actions root).map (fun a => 1 + (p.dist root a).length) = (p.actions root).map fun _ => 2 :=
      List.map_congr_left fun a ha => by rw [hdet a ha]; rfl
    rw [h1, List.map_const', List.sum_replicate, smul_eq_mul]
    omega
  have hE := C90_explored hd ho .new hw.depth hw.nonterminal hw.actions hsum hx
  obtain ⟨a, ha⟩ := C88_root hd ho .new hw.depth hw.nonterminal hw.actions hpos hx
  obtain ⟨b1, _, b3, b4⟩ := C88_best hd ho (.solve .new hx) ha
  have hO := solve_one hw hd ho hx
  have hval : ∀ b ∈ p.actions root, (st'.act root b).value = p.reward root b (f b) + p.discount * w (f b) := by
    intro b hb
    obtain ⟨ts, t1, t2, t3⟩ := hO.act b
    have hv : (0 : F) < (st'.act root b).visits := by exact_mod_cast (hE b hb).1
    have hts : ts = List.replicate (st'.act root b).visits (f b) := by
      rw [← t1]
      refine List.eq_replicate_of_mem fun t ht => ?_
      have := t2 t ht
      rw [hdet b hb] at this
      exact List.mem_singleton.1 this
    rw [hts, List.map_replicate, List.sum_replicate, nsmul_eq_mul, mul_comm] at t3
    exact mul_left_cancel₀ (ne_of_gt hv) t3
  refine ⟨a, b1, ha, by rw [b3, hval a b1], fun b hb => ?_⟩
  rw [← hval a b1, ← hval b hb]
  exact b4 b hb (hE b hb).1

theorem walk_absorbed (hterm : ∀ s, p.terminal s = true → ∀ a ∈ p.actions s, ∀ t ∈ p.dist s a, p.terminal t = true ∧ p.reward s a t = 0) (n k : Nat) (s : σ)
    (hs : p.terminal s = true) {r : F} {k' : Nat} (hx : walk p n k s 0 1 = .ok (r, k')) : r = 0 := by
  cases n with
  | zero => exact (Prod.mk.inj (Except.ok.inj hx)).1.symm
  | succ n =>
    rw [walk] at hx
    split at hx
    · cases hx
    · rename_i a ha
      split at hx
      · cases hx
      · rename_i t ht
        obtain ⟨h1, h2⟩ := hterm s hs a (pick_mem ha) t (pick_mem ht)
        simp only [h1, h2, if_true] at hx
        rw [← (Prod.mk.inj (Except.ok.inj hx)).1]
        ring

/-- In a problem that ends after one step, the value of an action is the mean over its visits of the rewards of
outcomes (one for each visit), if nothing is paid beyond terminal states. -/
theorem C91_mean (hd : Total p) (ho : Orders p) (hm : 0 < p.maxDepth) (ht : p.terminal root = false) (ha : p.actions root ≠ []) (hh : ∀ t, (p.heuristic t).2 = 0)
    (haway : ∀ a ∈ p.actions root, root ∉ p.dist root a)
    (hend : p.maxDepth = 1 ∨ (∀ a ∈ p.actions root, ∀ t ∈ p.dist root a, p.terminal t = true) ∧
      ∀ s, p.terminal s = true → ∀ a ∈ p.actions s, ∀ t ∈ p.dist s a, p.terminal t = true ∧ p.reward s a t = 0)
    {n : Nat} (hx : solve p St.empty root n = .ok st') (a : Act) (hv : 0 < (st'.act root a).visits) :
    ∃ ts : List σ, ts.length = (st'.act root a).visits ∧ (∀ t ∈ ts, t ∈ p.dist root a) ∧
      (st'.act root a).value = (ts.map fun t => p.reward root a t).sum / (st'.act root a).visits := by
  have hw : OneStep p root fun _ => 0 := by
    refine ⟨hm, ht, ha, fun a ha t ht hr => haway a ha (hr ▸ ht), hend.imp id fun h => h.1, hh, fun a ha t ht k r k' hr => ?_⟩
    rcases hend with he | ⟨h1, h2⟩
    · rw [he] at hr
      exact (Prod.mk.inj (Except.ok.inj hr)).1.symm
    · exact walk_absorbed h2 _ _ _ (h1 a ha t ht) hr
  obtain ⟨ts, t1, t2, t3⟩ := (solve_one hw hd ho hx).act a
  refine ⟨ts, t1, t2, ?_⟩
  have hp : ((st'.act root a).visits : F) ≠ 0 := by exact_mod_cast (ne_of_gt hv)
  simp only [mul_zero, add_zero] at t3
  rw [eq_div_iff hp]
  exact t3

/-- If every action of the root has one certain outcome, not the root, and either the search is one step deep or
these outcomes are terminal and nothing is paid beyond terminal states, then two rollouts for each action give
an action with the largest reward, and that reward as its value. -/
theorem C91_one_step_partial (hd : Total p) (ho : Orders p) (hm : 0 < p.maxDepth) (ht : p.terminal root = false) (ha : p.actions root ≠ []) (hh : ∀ t, (p.heuristic t).2 = 0)
    (f : Act → σ) (hdet : ∀ a ∈ p.actions root, p.dist root a = [f a] ∧ f a ≠ root)
    (hend : p.maxDepth = 1 ∨ (∀ a ∈ p.actions root, p.terminal (f a) = true) ∧
      ∀ s, p.terminal s = true → ∀ a ∈ p.actions s, ∀ t ∈ p.dist s a, p.terminal t = true ∧ p.reward s a t = 0)
    {n : Nat} (hn : 2 * (p.actions root).length ≤ n) (hx : solve p St.empty root n = .ok st') :
    ∃ a ∈ p.actions root, bestAction st' root = .ok a ∧ bestValue st' root = .ok (p.reward root a (f a)) ∧
      ∀ b ∈ p.actions root, p.reward root b (f b) ≤ p.reward root a (f a) := by
  have hmem : ∀ a ∈ p.actions root, ∀ t ∈ p.dist root a, t = f a := fun a ha t ht => by
    rw [(hdet a ha).1] at ht
    exact List.mem_singleton.1 ht
  have hw : OneStep p root fun _ => 0 := by
    refine ⟨hm, ht, ha, fun a ha t ht => by rw [hmem a ha t ht]; exact (hdet a ha).2, ?_, hh, fun a ha t ht k r k' hr => ?_⟩
    · exact hend.imp id fun h a ha t ht => by rw [hmem a ha t ht]; exact h.1 a ha
    · rcases hend with he | ⟨h1, h2⟩
      · rw [he] at hr
        exact (Prod.mk.inj (Except.ok.inj hr)).1.symm
      · exact walk_absorbed h2 _ _ _ (by rw [hmem a ha t ht]; exact h1 a ha) hr
  obtain ⟨a, a1, a2, a3, a4⟩ := one_step hw hd ho f (fun a ha => (hdet a ha).1) hn hx
  simp only [mul_zero, add_zero] at a3 a4
  exact ⟨a, a1, a2, a3, a4⟩

end onestep

/-- Two actions that end the episode in the states `1` and `2`: the first earns one, the second nothing.
`after` is what a simulation that goes on would get in state `1`. -/
def ending (after : ℚ) (depth : Nat) (bonus : Nat → Nat → ℚ) (draws : Nat → Nat) : Problem Nat Bool ℚ where
  actions _ := [true, false]
  dist s a := if s = 0 then (if a then [1] else [2]) else [s]
  reward s a _ := if s = 0 then (if a then 1 else 0) else if s = 1 then after else 0
  terminal s := s != 0
  heuristic _ := (0, 0)
  maxDepth := depth
  discount := 1
  bonus := bonus
  draws := draws
  order l := l
  orderP l := l

theorem ending_total (after : ℚ) (depth : Nat) (bonus : Nat → Nat → ℚ) (draws : Nat → Nat) : Total (ending after depth bonus draws) := by
  intro s a _
  simp only [ending]
  split
  · split <;> simp
  · simp

theorem ending_orders (after : ℚ) (depth : Nat) (bonus : Nat → Nat → ℚ) (draws : Nat → Nat) : Orders (ending after depth bonus draws) :=
  ⟨fun _ => .refl _, fun _ => .refl _⟩

example (bonus : Nat → Nat → ℚ) (draws : Nat → Nat) : ∃ st', solve (ending 0 5 bonus draws) St.empty 0 10 = .ok st' ∧ ∃ a ∈ [true, false],
    bestAction st' 0 = .ok a ∧ bestValue st' 0 = .ok (if a then 1 else 0) ∧ ∀ b ∈ [true, false], (if b then (1 : ℚ) else 0) ≤ if a then 1 else 0 := by
  obtain ⟨st', h⟩ := C88_runs_partial (p := ending 0 5 bonus draws) (fun _ => by simp [ending]) (ending_total _ _ _ _) (ending_orders _ _ _ _) .new 0 10
  refine ⟨st', h, ?_⟩
  exact C91_one_step_partial (p := ending 0 5 bonus draws) (ending_total _ _ _ _) (ending_orders _ _ _ _) (by simp [ending]) rfl (by simp [ending]) (fun _ => rfl)
    (fun a => if a then 1 else 2) (fun a _ => by cases a <;> simp [ending])
    (.inr ⟨fun a _ => by cases a <;> simp [ending], fun s hs a _ t ht => by
      have hs' : s ≠ 0 := by simpa [ending] using hs
      simp only [ending, if_neg hs', List.mem_singleton] at ht
      subst ht
      simp [ending, hs']⟩) (by simp [ending]) h

/-- A lottery with two outcomes. -/
def lottery (draws : Nat → Nat) : Problem Nat Bool ℚ where
  actions _ := [true, false]
  dist s a := if s = 0 then (if a then [1, 2] else [2]) else [s]
  reward s _ t := if s = 0 ∧ t = 1 then 5 else 0
  terminal s := s != 0
  heuristic _ := (0, 0)
  maxDepth := 3
  discount := 1
  bonus n m := n / m
  draws := draws
  order l := l
  orderP l := l

example (draws : Nat → Nat) : ∃ st', solve (lottery draws) St.empty 0 6 = .ok st' ∧
    ∃ ts : List Nat, ts.length = (st'.act 0 true).visits ∧ (∀ t ∈ ts, t ∈ [1, 2]) ∧
      (st'.act 0 true).value = (ts.map fun t => if t = 1 then 5 else 0).sum / (st'.act 0 true).visits := by
  have hd : Total (lottery draws) := fun s a _ => by
    simp only [lottery]
    split
    · split <;> simp
    · simp
  have ho : Orders (lottery draws) := ⟨fun _ => .refl _, fun _ => .refl _⟩
  obtain ⟨st', h⟩ := C88_runs_partial (p := lottery draws) (fun _ => by simp [lottery]) hd ho .new 0 6
  have hv := (C90_explored hd ho .new (by simp [lottery]) rfl (by simp [lottery]) (by simp [lottery]) h true (by simp [lottery])).1
  obtain ⟨ts, t1, t2, t3⟩ := C91_mean hd ho (by simp [lottery]) rfl (by simp [lottery]) (fun _ => rfl) (fun a _ => by cases a <;> simp [lottery])
    (.inr ⟨fun a _ t ht => by
      simp only [lottery, if_true] at ht
      split at ht <;> simp at ht <;> simp [lottery] <;> omega,
      fun s hs a _ t ht => by
      have hs' : s ≠ 0 := by simpa [lottery] using hs
      simp only [lottery, if_neg hs', List.mem_singleton] at ht
      subst ht
      simp [lottery, hs']⟩) h true hv
  exact ⟨st', h, ts, t1, by simpa [lottery] using t2, by simpa [lottery] using t3⟩

/-- The simulations go on beyond terminal states (for at least one step): if that costs more than was earned, the
best action is the wrong one, for any number of rollouts (at least four), any draws and any bonus. -/
theorem C91_terminal_refuted (bonus : Nat → Nat → ℚ) (draws : Nat → Nat) (n : Nat) (hn : 4 ≤ n) :
    ∃ st', solve (ending (-2) 2 bonus draws) St.empty 0 n = .ok st' ∧ bestAction st' 0 = .ok false ∧
      (ending (-2) 2 bonus draws).reward 0 false 2 < (ending (-2) 2 bonus draws).reward 0 true 1 := by
  obtain ⟨st', h⟩ := C88_runs_partial (p := ending (-2) 2 bonus draws) (fun _ => by simp [ending]) (ending_total _ _ _ _) (ending_orders _ _ _ _) .new 0 n
  refine ⟨st', h, ?_, by norm_num [ending]⟩
  have hw : OneStep (ending (-2) 2 bonus draws) 0 fun t => if t = 1 then -2 else 0 := by
    refine ⟨by simp [ending], rfl, by simp [ending], fun a _ t ht => ?_, .inr fun a _ t ht => ?_, fun _ => rfl, fun a _ t ht k r k' hr => ?_⟩
    · cases a <;> simp [ending] at ht <;> omega
    · cases a <;> simp [ending] at ht <;> subst ht <;> rfl
    · have htt : t = 1 ∨ t = 2 := by cases a <;> simp [ending] at ht <;> omega
      have hstep : ∀ a' : Bool, (ending (-2) 2 bonus draws).dist t a' = [t] := fun a' => by
        rcases htt with rfl | rfl <;> rfl
      have hterm : (ending (-2) 2 bonus draws).terminal t = true := by rcases htt with rfl | rfl <;> rfl
      have hd1 : (ending (-2) 2 bonus draws).maxDepth - 1 = 0 + 1 := rfl
      rw [hd1, walk] at hr
      split at hr
      · cases hr
      · rename_i a' _
        rw [hstep] at hr
        simp only [pick, List.length_singleton, Nat.mod_one, List.getElem?_cons_zero, hterm, if_true] at hr
        rw [← (Prod.mk.inj (Except.ok.inj hr)).1]
        rcases htt with rfl | rfl <;> simp [ending]
  obtain ⟨a, _, a2, _, a4⟩ := one_step hw (ending_total _ _ _ _) (ending_orders _ _ _ _) (fun a => if a then 1 else 2) (fun a _ => by cases a <;> simp [ending]) (by simp [ending]; omega) h
  cases a with
  | false => exact a2
  | true =>
    have := a4 false (by simp [ending])
    norm_num [ending] at this

end Verif.Mcts
