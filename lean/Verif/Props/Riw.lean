import Verif.Lemmas.RiwStop
import Verif.Lemmas.RiwNovelty

/-!
C120, C121, C122: the solver RIW of cpp/src/hub/solver/riw.hh.
-/
namespace Verif.Riw
open Verif.Iw (Tuple Holds)

variable {σ α φ κ : Type}

/-! ### C120: graph and answers -/

/-- The solvers that a user can have: a new one, or one after further calls that returned. -/
inductive Reached [DecidableEq κ] [DecidableEq φ] (d : Domain σ α φ) (c : Config σ κ) : St σ α φ → Prop
  | new : Reached d c {}
  | solved (st st' : St σ α φ) (fuel : Nat) (s : σ) (b : Bool) : Reached d c st → solve d c fuel s st = some (.ok (st', b)) → Reached d c st'
  | asked (st st' : St σ α φ) (s : σ) (a : α) : Reached d c st → getBestAction c st s = .ok (a, st') → Reached d c st'

theorem Reached.good [DecidableEq κ] [DecidableEq φ] {d : Domain σ α φ} {c : Config σ κ} {st : St σ α φ} (h : Reached d c st) : Good d c.key st.graph := by
  induction h with
  | new => exact ⟨True'.nil d c.key, by intro i n k hn; simp at hn⟩
  | solved st st' fuel s b _ hs ih => exact ih.solve hs
  | asked st st' s a _ hs ih => exact ih.getBestAction hs

/-- C120: after any calls, no two nodes stand for the same state, a node that was expanded has exactly the
applicable actions of its state as children, in their order, and a child that was visited has the reward and
leads to the node of the outcome of the action. -/
theorem C120_graph [DecidableEq κ] [DecidableEq φ] {d : Domain σ α φ} {c : Config σ κ} {st : St σ α φ} (h : Reached d c st) :
    (∀ (i j : Nat) (n m : Node σ α), st.graph[i]? = some n → st.graph[j]? = some m → c.key n.state = c.key m.state → i = j) ∧
    ∀ n ∈ st.graph, (n.children = [] ∨ n.children.map (·.1) = d.actions n.state) ∧
      ∀ a r j, (a, r, some j) ∈ n.children → r = d.reward n.state a ∧ ∃ m : Node σ α, st.graph[j]? = some m ∧ c.key m.state = c.key (d.next n.state a) := by
  have hg := h.good.1
  refine ⟨hg.keys, ?_⟩
  intro n hn
  obtain ⟨i, hi⟩ := List.getElem?_of_mem hn
  refine ⟨hg.kids i n hi, ?_⟩
  intro a r j hc
  obtain ⟨k, hk⟩ := List.getElem?_of_mem hc
  obtain ⟨e, m, hm, hkey, _⟩ := hg.edge i n k a r j hi hk
  exact ⟨e, m, hm, hkey⟩

/-- C120: `get_best_action` answers exactly where `is_solution_defined_for` says so, and raises elsewhere;
the answer is an applicable action (of the state, if the hashes tell states apart). -/
theorem C120_action [DecidableEq κ] [DecidableEq φ] {d : Domain σ α φ} {c : Config σ κ} {st : St σ α φ} (h : Reached d c st) (s : σ) :
    (isSolutionDefined c st.graph s = true → ∃ a st', getBestAction c st s = .ok (a, st')) ∧
    (isSolutionDefined c st.graph s = false → getBestAction c st s = .error .runtimeError) ∧
    ∀ a st', getBestAction c st s = .ok (a, st') → ∃ s', c.key s' = c.key s ∧ a ∈ d.actions s' := by
  have hg := h.good
  have hchild : ∀ {i : Nat} {n : Node σ α} {k : Nat}, st.graph[i]? = some n → n.best = some k → ∃ a r j, n.children[k]? = some (a, r, some j) := by
    intro i n k hn hb
    exact hg.2 i n k hn hb
  unfold isSolutionDefined getBestAction
  cases hl : locate c.key st.graph s with
  | none => simp
  | some i =>
    obtain ⟨n, hn, hkey⟩ := locate_some hl
    dsimp only
    rw [hn]
    dsimp only
    cases hb : n.best with
    | none => simp
    | some k =>
      obtain ⟨a, r, j, hk⟩ := hchild hn hb
      dsimp only
      rw [hk]
      dsimp only
      refine ⟨fun _ => ⟨_, _, rfl⟩, by simp, ?_⟩
      intro a' st' e
      simp only [Except.ok.injEq, Prod.mk.injEq] at e
      refine ⟨n.state, hkey, ?_⟩
      rw [← e.1]
      rcases hg.1.kids i n hn with h0 | h0
      · rw [h0] at hk; simp at hk
      · rw [← h0, List.mem_map]; exact ⟨_, List.mem_of_getElem? hk, rfl⟩

/-- C120: after a search of a new solver every node can be reached from the start in as many steps as its
depth says, and no node is deeper than the limit. -/
theorem C120_depth [DecidableEq κ] [DecidableEq φ] {d : Domain σ α φ} {c : Config σ κ} {fuel : Nat} {s : σ} {st : St σ α φ} {b : Bool}
    (h : solve d c fuel s {} = some (.ok (st, b))) (hinj : ∀ x y, c.key x = c.key y → x = y) : ∀ n ∈ st.graph,
      (∃ as : List α, as.length = n.depth ∧ as.foldl d.next s = n.state ∧ ∀ pre a post, as = pre ++ a :: post → a ∈ d.actions (pre.foldl d.next s)) ∧
      n.depth ≤ max 1 c.maxDepth := by
  intro n hn
  obtain ⟨i, hi⟩ := List.getElem?_of_mem hn
  obtain ⟨hw, hd⟩ := Deep.solve (Reached.new.good) (by intro i n hn; simp at hn) h i n hi
  refine ⟨?_, hd⟩
  generalize n.depth = k at hw
  generalize n.state = x at hw
  clear hd hi hn
  induction hw with
  | start y hy => exact ⟨[], rfl, (hinj _ _ hy).symm, by intro pre a post e; simp at e⟩
  | next k y a y' _ ha hy ih =>
    obtain ⟨as, h1, h2, h3⟩ := ih
    refine ⟨as ++ [a], by simp [h1], by rw [List.foldl_append, h2]; exact (hinj _ _ hy).symm, ?_⟩
    intro pre a' post e
    rcases List.eq_nil_or_concat post with rfl | ⟨post', z, rfl⟩
    · obtain ⟨e1, e2⟩ := List.append_inj' e rfl
      simp at e2
      rw [← e1, h2, ← e2]
      exact ha
    · rw [List.concat_eq_append, ← List.cons_append, ← List.append_assoc] at e
      exact h3 pre a' post' (List.append_inj' e rfl).1

/-! Examples -/

/-- Two ways to the end, the second one better; a state of the first one looks like one of the second. -/
def two : Domain Nat Nat Nat where
  actions := fun s => match s with
    | 0 => [1, 2]
    | 1 => [3]
    | 2 => [4]
    | _ => []
  next := fun _ a => a
  reward := fun _ a => if a = 4 then 10 else -1
  terminal := fun _ a => 3 ≤ a
  features := fun s => if s = 2 then [1] else [s]

/-- The solver after a search. -/
def after (r : Option (Except PyErr (St Nat Nat Nat × Bool))) : St Nat Nat Nat :=
  match r with
  | some (.ok (st, _)) => st
  | _ => {}

/-- What a search returned. -/
def found (r : Option (Except PyErr (St Nat Nat Nat × Bool))) : Option Bool :=
  match r with
  | some (.ok (_, b)) => some b
  | _ => none

theorem ok_of_found {r : Option (Except PyErr (St Nat Nat Nat × Bool))} {b : Bool} (h : found r = some b) : r = some (.ok (after r, b)) := by
  match r with
  | some (.ok (st, b')) => simp [found] at h; subst h; rfl
  | some (.error _) => simp [found] at h
  | none => simp [found] at h

-- the hypotheses of `C120_graph`, `C120_action` and `C120_depth`: a search, an answer, a search
example : ∃ st, Reached two { key := id, maxDepth := 10 } st ∧ isSolutionDefined { key := id, maxDepth := 10 } st.graph 0 = true ∧ st.graph.length = 4 :=
  ⟨after (solve two { key := id, maxDepth := 10 } 5 0 {}), .solved _ _ 5 0 true .new (ok_of_found (by decide +kernel)), by decide +kernel, by decide +kernel⟩

/-- C120 disagreement: an answer lowers the depths of all nodes below the state by one, that of the state itself
from zero to the largest number. -/
theorem C120_depth_wraps : okAnd (getBestAction { key := id, maxDepth := 10 } (after (solve two { key := id, maxDepth := 10 } 5 0 {})) 0)
    (fun r => decide (r.1 = 1 ∧ r.2.graph.map (·.depth) = [2 ^ 64 - 1, 0, 1, 0])) = true := by decide +kernel

/-! ### C121: novelty and stopping -/

/-- C121: a state is novel if one of its tuples up to the width was never seen; or, for a new node, is stored with a greater depth;
or, for a known one, is stored with just this depth. -/
theorem C121_novel [DecidableEq φ] (width : Nat) (table : Table φ) (fs : List φ) (depth : Nat) (nn : Bool) :
    (novelty width table fs depth nn).1 = true ↔
      ∃ t, 1 ≤ t.length ∧ t.length ≤ width ∧ Holds fs t ∧
        (table.get? t = none ∨ ∃ e, table.get? t = some e ∧ (if nn then depth < e else e = depth)) := by
  rw [novelty_looked]
  rw [(novStep_fold depth nn (looked width fs) (false, fs.length + 1, table) (nodup_looked width fs)).1]
  constructor
  · rintro (h | ⟨t, ht, h⟩)
    · simp at h
    · obtain ⟨⟨h1, h2⟩, h3⟩ := mem_looked.1 ht
      exact ⟨t, h1, h2, h3, h⟩
  · rintro ⟨t, h1, h2, h3, h⟩
    exact Or.inr ⟨t, mem_looked.2 ⟨⟨h1, h2⟩, h3⟩, h⟩

/-- C121: afterwards each tuple of the state up to the width is stored with the least depth at which it was reached,
and the other tuples are as before. -/
theorem C121_table [DecidableEq φ] (width : Nat) (table : Table φ) (fs : List φ) (depth : Nat) (nn : Bool) (t : Tuple φ) :
    ((1 ≤ t.length ∧ t.length ≤ width ∧ Holds fs t) →
      ∃ e, (novelty width table fs depth nn).2.2.get? t = some e ∧ e ≤ depth ∧ (table.get? t = none → e = depth) ∧ ∀ x, table.get? t = some x → e = min x depth) ∧
    (¬ (1 ≤ t.length ∧ t.length ≤ width ∧ Holds fs t) → (novelty width table fs depth nn).2.2.get? t = table.get? t) := by
  rw [novelty_looked]
  have h := (novStep_fold depth nn (looked width fs) (false, fs.length + 1, table) (nodup_looked width fs)).2.1 t
  rw [h]
  refine ⟨fun hh => ?_, fun hh => ?_⟩
  · rw [if_pos (mem_looked.2 ⟨⟨hh.1, hh.2.1⟩, hh.2.2⟩)]
    refine ⟨_, rfl, ?_, ?_, ?_⟩
    · dsimp only
      split
      · exact Nat.le_refl _
      · exact Nat.min_le_right _ _
    · intro h0; dsimp only; rw [h0]
    · intro x hx; dsimp only; rw [hx]
  · rw [if_neg]
    intro hm
    obtain ⟨⟨h1, h2⟩, h3⟩ := mem_looked.1 hm
    exact hh ⟨h1, h2, h3⟩

/-- C121: the novelty of a node is the size of its smallest tuple up to the width that was never seen, and one more than the number of
features if there is none. -/
theorem C121_number [DecidableEq φ] (width : Nat) (table : Table φ) (fs : List φ) (depth : Nat) (nn : Bool) :
    (∀ t, 1 ≤ t.length → t.length ≤ width → Holds fs t → table.get? t = none → (novelty width table fs depth nn).2.1 ≤ t.length) ∧
    ((novelty width table fs depth nn).2.1 = fs.length + 1 ∨
      ∃ t, 1 ≤ t.length ∧ t.length ≤ width ∧ Holds fs t ∧ table.get? t = none ∧ (novelty width table fs depth nn).2.1 = t.length) := by
  rw [novelty_looked]
  obtain ⟨_, _, _, h4, h5⟩ := novStep_fold depth nn (looked width fs) (false, fs.length + 1, table) (nodup_looked width fs)
  refine ⟨fun t h1 h2 h3 h0 => h4 t (mem_looked.2 ⟨⟨h1, h2⟩, h3⟩) h0, ?_⟩
  rcases h5 with h | ⟨t, ht, h0, h⟩
  · exact Or.inl h
  · obtain ⟨⟨h1, h2⟩, h3⟩ := mem_looked.1 ht
    exact Or.inr ⟨t, h1, h2, h3, h0, h⟩

example : (novelty 2 [([(0, some 1)], 3)] [1, 2] 3 true).1 = true ∧ (novelty 2 [([(0, some 1)], 3)] [1, 2] 3 true).2.1 = 1 := by decide +kernel
example : (novelty 1 [([(0, some 1)], 3)] [1] 3 true).1 = false ∧ (novelty 1 [([(0, some 1)], 3)] [1] 3 false).1 = true := by decide +kernel

/-- C121 disagreement: the comment on `novelty` says that a state reached with lower depth is novel; a known node
is not, and gets pruned, as its tuples are stored with the depth of its first visit. -/
theorem C121_lower_depth_pruned : (novelty 1 [([(0, some 1)], 3)] [1] 2 false).1 = false ∧ (novelty 1 [([(0, some 1)], 3)] [1] 2 true).1 = true := by decide +kernel

/-- C121: a search makes at most as many rollouts as the budget allows. -/
theorem C121_budget [DecidableEq κ] [DecidableEq φ] {d : Domain σ α φ} {c : Config σ κ} {fuel : Nat} {s : σ} {st st' : St σ α φ} {b : Bool}
    (h : solve d c fuel s st = some (.ok (st', b))) : st'.rollouts ≤ c.budget := by
  unfold solve at h
  refine widths_ind (fun st => st.rollouts ≤ c.budget) ?_ _ _ { st with rollouts := 0, table := [] } st' b (Nat.zero_le _) h
  intro w st st' b hp hw
  obtain ⟨st1, h1, rfl, _⟩ := solveWidth_ok hw
  have := (rollouts_end _ _ _ h1).1
  rw [enter_rollouts] at this
  show st1.rollouts ≤ c.budget
  omega

/-- C121: a search of a new solver that reports no solution has finished its last width: within its budgets, with the start solved, after
states were pruned, and without an end of a trajectory: not one terminal state was visited in that width. -/
theorem C121_no_solution [DecidableEq κ] [DecidableEq φ] {d : Domain σ α φ} {c : Config σ κ} (ho : ∀ l x, x ∈ c.order l → x ∈ l)
    (hlate : ∀ k, c.late k = true → c.late (k + 1) = true) {fuel : Nat} {s : σ} {st : St σ α φ}
    (hf : d.features s ≠ []) (h : solve d c fuel s {} = some (.ok (st, false))) :
    st.rollouts < c.budget ∧ st.statesPruned = true ∧ st.reachedEnd = false ∧
    (∃ n ∈ st.graph, c.key n.state = c.key s ∧ n.solved = true) ∧ ∀ n ∈ st.graph, n.terminal = true → n.solved = false := by
  have hwid : ∀ (k w : Nat) (st0 st : St σ α φ), k ≠ 0 → Good d c.key st0.graph →
      (∀ (i : Nat) (n : Node σ α), st0.graph[i]? = some n → (n.terminal = true → n.children = []) ∧ (c.key n.state = c.key s → n.terminal = false)) →
      widths d c fuel s k w st0 = some (.ok (st, false)) →
      st.rollouts < c.budget ∧ st.statesPruned = true ∧ st.reachedEnd = false ∧
      (∃ n ∈ st.graph, c.key n.state = c.key s ∧ n.solved = true) ∧ ∀ n ∈ st.graph, n.terminal = true → n.solved = false := by
    intro k
    induction k with
    | zero => intro w st0 st hk; exact absurd rfl hk
    | succ k ih =>
      intro w st0 st _ hG hterm hw
      unfold widths at hw
      split at hw
      · simp at hw
      · simp at hw
      · simp at hw
      · rename_i st2 hs
        obtain ⟨st1, h1, e1, e2⟩ := solveWidth_ok hs
        -- the root and the terminal nodes at the start of the width
        have hstart : (∃ n, (enter d c w s st0).1.graph[(enter d c w s st0).2]? = some n ∧ n.terminal = false ∧ c.key n.state = c.key s) ∧
            Asleep (enter d c w s st0).1.graph := by
          have hclear : ∀ (i : Nat) (n : Node σ α), (clearBits st0.graph)[i]? = some n → n.solved = false ∧ (n.terminal = true → n.children = []) ∧ (c.key n.state = c.key s → n.terminal = false) := by
            intro i n hn
            unfold clearBits at hn
            rw [List.getElem?_map] at hn
            cases hg : st0.graph[i]? with
            | none => rw [hg] at hn; simp at hn
            | some n0 => rw [hg] at hn; simp at hn; subst hn; exact ⟨rfl, hterm i n0 hg⟩
          obtain ⟨nov, table, g', root, e, hcase⟩ := enter_cases d c w s st0
          rw [e]
          dsimp only
          rcases hcase with ⟨hloc, rfl⟩ | ⟨hloc, rfl, rfl⟩
          · obtain ⟨n, hn, hkey⟩ := locate_some hloc
            refine ⟨?_, ?_⟩
            · rw [getElem?_modify', getElem?_modify', hn]
              refine ⟨_, rfl, ?_, ?_⟩
              · simp only [if_pos]; exact (hclear root n hn).2.2 hkey
              · simp only [if_pos]; exact hkey
            · have h0 : Asleep (clearBits st0.graph) := fun i n hn ht => ⟨(hclear i n hn).2.1 ht, (hclear i n hn).1⟩
              refine Asleep.modify (Asleep.modify h0 fun n hn ht => ?_) fun n hn ht => ?_
              · exact ⟨fun h => h, ht⟩
              · exact ⟨fun h => h, ht⟩
          · refine ⟨?_, ?_⟩
            · rw [getElem?_modify', List.getElem?_append_right (Nat.le_refl _)]
              simp only [Nat.sub_self, List.getElem?_cons_zero, Option.map_some]
              exact ⟨_, rfl, by simp, by simp⟩
            · have h0 : Asleep (clearBits st0.graph ++ [({ state := s, depth := 0 } : Node σ α)]) := by
                intro i n hn ht
                rw [List.getElem?_append] at hn
                split at hn
                · exact ⟨(hclear i n hn).2.1 ht, (hclear i n hn).1⟩
                · have := List.mem_of_getElem? hn
                  simp at this
                  subst this
                  simp at ht
              refine h0.modify fun n hn ht => ?_
              exact ⟨fun h => h, ht⟩
        obtain ⟨hroot, hA⟩ := hstart
        obtain ⟨a1, nr, hnr, hnrt, hnrk⟩ := Asleep.rollouts ho (hG.enter w s) (fun _ => hA) hroot h1
        have hG1 : Good d c.key st2.graph := hG.solveWidth hs
        obtain ⟨b1, b2⟩ := rollouts_end _ _ _ h1
        rw [enter_rollouts] at b1 b2
        have e2 : c.late st1.ticks = false ∧ st1.rollouts < c.budget ∧ st1.reachedEnd = false ∧ st1.statesPruned = true := by
          simpa [and_assoc] using e2
        obtain ⟨hl, hb, hend, hpr⟩ := e2
        have hA1 := a1 hend
        by_cases hk0 : k = 0
        · subst hk0
          simp [widths] at hw
          subst hw
          rw [e1]
          refine ⟨hb, hpr, hend, ?_, ?_⟩
          · rcases b2 with h | ⟨t, h1, h2⟩ | h
            · exact ⟨nr, List.mem_of_getElem? hnr, hnrk, h nr hnr⟩
            · rw [h1, hlate t h2] at hl
              simp at hl
            · omega
          · intro n hn ht
            obtain ⟨i, hi⟩ := List.getElem?_of_mem hn
            exact (hA1 i n hi ht).2
        · refine ih (w + 1) st2 st hk0 hG1 ?_ hw
          rw [e1]
          intro i n hn
          refine ⟨fun ht => (hA1 i n hn ht).1, ?_⟩
          intro hkey
          have := hG1.1.keys i (enter d c w s st0).2 n nr (by rw [e1]; exact hn) (by rw [e1]; exact hnr) (by rw [hkey, hnrk])
          subst this
          rw [hnr] at hn
          cases hn
          exact hnrt
  unfold solve at h
  exact hwid _ 1 _ st (by simpa using hf) Reached.new.good (by intro i n hn; simp at hn) h

/-- A domain in which all trajectories are pruned before they come to an end. -/
def veil : Domain Nat Nat Nat where
  actions := fun s => if s < 2 then [s + 1] else []
  next := fun _ a => a
  reward := fun _ _ => -1
  terminal := fun _ a => a = 2
  features := fun s => if s = 0 then [7] else [7]

-- the hypotheses of `C121_no_solution`
example : solve veil { key := id } 5 0 {} = some (.ok (after (solve veil { key := id } 5 0 {}), false)) ∧ veil.features 0 ≠ [] :=
  ⟨ok_of_found (by decide +kernel), by decide⟩

/-- C121 disagreement: the comment on `WidthSolver::solve` says that it returns true exactly if no state was pruned or a budget was consumed.
It also does so if states were pruned once a trajectory came to an end: greater widths are not tried, and the better plan that was
pruned is lost. -/
theorem C121_true_despite_pruning : found (solve two { key := id, maxDepth := 10 } 5 0 {}) = some true ∧
    (after (solve two { key := id, maxDepth := 10 } 5 0 {})).statesPruned = true ∧ (after (solve two { key := id, maxDepth := 10 } 5 0 {})).rollouts = 2 ∧
    okAnd (bestValue { key := id, maxDepth := 10 } (after (solve two { key := id, maxDepth := 10 } 5 0 {})).graph 0) (fun v => decide (v = some (-2)))  = true := by decide +kernel

/-- C121 disagreement: an unpruned state without applicable actions that is not terminal makes the solver throw. -/
theorem C121_dead_end [DecidableEq κ] [DecidableEq φ] (d : Domain σ α φ) (c : Config σ κ) (w : Nat) (st : St σ α φ) (i : Nat) (n : Node σ α)
    (hn : st.graph[i]? = some n) (hs : n.solved = false) (hc : n.children = []) (ha : d.actions n.state = []) : step d c w st i = .error .runtimeError := by
  have hex : (expand d st.graph i)[i]? = some n := by
    unfold expand
    rw [getElem?_modify', hn]
    simp only [if_pos, Option.map_some, Option.some.injEq, hc, List.isEmpty_nil, ha, List.map_nil]
    cases n
    simp_all
  have hun : unsolved (expand d st.graph i) i = [] := by
    unfold unsolved
    rw [hex, ]
    simp [hc]
  unfold step
  rw [hn]
  simp [hs, hun]

example : ∃ st : St Nat Nat Nat, ∃ n, st.graph[0]? = some n ∧ n.solved = false ∧ n.children = [] ∧ veil.actions n.state = [] :=
  ⟨{ graph := [{ state := 2, depth := 0 }] }, _, rfl, rfl, rfl, rfl⟩

/-- Two states that lead to each other. -/
def ring : Domain Nat Nat Nat where
  actions := fun _ => [0]
  next := fun s _ => 1 - s
  reward := fun _ _ => -1
  terminal := fun _ _ => false
  features := fun s => [s]

/-- The solver while it walks in a circle. -/
def ringAt (x y t u : Nat) : St Nat Nat Nat where
  graph := [{ state := 0, children := [(0, -1, some 1)], parents := [1], depth := 0, novelty := x }, { state := 1, children := [(0, -1, some 0)], parents := [0], depth := 1, novelty := y }]
  minReward := some (-1)
  changed := true
  table := [([(0, some 0)], 0), ([(0, some 1)], 1)]
  rollouts := 1
  ticks := t
  draws := u

theorem ring_step0 (x y t u : Nat) : step ring { key := id, maxDepth := 5 } 1 (ringAt x y t u) 0 = .ok (ringAt x 2 (t + 1) (u + 1), some 1) := by
  rfl

theorem ring_step1 (x y t u : Nat) : step ring { key := id, maxDepth := 5 } 1 (ringAt x y t u) 1 = .ok (ringAt 2 y (t + 1) (u + 1), some 0) := by
  rfl

theorem ring_walk (fuel : Nat) : ∀ x y t u, walk ring { key := id, maxDepth := 5 } 1 fuel 0 (ringAt x y t u) = none ∧ walk ring { key := id, maxDepth := 5 } 1 fuel 1 (ringAt x y t u) = none := by
  induction fuel with
  | zero => intro x y t u; exact ⟨rfl, rfl⟩
  | succ fuel ih =>
    intro x y t u
    unfold walk
    rw [ring_step0, ring_step1]
    exact ⟨(ih _ _ _ _).2, (ih _ _ _ _).1⟩

theorem solve_none [DecidableEq κ] [DecidableEq φ] {d : Domain σ α φ} {c : Config σ κ} {fuel k : Nat} {s : σ} {n : Node σ α} (hk : (d.features s).length = k + 1) (hb : 0 < c.budget)
    (h : rollout d c 1 fuel (enter d c 1 s {}).2 { (enter d c 1 s {}).1 with ticks := (enter d c 1 s {}).1.ticks + 1 } = none)
    (hn : (enter d c 1 s {}).1.graph[(enter d c 1 s {}).2]? = some n) (hs : n.solved = false) (hl : c.late (enter d c 1 s {}).1.ticks = false) : solve d c fuel s {} = none := by
  have hr : ∀ left, rollouts d c 1 fuel (enter d c 1 s {}).2 (left + 1) (enter d c 1 s {}).1 = none := by
    intro left
    unfold rollouts
    rw [hn]
    dsimp only
    rw [hs, hl]
    simp only [Bool.false_eq_true, if_false]
    rw [h]
  unfold solve
  rw [hk]
  unfold widths solveWidth
  obtain ⟨b, hb⟩ := Nat.exists_eq_succ_of_ne_zero (Nat.pos_iff_ne_zero.1 hb)
  have h0 : (enter d c 1 s {}).1.rollouts = 0 := rfl
  have h1 := hr b
  have h2 : c.budget - (enter d c 1 s {}).1.rollouts = b + 1 := by rw [h0, hb]; rfl
  rw [← h2] at h1
  dsimp only at h1 ⊢
  rw [h1]

/-- C121 disagreement: `max_depth` does not bound a rollout: depths are least distances, so that on a circle the first rollout never ends. -/
theorem C121_circle_hangs (fuel : Nat) : solve ring { key := id, maxDepth := 5 } fuel 0 {} = none := by
  have hstart : ∀ st, step ring { key := id, maxDepth := 5 } 1 { (enter ring { key := id, maxDepth := 5 } 1 0 {}).1 with ticks := 1, rollouts := 1 } 0 = .ok (st, some 1) →
      step ring { key := id, maxDepth := 5 } 1 st 1 = .ok (ringAt 2 1 3 2, some 0) := by
    intro st h
    cases h
    rfl
  have hw : walk ring { key := id, maxDepth := 5 } 1 fuel 0 { (enter ring { key := id, maxDepth := 5 } 1 0 {}).1 with ticks := 1, rollouts := 1 } = none := by
    match fuel with
    | 0 => rfl
    | 1 => rfl
    | fuel + 2 =>
      unfold walk
      have h1 : ∃ st, step ring { key := id, maxDepth := 5 } 1 { (enter ring { key := id, maxDepth := 5 } 1 0 {}).1 with ticks := 1, rollouts := 1 } 0 = .ok (st, some 1) := ⟨_, rfl⟩
      obtain ⟨st, h1⟩ := h1
      rw [h1]
      dsimp only
      unfold walk
      rw [hstart st h1]
      exact (ring_walk fuel _ _ _ _).1
  refine solve_none rfl (by decide) ?_ rfl rfl rfl
  exact hw

/-- C121 disagreement: two actions that lead to the same state: the second visit sets the value of that state, which is solved then, to zero;
its successors are forgotten, and so the value of the start is off. -/
def twice : Domain Nat Nat Nat where
  actions := fun s => if s = 0 then [1, 2] else if s = 1 then [0] else []
  next := fun s _ => s + 1
  reward := fun _ _ => -1
  terminal := fun s _ => s = 1
  features := fun s => [s]

theorem C121_value_reset : okAnd (bestValue { key := id } (after (solve twice { key := id } 5 0 {})).graph 0) (fun v => decide (v = some (-1))) = true ∧
    (∀ a ∈ twice.actions 0, ∀ a' ∈ twice.actions (twice.next 0 a), twice.reward 0 a + twice.reward (twice.next 0 a) a' = -2 ∧ twice.terminal 0 a = false ∧ twice.terminal (twice.next 0 a) a' = true) := by
  decide +kernel

end Verif.Riw
