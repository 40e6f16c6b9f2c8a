import Verif.Lemmas.CppAStarOpt
import Verif.Lemmas.CppHeap

/-!
C64: the C++ A* solver always finishes on finite graphs, finds an executable plan when there is
one, and its actions and values describe that plan.
C65: optimality with a consistent heuristic, and how the mutable queue breaks it.
C66: solving again without clearing the graph.
-/
namespace Verif.CppAStar
open Verif.Search
variable [DecidableEq σ]

/-- `as` is the plan that the solver tells of: applicable from `s0`, with a goal at its end and
none before; along it the solution is defined, `get_best_action` gives the action and
`get_best_value` the cost still to pay; and off it no solution is defined. -/
structure Tells (p : Problem σ α) (s0 : σ) (g : Graph σ α) (as : List α) : Prop where
  nonempty : as ≠ []
  applicable : p.Applicable s0 as
  reaches : p.goal (p.walk s0 as) = true
  before : ∀ pre a post, as = pre ++ a :: post → p.goal (p.walk s0 pre) = false
  action : ∀ pre a post, as = pre ++ a :: post → bestAction g (p.walk s0 pre) = .ok a
  value : ∀ pre post, as = pre ++ post → bestValue g (p.walk s0 pre) = .ok (some (p.walkCost (p.walk s0 pre) post))
  defined : ∀ s, isSolutionDefined g s = true ↔ ∃ pre a post, as = pre ++ a :: post ∧ s = p.walk s0 pre

theorem bestValue_of_node {g : Graph σ α} {s : σ} (hc : Dict.contains g s = true) : bestValue g s = .ok (node g s).fscore := by
  rw [Dict.contains_iff] at hc
  obtain ⟨n, hn⟩ := Option.isSome_iff_exists.1 hc
  simp [bestValue, node, hn]

theorem bestAction_of_node {g : Graph σ α} {s t u : σ} {a : α} {c : Rat} (hc : Dict.contains g s = true)
    (h1 : (node g s).bestAction = some t) (h2 : (node g t).bestParent = some (u, a, c)) : bestAction g s = .ok a := by
  rw [Dict.contains_iff] at hc
  obtain ⟨n, hn⟩ := Option.isSome_iff_exists.1 hc
  simp only [node, hn, Option.getD_some] at h1
  simp only [bestAction, hn, h1, h2]

theorem defined_iff {g : Graph σ α} {s : σ} :
    isSolutionDefined g s = true ↔ Dict.contains g s = true ∧ (node g s).bestAction.isSome = true ∧ (node g s).solved = true := by
  rw [Dict.contains_iff, isSolutionDefined, node]
  cases hg : g.get? s with
  | none => simp
  | some n => simp

/-- The walk back of the round in which the search stops at a goal. -/
theorem goal_spec {p : Problem σ α} {h : σ → Rat} {Q : Queue σ} (hQ : Q.Lawful) {s0 : σ} {st : St σ α}
    (hi : Ok p h s0 st) (h0 : p.goal s0 = false) {cur : σ} {q : List σ} (hp : Q.pop (key st.graph) st.queue = some (cur, q))
    (hc : cur ∉ st.closed) (hg : p.goal cur = true) :
    ∃ as g, walk s0 st.graph.length cur (st.graph.set cur { node st.graph cur with fscore := some 0 }) = .ok g ∧
      Tells p s0 g as ∧ (node st.graph cur).gscore = some (p.walkCost s0 as) := by
  have hcg : st.graph.contains cur = true := hi.inGraph cur ((hQ.pop _ _ _ _ hp).mem_iff.2 (by simp))
  have hne : cur ≠ s0 := by rintro rfl; rw [h0] at hg; cases hg
  obtain ⟨u, a, gu, r1, _, _, r4, _⟩ := hi.reached cur hcg hne
  obtain ⟨as, g, w1, w2, w3, w4, w5, w6, w7, w8⟩ := walk_spec hi st.graph.length [] st.closed cur
    (st.graph.set cur { node st.graph cur with fscore := some 0 }) 0 rfl (walk_fuel hi) hcg (.inr ⟨u, _, r4, r1⟩)
    (by
      intro y
      rw [node_set, contains_set]
      by_cases hy : y = cur
      · subst hy; simp [hcg]
      · simp [hy])
    (by rw [node_set, if_pos rfl])
  have hcont : ∀ pre a post, as = pre ++ a :: post → Dict.contains g (p.walk s0 pre) = true := by
    intro pre a post hpp
    rw [(w8 _).2]; exact hi.known _ (w6 pre a post hpp).1
  have hoff : ∀ y, (∀ pre a post, as = pre ++ a :: post → y ≠ p.walk s0 pre) →
      node g y = if y = cur then { node st.graph cur with fscore := some 0 } else node st.graph y := by
    intro y hy
    rw [w7 y hy, node_set]
  refine ⟨as, g, w1, ⟨w5 hne, w2, by rw [w3]; exact hg, ?_, ?_, ?_, ?_⟩, w4⟩
  · intro pre a post hpp
    exact hi.nogoal _ (w6 pre a post hpp).1
  · intro pre a post hpp
    obtain ⟨_, h2, h3⟩ := w6 pre a post hpp
    exact bestAction_of_node (hcont pre a post hpp) (by rw [h3]) (by rw [(w8 _).1]; exact h2)
  · intro pre post hpp
    cases post with
    | nil =>
      rw [List.append_nil] at hpp
      subst hpp
      rw [w3, bestValue_of_node (by rw [(w8 _).2]; exact hcg), hoff, if_pos rfl]
      · rfl
      · intro pre a post hpp he
        exact hc (he ▸ (w6 pre a post hpp).1)
    | cons b post =>
      rw [bestValue_of_node (hcont pre b post hpp), (w6 pre b post hpp).2.2]
      simp
  · intro s
    rw [defined_iff]
    constructor
    · rintro ⟨_, h2, _⟩
      refine Classical.byContradiction fun hno => ?_
      rw [hoff s (fun pre a post hpp he => hno ⟨pre, a, post, hpp, he⟩)] at h2
      by_cases hs : s = cur
      · rw [if_pos hs] at h2
        simp only [(hi.nosolved cur).2] at h2
        cases h2
      · rw [if_neg hs, (hi.nosolved s).2] at h2
        cases h2
    · rintro ⟨pre, a, post, hpp, rfl⟩
      refine ⟨hcont pre a post hpp, ?_, ?_⟩
      · rw [(w6 pre a post hpp).2.2]; rfl
      · rw [(w6 pre a post hpp).2.2]

/-- C64: with whatever heuristic, and whatever order the queue gives its elements in, a solver
with an empty graph that reports success from a state that is no goal tells of a plan. -/
theorem C64_tells_plan (p : Problem σ α) (h : σ → Rat) (Q : Queue σ) (hQ : Q.Lawful) (s0 : σ) (fuel : Nat) (g : Graph σ α)
    (h0 : p.goal s0 = false) (hs : solve p h Q [] s0 fuel = .ok (true, g)) : ∃ as, Tells p s0 g as := by
  rw [solve_fresh p h Q s0 fuel h0] at hs
  rcases loop_ind hQ (P := fun _ => True) (fun _ _ _ _ _ _ _ => trivial) (fun _ _ _ _ _ _ _ _ => trivial) fuel
    (start h Q s0) (inv_start p h Q hQ s0) trivial with he | ⟨st, hi, _, hst⟩
  · rw [hs] at he; cases he
  · rw [hs] at hst
    generalize hr : (Except.ok (true, g) : Except PyErr (Bool × Graph σ α)) = r at hst
    cases hst with
    | empty hp => cases hr
    | goal cur q hp hc hg =>
      obtain ⟨as, g', w1, w2, _⟩ := goal_spec hQ hi h0 hp hc hg
      rw [w1] at hr
      cases hr
      exact ⟨as, w2⟩

/-- C64: when it gives up, no applicable sequence of actions leads to a goal, and no solution is
defined anywhere. -/
theorem C64_gives_up_rightly (p : Problem σ α) (h : σ → Rat) (Q : Queue σ) (hQ : Q.Lawful) (s0 : σ) (fuel : Nat)
    (g : Graph σ α) (hs : solve p h Q [] s0 fuel = .ok (false, g)) :
    (∀ as, p.Applicable s0 as → p.goal (p.walk s0 as) = false) ∧ ∀ s, isSolutionDefined g s = false := by
  have h0 : p.goal s0 = false := by
    cases hg : p.goal s0 with
    | false => rfl
    | true =>
      have hc : ((node (Dict.set ([] : Graph σ α) s0 {}) s0).solved || p.goal s0) = true := by simp [hg]
      have : (if ((node (Dict.set ([] : Graph σ α) s0 {}) s0).solved || p.goal s0) = true then _ else _) = _ := hs
      rw [if_pos hc] at this
      cases this
  rw [solve_fresh p h Q s0 fuel h0] at hs
  rcases loop_ind hQ (P := fun _ => True) (fun _ _ _ _ _ _ _ => trivial) (fun _ _ _ _ _ _ _ _ => trivial) fuel
    (start h Q s0) (inv_start p h Q hQ s0) trivial with he | ⟨st, hi, _, hst⟩
  · rw [hs] at he; cases he
  · rw [hs] at hst
    generalize hr : (Except.ok (false, g) : Except PyErr (Bool × Graph σ α)) = r at hst
    cases hst with
    | empty hp =>
      cases hr
      have hq := hQ.popNone _ _ hp
      have hall : ∀ x, st.graph.contains x = true → x ∈ st.closed := by
        intro x hx
        rcases hi.queued x hx with h1 | h1
        · exact h1
        · rw [hq] at h1; cases h1
      refine ⟨?_, ?_⟩
      · intro as
        have key : ∀ u, u ∈ st.closed → p.Applicable u as → p.goal (p.walk u as) = false := by
          induction as with
          | nil => intro u hu _; exact hi.nogoal u hu
          | cons a as ih =>
            intro u hu ha
            exact ih _ (hall _ ((hi.succ u hu a ha.1).resolve_left (by simp))) ha.2
        exact key s0 (hall s0 hi.root.1)
      · intro s
        rw [Bool.eq_false_iff, ne_eq, defined_iff, (hi.nosolved s).2]
        simp
    | goal cur q hp hc hg =>
      obtain ⟨as, g', w1, w2, _⟩ := goal_spec hQ hi h0 hp hc hg
      rw [w1] at hr
      cases hr

/-- C64: on a finite graph (all states in `S`) it always finishes, without any error, and looks
at most once per transition: `fuel` counts the queue's pops. -/
theorem C64_finishes (p : Problem σ α) (h : σ → Rat) (Q : Queue σ) (hQ : Q.Lawful) (s0 : σ) (S : List σ) (h0 : s0 ∈ S)
    (hS : ∀ s ∈ S, ∀ a ∈ p.actions s, p.next s a ∈ S) (fuel : Nat)
    (hf : (S.map fun s => (p.actions s).length).sum + 1 < fuel) :
    ∃ found g, solve p h Q [] s0 fuel = .ok (found, g) := by
  cases hg0 : p.goal s0 with
  | true =>
    have hc : ((node (Dict.set ([] : Graph σ α) s0 {}) s0).solved || p.goal s0) = true := by simp [hg0]
    refine ⟨true, Dict.set [] s0 {}, ?_⟩
    show (if ((node (Dict.set ([] : Graph σ α) s0 {}) s0).solved || p.goal s0) = true then _ else _) = _
    rw [if_pos hc]
    rfl
  | false =>
    rw [solve_fresh p h Q s0 fuel hg0]
    have hin : ∀ x, (start (α := α) h Q s0).graph.contains x = true → x ∈ S := by
      intro x hx
      rcases (inv_start p h Q hQ s0).began with h1 | ⟨_, h1⟩
      · simp [start] at h1
      · rw [h1 x hx]; exact h0
    have hlen : (start (α := α) h Q s0).queue.length = 1 := by
      rw [start, (hQ.push _ _ _).length_eq]; rfl
    have hop : open_ p S (start (α := α) h Q s0).closed = (S.map fun s => (p.actions s).length).sum := by
      have : S.filter (fun s => decide (s ∉ ([] : List σ))) = S := by simp
      show ((S.filter (fun s => decide (s ∉ ([] : List σ)))).map fun s => (p.actions s).length).sum = _
      rw [this]
    obtain ⟨st, hi, hst⟩ := loop_total hQ hS fuel (start h Q s0) (inv_start p h Q hQ s0) hin (by rw [hlen, hop]; omega)
    generalize loop p h Q s0 fuel (start h Q s0) = r at hst
    cases hst with
    | empty hp => exact ⟨false, _, rfl⟩
    | goal cur q hp hc hg =>
      obtain ⟨as, g', w1, w2, _⟩ := goal_spec hQ hi hg0 hp hc hg
      exact ⟨true, g', by rw [w1]; rfl⟩

/-- C64: the library's queue loses and invents nothing, so the above holds of the code. -/
theorem C64_library_queue_lawful : (heap : Queue σ).Lawful := heap_lawful

/-- A graph given by its edges `(from, to, cost)`; an action is the state it leads to. -/
def edges (es : List (Nat × Nat × Rat)) (goal : Nat) : Problem Nat Nat where
  actions s := (es.filter fun e => e.1 = s).map fun e => e.2.1
  next _ a := a
  cost s a _ := match es.find? fun e => e.1 = s ∧ e.2.1 = a with
    | some e => e.2.2
    | none => 0
  goal s := s = goal

/-- The graph that a call leaves. -/
def after (r : Except PyErr (Bool × Graph σ α)) : Graph σ α :=
  match r with
  | .ok (_, g) => g
  | .error _ => []

/-- C64 disagreement: at a state that is itself a goal the value reported after solving is
infinity, not 0, and no action is ever given. -/
theorem C64_goal_root_value_infinite (p : Problem σ α) (h : σ → Rat) (Q : Queue σ) (s0 : σ) (fuel : Nat) (h0 : p.goal s0 = true) :
    ∃ g, solve p h Q [] s0 fuel = .ok (true, g) ∧ bestValue g s0 = .ok none ∧ isSolutionDefined g s0 = false ∧
      bestAction g s0 = .error .runtimeError := by
  have hc : ((node (Dict.set ([] : Graph σ α) s0 {}) s0).solved || p.goal s0) = true := by simp [h0]
  refine ⟨Dict.set [] s0 {}, ?_, ?_, ?_, ?_⟩
  · show (if ((node (Dict.set ([] : Graph σ α) s0 {}) s0).solved || p.goal s0) = true then _ else _) = _
    rw [if_pos hc]; rfl
  · simp [bestValue, Dict.set, Dict.get?]
  · simp [isSolutionDefined, Dict.set, Dict.get?]
  · simp [bestAction, Dict.set, Dict.get?]

/-- The hypotheses are met: a plan of three actions around a shortcut that is a dead end. -/
example : ∃ g, solve (edges [(0, 1, 1), (0, 4, 1/2), (1, 2, 3), (2, 3, 1), (1, 3, 9)] 3) (fun _ => 0) heap [] 0 50 = .ok (true, g) ∧
    bestAction g 0 = .ok 1 ∧ bestAction g 1 = .ok 2 ∧ bestValue g 0 = .ok (some 5) := by
  refine ⟨after (solve (edges [(0, 1, 1), (0, 4, 1/2), (1, 2, 3), (2, 3, 1), (1, 3, 9)] 3) (fun _ => 0) heap [] 0 50), ?_⟩
  decide +kernel

example : ∃ g, solve (edges [(0, 1, 1), (1, 0, 1), (2, 3, 1)] 3) (fun _ => 0) heap [] 0 50 = .ok (false, g) :=
  ⟨after (solve (edges [(0, 1, 1), (1, 0, 1), (2, 3, 1)] 3) (fun _ => 0) heap [] 0 50), by decide +kernel⟩

example : ∀ s ∈ [0, 1, 2, 3], ∀ a ∈ (edges [(0, 1, 1), (1, 0, 1), (2, 3, 1)] 3).actions s,
    (edges [(0, 1, 1), (1, 0, 1), (2, 3, 1)] 3).next s a ∈ [0, 1, 2, 3] := by decide

/-! ### C65 -/

/-- The heuristic drops by no more than the cost along each transition, and is 0 at goals. -/
structure Consistent (p : Problem σ α) (h : σ → Rat) : Prop where
  step : ∀ s, ∀ a ∈ p.actions s, h s ≤ p.cost s a (p.next s a) + h (p.next s a)
  goal : ∀ s, p.goal s = true → h s = 0

/-- C65 (partial): with a consistent heuristic the plan costs no more than any other *if the queue
always gives a node whose score is the least now*.  Missing: the library's queue does not do so
once the score of a queued node was improved, see `C65_library_queue_suboptimal`. -/
theorem C65_optimal_partial (p : Problem σ α) (h : σ → Rat) (Q : Queue σ) (hQ : Q.Min) (hcons : Consistent p h) (s0 : σ)
    (fuel : Nat) (g : Graph σ α) (h0 : p.goal s0 = false) (hs : solve p h Q [] s0 fuel = .ok (true, g)) :
    ∃ c, bestValue g s0 = .ok (some c) ∧ (∃ as, Tells p s0 g as ∧ p.walkCost s0 as = c) ∧
      ∀ bs, p.Applicable s0 bs → p.goal (p.walk s0 bs) = true → c ≤ p.walkCost s0 bs := by
  rw [solve_fresh p h Q s0 fuel h0] at hs
  rcases loop_ind hQ.toLawful (P := fun st => Opt p h s0 [] st)
    (fun st cur q _ ho _ _ => ⟨ho.mono, ho.edge⟩)
    (fun st cur q hi ho hp hcl hg => opt_expand hQ.toLawful hcons.step hi ho hp (hQ.least _ _ _ _ hp) hcl hg) fuel
    (start h Q s0) (inv_start p h Q hQ.toLawful s0) (opt_start p h Q s0) with he | ⟨st, hi, ho, hst⟩
  · rw [hs] at he; cases he
  · rw [hs] at hst
    generalize hr : (Except.ok (true, g) : Except PyErr (Bool × Graph σ α)) = r at hst
    cases hst with
    | empty hp => cases hr
    | goal cur q hp hc hg =>
      obtain ⟨as, g', w1, w2, w3⟩ := goal_spec hQ.toLawful hi h0 hp hc hg
      rw [w1] at hr
      cases hr
      refine ⟨p.walkCost s0 as, w2.value [] as rfl, ⟨as, w2, rfl⟩, ?_⟩
      intro bs hb hgb
      have := popped_bound hQ.toLawful hcons.step hcons.goal hi ho hp (hQ.least _ _ _ _ hp) w3 bs s0 0 hi.root.1 hi.root.2.1 hb hgb
      rw [hcons.goal cur hg] at this
      linarith

/-- Every state is reached by one transition only. -/
def Tree (p : Problem σ α) : Prop :=
  ∀ s t, ∀ a ∈ p.actions s, ∀ b ∈ p.actions t, p.next s a = p.next t b → s = t ∧ a = b

theorem tree_try {p : Problem σ α} {h : σ → Rat} (ht : Tree p) {s0 cur : σ} {a : α} {todo : List α} {st : St σ α}
    (hi : Inv p h s0 cur (a :: todo) st) (hcur : cur ∈ st.closed) (ha : a ∈ p.actions cur)
    (hh : HeapOk (key st.graph) st.queue) :
    HeapOk (key (tryAction p h heap cur st a).graph) (tryAction p h heap cur st a).queue := by
  have hs0 : s0 ∈ st.closed := by
    rcases hi.began with h1 | ⟨h1, _⟩
    · exact h1
    · rw [h1] at hcur; cases hcur
  rcases tryAction_spec p h heap cur a st hi.known (hi.known _ hcur) with ⟨eq, known, no⟩ | ⟨op, hcl, hq, hn, hc, why⟩
  · rw [eq]; exact hh
  · have hnew : st.graph.contains (p.next cur a) = false := by
      rcases why with why | why
      · exact why
      · cases hcon : st.graph.contains (p.next cur a) with
        | false => rfl
        | true =>
          obtain ⟨u, b, gu, r1, r2, r3, r4, r5, r6, r7⟩ := hi.reached _ hcon (by rintro e; exact op (e ▸ hs0))
          obtain ⟨rfl, rfl⟩ := ht u cur b r2 a ha r3
          rw [r6, r5] at why
          simp [plus, less] at why
    generalize tryAction p h heap cur st a = st' at *
    rw [hq]
    refine push_ok (heapOk_congr ?_ hh) _
    intro x hx
    have hxc := hi.inGraph x hx
    rw [key, key, hn, if_neg]
    rintro rfl
    rw [hnew] at hxc; cases hxc

theorem tree_fold {p : Problem σ α} {h : σ → Rat} (ht : Tree p) {s0 cur : σ} (todo : List α) {st : St σ α}
    (hi : Inv p h s0 cur todo st) (hcur : cur ∈ st.closed) (ha : ∀ a ∈ todo, a ∈ p.actions cur)
    (hh : HeapOk (key st.graph) st.queue) :
    HeapOk (key (todo.foldl (tryAction p h heap cur) st).graph) (todo.foldl (tryAction p h heap cur) st).queue := by
  induction todo generalizing st with
  | nil => exact hh
  | cons a todo ih =>
    obtain ⟨h1, h2⟩ := inv_try (Q := heap) heap_lawful hi hcur (ha a (by simp))
    exact ih h1 (by rw [h2]; exact hcur) (fun b hb => ha b (by simp [hb])) (tree_try ht hi hcur (ha a (by simp)) hh)

theorem tree_expand {p : Problem σ α} {h : σ → Rat} (ht : Tree p) {s0 cur : σ} {st : St σ α} {q : List σ} (hi : Ok p h s0 st)
    (hp : heap.pop (key st.graph) st.queue = some (cur, q)) (hcl : cur ∉ st.closed) (hg : p.goal cur = false)
    (hh : HeapOk (key st.graph) st.queue) :
    HeapOk (key (expand p h heap cur { st with queue := q }).graph) (expand p h heap cur { st with queue := q }).queue := by
  have h1 := inv_close hi (heap_lawful.pop _ _ _ _ hp) hcl hg
  exact tree_fold ht (p.actions cur) h1 (by simp) (fun _ h => h) (pop_ok hh hp).1

/-- C65: with the library's queue, a consistent heuristic gives an optimal plan on trees (no
queued node is ever improved there). -/
theorem C65_optimal_on_trees (p : Problem σ α) (h : σ → Rat) (ht : Tree p) (hcons : Consistent p h) (s0 : σ)
    (fuel : Nat) (g : Graph σ α) (h0 : p.goal s0 = false) (hs : solve p h heap [] s0 fuel = .ok (true, g)) :
    ∃ c, bestValue g s0 = .ok (some c) ∧ (∃ as, Tells p s0 g as ∧ p.walkCost s0 as = c) ∧
      ∀ bs, p.Applicable s0 bs → p.goal (p.walk s0 bs) = true → c ≤ p.walkCost s0 bs := by
  rw [solve_fresh p h heap s0 fuel h0] at hs
  rcases loop_ind heap_lawful (P := fun st => Opt p h s0 [] st ∧ HeapOk (key st.graph) st.queue)
    (fun st cur q _ ho hp _ => ⟨⟨ho.1.mono, ho.1.edge⟩, (pop_ok ho.2 hp).1⟩)
    (fun st cur q hi ho hp hcl hg => ⟨opt_expand heap_lawful hcons.step hi ho.1 hp (pop_ok ho.2 hp).2 hcl hg,
      tree_expand ht hi hp hcl hg ho.2⟩) fuel
    (start h heap s0) (inv_start p h heap heap_lawful s0)
    ⟨opt_start p h heap s0, push_ok (k := key (start h heap s0).graph) (l := []) (fun i x y _ hx => by simp at hx) s0⟩ with he | ⟨st, hi, ho, hst⟩
  · rw [hs] at he; cases he
  · rw [hs] at hst
    generalize hr : (Except.ok (true, g) : Except PyErr (Bool × Graph σ α)) = r at hst
    cases hst with
    | empty hp => cases hr
    | goal cur q hp hc hg =>
      obtain ⟨as, g', w1, w2, w3⟩ := goal_spec heap_lawful hi h0 hp hc hg
      rw [w1] at hr
      cases hr
      refine ⟨p.walkCost s0 as, w2.value [] as rfl, ⟨as, w2, rfl⟩, ?_⟩
      intro bs hb hgb
      have := popped_bound heap_lawful hcons.step hcons.goal hi ho.1 hp (pop_ok ho.2 hp).2 w3 bs s0 0 hi.root.1 hi.root.2.1 hb hgb
      rw [hcons.goal cur hg] at this
      linarith

/-- Start 0, detour 0 → 1 → 2 → 3 of cost 9, direct edge 0 → 3 of cost 10, goal 5 after 3. -/
def detour : Problem Nat Nat := edges [(0, 1, 6), (0, 2, 12), (0, 3, 10), (0, 4, 14), (1, 2, 2), (2, 3, 1), (3, 5, 10)] 5

/-- C65 disagreement: the scores of queued nodes are changed in place, so the library's heap may
give a node that is not the least.  With the null heuristic and positive costs the solver then
returns a plan of cost 20 though one of cost 19 exists. -/
theorem C65_library_queue_suboptimal :
    (∀ s, ∀ a ∈ detour.actions s, 0 < detour.cost s a (detour.next s a)) ∧ Consistent detour (fun _ => 0) ∧
    (∃ g, solve detour (fun _ => 0) heap [] 0 50 = .ok (true, g) ∧ bestValue g 0 = .ok (some 20)) ∧
    detour.Applicable 0 [1, 2, 3, 5] ∧ detour.goal (detour.walk 0 [1, 2, 3, 5]) = true ∧ detour.walkCost 0 [1, 2, 3, 5] = 19 := by
  have hpos : ∀ s, ∀ a ∈ detour.actions s, 0 < detour.cost s a (detour.next s a) := by
    intro s a ha
    simp only [detour, edges, List.mem_map, List.mem_filter, decide_eq_true_eq] at ha
    obtain ⟨e, ⟨he, rfl⟩, rfl⟩ := ha
    revert e
    decide +kernel
  refine ⟨hpos, ⟨fun s a ha => ?_, fun _ _ => rfl⟩, ⟨after (solve detour (fun _ => 0) heap [] 0 50), by decide +kernel⟩, ?_, by decide +kernel, by decide +kernel⟩
  · have := hpos s a ha
    linarith
  · refine ⟨by decide, by decide, by decide, by decide, trivial⟩

/-- A queue that searches for the least element each time: the hypotheses of
`C65_optimal_partial` can be met. -/
def scan : Queue σ where
  push _ l x := x :: l
  pop k l := l.foldr (fun x r => match r with
    | none => some (x, [])
    | some (m, rest) => if less (k m) (k x) then some (m, x :: rest) else some (x, m :: rest)) none

omit [DecidableEq σ] in
theorem scan_pop (k : σ → Option Rat) (l : List σ) :
    (scan.pop k l = none → l = []) ∧ ∀ x r, scan.pop k l = some (x, r) → l.Perm (x :: r) ∧ ∀ y ∈ l, Le (k x) (k y) := by
  induction l with
  | nil => exact ⟨fun _ => rfl, fun x r h => by simp [scan] at h⟩
  | cons z l ih =>
    have hstep : scan.pop k (z :: l) = match scan.pop k l with
      | none => some (z, [])
      | some (m, rest) => if less (k m) (k z) then some (m, z :: rest) else some (z, m :: rest) := rfl
    rw [hstep]
    cases hp : scan.pop k l with
    | none =>
      rw [ih.1 hp]
      refine ⟨fun h => (by cases h), fun x r h => ?_⟩
      cases h
      exact ⟨.refl _, by simp [Le.refl]⟩
    | some mr =>
      obtain ⟨m, rest⟩ := mr
      obtain ⟨h1, h2⟩ := ih.2 m rest hp
      simp only
      by_cases hl : less (k m) (k z) = true
      · rw [if_pos hl]
        refine ⟨fun h => (by cases h), fun x r h => ?_⟩
        cases h
        refine ⟨(h1.cons z).trans (.swap _ _ _), ?_⟩
        intro y hy
        rcases List.mem_cons.1 hy with rfl | hy
        · exact .of_less hl
        · exact h2 y hy
      · rw [if_neg hl]
        refine ⟨fun h => (by cases h), fun x r h => ?_⟩
        cases h
        refine ⟨h1.cons z, ?_⟩
        intro y hy
        rcases List.mem_cons.1 hy with rfl | hy
        · exact .refl _
        · exact Le.trans (by simpa [Le] using hl) (h2 y hy)

omit [DecidableEq σ] in
theorem scan_min : (scan : Queue σ).Min where
  push _ _ _ := .refl _
  popNone k l h := (scan_pop k l).1 h
  pop k l x r h := ((scan_pop k l).2 x r h).1
  least k l x r h := ((scan_pop k l).2 x r h).2

/-- With such a queue the same problem is solved optimally. -/
example : (scan : Queue Nat).Min ∧ ∃ g, solve detour (fun _ => 0) scan [] 0 50 = .ok (true, g) ∧ bestValue g 0 = .ok (some 19) :=
  ⟨scan_min, after (solve detour (fun _ => 0) scan [] 0 50), by decide +kernel⟩

/-- A binary tree with the goal 5. -/
def branching : List (Nat × Nat × Rat) := [(0, 1, 1), (0, 2, 3), (1, 3, 7), (2, 4, 1), (2, 5, 2)]

/-- The hypotheses of `C65_optimal_on_trees` are met. -/
example : Tree (edges branching 5) ∧ Consistent (edges branching 5) (fun _ => 0) ∧
    ∃ g, solve (edges branching 5) (fun _ => 0) heap [] 0 50 = .ok (true, g) ∧ bestValue g 0 = .ok (some 5) := by
  refine ⟨?_, ⟨?_, fun _ _ => rfl⟩, after (solve (edges branching 5) (fun _ => 0) heap [] 0 50), by decide +kernel⟩
  · intro s t a ha b hb hab
    simp only [edges, List.mem_map, List.mem_filter, decide_eq_true_eq] at ha hb hab
    obtain ⟨e, ⟨he, rfl⟩, rfl⟩ := ha
    obtain ⟨e', ⟨he', rfl⟩, rfl⟩ := hb
    revert e e'
    decide
  · intro s a ha
    simp only [edges, List.mem_map, List.mem_filter, decide_eq_true_eq] at ha
    obtain ⟨e, ⟨he, rfl⟩, rfl⟩ := ha
    revert e
    decide +kernel

/-! ### C66 -/

/-- C66 (partial): solving again from a state that is solved already changes nothing; all answers
stay as they were.  Missing: solving from another state, see the disagreements below. -/
theorem C66_solved_again_partial (p : Problem σ α) (h : σ → Rat) (Q : Queue σ) (g : Graph σ α) (s : σ) (fuel : Nat)
    (hs : isSolutionDefined g s = true) : solve p h Q g s fuel = .ok (true, g) := by
  obtain ⟨h1, _, h3⟩ := defined_iff.1 hs
  simp [solve, h1, h3]

/-- One start 0 near the states 1 and goal 2, another start 3 further away. -/
def twoStarts : Problem Nat Nat := edges [(0, 1, 1), (1, 2, 1), (3, 1, 5)] 2

/-- C66 disagreement: after a successful solve from 0, solving from 3 fails — the scores that the
first search left in the graph are smaller, so the second search takes the only way for no
improvement — though a plan exists and a fresh solver finds it. -/
theorem C66_second_solve_fails :
    (∃ g g', solve twoStarts (fun _ => 0) heap [] 0 50 = .ok (true, g) ∧ solve twoStarts (fun _ => 0) heap g 3 50 = .ok (false, g') ∧
      bestAction g' 3 = .error .runtimeError) ∧
    twoStarts.Applicable 3 [1, 2] ∧ twoStarts.goal (twoStarts.walk 3 [1, 2]) = true ∧
    ∃ g, solve twoStarts (fun _ => 0) heap [] 3 50 = .ok (true, g) ∧ bestValue g 3 = .ok (some 6) := by
  refine ⟨⟨after (solve twoStarts (fun _ => 0) heap [] 0 50),
    after (solve twoStarts (fun _ => 0) heap (after (solve twoStarts (fun _ => 0) heap [] 0 50)) 3 50), by decide +kernel⟩,
    ⟨by decide, by decide, trivial⟩, by decide, after (solve twoStarts (fun _ => 0) heap [] 3 50), by decide +kernel⟩

/-- Starts 0 (action to 1) and 3 (actions to 1, and to the goal 2 at cost 7). -/
def shared : Problem Nat Nat := edges [(0, 1, 5), (1, 2, 10), (3, 1, 1), (3, 2, 7)] 2

/-- C66 disagreement: when the second search meets a solved node it overwrites the cost-to-go kept
there with its own score and stops.  Solving from 3 after 0 reports the value 2 and the action
leading to 1, that is a plan of cost 11; the optimum is 7, and the value reported for 1 has
changed from 10 to 1. -/
theorem C66_second_solve_wrong :
    ∃ g g', solve shared (fun _ => 0) heap [] 0 50 = .ok (true, g) ∧ bestValue g 1 = .ok (some 10) ∧
      solve shared (fun _ => 0) heap g 3 50 = .ok (true, g') ∧
      bestValue g' 3 = .ok (some 2) ∧ bestAction g' 3 = .ok 1 ∧ bestValue g' 1 = .ok (some 1) ∧
      shared.walkCost 3 [1, 2] = 11 ∧ shared.walkCost 3 [2] = 7 :=
  ⟨after (solve shared (fun _ => 0) heap [] 0 50),
    after (solve shared (fun _ => 0) heap (after (solve shared (fun _ => 0) heap [] 0 50)) 3 50), by decide +kernel⟩

/-- Two starts 0 and 3 whose actions, 10 and 30, lead to the state 1; then 2 leads to the goal. -/
def named : Problem Nat Nat where
  actions s := if s = 0 then [10] else if s = 3 then [30] else if s = 1 then [20] else []
  next _ a := if a = 20 then 2 else 1
  cost s _ _ := if s = 0 then 5 else 1
  goal s := s = 2

/-- C66 disagreement: a stored best action is an address inside the next node, which a second
search overwrites: after solving from 3, the best action reported for 0 is one that is not
applicable there. -/
theorem C66_best_action_overwritten :
    ∃ g g', solve named (fun _ => 0) heap [] 0 50 = .ok (true, g) ∧ bestAction g 0 = .ok 10 ∧
      solve named (fun _ => 0) heap g 3 50 = .ok (true, g') ∧ bestAction g' 0 = .ok 30 ∧ 30 ∉ named.actions 0 ∧
      isSolutionDefined g' 0 = true :=
  ⟨after (solve named (fun _ => 0) heap [] 0 50),
    after (solve named (fun _ => 0) heap (after (solve named (fun _ => 0) heap [] 0 50)) 3 50), by decide +kernel⟩

end Verif.CppAStar
