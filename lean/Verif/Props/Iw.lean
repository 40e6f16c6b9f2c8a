import Verif.Lemmas.IwGuarantee

/-!
C74: the C++ iterated width solver finishes on finite graphs without crashing, and what it tells
is an executable plan and its costs.
C75: when the solver gives up although its features tell all states apart, there is no plan.
C76: the tuples, the novelty measure, and the promise that problems of bounded width are solved.
-/
namespace Verif.Iw
open Verif.Search (Problem)
open Verif.PlanGraph
variable [DecidableEq σ] [DecidableEq φ]

/-- The solver knows no plan: no state has a defined solution, asking for an action raises. -/
def Nothing (g : Graph σ α) : Prop := ∀ s, isSolutionDefined g s = false ∧ bestAction g s = .error .runtimeError

omit [DecidableEq φ] in
theorem nothing_of {g : Graph σ α} (h : ∀ x, (node g x).bestAction = none) : Nothing g := by
  intro s
  have := h s
  rw [node] at this
  rw [isSolutionDefined, bestAction]
  cases hg : g.get? s with
  | none => exact ⟨rfl, rfl⟩
  | some n =>
    rw [hg] at this
    simp only [Option.getD_some] at this
    simp [this]

/-! ### C74 -/

/-- C74: with the default time budget, whatever the ordering of the queue: `solve` on a fresh solver raises
nothing, and either the solver tells of a plan — applicable, through states that are no goals and not
terminal to a goal, with the right values along it, and the width and the cost in the scores — or it
knows no plan at all. -/
theorem C74_tells {d : Domain σ α φ} {c : Config σ} (hQ : c.queue.Lawful) (hleft : ∀ k, c.left k = false)
    (hcost : ∀ s, ∀ a ∈ d.actions s, 0 ≤ d.cost s a (d.next s a)) (s0 : σ) (h0 : d.goal s0 = false) (fuel : Nat) :
    solve d c fuel [] s0 = none ∨ ∃ st, solve d c fuel [] s0 = some (.ok st) ∧
      ((∃ as, Tells d.toProblem s0 st.graph as ∧ (∀ pre a post, as = pre ++ a :: post → d.terminal (d.walk s0 pre) = false) ∧
          ∃ w, 1 ≤ w ∧ w ≤ (d.features s0).length ∧ st.scores = [(w, some (d.walkCost s0 as))]) ∨
        Nothing st.graph ∧ st.scores = []) := by
  rcases widths_cases hQ hleft hcost h0 fuel (List.range' 1 (d.features s0).length) (st := { graph := [] }) ⟨rfl, .inl rfl⟩ with h | ⟨st, h, h1 | h1⟩
  · exact .inl h
  · obtain ⟨w, hw, as, hwon⟩ := h1
    rw [List.mem_range'_1] at hw
    exact .inr ⟨st, h, .inl ⟨as, hwon.tells, hwon.live, w, hw.1, by omega, by rw [hwon.scores]; rfl⟩⟩
  · exact .inr ⟨st, h, .inr ⟨nothing_of h1.noAction, h1.scores⟩⟩

/-- C74: on a domain with finitely many states within reach the solver finishes: each width takes at
most two pops more than there are actions in those states. -/
theorem C74_finishes {d : Domain σ α φ} {c : Config σ} (hQ : c.queue.Lawful) (hleft : ∀ k, c.left k = false)
    (hcost : ∀ s, ∀ a ∈ d.actions s, 0 ≤ d.cost s a (d.next s a)) (s0 : σ) (h0 : d.goal s0 = false)
    (S : List σ) (hs : s0 ∈ S) (hcl : ∀ s ∈ S, d.terminal s = false → ∀ a ∈ d.actions s, d.next s a ∈ S)
    (fuel : Nat) (hf : 2 + (S.map fun x => (d.actions x).length).sum ≤ fuel) :
    ∃ st, solve d c fuel [] s0 = some (.ok st) := by
  rcases C74_tells hQ hleft hcost s0 h0 fuel with h | ⟨st, h, _⟩
  · exact absurd h (widths_total hQ hleft hcost h0 hs hcl hf _ ⟨rfl, .inl rfl⟩)
  · exact ⟨st, h⟩

/-- C74: the queue of the library keeps its elements. -/
theorem C74_library_queue_lawful : (heap : Queue σ).Lawful := heap_lawful

/-- C74: a goal is reported as solved at once, but the solver tells nothing about it: no solution
is defined for it, and its value is infinite. -/
theorem C74_goal_root (d : Domain σ α φ) (c : Config σ) (hleft : ∀ k, c.left k = false) (s0 : σ) (h0 : d.goal s0 = true) (h1 : d.features s0 ≠ []) (fuel : Nat) :
    ∃ st, solve d c fuel [] s0 = some (.ok st) ∧ Nothing st.graph ∧ bestValue st.graph s0 = .ok none := by
  obtain ⟨f, fs, hf⟩ := List.exists_cons_of_ne_nil h1
  refine ⟨_, by
    simp only [solve, hf, List.length_cons, List.range'_succ, widths, solveWidth, Dict.contains, h0, Bool.or_true, if_true, hleft, Bool.false_eq_true, if_false]
    rfl, ?_, ?_⟩
  · refine nothing_of fun x => ?_
    rw [node_set]
    split <;> rfl
  · rw [bestValue_of_node (by rw [contains_set]; simp)]
    rw [node_set, if_pos rfl]

/-- A domain given by its edges (source, target, cost); the actions are the targets. -/
def edges (es : List (Nat × Nat × Rat)) (goal : Nat) (features : Nat → List Nat) : Domain Nat Nat Nat where
  actions s := (es.filter (·.1 = s)).map (·.2.1)
  next _ a := a
  cost s a _ := ((es.find? fun e => e.1 = s ∧ e.2.1 = a).map (·.2.2)).getD 0
  goal s := s = goal
  terminal _ := false
  features := features

def after {α : Type} (r : Option (Except PyErr (St Nat α Nat))) : Graph Nat α :=
  match r with
  | some (.ok st) => st.graph
  | _ => []

def scoresOf {α : Type} (r : Option (Except PyErr (St Nat α Nat))) : List (Nat × Option Rat) :=
  match r with
  | some (.ok st) => st.scores
  | _ => []

def raised {α : Type} (r : Option (Except PyErr (St Nat α Nat))) : Option PyErr :=
  match r with
  | some (.error e) => some e
  | _ => none

/-- Two rooms in a row with a door to the goal; two features, the room and whether the light is
on (odd states). -/
def rooms : Domain Nat Nat Nat := edges [(0, 1, 1), (1, 3, 1), (0, 2, 1), (3, 5, 1), (3, 1, 1)] 5 fun s => [s / 2, s % 2]

/-- The hypotheses of `C74_tells` and `C74_finishes` are met, and both outcomes occur. -/
example : (∀ s, ∀ a ∈ rooms.actions s, 0 ≤ rooms.cost s a (rooms.next s a)) ∧
    (∀ s ∈ [0, 1, 2, 3, 5], rooms.terminal s = false → ∀ a ∈ rooms.actions s, rooms.next s a ∈ [0, 1, 2, 3, 5]) ∧
    scoresOf (solve rooms {} 20 [] 0) = [(2, some 3)] ∧ bestAction (after (solve rooms {} 20 [] 0)) 1 = .ok 3 ∧
    scoresOf (solve rooms {} 20 [] 2) = [] := by
  refine ⟨?_, by decide, by decide +kernel, by decide +kernel, by decide +kernel⟩
  intro s a ha
  simp only [rooms, edges, List.mem_map, List.mem_filter, decide_eq_true_eq] at ha
  obtain ⟨e, ⟨he, rfl⟩, rfl⟩ := ha
  revert e
  decide +kernel

/-! #### Disagreements -/

/-- The outcome of the loop after at most `n` pops, if it does not depend on the fuel. -/
def final (d : Domain σ α φ) (c : Config σ) (width : Nat) (root : σ) : Nat → St σ α φ → Option (Option (Except PyErr (St σ α φ)))
  | 0, _ => none
  | n + 1, st =>
    match c.queue.pop (worse c st.graph) st.queue with
    | none => some (some (.ok st))
    | some (cur, q) =>
      let st := { st with queue := q }
      if cur ∈ st.closed then final d c width root n st
      else
        let st := { st with closed := cur :: st.closed }
        if d.goal cur || (node st.graph cur).solved then
          match reach root width cur st with
          | none => some none
          | some (.error e) => some (some (.error e))
          | some (.ok st) =>
            let stp := { st with ticks := st.ticks + 1 }
            if c.left st.ticks then final d c width root n stp else some (some (.ok stp))
        else if d.terminal cur then final d c width root n st
        else final d c width root n ((d.actions cur).foldl (tryAction d c width cur) st)

theorem final_hangs (d : Domain σ α φ) (c : Config σ) (width : Nat) (root : σ) (n : Nat) (st : St σ α φ)
    (h : final d c width root n st = some none) (fuel : Nat) : loop d c width root fuel st = none := by
  induction n generalizing st fuel with
  | zero => cases h
  | succ n ih =>
    cases fuel with
    | zero => rfl
    | succ fuel =>
      rw [final] at h
      rw [loop]
      cases hp : c.queue.pop (worse c st.graph) st.queue with
      | none => rw [hp] at h; cases h
      | some cq =>
        obtain ⟨cur, q⟩ := cq
        rw [hp] at h
        simp only at h ⊢
        split at h
        · rename_i hc; rw [if_pos hc]; exact ih _ h _
        · rename_i hc; rw [if_neg hc]
          split at h
          · rename_i hg; rw [if_pos hg]
            split at h
            · rename_i hr; rw [hr]
            · cases h
            · rename_i st' hr; rw [hr]
              simp only
              split at h
              · rename_i hl; rw [if_pos hl]; exact ih _ h _
              · cases h
          · rename_i hg; rw [if_neg hg]
            split at h
            · rename_i ht; rw [if_pos ht]; exact ih _ h _
            · rename_i ht; rw [if_neg ht]; exact ih _ h _

/-- A loop 1 → 2 → 1 that pays. -/
def pays : Domain Nat Nat Nat := edges [(0, 1, 1), (1, 2, -3), (2, 1, 0), (2, 3, 1)] 3 fun s => [s]

/-- C74 disagreement: with a negative cost the parents can form a circle, and the walk back from the
goal to the root never ends. -/
theorem C74_negative_costs_hang (fuel : Nat) : solve pays {} fuel [] 0 = none := by
  have h : solveWidth pays {} fuel 1 0 { graph := [] } = none := by
    rw [solveWidth_eq ⟨rfl, .inl rfl⟩ rfl rfl]
    rw [final_hangs (n := 5)]
    have : (final pays {} 1 0 5 (start pays {} 1 0 { graph := [] })).map Option.isNone = some true := by decide +kernel
    generalize final pays {} 1 0 5 (start pays {} 1 0 { graph := [] }) = r at this ⊢
    match r with
    | none => cases this
    | some none => rfl
    | some (some _) => cases this
  have hr : List.range' 1 (pays.features 0).length = [1] := by decide
  rw [solve, hr, widths, h]

/-- State 1 is reached from 0 by the action 10 at cost 10, or through 3 (actions 30, 31) at cost 2;
the action 20 leads from 1 to the goal 2. -/
def bypass : Domain Nat Nat Nat where
  actions s := if s = 0 then [10, 30] else if s = 1 then [20] else if s = 3 then [31] else []
  next _ a := if a = 20 then 2 else if a = 30 then 3 else 1
  cost _ a _ := if a = 10 then 10 else 1
  goal s := s = 2
  terminal _ := false
  features s := [s]

/-- C74 disagreement: with time left after the first plan and an ordering that prefers large
scores, the search goes on and gives a node of the plan another parent; the best action reported
for the root is then one that is not applicable there. -/
theorem C74_time_left_breaks_plan :
    ∃ g, after (solve bypass { ordering := fun a b => less a.1 b.1, left := fun _ => true } 20 [] 0) = g ∧
      isSolutionDefined g 0 = true ∧ bestAction g 0 = .ok 31 ∧ 31 ∉ bypass.actions 0 ∧
      bestAction (after (solve bypass { ordering := fun a b => less a.1 b.1 } 20 [] 0)) 0 = .ok 10 :=
  ⟨_, rfl, by decide +kernel⟩

/-- One solution 0 → 2 → 3 and a neighbour 1 of 2. -/
def reused : Domain Nat Nat Nat := edges [(0, 1, 5), (0, 2, 1), (2, 3, 1), (1, 2, 1)] 3 fun s => [s]

/-- C74 disagreement: solving from another state without clearing the graph follows the parents of
the first search past the new root and dereferences the null parent of the old one; a fresh solver
finds the plan. -/
theorem C74_second_solve_crashes :
    scoresOf (solve reused {} 20 [] 0) = [(1, some 2)] ∧
    raised (solve reused {} 20 (after (solve reused {} 20 [] 0)) 1) = some .attributeError ∧
    scoresOf (solve reused {} 20 [] 1) = [(1, some 2)] := by
  decide +kernel

/-- The states 1 and 2 look the same. -/
def twins : Domain Nat Nat Nat := edges [(0, 1, 1), (0, 2, 1), (1, 3, 10), (2, 3, 1)] 3 fun s => [if s = 2 then 1 else s]

/-- C74: the plan need not be a cheapest one, as pruning can cut those. -/
theorem C74_not_optimal :
    bestValue (after (solve twins {} 20 [] 0)) 0 = .ok (some 11) ∧
    twins.Applicable 0 [2, 3] ∧ twins.goal (twins.walk 0 [2, 3]) = true ∧ twins.walkCost 0 [2, 3] = 2 :=
  ⟨by decide +kernel, ⟨by decide, by decide, trivial⟩, by decide, by decide +kernel⟩

/-! ### C75 -/

/-- C75: if all states have the same number of features, at least one, and no two states have the same
features, then the solver that gives up is right: no plan exists. -/
theorem C75_gives_up_rightly {d : Domain σ α φ} {c : Config σ} (hQ : c.queue.Lawful) (hleft : ∀ k, c.left k = false)
    (hcost : ∀ s, ∀ a ∈ d.actions s, 0 ≤ d.cost s a (d.next s a)) {n : Nat} (hn : 1 ≤ n) (hlen : ∀ x, (d.features x).length = n)
    (hinj : ∀ x y, d.features x = d.features y → x = y) (s0 : σ) (h0 : d.goal s0 = false) (fuel : Nat) (st : St σ α φ)
    (h : solve d c fuel [] s0 = some (.ok st)) (hno : isSolutionDefined st.graph s0 = false) :
    ∀ as, d.Applicable s0 as → (∀ pre a post, as = pre ++ a :: post → d.terminal (d.walk s0 pre) = false) → d.goal (d.walk s0 as) = false := by
  rcases widths_cases hQ hleft hcost h0 fuel (List.range' 1 (d.features s0).length) (st := { graph := [] }) ⟨rfl, .inl rfl⟩ with h' | ⟨st', h', h1⟩
  · rw [solve, h'] at h; cases h
  · rw [solve, h'] at h
    cases h
    rcases h1 with ⟨w, _, as, hwon⟩ | h1
    · obtain ⟨a, as', rfl⟩ := List.exists_cons_of_ne_nil hwon.tells.nonempty
      rw [(hwon.tells.defined s0).2 ⟨[], a, as', rfl, rfl⟩] at hno
      cases hno
    · refine h1.noGoal n ?_ hn hlen hinj
      rw [hlen, List.getLast?_range']
      have : n ≠ 0 := by omega
      simp [this]

/-- Together with termination: on finite domains whose features tell the states apart, the solver finds
a plan exactly if there is one. -/
theorem C75_finds_plan_iff {d : Domain σ α φ} {c : Config σ} (hQ : c.queue.Lawful) (hleft : ∀ k, c.left k = false)
    (hcost : ∀ s, ∀ a ∈ d.actions s, 0 ≤ d.cost s a (d.next s a)) {n : Nat} (hn : 1 ≤ n) (hlen : ∀ x, (d.features x).length = n)
    (hinj : ∀ x y, d.features x = d.features y → x = y) (s0 : σ) (h0 : d.goal s0 = false)
    (S : List σ) (hs : s0 ∈ S) (hcl : ∀ s ∈ S, d.terminal s = false → ∀ a ∈ d.actions s, d.next s a ∈ S)
    (fuel : Nat) (hf : 2 + (S.map fun x => (d.actions x).length).sum ≤ fuel) :
    ∃ st, solve d c fuel [] s0 = some (.ok st) ∧ (isSolutionDefined st.graph s0 = true ↔
      ∃ as, d.Applicable s0 as ∧ (∀ pre a post, as = pre ++ a :: post → d.terminal (d.walk s0 pre) = false) ∧ d.goal (d.walk s0 as) = true) := by
  obtain ⟨st, h⟩ := C74_finishes hQ hleft hcost s0 h0 S hs hcl fuel hf
  refine ⟨st, h, ?_, ?_⟩
  · intro hdef
    rcases C74_tells hQ hleft hcost s0 h0 fuel with h' | ⟨st', h', ⟨as, h1, h2, _⟩ | ⟨h1, _⟩⟩
    · rw [h'] at h; cases h
    · exact ⟨as, h1.applicable, h2, h1.reaches⟩
    · rw [h'] at h; cases h
      rw [(h1 s0).1] at hdef; cases hdef
  · rintro ⟨as, h1, h2, h3⟩
    cases hdef : isSolutionDefined st.graph s0 with
    | true => rfl
    | false =>
      have := C75_gives_up_rightly hQ hleft hcost hn hlen hinj s0 h0 fuel st h hdef as h1 h2
      rw [h3] at this; cases this

/-- The hypotheses are met by the rooms. -/
example : (∀ x, (rooms.features x).length = 2) ∧ (∀ x y, rooms.features x = rooms.features y → x = y) := by
  refine ⟨fun _ => rfl, fun x y h => ?_⟩
  simp only [rooms, edges, List.cons.injEq, and_true] at h
  omega

/-- C75: when the features do not tell states apart, the solver can miss the only plan. -/
theorem C75_coarse_features_incomplete :
    let d := edges [(0, 1, 1), (0, 2, 1), (2, 3, 1)] 3 fun s => [if s = 2 then 1 else s]
    isSolutionDefined (after (solve d {} 20 [] 0)) 0 = false ∧ scoresOf (solve d {} 20 [] 0) = [] ∧
    d.Applicable 0 [2, 3] ∧ d.goal (d.walk 0 [2, 3]) = true :=
  ⟨by decide +kernel, by decide +kernel, ⟨by decide, by decide, trivial⟩, by decide⟩

/-- C75: without features no width is tried: nothing is searched, whatever the domain. -/
theorem C75_no_features_no_search (d : Domain σ α φ) (c : Config σ) (fuel : Nat) (s0 : σ) (h : d.features s0 = []) :
    solve d c fuel [] s0 = some (.ok { graph := [] }) := by
  simp [solve, h, widths]

/-- C75: the number of widths is that of the features of the root: if other states have more
features, telling them apart is not enough. -/
theorem C75_root_with_fewer_features :
    let d := edges [(0, 1, 1), (0, 2, 1), (0, 3, 1), (0, 4, 1), (3, 5, 1)] 5 fun s => if s = 0 then [7] else if s = 5 then [8, 8] else
      if s = 1 then [0, 0] else if s = 2 then [1, 1] else if s = 3 then [0, 1] else [1, 0]
    isSolutionDefined (after (solve d {} 20 [] 0)) 0 = false ∧
    d.Applicable 0 [3, 5] ∧ d.goal (d.walk 0 [3, 5]) = true ∧ [0, 1, 2, 3, 4, 5].Pairwise fun x y => d.features x ≠ d.features y :=
  ⟨by decide +kernel, ⟨by decide, by decide, trivial⟩, by decide, by decide⟩

/-! ### C76 -/

/-- C76: `generate_tuples` calls its function exactly once for each increasing sequence of `k` indices
below `n`. -/
theorem C76_tuples {k n : Nat} (hk : k ≤ n) :
    (generateTuples k n).Nodup ∧ ∀ t, t ∈ generateTuples k n ↔ t.length = k ∧ t.Pairwise (· < ·) ∧ ∀ i ∈ t, i < n :=
  ⟨(generateTuples_spec hk).2, (generateTuples_spec hk).1⟩

example : generateTuples 2 4 = [[0, 1], [0, 2], [0, 3], [1, 2], [1, 3], [2, 3]] := by decide

/-- A set of features with their places is true in a state, of size from 1 to `width`. -/
def TupleIn (width : Nat) (fs : List φ) (t : Tuple φ) : Prop :=
  1 ≤ t.length ∧ t.length ≤ width ∧ t.Pairwise (fun a b => a.1 < b.1) ∧ ∀ e ∈ t, fs[e.1]? = e.2 ∧ e.2 ≠ none

/-- C76: the novelty of a state is the size of its smallest tuple that was not seen before, of the
sizes up to the width; if there is none it is one more than the number of features.  Afterwards
exactly the tuples of the state have been added. -/
theorem C76_novelty (width : Nat) (seen : List (Tuple φ)) (fs : List φ) :
    (∀ t, t ∈ (novelty width seen fs).2 ↔ t ∈ seen ∨ TupleIn width fs t) ∧
    ((∀ t, TupleIn width fs t → t ∈ seen) → (novelty width seen fs).1 = fs.length + 1) ∧
    ((∃ t, TupleIn width fs t ∧ t ∉ seen) →
      (∃ t, TupleIn width fs t ∧ t ∉ seen ∧ (novelty width seen fs).1 = t.length) ∧
      ∀ t, TupleIn width fs t → t ∉ seen → (novelty width seen fs).1 ≤ t.length) := by
  obtain ⟨n1, n2, n3, n4⟩ := novelty_spec width seen fs
  refine ⟨fun t => ?_, fun h => ?_, fun ⟨t, h1, h2⟩ => ⟨?_, fun t h1 h2 => n3 t h1.1 h1.2.1 h1.2.2 h2⟩⟩
  · rw [n1]
    exact ⟨fun h => h.imp id fun h => ⟨h.1.1, h.1.2, h.2⟩, fun h => h.imp id fun h => ⟨⟨h.1, h.2.1⟩, h.2.2⟩⟩
  · rcases n4 with n4 | ⟨t, t1, t2, t3, t4, t5⟩
    · exact n4
    · exact absurd (h t ⟨t2, t3, t4⟩) t5
  · rcases n4 with n4 | ⟨t, t1, t2, t3, t4, t5⟩
    · have h3 := n3 t h1.1 h1.2.1 h1.2.2 h2
      have h4 : t.length ≤ fs.length := Holds.length_le h1.2.2
      omega
    · exact ⟨t, ⟨t2, t3, t4⟩, t5, t1.symm⟩

example : (novelty 2 [] [5, 6]).1 = 1 ∧ (novelty 2 (novelty 2 (novelty 2 [] [5, 6]).2 [7, 8]).2 [5, 8]).1 = 2 ∧
    (novelty 2 (novelty 2 [] [5, 6]).2 [5, 6]).1 = 3 := by decide

/-- C76: whatever the costs, the clock, the ordering and the graph left from before: all the plans of one call are
of one width — once a plan was found, no larger width is searched, though there may be time
left and `widths` goes through them. -/
theorem C76_one_width (d : Domain σ α φ) (c : Config σ) (fuel : Nat) (g : Graph σ α) (s0 : σ) (h0 : d.goal s0 = false) (st : St σ α φ)
    (h : solve d c fuel g s0 = some (.ok st)) : ∃ w, ∀ e ∈ st.scores, e.1 = w := by
  refine widths_one h0 fuel _ ?_ h
  by_cases hs : (node g s0).solved = true
  · exact .inr ⟨hs, 0, by simp⟩
  · exact .inl ⟨rfl, rfl, by simpa using hs⟩

/-- With time left two plans are found in one width. -/
example : scoresOf (solve { edges [(0, 1, 1), (0, 2, 3), (1, 3, 9), (2, 4, 1)] 4 (fun s => [s, s]) with goal := fun s => decide (3 ≤ s) }
    { ordering := fun a b => less a.1 b.1, left := fun _ => true } 20 [] 0) = [(1, some 4), (1, some 4)] := by
  decide +kernel

/-- C76 (partial): the guarantee of iterated width.  With unit costs, the default ordering and a queue that always
gives a node of least score: if the problem has width at most `w` — there is a chain of tuples of at most
`w` features as in `HasWidth` — then a plan is found, in a search of a width at most `w`; and the
plan found at width `w` is no longer than the chain, so a shortest one.  Missing: the queue of the
library for widths above 1, and costs other than 1. -/
theorem C76_width_guarantee_partial {d : Domain σ α φ} {c : Config σ} (hQ : c.queue.Exact) (hord : c.ordering = fun a b => less b.1 a.1)
    (hleft : ∀ k, c.left k = false) (hu : ∀ s a t, d.cost s a t = 1) (s0 : σ) (h0 : d.goal s0 = false)
    {w m : Nat} {t : Nat → Tuple φ} (hw1 : 1 ≤ w) (hw2 : w ≤ (d.features s0).length) (hw : HasWidth d s0 w m t) (fuel : Nat) :
    solve d c fuel [] s0 = none ∨ ∃ st as w', solve d c fuel [] s0 = some (.ok st) ∧ Tells d.toProblem s0 st.graph as ∧
      w' ≤ w ∧ st.scores = [(w', some (as.length : Rat))] ∧ (w' = w → as.length ≤ m) := by
  have hr : List.range' 1 (d.features s0).length = List.range' 1 (w - 1) ++ w :: List.range' (w + 1) ((d.features s0).length - w) := by
    have h1 : List.range' 1 (d.features s0).length = List.range' 1 (w - 1) ++ List.range' (1 + (w - 1)) ((d.features s0).length - (w - 1)) := by
      rw [List.range'_append_1]; congr 1; omega
    rw [h1, show 1 + (w - 1) = w by omega, show (d.features s0).length - (w - 1) = ((d.features s0).length - w) + 1 by omega, List.range'_succ]
  rcases widths_found hQ hord hleft hu hw hw.plan fuel h0 (List.range' 1 (w - 1)) (List.range' (w + 1) ((d.features s0).length - w))
    (st := { graph := [] }) ⟨rfl, .inl rfl⟩ with h | ⟨st, w', as, h1, h2, h3⟩
  · rw [solve, hr]; exact .inl h
  · right
    refine ⟨st, as, w', by rw [solve, hr]; exact h1, h2.tells, ?_, ?_, ?_⟩
    · rcases h3 with h3 | h3
      · rw [List.mem_range'_1] at h3; omega
      · omega
    · rw [h2.scores, walkCost_unit hu]; rfl
    · intro e
      rcases h3 with h3 | h3
      · rw [List.mem_range'_1] at h3; omega
      · exact h3.2

/-- C76: with the queue of the library the guarantee holds for width 1, in domains where every
state has a feature. -/
theorem C76_width_one {d : Domain σ α φ} {c : Config σ} (hq : c.queue = heap) (hord : c.ordering = fun a b => less b.1 a.1)
    (hleft : ∀ k, c.left k = false) (hu : ∀ s a t, d.cost s a t = 1) (hlen : ∀ x, d.features x ≠ []) (s0 : σ) (h0 : d.goal s0 = false)
    {m : Nat} {t : Nat → Tuple φ} (hw : HasWidth d s0 1 m t) (fuel : Nat) :
    solve d c fuel [] s0 = none ∨ ∃ st as, solve d c fuel [] s0 = some (.ok st) ∧ Tells d.toProblem s0 st.graph as ∧
      st.scores = [(1, some (as.length : Rat))] ∧ as.length ≤ m := by
  have hlen' : ∀ x, 1 ≤ (d.features x).length := fun x => List.length_pos_of_ne_nil (hlen x)
  have ht : d.terminal s0 = false := by
    cases h : d.terminal s0 with
    | false => rfl
    | true => exact absurd (noGoal_dead h0 h) hw.plan
  obtain ⟨f, fs, hf⟩ := List.exists_cons_of_ne_nil (hlen s0)
  have hL : c.queue.Lawful := by rw [hq]; exact heap_lawful
  simp only [solve, hf, List.length_cons, List.range'_succ, widths]
  rcases width_found hL (heap_prio hq hord hu hlen') hord hleft hu hw fuel (st := { graph := [] }) ⟨rfl, .inl rfl⟩ h0 ht ⟨0, heap_start hq rfl rfl⟩ with h | ⟨st', as, h1, h2, h3⟩
  · rw [h]; exact .inl rfl
  · rw [h1]
    simp only [if_true, hleft, Bool.false_eq_true, if_false]
    exact .inr ⟨_, as, rfl, h2.tells, by rw [h2.scores, walkCost_unit hu]; rfl, h3⟩

omit [DecidableEq σ] [DecidableEq φ] in
/-- The plans of the guarantee are shortest ones: no plan is shorter than the chain. -/
theorem C76_chain_shortest {d : Domain σ α φ} {s0 : σ} {w m : Nat} {t : Nat → Tuple φ} (hw : HasWidth d s0 w m t)
    (hgoal : ∀ x, d.goal x = true → Holds (d.features x) (t m)) (as : List α) (h1 : d.Applicable s0 as)
    (h2 : ∀ pre a post, as = pre ++ a :: post → d.goal (d.walk s0 pre) = false ∧ d.terminal (d.walk s0 pre) = false)
    (h3 : d.goal (d.walk s0 as) = true) : m ≤ as.length :=
  hw.shortest m (Nat.le_refl _) as.length _ ⟨as, rfl, h1, rfl, h2⟩ (hgoal _ h3)

/-- A corridor in which one can go both ways; the goal is the state `m`. -/
def corridor (m : Nat) : Domain Nat Bool Nat where
  actions _ := [true, false]
  next s a := if a then s + 1 else s - 1
  cost _ _ _ := 1
  goal s := s = m
  terminal _ := false
  features s := [s]

theorem corridor_reach (m : Nat) {k x : Nat} (h : Reach (corridor m) 0 k x) : x ≤ k := by
  obtain ⟨as, rfl, _, rfl, _⟩ := h
  clear * -
  suffices ∀ s, (corridor m).walk s as ≤ s + as.length by simpa using this 0
  induction as with
  | nil => intro s; simp [Problem.walk]
  | cons a as ih =>
    intro s
    have := ih ((corridor m).next s a)
    have h2 : (corridor m).next s a ≤ s + 1 := by cases a <;> simp [corridor]; omega
    simp only [Problem.walk, List.length_cons]
    omega

/-- The corridor has width 1. -/
example (m : Nat) : HasWidth (corridor m) 0 1 m (fun i => [(0, some i)]) := by
  have hx : ∀ x i, Holds ((corridor m).features x) [(0, some i)] ↔ x = i := by
    intro x i
    simp [Holds, corridor]
  refine ⟨fun i _ => by simp, (hx _ _).2 rfl, ?_, ?_, ?_⟩
  · intro i _ k x hr h
    rw [(hx _ _).1 h] at hr
    exact corridor_reach m hr
  · intro i _ x _ h _
    refine ⟨rfl, true, by simp [corridor], (hx _ _).2 ?_⟩
    rw [(hx _ _).1 h]; rfl
  · intro x _ h
    simp [(hx _ _).1 h, corridor]

/-- A queue that searches for the least element each time. -/
def scan : Queue σ where
  push _ l x := x :: l
  pop k l := l.foldr (fun x r => match r with
    | none => some (x, [])
    | some (m, rest) => if k x m then some (m, x :: rest) else some (x, m :: rest)) none

omit [DecidableEq σ] in
theorem scan_pop (k : σ → σ → Bool) (l : List σ) : (scan.pop k l = none → l = []) ∧ ∀ x r, scan.pop k l = some (x, r) → l.Perm (x :: r) := by
  induction l with
  | nil => exact ⟨fun _ => rfl, fun x r h => by simp [scan] at h⟩
  | cons z l ih =>
    have hstep : scan.pop k (z :: l) = match scan.pop k l with
      | none => some (z, [])
      | some (m, rest) => if k z m then some (m, z :: rest) else some (z, m :: rest) := rfl
    rw [hstep]
    cases hp : scan.pop k l with
    | none =>
      rw [ih.1 hp]
      refine ⟨fun h => (by cases h), fun x r h => ?_⟩
      cases h
      exact .refl _
    | some mr =>
      obtain ⟨m, rest⟩ := mr
      have h1 := ih.2 m rest hp
      simp only
      by_cases hl : k z m = true
      · rw [if_pos hl]
        refine ⟨fun h => (by cases h), fun x r h => ?_⟩
        cases h
        exact (h1.cons z).trans (.swap _ _ _)
      · rw [if_neg hl]
        refine ⟨fun h => (by cases h), fun x r h => ?_⟩
        cases h
        exact h1.cons z

omit [DecidableEq σ] in
theorem scan_first (f : σ → Option Rat) (l : List σ) : ∀ x r, scan.pop (fun a b => less (f b) (f a)) l = some (x, r) → ∀ y ∈ l, less (f y) (f x) = false := by
  have htrans : ∀ a b c : Option Rat, less b a = false → less c b = false → less c a = false := by
    intro a b c h1 h2
    cases a <;> cases b <;> cases c <;> simp_all [less]
    linarith
  have hasym : ∀ a b : Option Rat, less a b = true → less b a = false := by
    intro a b h
    cases a <;> cases b <;> simp_all [less]
    linarith
  have hirr : ∀ a : Option Rat, less a a = false := by
    intro a; cases a <;> simp [less]
  induction l with
  | nil => intro x r h; simp [scan] at h
  | cons z l ih =>
    have hstep : scan.pop (fun a b => less (f b) (f a)) (z :: l) = match scan.pop (fun a b => less (f b) (f a)) l with
      | none => some (z, [])
      | some (m, rest) => if less (f m) (f z) then some (m, z :: rest) else some (z, m :: rest) := rfl
    rw [hstep]
    cases hp : scan.pop (fun a b => less (f b) (f a)) l with
    | none =>
      rw [(scan_pop _ l).1 hp]
      intro x r h
      cases h
      simpa using hirr _
    | some mr =>
      obtain ⟨m, rest⟩ := mr
      have h1 := ih m rest hp
      simp only
      by_cases hl : less (f m) (f z) = true
      · rw [if_pos hl]
        intro x r h
        cases h
        intro y hy
        rcases List.mem_cons.1 hy with rfl | hy
        · exact hasym _ _ hl
        · exact h1 y hy
      · rw [if_neg hl]
        intro x r h
        cases h
        intro y hy
        rcases List.mem_cons.1 hy with rfl | hy
        · exact hirr _
        · exact htrans _ _ _ (by simpa using hl) (h1 y hy)

/-- The hypotheses of `C76_width_guarantee_partial` on the queue can be met. -/
example : (scan : Queue σ).Exact :=
  ⟨⟨fun _ _ _ => .refl _, fun k l h => (scan_pop k l).1 h, fun k l x r h => (scan_pop k l).2 x r h⟩, fun f l x r h => scan_first f l x r h⟩

/-- The corridor is solved with either queue. -/
example : (∃ st, solve (corridor 3) {} 20 [] 0 = some (.ok st) ∧ st.scores = [(1, some 3)]) ∧
    ∃ st, solve (corridor 3) { queue := scan } 20 [] 0 = some (.ok st) ∧ st.scores = [(1, some 3)] := by
  have h1 : scoresOf (solve (corridor 3) {} 20 [] 0) = [(1, some 3)] := by decide +kernel
  have h2 : scoresOf (solve (corridor 3) { queue := scan } 20 [] 0) = [(1, some 3)] := by decide +kernel
  constructor
  · generalize solve (corridor 3) {} 20 [] 0 = r at h1 ⊢
    match r with
    | none => cases h1
    | some (.error _) => cases h1
    | some (.ok st) => exact ⟨st, rfl, h1⟩
  · generalize solve (corridor 3) { queue := scan } 20 [] 0 = r at h2 ⊢
    match r with
    | none => cases h2
    | some (.error _) => cases h2
    | some (.ok st) => exact ⟨st, rfl, h2⟩

end Verif.Iw
