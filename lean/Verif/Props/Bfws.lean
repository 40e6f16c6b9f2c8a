import Verif.Lemmas.Bfws
import Verif.Props.Iw

/-!
C77: the C++ best-first width search finds a plan if there is one, and what it tells is an
executable plan and its costs.
C78: with a heuristic that can always be lowered it goes straight to a goal.
C79: the novelty measure.
-/
namespace Verif.Bfws
open Verif.Search
open Verif.PlanGraph
variable [DecidableEq σ] [DecidableEq φ]

/-- The solver knows no plan: no state has a defined solution, asking for an action raises. -/
def Nothing (g : Graph σ α) : Prop := ∀ s, isSolutionDefined g s = false ∧ bestAction g s = .error .runtimeError

omit [DecidableEq φ] in
theorem nothing_of {g : Graph σ α} (h : ∀ x, (node g x).bestAction = none) : Nothing g := by
  intro s
  have := h s
  rw [node] at this
  rw [isSolutionDefined, bestAction]
  cases hg : g.get? s with
  | none => exact ⟨rfl, rfl⟩
  | some n =>
    rw [hg] at this
    simp only [Option.getD_some] at this
    simp [this]

/-! ### C77 -/

/-- C77: whatever the costs, the heuristic, the features and the ordering of the queue, `solve` on a
fresh solver from a state that is no goal raises nothing, and if it finishes, then either it tells of a plan
— applicable, through states that are no goals to a goal, with the right values along it — or it knows
no plan at all, and indeed no applicable actions lead to a goal. -/
theorem C77_tells {d : Domain σ α φ} {Q : Queue σ} (hQ : Q.Lawful) (s0 : σ) (h0 : d.goal s0 = false) (fuel : Nat) :
    solve d Q fuel [] s0 = none ∨ ∃ g, solve d Q fuel [] s0 = some (.ok g) ∧
      ((∃ as, Tells d.toProblem s0 g as) ∨ (Nothing g ∧ ∀ as, d.Applicable s0 as → d.goal (d.walk s0 as) = false)) := by
  rw [solve_eq h0]
  rcases loop_ind (d := d) (s0 := s0) hQ h0 (fun _ => True) (fun _ _ _ _ _ _ _ => trivial) (fun _ _ _ _ _ _ _ _ => trivial) fuel (start d Q s0)
    (start_ok hQ) trivial with h | ⟨st1, r, h1, ho, _, h3⟩
  · exact .inl (by rw [h]; rfl)
  · right
    rw [h1]
    cases h3 with
    | empty hq =>
      refine ⟨st1.graph, rfl, .inr ⟨nothing_of fun x => (ho.nosolved x).2, ?_⟩⟩
      have hs0 : s0 ∈ st1.closed := by
        rcases ho.root with h | ⟨_, _, h⟩
        · exact h
        · rw [hq] at h; cases h
      have key : ∀ as : List α, ∀ s ∈ st1.closed, d.Applicable s as → d.walk s as ∈ st1.closed := by
        intro as
        induction as with
        | nil => intro s hs _; exact hs
        | cons a as ih =>
          intro s hs ha
          refine ih _ ?_ ha.2
          rcases ho.succ s hs a ha.1 with ⟨_, h⟩ | h | h
          · cases h
          · exact h
          · rw [hq] at h; cases h
      exact fun as ha => ho.nogoal _ (key as s0 hs0 ha)
    | goal cur st' as _ _ h5 _ => exact ⟨st'.graph, rfl, .inl ⟨as, h5⟩⟩

/-- C77: on a domain with finitely many states within reach the solver finishes: it takes at most two
pops more than there are actions in those states. -/
theorem C77_finishes {d : Domain σ α φ} {Q : Queue σ} (hQ : Q.Lawful) (s0 : σ) (h0 : d.goal s0 = false)
    (S : List σ) (hs : s0 ∈ S) (hcl : ∀ s ∈ S, d.goal s = false → ∀ a ∈ d.actions s, d.next s a ∈ S)
    (fuel : Nat) (hf : 2 + (S.map fun x => (d.actions x).length).sum ≤ fuel) :
    ∃ g, solve d Q fuel [] s0 = some (.ok g) := by
  rcases C77_tells hQ s0 h0 fuel with h | ⟨g, h, _⟩
  · exfalso
    rw [solve_eq h0] at h
    refine loop_total (S := S) hQ h0 hcl fuel (start d Q s0) (start_ok hQ) ?_ ?_ (by simpa using h)
    · intro x hx
      rw [(start_queue hQ).mem_iff, List.mem_singleton] at hx
      rw [hx]; exact hs
    · have hc : (start d Q s0).closed = [] := rfl
      rw [pending, (start_queue hQ).length_eq, hc]
      simp
      omega
  · exact ⟨g, h⟩

/-- C77: so on finite domains the solver finds a plan exactly if there is one. -/
theorem C77_finds_plan_iff {d : Domain σ α φ} {Q : Queue σ} (hQ : Q.Lawful) (s0 : σ) (h0 : d.goal s0 = false)
    (S : List σ) (hs : s0 ∈ S) (hcl : ∀ s ∈ S, d.goal s = false → ∀ a ∈ d.actions s, d.next s a ∈ S)
    (fuel : Nat) (hf : 2 + (S.map fun x => (d.actions x).length).sum ≤ fuel) :
    ∃ g, solve d Q fuel [] s0 = some (.ok g) ∧
      (isSolutionDefined g s0 = true ↔ ∃ as, d.Applicable s0 as ∧ d.goal (d.walk s0 as) = true) := by
  obtain ⟨g, hg⟩ := C77_finishes hQ s0 h0 S hs hcl fuel hf
  refine ⟨g, hg, ?_⟩
  rcases C77_tells hQ s0 h0 fuel with h | ⟨g', h, h'⟩
  · rw [h] at hg; cases hg
  · rw [h] at hg
    simp only [Option.some.injEq, Except.ok.injEq] at hg
    subst hg
    rcases h' with ⟨as, h'⟩ | ⟨h1, h2⟩
    · constructor
      · exact fun _ => ⟨as, h'.applicable, h'.reaches⟩
      · intro _
        obtain ⟨a, as', rfl⟩ := List.exists_cons_of_ne_nil h'.nonempty
        exact (h'.defined s0).2 ⟨[], a, as', rfl, rfl⟩
    · constructor
      · intro h; rw [(h1 s0).1] at h; cases h
      · rintro ⟨as, ha, hg⟩; rw [h2 as ha] at hg; cases hg

/-- C77: the queue of the library keeps its elements. -/
theorem C77_library_queue_lawful : (heap : Queue σ).Lawful := heap_lawful

/-- C77: a goal is reported as solved at once, but the solver tells nothing about it: no solution
is defined for it, and its value is infinite. -/
theorem C77_goal_root (d : Domain σ α φ) (Q : Queue σ) (s0 : σ) (h0 : d.goal s0 = true) (fuel : Nat) :
    ∃ g, solve d Q fuel [] s0 = some (.ok g) ∧ Nothing g ∧ bestValue g s0 = .ok none := by
  refine ⟨_, by
    simp only [solve, Dict.contains, h0, Bool.or_true, if_true, Bool.false_eq_true, if_false]
    rfl, ?_, ?_⟩
  · refine nothing_of fun x => ?_
    rw [node_set]
    split <;> rfl
  · rw [bestValue_of_node (by rw [contains_set]; simp)]
    rw [node_set, if_pos rfl]

/-- A domain given by its edges (source, target, cost); the actions are the targets. -/
def edges (es : List (Nat × Nat × Rat)) (goal : Nat) (features : Nat → List Nat) (h : Nat → Rat) : Domain Nat Nat Nat where
  actions s := (es.filter (·.1 = s)).map (·.2.1)
  next _ a := a
  cost s a _ := ((es.find? fun e => e.1 = s ∧ e.2.1 = a).map (·.2.2)).getD 0
  goal s := s = goal
  features := features
  heuristic := h

def after {α : Type} (r : Option (Except PyErr (Graph Nat α))) : Graph Nat α :=
  match r with
  | some (.ok g) => g
  | _ => []

def raised {α : Type} (r : Option (Except PyErr (Graph Nat α))) : Option PyErr :=
  match r with
  | some (.error e) => some e
  | _ => none

/-- Rooms with a circle of negative cost. -/
def rooms : Domain Nat Nat Nat := edges [(0, 1, 1), (1, 3, -4), (0, 2, 1), (3, 5, 1), (3, 1, 1)] 5 (fun s => [s / 2, s % 2]) fun s => ((s % 2 : Nat) : Rat)

/-- The hypotheses of `C77_tells` and `C77_finishes` are met, and both outcomes occur. -/
example : (∀ s ∈ [0, 1, 2, 3, 5], rooms.goal s = false → ∀ a ∈ rooms.actions s, rooms.next s a ∈ [0, 1, 2, 3, 5]) ∧
    bestValue (after (solve rooms heap 20 [] 0)) 0 = .ok (some (-2)) ∧ bestAction (after (solve rooms heap 20 [] 0)) 1 = .ok 3 ∧
    isSolutionDefined (after (solve rooms heap 20 [] 2)) 2 = false ∧ solve rooms heap 20 [] 2 ≠ none := by
  refine ⟨by decide, by decide +kernel, by decide +kernel, by decide +kernel, by decide +kernel⟩

/-- The second way is cheaper but looks worse. -/
def detour : Domain Nat Nat Nat := edges [(0, 1, 1), (0, 2, 1), (1, 3, 10), (2, 3, 1)] 3 (fun s => [s]) fun s => if s = 2 then 2 else 1

/-- C77: the plan need not be a cheapest one. -/
theorem C77_not_optimal :
    bestValue (after (solve detour heap 20 [] 0)) 0 = .ok (some 11) ∧
    detour.Applicable 0 [2, 3] ∧ detour.goal (detour.walk 0 [2, 3]) = true ∧ detour.walkCost 0 [2, 3] = 2 :=
  ⟨by decide +kernel, ⟨by decide, by decide, trivial⟩, by decide, by decide +kernel⟩

def reused : Domain Nat Nat Nat := edges [(0, 1, 5), (0, 2, 1), (2, 3, 1), (1, 2, 1)] 3 (fun s => [s]) fun _ => 0

/-- C77 disagreement: solving from another state without clearing the graph follows the parents of
the first search past the new root and dereferences the null parent of the old one; a fresh solver
finds the plan. -/
theorem C77_second_solve_crashes :
    bestValue (after (solve reused heap 20 [] 0)) 0 = .ok (some 2) ∧
    raised (solve reused heap 20 (after (solve reused heap 20 [] 0)) 1) = some .attributeError ∧
    bestValue (after (solve reused heap 20 [] 1)) 1 = .ok (some 2) := by
  decide +kernel

/-! ### C78 -/

/-- C78: if every state that is no goal has an action to a state whose heuristic value is at least one
lower, and the values are not negative, then the search reaches a goal within as many pops as the value of
the start (and one), however large the domain, and the plan has at most that many actions. -/
theorem C78_greedy {d : Domain σ α φ} (hnn : ∀ x, 0 ≤ d.heuristic x)
    (hdec : ∀ x, d.goal x = false → ∃ a ∈ d.actions x, d.heuristic (d.next x a) ≤ d.heuristic x - 1)
    (s0 : σ) (h0 : d.goal s0 = false) (fuel : Nat) (hf : d.heuristic s0 < fuel) :
    ∃ g as, solve d heap fuel [] s0 = some (.ok g) ∧ Tells d.toProblem s0 g as ∧ (as.length : Rat) ≤ d.heuristic s0 := by
  have hq : (start d heap s0).queue = [s0] := rfl
  obtain ⟨st', as, h1, h2, h3⟩ := loop_greedy h0 hnn hdec fuel (start d heap s0) (start_ok heap_lawful)
    (by
      rw [hq]
      intro i x y hi hx
      rw [List.getElem?_eq_none (by simp only [List.length_cons, List.length_nil]; omega)] at hx
      cases hx)
    (d.heuristic s0) ⟨s0, by rw [hq]; simp, le_refl _⟩ (by intro y hy; cases hy) (by simp [start]) hf
  exact ⟨st'.graph, as, by rw [solve_eq h0, h1]; rfl, h2, h3⟩

/-- Walking to zero on the line of all integers: each state has two actions. -/
def line : Domain Int Int Int where
  actions x := [x + 1, x - 1]
  next _ a := a
  cost _ _ _ := 1
  goal x := x = 0
  features x := [x]
  heuristic x := |(x : Rat)|

/-- The hypotheses of `C78_greedy` are met on an infinite domain. -/
example : (∀ x, 0 ≤ line.heuristic x) ∧
    (∀ x, line.goal x = false → ∃ a ∈ line.actions x, line.heuristic (line.next x a) ≤ line.heuristic x - 1) ∧
    (solve line heap 8 [] (-7)).map (·.map (bestValue · (-7))) = some (.ok (.ok (some 7))) := by
  refine ⟨fun x => abs_nonneg _, ?_, ?_⟩
  · intro x hx
    simp only [line, decide_eq_false_iff_not] at hx ⊢
    rcases lt_or_gt_of_ne hx with h | h
    · refine ⟨x + 1, by simp, ?_⟩
      have h1 : (x : Rat) + 1 ≤ 0 := by exact_mod_cast h
      rw [abs_of_nonpos (by push_cast; linarith), abs_of_nonpos (by linarith)]
      push_cast
      linarith
    · refine ⟨x - 1, by simp, ?_⟩
      have h1 : (1 : Rat) ≤ x := by exact_mod_cast h
      rw [abs_of_nonneg (by push_cast; linarith), abs_of_nonneg (by linarith)]
      push_cast
      linarith
  · decide +kernel

/-- From each number of the half line one can go on or to the goal; the heuristic prefers going on,
although it is positive everywhere. -/
def away : Domain Int Int Int where
  actions x := [x + 1, -1]
  next _ a := a
  cost _ _ _ := 1
  goal x := x = -1
  features x := [x]
  heuristic x := if x < 0 then 2 else 1 / ((x : Rat) + 1)

/-- C78: a heuristic that falls for ever without reaching a goal keeps the solver from the goal next to the
start: on infinite domains the search is not complete. -/
theorem C78_misled : away.Applicable 0 [-1] ∧ away.goal (away.walk 0 [-1]) = true ∧ ∀ fuel, solve away heap fuel [] 0 = none := by
  refine ⟨⟨by decide, trivial⟩, by decide, fun fuel => ?_⟩
  have h0 : away.goal 0 = false := by decide
  rw [solve_eq h0]
  have key : ∀ (fuel : Nat) (st : St Int Int Int), Ok away 0 0 [] st → CppAStar.HeapOk (key st) st.queue →
      (∃ m : Int, -1 ≤ m ∧ m + 1 ∈ st.queue ∧ ∀ y ∈ st.closed, y ≤ m) → loop away heap 0 fuel st = none := by
    intro fuel
    induction fuel with
    | zero => intros; rfl
    | succ fuel ih =>
      intro st ho hh ⟨m, hm, hmq, hmc⟩
      rw [loop]
      cases hp : (heap : Queue Int).pop (worse st.graph) st.queue with
      | none =>
        rw [heap_lawful.popNone _ _ hp] at hmq
        cases hmq
      | some cq =>
        obtain ⟨cur, q⟩ := cq
        have hperm := heap_lawful.pop _ _ _ _ hp
        have hcq : cur ∈ st.queue := hperm.mem_iff.2 (by simp)
        obtain ⟨hh', hmin⟩ := pop_ok (worse_agrees st) hh hp
        have hle : away.heuristic cur ≤ away.heuristic (m + 1) := by
          have := hmin _ hmq
          simp only [Bfws.key, CppAStar.Le, CppAStar.less, decide_eq_false_iff_not, not_lt, ho.heur _ hmq, ho.heur cur hcq] at this
          linarith
        have hm1 : (0 : Rat) ≤ (m : Rat) + 1 := by exact_mod_cast (by omega : (0 : Int) ≤ m + 1)
        have hcur : m + 1 ≤ cur := by
          simp only [away] at hle
          rw [if_neg (show ¬ (m + 1 < 0) by omega)] at hle
          push_cast at hle
          split at hle
          · rw [le_div_iff₀ (by linarith)] at hle
            linarith
          · rename_i hc
            have hc : (0 : Rat) ≤ cur := by exact_mod_cast (not_lt.1 hc)
            rw [div_le_div_iff₀ (by linarith) (by linarith)] at hle
            have : (m : Rat) + 1 ≤ cur := by linarith
            exact_mod_cast this
        have hc : cur ∉ st.closed := fun h => by have := hmc cur h; omega
        have hg : away.goal cur = false := by simp only [away, decide_eq_false_iff_not]; omega
        simp only
        rw [if_neg hc, if_neg (by rw [hg, (ho.nosolved cur).1]; simp)]
        have ha : cur + 1 ∈ away.actions cur := by simp [away]
        obtain ⟨h1, ⟨h2, h3⟩, h4⟩ := fold_ind (d := away) heap_lawful (s0 := 0) (cur := cur) (fun (t : List Int) (s : St Int Int Int) =>
            CppAStar.HeapOk (Bfws.key s) s.queue ∧ (cur + 1 ∈ t ∨ cur + 1 ∈ s.queue ∨ cur + 1 ∈ s.closed))
          (by
            intro b todo s s' hb1 _ _ ht hb2 ⟨c1, c2⟩
            refine ⟨heap_try hb1 hb2 ht c1, ?_⟩
            have hsub : ∀ x ∈ s.queue, x ∈ s'.queue := by
              intro x hx
              rcases ht.step with ⟨_, e, _⟩ | ⟨_, e, _⟩
              · rw [e]; exact hx
              · rw [e, (heap_lawful.push _ _ _).mem_iff]; exact List.mem_cons_of_mem _ hx
            rcases c2 with c2 | c2 | c2
            · rcases List.mem_cons.1 c2 with rfl | c2
              · rcases ht.step with ⟨e, _, _⟩ | ⟨_, e, _⟩
                · exact .inr (.inr (by rw [ht.closed]; exact e))
                · exact .inr (.inl (by rw [e, (heap_lawful.push _ _ _).mem_iff]; exact List.mem_cons_self))
              · exact .inl c2
            · exact .inr (.inl (hsub _ c2))
            · exact .inr (.inr (by rw [ht.closed]; exact c2)))
          (away.actions cur) _ (ho.opens hperm hc hg) (by simp) (fun a ha => ha) ⟨hh', .inl ha⟩
        refine ih _ h1.any h2 ⟨cur, by omega, ?_, ?_⟩
        · rcases h3 with h3 | h3 | h3
          · cases h3
          · exact h3
          · rw [h4] at h3
            rcases List.mem_cons.1 h3 with h3 | h3
            · omega
            · have := hmc _ h3; omega
        · rw [h4]
          intro y hy
          rcases List.mem_cons.1 hy with rfl | hy
          · exact le_refl _
          · have := hmc y hy; omega
  rw [key fuel (start away heap 0) (start_ok heap_lawful) ?_ ⟨-1, by omega, ?_, ?_⟩]
  · rfl
  · intro i x y hi hx
    rw [show (start away heap 0).queue = [0] from rfl, List.getElem?_eq_none (by simp only [List.length_cons, List.length_nil]; omega)] at hx
    cases hx
  · decide
  · intro y hy; cases hy

/-! ### C79 -/

/-- The measure: `hist` are the nodes evaluated before, each with its heuristic value and features.  A
new heuristic value gives 0; otherwise it is the number of features whose value no earlier node with the
same heuristic value had at that place, or one more than the number of features if there is none. -/
def measure (hist : List (Rat × List φ)) (h : Rat) (fs : List φ) : Nat :=
  let new := fs.zipIdx.countP fun e => decide (∀ p ∈ hist, p.1 = h → p.2[e.2]? ≠ some e.1)
  if ∀ p ∈ hist, p.1 ≠ h then 0 else if new = 0 then fs.length + 1 else new

/-- C79: after any sequence of evaluations, the novelty of a node is that measure. -/
theorem C79_novelty (hist : List (Rat × List φ)) (h : Rat) (fs : List φ) :
    (novelty (hist.foldl (fun m e => (novelty m e.1 e.2).2) []) h fs).1 = measure hist h fs := by
  obtain ⟨h1, h2⟩ := mapOf_spec hist h
  change (novelty (mapOf hist) h fs).1 = _
  simp only [novelty, measure]
  rw [(fold_new fs.zipIdx (nodup_zipIdx fs 0) _).1]
  have hc : fs.zipIdx.countP (fun e => decide ((e.2, e.1) ∉ ((mapOf hist).get? h).getD [])) =
      fs.zipIdx.countP (fun e => decide (∀ p ∈ hist, p.1 = h → p.2[e.2]? ≠ some e.1)) := by
    apply List.countP_congr
    intro e _
    simp only [decide_eq_true_eq, h2, not_exists, not_and, ne_eq]
  simp only [Nat.zero_add, hc, Option.isNone_iff_eq_none, h1]

/-- C79: a heuristic value met before gives between 1 and the number of features exactly if some feature
is new, so the measure is never 0 again. -/
theorem C79_novelty_range (hist : List (Rat × List φ)) (h : Rat) (fs : List φ) (p : Rat × List φ) (hp : p ∈ hist) (hh : p.1 = h) :
    1 ≤ measure hist h fs ∧ measure hist h fs ≤ fs.length + 1 ∧
      (measure hist h fs ≤ fs.length ↔ ∃ (i : Nat) (v : φ), fs[i]? = some v ∧ ∀ q ∈ hist, q.1 = h → q.2[i]? ≠ some v) := by
  have hex : ¬ ∀ p ∈ hist, p.1 ≠ h := fun a => a p hp hh
  simp only [measure]
  rw [if_neg hex]
  have hle := List.countP_le_length (p := fun e : φ × Nat => decide (∀ p ∈ hist, p.1 = h → p.2[e.2]? ≠ some e.1)) (l := fs.zipIdx)
  rw [List.length_zipIdx] at hle
  have hpos : 0 < fs.zipIdx.countP (fun e => decide (∀ p ∈ hist, p.1 = h → p.2[e.2]? ≠ some e.1)) ↔
      ∃ (i : Nat) (v : φ), fs[i]? = some v ∧ ∀ q ∈ hist, q.1 = h → q.2[i]? ≠ some v := by
    rw [List.countP_pos_iff]
    constructor
    · rintro ⟨e, he, h'⟩
      exact ⟨e.2, e.1, List.mem_zipIdx_iff_getElem?.1 he, by simpa using h'⟩
    · rintro ⟨i, v, he, h'⟩
      exact ⟨(v, i), List.mem_zipIdx_iff_getElem?.2 he, by simpa using h'⟩
  rw [← hpos]
  split <;> omega

/-- C79: evaluating a node a second time gives the largest measure, whatever it was before: nothing is new
then. -/
theorem C79_second_evaluation (hist hist' : List (Rat × List φ)) (h : Rat) (fs : List φ) :
    measure (hist ++ (h, fs) :: hist') h fs = fs.length + 1 := by
  obtain ⟨h1, h2, h3⟩ := C79_novelty_range (hist ++ (h, fs) :: hist') h fs (h, fs) (by simp) rfl
  have : ¬ measure (hist ++ (h, fs) :: hist') h fs ≤ fs.length := by
    rw [h3]
    rintro ⟨i, v, a, b⟩
    exact b (h, fs) (by simp) rfl a
  omega

example : measure [(1, [5, 6]), (2, [7, 7])] 1 [5, 7] = 1 ∧ measure [(1, [5, 6])] 2 [5, 7] = 0 ∧
    measure [(1, [5, 6]), (1, [6, 7])] 1 [5, 7] = 3 := by decide +kernel

/-- C79 disagreement: the comment in the code says that only novelty 1 is told apart from all the rest, but
a node with more new features gets a larger number, and so comes later in the queue than one with few. -/
theorem C79_more_new_features_come_later :
    measure [(1, [0, 0])] 1 [0, 1] = 1 ∧ measure [(1, [0, 0])] 1 [1, 1] = 2 ∧
    ∀ (g : Graph Nat Nat), (node g 0).heuristic = (node g 1).heuristic → (node g 0).novelty = some 2 → (node g 1).novelty = some 1 →
      worse g 0 1 = true := by
  refine ⟨by decide +kernel, by decide +kernel, fun g h1 h2 h3 => ?_⟩
  simp [worse, h1, h2, h3, larger]

/-- State 1 is reached by two actions. -/
def twice : Domain Nat Nat Nat :=
  edges [(0, 1, 1), (0, 2, 1), (0, 1, 1), (1, 3, 10), (2, 3, 1)] 3 (fun s => [s, if s = 1 then 0 else s]) fun s => if s = 3 then 0 else 1

/-- C79 disagreement: the measure of a node that is generated twice is changed while the node lies in the
heap, so the heap gives it before another one with the same heuristic value that is more novel now; a queue that looks
at the values at the time gives the other one. -/
theorem C79_stale_heap :
    bestAction (after (solve twice heap 20 [] 0)) 0 = .ok 1 ∧ bestAction (after (solve twice Iw.scan 20 [] 0)) 0 = .ok 2 ∧
    measure [(1, [0, 0])] 1 [1, 0] = 1 ∧ measure [(1, [0, 0]), (1, [1, 0])] 1 [2, 2] = 2 ∧
    measure [(1, [0, 0]), (1, [1, 0]), (1, [2, 2])] 1 [1, 0] = 3 := by
  decide +kernel

/-- The evaluations of the states `gen`. -/
def evals (d : Domain σ α φ) (gen : List σ) : List (Rat × List φ) := gen.map fun m => (d.heuristic m, d.features m)

/-- The nodes tell the measures of the states evaluated in the order `gen`, the last evaluation counting. -/
structure Told (d : Domain σ α φ) (s : σ) (gen : List σ) (g : Graph σ α) : Prop where
  first : gen.head? = some s
  only : ∀ n, (node g n).novelty ≠ none → n ∈ gen
  last : ∀ n ∈ gen, ∃ pre post, gen = pre ++ n :: post ∧ n ∉ post ∧ (node g n).heuristic = d.heuristic n ∧
    (node g n).novelty = some (measure (evals d pre) (d.heuristic n) (d.features n))

omit [DecidableEq σ] in
theorem novelty_evals (d : Domain σ α φ) (gen : List σ) (n : σ) :
    (novelty (mapOf (evals d gen)) (d.heuristic n) (d.features n)).1 = measure (evals d gen) (d.heuristic n) (d.features n) ∧
    (novelty (mapOf (evals d gen)) (d.heuristic n) (d.features n)).2 = mapOf (evals d (gen ++ [n])) := by
  refine ⟨C79_novelty _ _ _, ?_⟩
  simp [mapOf, evals, List.foldl_append]

theorem told_frame {d : Domain σ α φ} {s : σ} {gen : List σ} {g g' : Graph σ α} (h : Told d s gen g)
    (h1 : ∀ n, (node g' n).novelty = (node g n).novelty ∧ (node g' n).heuristic = (node g n).heuristic) : Told d s gen g' := by
  refine ⟨h.first, fun n hn => h.only n (by rw [← (h1 n).1]; exact hn), fun n hn => ?_⟩
  obtain ⟨pre, post, e1, e2, e3, e4⟩ := h.last n hn
  exact ⟨pre, post, e1, e2, by rw [(h1 n).2]; exact e3, by rw [(h1 n).1]; exact e4⟩

omit [DecidableEq φ] in
theorem set_frame (g : Graph σ α) (x : σ) (m : Node σ α) (h1 : m.novelty = (node g x).novelty) (h2 : m.heuristic = (node g x).heuristic) (n : σ) :
    (node (g.set x m) n).novelty = (node g n).novelty ∧ (node (g.set x m) n).heuristic = (node g n).heuristic := by
  rw [node_set]
  split
  · rename_i h; subst h; exact ⟨h1, h2⟩
  · exact ⟨rfl, rfl⟩

omit [DecidableEq φ] in
theorem mark_frame (root : σ) (fuel : Nat) (cur : σ) (g g' : Graph σ α) (hx : mark root fuel cur g = some (.ok g')) (n : σ) :
    (node g' n).novelty = (node g n).novelty ∧ (node g' n).heuristic = (node g n).heuristic := by
  induction fuel generalizing cur g with
  | zero =>
    rw [mark] at hx
    split at hx
    · cases hx; exact ⟨rfl, rfl⟩
    · cases hx
  | succ fuel ih =>
    rw [mark] at hx
    split at hx
    · cases hx; exact ⟨rfl, rfl⟩
    · split at hx
      · cases hx
      · rename_i par _ c _
        have := ih _ _ hx
        rw [this.1, this.2]
        apply set_frame <;> rfl

theorem told_try {d : Domain σ α φ} {Q : Queue σ} {s cur : σ} {st : St σ α φ} (a : α) (h : ∃ gen, Told d s gen st.graph ∧ st.map = mapOf (evals d gen)) :
    ∃ gen, Told d s gen (tryAction d Q cur st a).graph ∧ (tryAction d Q cur st a).map = mapOf (evals d gen) := by
  obtain ⟨gen, h1, h2⟩ := h
  rw [tryAction]
  simp only
  generalize d.next cur a = n
  generalize hG : (if (!st.graph.contains n) = true then st.graph.set n {} else st.graph) = G
  have hGn : ∀ x, node G x = node st.graph x := by
    intro x
    rw [← hG]
    split
    · rename_i hc
      rw [node_set]
      split
      · rename_i hx
        subst hx
        exact (node_not_contains (by simpa using hc)).symm
      · rfl
    · rfl
  have hT : Told d s gen G := told_frame h1 fun m => by rw [hGn]; exact ⟨rfl, rfl⟩
  split
  · exact ⟨gen, hT, h2⟩
  · obtain ⟨n1, n2⟩ := novelty_evals d gen n
    rw [h2]
    refine ⟨gen ++ [n], ⟨?_, fun m hm => ?_, fun m hm => ?_⟩, n2⟩
    · rw [List.head?_append, hT.first]; rfl
    · simp only [node_set] at hm
      split at hm
      · rename_i h; subst h; simp
      · exact List.mem_append_left _ (hT.only m hm)
    · simp only [node_set]
      by_cases hmn : m = n
      · subst hmn
        refine ⟨gen, [], rfl, by simp, ?_⟩
        rw [if_pos rfl]
        exact ⟨rfl, congrArg some n1⟩
      · have hm' : m ∈ gen := (List.mem_append.1 hm).resolve_right (by simpa using hmn)
        obtain ⟨pre, post, e1, e2, e3, e4⟩ := hT.last m hm'
        refine ⟨pre, post ++ [n], by rw [e1]; simp, by simp [e2, hmn], ?_⟩
        rw [if_neg hmn]
        exact ⟨e3, e4⟩

theorem told_loop {d : Domain σ α φ} {Q : Queue σ} {s : σ} (fuel : Nat) (st st' : St σ α φ) (h : ∃ gen, Told d s gen st.graph ∧ st.map = mapOf (evals d gen))
    (hx : loop d Q s fuel st = some (.ok st')) : ∃ gen, Told d s gen st'.graph := by
  induction fuel generalizing st with
  | zero => cases hx
  | succ fuel ih =>
    rw [loop] at hx
    split at hx
    · cases hx
      obtain ⟨gen, h1, _⟩ := h
      exact ⟨gen, h1⟩
    · rename_i cur q hq
      simp only at hx
      split at hx
      · exact ih { st with queue := q } h hx
      · split at hx
        · split at hx
          · cases hx
          · cases hx
          · rename_i g hm
            cases hx
            obtain ⟨gen, h1, _⟩ := h
            refine ⟨gen, told_frame h1 fun n => ?_⟩
            have := mark_frame _ _ _ _ _ hm n
            rw [this.1, this.2]
            refine set_frame _ _ _ ?_ ?_ n <;> split <;> rfl
        · refine ih _ ?_ hx
          have key : ∀ (l : List α) (st : St σ α φ), (∃ gen, Told d s gen st.graph ∧ st.map = mapOf (evals d gen)) →
              ∃ gen, Told d s gen (l.foldl (tryAction d Q cur) st).graph ∧ (l.foldl (tryAction d Q cur) st).map = mapOf (evals d gen) := by
            intro l
            induction l with
            | nil => exact fun st h => h
            | cons a l ih => exact fun st h => ih _ (told_try a h)
          exact key _ { graph := st.graph, queue := q, closed := cur :: st.closed, map := st.map } h

/-- C79: in a whole search there is an order in which states were evaluated, the start first, such that every node tells the
measure of its state at its last evaluation, by its own heuristic value and among all evaluations before. -/
theorem C79_search {d : Domain σ α φ} {Q : Queue σ} {s : σ} (h0 : d.goal s = false) {fuel : Nat} {g : Graph σ α} (hx : solve d Q fuel [] s = some (.ok g)) :
    ∃ gen : List σ, gen.head? = some s ∧ (∀ n, (node g n).novelty ≠ none → n ∈ gen) ∧
      ∀ n ∈ gen, ∃ pre post, gen = pre ++ n :: post ∧ n ∉ post ∧ (node g n).heuristic = d.heuristic n ∧
        (node g n).novelty = some (measure (pre.map fun m => (d.heuristic m, d.features m)) (d.heuristic n) (d.features n)) := by
  rw [solve_eq h0] at hx
  obtain ⟨r, hr, hr'⟩ := Option.map_eq_some_iff.1 hx
  cases r with
  | error e => cases hr'
  | ok st =>
    cases hr'
    have hT : Told d s [s] (start d Q s).graph := by
      refine ⟨rfl, fun n hn => ?_, fun n hn => ?_⟩
      · rw [start_node] at hn
        split at hn
        · rename_i h; subst h; simp
        · exact absurd rfl hn
      · obtain rfl := List.mem_singleton.1 hn
        refine ⟨[], [], rfl, by simp, ?_⟩
        rw [start_node, if_pos rfl]
        exact ⟨rfl, congrArg some (novelty_evals d [] n).1⟩
    obtain ⟨gen, h⟩ := told_loop fuel _ _ ⟨[s], hT, (novelty_evals d [] s).2⟩ hr
    exact ⟨gen, h.first, h.only, h.last⟩

/-- Two states of one heuristic value besides the start. -/
example : (solve twice heap 20 [] 0).bind (fun r => r.toOption.map fun g => ((node g 1).novelty, (node g 2).novelty, (node g 0).novelty)) = some (some 3, some 2, some 0) := by
  decide +kernel

end Verif.Bfws
