import Verif.Lemmas.AoStarMore
import Mathlib.Tactic.NormNum

/-!
Properties of the C++ AO* solver (/repo/cpp/src/hub/solver/aostar.hh): it ends with an optimal
policy on finite domains without cycles (C71), cycles (C72), and how it fails (C73).
-/
namespace Verif.AoStar
open Relation

/-- The expected discounted cost of the action `a` when `v` is to be paid afterwards. -/
def mean (m : Mdp σ α) (γ : Rat) (v : σ → Rat) (s : σ) (a : α) : Rat :=
  ((m.outcomes s a).map fun o => o.1 * (o.2.1 + γ * v o.2.2)).sum

/-- What `n` steps of the policy `π` cost in the mean; nothing is paid after a goal. -/
def costOf (m : Mdp σ α) (γ : Rat) (π : σ → Except PyErr α) : Nat → σ → Rat
  | 0, _ => 0
  | n + 1, s => if m.goal s then 0 else
    match π s with
    | .ok a => mean m γ (costOf m γ π n) s a
    | .error _ => 0

/-- The policy `π` chooses applicable actions and is at a goal after at most `n` steps, whatever
the outcomes are. -/
inductive Reaches (m : Mdp σ α) (π : σ → Except PyErr α) : Nat → σ → Prop
  | goal {n : Nat} {s : σ} : m.goal s = true → Reaches m π n s
  | step {n : Nat} {s : σ} {a : α} : π s = .ok a → a ∈ m.actions s → (∀ o ∈ m.outcomes s a, Reaches m π n o.2.2) → Reaches m π (n + 1) s

/-- The states of a solver object: finished calls of `solve` from states in `R` that are no
goals. -/
inductive Session [DecidableEq σ] (m : Mdp σ α) (c : Config σ) (R : σ → Prop) : Graph σ α → Prop
  | start : Session m c R []
  | solve {g g' : Graph σ α} {s : σ} (fuel : Nat) : Session m c R g → R s → m.goal s = false →
      solve m c fuel g s = some (.ok g') → Session m c R g'

/-- A set is walked in some order, and at least one tip is expanded in each round. -/
structure Sane (c : Config σ) : Prop where
  order : ∀ l, (c.arrange l).Perm l
  tips : 1 ≤ c.maxTips

/-- The finitely many states `S` are not left, and each of them, unless it is a goal, has an action
that certainly leaves it. -/
structure Sound (m : Mdp σ α) (S : List σ) : Prop where
  closed : ∀ s ∈ S, m.goal s = false → ∀ a ∈ m.actions s, ∀ o ∈ m.outcomes s a, o.2.2 ∈ S
  leave : ∀ s ∈ S, m.goal s = false → ∃ a ∈ m.actions s, ∀ o ∈ m.outcomes s a, o.2.2 ≠ s

/-- `U` is at least the heuristic, and at least what some action costs in terms of `U`: for
example the cost of any policy, or the optimal cost. -/
structure CostBound (m : Mdp σ α) (c : Config σ) (U : σ → Rat) : Prop where
  prob : ∀ s, ∀ a ∈ m.actions s, ∀ o ∈ m.outcomes s a, 0 ≤ o.1
  discount : 0 ≤ c.discount
  goal : ∀ s, m.goal s = true → 0 ≤ U s
  heuristic : ∀ s, m.goal s = false → c.h s ≤ U s
  action : ∀ s, m.goal s = false → ∃ a ∈ m.actions s, mean m c.discount U s a ≤ U s

section
variable [DecidableEq σ] {m : Mdp σ α} {c : Config σ}

omit [DecidableEq σ] in
theorem Sane.arr (h : Sane c) : ∀ l x, x ∈ c.arrange l ↔ x ∈ l := fun l _ => (h.order l).mem_iff

omit [DecidableEq σ] in
theorem Sound.isClosed {S : List σ} (h : Sound m S) : Closed m S := by
  rintro s hs hg t ⟨a, ha, o, ho, rfl⟩
  exact h.closed s hs hg a ha o ho

omit [DecidableEq σ] in
theorem CostBound.bound {U : σ → Rat} (hU : CostBound m c U) : Bound m c (fun s v => v ≤ U s) := by
  refine ⟨hU.goal, hU.heuristic, fun s hg v hv as has a w h => ?_⟩
  obtain ⟨b, hb, hq⟩ := hU.action s hg
  refine ((Mdp.greedy_some h).2.2 b ((has b).2 hb)).trans (le_trans (m.q_mono hU.discount (hU.prob s b hb) fun o ho => ?_) hq)
  exact hv b hb o ho

theorem Session.ok (hc : Sane c) {P : σ → Rat → Prop} (hP : Bound m c P) {R : σ → Prop} {g : Graph σ α} (h : Session m c R g) : Ok m c P g := by
  induction h with
  | start => exact Ok.nil P
  | solve fuel _ hR hg hs ih =>
    exact (solve_spec hP (I := fun _ => True) (fun _ _ _ _ _ _ _ _ _ _ => trivial) hc.arr hc.tips ih trivial hg hs).1

theorem Session.acyclic (hc : Sane c) {R : σ → Prop} {g : Graph σ α} (h : Session m c R g) : Acyclic g := by
  induction h with
  | start =>
    intro x hx
    have : ∀ x y, ¬ Edge ([] : Graph σ α) x y := by
      intro x y h
      obtain ⟨n, e, -⟩ := edge_iff.1 h
      cases e
    cases hx with
    | single h => exact this _ _ h
    | tail _ h => exact this _ _ h
  | solve fuel h0 hR hg hs ih =>
    exact (solve_spec bound_true (acyclic_stable hc.arr) hc.arr hc.tips (h0.ok hc bound_true) (ih.start _) hg hs).2.1

theorem Session.within (hc : Sane c) {S : List σ} (hS : Sound m S) {g : Graph σ α} (h : Session m c (· ∈ S) g) : Within S g := by
  induction h with
  | start => intro t n e; cases e
  | solve fuel h0 hR hg hs ih =>
    exact (solve_spec bound_true (within_stable hS.isClosed) hc.arr hc.tips (h0.ok hc bound_true) (ih.start hR) hg hs).2.1

theorem session_solved (hc : Sane c) {R : σ → Prop} {g g' : Graph σ α} (h : Session m c R g) {fuel : Nat} {s : σ} (hg : m.goal s = false)
    (hs : solve m c fuel g s = some (.ok g')) : isSolved g' s = true :=
  (solve_spec bound_true (I := fun _ => True) (fun _ _ _ _ _ _ _ _ _ _ => trivial) hc.arr hc.tips (h.ok hc bound_true) trivial hg hs).2.2.2

theorem getBestAction_ok {g : Graph σ α} {s : σ} {a : α} : getBestAction g s = .ok a ↔ bestOf g s = some a := by
  unfold getBestAction
  cases bestOf g s <;> simp

theorem getBestValue_ok {g : Graph σ α} {s : σ} {v : Rat} : getBestValue g s = .ok (some v) ↔ value g s = some v := by
  unfold getBestValue value
  cases g.get? s <;> simp

/-! ### C71: optimal policies -/

/-- A finished call leaves its state solved. -/
theorem C71_defined (hc : Sane c) {R : σ → Prop} {g g' : Graph σ α} (h : Session m c R g) {fuel : Nat} {s : σ} (hg : m.goal s = false)
    (hs : solve m c fuel g s = some (.ok g')) : isSolutionDefinedFor g' s = true := by
  have h1 := session_solved hc h hg hs
  have hok := (solve_spec bound_true (I := fun _ => True) (fun _ _ _ _ _ _ _ _ _ _ => trivial) hc.arr hc.tips (h.ok hc bound_true) trivial hg hs).1
  rcases solved_step hok h1 with ⟨h2, -⟩ | ⟨-, a, -, v, hb, -⟩
  · rw [hg] at h2; cases h2
  · simp [isSolutionDefinedFor, hb, h1]

/-- Without cycles the solver ends, whether or not it was used before, and without raising (when it
is not told to look for cycles). -/
theorem C71_ends (hc : Sane c) (hd : c.detect = false) {S : List σ} (hS : Sound m S) {r : σ → Nat}
    (hr : ∀ s ∈ S, m.goal s = false → ∀ a ∈ m.actions s, ∀ o ∈ m.outcomes s a, r o.2.2 < r s)
    {g : Graph σ α} (h : Session m c (· ∈ S) g) {s : σ} (hs : s ∈ S) (hg : m.goal s = false) {fuel : Nat} (hf : S.length + 2 ≤ fuel) :
    ∃ g', solve m c fuel g s = some (.ok g') := by
  have htame : Tame m c S := .inr ⟨r, fun s hs hg t ht => by obtain ⟨a, ha, o, ho, rfl⟩ := ht; exact hr s hs hg a ha o ho⟩
  rcases solve_fine hS.leave hS.isClosed htame hc.arr hc.tips hf (h.ok hc bound_true) (h.acyclic hc) (h.within hc hS) hs hg with ⟨g', e⟩ | ⟨hd', -⟩
  · exact ⟨g', e⟩
  · rw [hd] at hd'; cases hd'

/-- The policy reaches a goal from every state for which a solution is defined, and its expected
cost is exactly what the solver answers, in every domain and at every time between two calls. -/
theorem C71_policy (hc : Sane c) {R : σ → Prop} {g : Graph σ α} (h : Session m c R g) {s : σ} (hs : isSolutionDefinedFor g s = true) :
    ∃ N v, Reaches m (getBestAction g) N s ∧ getBestValue g s = .ok (some v) ∧
      ∀ n, N ≤ n → costOf m c.discount (getBestAction g) n s = v := by
  have hok := h.ok hc (bound_true (m := m) (c := c))
  have key : ∀ N s, Short (Edge g) N s → isSolved g s = true → Reaches m (getBestAction g) N s ∧
      ∀ n, N ≤ n → costOf m c.discount (getBestAction g) n s = val g s := by
    intro N
    induction N with
    | zero => intro s hsh; exact hsh.elim
    | succ N ih =>
      intro s hsh hsol
      rcases solved_step hok hsol with ⟨hg, hv⟩ | ⟨hg, a, ha, v, hb, hv, hq, hall⟩
      · refine ⟨.goal hg, fun n hn => ?_⟩
        obtain ⟨n, rfl⟩ : ∃ k, n = k + 1 := ⟨n - 1, by omega⟩
        simp [costOf, hg, val, hv]
      · refine ⟨.step (getBestAction_ok.2 hb) ha fun o ho => (ih _ (hsh _ (hall o ho).2) (hall o ho).1).1, fun n hn => ?_⟩
        obtain ⟨n, rfl⟩ : ∃ k, n = k + 1 := ⟨n - 1, by omega⟩
        have hval : val g s = v := by simp [val, hv]
        simp only [costOf, hg, Bool.false_eq_true, ↓reduceIte, getBestAction_ok.2 hb, hval, hq]
        exact m.q_congr c.discount fun o ho => (ih _ (hsh _ (hall o ho).2) (hall o ho).1).2 n (by omega)
  have hsol : isSolved g s = true := (Bool.and_eq_true_iff.1 hs).2
  obtain ⟨h1, h2⟩ := key _ s (graph_short (h.acyclic hc) s) hsol
  refine ⟨_, _, h1, getBestValue_ok.2 ?_, h2⟩
  rcases solved_step hok hsol with ⟨-, hv⟩ | ⟨-, a, -, v, -, hv, -⟩ <;> simp [val, hv]

/-- With an admissible heuristic no policy is cheaper: all values that the solver answers are lower
bounds of all cost bounds. -/
theorem C71_optimal (hc : Sane c) {U : σ → Rat} (hU : CostBound m c U) {R : σ → Prop} {g : Graph σ α} (h : Session m c R g) {s : σ} {v : Rat}
    (hv : getBestValue g s = .ok (some v)) : v ≤ U s := by
  rw [getBestValue_ok] at hv
  cases e : g.get? s with
  | none => simp [value, e] at hv
  | some n => exact (h.ok hc hU.bound).low s n v e (by rw [value_eq e] at hv; exact hv)

/-- The value of a solved state is the smallest cost of all: cost bounds that are the cost of some
policy cannot be smaller, and the answered policy attains it. -/
theorem C71_attained (hc : Sane c) {U : σ → Rat} (hU : CostBound m c U) {R : σ → Prop} {g : Graph σ α} (h : Session m c R g) {s : σ}
    (hs : isSolutionDefinedFor g s = true) : ∃ N, ∀ n, N ≤ n → costOf m c.discount (getBestAction g) n s ≤ U s := by
  obtain ⟨N, v, -, hv, hn⟩ := C71_policy hc h hs
  exact ⟨N, fun n hle => by rw [hn n hle]; exact C71_optimal hc hU h hv⟩

/-! ### C72: cycles -/

/-- Told to look for cycles, the solver always ends, with an answer or with the report of a cycle. -/
theorem C72_ends (hc : Sane c) (hd : c.detect = true) {S : List σ} (hS : Sound m S) {g : Graph σ α} (h : Session m c (· ∈ S) g) {s : σ} (hs : s ∈ S)
    (hg : m.goal s = false) {fuel : Nat} (hf : S.length + 2 ≤ fuel) :
    (∃ g', solve m c fuel g s = some (.ok g')) ∨ solve m c fuel g s = some (.error .runtimeError) := by
  rcases solve_fine hS.leave hS.isClosed (.inl hd) hc.arr hc.tips hf (h.ok hc bound_true) (h.acyclic hc) (h.within hc hS) hs hg with h | ⟨-, h⟩
  · exact .inl h
  · exact .inr h

/-- `y` may follow the state `x`, for which the solver knows an action (whether or not that action
leads to `y`). -/
def Explored (m : Mdp σ α) (g : Graph σ α) (x y : σ) : Prop :=
  (∃ a, getBestAction g x = .ok a) ∧ ∃ a ∈ m.actions x, ∃ o ∈ m.outcomes x a, o.2.2 = y

theorem Explored.edge {P : σ → Rat → Prop} {g : Graph σ α} (hok : Ok m c P g) {x y : σ} (h : Explored m g x y) : Edge g x y := by
  obtain ⟨⟨b, hb⟩, a, ha, o, ho, rfl⟩ := h
  rw [getBestAction_ok] at hb
  cases e : g.get? x with
  | none => simp [bestOf, e] at hb
  | some n =>
    rw [bestOf_eq e] at hb
    have h0 : n.acts ≠ [] := fun h0 => by rw [(hok.clean.tip x n e h0).1] at hb; cases hb
    obtain ⟨n', e', hp⟩ := hok.shape.kids x n e a ((((hok.shape.acts x n e).resolve_left h0) a).2 ha) o ho
    exact edge_iff.2 ⟨n', e', hp⟩

/-- Whether or not it looks for cycles: what it explored in calls that ended has no cycle. -/
theorem C72_no_cycle (hc : Sane c) {R : σ → Prop} {g : Graph σ α} (h : Session m c R g) (s : σ) : ¬ TransGen (Explored m g) s s := fun hs =>
  h.acyclic hc s (TransGen.mono (fun _ _ h' => h'.edge (h.ok hc (bound_true (m := m) (c := c)))) _ _ hs)

/-- Whatever is done in `x`, which is no goal, `y` may follow. -/
def Forced (m : Mdp σ α) (x y : σ) : Prop := m.goal x = false ∧ ∀ a ∈ m.actions x, ∃ o ∈ m.outcomes x a, o.2.2 = y

theorem forced_solved {P : σ → Rat → Prop} {g : Graph σ α} (hok : Ok m c P g) {x y : σ} (hx : isSolved g x = true) (h : Forced m x y) :
    Explored m g x y ∧ isSolved g y = true := by
  rcases solved_step hok hx with ⟨hg, -⟩ | ⟨hg, a, ha, v, hb, -, -, hall⟩
  · rw [h.1] at hg; cases hg
  · obtain ⟨o, ho, rfl⟩ := h.2 a ha
    exact ⟨⟨⟨a, getBestAction_ok.2 hb⟩, a, ha, o, ho, rfl⟩, (hall o ho).1⟩

theorem forced_chain {P : σ → Rat → Prop} {g : Graph σ α} (hok : Ok m c P g) {x y : σ} (hx : isSolved g x = true) (h : TransGen (Forced m) x y) :
    TransGen (Explored m g) x y ∧ isSolved g y = true := by
  induction h with
  | single h => exact ⟨.single (forced_solved hok hx h).1, (forced_solved hok hx h).2⟩
  | tail _ h ih => exact ⟨.tail ih.1 (forced_solved hok ih.2 h).1, (forced_solved hok ih.2 h).2⟩

theorem no_answer (hc : Sane c) {R : σ → Prop} {g g' : Graph σ α} (h : Session m c R g) {s : σ} (hR : R s) (hg : m.goal s = false)
    (hcyc : TransGen (Forced m) s s) {fuel : Nat} (hs : solve m c fuel g s = some (.ok g')) : False := by
  have h' : Session m c R g' := .solve fuel h hR hg hs
  exact C72_no_cycle hc h' s (forced_chain (h'.ok hc (bound_true (m := m) (c := c))) (session_solved hc h hg hs) hcyc).1

/-- When every policy may come back to `s`, the solver, not looking for cycles, never ends. -/
theorem C72_hangs (hc : Sane c) (hd : c.detect = false) {S : List σ} (hS : Sound m S) {g : Graph σ α} (h : Session m c (· ∈ S) g) {s : σ}
    (hs : s ∈ S) (hg : m.goal s = false) (hcyc : TransGen (Forced m) s s) (fuel : Nat) : solve m c fuel g s = none := by
  by_contra hne
  rcases solve_noerr hS.leave hS.isClosed hc.arr hc.tips (h.ok hc bound_true) (h.within hc hS) hs hg hne with ⟨g', e⟩ | ⟨hd', -⟩
  · exact no_answer hc h hs hg hcyc e
  · rw [hd] at hd'; cases hd'

/-- When every policy may come back to `s`, the solver, looking for cycles, reports one. -/
theorem C72_reported (hc : Sane c) (hd : c.detect = true) {S : List σ} (hS : Sound m S) {g : Graph σ α} (h : Session m c (· ∈ S) g) {s : σ}
    (hs : s ∈ S) (hg : m.goal s = false) (hcyc : TransGen (Forced m) s s) {fuel : Nat} (hf : S.length + 2 ≤ fuel) :
    solve m c fuel g s = some (.error .runtimeError) := by
  rcases C72_ends hc hd hS h hs hg hf with ⟨g', e⟩ | e
  · exact (no_answer hc h hs hg hcyc e).elim
  · exact e

/-- No false reports when all ways between two states have the same number of steps and one tip is
expanded at a time: looking for cycles changes nothing then. -/
theorem C72_layered_partial (hc : Sane c) (hone : c.maxTips = 1) {L : σ → Nat}
    (hL : ∀ s, m.goal s = false → ∀ a ∈ m.actions s, ∀ o ∈ m.outcomes s a, L o.2.2 = L s + 1) {R : σ → Prop} {g : Graph σ α} (h : Session m c R g)
    {s : σ} (hg : m.goal s = false) (fuel : Nat) : solve m { c with detect := false } fuel g s = solve m c fuel g s :=
  solve_layered (L := L) (fun s hg t ht => by obtain ⟨a, ha, o, ho, rfl⟩ := ht; exact hL s hg a ha o ho) hc.arr hone (h.ok hc bound_true) hg

/-! ### C73: failures -/

/-- When every state can be left, the report of a cycle is the only error. -/
theorem C73_only_error (hc : Sane c) {S : List σ} (hS : Sound m S) {g : Graph σ α} (h : Session m c (· ∈ S) g) {s : σ} (hs : s ∈ S)
    (hg : m.goal s = false) {fuel : Nat} {e : PyErr} (he : solve m c fuel g s = some (.error e)) : c.detect = true ∧ e = .runtimeError := by
  rcases solve_noerr hS.leave hS.isClosed hc.arr hc.tips (h.ok hc bound_true) (h.within hc hS) hs hg (by rw [he]; simp) with ⟨g', e'⟩ | ⟨hd, e'⟩
  · rw [he] at e'; cases e'
  · rw [he] at e'; cases e'; exact ⟨hd, rfl⟩

/-- A state in which nothing can be done, or every action may stay in the state itself, makes the
solver dereference a null pointer, also if it looks for cycles. -/
theorem C73_stuck_crash (hc : Sane c) {s : σ} (hg : m.goal s = false) (hstuck : ∀ a ∈ m.actions s, ∃ o ∈ m.outcomes s a, o.2.2 = s) (n : Nat) :
    solve m c (n + 1) [] s = some (.error .attributeError) := by
  have harr1 : c.arrange [s] = [s] := List.perm_singleton.1 (hc.order [s])
  have htk : taken c (Dict.set [] s ({} : Node σ α)) [s] = [s] := by
    unfold taken
    rw [harr1]
    obtain ⟨k, hk⟩ : ∃ k, c.maxTips = k + 1 := ⟨c.maxTips - 1, by have := hc.tips; omega⟩
    simp [hk, popOrder, enqueue]
  have hget : (Dict.set [] s ({} : Node σ α)).get? s = some {} := Dict.get?_set_self _ _ _
  have hsh0 : Shape m (Dict.set [] s ({} : Node σ α)) := by
    have h := start_spec (Ok.nil (m := m) (c := c) (fun _ _ => True)) hg
    exact h.1
  have hsh := hsh0.expand (c := c) (s := s) (by simp [hget])
  have hu : update m c (expand m c (Dict.set [] s ({} : Node σ α)) s) s = .error .attributeError := by
    generalize hE : expand m c (Dict.set [] s ({} : Node σ α)) s = g1 at hsh
    unfold update
    have hempty : (actsOf (modify g1 s fun n => { n with best := none, value := none }) s).filter (finite m (modify g1 s fun n => { n with best := none, value := none }) s) = [] := by
      rw [List.filter_eq_nil_iff]
      intro a ha hf
      have ham : a ∈ m.actions s := by
        cases e : g1.get? s with
        | none => simp [actsOf, get?_modify, e] at ha
        | some n1 =>
          have ha' : a ∈ n1.acts := by simpa [actsOf, get?_modify, e] using ha
          rcases hsh.acts s n1 e with h0 | h0
          · rw [h0] at ha'; cases ha'
          · exact (h0 a).1 ha'
      obtain ⟨o, ho, hos⟩ := hstuck a ham
      have hv := List.all_eq_true.1 hf o ho
      rw [hos] at hv
      cases e : g1.get? s <;> simp [value, get?_modify, e] at hv
    simp only [hempty]
    rfl
  unfold solve
  have h0 : Dict.contains ([] : Graph σ α) s = false := rfl
  simp only [h0, Bool.false_eq_true, ↓reduceIte, hg, Bool.or_false, isSolved_eq hget]
  rw [loop_succ s (n + 1) n (by simp), htk]
  have hi : insertAll [] [s] = [s] := rfl
  simp only [hi, List.foldl_cons, List.foldl_nil, backprop, harr1, level, hu]
  rfl

/-- The solver never answers for a state from which every policy may come to such a state. -/
theorem C73_stuck_no_answer (hc : Sane c) {R : σ → Prop} {g : Graph σ α} (h : Session m c R g) {s t : σ} (hR : R s) (hg : m.goal s = false)
    (hst : TransGen (Forced m) s t) (hgt : m.goal t = false) (hstuck : ∀ a ∈ m.actions t, ∃ o ∈ m.outcomes t a, o.2.2 = t) (fuel : Nat) (g' : Graph σ α) :
    solve m c fuel g s ≠ some (.ok g') := by
  intro hs
  have h' : Session m c R g' := .solve fuel h hR hg hs
  have hok := h'.ok hc (bound_true (m := m) (c := c))
  have ht := (forced_chain hok (session_solved hc h hg hs) hst).2
  exact C72_no_cycle hc h' t (.single (forced_solved hok ht ⟨hgt, hstuck⟩).1)

/-- A solve from a goal does nothing, except that the goal is stored as a state with infinite value
and without a solution. -/
theorem C73_goal_root {s : σ} (hg : m.goal s = true) (fuel : Nat) :
    ∃ g', solve m c fuel [] s = some (.ok g') ∧ getBestValue g' s = .ok none ∧ isSolutionDefinedFor g' s = false := by
  refine ⟨Dict.set [] s {}, ?_, ?_, ?_⟩
  · have h0 : Dict.contains ([] : Graph σ α) s = false := rfl
    simp [solve, h0, hg]
  · simp [getBestValue, Dict.get?_set_self]
  · simp [isSolutionDefinedFor, bestOf, Dict.get?_set_self]

/-- With no tip to be expanded in a round the solver never ends. -/
theorem C73_no_tips (h0 : c.maxTips = 0) (hord : ∀ l, (c.arrange l).Perm l) {s : σ} (hg : m.goal s = false) (fuel : Nat) : solve m c fuel [] s = none := by
  have hget : (Dict.set [] s ({} : Node σ α)).get? s = some {} := Dict.get?_set_self _ _ _
  have harr1 : c.arrange [s] = [s] := List.perm_singleton.1 (hord [s])
  unfold solve
  have hc0 : Dict.contains ([] : Graph σ α) s = false := rfl
  simp only [hc0, Bool.false_eq_true, ↓reduceIte, hg, Bool.or_false, isSolved_eq hget]
  have key : ∀ k n, loop m c s (k + 1) n [s] (Dict.set [] s ({} : Node σ α)) = none := by
    intro k n
    induction n with
    | zero => rfl
    | succ n ih =>
      rw [loop_succ s (k + 1) n (by simp)]
      have ht : taken c (Dict.set [] s ({} : Node σ α)) [s] = [] := by unfold taken; rw [h0]; rfl
      have hb : ∀ F, backprop m c (k + 1) [] F (Dict.set [] s ({} : Node σ α)) = some (.ok (Dict.set [] s {})) := fun F => rfl
      have htips : tips m c (Dict.set [] s ({} : Node σ α)) (k + 1) [s] [] = some [s] := by
        simp only [tips, harr1, walk, isSolved_eq hget, bestOf_eq hget, Bool.false_eq_true, ↓reduceIte]
        cases k <;> rfl
      rw [ht]
      have hi : insertAll ([] : List σ) [] = [] := rfl
      simp only [List.foldl_nil, hi, hb, htips]
      exact ih
  cases fuel with
  | zero => rfl
  | succ k => exact key k (k + 1)
end

/-! ### Concrete domains -/

/-- Drive (action 0, on either road) or pay 10 and fly (action 1). -/
def trip : Mdp Nat Nat where
  actions s := if s = 0 then [0, 1] else [0]
  outcomes s a := match s, a with
    | 0, 0 => [(1/2, 1, 1), (1/2, 1, 2)]
    | 0, _ => [(1, 10, 3)]
    | 1, _ => [(1, 2, 3)]
    | _, _ => [(1, 4, 3)]
  goal s := s = 3

def plain : Config Nat := { h := fun _ => 0 }

theorem plain_sane : Sane plain := ⟨fun _ => .refl _, Nat.le_refl 1⟩

theorem trip_sound : Sound trip [0, 1, 2, 3] := ⟨by decide +kernel, by decide +kernel⟩

/-- The graph after a call that ended. -/
def after (r : Option (Except PyErr (Graph σ α))) : Graph σ α :=
  match r with
  | some (.ok g) => g
  | _ => []

theorem one_call {m : Mdp Nat Nat} {c : Config Nat} {R : Nat → Prop} {s : Nat} {g : Graph Nat Nat} (fuel : Nat) (hR : R s) (hg : m.goal s = false)
    (h : solve m c fuel [] s = some (.ok g)) : Session m c R g := .solve fuel .start hR hg h

theorem trip_solved : solve trip plain 6 [] 0 = some (.ok (after (solve trip plain 6 [] 0))) := by decide +kernel

/-- The trip is solved: driving is best and costs 4. -/
example : isSolutionDefinedFor (after (solve trip plain 6 [] 0)) 0 = true ∧ getBestAction (after (solve trip plain 6 [] 0)) 0 = .ok 0 ∧
    getBestValue (after (solve trip plain 6 [] 0)) 0 = .ok (some 4) ∧ Session trip plain (· ∈ [0, 1, 2, 3]) (after (solve trip plain 6 [] 0)) :=
  ⟨by decide +kernel, by decide +kernel, by decide +kernel, one_call 6 (by decide) (by decide) trip_solved⟩

example : isSolutionDefinedFor (after (solve trip plain 6 [] 0)) 0 = true :=
  C71_defined plain_sane (R := fun _ => True) .start (by decide) trip_solved

/-- It ends also when it was used before. -/
example : ∃ g', solve trip plain 6 (after (solve trip plain 6 [] 1)) 0 = some (.ok g') :=
  C71_ends plain_sane rfl trip_sound (r := fun s => if s = 3 then 0 else if s = 0 then 2 else 1) (by decide +kernel)
    (one_call 6 (s := 1) (by decide) (by decide) (by decide +kernel)) (by decide) (by decide) (by decide)

/-- Driving never costs more than this. -/
theorem trip_bound : CostBound trip plain (fun s => if s = 3 then 0 else if s = 0 then 12 else 4) where
  prob s a ha o ho := by
    rcases s with _ | _ | s
    · simp only [trip, ↓reduceIte, List.mem_cons, List.not_mem_nil, or_false] at ha
      rcases ha with rfl | rfl <;> simp [trip] at ho <;> (try rcases ho with rfl | rfl) <;> norm_num [*]
    · simp [trip] at ho; subst ho; norm_num
    · simp [trip] at ho; subst ho; norm_num
  discount := by decide +kernel
  goal s hs := by simp [trip] at hs; simp [hs]
  heuristic s hs := by simp only [plain]; split <;> (try split) <;> norm_num
  action s hs := by
    rcases s with _ | _ | s
    · exact ⟨0, by decide, by decide +kernel⟩
    · exact ⟨0, by decide, by decide +kernel⟩
    · refine ⟨0, by simp [trip], ?_⟩
      have h3 : s + 2 ≠ 3 := by simpa [trip] using hs
      simp only [mean, trip, List.map_cons, List.map_nil, plain, if_neg h3]
      norm_num

example : ∃ N, ∀ n, N ≤ n → costOf trip 1 (getBestAction (after (solve trip plain 6 [] 0))) n 0 ≤ 12 := by
  have h := C71_attained plain_sane trip_bound (R := fun _ => True) (s := 0) (one_call 6 trivial (by decide) trip_solved) (by decide +kernel)
  exact h

/-- With a heuristic that is not admissible the policy need not be optimal: flying for 10 seems
better than driving for 4. -/
theorem C71_inadmissible :
    isSolutionDefinedFor (after (solve trip { h := fun _ => 20 } 6 [] 0)) 0 = true ∧
    getBestAction (after (solve trip { h := fun _ => 20 } 6 [] 0)) 0 = .ok 1 ∧
    getBestValue (after (solve trip { h := fun _ => 20 } 6 [] 0)) 0 = .ok (some 10) := by decide +kernel

/-- From 0 to 1; from there back to 0 or to the goal 2. -/
def ring : Mdp Nat Nat where
  actions _ := [0]
  outcomes s _ := if s = 0 then [(1, 1, 1)] else [(1/2, 1, 0), (1/2, 1, 2)]
  goal s := s = 2

theorem ring_sound : Sound ring [0, 1, 2] := ⟨by decide +kernel, by decide +kernel⟩

theorem ring_forced : TransGen (Forced ring) 0 0 :=
  .tail (.single (b := 1) ⟨rfl, by decide +kernel⟩) ⟨rfl, by decide +kernel⟩

/-- The solver hangs on the ring, or reports the cycle. -/
example (fuel : Nat) : solve ring plain fuel [] 0 = none :=
  C72_hangs plain_sane rfl ring_sound .start (by decide) rfl ring_forced fuel

example : solve ring { plain with detect := true } 5 [] 0 = some (.error .runtimeError) :=
  C72_reported ⟨fun _ => .refl _, Nat.le_refl 1⟩ rfl ring_sound .start (by decide) rfl ring_forced (by decide)

/-- The trip without the flight is layered. -/
def drive : Mdp Nat Nat where
  actions _ := [0]
  outcomes s _ := match s with
    | 0 => [(1/2, 1, 1), (1/2, 1, 2)]
    | 1 => [(1, 2, 3)]
    | 2 => [(1, 4, 3)]
    | _ => []
  goal s := s = 3

example : solve drive { plain with detect := false } 6 [] 0 = solve drive { plain with detect := true } 6 [] 0 ∧
    isSolutionDefinedFor (after (solve drive { plain with detect := true } 6 [] 0)) 0 = true := by
  refine ⟨?_, by decide +kernel⟩
  refine C72_layered_partial (c := { plain with detect := true }) (L := fun s => if s = 0 then 0 else if s = 3 then 2 else 1)
    ⟨fun _ => .refl _, Nat.le_refl 1⟩ rfl (fun s hg a ha o ho => ?_) (R := fun _ => True) .start rfl 6
  rcases s with _ | _ | _ | s
  · simp [drive] at ho; rcases ho with rfl | rfl <;> rfl
  · simp [drive] at ho; subst ho; rfl
  · simp [drive] at ho; subst ho; rfl
  · simp [drive] at ho

/-- From 0 to 1 or, in another way, to 3; from 1 to 3; from 3 to the goal 4. -/
def shortcut : Mdp Nat Nat where
  actions s := if s = 0 then [0, 1] else [0]
  outcomes s a := if s = 0 ∧ a = 0 then [(1, 1, 1)] else if s = 0 ∨ s = 1 then [(1, 1, 3)] else [(1, 1, 4)]
  goal s := s = 4

/-- A shortcut is reported as a cycle although every step leads to a larger number; without the
check the domain is solved. -/
theorem C72_false_alarm :
    solve shortcut { plain with h := fun s => if s = 3 then 5 else 0, detect := true } 7 [] 0 = some (.error .runtimeError) ∧
    isSolutionDefinedFor (after (solve shortcut { plain with h := fun s => if s = 3 then 5 else 0 } 7 [] 0)) 0 = true ∧
    ∀ s ∈ [0, 1, 3], ∀ a ∈ shortcut.actions s, ∀ o ∈ shortcut.outcomes s a, s < o.2.2 := by decide +kernel

/-- From 0 to one of 1, 2, 3; from 1 to 4; from 2 and 3 to 5, from 4 to the goal 6, from 5 too. -/
def fan : Mdp Nat Nat where
  actions _ := [0]
  outcomes s _ := match s with
    | 0 => [(1/4, 1, 1), (1/4, 1, 2), (1/2, 1, 3)]
    | 1 => [(1, 1, 4)]
    | 2 => [(1, 1, 5)]
    | 3 => [(1, 1, 5)]
    | _ => [(1, 1, 6)]
  goal s := s = 6

/-- With two tips in a round there are false reports even when all ways have the same length. -/
theorem C72_false_alarm_tips :
    solve fan { plain with maxTips := 2, detect := true } 9 [] 0 = some (.error .runtimeError) ∧
    isSolutionDefinedFor (after (solve fan { plain with detect := true } 9 [] 0)) 0 = true := by decide +kernel

/-- Nothing can be done in state 1, and there is no other way. -/
def pit : Mdp Nat Nat where
  actions s := if s = 0 then [0] else []
  outcomes _ _ := [(1, 1, 1)]
  goal s := s = 2

example : solve pit plain 1 [] 1 = some (.error .attributeError) := C73_stuck_crash plain_sane rfl (by decide +kernel) 0

example (fuel : Nat) (g' : Graph Nat Nat) : solve pit plain fuel [] 0 ≠ some (.ok g') :=
  C73_stuck_no_answer plain_sane (R := fun _ => True) .start trivial rfl (t := 1) (.single ⟨rfl, by decide +kernel⟩) rfl (by decide +kernel) fuel g'

example : ∀ fuel e, solve trip plain fuel [] 0 ≠ some (.error e) := fun fuel e h => by
  have := (C73_only_error plain_sane trip_sound .start (by decide) rfl h).1
  cases this

/-- After a call from the goal, the solver crashes on a state from which that goal is reached. -/
theorem C73_goal_poisoned :
    solve drive plain 6 (after (solve drive plain 6 [] 3)) 1 = some (.error .attributeError) ∧
    isSolutionDefinedFor (after (solve drive plain 6 [] 1)) 1 = true := by decide +kernel

example : getBestValue (after (solve drive plain 6 [] 3)) 3 = .ok none := by decide +kernel

example (fuel : Nat) : solve trip { plain with maxTips := 0 } fuel [] 0 = none := C73_no_tips rfl (fun _ => .refl _) rfl fuel

end Verif.AoStar
