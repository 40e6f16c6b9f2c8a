import Verif.Lemmas.HindsightMore
import Mathlib.Tactic.Linarith
import Mathlib.Data.List.Dedup
import Mathlib.Algebra.Order.BigOperators.Group.List

/-!
C157-C158: what the hindsight planner answers.
-/
namespace Verif.Hindsight
variable {κ σ α : Type} [DecidableEq κ] [DecidableEq σ] [DecidableEq α]

/-- The weighted cost of an action over the scenarios, in terms of the planners only: a scenario whose plan starts with the action
counts its plan, another one the step and the plan from the next state. -/
def weighted (P : Scenarios κ σ α) (s : σ) (a : α) : Rat :=
  (P.keys.map fun k => (if P.act k s = a then P.solve k s
    else P.cost k s a (P.next k s a) + P.solve k (P.next k s a)) * P.weight k).sum

/-- The first action of some plan, with the least weighted cost among the first actions of all plans. -/
def Good (P : Scenarios κ σ α) (s : σ) (a : α) : Prop :=
  (∃ k ∈ P.keys, P.act k s = a) ∧ ∀ k ∈ P.keys, weighted P s a ≤ weighted P s (P.act k s)

/-- An iteration order of sets. -/
def SetOrder (order : List α → List α) : Prop := ∀ l, (order l).Nodup ∧ ∀ x, x ∈ order l ↔ x ∈ l

/-- C157: kept plans.  When states carry their depth and the actions at a state lead to different states in each scenario, all calls
along increasing depth answer with a first action of least weighted cost. -/
theorem C157_exact_partial (P : Scenarios κ σ α) (hk : P.keys.Nodup) (hne : P.keys ≠ []) (order : List α → List α)
    (ho : SetOrder order) (depth : σ → Nat) (hd : ∀ k s a, depth (P.next k s a) = depth s + 1)
    (hi : ∀ k s a b, P.next k s a = P.next k s b → a = b) (ss : List σ) (hs : ss.Pairwise fun s t => depth s < depth t) :
    ∃ as st, calls P true order ss fresh = .ok (as, st) ∧ List.Forall₂ (Good P) ss as := by
  suffices H : ∀ (ss : List σ) (st : St κ σ α), ss.Pairwise (fun s t => depth s < depth t) → Inv P st →
      (∀ t k, k ∈ st.planned t → k ∈ P.keys) → (∀ s ∈ ss, ∀ t k, k ∈ st.planned t → depth t ≤ depth s) →
      ∃ as st', calls P true order ss st = .ok (as, st') ∧ List.Forall₂ (Good P) ss as by
    exact H ss fresh hs (inv_fresh P) (by intro t k h; cases h) (by intro s _ t k h; cases h)
  intro ss
  induction ss with
  | nil => intro st _ _ _ _; exact ⟨[], st, rfl, .nil⟩
  | cons s ss ih =>
    intro st hp I hsub hb
    rw [List.pairwise_cons] at hp
    obtain ⟨a, st1, e1, g1, I1, s1, n1⟩ := give_exact hk hne ho (s := s) (fun k a b => hi k s a b)
      (fun k a e => by have := hd k s a; rw [e] at this; omega) I hsub
      (fun k a h => by have := hb s (List.mem_cons_self ..) _ _ h; have := hd k s a; omega)
    obtain ⟨as, st2, e2, g2⟩ := ih st1 hp.2 I1 s1 (by
      intro t ht u k hu
      have h1 := hp.1 t ht
      rcases n1 u k hu with e | ⟨b, e⟩ | e
      · subst e; omega
      · subst e; have := hd k s b; omega
      · have := hb s (List.mem_cons_self ..) u k e; omega)
    exact ⟨a :: as, st2, by simp only [calls, e1, e2], .cons g1 g2⟩

/-- C157: in all runs, with kept plans or not, every call answers, with the first action of the plan of some scenario. -/
theorem C157_answers (P : Scenarios κ σ α) (hne : P.keys ≠ []) (reuse : Bool) (order : List α → List α) (ho : SetOrder order)
    (ss : List σ) :
    ∃ as st, calls P reuse order ss fresh = .ok (as, st) ∧ List.Forall₂ (fun s a => ∃ k ∈ P.keys, P.act k s = a) ss as := by
  suffices H : ∀ (ss : List σ) (st : St κ σ α), Weak P st →
      ∃ as st', calls P reuse order ss st = .ok (as, st') ∧ List.Forall₂ (fun s a => ∃ k ∈ P.keys, P.act k s = a) ss as from
    H ss fresh (weak_fresh P)
  intro ss
  induction ss with
  | nil => intro st _; exact ⟨[], st, rfl, .nil⟩
  | cons s ss ih =>
    intro st I
    obtain ⟨a, st1, e1, I1, g1⟩ := weak_give hne reuse (fun l x => ((ho l).2 x).1) (s := s) I
    obtain ⟨as, st2, e2, g2⟩ := ih st1 I1
    exact ⟨a :: as, st2, by simp only [calls, e1, e2], .cons g1 g2⟩

/-- C157: without scenarios the call raises ValueError. -/
theorem C157_no_scenarios (P : Scenarios κ σ α) (hne : P.keys = []) (reuse : Bool) (order : List α → List α) (ho : SetOrder order)
    (s : σ) : (give P reuse order s fresh).map (·.1) = .error .valueError := by
  have h1 : order [] = [] := by
    rw [List.eq_nil_iff_forall_not_mem]
    intro x hx
    exact absurd (((ho []).2 x).1 hx) (by simp)
  cases reuse <;> simp [give, secondPass, toDo, firstPass, missing, hne, fresh, foldE, least, h1, Except.map]

/-- C157: unanimous scenarios are followed, in all runs. -/
theorem C157_unanimous (P : Scenarios κ σ α) (hne : P.keys ≠ []) (reuse : Bool) (order : List α → List α) (ho : SetOrder order)
    (f : σ → α) (ss : List σ) (hf : ∀ s ∈ ss, ∀ k ∈ P.keys, P.act k s = f s) :
    ∃ st, calls P reuse order ss fresh = .ok (ss.map f, st) := by
  obtain ⟨as, st, e, g⟩ := C157_answers P hne reuse order ho ss
  refine ⟨st, ?_⟩
  rw [e]
  congr 2
  clear e
  induction g with
  | nil => rfl
  | cons h _ ih =>
    obtain ⟨k, hk, rfl⟩ := h
    rw [List.map_cons, ← hf _ (List.mem_cons_self ..) k hk, ih fun s hs => hf s (List.mem_cons_of_mem _ hs)]

/-- C157: with kept plans, asking again at once gives the same answer and changes nothing, in all runs. -/
theorem C157_again (P : Scenarios κ σ α) (hne : P.keys ≠ []) (order : List α → List α) (ho : SetOrder order) (ss : List σ) (s : σ) :
    ∃ as st a st', calls P true order ss fresh = .ok (as, st) ∧ give P true order s st = .ok (a, st') ∧
      give P true order s st' = .ok (a, st') := by
  suffices H : ∀ (ss : List σ) (st : St κ σ α), Weak P st →
      ∃ as st' a st'', calls P true order ss st = .ok (as, st') ∧ give P true order s st' = .ok (a, st'') ∧
      give P true order s st'' = .ok (a, st'') from H ss fresh (weak_fresh P)
  intro ss
  induction ss with
  | nil =>
    intro st I
    obtain ⟨a, st1, e1, I1, g1⟩ := weak_give hne true (fun l x => ((ho l).2 x).1) (s := s) I
    exact ⟨[], st, a, st1, rfl, e1, weak_again (fun l x => (ho l).2 x) I e1⟩
  | cons s0 ss ih =>
    intro st I
    obtain ⟨a, st1, e1, I1, g1⟩ := weak_give hne true (fun l x => ((ho l).2 x).1) (s := s0) I
    obtain ⟨as, st2, b, st3, e2, e3, e4⟩ := ih st1 I1
    exact ⟨a :: as, st2, b, st3, by simp only [calls, e1, e2], e3, e4⟩

/-- C157: optimal planners give a bound: the weighted cost of the plans is at most that of any action. -/
theorem C157_bound (P : Scenarios κ σ α) (hw : ∀ k ∈ P.keys, 0 ≤ P.weight k)
    (hopt : ∀ k ∈ P.keys, ∀ s a, P.solve k s ≤ P.cost k s a (P.next k s a) + P.solve k (P.next k s a)) (s : σ) (a : α) :
    (P.keys.map fun k => P.solve k s * P.weight k).sum ≤ weighted P s a := by
  apply List.sum_le_sum
  intro k hk
  apply mul_le_mul_of_nonneg_right _ (hw k hk)
  split
  · exact le_refl _
  · exact hopt k hk s a

/-- C158: plans thrown away.  The first call at each state answers with a first action of least weighted cost, for all domains. -/
theorem C158_first_partial (P : Scenarios κ σ α) (hne : P.keys ≠ []) (order : List α → List α) (ho : SetOrder order) (ss : List σ)
    (hs : ss.Nodup) : ∃ as st, calls P false order ss fresh = .ok (as, st) ∧ List.Forall₂ (Good P) ss as := by
  suffices H : ∀ (ss : List σ) (st : St κ σ α), ss.Nodup → Weak P st → (∀ s ∈ ss, Unseen P st s) →
      ∃ as st', calls P false order ss st = .ok (as, st') ∧ List.Forall₂ (Good P) ss as by
    exact H ss fresh hs (weak_fresh P) (by intro s _; exact ⟨rfl, rfl, by intro b k h; simp [fresh] at h⟩)
  intro ss
  induction ss with
  | nil => intro st _ _ _; exact ⟨[], st, rfl, .nil⟩
  | cons s ss ih =>
    intro st hn I hu
    rw [List.nodup_cons] at hn
    obtain ⟨a, st1, e1, g1, I1, u1⟩ := give_false hne ho I (hu s (List.mem_cons_self ..))
    obtain ⟨as, st2, e2, g2⟩ := ih st1 hn.2 I1 (by
      intro t ht
      exact u1 t (fun e => hn.1 (e ▸ ht)) (hu t (List.mem_cons_of_mem _ ht)))
    exact ⟨a :: as, st2, by simp only [calls, e1, e2], .cons g1 g2⟩

/-! ### examples -/

theorem dedup_order : SetOrder (List.dedup (α := α)) := fun l => ⟨List.nodup_dedup l, fun _ => List.mem_dedup⟩

/-- Two scenarios whose states are histories: action 1 is wrong in scenario 0, action 0 in scenario 1, and scenario 1 weighs more. -/
def exHist : Scenarios Nat (List Nat) Nat where
  keys := [0, 1]
  weight k := if k = 0 then 1 / 3 else 2 / 3
  solve _ s := 10 - s.length
  act k s := if s.length = 3 then 7 else k
  next _ s a := s ++ [a]
  cost k _ a _ := if a = k ∨ a = 7 then 1 else 4

example : ((calls exHist true List.dedup [[], [1], [1, 1, 0]] fresh).map (·.1)) = .ok [1, 1, 7] := by decide +kernel

example : ∃ as st, calls exHist true List.dedup [[], [1], [1, 1, 0]] fresh = .ok (as, st) ∧
    List.Forall₂ (Good exHist) [[], [1], [1, 1, 0]] as :=
  C157_exact_partial exHist (by decide) (by decide) List.dedup dedup_order List.length (by intro k s a; simp [exHist])
    (by intro k s a b h; simpa [exHist] using h) _ (by decide)

example : ∃ as st, calls exHist false List.dedup [[], [0], [1]] fresh = .ok (as, st) ∧
    List.Forall₂ (Good exHist) [[], [0], [1]] as :=
  C158_first_partial exHist (by decide) List.dedup dedup_order _ (by decide)

/-- The weighted costs behind the first answer. -/
example : weighted exHist [] 0 = 12 ∧ weighted exHist [] 1 = 11 := ⟨by decide +kernel, by decide +kernel⟩

/-- Unanimous at length 3, not before. -/
example : ∃ st, calls exHist true List.dedup [[0, 1, 0], [1, 1, 1]] fresh = .ok ([7, 7], st) := by
  obtain ⟨st, h⟩ := C157_unanimous exHist (by decide) true List.dedup dedup_order (fun _ => 7) [[0, 1, 0], [1, 1, 1]] (by decide)
  exact ⟨st, h⟩

example : (give ({ exHist with keys := [] } : Scenarios Nat (List Nat) Nat) true List.dedup [] fresh).map (·.1) = .error .valueError :=
  C157_no_scenarios _ rfl true _ dedup_order _

example : ((calls exHist true List.dedup [[], [], [0]] fresh).map (·.1)) = .ok [1, 1, 1] := by decide +kernel

example : (exHist.keys.map fun k => exHist.solve k [] * exHist.weight k).sum ≤ weighted exHist [] 5 :=
  C157_bound exHist (by decide +kernel) (by
    intro k _ s a
    have h : exHist.cost k s a (exHist.next k s a) ≥ 1 := by
      show (if a = k ∨ a = 7 then (1 : Rat) else 4) ≥ 1
      split
      · exact le_refl _
      · decide +kernel
    have h2 : exHist.solve k (exHist.next k s a) = exHist.solve k s - 1 := by
      show (10 : Rat) - ((s ++ [a]).length : Nat) = 10 - (s.length : Nat) - 1
      rw [List.length_append]
      push_cast
      simp
      ring
    rw [h2]
    linarith) [] 5

/-! ### where the claims fail -/

/-- Two scenarios, states 0 to 2.  In scenario 1 action 0 is blocked: it costs 1 and stays at state 0. -/
def exLoop : Scenarios Nat Nat Nat where
  keys := [0, 1]
  weight _ := 1
  solve k s := if s = 0 then (if k = 0 then 5 else 10) else (if k = 0 then 4 else 9)
  act k _ := k
  next k s a := if k = 1 ∧ a = 0 then s else a + 1
  cost _ _ _ _ := 1

/-- C157: an action that leaves the state unchanged in one scenario makes the plan of that scenario count twice, with optimal planners
in both scenarios and at the very first call: the answer costs 16, the other action 15. -/
theorem C157_loop_refuted :
    ¬ ∀ (P : Scenarios Nat Nat Nat) (s : Nat), P.keys.Nodup → P.keys ≠ [] →
      (∀ k ∈ P.keys, P.solve k s = P.cost k s (P.act k s) (P.next k s (P.act k s)) + P.solve k (P.next k s (P.act k s))) →
      ∀ a, (give P true List.dedup s fresh).map (·.1) = .ok a → Good P s a := by
  intro h
  have := (h exLoop 0 (by decide) (by decide) (by decide +kernel) 0 (by decide +kernel)).2 1 (by decide)
  revert this
  decide +kernel

/-- Three scenarios; in scenario 2 actions 0 and 1 lead from state 0 to the same state 1.  The states have depths 0, 1 and 2. -/
def exShare : Scenarios Nat Nat Nat where
  keys := [0, 1, 2]
  weight _ := 1
  solve k s := if s = 1 then (if k = 2 then 10 else 1) else 0
  act k s := if s = 0 then k else if k = 2 then 1 else 0
  next k s a := if s = 0 then (if k = 2 then 1 else 2 + a) else 10 + a
  cost k s a _ := if s = 1 then (if k = 2 then (if a = 1 then 10 else 15) else if a = 0 then 1 else 2) else 1

/-- C157: two actions that lead to the same state in one scenario make the plan from there count twice at the next call. -/
theorem C157_shared_refuted :
    ¬ ∀ (P : Scenarios Nat Nat Nat) (depth : Nat → Nat), P.keys.Nodup → P.keys ≠ [] →
      (∀ k ∈ P.keys, ∀ a, depth (P.next k 0 a) = depth 0 + 1) →
      ∀ as, (calls P true List.dedup [0, 1] fresh).map (·.1) = .ok as → List.Forall₂ (Good P) [0, 1] as := by
  intro h
  have h1 := h exShare (fun s => if s = 0 then 0 else 1) (by decide) (by decide) (by
    intro k _ a
    simp only [exShare, if_true]
    split <;> simp) [2, 0] (by decide +kernel)
  cases h1 with
  | cons _ h2 =>
    cases h2 with
    | cons h3 _ =>
      have := h3.2 2 (by decide)
      revert this
      decide +kernel

/-- Two scenarios with plans of cost 10 and 1. -/
def exAgain : Scenarios Nat Nat Nat where
  keys := [0, 1]
  weight _ := 1
  solve k s := if s = 0 then (if k = 0 then 10 else 1) else 0
  act k _ := k
  next _ _ a := a + 1
  cost k _ a _ := if k = 0 then (if a = 0 then 10 else 12) else (if a = 1 then 1 else 2)

/-- C158: when plans are thrown away, asking again at the same state adds the plans to the old values and changes the answer. -/
theorem C158_again_refuted :
    ¬ ∀ (P : Scenarios Nat Nat Nat) (s : Nat), P.keys.Nodup → P.keys ≠ [] →
      ∀ a b, (calls P false List.dedup [s, s] fresh).map (·.1) = .ok [a, b] → a = b := by
  intro h
  have := h exAgain 0 (by decide) (by decide) 0 1 (by decide +kernel)
  revert this
  decide

/-- Each scenario has its own good action; action 2 costs 1 in both. -/
def exMiddle : Scenarios Nat Nat Nat where
  keys := [0, 1]
  weight _ := 1
  solve _ _ := 0
  act k _ := k
  next _ _ a := a + 1
  cost k _ a _ := if a = k then 0 else if a = 2 then 1 else 10

/-- C158: an action that starts no plan is not considered, even when its weighted cost is the least of all. -/
theorem C158_middle_refuted :
    ¬ ∀ (P : Scenarios Nat Nat Nat) (reuse : Bool) (s : Nat), P.keys.Nodup → P.keys ≠ [] →
      ∀ a, (give P reuse List.dedup s fresh).map (·.1) = .ok a → ∀ b, weighted P s a ≤ weighted P s b := by
  intro h
  have := h exMiddle false 0 (by decide) (by decide) 0 (by decide +kernel) 2
  revert this
  decide +kernel

end Verif.Hindsight
