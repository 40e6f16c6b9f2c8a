import Verif.Model.RcpspMut
/-
C205: mutations of project solutions.
-/
namespace Verif.RcpspMut

variable {P M S V : Type}

/-- C205: a new permutation with objective: the objective returned is that of the schedule generated from the new permutation; that schedule is
stored, its permutation too unless it has none, and evaluating the solution returned gives the same objective. -/
theorem C205_perm (sgs : P → M → S) (order : S → Option P) (obj : M → S → V) (p : P) (s : Sol P M S) :
    let r := mutateObj sgs order obj (.perm p) s
    r.2 = obj s.modes (sgs p s.modes) ∧ r.1.perm = p ∧ r.1.modes = s.modes ∧ r.1.sched = sgs p s.modes ∧
    r.1.std = (order (sgs p s.modes)).getD s.std ∧ (evaluate sgs obj r.1).2 = r.2 := by
  cases ho : order (sgs p s.modes) with
  | none => simp [mutateObj, evaluate, inner, set, copy, ho]
  | some q => simp [mutateObj, evaluate, inner, set, copy, ho]

/-- C205: without objective, evaluating the mutated solution generates the schedule anew: always for a new permutation, and for new modes if the old
schedule has a permutation. -/
theorem C205_mutate (sgs : P → M → S) (order : S → Option P) (obj : M → S → V) (s : Sol P M S) :
    (∀ p, (evaluate sgs obj (mutate order (.perm p) s)).2 = obj s.modes (sgs p s.modes) ∧
      (evaluate sgs obj (mutate order (.perm p) s)).1.sched = sgs p s.modes ∧ (mutate order (.perm p) s).perm = p) ∧
    ∀ m, order s.sched ≠ none → (evaluate sgs obj (mutate order (.modes m) s)).2 = obj m (sgs s.perm m) ∧
      (evaluate sgs obj (mutate order (.modes m) s)).1.sched = sgs s.perm m ∧ (mutate order (.modes m) s).modes = m := by
  constructor
  · intro p
    cases ho : order s.sched with
    | none => simp [mutate, evaluate, inner, set, copy, ho]
    | some q => simp [mutate, evaluate, inner, set, copy, ho]
  · intro m hm
    cases ho : order s.sched with
    | none => exact absurd ho hm
    | some q => simp [mutate, evaluate, inner, set, copy, ho]

/-- C205, in part: new modes with objective: evaluating the solution returned gives the objective of the schedule generated with the new modes.  (The
objective returned along with it is another one.) -/
theorem C205_modes_partial (sgs : P → M → S) (order : S → Option P) (obj : M → S → V) (m : M) (s : Sol P M S) :
    (evaluate sgs obj (mutateObj sgs order obj (.modes m) s).1).2 = obj m (sgs s.perm m) ∧
    (mutateObj sgs order obj (.modes m) s).1.modes = m ∧ (mutateObj sgs order obj (.modes m) s).1.perm = s.perm := by
  cases ho : order s.sched with
  | none => simp [mutateObj, evaluate, inner, set, copy, ho]
  | some q => simp [mutateObj, evaluate, inner, set, copy, ho]

/-- C205, refuted: the objective returned with new modes is that of the old schedule; it is wrong whenever the objective of the schedule with the new
modes is another one. -/
theorem C205_modes_refuted (sgs : P → M → S) (order : S → Option P) (obj : M → S → V) (m : M) (s : Sol P M S)
    (h : obj m (sgs s.perm m) ≠ obj m s.sched) :
    (mutateObj sgs order obj (.modes m) s).2 ≠ (evaluate sgs obj (mutateObj sgs order obj (.modes m) s).1).2 ∧
    (mutateObj sgs order obj (.modes m) s).2 = obj m s.sched := by
  have h1 : (mutateObj sgs order obj (.modes m) s).2 = obj m s.sched := by
    cases ho : order s.sched with
    | none => simp [mutateObj, evaluate, inner, set, copy, ho]
    | some q => simp [mutateObj, evaluate, inner, set, copy, ho]
  refine ⟨?_, h1⟩
  rw [h1, (C205_modes_partial sgs order obj m s).1]
  exact h.symm

/-- C205, refuted: without objective, the permutation stored for the schedule is that of the old one. -/
theorem C205_std_refuted (sgs : P → M → S) (order : S → Option P) (obj : M → S → V) (p q q' : P) (s : Sol P M S) (ho : order s.sched = some q)
    (hn : order (sgs p s.modes) = some q') (h : q ≠ q') :
    order (evaluate sgs obj (mutate order (.perm p) s)).1.sched ≠ some (evaluate sgs obj (mutate order (.perm p) s)).1.std := by
  simp [mutate, evaluate, inner, set, copy, ho, hn]
  exact fun e => h e.symm

/-- C205, refuted: if the old schedule has no permutation, as one given by the caller without the first activity, the error is swallowed and new
modes are not used: the solution stays with the old schedule. -/
theorem C205_stuck_refuted (sgs : P → M → S) (order : S → Option P) (obj : M → S → V) (m : M) (s : Sol P M S) (ho : order s.sched = none) :
    (evaluate sgs obj (mutate order (.modes m) s)).1.sched = s.sched ∧ (evaluate sgs obj (mutate order (.modes m) s)).2 = obj m s.sched := by
  simp [mutate, evaluate, inner, set, copy, ho]

/-- C205, refuted: a copy of a mutated solution is evaluated with the schedule from before the mutation. -/
theorem C205_copy_refuted (sgs : P → M → S) (order : S → Option P) (obj : M → S → V) (p : P) (s : Sol P M S) :
    (evaluate sgs obj (copy (mutate order (.perm p) s))).2 = obj s.modes s.sched ∧ (copy (mutate order (.perm p) s)).perm = p := by
  cases ho : order s.sched with
  | none => simp [mutate, evaluate, inner, set, copy, ho]
  | some q => simp [mutate, evaluate, inner, set, copy, ho]

/-- A small project: activities one after the other, each taking its mode's time; the schedule lists activities with starts, and has no permutation
if it is empty. -/
def toySgs (perm modes : List Nat) : List (Nat × Nat) :=
  (perm.foldl (fun (a : List (Nat × Nat) × Nat) i => (a.1 ++ [(i, a.2)], a.2 + modes.getD i 0)) ([], 0)).1
def toyOrder (l : List (Nat × Nat)) : Option (List Nat) := if l = [] then none else some (l.map Prod.fst)
def toyObj (_ : List Nat) (l : List (Nat × Nat)) : Nat := (l.map Prod.snd).foldl max 0
def toy : Sol (List Nat) (List Nat) (List (Nat × Nat)) := ⟨[0, 1], [2, 5], [(0, 0), (1, 2)], [0, 1], false⟩
def toyBad : Sol (List Nat) (List Nat) (List (Nat × Nat)) := ⟨[0, 1], [6, 5], [], [0, 1], false⟩

example : mutateObj toySgs toyOrder toyObj (.perm [1, 0]) toy = (⟨[1, 0], [2, 5], [(1, 0), (0, 5)], [1, 0], true⟩, 5) := by decide +kernel
example : toyObj [3, 5] (toySgs toy.perm [3, 5]) ≠ toyObj [3, 5] toy.sched ∧ (mutateObj toySgs toyOrder toyObj (.modes [3, 5]) toy).2 = 2 ∧
    (evaluate toySgs toyObj (mutateObj toySgs toyOrder toyObj (.modes [3, 5]) toy).1).2 = 3 := by decide +kernel
example : toyOrder toy.sched = some [0, 1] ∧ toyOrder (toySgs [1, 0] toy.modes) = some [1, 0] ∧ (mutate toyOrder (.perm [1, 0]) toy).std = [0, 1] := by
  decide +kernel
example : toyOrder toyBad.sched = none ∧ toySgs toyBad.perm [3, 5] = [(0, 0), (1, 3)] ∧
    (evaluate toySgs toyObj (mutate toyOrder (.modes [3, 5]) toyBad)).1.sched = [] := by decide +kernel
example : (evaluate toySgs toyObj (mutate toyOrder (.perm [1, 0]) toy)).2 = 5 ∧ (evaluate toySgs toyObj (copy (mutate toyOrder (.perm [1, 0]) toy))).2 = 2 := by
  decide +kernel

end Verif.RcpspMut
