import Verif.Model.Py
import Mathlib.Data.Rat.Floor
/-
Model of `rcpsp/solver/rcpsp_cp_lns_solver.py`: `ConstraintHandlerStartTimeInterval_CP` (18-73), `ConstraintHandlerByPart_CP`
(76-142) and `ConstraintHandlerMix` (166-219).

A schedule maps activities to start and end.  The constraint strings are modelled by what they say about the array `s` (or `start`) of
the program; the two kinds of solver differ in the name of the array only.  `random.sample` is a parameter: any list of keys of the
length asked for (in the versions of Python that accept the keys of a dictionary here).  Floats are exact numbers.  Prints are left out.
-/
namespace Verif.CpNeigh

/-- `rcpsp_schedule`: start and end of each activity. -/
abbrev Sched := Dict Nat (Int × Int)

/-- A constraint string: `constraint s[job] <= v` or `constraint s[job] >= v`. -/
inductive Con where
  | le (job : Nat) (v : Int)
  | ge (job : Nat) (v : Int)
  deriving DecidableEq

/-- The meaning of a constraint for the starts `s`. -/
def Con.Holds (s : Nat → Int) : Con → Prop
  | .le j v => s j ≤ v
  | .ge j v => v ≤ s j

/-- `Params` (152-164), also the arguments of the handlers (19-28). -/
structure Params where
  fraction : Rat
  minus : Int
  plus : Int
  delta : Int

/-- `max_time` (35-36): `max` of an empty list raises. -/
def maxTime (sched : Sched) : Except PyErr Int :=
  match (sched.map (fun p => p.2.2)).max? with
  | some m => .ok m
  | none => .error .valueError

/-- `last_jobs` (37-39). -/
def lastJobs (P : Params) (sched : Sched) (m : Int) : List Nat :=
  (sched.filter (fun p => decide (m - P.delta ≤ p.2.2))).map (·.1)

/-- `random.sample(keys, int(fraction * nb_jobs))` (41-42): raises for more elements than there are; `int` cuts off. -/
def sample (P : Params) (sched : Sched) (nb : Nat) (draw : List Nat) : Except PyErr (List Nat) :=
  if ⌈P.fraction * nb⌉ < 0 ∨ (sched.length : Int) < ⌊P.fraction * nb⌋ then .error .valueError else .ok draw

/-- The two strings for a job (47-60). -/
def window (P : Params) (sched : Sched) (m : Int) (job : Nat) : Except PyErr (List Con) := do
  let se ← sched.get job
  .ok [.le job (min (se.1 + P.plus) m), .ge job (max (se.1 - P.minus) 0)]

/-- The strings for a list of jobs. -/
def windows (P : Params) (sched : Sched) (m : Int) : List Nat → Except PyErr (List Con)
  | [] => .ok []
  | j :: js => do
    let a ← window P sched m j
    let b ← windows P sched m js
    .ok (a ++ b)

/-- The strings for all jobs (61-66), which are not returned. -/
def caps (sched : Sched) (m : Int) : List Con := sched.map (fun p => .le p.1 (m + 50))

/-- `adding_constraint_from_results_store` (30-67): what is returned and what is added to the instance. -/
def interval (P : Params) (sched : Sched) (nb : Nat) (draw : List Nat) : Except PyErr (List Con × List Con) := do
  let m ← maxTime sched
  let d ← sample P sched nb draw
  let ws ← windows P sched m (d.filter (fun j => decide (j ∉ lastJobs P sched m)))
  .ok (ws, ws ++ caps sched m)

/-- `task_of_interest` (99-101). -/
def interest (sched : Sched) (m : Int) (cut sub : Nat) : List Nat :=
  (sched.filter (fun p => decide ((m : Rat) / cut * sub ≤ p.2.1 ∧ (p.2.1 : Rat) ≤ (m : Rat) / cut * (sub + 1)))).map (·.1)

/-- `adding_constraint_from_results_store` of `ConstraintHandlerByPart_CP` (91-136); the last component is the new `current_sub_part`. -/
def byPart (P : Params) (cut sub : Nat) (sched : Sched) (nb : Nat) (draw : List Nat) : Except PyErr (List Con × List Con × Nat) := do
  let m ← maxTime sched
  if cut = 0 then .error .zeroDivisionError else do
    let d ← sample P sched nb draw
    let ws ← windows P sched m ((d.filter (fun j => decide (j ∉ lastJobs P sched m))).filter (fun j => decide (j ∉ interest sched m cut sub)))
    .ok (ws, ws ++ caps sched m, (sub + 1) % cut)

/-- The attributes of `ConstraintHandlerMix`: `list_proba`, `status` (usages and improvements), `current_iteration`, `last_index_param`,
`last_fitness`. -/
structure Mix where
  proba : List Rat
  usage : List Nat
  improved : List Nat
  iteration : Nat
  last : Option Nat
  fit : Option Int

/-- Division by the sum. -/
def normalise (l : List Rat) : List Rat := l.map (· / l.sum)

/-- `__init__` (167-179). -/
def Mix.init (weights : List Rat) : Mix :=
  ⟨normalise weights, List.replicate weights.length 0, List.replicate weights.length 0, 0, none, none⟩

/-- The update by the fitness (184-195); the last index is one of the list. -/
def Mix.learn (s : Mix) (fit : Int) : Mix :=
  match s.last with
  | none => { s with fit := some fit }
  | some i =>
    if some fit ≠ s.fit then
      { s with improved := s.improved.modify i (· + 1), fit := some fit, proba := normalise (s.proba.modify i (· * (21 / 20))) }
    else { s with proba := normalise (s.proba.modify i (· * (19 / 20))) }

/-- The share of improvements (201). -/
def Mix.rate (s : Mix) (i : Nat) : Rat := (s.improved.getD i 0 : Rat) / (max (s.usage.getD i 0) 1 : Nat)

/-- The indices with the greatest share (201-204). -/
def Mix.bestOnes (s : Mix) : List Nat :=
  (List.range s.usage.length).filter (fun i => (List.range s.usage.length).all (fun j => decide (s.rate j ≤ s.rate i)))

/-- The choice (196-204): any index of positive probability, or with `greedy` one of the best. -/
def Mix.choices (s : Mix) (greedy : Bool) : List Nat :=
  if greedy then s.bestOnes else (List.range s.proba.length).filter (fun i => decide (0 < s.proba.getD i 0))

/-- `adding_constraint_from_results_store` of the mix up to the call of the chosen handler (181-215). -/
def Mix.use (s : Mix) (choice : Nat) : Mix :=
  { s with iteration := s.iteration + 1, last := some choice, usage := s.usage.modify choice (· + 1) }

end Verif.CpNeigh
