import Verif.Model.Results
/-
Model of the large neighbourhood searches of `skdecide/builders/discrete_optimization/generic_tools`:
`lns_mip.py` (`LNS_MILP.solve_lns`) and `lns_cp.py` (`LNS_CP.solve_lns`).

The solver, the constraint handler, the initial solution, the post-processing and the clock are parameters.  A constraint
object is a number that no other one has, with what it says.  Simplifications: fitnesses are integers; the handler of the
mixed integer search returns all the constraints it added, in a dictionary with one entry; printing and `best_solution` of
`LNS_MILP`, which nothing reads, are left out.  What the loops return is the store; the model also returns the history
(the constraints present at every solve, the results) and the constraints present at the end, so that theorems can speak
of them.
-/
namespace Verif.Lns
open Verif.Results

/-- `best_objective`: a fitness, `float('inf')` or `-float('inf')`. -/
inductive Obj where
  | fin (x : Int)
  | posInf
  | negInf
  deriving DecidableEq

/-- `fit > best_objective`. -/
def Obj.below (fit : Int) : Obj → Bool
  | .fin x => decide (x < fit)
  | .posInf => false
  | .negInf => true

/-- `fit < best_objective`. -/
def Obj.above (fit : Int) : Obj → Bool
  | .fin x => decide (fit < x)
  | .posInf => true
  | .negInf => false

/-- `fit == best_objective`, the rest of `<=` and `>=`. -/
def Obj.is (fit : Int) : Obj → Bool
  | .fin x => decide (fit = x)
  | .posInf => false
  | .negInf => false

/-- A strict improvement in the direction of the search. -/
def Obj.improved (maximize : Bool) (fit : Int) (best : Obj) : Bool :=
  if maximize then best.below fit else best.above fit

/-- A constraint object. -/
abbrev Con (κ : Type) := Nat × κ

/-- The parts of `LNS_MILP`. -/
structure Milp (σ κ : Type) where
  /-- `params_objective_function.sense_function == MAXIMIZATION` -/
  maximize : Bool
  /-- `initial_solution_provider.get_starting_solution()` -/
  initial : Except PyErr (Store σ)
  /-- The `i`-th `milp_solver.solve(...)`, with the constraints added to the program. -/
  solve : Nat → List κ → Except PyErr (Store σ)
  /-- `post_process_solution.build_other_solution` -/
  post : Store σ → Except PyErr (Store σ)
  /-- The `i`-th `adding_constraint_from_results_store`: the constraints added. -/
  add : Nat → Store σ → Except PyErr (List κ)
  /-- The key of the dictionary that the handler returns. -/
  key : String
  /-- What `remove_constraints_from_previous_iteration` reads of the dictionary. -/
  toRemove : Dict String (List (Con κ)) → Except PyErr (List (Con κ))
  /-- `time.time() - deb_time > max_time_seconds` at the end of iteration `i`. -/
  late : Nat → Bool

/-- `previous_constraints[key]`, as the handlers for projects do (`rcpsp/solver/rcpsp_lp_lns_solver.py` 136, 192, 251,
`rcpsp_multiskill/solvers/ms_rcpsp_lp_lns_solver.py`). -/
def byKey (key : String) (d : Dict String (List (Con κ))) : Except PyErr (List (Con κ)) := d.get key

/-- `previous_constraints.get(key, [])` (`rcpsp/solver/rcpsp_lp_lns_solver.py` 312). -/
def byKeyOr (key : String) (d : Dict String (List (Con κ))) : Except PyErr (List (Con κ)) := .ok ((d.get? key).getD [])

/-- The variables of the loop, with the history. -/
structure State (σ κ : Type) where
  store : Option (Store σ)
  best : Obj
  noImp : Nat
  /-- the constraints added to the program of the solver -/
  active : List (Con κ)
  /-- the number of the next constraint object -/
  next : Nat
  /-- `constraint_iterable` -/
  prev : Dict String (List (Con κ))
  /-- the constraints at every solve -/
  seen : List (List κ)
  /-- `result_store` of every iteration -/
  results : List (Store σ)

/-- The store; a method of `None` raises `AttributeError`. -/
def present : Option (Store σ) → Except PyErr (Store σ)
  | none => .error .attributeError
  | some st => .ok st

/-- Adding constraints: new objects. -/
def fresh (next : Nat) : List κ → List (Con κ)
  | [] => []
  | x :: xs => (next, x) :: fresh (next + 1) xs

/-- `model.remove(...)`. -/
def drop (active gone : List (Con κ)) : List (Con κ) :=
  active.filter (fun c => !(gone.map Prod.fst).contains c.1)

/-- Lines 104-117: the new `best_objective` and the counter.  An iteration that is worse is not counted. -/
def countMilp (maximize : Bool) (fit : Int) (best : Obj) (noImp : Nat) : Obj × Nat :=
  if best.improved maximize fit then (.fin fit, 0)
  else if best.is fit then (.fin fit, noImp + 1)
  else (best, noImp)

/-- Lines 81-93. -/
def start (L : Milp σ κ) (skip : Bool) : Except PyErr (State σ κ) :=
  if skip then .ok ⟨none, .posInf, 0, [], 0, [("empty", [])], [], []⟩
  else do
    let st ← L.initial
    let b ← st.getBestFit
    let rows ← L.add 0 st
    .ok ⟨some st, .fin b.2, 0, fresh 0 rows, rows.length, [(L.key, fresh 0 rows)], [], []⟩

/-- One iteration (95-129). -/
def step [DecidableEq σ] (L : Milp σ κ) (skip : Bool) (i : Nat) (s : State σ κ) : Except PyErr (State σ κ) := do
  let r0 ← L.solve i (s.active.map Prod.snd)
  let _ ← r0.getBestFit
  let r ← L.post r0
  let b ← r.getBestFit
  let c := countMilp L.maximize b.2 s.best s.noImp
  let old ← present (if skip && i == 0 then some r else s.store)
  let store ← old.addAll r.sols
  let r' := if skip && i == 0 then store else r
  let gone ← L.toRemove s.prev
  let rows ← L.add (i + 1) r'
  .ok ⟨some store, c.1, c.2, drop s.active gone ++ fresh s.next rows, s.next + rows.length, [(L.key, fresh s.next rows)],
    s.seen ++ [s.active.map Prod.snd], s.results ++ [r']⟩

/-- The loop (94-135): `k` iterations remain, the next one has number `i`. -/
def loop [DecidableEq σ] (L : Milp σ κ) (skip : Bool) (patience : Nat) : Nat → Nat → State σ κ → Except PyErr (State σ κ)
  | 0, _, s => .ok s
  | k + 1, i, s => do
    let s' ← step L skip i s
    if L.late i then .ok s'
    else if s'.noImp > patience then .ok s'
    else loop L skip patience k (i + 1) s'

/-- `LNS_MILP.solve_lns` (67-136); `patience` is `nb_iteration_no_improvement`. -/
def solveMilp [DecidableEq σ] (L : Milp σ κ) (nb : Nat) (patience : Option Nat) (skip : Bool) : Except PyErr (State σ κ) := do
  let s ← start L skip
  loop L skip (patience.getD (2 * nb)) nb 0 s

/-- The parts of `LNS_CP`. -/
structure Cp (σ κ : Type) where
  maximize : Bool
  initial : Except PyErr (Store σ)
  /-- The `i`-th `child.solve` with `retrieve_solutions`, with the constraints of the child. -/
  solve : Nat → List κ → Except PyErr (Store σ)
  post : Store σ → Except PyErr (Store σ)
  /-- The handler of iteration `i`.  The handlers of the repository read the store at once, so `None` raises
  `AttributeError`. -/
  add : Nat → Store σ → Except PyErr (List κ)
  /-- `problem.satisfy`: the result is only printed, but it may raise. -/
  satisfy : σ → Except PyErr Bool
  late : Nat → Bool

/-- The variables of the loop, with the history: the results of the iterations (nothing for an iteration that failed). -/
structure CpState (σ κ : Type) where
  store : Option (Store σ)
  best : Obj
  bestSol : Option σ
  noImp : Nat
  seen : List (List κ)
  results : List (Option (Store σ))

/-- Lines 65-77. -/
def startCp (L : Cp σ κ) (skip : Bool) : Except PyErr (CpState σ κ) :=
  if skip then .ok ⟨none, if L.maximize then .negInf else .posInf, none, 0, [], []⟩
  else do
    let st ← L.initial
    let b ← st.getBestFit
    let _ ← L.satisfy b.1
    .ok ⟨some st, .fin b.2, some b.1, 0, [], []⟩

/-- Lines 105-122: the new `best_objective`, whether the solution becomes the best one, and the counter. -/
def countCp (maximize : Bool) (fit : Int) (best : Obj) (noImp : Nat) : Obj × Bool × Nat :=
  if best.improved maximize fit then (.fin fit, true, 0)
  else if best.is fit then (.fin fit, true, noImp + 1)
  else (best, false, noImp + 1)

/-- Lines 82-86: the constraints of the child. -/
def childRows (L : Cp σ κ) (skip : Bool) (i : Nat) (store : Option (Store σ)) : Except PyErr (List κ) :=
  if (i == 0 && !skip) || decide (1 ≤ i) then do
    let st ← present store
    L.add i st
  else .ok []

/-- The body of the `try` (87-129) up to the counter, for a non-empty result: the state, and whether the last `print` raises. -/
def tryBody [DecidableEq σ] (L : Cp σ κ) (skip : Bool) (i : Nat) (s : CpState σ κ) (r0 : Store σ) :
    Except PyErr (CpState σ κ × Bool) := do
  let _ ← r0.getBestFit
  let r ← L.post r0
  let b ← r.getBestFit
  let c := countCp L.maximize b.2 s.best s.noImp
  let bestSol := if c.2.1 then some b.1 else s.bestSol
  let old ← present (if skip && i == 0 then some r else s.store)
  let store ← old.addAll r.sols
  let fine := match bestSol with
    | none => false
    | some x => (L.satisfy x).toBool
  .ok (⟨some store, c.1, bestSol, c.2.2, s.seen, s.results ++ [some (if skip && i == 0 then store else r)]⟩, fine)

/-- One iteration (81-132).  An exception in the `try` counts as an iteration without improvement.  Simplification: an
exception of the post-processing or of `add_solution` leaves the other variables as they were. -/
def stepCp [DecidableEq σ] (L : Cp σ κ) (skip : Bool) (i : Nat) (s : CpState σ κ) : Except PyErr (CpState σ κ) := do
  let rows ← childRows L skip i s.store
  let s1 : CpState σ κ := { s with seen := s.seen ++ [rows] }
  match L.solve i rows with
  | .error _ => .ok { s1 with noImp := s.noImp + 1, results := s.results ++ [none] }
  | .ok r0 =>
    if r0.sols = [] then .ok { s1 with noImp := s.noImp + 1, results := s.results ++ [none] }
    else
      match tryBody L skip i s1 r0 with
      | .error _ => .ok { s1 with noImp := s.noImp + 1, results := s.results ++ [none] }
      | .ok (s', fine) => .ok (if fine then s' else { s' with noImp := s'.noImp + 1 })

/-- The loop (78-139). -/
def loopCp [DecidableEq σ] (L : Cp σ κ) (skip : Bool) (patience : Nat) : Nat → Nat → CpState σ κ → Except PyErr (CpState σ κ)
  | 0, _, s => .ok s
  | k + 1, i, s => do
    let s' ← stepCp L skip i s
    if L.late i then .ok s'
    else if s'.noImp > patience then .ok s'
    else loopCp L skip patience k (i + 1) s'

/-- `LNS_CP.solve_lns` (51-151). -/
def solveCp [DecidableEq σ] (L : Cp σ κ) (nb : Nat) (patience : Option Nat) (skip : Bool) : Except PyErr (CpState σ κ) := do
  let s ← startCp L skip
  loopCp L skip (patience.getD (2 * nb)) nb 0 s

end Verif.Lns
