import Verif.Model.Results
/-
Model of `generic_tools/ls/hill_climber.py`, `simulated_annealing.py` and `local_search.py`
(directory `skdecide/builders/discrete_optimization`).

Solutions are values: `copy()` is the identity and later in-place changes of a stored solution
are not modelled.  Fitnesses are exact integers.  What the mutation does at an iteration (its
random draws, the move and undoing the move) is a parameter, and so is whether simulated
annealing accepts a solution that is not better (`p > r`, lines 80-83; a temperature that
underflows to zero would raise there, floats are not modelled).
-/
namespace Verif.LocalSearch
open Verif.Results

/-- What `mutate`/`mutate_and_compute_obj` gives: the new solution, the result of
`move.backtrack_local_move(nv)`, the aggregated objective of the new solution. -/
structure Proposal (σ : Type) where
  nv : σ
  back : σ
  obj : Int

/-- `RestartHandler` / `RestartHandlerLimit` (`local_search.py` 12-60).  `limit` is
`nb_iteration_no_improvement` of the second class, absent in the first; `solution` is the
attribute `solution_best`, which the first class only has after an improvement. -/
structure Handler (σ : Type) where
  limit : Option Nat
  iterations : Nat := 0
  noLocal : Nat := 0
  noGlobal : Nat := 0
  solution : Option σ
  fitness : Int

/-- `RestartHandler.update` (25-39). -/
def Handler.update (h : Handler σ) (nv : σ) (fitness : Int) (improvedGlobal improvedLocal : Bool) : Handler σ :=
  { h with
    iterations := h.iterations + 1
    noGlobal := if improvedGlobal then 0 else h.noGlobal + 1
    fitness := if improvedGlobal then fitness else h.fitness
    solution := if improvedGlobal then some nv else h.solution
    noLocal := if improvedLocal then 0 else h.noLocal + 1 }

/-- The condition of `RestartHandlerLimit.restart` (53-54). -/
def Handler.exhausted (h : Handler σ) : Bool :=
  match h.limit with
  | none => false
  | some n => decide (h.noGlobal > n) || decide (h.noLocal > n)

/-- `restart` (41-42 and 52-60): the solution and objective to go on with. -/
def Handler.restart (h : Handler σ) (cur : σ) (obj : Int) : Except PyErr (Handler σ × σ × Int) :=
  if h.exhausted then
    match h.solution with
    | none => .error .attributeError
    | some s => .ok ({ h with noGlobal := 0, noLocal := 0 }, s, h.fitness)
  else .ok (h, cur, obj)

/-- The variables of the loop. -/
structure Run (σ : Type) where
  cur : σ
  curObj : Int
  best : σ
  bestObj : Int
  handler : Handler σ
  store : Store σ

/-- `objective < cur_objective` or `>` according to the direction (hill_climber.py lines 66-73,
simulated_annealing.py lines 72-79). -/
def improves (maximize : Bool) (a b : Int) : Bool := if maximize then decide (a > b) else decide (a < b)

/-- What the store is given (hill_climber.py lines 78-87, simulated_annealing.py lines 94-106). -/
def keep [DecidableEq σ] (storeAll glob : Bool) (nv cur : σ) (obj : Int) (st : Store σ) : Except PyErr (Store σ) :=
  if storeAll then st.add nv obj
  else if glob then st.add cur obj else .ok st

/-- One iteration: hill_climber.py lines 57-93, simulated_annealing.py lines 63-113.  `chance` is
the acceptance of a solution that is not better, always false in hill climbing. -/
def step [DecidableEq σ] (maximize storeAll : Bool) (mutate : σ → Proposal σ) (chance : Bool)
    (r : Run σ) : Except PyErr (Run σ) := do
  let p := mutate r.cur
  let loc := improves maximize p.obj r.curObj
  let glob := loc && improves maximize p.obj r.bestObj
  let accept := loc || chance
  let curObj := if accept then p.obj else r.curObj
  let cur := if accept then p.nv else p.back
  let store ← keep storeAll glob p.nv cur p.obj r.store
  let bestObj := if glob then p.obj else r.bestObj
  let best := if glob then cur else r.best
  let (handler, cur, curObj) ← (r.handler.update p.nv p.obj glob loc).restart cur curObj
  return { cur, curObj, best, bestObj, handler, store }

/-- The variables before the loop (hill_climber.py lines 37-55, simulated_annealing.py lines
50-65): the store is constructed without `mode_optim`, so with its default MAXIMIZATION. -/
def start [DecidableEq σ] (storeAll : Bool) (handler : Handler σ) (s : σ) (objective : Int) : Run σ where
  cur := s
  curObj := objective
  best := s
  bestObj := objective
  handler := { handler with fitness := objective }
  store := Store.init [(s, objective)] (some s) true true (if storeAll then 1000 else 1)

/-- The first `n` iterations; the proposals and the chances may differ at every iteration. -/
def run [DecidableEq σ] (maximize storeAll : Bool) (mutate : Nat → σ → Proposal σ) (chance : Nat → Bool)
    (r : Run σ) : Nat → Except PyErr (Run σ)
  | 0 => .ok r
  | n + 1 => do
    let r ← run maximize storeAll mutate chance r n
    step maximize storeAll (mutate n) (chance n) r

/-- `SimulatedAnnealing.solve` (lines 45-118). -/
def anneal [DecidableEq σ] (maximize storeAll : Bool) (mutate : Nat → σ → Proposal σ) (chance : Nat → Bool)
    (handler : Handler σ) (s : σ) (objective : Int) (n : Nat) : Except PyErr (Run σ) :=
  run maximize storeAll mutate chance (start storeAll handler s objective) n

/-- `HillClimber.solve` (lines 32-98). -/
def climb [DecidableEq σ] (maximize storeAll : Bool) (mutate : Nat → σ → Proposal σ)
    (handler : Handler σ) (s : σ) (objective : Int) (n : Nat) : Except PyErr (Run σ) :=
  run maximize storeAll mutate (fun _ => false) (start storeAll handler s objective) n

/-! ### Pareto hill climber -/

/-- A proposal with a fitness vector. -/
structure VProposal (σ : Type) where
  nv : σ
  back : σ
  obj : List Int

/-- The variables of `HillClimberPareto.solve`; `sols` is `pareto_front.list_solution_fits`. -/
structure VRun (σ : Type) where
  cur : σ
  curObj : List Int
  sols : List (σ × List Int)

/-- The acceptance test (hill_climber.py lines 143-162): better, or comparing equal. -/
def vaccept (maximize : Bool) (a b : List Int) : Bool :=
  if maximize then tgt a b || teq a b else tlt a b || teq a b

/-- One iteration of `HillClimberPareto.solve` (lines 134-186) with the plain `RestartHandler`,
which never restarts.  Only `list_solution_fits` of the front is kept (result_storage.py lines
53-55: a solution already stored is not stored again); `finalize` rebuilds the rest. -/
def vstep [DecidableEq σ] (maximize : Bool) (mutate : σ → VProposal σ) (r : VRun σ) : VRun σ :=
  let p := mutate r.cur
  if vaccept maximize p.obj r.curObj then
    { cur := p.nv, curObj := p.obj,
      sols := if (r.sols.map Prod.fst).contains p.nv then r.sols else r.sols ++ [(p.nv, p.obj)] }
  else { r with cur := p.back }

/-- The first `n` iterations from the start. -/
def vrun [DecidableEq σ] (maximize : Bool) (mutate : Nat → σ → VProposal σ) (s : σ) (objective : List Int) :
    Nat → VRun σ
  | 0 => ⟨s, objective, [(s, objective)]⟩
  | n + 1 => vstep maximize (mutate n) (vrun maximize mutate s objective n)

/-- `HillClimberPareto.solve` (lines 118-191): the front returned.  It is constructed without
`mode_optim`, so with the default MAXIMIZATION. -/
def climbPareto [DecidableEq σ] (maximize : Bool) (mutate : Nat → σ → VProposal σ) (s : σ) (objective : List Int)
    (n : Nat) : List (σ × List Int) :=
  finalizePareto true (vrun maximize mutate s objective n).sols

end Verif.LocalSearch
