import Verif.Model.Py
/-
Model of the objective handling of
`skdecide/builders/discrete_optimization/generic_tools/do_problem.py`: default setup, aggregated
evaluation functions, robust problems.  Objective values and weights are exact rationals.
-/
namespace Verif.Objectives

/-- `ObjectiveHandling` (lines 39-42). -/
inductive Handling where
  | single
  | aggregate
  | multi
  deriving DecidableEq, Repr

/-- `ParamsObjectiveFunction` (lines 194-208); `maximize` is the sense. -/
structure Params where
  handling : Handling
  objectives : List String
  weights : List Rat
  maximize : Bool

/-- `ObjectiveRegister` (lines 50-65): sense, handling, and per objective its default weight
(other documentation keys are not modelled). -/
structure Register where
  maximize : Bool
  handling : Handling
  doc : Dict String Rat

/-- `get_default_objective_setup` (lines 219-227) with `get_list_objective_and_default_weight`
(lines 63-65). -/
def defaultParams (r : Register) : Params :=
  ⟨r.handling, r.doc.map Prod.fst, r.doc.map Prod.snd, r.maximize⟩

/-- What an evaluation function returns: a number, or a `TupleFitness`. -/
inductive Fit where
  | scalar (x : Rat)
  | vector (v : List Rat)
  deriving DecidableEq, Repr

/-- `dict_values[objectives[i]] * weights[i]`. -/
def term (d : Dict String Rat) (p : Params) (i : Nat) : Except PyErr Rat := do
  let o ← pyGet p.objectives i
  let v ← d.get o
  let w ← pyGet p.weights i
  return v * w

/-- `weights[i]*d[objectives[i]]`: the same product, but the weight is looked up first. -/
def termW (d : Dict String Rat) (p : Params) (i : Nat) : Except PyErr Rat := do
  let w ← pyGet p.weights i
  let o ← pyGet p.objectives i
  let v ← d.get o
  return w * v

/-- A comprehension over `range(length)`. -/
def collect (f : Nat → Except PyErr Rat) : List Nat → Except PyErr (List Rat)
  | [] => .ok []
  | i :: is => do
    let x ← f i
    let xs ← collect f is
    return x :: xs

/-- `eval_from_dict_values` (lines 259-262, 270-271, 279-280); `sign` is 1 (line 244). -/
def evalDict (p : Params) (d : Dict String Rat) : Except PyErr Fit :=
  match p.handling with
  | .aggregate => do
    let l ← collect (term d p) (List.range p.objectives.length)
    return .scalar (1 * l.sum)
  | .single => do
    let o ← pyGet p.objectives 0
    let v ← d.get o
    let w ← pyGet p.weights 0
    return .scalar (1 * v * w)
  | .multi => do
    let l ← collect (termW d p) (List.range p.objectives.length)
    return .vector (l.map (· * 1))

/-- `eval` (lines 253-257, 266-268, 275-277) for a problem whose `evaluate` is the argument. -/
def evalSolution (p : Params) (evaluate : σ → Dict String Rat) (s : σ) : Except PyErr Fit :=
  match p.handling with
  | .aggregate => do
    let d := evaluate s
    let l ← collect (term d p) (List.range p.objectives.length)
    return .scalar (1 * l.sum)
  | .single => do
    let d := evaluate s
    let o ← pyGet p.objectives 0
    let v ← d.get o
    let w ← pyGet p.weights 0
    return .scalar (1 * v * w)
  | .multi => do
    let d := evaluate s
    let l ← collect (termW d p) (List.range p.objectives.length)
    return .vector (l.map (· * 1))

/-! ### Robust problems -/

/-- The methods of `MethodAggregating` modelled (lines 127-143); MEDIAN and PERCENTILE are not. -/
inductive Method where
  | mean
  | min
  | max
  | ponderation (ws : List Rat)

/-- `np.mean`, `np.min`, `np.max`, `np.dot` on a one-dimensional array (lines 155-170).  The
array is never empty here (line 174 raises first); `np.dot` raises on different lengths. -/
def Method.apply : Method → List Rat → Except PyErr Rat
  | .mean, l => .ok (l.sum / l.length)
  | .min, [] => .error .valueError
  | .min, x :: xs => .ok (xs.foldl (fun a b => if b < a then b else a) x)
  | .max, [] => .error .valueError
  | .max, x :: xs => .ok (xs.foldl (fun a b => if a < b then b else a) x)
  | .ponderation ws, l => if ws.length = l.length then .ok (List.zipWith (· * ·) l ws).sum else .error .valueError

/-- `[fit[k] for fit in fits]`. -/
def column (k : String) : List (Dict String Rat) → Except PyErr (List Rat)
  | [] => .ok []
  | d :: ds => do
    let v ← d.get k
    let vs ← column k ds
    return v :: vs

/-- The loop of `RobustProblem.evaluate` over the keys (lines 176-178). -/
def robustKeys (m : Method) (fits : List (Dict String Rat)) : List String → Except PyErr (Dict String Rat)
  | [] => .ok []
  | k :: ks => do
    let vals ← column k fits
    let v ← m.apply vals
    let rest ← robustKeys m fits ks
    return (k, v) :: rest

/-- `RobustProblem.evaluate` (lines 172-179): the keys of the first evaluation. -/
def robustEvaluate {σ : Type} (m : Method) (problems : List (σ → Dict String Rat)) (s : σ) : Except PyErr (Dict String Rat) := do
  let fits := problems.map (· s)
  let first ← pyGet fits 0
  robustKeys m fits first.keys

end Verif.Objectives
