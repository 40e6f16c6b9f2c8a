import Verif.Model.Cgp
/- Augmented random search (skdecide/hub/solver/ars/ars.py). Numbers are exact; the domain, the perturbations drawn and the
standard deviation are parameters. -/
namespace Verif.Ars
open Verif.Cgp (Kind Given Result normFlat denorm)

/-! ### Running statistics (lines 25-46) -/

/-- One component of a `Normalizer` (27-31). -/
structure Cell where
  n : Rat := 0
  mean : Rat := 0
  diff : Rat := 0
  var : Rat := 0
  deriving DecidableEq, Repr

/-- `observe` (33-38) for one component. -/
def Cell.observe (c : Cell) (x : Rat) : Cell :=
  let n := c.n + 1
  let mean := c.mean + (x - c.mean) / n
  let diff := c.diff + (x - c.mean) * (x - mean)
  { n := n, mean := mean, diff := diff, var := max (diff / n) (1 / 100) }

/-- `Normalizer(nb_inputs)` (27-31). -/
def start (inputs : Nat) : List Cell := List.replicate inputs {}

/-- `observe` (33-38); arrays of other lengths do not broadcast (those of length one do, which is not modelled). -/
def observe (s : List Cell) (x : List Rat) : Except PyErr (List Cell) :=
  if x.length = s.length then .ok (List.zipWith Cell.observe s x) else .error .valueError

/-- `observe` for each row. -/
def observeAll (s : List Cell) : List (List Rat) → Except PyErr (List Cell)
  | [] => .ok s
  | x :: xs =>
    match observe s x with
    | .error e => .error e
    | .ok s' => observeAll s' xs

/-- `normalize` (40-45), given the square root. -/
def normalize (sqrt : Rat → Rat) (s : List Cell) (x : List Rat) : Except PyErr (List Rat) :=
  match s with
  | [] => .error .indexError
  | c :: _ =>
    if c.n ≤ 1 then .ok x
    else if x.length = s.length then .ok (List.zipWith (fun (c : Cell) v => (v - c.mean) / sqrt c.var) s x)
    else .error .valueError

/-! ### Spaces (lines 115-124) -/

/-- A space that is no tuple; boxes have a shape and the bounds of their cells in order. Tuples within tuples are refused by
`norm_and_flatten` and not modelled. -/
inductive Part where
  | box (shape : List Nat) (bounds : List (Option Rat × Option Rat))
  | discrete (n : Nat)
  deriving DecidableEq, Repr

/-- A space. -/
inductive Space where
  | single (p : Part)
  | tuple (ps : List Part)
  deriving DecidableEq, Repr

/-- Lines 121-124. -/
def Part.dim : Part → Except PyErr Nat
  | .box [] _ => .error .indexError
  | .box (k :: _) _ => .ok k
  | .discrete _ => .ok 1

/-- Lines 116-120. -/
def dims : List Part → Except PyErr Nat
  | [] => .ok 0
  | p :: ps =>
    match p.dim with
    | .error e => .error e
    | .ok k =>
      match dims ps with
      | .error e => .error e
      | .ok r => .ok (k + r)

/-- `get_dimension_space` (115-124). -/
def Space.dim : Space → Except PyErr Nat
  | .single p => p.dim
  | .tuple ps => dims ps

/-- The space as `norm_and_flatten` and `denorm` see it. -/
def Part.kind : Part → Kind
  | .box _ bounds => .box bounds
  | .discrete n => .discrete n

/-- The space as `norm_and_flatten` and `denorm` see it. -/
def Space.given : Space → Given
  | .single p => .single p.kind
  | .tuple ps => .tuple (ps.map Part.kind)

/-! ### Policies -/

/-- A matrix by its rows. -/
abbrev Mat := List (List Rat)

/-- The inner product of two vectors of the same length. -/
def inner (a b : List Rat) : Rat := (List.zipWith (· * ·) a b).sum

/-- `matrix.dot(vector)` for a matrix with `cols` columns. -/
def dot (cols : Nat) (m : Mat) (x : List Rat) : Except PyErr (List Rat) :=
  if x.length = cols then .ok (m.map (fun row => inner row x)) else .error .valueError

/-- `a + f * b` for matrices of the same shape. -/
def axpy (a : Mat) (f : Rat) (b : Mat) : Mat := List.zipWith (List.zipWith (fun x y => x + f * y)) a b

/-- `np.zeros((rows, cols))`. -/
def zeros (rows cols : Nat) : Mat := List.replicate rows (List.replicate cols 0)

/-- The parameters of the solver (61-79); counts are natural numbers. -/
structure Config where
  epochSize : Nat
  directions : Nat
  top : Nat
  rate : Rat
  noise : Rat
  maximize : Bool
  deriving DecidableEq, Repr

/-- The domain: observations are flattened; a reward `none` is not a number. -/
structure Env (E : Type) where
  obs : Space
  act : Space
  reset : E → E × List Rat
  step : E → Result → E × List Rat × Option Rat × Bool

/-- `max(min(reward, 1), -1)` (105), which keeps what is not a number; such rewards are not added (106-107). -/
def addReward (acc : Rat) : Option Rat → Rat
  | none => acc
  | some r => acc + max (min r 1) (-1)

/-- Lines 97-100 and `_sample_action` (188-193). -/
def action (env : Env E) (cols : Nat) (m : Mat) (obs : List Rat) : Except PyErr Result :=
  match normFlat env.obs.given.kinds obs with
  | .error e => .error e
  | .ok x =>
    match dot cols m x with
    | .error e => .error e
    | .ok y => denorm y env.act.given

/-- The loop of `explore` (95-109); the first argument counts the steps left. -/
def play (env : Env E) (cols : Nat) (m : Mat) : Nat → E → List Rat → Rat → Except PyErr (Rat × E)
  | 0, e, _, acc => .ok (acc, e)
  | k + 1, e, obs, acc =>
    match action env cols m obs with
    | .error err => .error err
    | .ok a =>
      let (e', obs', r, done) := env.step e a
      if done then .ok (addReward acc r, e') else play env cols m k e' obs' (addReward acc r)

/-- `explore` (89-109) with the policy to use (81-87). -/
def explore (env : Env E) (steps cols : Nat) (m : Mat) (e : E) : Except PyErr (Rat × E) :=
  let (e', obs) := env.reset e
  play env cols m steps e' obs 0

/-- The loops of lines 154-159. -/
def explores (env : Env E) (steps cols : Nat) : List Mat → E → Except PyErr (List Rat × E)
  | [], e => .ok ([], e)
  | m :: ms, e =>
    match explore env steps cols m e with
    | .error err => .error err
    | .ok (r, e') =>
      match explores env steps cols ms e' with
      | .error err => .error err
      | .ok (rs, e'') => .ok (r :: rs, e'')

/-- Insertion that keeps the order of elements with the same score. -/
def insertBy (before : Rat → Rat → Bool) (score : Nat → Rat) (k : Nat) : List Nat → List Nat
  | [] => [k]
  | j :: js => if before (score k) (score j) then k :: j :: js else j :: insertBy before score k js

/-- `sorted(keys, key=…, reverse=…)`: stable in both directions. -/
def sortScores (maximize : Bool) (score : Nat → Rat) (keys : List Nat) : List Nat :=
  keys.foldr (insertBy (fun a b => if maximize then decide (b ≤ a) else decide (a ≤ b)) score) []

/-- Lines 166-168: the rollouts used. -/
def chosen (c : Config) (pos neg : List Rat) (deltas : List Mat) : List (Rat × Rat × Mat) :=
  let score := fun k => max (pos.getD k 0) (neg.getD k 0)
  ((sortScores c.maximize score (List.range c.directions)).take c.top).map
    (fun k => (pos.getD k 0, neg.getD k 0, deltas.getD k []))

/-- `update_policy` (111-117). -/
def update (c : Config) (policy : Mat) (rows cols : Nat) (rollouts : List (Rat × Rat × Mat)) (sigma : Rat) : Mat :=
  let step := rollouts.foldl (fun s r => axpy s (r.1 - r.2.1) r.2.2) (zeros rows cols)
  if c.top = 0 ∨ sigma = 0 then policy else axpy policy (c.rate / ((c.top : Rat) * sigma)) step

/-- One round of the loop (147-175) for the perturbations drawn; the answer is the new policy, the reward printed and the
domain. -/
def epoch (c : Config) (env : Env E) (std : List Rat → Rat) (rows cols : Nat) (deltas : List Mat) (policy : Mat) (e : E) :
    Except PyErr (Mat × Rat × E) :=
  match explores env c.epochSize cols (deltas.map (fun d => axpy policy c.noise d)) e with
  | .error err => .error err
  | .ok (pos, e1) =>
    match explores env c.epochSize cols (deltas.map (fun d => axpy policy (-c.noise) d)) e1 with
    | .error err => .error err
    | .ok (neg, e2) =>
      let policy' := update c policy rows cols (chosen c pos neg deltas) (std (pos ++ neg))
      match explore env c.epochSize cols policy' e2 with
      | .error err => .error err
      | .ok (r, e3) => .ok (policy', r, e3)

/-- The loop over the epochs; the list has the perturbations of each. Without epoch the last line reads a variable that has
no value (177). -/
def epochs (c : Config) (env : Env E) (std : List Rat → Rat) (rows cols : Nat) :
    List (List Mat) → Mat → Option Rat → E → Except PyErr (Mat × Rat × E)
  | [], _, none, _ => .error .nameError
  | [], p, some r, e => .ok (p, r, e)
  | ds :: rest, p, _, e =>
    match epoch c env std rows cols ds p e with
    | .error err => .error err
    | .ok (p', r, e') => epochs c env std rows cols rest p' (some r) e'

/-- `__init__` (79) and `_solve_domain` (136-177): the policy with its numbers of columns, the last reward and the domain. -/
def solve (c : Config) (env : Env E) (std : List Rat → Rat) (draws : List (List Mat)) (e : E) :
    Except PyErr (Nat × Mat × Rat × E) :=
  if c.top ≤ c.directions then
    match env.obs.dim with
    | .error err => .error err
    | .ok cols =>
      match env.act.dim with
      | .error err => .error err
      | .ok rows =>
        match epochs c env std rows cols draws (zeros rows cols) none e with
        | .error err => .error err
        | .ok (p, r, e') => .ok (cols, p, r, e')
  else .error .assertionError

end Verif.Ars
