import Verif.Model.SchedRollout

/-!
Priority heuristics evolved by genetic programming, skdecide/hub/solver/gphh/gphh.py.
Floats are exact; a value that is not a number is `none`.  The evolution itself (library `deap`) is not modelled.
-/
namespace Verif.Gphh

open Verif.Sched (Dom State TaskId Action Draw Policy Method availableTasks nextState isTerminal)

/-! ### Heuristics -/

/-- Trees over the primitives of `ParametersGPHH.default` (lines 277-284); `arg i` is the `i`-th feature. -/
inductive Expr where
  | arg (i : Nat)
  | add (a b : Expr)
  | sub (a b : Expr)
  | mul (a b : Expr)
  | div (a b : Expr)
  | max (a b : Expr)
  | min (a b : Expr)
  | neg (a : Expr)

/-- Lines 34-38, `protected_div`. -/
def protectedDiv (l r : Rat) : Rat := if r ≠ 0 then l / r else 1

/-- The compiled function of a tree; there are as many arguments as features (line 277). -/
def Expr.eval (xs : List Rat) : Expr → Rat
  | .arg i => (xs[i]?).getD 0
  | .add a b => a.eval xs + b.eval xs
  | .sub a b => a.eval xs - b.eval xs
  | .mul a b => a.eval xs * b.eval xs
  | .div a b => protectedDiv (a.eval xs) (b.eval xs)
  | .max a b => if b.eval xs > a.eval xs then b.eval xs else a.eval xs
  | .min a b => if b.eval xs < a.eval xs then b.eval xs else a.eval xs
  | .neg a => - a.eval xs

/-! ### Ranking -/

/-- Insert before the first element whose key is not smaller. -/
def insR (key : α → Rat) (x : α) : List α → List α
  | [] => [x]
  | y :: ys => if key x ≤ key y then x :: y :: ys else y :: insR key x ys

/-- Python `sorted(l, key=key)`: stable, ascending. -/
def sortR (key : α → Rat) : List α → List α
  | [] => []
  | x :: xs => insR key x (sortR key xs)

/-- Lines 579-580, 766-767 and 908-909: `[x+1 for x in sorted(range(len(raw)), key=lambda k: raw[k])]`. -/
def rank (raw : List Rat) : List Nat := (sortR (fun k => (raw[k]?).getD 0) (List.range raw.length)).map (· + 1)

/-- Lines 581-582, 768-769 and 910-911: the permutation for the discrete optimisation model. -/
def forDo (perm : List Nat) : List Int :=
  (perm.filter fun x => decide (x ≠ 1 ∧ x ≠ perm.length)).map fun (x : Nat) => (x : Int) - 2

/-! ### Pools of heuristics -/

/-- `numpy.median`; nan for an empty list. -/
def median (l : List Rat) : Option Rat :=
  let s := sortR id l
  if l.length = 0 then none
  else if l.length % 2 = 1 then s[l.length / 2]?
  else do
    let a ← s[l.length / 2 - 1]?
    let b ← s[l.length / 2]?
    return (a + b) / 2

/-- `numpy.mean`; nan for an empty list. -/
def mean (l : List Rat) : Option Rat := if l.length = 0 then none else some (l.sum / l.length)

/-- Absolute value. -/
def absR (x : Rat) : Rat := if x < 0 then -x else x

/-- Lines 887-894: remove the `k` values farthest from the median, the first of equally far ones first; `tmp[i]` raises when there are
fewer values.  (With no values at all the median is not a number, and the first `tmp[i]` raises.) -/
def trim (k : Nat) (l : List Rat) : Except PyErr (List Rat) :=
  if k = 0 then .ok l
  else
    let m := (median l).getD 0
    let far := sortR (fun i => - absR (((l[i]?).getD 0) - m)) (List.range l.length)
    if l.length < k then .error .indexError
    else .ok (((List.range l.length).filter fun i => decide (i ∉ far.take k)).map fun i => (l[i]?).getD 0)

/-- Lines 814-817. -/
inductive Pool where
  | mean | median | random
  deriving DecidableEq, Repr

/-- Lines 887-903: the value of a task; `random.randint(len(...))` lacks an argument and raises `TypeError`. -/
def aggregate (pool : Pool) (k : Nat) (l : List Rat) : Except PyErr (Option Rat) := do
  let l ← trim k l
  match pool with
  | .mean => return mean l
  | .median => return median l
  | .random => .error .typeError

/-! ### Features of the resources -/

/-- Lines 75-79: the sum over the duration of need divided by capacity. -/
def overTime (need total : Nat → Int) : Nat → Except PyErr Rat
  | 0 => .ok 0
  | t + 1 => do
    let s ← overTime need total t
    if total t = 0 then .error .zeroDivisionError else return s + (need t : Rat) / total t

/-- Lines 69-84, `get_resource_requirements_across_duration`: `res` holds need and capacity over time for each resource the mode names. -/
def requirements (duration : Nat) (res : List ((Nat → Int) × (Nat → Int))) : Except PyErr (List Rat) :=
  if duration = 0 then .ok [0]
  else res.mapM fun r => do
    let s ← overTime r.1 r.2 duration
    return s / duration

/-- `numpy.min` and `numpy.max` raise `ValueError` on empty lists. -/
def npMin : List Rat → Except PyErr Rat
  | [] => .error .valueError
  | x :: xs => .ok (xs.foldl (fun a b => if b < a then b else a) x)

def npMax : List Rat → Except PyErr Rat
  | [] => .error .valueError
  | x :: xs => .ok (xs.foldl (fun a b => if a < b then b else a) x)

/-- Lines 87-90. -/
def featureAvg (vs : List Rat) : Option Rat := mean vs
/-- Lines 93-96. -/
def featureMin (vs : List Rat) : Except PyErr Rat := npMin vs
/-- Lines 99-105. -/
def featureNzMin (vs : List Rat) : Except PyErr Rat :=
  if 0 < vs.sum then npMin (vs.filter fun x => decide (0 < x)) else npMin vs
/-- Lines 108-111. -/
def featureMax (vs : List Rat) : Except PyErr Rat := npMax vs
/-- Lines 114-117. -/
def featureRequ (vs : List Rat) : Except PyErr Rat :=
  if vs.length = 0 then .error .zeroDivisionError
  else .ok (((vs.filter fun x => decide (0 < x)).length : Rat) / vs.length)

/-! ### Fitness against a reference permutation -/

/-- The sign with which a pair of positions counts. -/
def sign (a b : Nat × Nat) : Int :=
  if (a.1 < b.1 ∧ a.2 < b.2) ∨ (b.1 < a.1 ∧ b.2 < a.2) then 1
  else if (a.1 < b.1 ∧ b.2 < a.2) ∨ (b.1 < a.1 ∧ a.2 < b.2) then -1
  else 0

/-- Concordant minus discordant pairs of positions. -/
def balance : List (Nat × Nat) → Int
  | [] => 0
  | a :: l => (l.map (sign a)).sum + balance l

/-- `scipy.stats.kendalltau` on sequences without repeated values. -/
def tau (p q : List Nat) : Rat := (balance (p.zip q) : Rat) / ((p.length : Rat) * (p.length - 1) / 2)

/-- `scipy.spatial.distance.hamming` (for equal lengths). -/
def hamming (p q : List Nat) : Rat := (((p.zip q).filter fun x => decide (x.1 ≠ x.2)).length : Rat) / p.length

/-- Lines 217-220. -/
inductive Distance where
  | ktd | hamming | ktdHamming
  deriving DecidableEq, Repr

/-- Lines 673-682. -/
def dist (d : Distance) (p q : List Nat) : Rat :=
  match d with
  | .ktd => - tau p q
  | .hamming => hamming p q
  | .ktdHamming => - tau p q + hamming p q

/-- Lines 667-668: the greatest number of equal values. -/
def mostCommon (raw : List Rat) : Nat := raw.foldl (fun m x => if m < raw.count x then raw.count x else m) 0

/-- Lines 667-686: the value of a heuristic for one domain (its fitness is the mean over the domains). -/
def penalized (d : Distance) (raw : List Rat) (ref : List Nat) : Rat :=
  dist d (rank raw) ref + (mostCommon raw : Rat) / raw.length

/-! ### The policy -/

/-- `GPHHPolicy._get_next_action` (lines 720-808): the available tasks in the order `avail` of Python's set get the values `value`, the
ranking becomes the permutation, all modes are 1, and the policy of sgs_policies.py answers.  `sched` is the schedule of the serial
generation scheme. -/
def policyOf (dom : Dom) (value : State → TaskId → Rat) (avail : List TaskId → List TaskId) (sched : State → Verif.Dict TaskId Int) (st : State) :
    Policy :=
  let perm := rank ((avail (availableTasks dom st.conds)).map (value st))
  { perm := perm, modes := (List.range perm.length).map fun i => (i + 1, 1), schedule := some (sched st) }

/-- utils.py lines 174-204, `rollout` of that policy, as `Policy.follow`. -/
def follow (dom : Dom) (pol : State → Policy) (meth : Method) (ord : List TaskId → List TaskId) (dT dI : Int)
    (draw : State → Action → Draw) : Nat → State → Except PyErr State
  | 0, st => .ok st
  | n + 1, st => do
    let a ← (pol st).next meth ord dT dI dom st
    let st' ← nextState dom (draw st a) st a
    let b ← isTerminal dom st'
    if b then return st' else follow dom pol meth ord dT dI draw n st'

end Verif.Gphh
