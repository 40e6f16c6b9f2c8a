import Verif.Model.Py
import Mathlib.Algebra.Order.Ring.Rat
import Mathlib.Data.List.Dedup

/-!
`skdecide/hub/solver/policy_evaluators/policy_evaluator.py` and `skdecide/hub/solver/meta_policy/meta_policies.py`.
Costs and probabilities are exact numbers; the policy is a function of the state, as for a `DeterministicPolicies`
solver; domain and policy do not raise.
-/
namespace Verif.PolicyEval
open Verif

/-- What the functions read of the domain: initial state, `is_terminal`, `is_goal`, `get_next_state_distribution(...).get_values()`
and the cost of `get_transition_value`. -/
structure Domain (σ α : Type) where
  init : σ
  terminal : σ → Bool
  goal : σ → Bool
  dist : σ → α → List (σ × Rat)
  cost : σ → α → σ → Rat

variable {σ α : Type}

/-- Insertion into a set. -/
def insertNew [DecidableEq σ] (l : List σ) (x : σ) : List σ := if x ∈ l then l else l ++ [x]

/-- Lines 13-18: the variables of `construct_dict_policy`; the end of the stack is the end of the list. -/
structure Build (σ α : Type) where
  stack : List σ
  preds : Dict σ (List σ) := []
  succs : Dict σ (List (σ × Rat)) := []
  policy : Dict σ α := []
  deriving DecidableEq, Repr

/-- `preds[s]` of a `defaultdict(set)`. -/
def at_ [DecidableEq σ] (preds : Dict σ (List σ)) (s : σ) : List σ := (preds.get? s).getD []

/-- Lines 27-30: one successor. -/
def push [DecidableEq σ] (s : σ) (b : Build σ α) (x : σ × Rat) : Build σ α :=
  if x.2 ≠ 0 then { b with stack := b.stack ++ [x.1], preds := b.preds.set x.1 (insertNew (at_ b.preds x.1) s) } else b

/-- Lines 20-30: one round of the loop, for the state that was popped. -/
def visit [DecidableEq σ] (d : Domain σ α) (pol : σ → α) (b : Build σ α) (s : σ) : Build σ α :=
  if d.terminal s || b.policy.contains s then b
  else
    let successors := d.dist s (pol s)
    successors.foldl (push s) { b with policy := b.policy.set s (pol s), succs := b.succs.set s successors }

/-- Lines 19-30: the loop, for at most `fuel` rounds. -/
def buildLoop [DecidableEq σ] (d : Domain σ α) (pol : σ → α) : Nat → Build σ α → Option (Build σ α)
  | 0, _ => none
  | fuel + 1, b =>
    match b.stack.getLast? with
    | none => some b
    | some s => buildLoop d pol fuel (visit d pol { b with stack := b.stack.dropLast } s)

/-- Lines 31-34: the assertion; a failing look-up in the `defaultdict` makes the assertion fail, too. -/
def sane [DecidableEq σ] (b : Build σ α) : Bool := b.succs.all fun x => x.2.all fun y => decide (x.1 ∈ at_ b.preds y.1)

/-- Lines 9-35, `construct_dict_policy`. -/
def construct [DecidableEq σ] (d : Domain σ α) (pol : σ → α) (fuel : Nat) : Option (Except PyErr (Build σ α)) :=
  match buildLoop d pol fuel { stack := [d.init] } with
  | none => none
  | some b => some (if sane b then .ok b else .error .assertionError)

/-- Lines 174-178, `successor_value_is_known`. -/
def known [DecidableEq σ] (successors : List (σ × Rat)) (val : Dict σ Rat) : Bool :=
  successors.all fun x => x.2 = 0 || val.contains x.1

/-- Lines 56-60: the cost of one state. -/
def backup [DecidableEq σ] (d : Domain σ α) (s : σ) (a : α) (val : Dict σ Rat) : List (σ × Rat) → Except PyErr Rat
  | [] => .ok 0
  | (s', p) :: l => do
    let v ← val.get s'
    let rest ← backup d s a val l
    pure (p * (d.cost s a s' + v) + rest)

/-- Lines 43-49: the values of the goals and the first states to look at. -/
def goals [DecidableEq σ] (d : Domain σ α) (b : Build σ α) : Dict σ Rat × List σ :=
  b.preds.keys.foldl (fun r s => if d.goal s then (r.1.set s 0, (at_ b.preds s).foldl insertNew r.2) else r) ([], [])

/-- Lines 50-62: the loop, for at most `fuel` rounds; `pick` chooses the state that leaves the set. -/
def costLoop [DecidableEq σ] (d : Domain σ α) (b : Build σ α) (pick : Nat → Nat) : Nat → Dict σ Rat → List σ → Option (Except PyErr (Dict σ Rat))
  | 0, _, _ => none
  | fuel + 1, val, stack =>
    match stack[pick fuel % stack.length]? with
    | none => some (.ok val)
    | some s =>
      let stack := stack.erase s
      if val.contains s then costLoop d b pick fuel val stack
      else match b.succs.get? s, b.policy.get? s with
        | some successors, some a =>
          if !known successors val then costLoop d b pick fuel val stack
          else match backup d s a val successors with
            | .error e => some (.error e)
            | .ok v => costLoop d b pick fuel (val.set s v) ((at_ b.preds s).foldl insertNew stack)
        | _, _ => some (.error .keyError)

/-- Lines 38-63, `expected_costs_for_policy`. -/
def expected [DecidableEq σ] (d : Domain σ α) (b : Build σ α) (pick : Nat → Nat) (fuel : Nat) : Option (Except PyErr (Dict σ Rat)) :=
  costLoop d b pick fuel (goals d b).1 (goals d b).2

/-- Lines 66-69, `compute_expected_cost_for_policy`. -/
def computeExpected [DecidableEq σ] (d : Domain σ α) (pol : σ → α) (pick : Nat → Nat) (fuel : Nat) : Option (Except PyErr (Dict σ Rat × Build σ α)) :=
  match construct d pol fuel with
  | none => none
  | some (.error e) => some (.error e)
  | some (.ok b) => (expected d b pick fuel).map fun r => r.map fun v => (v, b)

/-! ### Rollouts -/

/-- The result of `my_custom_rollout`. -/
structure Trace (σ α : Type) where
  states : List σ
  total : Rat := 0
  values : List Rat := []
  actions : List α := []
  deriving DecidableEq, Repr

/-- Lines 72-90, `my_custom_rollout`, for at most `fuel` rounds; `draw k` is the `k`-th sample of `_state_sample`, counted
from `k`, and `s` the last state. -/
def roll (d : Domain σ α) (pol : σ → α) (draw : Nat → σ → α → σ) : Nat → Nat → σ → Trace σ α → Option (Trace σ α × Nat)
  | 0, _, _, _ => none
  | fuel + 1, k, s, t =>
    let a := pol s
    let s' := draw k s a
    let c := d.cost s a s'
    let t := { states := t.states ++ [s'], total := t.total + c, values := t.values ++ [c], actions := t.actions ++ [a] }
    if d.goal s' then some (t, k + 1)
    else if d.terminal s' then some ({ t with total := t.total + 1000 }, k + 1)
    else roll d pol draw fuel (k + 1) s' t

def customRollout (d : Domain σ α) (pol : σ → α) (draw : Nat → σ → α → σ) (fuel k : Nat) (s : σ) : Option (Trace σ α × Nat) :=
  roll d pol draw fuel k s { states := [s] }

/-- Lines 103-108: the dictionaries of `rollout_based_policy_estimation`; the values that are summed and the numbers of visits. -/
structure Est (σ α : Type) where
  policy : Dict σ α := []
  visits : Dict σ Nat := []
  summed : Dict σ Rat := []
  preds : Dict σ (List σ) := []
  succs : Dict σ (List σ) := []
  deriving DecidableEq, Repr

/-- Lines 114-120: a state that was not seen before. -/
def Est.meet [DecidableEq σ] (e : Est σ α) (s : σ) (a : α) : Est σ α :=
  if e.visits.contains s then e
  else { policy := e.policy.set s a, visits := e.visits.set s 0, summed := e.summed.set s 0, preds := e.preds.set s [], succs := e.succs.set s [] }

/-- Lines 121-125: the visit of `s` before `s'`, with the costs from there on. -/
def Est.add [DecidableEq σ] (e : Est σ α) (s s' : σ) (before : Option σ) (v : Rat) : Est σ α :=
  { e with
    summed := e.summed.set s ((e.summed.get? s).getD 0 + v)
    visits := e.visits.set s ((e.visits.get? s).getD 0 + 1)
    preds := match before with
      | none => e.preds
      | some q => e.preds.set s (insertNew ((e.preds.get? s).getD []) q)
    succs := e.succs.set s (insertNew ((e.succs.get? s).getD []) s') }

/-- Lines 113-126: one position `j` of a trace; `values_np[k]` is the sum of the costs from `j` on. -/
def Est.position [DecidableEq σ] (t : Trace σ α) (e : Est σ α) (j : Nat) : Est σ α :=
  match t.states[j]?, t.states[j + 1]?, t.actions[j]? with
  | some s, some s', some a => (e.meet s a).add s s' (if j = 0 then none else t.states[j - 1]?) (t.values.drop j).sum
  | _, _, _ => e

/-- Lines 112-126: a trace, from its last action backwards. -/
def Est.trace [DecidableEq σ] (e : Est σ α) (t : Trace σ α) : Est σ α :=
  (List.range (t.states.length - 1)).reverse.foldl (Est.position t) e

/-- Lines 109-126: `n` rollouts. -/
def estLoop [DecidableEq σ] (d : Domain σ α) (pol : σ → α) (draw : Nat → σ → α → σ) (fuel : Nat) : Nat → Nat → Est σ α → Option (Est σ α)
  | 0, _, e => some e
  | n + 1, k, e =>
    match customRollout d pol draw fuel k d.init with
    | none => none
    | some (t, k) => estLoop d pol draw fuel n k (e.trace t)

/-- Lines 95-128, `rollout_based_policy_estimation`: the averages and the other dictionaries. -/
def estimate [DecidableEq σ] (d : Domain σ α) (pol : σ → α) (draw : Nat → σ → α → σ) (fuel n : Nat) : Option (Dict σ Rat × Est σ α) :=
  (estLoop d pol draw fuel n 0 {}).map fun e => (e.summed.map fun x => (x.1, x.2 / ((e.visits.get? x.1).getD 0 : Nat)), e)

/-- Lines 131-158, `rollout_based_policy_estimation_fast_scheduling`: the sum of the times that the rollouts take. -/
def fastLoop (d : Domain σ α) (time : σ → Int) (pol : σ → α) (draw : Nat → σ → α → σ) (fuel : Nat) : Nat → Nat → Int → Option Int
  | 0, _, acc => some acc
  | n + 1, k, acc =>
    match customRollout d pol draw fuel k d.init with
    | none => none
    | some (t, k) => fastLoop d time pol draw fuel n k (acc + (time (t.states.getLast?.getD d.init) - time d.init))

/-- The value of the initial state; without rollouts the division by the number of visits raises. -/
def fastEstimate (d : Domain σ α) (time : σ → Int) (pol : σ → α) (draw : Nat → σ → α → σ) (fuel n : Nat) : Option (Except PyErr Rat) :=
  match fastLoop d time pol draw fuel n 0 0 with
  | none => none
  | some v => some (if n = 0 then .error .zeroDivisionError else .ok ((v : Rat) / (n : Rat)))

/-! ### `MetaPolicy` -/

/-- What `rollout_episode` gives to `MetaPolicy`: the time of the last state and the actions. -/
structure Episode (α : Type) where
  ended : Int
  actions : List α

/-- Lines 37-46 of `meta_policies.py`: `n` rollouts of one policy, from the `j`-th on; the sum of the times and the entry of `actions_map`. -/
def simulate {κ : Type} (rollout : κ → Nat → Episode α) (now : Int) (m : κ) : Nat → Nat → Int → Option α → Except PyErr (Int × Option α)
  | 0, _, acc, a => .ok (acc, a)
  | n + 1, j, acc, _ =>
    let e := rollout m j
    match e.actions with
    | [] => .error .indexError
    | a :: _ => simulate rollout now m n (j + 1) (acc + (e.ended - now)) (some a)

/-- Lines 35-46: `results` and `actions_map`, in the order of the policies. -/
def simulateAll {κ : Type} (rollout : κ → Nat → Episode α) (now : Int) (n : Nat) : List κ → Except PyErr (List (κ × Int × Option α))
  | [] => .ok []
  | m :: ms => do
    let r ← simulate rollout now m n 0 0 none
    let rs ← simulateAll rollout now n ms
    pure ((m, r.1, r.2) :: rs)

/-- `min(results, key=lambda x: results[x])`: the first of the least entries. -/
def firstMin {κ : Type} (best : κ × Int × Option α) : List (κ × Int × Option α) → κ × Int × Option α
  | [] => best
  | x :: l => firstMin (if x.2.1 < best.2.1 then x else best) l

/-- Lines 28-52, `MetaPolicy._get_next_action`, with the policies as keys with functions, and `rollout m j` as the `j`-th episode
that is simulated with policy `m`. -/
def metaAction {κ : Type} [DecidableEq α] (policies : List (κ × (σ → α))) (rollout : κ → Nat → Episode α) (n : Nat) (now : Int) (obs : σ) : Except PyErr α :=
  let actions := policies.map fun m => m.2 obs
  if actions.dedup.length > 1 then do
    let rs ← simulateAll rollout now n (policies.map (·.1))
    match rs with
    | [] => .error .valueError
    | r :: rs =>
      match (firstMin r rs).2.2 with
      | some a => pure a
      | none => .error .keyError
  else match actions with
    | [] => .error .indexError
    | a :: _ => .ok a

end Verif.PolicyEval
