import Verif.Model.Py

/-!
The greedy solver, skdecide/hub/solver/simple_greedy/simple_greedy.py.
Rewards and probabilities are exact; the domain is as the solver sees it (after the automatic casts of core.py 560-655).
-/
namespace Verif.SimpleGreedy

/-- The part of the domain the solver asks for. -/
structure Dom (σ α : Type) where
  /-- `get_applicable_actions(memory).get_elements()` -/
  applicable : σ → List α
  /-- `is_transition_value_dependent_on_next_state()` (dynamics.py 320-343; `True` unless overridden) -/
  dependent : Bool
  /-- `get_next_state_distribution(memory, [a]).get_values()` -/
  next : σ → α → List (σ × Rat)
  /-- `get_transition_value(memory, [a], s').reward`; without `s'` when not dependent -/
  reward : σ → α → Option σ → Rat

variable {σ α : Type}

/-- Lines 35-37: `sum(p * reward for s, p in next_state_prob)`, from 0. -/
def expected (d : Dom σ α) (s : σ) (a : α) : Rat :=
  ((d.next s a).map fun q => q.2 * d.reward s a (some q.1)).sum

/-- Lines 31-40: the values of the actions.  When values do not depend on the next state, line 39 iterates over the space itself: no
class of spaces defines `__iter__` or `__getitem__` (core.py 49-130, hub/space/gym/gym.py), so Python raises `TypeError`. -/
def values (d : Dom σ α) (s : σ) : Except PyErr (List Rat) :=
  if d.dependent then .ok ((d.applicable s).map (expected d s)) else .error .typeError

/-- Line 41: `max(range(len(values)), key=...)`, from position `i` on with the best `(j, v)` so far. -/
def argmaxFrom : Nat → Rat → Nat → List Rat → Nat
  | j, _, _, [] => j
  | j, v, i, x :: xs => if v < x then argmaxFrom i x (i + 1) xs else argmaxFrom j v (i + 1) xs

/-- Line 41; `max` of nothing raises `ValueError`. -/
def argmax : List Rat → Except PyErr Nat
  | [] => .error .valueError
  | x :: xs => .ok (argmaxFrom 0 x 1 xs)

/-- Lines 26-42, `_get_next_action`. -/
def answer (d : Dom σ α) (s : σ) : Except PyErr α := do
  let vs ← values d s
  let i ← argmax vs
  match (d.applicable s)[i]? with
  | some a => return a
  | none => .error .indexError

end Verif.SimpleGreedy
