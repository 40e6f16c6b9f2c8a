import Verif.Model.Py

/-!
What the C++ planners for stochastic domains ask of the domain, and the parts that they share.
Numbers are exact rationals.  The callbacks into the domain do not raise and always give the same
answer to the same question.
-/
namespace Verif

/-- `get_applicable_actions(s).get_elements()`; `get_next_state_distribution(s, a).get_values()`
together with `get_transition_cost(s, a, s')`, so probability, cost and next state; and the goal
checker given to the solver. -/
structure Mdp (σ α : Type) where
  actions : σ → List α
  outcomes : σ → α → List (Rat × Rat × σ)
  goal : σ → Bool

namespace Mdp

/-- The expected cost of one action when `v` is what is still to pay afterwards, discounted:
the loop `value += probability * (cost + discount * best_value)`. -/
def q (m : Mdp σ α) (discount : Rat) (v : σ → Rat) (s : σ) (a : α) : Rat :=
  ((m.outcomes s a).map fun o => o.1 * (o.2.1 + discount * v o.2.2)).sum

/-- The loop over the actions that keeps the first one with the strictly smallest value
(starting from infinity); no action gives a null pointer. -/
def greedy (value : α → Rat) : List α → Option (α × Rat)
  | as => as.foldl (fun best a => match best with
    | none => some (a, value a)
    | some (b, v) => if value a < v then some (a, value a) else some (b, v)) none

end Mdp
end Verif
