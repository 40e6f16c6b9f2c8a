import Mathlib.Algebra.Order.Ring.Rat
import Verif.Model.Core
/-
Model of `generic_tools/mutations/mixed_mutation.py` and of `get_available_mutations` in `generic_tools/mutations/mutation_catalog.py` (directory
`skdecide/builders/discrete_optimization`).

Weights are exact numbers.  The number `np.random.choice` draws from 0 to below 1 is a parameter, and so is the order in which the set of types is
run through.  Mutations are functions; `PermutationMutationRCPSP` and prints are left out.
-/
namespace Verif.Portfolio

/-- `self.weight_mutation / np.sum(self.weight_mutation)` (17, 40); without a sum the numbers are NaN. -/
def normalise (w : List Rat) : Option (List Rat) := if w.sum = 0 then none else some (w.map (fun x => x / w.sum))

/-- `p.cumsum()`, from `s` on. -/
def cumsum (s : Rat) : List Rat → List Rat
  | [] => []
  | x :: l => (s + x) :: cumsum (s + x) l

/-- `np.random.choice(range(n), size=1, p=p)[0]` with the number `u` drawn: checks, then the number of sums that are at most `u`. -/
def choice (n : Nat) (p : Option (List Rat)) (u : Rat) : Except PyErr Nat :=
  match p with
  | none => .error .valueError
  | some p =>
    if n = 0 ∨ p.length ≠ n ∨ p.any (fun x => decide (x < 0)) then .error .valueError
    else .ok ((cumsum 0 p).countP (fun c => decide (c ≤ u)))

/-- `BasicPortfolioMutation.mutate` (21-25), and of the class below (43-47). -/
def mutate {S M : Type} (ms : List (S → M)) (w : List Rat) (u : Rat) (s : S) : Except PyErr M :=
  match choice ms.length (normalise w) u with
  | .error e => .error e
  | .ok i =>
    match ms[i]? with
    | some m => .ok (m s)
    | none => .error .indexError

/-- `get_available_mutations` (mutation_catalog.py 49-63): the second value; `types` are the types that are present, in the order of the set. -/
def available {T M : Type} [DecidableEq T] (catalog : Dict T (Dict String M)) : List T → List M
  | [] => []
  | t :: ts =>
    match catalog.get? t with
    | some d => d.map Prod.snd ++ available catalog ts
    | none => available catalog ts

end Verif.Portfolio
