import Verif.Model.Py
/-
Mixed integer linear programs, as built by the MILP solvers of
`skdecide/builders/discrete_optimization` with `mip` (`Model`, `add_var`, `add_constr`, `xsum`,
`model.objective`) or `gurobi` (`addVar`, `addConstr`, `quicksum`, `setObjective`).

The library is modelled by the meaning of the program it is given: which assignments are feasible and
which are best.  Simplifications: coefficients and right-hand sides are integers; the values of all variables
are integers (the only continuous variables of the modelled programs are fixed by an equation to a sum of
integers); the tolerances of the library are left out.  What the library returns is a parameter of the theorems:
any feasible assignment, or any best one.
-/
namespace Verif.Milp

/-- The sense of a row: `<=`, `>=`, `==`. -/
inductive Cmp where
  | le
  | ge
  | eq
  deriving DecidableEq

/-- The type of a variable: `BINARY`, or integer with lower bound `lb` and upper bound `ub` (absent: infinite). -/
inductive Kind where
  | binary
  | integer (lb : Int) (ub : Option Int)
  deriving DecidableEq

/-- `xsum(c * v for ...)`: a sum of terms. -/
abbrev Lin (V : Type) := List (Int × V)

/-- `xsum(...) <= rhs` and so on. -/
structure Row (V : Type) where
  terms : Lin V
  cmp : Cmp
  rhs : Int
  deriving DecidableEq

/-- A program: variables, rows, objective. -/
structure Program (V : Type) where
  vars : List (V × Kind)
  rows : List (Row V)
  objective : Lin V
  deriving DecidableEq

/-- The value of a sum of terms. -/
def Lin.value {V : Type} (l : Lin V) (a : V → Int) : Int := (l.map (fun t => t.1 * a t.2)).sum

/-- A value allowed by the type of the variable. -/
def Kind.Allows : Kind → Int → Prop
  | .binary, v => v = 0 ∨ v = 1
  | .integer lb ub, v => lb ≤ v ∧ ∀ u, ub = some u → v ≤ u

/-- A row is met. -/
def Row.Holds {V : Type} (r : Row V) (a : V → Int) : Prop :=
  match r.cmp with
  | .le => r.terms.value a ≤ r.rhs
  | .ge => r.terms.value a ≥ r.rhs
  | .eq => r.terms.value a = r.rhs

/-- The assignments the library may return. -/
def Program.Feasible {V : Type} (p : Program V) (a : V → Int) : Prop :=
  (∀ v k, (v, k) ∈ p.vars → k.Allows (a v)) ∧ ∀ r, r ∈ p.rows → r.Holds a

/-- The assignments the library may return when it has proved optimality (minimisation). -/
def Program.Least {V : Type} (p : Program V) (a : V → Int) : Prop :=
  p.Feasible a ∧ ∀ b, p.Feasible b → p.objective.value a ≤ p.objective.value b

/-- The same for maximisation. -/
def Program.Greatest {V : Type} (p : Program V) (a : V → Int) : Prop :=
  p.Feasible a ∧ ∀ b, p.Feasible b → p.objective.value b ≤ p.objective.value a

/-- A list comprehension whose element may raise. -/
def mapE {α β : Type} (f : α → Except PyErr β) : List α → Except PyErr (List β)
  | [] => .ok []
  | x :: xs => do
    let y ← f x
    let ys ← mapE f xs
    .ok (y :: ys)

end Verif.Milp
