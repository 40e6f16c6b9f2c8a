import Verif.Model.Milp
import Verif.Model.Facility
/-
Model of `facility/solvers/facility_lp_solver.py` (directory
`skdecide/builders/discrete_optimization`): the pruning of facility/customer pairs, the program (the same in
`LP_Facility_Solver`, `LP_Facility_Solver_CBC` and `LP_Facility_Solver_PyMip`) and the reading of a solution.

The counts of facilities and customers are the lengths of the lists; costs are exact integers, as in `Facility`.
`numpy.argsort` does not fix the order of equal costs: its results are parameters.  A pair that is
pruned has the number 0 instead of a variable; it adds nothing to a sum.
-/
namespace Verif.FacilityLp
open Verif.Milp Verif.Facility

/-- The variables `x[f, c]` (78-88) and `used[f]` (90). -/
inductive Var where
  | x (f c : Nat)
  | used (f : Nat)
  deriving DecidableEq

/-- `facilities[f].setup_cost`, for a position of the list. -/
def setupOf (p : Problem) (f : Nat) : Int := ((p.facilities[f]?).map Fac.setup).getD 0

/-- `facilities[f].capacity`, for a position of the list. -/
def capOf (p : Problem) (f : Nat) : Int := ((p.facilities[f]?).map Fac.capacity).getD 0

/-- `customers[c].demand`, for a position of the list. -/
def demandOf (p : Problem) (c : Nat) : Int := p.customers.getD c 0

/-- `matrix_fc_indicator[f, c] == 2` (`prune_search_space`, 31-44): `sortedCosts` are the facilities by setup cost,
`closest c` by connection cost to customer `c`. -/
def kept (sortedCosts : List Nat) (closest : Nat → List Nat) (nCheapest nShortest : Nat) (f c : Nat) : Bool :=
  (sortedCosts.take nCheapest).contains f || ((closest c).take nShortest).contains f

/-- `w * x[f, c]` in a sum. -/
def term (keep : Nat → Nat → Bool) (w : Int) (f c : Nat) : Lin Var :=
  if keep f c then [(w, .x f c)] else []

/-- `constraints_customer[c]` (91-93, 272-274, 444-446). -/
def customerRow (p : Problem) (keep : Nat → Nat → Bool) (c : Nat) : Row Var :=
  ⟨(List.range p.facilities.length).flatMap (fun f => term keep 1 f c), .eq, 1⟩

/-- `used[f] >= x[f, c]` (97, 277-278, 449-450). -/
def usedRow (keep : Nat → Nat → Bool) (f c : Nat) : Row Var := ⟨(1, .used f) :: term keep (-1) f c, .ge, 0⟩

/-- `constraint_capacity[f]` (98-99, 279-281, 451-453). -/
def capacityRow (p : Problem) (keep : Nat → Nat → Bool) (f : Nat) : Row Var :=
  ⟨(List.range p.customers.length).flatMap (fun c => term keep (demandOf p c) f c), .le, capOf p f⟩

/-- `init_model` (62-124, 244-297, 414-470) after the pruning. -/
def initModel (p : Problem) (keep : Nat → Nat → Bool) : Program Var :=
  { vars := (List.range p.facilities.length).flatMap (fun f =>
        ((List.range p.customers.length).filter (fun c => keep f c)).map (fun c => (.x f c, .binary))) ++
      (List.range p.facilities.length).map (fun f => (.used f, .binary)),
    rows := (List.range p.customers.length).map (customerRow p keep) ++
      (List.range p.facilities.length).flatMap (fun f =>
        (List.range p.customers.length).map (usedRow keep f) ++ [capacityRow p keep f]),
    objective := (List.range p.facilities.length).map (fun f => (setupOf p f, .used f)) ++
      (List.range p.facilities.length).flatMap (fun (f : Nat) =>
        (List.range p.customers.length).flatMap (fun (c : Nat) => term keep (p.cost f c) f c)) }

/-- The value of `x[f, c]` in a solution: the number 0 for a pruned pair (129-133). -/
def valueOf (keep : Nat → Nat → Bool) (a : Var → Int) (f c : Nat) : Int := if keep f c then a (.x f c) else 0

/-- The loop of `retrieve` (126-137, 299-310, 485-495) over the rest of the keys. -/
def readFrom (keep : Nat → Nat → Bool) (a : Var → Int) : List (Nat × Nat) → List Int → Except PyErr (List Int)
  | [], sol => .ok sol
  | (f, c) :: ks, sol =>
    if 1 ≤ 2 * valueOf keep a f c then do
      let sol' ← pySet sol c (f : Int)
      readFrom keep a ks sol'
    else readFrom keep a ks sol

/-- `retrieve` (126-137, 299-310, 485-495): the assignment. -/
def retrieve (p : Problem) (keep : Nat → Nat → Bool) (a : Var → Int) : Except PyErr (List Int) :=
  readFrom keep a ((List.range p.facilities.length).flatMap (fun f => (List.range p.customers.length).map (fun c => (f, c))))
    (List.replicate p.customerCount 0)

end Verif.FacilityLp
