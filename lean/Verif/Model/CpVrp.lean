import Verif.Model.Vrp
/-
Model of the program `vrp/minizinc/vrp.mzn`, of the data that `vrp/solver/vrp_cp.py` gives it and of the search around it
(directory `skdecide/builders/discrete_optimization`).

A MiniZinc program is modelled as a predicate on the values of its variables.  Distances are exact integers, read as multiples of
`1 / u`; the program is given them cut off to whole units.  Vehicles are alike.  Not modelled: time limits and statuses, and that
importing the file raises as things stand (`vrp/solver_toolbox.py`, from which it imports two names, is empty).
-/
namespace Verif.CpVrp

/-- The arguments of `cp_solving` (18): `customers` counts the ones that are not the depot 0. -/
structure Data where
  customers : Nat
  vehicles : Nat
  capacity : Int
  demand : Nat → Int
  dist : Nat → Nat → Int
  u : Nat := 1

/-- `nb_customers_virtual` (`vrp_cp.py` 24, `vrp.mzn` 8). -/
def Data.size (D : Data) : Nat := D.customers + D.vehicles + 1

/-- `int(matrix[i, j])` with `compute_length_matrix` (`vrp_toolbox.py` 11-19): one call for each pair, the smaller index first. -/
def units (D : Data) (i j : Nat) : Int :=
  (if i < j then D.dist i j else if j < i then D.dist j i else 0).tdiv D.u

/-- `demands` (28) by number from 1: customers, then copies of the depot. -/
def demandOf (D : Data) (x : Nat) : Int := if x ≤ D.customers then D.demand x else 0

/-- `recomputed_dist` (31-35) by numbers from 1. -/
def distOf (D : Data) (x y : Nat) : Int :=
  if x ≤ D.customers then (if y ≤ D.customers then units D x y else units D x 0)
  else (if y ≤ D.customers then units D 0 y else 0)

/-- `sum(i in a..b)(demand[circuit_vrp[i]])` -/
def demandSum (D : Data) (cs : List Nat) (a b : Nat) : Int :=
  (((cs.drop (a - 1)).take (b + 1 - a)).map (demandOf D)).sum

/-- The constraints of `vrp.mzn` (19-36) on `circuit_vrp`, `index_end_subcircuit`, `capa` and `objective`. -/
structure Solves (D : Data) (cs ends : List Nat) (capa : List Int) (obj : Int) : Prop where
  len : cs.length = D.size ∧ ends.length = D.vehicles ∧ capa.length = D.vehicles
  dom : (∀ x ∈ cs, 1 ≤ x ∧ x ≤ D.size) ∧ (∀ e ∈ ends, 1 ≤ e ∧ e ≤ D.size) ∧ ∀ x ∈ capa, 0 ≤ x ∧ x ≤ D.capacity
  /-- `circuit_vrp[index_end_subcircuit[v]]==virtual_nodes[v+1]` -/
  close : ∀ (v e : Nat), ends[v]? = some e → cs[e - 1]? = some (D.customers + v + 2)
  load : ∀ (v a b : Nat), ends[v]? = some a → ends[v + 1]? = some b → capa[v + 1]? = some (demandSum D cs a b)
  loadFirst : ∀ b : Nat, ends[0]? = some b → capa[0]? = some (demandSum D cs 1 b)
  first : cs[0]? = some (D.customers + 1)
  last : cs[D.size - 1]? = some (D.customers + D.vehicles + 1)
  diff : cs.Nodup
  incr : ends.Pairwise (· ≤ ·)
  /-- `decreasing([index_end_subcircuit[i+1]-index_end_subcircuit[i] | ...])` -/
  decr : ∀ (i a b c : Nat), ends[i]? = some a → ends[i + 1]? = some b → ends[i + 2]? = some c → (c : Int) - b ≤ (b : Int) - a
  obj : obj = ((cs.zip cs.tail).map (fun p => distOf D p.1 p.2)).sum

/-- The constraints added for a neighbourhood (47-51): positions outside `free` keep their values. -/
def Child (free : List Nat) (cur cs : List Nat) : Prop := ∀ i : Nat, i ∉ free → cs[i]? = cur[i]?

/-- Lines 55-60: an answer that is no worse replaces the incumbent. -/
def keep (cur : List Nat × Int) (res : Option (List Nat × Int)) : List Nat × Int :=
  match res with
  | some r => if r.2 ≤ cur.2 then r else cur
  | none => cur

/-- The loop of lines 45-70; the answers of the solver are given. -/
def improve (cur : List Nat × Int) : List (Option (List Nat × Int)) → List Nat × Int
  | [] => cur
  | r :: l => improve (keep cur r) l

end Verif.CpVrp
