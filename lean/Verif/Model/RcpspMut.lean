import Verif.Model.Core
/-
Model of `rcpsp/mutations/mutation_rcpsp.py` (`PermutationMutationRCPSP`) with the parts of `RCPSPSolution` it uses (`rcpsp/rcpsp_model.py`; directory
`skdecide/builders/discrete_optimization`).

Schedule generation (C26, C27), the permutation of a schedule (C58) and the objective are parameters: `sgs` gives the schedule, with its feasibility,
of a permutation and modes, `order` the permutation of a schedule or none if it raises, `obj` the objective.  Solutions have a schedule.  The other
mutation (C20, C46) is given by the new permutation or the new modes.  Local moves are left out.
-/
namespace Verif.RcpspMut

/-- `RCPSPSolution` with a schedule (rcpsp_model.py 25-43). -/
structure Sol (P M S : Type) where
  perm : P
  modes : M
  sched : S
  std : P
  recompute : Bool
deriving DecidableEq, Repr

/-- What the other mutation makes new. -/
inductive Change (P M : Type) where
  | perm (p : P)
  | modes (m : M)

variable {P M S V : Type}

/-- `copy` and `lazy_copy` (rcpsp_model.py 81-95) of a solution with a schedule: line 40 is run after line 38. -/
def copy (s : Sol P M S) : Sol P M S := { s with recompute := false }

/-- `setattr` (rcpsp_model.py 76-79). -/
def set (s : Sol P M S) : Change P M → Sol P M S
  | .perm p => { s with perm := p, recompute := true }
  | .modes m => { s with modes := m }

/-- `evaluate` (rcpsp_model.py 518-532, and 153, 268): the solution as it is afterwards, and the objective. -/
def evaluate (sgs : P → M → S) (obj : M → S → V) (s : Sol P M S) : Sol P M S × V :=
  if s.recompute then ({ s with sched := sgs s.perm s.modes, recompute := false }, obj s.modes (sgs s.perm s.modes))
  else (s, obj s.modes s.sched)

/-- `mutate` of the other mutation (permutation_mutations.py 50-56, mutation_integer.py 44-52). -/
def inner (c : Change P M) (s : Sol P M S) : Sol P M S := set (copy s) c

/-- `mutate` (mutation_rcpsp.py 23-30): what raises leaves the rest of the block out. -/
def mutate (order : S → Option P) (c : Change P M) (s : Sol P M S) : Sol P M S :=
  match order (inner c s).sched with
  | some p => { inner c s with std := p, recompute := true }
  | none => inner c s

/-- `mutate_and_compute_obj` (mutation_rcpsp.py 32-39). -/
def mutateObj (sgs : P → M → S) (order : S → Option P) (obj : M → S → V) (c : Change P M) (s : Sol P M S) : Sol P M S × V :=
  match order (evaluate sgs obj (inner c s)).1.sched with
  | some p => ({ (evaluate sgs obj (inner c s)).1 with recompute := true, std := p }, (evaluate sgs obj (inner c s)).2)
  | none => ({ (evaluate sgs obj (inner c s)).1 with recompute := true }, (evaluate sgs obj (inner c s)).2)

end Verif.RcpspMut
