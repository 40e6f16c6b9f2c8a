import Verif.Model.Rcpsp
import Verif.Model.RcpspLp
/-
Model of the constraint programs for projects: `rcpsp/solver/cp_solvers.py` (`CP_RCPSP_MZN`) and
the file `rcpsp/minizinc/rcpsp_single_mode_mzn.mzn`.

A MiniZinc program is modelled as a predicate on the values of its variables; what a solver returns is any value of
the variables that satisfies the predicate.  Arrays of MiniZinc begin at 1, the lists of the model at 0.

Simplifications: the rows of resources are in the order of the dictionary (46-118 sorts them; every constraint is
for all rows); search annotations, output items and statuses are left out; MiniZinc integers are unbounded.
-/
namespace Verif.CpRcpsp
open Rcpsp Milp

/-- Element `i + 1` of an array of MiniZinc. -/
def el (l : List Int) (i : Nat) : Int := l.getD i 0

/-- Element `[r + 1, i + 1]`. -/
def el2 (l : List (List Int)) (r i : Nat) : Int := el (l.getD r []) i

/-- `cumulative(s, d, r, b)` (`cumulative.mzn` of the MiniZinc library) for the tasks `ts`: at no time do the running
tasks require more than `b`. -/
def Cumulative (ts : List Nat) (s d r : Nat → Int) (b : Int) : Prop :=
  ∀ t : Int, ((ts.filter (fun i => decide (s i ≤ t ∧ t < s i + d i))).map r).sum ≤ b

/-! ### One mode -/

/-- The data of `rcpsp_single_mode_mzn.mzn` (30-40). -/
structure Single where
  rc : List Int
  d : List Int
  rr : List (List Int)
  suc : List (List Nat)
  deriving DecidableEq

/-- `int(self.rcpsp_model.resources[r])` (69-70). -/
def number : Capacity → Except PyErr Int
  | .const c => .ok c
  | .calendar _ => .error .typeError

/-- `sorted(self.rcpsp_model.mode_details.keys())` (76). -/
def tasks (pb : Problem) : List Nat := sortBy (fun k : Nat => (k : Int)) pb.modes.keys

/-- `mode_details[task][mode]`. -/
def modeAt (pb : Problem) (task mode : Nat) : Except PyErr Mode := do
  let ms ← pb.modes.get task
  ms.get mode

/-- `CP_RCPSP_MZN.init_model` (64-91). -/
def single (pb : Problem) : Except PyErr Single := do
  let rc ← mapE (fun p => number p.2) pb.resources
  let d ← mapE (fun t => do
    let m ← modeAt pb t 1
    .ok (m.duration : Int)) (tasks pb)
  let rr ← mapE (fun r => mapE (fun t => do
    let m ← modeAt pb t 1
    m.needs.get r) (tasks pb)) pb.resources.keys
  let suc ← mapE (fun t => pb.successors.get t) (tasks pb)
  .ok ⟨rc, d, rr, suc⟩

/-- `init_model` with `partial_solution` (92-133): `PartialSolution` has no attribute `start_together` (113). -/
def singleFrom (pb : Problem) (p : Option RcpspLp.Partial) : Except PyErr Single := do
  let data ← single pb
  match p with
  | none => .ok data
  | some _ => .error .attributeError

/-- `t_max` (`.mzn` 43). -/
def tMax (D : Single) : Int := D.d.sum

/-- `RTasks` (99-101). -/
def rTasks (D : Single) (r : Nat) : List Nat :=
  (List.range D.d.length).filter (fun i => decide (el2 D.rr r i > 0 ∧ el D.d i > 0))

/-- The constraints of `rcpsp_single_mode_mzn.mzn` on the variables `s` and `objective`. -/
structure Solves (D : Single) (s : List Int) (objective : Int) : Prop where
  /-- 49 -/
  len : s.length = D.d.length
  /-- 44, 49: `array [Tasks] of var Times: s`, `Times = 0..t_max-1` -/
  times : ∀ i, i < D.d.length → 0 ≤ el s i ∧ el s i ≤ tMax D - 1
  /-- 50 -/
  range : 0 ≤ objective ∧ objective ≤ tMax D
  /-- 57-61 -/
  prec : ∀ i, i < D.d.length → ∀ j, j ∈ D.suc.getD i [] → el s i + el D.d i ≤ el s (j - 1)
  /-- 65-73 -/
  apart : ∀ i j, i < j → j < D.d.length → (∃ r, r < D.rc.length ∧ el2 D.rr r i + el2 D.rr r j > el D.rc r) →
    el s i + el D.d i ≤ el s j ∨ el s j + el D.d j ≤ el s i
  /-- 76-84: an assertion -/
  fits : ∀ r, r < D.rc.length → ∀ i, i < D.d.length → el D.d i > 0 → el2 D.rr r i ≤ el D.rc r
  /-- 95-115 -/
  cumulative : ∀ r, r < D.rc.length → rTasks D r ≠ [] ∧ ((rTasks D r).map (el2 D.rr r)).sum > el D.rc r →
    Cumulative (rTasks D r) (el s) (el D.d) (el2 D.rr r) (el D.rc r)
  /-- 119-123 -/
  ends : ∀ i, i < D.d.length → D.suc.getD i [] = [] → el s i + el D.d i ≤ objective

/-- `retrieve_solutions` (153-158): the schedule of the starts. -/
def retrieve (pb : Problem) (s : List Int) : Except PyErr (Dict Nat (Int × Int)) :=
  mapE (fun p : Int × Nat => do
    let m ← modeAt pb (p.2 + 1) 1
    .ok (p.2 + 1, (p.1, p.1 + (m.duration : Int)))) s.zipIdx

end Verif.CpRcpsp
