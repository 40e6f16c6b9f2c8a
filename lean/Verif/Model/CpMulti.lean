import Verif.Model.CpRcpsp
/-
Model of the constraint program for projects with several modes: `CP_MRCPSP_MZN` of `rcpsp/solver/cp_solvers.py`
(188-412) and the file `rcpsp/minizinc/rcpsp_multi_mode_mzn.mzn`.

A MiniZinc program is modelled as a predicate on the values of its variables.  Arrays of MiniZinc begin at 1, the
lists of the model at 0; numbers of modes and activities are those of MiniZinc.

Simplifications: sets of numbers are lists; calendars (`multi-calendar`), search annotations, output items and
statuses are left out; MiniZinc integers are unbounded; `redundant_constraint` is its argument.
-/
namespace Verif.CpMulti
open Rcpsp Milp CpRcpsp

/-- The data of `rcpsp_multi_mode_mzn.mzn`, and `modeindex_map` (`idx`: activity and mode of numbers 1, 2, …). -/
structure Multi where
  idx : List (Nat × Nat)
  modes : List (List Nat)
  dur : List Int
  rreq : List (List Int)
  rcap : List Int
  rtype : List Nat
  succ : List (List Nat)
  deriving DecidableEq

/-- Activities with their sorted modes (244-245). -/
def blocks (pb : Problem) : Except PyErr (List (Nat × List Nat)) :=
  mapE (fun act => do
    let ms ← pb.modes.get act
    .ok (act, sortBy (fun k : Nat => (k : Int)) ms.keys)) (tasks pb)

/-- The sets of numbers of the modes of each activity (240-253), numbered from `counter` on. -/
def modeSets (counter : Nat) : List (Nat × List Nat) → List (List Nat)
  | [] => []
  | (_, ks) :: rest => List.range' counter ks.length :: modeSets (counter + ks.length) rest

/-- `modeindex_map` (246-252). -/
def flat (bs : List (Nat × List Nat)) : List (Nat × Nat) := bs.flatMap (fun b => b.2.map (fun k => (b.1, k)))

/-- `init_model` without calendar (204-297). -/
def multi (pb : Problem) : Except PyErr Multi := do
  let bs ← blocks pb
  let dur ← mapE (fun p : Nat × Nat => do
    let m ← modeAt pb p.1 p.2
    .ok (m.duration : Int)) (flat bs)
  let rreq ← mapE (fun r => mapE (fun p : Nat × Nat => do
    let m ← modeAt pb p.1 p.2
    m.needs.get r) (flat bs)) pb.resources.keys
  let rcap ← mapE (fun p => number p.2) pb.resources
  let succ ← mapE (fun t => pb.successors.get t) (tasks pb)
  .ok ⟨flat bs, modeSets 1 bs, dur, rreq, rcap,
    pb.resources.keys.map (fun r => if r ∈ pb.nonRenewable then 2 else 1), succ⟩

/-- `UB` (`.mzn` 63). -/
def ub (D : Multi) : Int := (D.modes.map (fun ms => (ms.map (fun m => el D.dur (m - 1))).foldl max 0)).sum

/-- `mrun[m]`. -/
def runs (mrun : List Bool) (m : Nat) : Bool := mrun.getD (m - 1) false

/-- `mode[i]`. -/
def modesOf (D : Multi) (i : Nat) : List Nat := D.modes.getD i []

/-- `k in RRes` (51). -/
def Renewable (D : Multi) (k : Nat) : Prop := k < D.rcap.length ∧ D.rtype[k]? = some 1

/-- `are_mod_disjunct` (126-127). -/
def ModDisjunct (D : Multi) (m m' : Nat) : Prop :=
  ∃ k, Renewable D k ∧ el2 D.rreq k (m - 1) + el2 D.rreq k (m' - 1) > el D.rcap k

/-- `are_act_disjunct` (121-122). -/
def ActDisjunct (D : Multi) (i j : Nat) : Prop := ∀ m ∈ modesOf D i, ∀ m' ∈ modesOf D j, ModDisjunct D m m'

/-- The constraints of `rcpsp_multi_mode_mzn.mzn` on the variables `mrun`, `start` and `objective` and the local
variables `mi` (`adur` and `arreq` are defined by these, 67-68, 76-84). -/
structure Solves (D : Multi) (mi : Nat → Nat) (mrun : List Bool) (s : List Int) (objective : Int) : Prop where
  /-- 65 -/
  len : mrun.length = D.dur.length
  /-- 66 -/
  slen : s.length = D.modes.length
  /-- 66 -/
  times : ∀ i, i < D.modes.length → 0 ≤ el s i ∧ el s i ≤ ub D
  /-- 69 -/
  range : 0 ≤ objective ∧ objective ≤ ub D
  /-- 76-84 -/
  mode : ∀ i, i < D.modes.length → mi i ∈ modesOf D i ∧ runs mrun (mi i) = true ∧ (modesOf D i).countP (runs mrun) = 1
  /-- 88 -/
  prec : ∀ i, i < D.modes.length → ∀ j, j ∈ D.succ.getD i [] → el s i + el D.dur (mi i - 1) ≤ el s (j - 1)
  /-- 93 -/
  fits : ∀ i, i < D.modes.length → ∀ k, k < D.rcap.length → el2 D.rreq k (mi i - 1) ≤ el D.rcap k
  /-- 97-99 -/
  renewable : ∀ k, Renewable D k → Cumulative (List.range D.modes.length) (el s) (fun i => el D.dur (mi i - 1))
    (fun i => el2 D.rreq k (mi i - 1)) (el D.rcap k)
  /-- 103 -/
  nonRenewable : ∀ k, k < D.rcap.length → D.rtype[k]? = some 2 →
    ((List.range D.modes.length).map (fun i => el2 D.rreq k (mi i - 1))).sum ≤ el D.rcap k
  /-- 107-110 -/
  ends : ∀ i, i < D.modes.length → D.succ.getD i [] = [] → el s i + el D.dur (mi i - 1) ≤ objective
  /-- 110 -/
  last : ∃ i, i < D.modes.length ∧ D.succ.getD i [] = [] ∧ objective = el s i + el D.dur (mi i - 1)
  /-- 148-156, 210-215: activities that are disjunct in all modes -/
  disjunct : ∀ i j, i < j → j < D.modes.length → ActDisjunct D i j →
    (∃ k, Renewable D k ∧ ∃ m ∈ modesOf D i, ∃ m' ∈ modesOf D j, el2 D.rreq k (m - 1) + el2 D.rreq k (m' - 1) > el D.rcap k) →
    el s i + el D.dur (mi i - 1) ≤ el s j ∨ el s j + el D.dur (mi j - 1) ≤ el s i
  /-- 182-198, 216-218: activities that are disjunct in some modes -/
  apart : ∀ i j, i < j → j < D.modes.length → ¬ ActDisjunct D i j → ∀ k, Renewable D k →
    (∃ m ∈ modesOf D i, ∃ m' ∈ modesOf D j, el2 D.rreq k (m - 1) + el2 D.rreq k (m' - 1) > el D.rcap k) →
    el2 D.rreq k (mi i - 1) + el2 D.rreq k (mi j - 1) > el D.rcap k →
    el s i + el D.dur (mi i - 1) ≤ el s j ∨ el s j + el D.dur (mi j - 1) ≤ el s i

/-- The modes of `retrieve_solutions` (389-396): all modes of source and sink count as 1, run or not. -/
def retrieveModes (n : Nat) (idx : List (Nat × Nat)) (mrun : List Bool) : List Nat :=
  (mrun.zip idx).filterMap (fun p =>
    if p.1 = true ∧ p.2.1 ≠ 1 ∧ p.2.1 ≠ n then some p.2.2
    else if p.2.1 = 1 ∨ p.2.1 = n then some 1 else none)

/-- The schedule of `retrieve_solutions` (397-401). -/
def retrieveSchedule (pb : Problem) (modes : List Nat) (s : List Int) : Except PyErr (Dict Nat (Int × Int)) :=
  mapE (fun p : Int × Nat => do
    let md ← pyGet modes p.2
    let m ← modeAt pb (p.2 + 1) md
    .ok (p.2 + 1, (p.1, p.1 + (m.duration : Int)))) s.zipIdx

/-- `retrieve_solutions` for one solution (389-405): schedule and modes of the solution. -/
def retrieve (pb : Problem) (D : Multi) (mrun : List Bool) (s : List Int) : Except PyErr (Dict Nat (Int × Int) × List Nat) := do
  let modes := retrieveModes pb.modes.length D.idx mrun
  let sch ← retrieveSchedule pb modes s
  .ok (sch, (modes.drop 1).dropLast)

end Verif.CpMulti
