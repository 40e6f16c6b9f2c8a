import Verif.Model.CpMulti
/-
Model of the constraint program that only chooses modes: `CP_MRCPSP_MZN_MODES` of `rcpsp/solver/cp_solvers.py` (654-803) and
the file `rcpsp/minizinc/mrcpsp_mode_satisfy.mzn`.

A MiniZinc program is modelled as a predicate on the values of its variables.  Simplifications as in `CpMulti`; partial
solutions and prints are left out.
-/
namespace Verif.CpModes
open Rcpsp Milp CpRcpsp CpMulti

/-- The data of the program and `modeindex_map`. -/
structure Data where
  idx : Dict Nat (Nat × Nat)
  nOpt : Nat
  modes : List (List Nat)
  rreq : List (List Int)
  rcap : List Int
  rtype : List Nat
  deriving DecidableEq

/-- Activities with their modes, in the order of the dictionary (691-692). -/
def blocks (pb : Problem) : Except PyErr (List (Nat × List Nat)) :=
  mapE (fun act => do
    let ms ← pb.modes.get act
    .ok (act, ms.keys)) (tasks pb)

/-- The loop over the activities (691-701): the number of a mode is its own number added to that of the last mode of the
activity before; `tmp[-1]` raises for an activity without modes. -/
def numberModes : Nat → Dict Nat (Nat × Nat) → List (Nat × List Nat) → Except PyErr (List (List Nat) × Dict Nat (Nat × Nat))
  | _, d, [] => .ok ([], d)
  | counter, d, (t, ks) :: rest =>
    match ks.getLast? with
    | none => .error .indexError
    | some last => do
      let r ← numberModes (counter + last) (ks.foldl (fun d k => d.set (counter + k) (t, k)) d) rest
      .ok (ks.map (counter + ·) :: r.1, r.2)

/-- `max(r)` (725). -/
def greatest : Capacity → Except PyErr Int
  | .const _ => .error .typeError
  | .calendar l => match l.max? with
    | some c => .ok c
    | none => .error .valueError

/-- `rcap` (722-726): the first resource decides for all; numbers are expected by the program. -/
def caps (pb : Problem) : Except PyErr (List Int) :=
  match pb.resources with
  | [] => .error .indexError
  | (_, .calendar _) :: _ => mapE (fun p => greatest p.2) pb.resources
  | (_, .const _) :: _ => mapE (fun p => number p.2) pb.resources

/-- `init_model` (667-732). -/
def init (pb : Problem) : Except PyErr Data := do
  let bs ← blocks pb
  let r ← numberModes 0 [] bs
  let rreq ← mapE (fun res => mapE (fun p : Nat × Nat => do
    let m ← modeAt pb p.1 p.2
    m.needs.get res) (flat bs)) pb.resources.keys
  let rcap ← caps pb
  .ok ⟨r.2, (flat bs).length, r.1, rreq, rcap, pb.resources.keys.map (fun res => if res ∈ pb.nonRenewable then 2 else 1)⟩

/-- The constraints of `mrcpsp_mode_satisfy.mzn` on `mrun` and the local variables `mi` (`arreq` is defined by these). -/
structure Solves (D : Data) (mi : Nat → Nat) (mrun : List Bool) : Prop where
  /-- `array[Act] of set of Mod: modes` (32): other numbers are refused -/
  size : ∀ S ∈ D.modes, ∀ m ∈ S, 1 ≤ m ∧ m ≤ D.nOpt
  /-- 59 -/
  len : mrun.length = D.nOpt
  /-- 66-72 -/
  mode : ∀ i, i < D.modes.length → mi i ∈ D.modes.getD i [] ∧ runs mrun (mi i) = true ∧ (D.modes.getD i []).countP (runs mrun) = 1
  /-- 75 -/
  total : ∀ k, k < D.rcap.length → D.rtype[k]? = some 2 →
    ((List.range D.modes.length).map (fun i => el2 D.rreq k (mi i - 1))).sum ≤ el D.rcap k
  /-- 77 -/
  fits : ∀ k, k < D.rcap.length → D.rtype[k]? = some 1 → ∀ i, i < D.modes.length → el2 D.rreq k (mi i - 1) ≤ el D.rcap k

/-- The loop of `retrieve_solutions` (765-769) over `mrun` with positions. -/
def retrieveLoop (n : Nat) (idx : Dict Nat (Nat × Nat)) : List (Bool × Nat) → List Nat → Except PyErr (List Nat)
  | [], modes => .ok modes
  | (run, i) :: rest, modes =>
    if run = true then do
      let t ← idx.get (i + 1)
      if t.1 ≠ 1 ∧ t.1 ≠ n then do
        let modes' ← pySet modes (t.1 - 1) t.2
        retrieveLoop n idx rest modes'
      else retrieveLoop n idx rest modes
    else retrieveLoop n idx rest modes

/-- `retrieve_solutions` for one answer (764-770). -/
def retrieve (pb : Problem) (D : Data) (mrun : List Bool) : Except PyErr (List Nat) :=
  retrieveLoop pb.modes.length D.idx mrun.zipIdx (List.replicate pb.modes.length 1)

end Verif.CpModes
