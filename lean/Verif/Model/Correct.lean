import Verif.Model.Views
/-
Model of the correction of schedules with helper tasks, `skdecide/builders/discrete_optimization/rcpsp/rcpsp_model.py`
1097-1188 (`RCPSP_H_Model.evaluate`, `rcpsp_pre_helper_correction`).

Simplifications: times are natural numbers; a start found before time 0, which the code would store, is written as the
exception `assertionError`; the maps of helpers have one helper per activity; the mean reserve and the makespan of
`evaluate` are those of the base class and not repeated.  The corrected solution shares the schedule of the one given
(`copy`, 81-87), so the answer is also the schedule of the solution given after the call.
`compute_resource_consumption` of the class (640-651) is the view on the future over all resources of `Views`.
-/
namespace Verif.Correct
open Rcpsp Views

/-- `self.mode_details[id][1][res_str]` (1163, 1175). -/
def need (pb : Problem) (h : Nat) (r : String) : Except PyErr Int := do
  let ms ← pb.modes.get h
  let m ← ms.get 1
  m.needs.get r

/-- Lines 1158-1163: the consumption without the helper, which runs from `s` to `e`. -/
def remove (pb : Problem) (h s e : Nat) : List (String × List Int) → Except PyErr (List (String × List Int))
  | [] => .ok []
  | (r, row) :: rest =>
    if s < e then
      if row.length ≤ s + 1 then .error .indexError
      else do
        let n ← need pb h r
        if row.length ≤ e then .error .indexError
        else do
          let rest' ← remove pb h s e rest
          .ok ((r, addSlice (s + 1) (e + 1) (-n) row) :: rest')
    else do
      let rest' ← remove pb h s e rest
      .ok ((r, row) :: rest')

/-- `row[i]` of numpy, counted from the end for negative indices. -/
def npGet (row : List Int) (i : Int) : Except PyErr Int :=
  if 0 ≤ i then pyGet row i.toNat
  else if 0 ≤ (row.length : Int) + i then pyGet row ((row.length : Int) + i).toNat
  else .error .indexError

/-- Lines 1173-1177 for one time: the resources are checked until one is exceeded. -/
def fitsAt (pb : Problem) (h : Nat) (t : Int) : List (String × List Int) → Except PyErr Bool
  | [] => .ok true
  | (r, row) :: rest => do
    let x ← npGet row (t + 1)
    let n ← need pb h r
    let cap ← pb.resources.get r
    match cap with
    | .calendar _ => .error .typeError
    | .const c => if c < x + n then .ok false else fitsAt pb h t rest

/-- Lines 1170-1177: all times are checked. -/
def fits (pb : Problem) (h : Nat) (rows : List (String × List Int)) : Nat → Int → Except PyErr Bool
  | 0, _ => .ok true
  | k + 1, t => do
    let a ← fitsAt pb h t rows
    let b ← fits pb h rows k (t + 1)
    .ok (a && b)

/-- The loop of lines 1168-1185; the first argument is fuel, `runtimeError` means that it is used up. -/
def search (pb : Problem) (h : Nat) (rows : List (String × List Int)) (len : Nat) : Nat → Int → Except PyErr Int
  | 0, _ => .error .runtimeError
  | fuel + 1, t => do
    let good ← fits pb h rows len t
    if good then .ok t else search pb h rows len fuel (t - 1)

/-- The starts of the successors (1143). -/
def starts (sch : Schedule) : List Nat → Except PyErr (List Nat)
  | [] => .ok []
  | y :: ys => do
    let q ← sch.get y
    let r ← starts sch ys
    .ok (q.1 :: r)

/-- Lines 1139-1185 for one helper. -/
def shiftOne (pb : Problem) (modes : List Nat) (sch : Schedule) (h : Nat) : Except PyErr Schedule := do
  let succs ← pb.successors.get h
  let ss ← starts sch succs
  match ss.min? with
  | none => .error .valueError
  | some latest => do
    let p ← sch.get h
    let rows ← consumption pb sch modes none true
    let mk ← lastEnd sch
    let rows' ← remove pb h p.1 p.2 rows
    let t ← search pb h rows' (p.2 - p.1) (latest + mk + 5) ((latest : Int) - ((p.2 : Int) - p.1))
    if t < 0 then .error .assertionError
    else .ok (sch.set h (t.toNat, (t + ((p.2 : Int) - p.1)).toNat))

/-- The loop of lines 1138-1185. -/
def shiftAll (pb : Problem) (modes : List Nat) : List Nat → Schedule → Except PyErr Schedule
  | [], sch => .ok sch
  | h :: hs, sch => do
    let sch' ← shiftOne pb modes sch h
    shiftAll pb modes hs sch'

/-- The helpers with their starts (1127-1131). -/
def withStarts (sch : Schedule) : List Nat → Except PyErr (List (Nat × Nat))
  | [] => .ok []
  | h :: hs => do
    let p ← sch.get h
    let r ← withStarts sch hs
    .ok ((p.1, h) :: r)

/-- `[x for _, x in sorted(zip(starts, ids), reverse=True)]` (1134). -/
def latestFirst (l : List (Nat × Nat)) : List Nat :=
  (sortBy (fun p => -(p.1 : Int)) (sortBy (fun p => -(p.2 : Int)) l)).map Prod.snd

/-- `rcpsp_pre_helper_correction` (1123-1188); `pre` maps activities to their helper. -/
def correct (pb : Problem) (modes : List Nat) (pre : Dict Nat Nat) (sch : Schedule) : Except PyErr Schedule := do
  let l ← withStarts sch (pre.map Prod.snd)
  shiftAll pb modes (latestFirst l) sch

/-- `cumulated_helper_gap` (1102-1108). -/
def gap (sch : Schedule) (post : Dict Nat Nat) : Dict Nat Nat → Except PyErr Int
  | [] => .ok 0
  | (a, h) :: rest => do
    let p ← sch.get a
    let q ← sch.get h
    let k ← post.get a
    let s ← sch.get k
    let r ← gap sch post rest
    .ok (((p.1 : Int) - q.2) + ((s.1 : Int) - p.2) + r)

end Verif.Correct
