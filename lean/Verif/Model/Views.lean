import Verif.Model.Rcpsp
/-
Model of `skdecide/builders/discrete_optimization/rcpsp/rcpsp_utils.py`: the consumption of resources over time
(14-57), the schedules of the units of each resource (163-266) and the differences of starting times (355-363).

Simplifications: activity numbers are natural numbers from 1 on; times are natural numbers and requirements
integers; activities do not end before they start; a numpy array over time is a list; the two-dimensional arrays of the unit schedules are functions of
time index and unit (all indices used lie within their shapes); `print` calls, the boxes for plots and the array
`activity_last_n_hours` are left out; plots are not modelled.
-/
namespace Verif.Views
open Rcpsp

/-- `rcpsp_schedule`: activity to `start_time` and `end_time`. -/
abbrev Schedule := Dict Nat (Nat × Nat)

/-- `modes_extended` (18-20). -/
def extend (modes : List Nat) : List Nat := 1 :: modes ++ [1]

/-- `mode_details[act_id][modes_extended[act_id - 1]][res]` (28). -/
def useOf (pb : Problem) (ext : List Nat) (act : Nat) (res : String) : Except PyErr Int := do
  let m ← details pb ext act
  m.needs.get res

/-- `rcpsp_schedule[max(rcpsp_schedule)]['end_time']` (21-22). -/
def lastEnd (sch : Schedule) : Except PyErr Nat :=
  match sch.keys.max? with
  | some a => do
    let p ← sch.get a
    .ok p.2
  | none => .error .valueError

/-- `row[a:b] += u` of numpy, which cuts slices to the length of the row (30-33). -/
def addSlice (a b : Nat) (u : Int) (row : List Int) : List Int :=
  row.mapIdx (fun i x => if a ≤ i ∧ i < b then x + u else x)

/-- Lines 27-33 for one activity. -/
def addUses (pb : Problem) (ext : List Nat) (future : Bool) (act s e : Nat) :
    List (String × List Int) → Except PyErr (List (String × List Int))
  | [] => .ok []
  | (res, row) :: rest => do
    let u ← useOf pb ext act res
    let r ← addUses pb ext future act s e rest
    .ok ((res, if future then addSlice (s + 1) (e + 1) u row else addSlice s e u row) :: r)

/-- Lines 26-33. -/
def addAll (pb : Problem) (ext : List Nat) (future : Bool) :
    Schedule → List (String × List Int) → Except PyErr (List (String × List Int))
  | [], rows => .ok rows
  | (act, s, e) :: rest, rows => do
    let rows' ← addUses pb ext future act s e rows
    addAll pb ext future rest rows'

/-- `compute_resource_consumption` (14-35): the row of each resource, over the times `0 … makespan`. -/
def consumption (pb : Problem) (sch : Schedule) (modes : List Nat) (resources : Option (List String)) (future : Bool) :
    Except PyErr (List (String × List Int)) := do
  let mk ← lastEnd sch
  let rs := resources.getD pb.resources.keys
  addAll pb (extend modes) future sch (rs.map (fun r => (r, List.replicate (mk + 1) 0)))

/-- `compute_nice_resource_consumption` (38-57): per resource the merged times and consumptions. -/
def niceConsumption (pb : Problem) (sch : Schedule) (modes : List Nat) (resources : Option (List String)) :
    Except PyErr (List (List Nat × List Int)) := do
  let f ← consumption pb sch modes resources true
  let p ← consumption pb sch modes resources false
  let mk ← lastEnd sch
  .ok ((f.zip p).map (fun q =>
    ((List.range (mk + 1)).flatMap (fun t => [t, t]), (q.1.2.zip q.2.2).flatMap (fun c => [c.1, c.2]))))

/-- `all_diff_start_time` (355-363). -/
def diffStarts (sch sch' : Schedule) : Schedule → Except PyErr (Dict Nat Int)
  | [] => .ok []
  | (act, _) :: rest => do
    let p ← sch.get act
    let q ← sch'.get act
    let r ← diffStarts sch sch' rest
    .ok ((act, (p.1 : Int) - q.1) :: r)

/-- The arrays of one resource (187-207): `activity` (time index, unit) with 0 for free, and `total_activity`. -/
structure Usage where
  activity : Nat → Nat → Nat
  total : Nat → Nat

/-- `min(l, key=f)`: the first of the smallest. -/
def firstMin (f : Nat → Nat) : List Nat → Option Nat
  | [] => none
  | x :: xs =>
    match firstMin f xs with
    | none => some x
    | some y => if f y < f x then some y else some x

/-- `range_interest` (227-234): all units, or those on duty at the start. -/
def unitsAt (x : Nat) : Capacity → Except PyErr (List Nat)
  | .const c => .ok (List.range c.toNat)
  | .calendar l => do
    let c ← pyGet l x
    .ok (List.range c.toNat)

/-- Lines 242-249: unit `i` works on the activity from index `x` to index `y`. -/
def book (act x y i : Nat) (u : Usage) : Usage :=
  { activity := fun t j => if j = i ∧ x ≤ t ∧ t < y then act else u.activity t j
    total := fun j => if j = i then u.total j + (y - x) else u.total j }

/-- The units free at index `x` (238-239). -/
def freeUnits (units : List Nat) (x : Nat) (u : Usage) : List Nat := units.filter (fun i => u.activity x i == 0)

/-- The loop `while rneeded > 0` (235-264). -/
def assign (units : List Nat) (act x y : Nat) : Nat → Usage → Usage
  | 0, u => u
  | n + 1, u =>
    match firstMin u.total (freeUnits units x u) with
    | some i => assign units act x y n (book act x y i u)
    | none => u

/-- Lines 221-264 for one activity, resource by resource. -/
def assignAll (pb : Problem) (m : Mode) (act x y : Nat) : Dict String Usage → Except PyErr (Dict String Usage)
  | [] => .ok []
  | (r, u) :: rest => do
    let n ← m.needs.get r
    let cap ← pb.resources.get r
    let units ← unitsAt x cap
    let rest' ← assignAll pb m act x y rest
    .ok ((r, assign units act x y n.toNat u) :: rest')

/-- `time_to_index[t]` (210-211). -/
def timeIndex (lo hi t : Nat) : Except PyErr Nat := if lo ≤ t ∧ t ≤ hi then .ok (t - lo) else .error .keyError

/-- The loop over the activities (213-264); activities that take no time are skipped. -/
def assignActs (pb : Problem) (ext : List Nat) (sch : Schedule) (lo hi : Nat) :
    List Nat → Dict String Usage → Except PyErr (Dict String Usage)
  | [], st => .ok st
  | act :: rest, st => do
    let mode ← pyGet ext (act - 1)
    let p ← sch.get act
    if p.2 = p.1 then assignActs pb ext sch lo hi rest st
    else do
      let ms ← pb.modes.get act
      let m ← ms.get mode
      let x ← timeIndex lo hi p.1
      let y ← timeIndex lo hi p.2
      let st' ← assignAll pb m act x y st
      assignActs pb ext sch lo hi rest st'

/-- `sorted(rcpsp_schedule, key=lambda x: 100000*rcpsp_schedule[x][…]+x)` (176-179). -/
def sortedBy (key : Nat × Nat → Nat) (sch : Schedule) : Schedule :=
  sortBy (fun p : Nat × Nat × Nat => ((100000 * key p.2 + p.1 : Nat) : Int)) sch

/-- `array_ressource_usage` before the loop (187-207). -/
def noUsage (resources : List String) : Dict String Usage :=
  resources.foldl (fun d r => d.set r { activity := fun _ _ => 0, total := fun _ => 0 }) []

/-- The numbers of units are looked up when the arrays are made (187-207); `max` of an empty calendar and
`np.zeros` of a negative number raise. -/
def checkCaps (pb : Problem) : List String → Except PyErr Unit
  | [] => .ok ()
  | r :: rs => do
    let cap ← pb.resources.get r
    match cap with
    | .const c => if c < 0 then .error .valueError else checkCaps pb rs
    | .calendar l =>
      match l.max? with
      | none => .error .valueError
      | some c => if c < 0 then .error .valueError else checkCaps pb rs

/-- `compute_schedule_per_resource_individual` (163-266); the first time and the arrays of each resource. -/
def individual (pb : Problem) (sch : Schedule) (modes : List Nat) (resources : Option (List String)) :
    Except PyErr (Nat × Dict String Usage) := do
  let rs := resources.getD pb.resources.keys
  let byStart := sortedBy Prod.fst sch
  let byEnd := sortedBy Prod.snd sch
  match byEnd.getLast?, byEnd.head? with
  | some q, some p => do
    checkCaps pb rs
    let st ← assignActs pb (extend modes) sch p.2.1 q.2.2 (byStart.map Prod.fst) (noUsage rs)
    .ok (p.2.1, st)
  | _, _ => .error .indexError

end Verif.Views
