import Verif.Model.MultiSkill

/-! The project in which skills are resources: `skdecide/builders/discrete_optimization/rcpsp_multiskill/rcpsp_multiskill.py`,
`build_multimode_rcpsp_calendar_representative` (401-437).

Simplifications: levels are rational numbers; `resources_availability` has exactly the resources of `resources_set`; names of tasks are
left out.  `first` is the resource that happens to be the first in the list made of the set of resources. -/

namespace Verif.MultiSkill
open Verif.Rcpsp

/-- The length of the rows of skills (404-409). -/
def skillLen (pb : Problem) (first : String) : Except PyErr Nat :=
  if pb.resources.isEmpty then .ok pb.horizon else do
    let row ← pb.resources.get first
    .ok row.length

/-- Lines 414-416 for day `j`: `skills_availability[s][min(j, len(skills_availability[s])-1)] += skill_value` for all skills.  An empty row
has no last element. -/
def credit (j : Nat) : Dict String Rat → Dict String (List Rat) → Except PyErr (Dict String (List Rat))
  | [], rows => .ok rows
  | (s, v) :: rest, rows => do
    let row ← rows.get s
    if row.isEmpty then .error .indexError else credit j rest (rows.set s (row.modify (min j (row.length - 1)) (· + v)))

/-- Lines 411-416 for one employee: the days from `j` on. -/
def creditDays (skills : Dict String Rat) : List Bool → Nat → Dict String (List Rat) → Except PyErr (Dict String (List Rat))
  | [], _, rows => .ok rows
  | b :: cal, j, rows =>
    if b then do
      let rows' ← credit j skills rows
      creditDays skills cal (j + 1) rows'
    else creditDays skills cal (j + 1) rows

/-- Lines 410-416. -/
def creditAll : Dict Nat Employee → Dict String (List Rat) → Except PyErr (Dict String (List Rat))
  | [], rows => .ok rows
  | (_, e) :: rest, rows => do
    let rows' ← creditDays e.skills e.calendar 0 rows
    creditAll rest rows'

/-- `int(x)`: towards zero. -/
def trunc (x : Rat) : Int := if 0 ≤ x then x.floor else -((-x).floor)

/-- Lines 423-425, 426-428 for one mode: missing names get 0. -/
def fill : List String → Dict String Int → Dict String Int
  | [], needs => needs
  | r :: rest, needs => fill rest (if needs.contains r then needs else needs.set r 0)

/-- A mode with the requirements that were missing. -/
def fillMode (pb : Problem) (m : Mode) : Mode := { m with needs := fill pb.skills (fill pb.resources.keys m.needs) }

/-- `build_multimode_rcpsp_calendar_representative` (401-437). -/
def representative (pb : Problem) (first : String) : Except PyErr Rcpsp.Problem := do
  let len ← skillLen pb first
  let rows ← creditAll pb.employees (pb.skills.map (fun s => (s, List.replicate len 0)))
  .ok { resources := rows.foldl (fun d p => Dict.set d p.1 (.calendar (p.2.map trunc))) pb.base.resources
        nonRenewable := pb.nonRenewable
        modes := pb.modes.map (fun p => (p.1, p.2.map (fun q : Nat × Mode => (q.1, fillMode pb q.2))))
        successors := pb.successors, horizon := pb.horizon, multiplier := pb.multiplier }

end Verif.MultiSkill
