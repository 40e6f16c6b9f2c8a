import Verif.Model.MultiSkill

/-! Encodings of multi-skill solutions: `skdecide/builders/discrete_optimization/rcpsp_multiskill/rcpsp_multiskill.py`,
`schedule_solution_to_variant` (45-64), `MS_RCPSPSolution_Variant` (67-110), `MS_RCPSPModel.copy` and `to_variant_model` (586-609) and
`MS_RCPSPModel_Variant` (616-774).

Simplifications: an activity number below 2 in an encoding is cut at 0 (the code subtracts 2 and may get a negative number; only when the
source is not activity 1).  `_schedule_to_recompute` is left out: the constructor computes the schedule at once (102-104), and the
constructor is modelled for an absent schedule only.  An absent `priority_worker_per_task` is the empty list: both raise at the first
activity that gets workers, the code with `TypeError`, the model with `IndexError`. -/

namespace Verif.MultiSkill
open Verif.Rcpsp

/-! ### Copies of the problem -/

/-- The constructor of `MS_RCPSPModel` (364-399) called without `sink_task`, `source_task` and `one_unit_per_task_max`: `copy` (586-596),
and `MS_RCPSPModel_Variant.__init__` (618-645), which accepts these arguments but does not hand them on.  `max` and `min` of no activities
raise `ValueError`. -/
def rebuilt (pb : Problem) : Except PyErr Problem :=
  match pb.modes.keys.max?, pb.modes.keys.min? with
  | some hi, some lo => .ok { pb with sink := hi, source := lo, oneUnit := false }
  | _, _ => .error .valueError

/-- `to_variant_model` (598-609). -/
def toVariantModel (pb : Problem) : Except PyErr Problem := rebuilt pb

/-! ### Ranks in place of workers -/

/-- `int(x)` of the average rank of `x` in `l` (`scipy.stats.rankdata`): values below, plus half of the equal ones, rounded down. -/
def rankIn (l : List Int) (x : Int) : Nat := (2 * (l.filter (fun y => decide (y < x))).length + (l.filter (fun y => decide (y = x))).length + 1) / 2

/-- `tmp` of lines 731-733, 768-770: `k` values of the vector from `s` on. -/
def slice (vec : List Int) (s : Nat) : Nat → Except PyErr (List Int)
  | 0 => .ok []
  | k + 1 => do
    let x ← pyGet vec s
    let r ← slice vec (s + 1) k
    .ok (x :: r)

/-- Lines 730-735, 767-772: `n` activities from `i` on, `k` workers. -/
def rankLists (vec : List Int) (k : Nat) : Nat → Nat → Except PyErr (List (List Nat))
  | _, 0 => .ok []
  | i, n + 1 => do
    let tmp ← slice vec (i * k) k
    let r ← rankLists vec k (i + 1) n
    .ok (tmp.map (rankIn tmp) :: r)

/-- `convert_fixed_priority_worker_per_task_from_permutation` (728-736). -/
def fromPermutation (pb : Problem) (vec : List Int) : Except PyErr (List (List Nat)) :=
  rankLists vec pb.employees.length 0 (pb.modes.length - 2)

/-! ### Solutions given by an encoding -/

/-- `fixed_modes`, `fixed_permutation` and `fixed_priority_worker_per_task` (643-645). -/
structure Fixed where
  modes : Option (List Nat)
  perm : Option (List Nat)
  prio : Option (List (List Nat))
  deriving DecidableEq

/-- The argument `priority_worker_per_task`: one list per activity, or one list of numbers. -/
inductive PrioArg where
  | nested (l : List (List Nat))
  | flat (l : List Int)

/-- Lines 83-88.  A list without inner lists counts as a list of numbers. -/
def prioArg (pb : Problem) : Option PrioArg → Except PyErr (Option (List (List Nat)))
  | none => .ok none
  | some (.nested []) => do
    let l ← fromPermutation pb []
    .ok (some l)
  | some (.nested l) => .ok (some l)
  | some (.flat v) => do
    let l ← fromPermutation pb v
    .ok (some l)

/-- Lines 90-96: `modes_vector` and `modes_vector_from0`. -/
def fillModes (fx : Fixed) (modes : Option (List Nat)) (from0 : Option (List Int)) : Except PyErr (List Nat × List Int) :=
  match modes, from0 with
  | some m, some f => .ok (m, f)
  | some m, none => .ok (m, m.map (fun x : Nat => (x : Int) - 1))
  | none, some f => .ok (f.map (fun x => (x + 1).toNat), f)
  | none, none => match fx.modes with
    | some m => .ok (m, m.map (fun x : Nat => (x : Int) - 1))
    | none => .error .typeError

/-- `MS_RCPSPSolution_Variant`. -/
structure Variant where
  perm : List Nat
  modes : List Nat
  from0 : List Int
  prio : Option (List (List Nat))
  result : Result
  deriving DecidableEq

/-- Lines 97-98; an absent list raises `TypeError` in schedule generation (143). -/
def fillPerm (fx : Fixed) (perm : Option (List Nat)) : Except PyErr (List Nat) :=
  match perm with
  | some p => .ok p
  | none => match fx.perm with
    | some p => .ok p
    | none => .error .typeError

/-- `MS_RCPSPSolution_Variant.__init__` and `do_recompute` (68-110). -/
def build (pb : Problem) (fx : Fixed) (modes : Option (List Nat)) (from0 : Option (List Int)) (perm : Option (List Nat)) (prio : Option PrioArg) :
    Except PyErr Variant := do
  let pr ← prioArg pb prio
  let mv ← fillModes fx modes from0
  let p ← fillPerm fx perm
  let r ← sgs pb p mv.1 ((pr <|> fx.prio).getD [])
  .ok { perm := p, modes := mv.1, from0 := mv.2, prio := pr <|> fx.prio, result := r }

/-- `get_dummy_solution` (684-690). -/
def dummy (pb : Problem) (fx : Fixed) : Except PyErr Variant :=
  build pb fx (some (List.replicate (pb.modes.length - 2) 1)) none (some (List.range (pb.modes.length - 2)))
    (some (.nested (List.replicate (pb.modes.length - 2) pb.employees.keys)))

/-- `evaluate_function` and `evaluate` (450-460, 692-698): the makespan. -/
def makespan (pb : Problem) (sch : Schedule) : Except PyErr Nat := do
  let p ← sch.get pb.sink
  .ok p.2

/-! ### From a schedule to an encoding -/

/-- The inner activities `sorted(s.problem.tasks)[1:-1]` (52). -/
def inner (pb : Problem) : List Nat := (pb.tasks.drop 1).dropLast

/-- Lines 53-56: the list of workers for activity `i`, those noted first. -/
def workersFor (pb : Problem) (sol : Solution) (i : Nat) : List Nat :=
  let used := ((sol.usage.get? i).getD []).keys
  used ++ pb.employees.keys.filter (fun w => !used.contains w)

/-- Lines 61-63. -/
def modesFor (sol : Solution) : List Nat → Except PyErr (List Nat)
  | [] => .ok []
  | i :: rest => do
    let k ← sol.modes.get i
    let r ← modesFor sol rest
    .ok (k :: r)

/-- The start of an activity of the schedule. -/
def startOf (sch : Schedule) (a : Nat) : Int := match sch.get? a with
  | some p => (p.1 : Int)
  | none => 0

/-- `schedule_solution_to_variant` (45-64); the problem of the solution is a `MS_RCPSPModel_Variant`. -/
def toVariant (pb : Problem) (fx : Fixed) (sol : Solution) : Except PyErr Variant := do
  let l ← pyRemove (sortBy (startOf sol.schedule) sol.schedule.keys) pb.source
  let l' ← pyRemove l pb.sink
  let ms ← modesFor sol (inner pb)
  build pb fx (some ms) none (some (l'.map (· - 2))) (some (.nested ((inner pb).map (workersFor pb sol))))

/-! ### Fixed attributes and evaluation of vectors -/

/-- The keys of `get_attribute_register` with their `name` (647-682). -/
def register : List (String × String) :=
  [("priority_list_task", "priority_list_task"), ("priority_worker_per_task_perm", "priority_worker_per_task"),
   ("priority_worker_per_task", "priority_worker_per_task"), ("modes_vector", "modes_vector"), ("modes_arrity_fix", "modes_vector"),
   ("modes_arrity_fix_from_0", "modes_vector_from0"), ("schedule", "schedule"), ("employee_usage", "employee_usage")]

/-- `set_fixed_attributes` (700-714). -/
def setFixed (fx : Fixed) (enc : String) (v : Variant) : Except PyErr Fixed := do
  let att ← Dict.get (register : Dict String String) enc
  if att = "modes_vector" then .ok { fx with modes := some v.modes }
  else if att = "modes_vector_from0" then .ok { fx with modes := some (v.modes.map (· + 1)) }
  else if att = "priority_worker_per_task" then .ok { fx with prio := v.prio }
  else if att = "priority_list_task" then .ok { fx with perm := some v.perm }
  else .ok fx

/-- The solution that `evaluate_from_encoding` builds (738-772).  When no branch applies, `rcpsp_sol` is not bound. -/
def fromEncoding (pb : Problem) (fx : Fixed) (vec : List Nat) (enc : String) : Except PyErr Variant :=
  let pr := fx.prio.map PrioArg.nested
  if enc = "priority_list_task" then build pb fx fx.modes none (some vec) pr
  else if enc = "modes_vector" then build pb fx (some vec) none fx.perm pr
  else if enc = "modes_vector_from0" then build pb fx (some (vec.map (· + 1))) none fx.perm pr
  else if enc = "priority_worker_per_task" then do
    let l ← fromPermutation pb (vec.map (fun x : Nat => (x : Int)))
    build pb fx fx.modes none fx.perm (some (.nested l))
  else .error .nameError

/-- `evaluate_from_encoding` (738-774). -/
def evaluateFrom (pb : Problem) (fx : Fixed) (vec : List Nat) (enc : String) : Except PyErr Nat := do
  let v ← fromEncoding pb fx vec enc
  makespan pb v.result.schedule

end Verif.MultiSkill
