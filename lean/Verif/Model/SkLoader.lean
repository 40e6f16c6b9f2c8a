import Verif.Model.Core
/-
Model of `skdecide/hub/domain/rcpsp/rcpsp_sk_parser.py` `load_multiskill_domain` (39-68): how a multi-skill project becomes a scheduling domain.

The name of an employee, `"employee-" + str(employee)`, is a parameter.  The reading of the file (`ImopseRead`) and the items that are passed on
unchanged (skills, activities, modes, successors, horizon) are left out.
-/
namespace Verif.SkLoader

/-- An `Employee`: values of skills and calendar. -/
structure Employee where
  skills : Dict String Int
  calendar : List Bool
  deriving DecidableEq

/-- The fields of `MS_RCPSPModel` that are read. -/
structure Project where
  resources : List String
  availability : Dict String (List Int)
  nonRenewable : List String
  employees : Dict Nat Employee
  deriving DecidableEq

/-- The arguments of `MSRCPSP`. -/
structure Loaded where
  units : List String
  types : List String
  skills : Dict String (Dict String Int)
  availability : Dict String Int
  renewable : Dict String Bool
  deriving DecidableEq

/-- A dictionary comprehension over keys. -/
def table {α : Type} (f : String → α) (ks : List String) : Dict String α := ks.foldl (fun d k => d.set k (f k)) []

/-- `resource_availability` (46-47): the first value of each. -/
def firsts : Dict String (List Int) → Dict String Int → Except PyErr (Dict String Int)
  | [], d => .ok d
  | (r, l) :: a, d =>
    match l with
    | [] => .error .indexError
    | x :: _ => firsts a (d.set r x)

/-- The loop over the skills of an employee (56-57). -/
def copySkills : Dict String Int → Dict String Int → Dict String Int
  | [], d => d
  | (s, v) :: l, d => copySkills l (d.set s v)

/-- The round of an employee (51-57). -/
def employ (name : Nat → String) (s : Loaded) (e : Nat × Employee) : Loaded :=
  { s with units := s.units ++ [name e.1], skills := s.skills.set (name e.1) (copySkills e.2.skills []),
           availability := s.availability.set (name e.1) 1, renewable := s.renewable.set (name e.1) true }

/-- `load_multiskill_domain` (44-68). -/
def load (name : Nat → String) (p : Project) : Except PyErr Loaded :=
  match firsts p.availability [] with
  | .error e => .error e
  | .ok a => .ok (p.employees.foldl (employ name)
      ⟨[], p.resources, table (fun _ => []) p.resources, a, table (fun r => decide (r ∉ p.nonRenewable)) p.resources⟩)

end Verif.SkLoader
