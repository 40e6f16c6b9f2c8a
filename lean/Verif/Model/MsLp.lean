import Verif.Model.Milp
import Verif.Model.MultiSkill
/-
Model of `rcpsp_multiskill/solvers/lp_model.py` (directory `skdecide/builders/discrete_optimization`), the program that
`LP_Solver_MRSCPSP` builds for multi-skill project scheduling (13-525, `init_model` 290-437) and the reading of a
solution (439-510).

Simplifications: as in `MultiSkill` (task numbers, natural durations and times, rational skill values); look-ups of tasks and modes that
loops take from the same dictionaries cannot fail and are written as total functions; a set is iterated in the order of the dictionary it
comes from (the order of rows is without meaning); printing and the parameters of the library are left out.
-/
namespace Verif.MsLp
open Verif.Milp Verif.MultiSkill
open Verif.Rcpsp (Mode)

/-- A key of `employee_usage` (371): worker, task, mode, starting time, skill. -/
structure Use where
  emp : Nat
  task : Nat
  mode : Nat
  time : Nat
  skill : String
  deriving DecidableEq

/-- The variables: `modes`, `start_times`, `durations`, `start_times_task`, `end_times_task`, `employee_usage`. -/
inductive Var where
  | mode (task mode : Nat)
  | start (task mode time : Nat)
  | dur (task : Nat)
  | startT (task : Nat)
  | endT (task : Nat)
  | use (x : Use)
  deriving DecidableEq

/-- `mode_details[task]` for a task. -/
def modesOf (pb : Problem) (task : Nat) : Dict Nat Mode := (pb.modes.get? task).getD []

/-- `mode_details[task][mode]` for a mode of the task. -/
def theMode (pb : Problem) (task mode : Nat) : Mode := ((modesOf pb task).get? mode).getD ⟨0, []⟩

/-- `mode_details[task][mode]['duration']`. -/
def durOf (pb : Problem) (task mode : Nat) : Nat := (theMode pb task mode).duration

/-- `max` of a list; of an empty one: `ValueError`. -/
def maxOf : List Nat → Except PyErr Nat
  | [] => .error .valueError
  | x :: xs => .ok (xs.foldl max x)

/-- `max_duration` (295-297). -/
def maxDuration (pb : Problem) : Except PyErr Nat := do
  let ds ← mapE (fun k => maxOf ((modesOf pb k).map (fun q => q.2.duration))) pb.tasks
  .ok (ds.sum + 10)

/-- `list_edges` (307-311). -/
def edges (pb : Problem) : Except PyErr (List (Nat × Nat)) := do
  let es ← mapE (fun k => do let ss ← pb.successors.get k; .ok (ss.map (fun s => (k, s)))) pb.tasks
  .ok es.flatten

/-- The modes and times of the variables `start_times[task]` (318-324); `T` is the number of times (312). -/
def slots (pb : Problem) (T task : Nat) : List (Nat × Nat) := (modesOf pb task).keys.flatMap (fun m => (List.range T).map (fun t => (m, t)))

/-- One start (326-329). -/
def oneRow (pb : Problem) (T task : Nat) : Row Var := ⟨(slots pb T task).map (fun q => (1, .start task q.1 q.2)), .eq, 1⟩

/-- The mode is the mode of the start (330-332). -/
def modeRow (T task mode : Nat) : Row Var := ⟨(1, .mode task mode) :: (List.range T).map (fun t => (-1, .start task mode t)), .eq, 0⟩

/-- The starting time (343-346). -/
def startRow (pb : Problem) (T task : Nat) : Row Var :=
  ⟨(slots pb T task).map (fun q => ((q.2 : Int), .start task q.1 q.2)) ++ [(-1, .startT task)], .eq, 0⟩

/-- The end (347). -/
def endRow (task : Nat) : Row Var := ⟨[(1, .endT task), (-1, .startT task), (-1, .dur task)], .eq, 0⟩

/-- The duration (349-352). -/
def durRow (pb : Problem) (task : Nat) : Row Var :=
  ⟨(modesOf pb task).keys.map (fun m => ((durOf pb task m : Int), .mode task m)) ++ [(-1, .dur task)], .eq, 0⟩

/-- `required_skills` (361-365), with `skills_employee` (356-358). -/
def skillsFor (pb : Problem) (e : Employee) (m : Mode) : List String :=
  (required pb m).keys.filter (fun s => decide (0 < (e.skills.get? s).getD 0))

/-- The keys of `employee_usage` (355-373). -/
def uses (pb : Problem) (T : Nat) : List Use :=
  pb.employees.flatMap (fun e => pb.tasks.flatMap (fun k => (modesOf pb k).flatMap (fun q =>
    (skillsFor pb e.2 q.2).flatMap (fun s => (List.range T).map (fun t => ⟨e.1, k, q.1, t, s⟩)))))

/-- The rows of one key (375-383): the mode is chosen, the task starts then, and the worker is at work for the whole duration. -/
def useRows (pb : Problem) (x : Use) : Except PyErr (List (Row Var)) := do
  let e ← pb.employees.get x.emp
  let b ← allTrue e.calendar (durOf pb x.task x.mode) x.time
  .ok ([⟨[(1, .use x), (-1, .mode x.task x.mode)], .le, 0⟩, ⟨[(1, .use x), (-1, .start x.task x.mode x.time)], .le, 0⟩] ++
    if b then [] else [⟨[(1, .use x)], .eq, 0⟩])

/-- Does a task of this duration started at `s` run at time `t`? -/
def covers (s t d : Nat) : Bool := decide (s ≤ t) && decide (t < s + d)

/-- A worker does one thing at a time (398-402). -/
def busyRow (pb : Problem) (us : List Use) (q : Nat × Nat) : Row Var :=
  ⟨(us.filter (fun x => decide (x.emp = q.1) && covers x.time q.2 (durOf pb x.task x.mode))).map (fun x => (1, .use x)), .le, 1⟩

/-- The terms `mode_details[task][mode][r] * start_times[task][mode][time]` of the slots with property `f` (405-410, 414-418). -/
def needTerms (pb : Problem) (T : Nat) (r : String) (f : Nat → Nat × Nat → Bool) : Except PyErr (Lin Var) := do
  let ts ← mapE (fun k => mapE (fun q => do let n ← (theMode pb k q.1).needs.get r; .ok (n, Var.start k q.1 q.2))
    ((slots pb T k).filter (f k))) pb.modes.keys
  .ok ts.flatten

/-- A renewable resource at one time (404-411). -/
def renewableRow (pb : Problem) (T : Nat) (q : String × Nat) : Except PyErr (Row Var) := do
  let ts ← needTerms pb T q.1 (fun k p => covers p.2 q.2 (durOf pb k p.1))
  let row ← pb.resources.get q.1
  let c ← pyGet row q.2
  .ok ⟨ts, .le, c⟩

/-- A non-renewable resource (413-418). -/
def nonRenewableRow (pb : Problem) (T : Nat) (r : String) : Except PyErr (Row Var) := do
  let ts ← needTerms pb T r (fun _ _ => true)
  let row ← pb.resources.get r
  let c ← pyGet row 0
  .ok ⟨ts, .le, c⟩

/-- A sum with rational coefficients. -/
abbrev RatLin := List (Rat × Var)

def RatLin.value (l : RatLin) (a : Var → Int) : Rat := (l.map (fun t => t.1 * (a t.2 : Rat))).sum

/-- The level of skill `s` that worker `e` has. -/
def levelOf (pb : Problem) (e : Nat) (s : String) : Rat := ((pb.employees.get? e).bind (fun e => e.skills.get? s)).getD 0

/-- The skill row of a task (429-433), brought to one side: it has to be at least 0. -/
def skillRow (pb : Problem) (us : List Use) (q : Nat × String) : RatLin :=
  (us.filter (fun x => decide (x.task = q.1) && decide (x.skill = q.2))).map (fun x => (levelOf pb x.emp q.2, .use x)) ++
  (modesOf pb q.1).keys.map (fun m => (-((((theMode pb q.1 m).needs.get? q.2).getD 0 : Int) : Rat), .mode q.1 m))

/-- The tasks with the skills that some mode requires (419-427). -/
def taskSkills (pb : Problem) : List (Nat × String) :=
  pb.modes.keys.flatMap (fun k => ((modesOf pb k).flatMap (fun q => (required pb q.2).keys)).map (fun s => (k, s)))

/-- A precedence (434-436); a successor that is not a task raises `KeyError`. -/
def precRow (pb : Problem) (q : Nat × Nat) : Except PyErr (Row Var) :=
  if q.2 ∈ pb.modes.keys then .ok ⟨[(1, .startT q.2), (-1, .endT q.1)], .ge, 0⟩ else .error .keyError

/-- The program: one with integer coefficients, and the skill rows. -/
structure Prog where
  base : Program Var
  skill : List RatLin

/-- The assignments the library may return. -/
def Prog.Feasible (p : Prog) (a : Var → Int) : Prop := p.base.Feasible a ∧ ∀ l, l ∈ p.skill → 0 ≤ l.value a

/-- The assignments the library may return when it has proved optimality. -/
def Prog.Least (p : Prog) (a : Var → Int) : Prop :=
  p.Feasible a ∧ ∀ b, p.Feasible b → p.base.objective.value a ≤ p.base.objective.value b

/-- The variables (313-341, 371-373). -/
def vars (pb : Problem) (T : Nat) : List (Var × Kind) :=
  pb.modes.keys.flatMap (fun k => (modesOf pb k).keys.map (fun m => (.mode k m, .binary))) ++
  pb.modes.keys.flatMap (fun k => (slots pb T k).map (fun q => (.start k q.1 q.2, .binary))) ++
  pb.modes.keys.flatMap (fun k => [(.dur k, .integer 0 none), (.startT k, .integer 0 none), (.endT k, .integer 0 none)]) ++
  (uses pb T).map (fun x => (.use x, .binary))

/-- The rows of tasks (326-352). -/
def taskRows (pb : Problem) (T : Nat) : List (Row Var) :=
  pb.modes.keys.flatMap (fun k => oneRow pb T k :: (modesOf pb k).keys.map (modeRow T k)) ++
  pb.modes.keys.flatMap (fun k => [startRow pb T k, endRow k]) ++ pb.modes.keys.map (durRow pb)

/-- `employees` (384): the workers with some key. -/
def staffed (pb : Problem) (us : List Use) : List Nat := pb.employees.keys.filter (fun e => us.any (fun x => decide (x.emp = e)))

/-- The keys of `renewable` (299-301). -/
def renewables (pb : Problem) : List String := pb.resources.keys.filter (fun r => !pb.nonRenewable.contains r)

/-- `init_model` (290-437). -/
def build (pb : Problem) : Except PyErr Prog := do
  let D ← maxDuration pb
  let _ ← mapE (fun r => pb.resources.get r) pb.nonRenewable
  let es ← edges pb
  let us := uses pb (D + 1)
  let ur ← mapE (useRows pb) us
  let rr ← mapE (renewableRow pb (D + 1)) ((renewables pb).flatMap (fun r => (List.range (D + 1)).map (fun t => (r, t))))
  let nr ← mapE (nonRenewableRow pb (D + 1)) pb.nonRenewable
  let pr ← mapE (precRow pb) es
  let last ← maxOf pb.modes.keys
  .ok { base := { vars := vars pb (D + 1),
                  rows := taskRows pb (D + 1) ++ ur.flatten ++
                    (staffed pb us).flatMap (fun e => (List.range (D + 1)).map (fun t => busyRow pb us (e, t))) ++ rr ++ nr ++ pr,
                  objective := [(1, .startT last)] },
        skill := (taskSkills pb).map (skillRow pb us) }

/-- `rcpsp_schedule` (454-464). -/
def readSchedule (pb : Problem) (T : Nat) (a : Var → Int) : Schedule :=
  (pb.modes.keys.flatMap (fun k => (slots pb T k).map (fun q => (k, q)))).foldl (fun (sch : Schedule) (z : Nat × Nat × Nat) =>
    if 1 ≤ 2 * a (.start z.1 z.2.1 z.2.2) then sch.set z.1 (z.2.2, z.2.2 + durOf pb z.1 z.2.1) else sch) []

/-- `employee_usage_solution` (465-473). -/
def readUsage (us : List Use) (a : Var → Int) : Usage :=
  us.foldl (fun (u : Usage) (x : Use) =>
    if 1 ≤ 2 * a (.use x) then
      u.set x.task (((u.get? x.task).getD []).set x.emp (addTo ((((u.get? x.task).getD []).get? x.emp).getD []) x.skill))
    else u) []

/-- `modes_task` (475-481). -/
def readModes (pb : Problem) (a : Var → Int) : Dict Nat Nat :=
  (pb.modes.keys.flatMap (fun k => (modesOf pb k).keys.map (fun m => (k, m)))).foldl (fun (d : Dict Nat Nat) (z : Nat × Nat) =>
    if 1 ≤ 2 * a (.mode z.1 z.2) then d.set z.1 z.2 else d) []

/-- `retrieve_solutions` (439-510) for one solution; `T` as in `init_model`. -/
def read (pb : Problem) (T : Nat) (a : Var → Int) : Solution :=
  { modes := readModes pb a, schedule := readSchedule pb T a, usage := readUsage (uses pb T) a }

end Verif.MsLp
