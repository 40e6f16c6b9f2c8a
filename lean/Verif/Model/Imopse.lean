import Verif.Model.Parse
import Verif.Model.Sort
/-
Model of the solution files of `rcpsp_multiskill/rcpsp_multiskill_parser.py` (directory `skdecide/builders/discrete_optimization`):
`write_solution`, `parse_results`, `recompute_solution`.

A file is the list of its characters; opening and closing it are left out.  Workers of a solution to write are natural numbers, as
`parse_imopse` numbers them; in a problem they may be numbers or words.
-/
namespace Verif.Imopse
open Parse

/-- `str(n)`. -/
def str (n : Int) : List Char := if n < 0 then '-' :: Nat.toDigits 10 n.natAbs else Nat.toDigits 10 n.natAbs

/-- The fields of a solution: start and end, and the workers of every task in the order of the dictionary. -/
structure Sol where
  schedule : Dict Int (Int × Int)
  usage : Dict Int (List Nat)

/-- `str(emp)+"-"+str(original_task)+" "` (249). -/
def entry (o e : Nat) : List Char := str e ++ '-' :: str o ++ [' ']

/-- The body of the loop of lines 241-249. -/
def addTask (names : Dict Int Nat) (s : Sol) (d : Dict Int (List Char)) (task : Int) : Except PyErr (Dict Int (List Char)) :=
  match names.get? task with
  | none => .ok d
  | some o =>
    match s.usage.get? task, s.schedule.get? task with
    | some emps, some p => .ok (d.set p.1 ((d.get? p.1).getD (str p.1 ++ [' ']) ++ emps.flatMap (entry o)))
    | _, _ => .error .keyError

/-- The loop of lines 241-249. -/
def addTasks (names : Dict Int Nat) (s : Sol) : List Int → Dict Int (List Char) → Except PyErr (Dict Int (List Char))
  | [], d => .ok d
  | t :: l, d => do
    let d ← addTask names s d t
    addTasks names s l d

/-- Line 238. -/
def header : List Char := "Hour \t Resource assignments (resource ID - task ID) ".toList

/-- `write_solution` (234-251): the text of the file. -/
def write (names : Dict Int Nat) (s : Sol) : Except PyErr (List Char) := do
  let order := sortBy (fun t => ((s.schedule.get? t).getD (0, 0)).1) s.schedule.keys
  let d ← addTasks names s order []
  .ok (header ++ '\n' :: (sortBy (fun h => h) d.keys).flatMap (fun h => (d.get? h).getD [] ++ ['\n']))

/-- What `parse_results` collects: hours and workers. -/
structure Res where
  schedule : Dict Int Int := []
  assign : Dict Int (List Char) := []

/-- Lines 175-177: `w[0]` and `int(w[1])` of `word.split("-")`. -/
def readWord (w : List Char) : Except PyErr (List Char × Int) :=
  match w.dropWhile (· ≠ '-') with
  | [] => .error .indexError
  | _ :: r => pyInt (r.takeWhile (· ≠ '-')) >>= fun t => .ok (w.takeWhile (· ≠ '-'), t)

/-- Lines 174-181; an exception ends the line. -/
def readWords (hour : Int) : List (List Char) → Res → Res
  | [], r => r
  | w :: ws, r =>
    match readWord w with
    | .ok (e, t) => readWords hour ws ⟨r.schedule.set t hour, r.assign.set t e⟩
    | .error _ => r

/-- Lines 169-181. -/
def readLine (r : Res) (l : List Char) : Res :=
  match pyWords l with
  | [] => r
  | w :: ws =>
    match pyInt w with
    | .ok h => readWords h ws r
    | .error _ => r

/-- `parse_results` (162-182). -/
def parseResults (t : List Char) : Res := ((pyLines t).drop 1).foldl readLine {}

/-- A worker in a problem: a number or a word. -/
abbrev Worker := Sum Int (List Char)

/-- The fields of a problem that are used: values of skills of the workers, duration and required skills of the only mode of a task. -/
structure Problem where
  employees : Dict Worker (Dict (List Char) Int)
  modes : Dict Int (Int × Dict (List Char) Int)
  source : Int
  sink : Int

/-- The arguments of the solution that is made (214-217). -/
structure Full where
  schedule : Dict Int (Int × Int) := []
  modes : Dict Int Nat := []
  usage : Dict Int (List (Worker × List (List Char))) := []
  deriving DecidableEq

/-- `reverse_name` (189-190). -/
def reverse (names : Dict Int Int) : Dict Int Int := names.foldl (fun d p => d.set p.2 p.1) []

/-- The dictionary lookup `d[k]`. -/
def look [DecidableEq κ] (d : Dict κ α) (k : κ) : Except PyErr α :=
  match d.get? k with
  | some v => .ok v
  | none => .error .keyError

/-- The body of the loop of lines 194-205. -/
def recomputeOne (p : Problem) (names : Dict Int Int) (assign : Dict Int Worker) (f : Full) (task start : Int) : Except PyErr Full := do
  let new ← look (reverse names) task
  let m ← look p.modes new
  let emp ← look assign task
  let sk ← look p.employees emp
  let used := (sk.filter (fun s => decide (0 < s.2) && decide (0 < (m.2.get? s.1).getD 0))).map Prod.fst
  .ok ⟨f.schedule.set new (start, start + m.1), f.modes.set new 1, f.usage.set new [(emp, used)]⟩

/-- The loop of lines 194-205. -/
def recomputeLoop (p : Problem) (names : Dict Int Int) (assign : Dict Int Worker) : List (Int × Int) → Full → Except PyErr Full
  | [], f => .ok f
  | (t, s) :: l, f => do
    let f ← recomputeOne p names assign f t s
    recomputeLoop p names assign l f

/-- `recompute_solution` (185-217); the schedule then has the source, so that the largest end exists. -/
def recompute (p : Problem) (names : Dict Int Int) (schedule : Dict Int Int) (assign : Dict Int Worker) : Except PyErr Full := do
  let f ← recomputeLoop p names assign schedule {}
  let sch := f.schedule.set p.source (0, 0)
  let last := (sch.map (fun q => q.2.2)).foldl max 0
  .ok ⟨sch.set p.sink (last, last), (f.modes.set p.source 1).set p.sink 1, (f.usage.set p.source []).set p.sink []⟩

end Verif.Imopse
