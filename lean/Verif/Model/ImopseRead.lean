import Verif.Model.Parse
import Verif.Model.Sort
/-
Model of `parse_imopse` (`rcpsp_multiskill/rcpsp_multiskill_parser.py`, directory `skdecide/builders/discrete_optimization`): multi-skill
projects in the format of iMOPSE.

The reader returns the arguments that it gives to the constructor.  Skills are collected in a set; here they stand in the order in which
they are found.  The counts of the head are read and thrown away; the predecessors, kept in the file's tables, are not used further.
-/
namespace Verif.ImopseRead
open Parse

/-- A name of the file. -/
abbrev Name := List Char

/-- An entry of `task_dict`: `duration` is missing until the line of the task is read. -/
structure Task where
  duration : Option Int := none
  successors : List Int := []
  skills : Dict Name Int := []
  deriving DecidableEq

/-- The variables of the loop (45-51). -/
structure St where
  resZone : Bool := false
  taskZone : Bool := false
  workers : Dict Name (Rat × Dict Name Int) := []
  tasks : Dict Int Task := []
  cur : Option Name := none
  skills : List Name := []

/-- `set.add`. -/
def addSkill (l : List Name) (x : Name) : List Name := if x ∈ l then l else l ++ [x]

/-- `word[0] == "Q"`; words are not empty. -/
def isSkill (w : List Char) : Bool := w.head? = some 'Q'

/-- Lines 81-86; `current_skill` may be left from an earlier line, or be unbound. -/
def workerWords : List (List Char) → Option Name → Dict Name Int → List Name → Except PyErr (Option Name × Dict Name Int × List Name)
  | [], cur, d, sk => .ok (cur, d, sk)
  | w :: ws, cur, d, sk =>
    if isSkill w then workerWords ws (some w.dropLast) d sk
    else do
      let v ← pyInt w
      match cur with
      | none => .error .nameError
      | some c => workerWords ws cur (d.set c (v + 1)) (addSkill sk c)

/-- Lines 79-86. -/
def worker (s : St) (words : List (List Char)) : Except PyErr St := do
  let id ← pyGet words 0
  let w ← pyGet words 1
  let salary ← pyFloat w
  let r ← workerWords (words.drop 2) s.cur [] s.skills
  .ok { s with workers := s.workers.set id (salary, r.2.1), cur := r.1, skills := r.2.2 }

/-- Change the entry of a task, which is made first if it is missing (93-94, 108-111). -/
def upd (d : Dict Int Task) (k : Int) (f : Task → Task) : Dict Int Task := d.set k (f ((d.get? k).getD {}))

/-- Lines 97-113. -/
def taskWords (id : Int) : List (List Char) → St → Except PyErr St
  | [], s => .ok s
  | [w], s =>
    if isSkill w then .error .indexError
    else do
      let p ← pyInt w
      .ok { s with tasks := upd s.tasks p (fun t => { t with successors := t.successors ++ [id] }) }
  | w :: v :: ws, s =>
    if isSkill w then do
      let x ← pyInt v
      taskWords id ws { s with tasks := upd s.tasks id (fun t => { t with skills := t.skills.set w.dropLast (x + 1) })
                               cur := some w.dropLast, skills := addSkill s.skills w.dropLast }
    else do
      let p ← pyInt w
      taskWords id (v :: ws) { s with tasks := upd s.tasks p (fun t => { t with successors := t.successors ++ [id] }) }

/-- Lines 92-113. -/
def task (s : St) (words : List (List Char)) : Except PyErr St := do
  let w ← pyGet words 0
  let id ← pyInt w
  let w ← pyGet words 1
  let d ← pyInt w
  taskWords id (words.drop 2) { s with tasks := upd s.tasks id (fun t => { t with duration := some d }) }

/-- Lines 54-65: the number of a line that counts something. -/
def count (words : List (List Char)) : Option (List Char) :=
  match words with
  | [a, b] => if a = "Tasks:".toList ∨ a = "Resources:".toList then some b else none
  | [a, b, c] => if a = "Precedence".toList ∧ b = "relations:".toList then some c else none
  | [a, b, _, _, e] => if a = "Number".toList ∧ b = "of".toList then some e else none
  | _ => none

/-- The body of the loop (52-113). -/
def step (s : St) (line : List Char) : Except PyErr St :=
  let words := pyWords line
  match count words with
  | some n => pyInt n >>= fun _ => .ok s
  | none =>
    match words with
    | [] => .ok s
    | w :: _ =>
      if w = "ResourceID".toList then .ok { s with resZone := true }
      else if w = "TaskID".toList then .ok { s with taskZone := true }
      else do
        let ends := decide (w.head? = some '=')
        if s.resZone ∧ ends then .ok { s with resZone := false }
        else do
          let s ← if s.resZone then worker s words else .ok s
          if s.taskZone then (if ends then .ok { s with taskZone := false } else task s words) else .ok s

/-- The loop. -/
def run : List (List Char) → St → Except PyErr St
  | [], s => .ok s
  | l :: ls, s => do
    let s ← step s l
    run ls s

/-- The arguments of the constructor, and the names. -/
structure Project where
  skills : List Name
  employees : Dict Int (Rat × Dict Name Int)
  modes : Dict Int (Int × Dict Name Int)
  successors : Dict Int (List Int)
  horizon : Nat
  source : Int
  sink : Int
  names : Dict Int Int
  deriving DecidableEq

/-- `task_id_to_new_name` (116-117). -/
def newName (tasks : Dict Int Task) (t : Int) : Int := ((sortBy (fun x => x) tasks.keys).idxOf t : Int) + 2

/-- Lines 119-121: a task without a line of its own has no duration. -/
def durations : Dict Int Task → Except PyErr (List (Int × Int × Task))
  | [] => .ok []
  | (k, t) :: l =>
    match t.duration with
    | none => .error .keyError
    | some d => do
      let r ← durations l
      .ok ((k, d, t) :: r)

/-- Line 122. -/
def numbered : Dict Name (Rat × Dict Name Int) → Dict Int (Rat × Dict Name Int) → Except PyErr (Dict Int (Rat × Dict Name Int))
  | [], d => .ok d
  | (k, v) :: l, d => do
    let n ← pyInt k
    numbered l (d.set n v)

/-- Lines 116-162; new names are different, so the tables are given by their entries. -/
def finish (horizon : Option Nat) (s : St) : Except PyErr Project := do
  let ds ← durations s.tasks
  let workers ← numbered s.workers []
  let zero := s.skills.map (fun k => (k, (0 : Int)))
  let sink : Int := (s.tasks.length : Int) + 2
  let modes := ds.map (fun x => (newName s.tasks x.1, (x.2.1, s.skills.map (fun k => (k, (x.2.2.skills.get? k).getD 0))))) ++
    [(1, (0, zero)), (sink, (0, zero))]
  let succ := s.tasks.map (fun x => (newName s.tasks x.1, x.2.successors.map (newName s.tasks) ++ [sink])) ++ [(sink, [])]
  .ok { skills := s.skills, employees := workers, modes := modes, successors := succ ++ [(1, succ.map Prod.fst)]
        horizon := horizon.getD 300, source := 1, sink := sink, names := s.tasks.map (fun x => (newName s.tasks x.1, x.1)) }

/-- `parse_imopse` (21-159). -/
def parse (text : List Char) (horizon : Option Nat) : Except PyErr Project := do
  let s ← run (pyLines text) {}
  finish horizon s

end Verif.ImopseRead
