import Verif.Model.GraphApi
/-
Model of `skdecide/builders/discrete_optimization/rcpsp/rcpsp_data_generator.py` (6-129): projects with helper
tasks made from a project.

Simplifications: the permutation of numpy and the draws for precedences between helpers are parameters; numbers of
activities, durations and the multiplier are natural numbers; the lists of the maps of helpers, which always have
one element, are written as that element; only constant capacities are added.  `copy` of the project copies the
modes and the successors deeply, but hands on the same dictionary of resources (rcpsp_model.py 661-667, 801-807,
856-865): what the generator adds to it is added to the project given, too, so the answer has those resources once
more.  `print` calls are left out.
-/
namespace Verif.Helpers
open Rcpsp

/-- The class of the project: only single and multi mode projects are turned into projects with helpers (108-115). -/
inductive Class where
  | single
  | multi
  | plain
  deriving DecidableEq

/-- The parameters of the generator (6-9); `perm` is the permutation drawn in line 34, and `cross a b` is whether the
number drawn in line 101 for the activities `a` and `b` is below the probability. -/
structure Params where
  multiplier : Nat
  assisted : Nat
  assistants : Int
  helperDuration : Nat
  perm : List Nat
  cross : Nat → Nat → Bool

/-- `'R'+str(n_renewables+1)` (19-21). -/
def newResource (pb : Problem) : String := "R" ++ toString (pb.resources.length - pb.nonRenewable.length + 1)

/-- Lines 26-28. -/
def multiply (k : Nat) (modes : Dict Nat (Dict Nat Mode)) : Dict Nat (Dict Nat Mode) :=
  modes.map (fun p => (p.1, p.2.map (fun q => (q.1, { q.2 with duration := q.2.duration * k }))))

/-- Lines 45-47; the old number is a key. -/
def renameModes (old new : Nat) (modes : Dict Nat (Dict Nat Mode)) : Dict Nat (Dict Nat Mode) :=
  (modes.erase old).set new ((modes.get? old).getD [])

/-- Lines 62-64. -/
def addNeed (r : String) (modes : Dict Nat (Dict Nat Mode)) : Dict Nat (Dict Nat Mode) :=
  modes.map (fun p => (p.1, p.2.map (fun q => (q.1, { q.2 with needs := q.2.needs.set r 0 }))))

/-- The mode of a helper (70-76). -/
def helperMode (dur : Nat) (r : String) (resources : Dict String Capacity) : Mode where
  duration := dur
  needs := resources.map (fun p => (p.1, if p.1 = r then 1 else 0))

/-- Lines 68-76: the helpers `old, …, old + k - 1`. -/
def addHelpers (m : Mode) (old : Nat) : Nat → Dict Nat (Dict Nat Mode) → Dict Nat (Dict Nat Mode)
  | 0, modes => modes
  | k + 1, modes => (addHelpers m old k modes).set (old + k) [(1, m)]

/-- Precedences: activity to successors. -/
abbrev Succ := Dict Nat (List Nat)

/-- Lines 53-55: the old sink is replaced in a list of successors, at its end and once. -/
def replaceIn (old new : Nat) (l : List Nat) : List Nat := if l.contains old then l.erase old ++ [new] else l

/-- Lines 52-57; the key of the old sink must be there. -/
def renameSucc (old new : Nat) (s : Succ) : Except PyErr Succ :=
  let s1 : Succ := s.map (fun p => (p.1, replaceIn old new p.2))
  if s1.contains old then .ok ((s1.erase old).set new []) else .error .keyError

/-- The body of the loop of lines 84-97 for one assisted activity. -/
def helpOne (new pre post a : Nat) (s : Succ) : Except PyErr Succ := do
  let s1 : Succ := s.set pre [a]
  let l ← s1.get a
  let s2 : Succ := (s1.set a (l ++ [post])).set post []
  let l2 ← s2.get a
  if l2.contains new then do
    let s3 : Succ := s2.set a (l2.erase new)
    let p ← s3.get post
    .ok (s3.set post (p ++ [new]))
  else .ok s2

/-- The loop of lines 84-97, from index `i` on; the helpers are `old + i` and `old + n + i`. -/
def helpAll (old n new : Nat) (assisted : List Nat) : Nat → Nat → Succ → Except PyErr Succ
  | 0, _, s => .ok s
  | k + 1, i, s => do
    let a ← pyGet assisted i
    let s' ← helpOne new (old + i) (old + n + i) a s
    helpAll old n new assisted k (i + 1) s'

/-- The maps of helpers (82-83, 88, 93): activity to helper, the first helper numbered `first`. -/
def helperMap (first : Nat) (assisted : List Nat) : Dict Nat Nat := assisted.zipIdx.map (fun p => (p.1, first + p.2))

/-- Lines 100-105 for one activity and those after it in the sorted list. -/
def crossOne (cross : Nat → Nat → Bool) (pre post : Dict Nat Nat) (a : Nat) : List Nat → Succ → Except PyErr Succ
  | [], s => .ok s
  | b :: bs, s =>
    if cross a b then do
      let p ← post.get a
      let q ← pre.get b
      let l ← s.get p
      crossOne cross pre post a bs (s.set p (l ++ [q]))
    else crossOne cross pre post a bs s

/-- Lines 98-105. -/
def crossAll (cross : Nat → Nat → Bool) (pre post : Dict Nat Nat) : List Nat → Succ → Except PyErr Succ
  | [], s => .ok s
  | a :: as, s => do
    let s' ← crossOne cross pre post a as s
    crossAll cross pre post as s'

/-- Lines 121-122. -/
def toSink (new : Nat) : List Nat → Succ → Except PyErr Succ
  | [], s => .ok s
  | m :: ms, s => do
    let l ← s.get m
    toSink new ms (s.set m (l ++ [new]))

/-- Lines 116-123: activities that do not precede the sink get it as successor. -/
def fixSink (pb : Problem) (new : Nat) : Except PyErr Problem := do
  let g ← GraphApi.computeGraph pb
  let before ← GraphApi.predecessorsNodes g new
  if before.length = pb.modes.length - 1 then .ok pb
  else do
    let s ← toSink new ((List.range' 1 (pb.modes.length - 1)).filter (fun i => !before.contains i)) pb.successors
    .ok { pb with successors := s }

/-- What the generator returns, and the resources of the project given after the call. -/
structure Out where
  problem : Problem
  pre : Dict Nat Nat
  post : Dict Nat Nat
  given : Dict String Capacity

/-- `generate_rcpsp_with_helper_tasks_data` (6-129). -/
def generate (c : Class) (pb : Problem) (p : Params) : Except PyErr Out := do
  let r := newResource pb
  let resources := pb.resources.set r (.const p.assistants)
  let modes1 := multiply p.multiplier pb.modes
  match (sortBy (fun k : Nat => (k : Int)) modes1.keys).getLast? with
  | none => .error .indexError
  | some old => do
    let new := old + 2 * p.assisted
    let assisted := p.perm.take p.assisted
    let s1 ← renameSucc old new pb.successors
    let modes := addHelpers (helperMode p.helperDuration r resources) old (2 * p.assisted)
      (addNeed r (renameModes old new modes1))
    let s2 ← helpAll old p.assisted new assisted p.assisted 0 s1
    let pre := helperMap old assisted
    let post := helperMap (old + p.assisted) assisted
    let s3 ← crossAll p.cross pre post (sortBy (fun k : Nat => (k : Int)) assisted) s2
    if c = .plain then .error .nameError
    else do
      let out ← fixSink { pb with resources := resources, modes := modes, successors := s3 } new
      .ok { problem := out, pre := pre, post := post, given := resources }

end Verif.Helpers
