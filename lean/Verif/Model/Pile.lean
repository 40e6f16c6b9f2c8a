import Verif.Model.Py

/-!
Model of `skdecide/builders/discrete_optimization/rcpsp/solver/rcpsp_pile.py`: `PileSolverRCPSP.solve` and
`Executor.compute_schedule_from_priority_list`.

Simplifications: the details of each activity in its mode are complete (no `KeyError`), and capacities are
numbers; sets are lists whose order is a parameter; the heap of pairs (end, activity) is a list from which the
smallest pair is taken; `print` calls are left out.
-/
namespace Verif.Pile

/-- What the solvers read of the problem (lines 30-74, 372-375): `count` is `n_jobs + 2`, the activities are
1, …, `count`; `pred` are the ancestors in the precedence graph (48-51, as given by networkx) for the pile
solver, the immediate predecessors (373) for the executor; `succs` the number of descendants (41-47);
`mode` is the dictionary of modes, `duration` and `need` the details of the activity in its mode. -/
structure Project where
  count : Nat
  pred : Nat → List Nat
  succs : Nat → Nat := fun _ => 0
  resources : List String
  capacity : String → Int
  nonRenewable : List String
  mode : Nat → Nat := fun _ => 1
  duration : Nat → Nat
  need : Nat → String → Int

/-- The variables of the main loop.  `waiting` is `current_pred`, whose counter `nb` is the length of the set;
`started` is `perm` before 2 is subtracted. -/
structure St where
  sched : Dict Nat (Nat × Nat)
  avail : List Nat
  waiting : List (Nat × List Nat)
  free : List (String × Int)
  queue : List (Nat × Nat) := []
  time : Nat := 0
  started : List Nat := []

/-- `available_activities.add(n)`. -/
def add (l : List Nat) (n : Nat) : List Nat := if n ∈ l then l else l ++ [n]

/-- Lines 92-97, 146-151 (and 394-399, 434-439, which look only at the immediate successors): `a` is removed
from what the others wait for. -/
def release (a : Nat) (st : St) : St :=
  { st with
    avail := (st.waiting.filter fun e => a ∈ e.2 ∧ e.2.erase a = []).foldl (fun l e => add l e.1) st.avail
    waiting := st.waiting.map fun e => (e.1, e.2.erase a) }

/-- Lines 79-97: before the loop. -/
def start (p : Project) : St :=
  let nodes := List.range' 1 p.count
  release 1 {
    sched := [(1, 0, 0)]
    avail := nodes.filter fun n => n ≠ 1 ∧ p.pred n = []
    waiting := nodes.map fun n => (n, p.pred n)
    free := p.resources.map fun r => (r, p.capacity r) }

/-- Lines 107-110: the activity fits what is free. -/
def fits (p : Project) (st : St) (n : Nat) : Bool := st.free.all fun e => p.need n e.1 ≤ e.2

/-- Lines 129-139. -/
def begin (p : Project) (st : St) (a : Nat) : St :=
  { st with
    avail := st.avail.erase a
    started := st.started ++ [a]
    sched := st.sched.set a (st.time, st.time + p.duration a)
    queue := (st.time + p.duration a, a) :: st.queue
    free := st.free.map fun e => (e.1, e.2 - p.need a e.1) }

/-- The pairs of the heap are compared lexicographically. -/
def earlier (x y : Nat × Nat) : Bool := x.1 < y.1 || (x.1 == y.1 && x.2 < y.2)

/-- `pop(queue)`. -/
def popMin : List (Nat × Nat) → Option ((Nat × Nat) × List (Nat × Nat))
  | [] => none
  | x :: l =>
    let m := l.foldl (fun m y => if earlier y m then y else m) x
    some (m, (x :: l).erase m)

/-- How the next activity is chosen: from those started so far and the non-empty list of possible ones. -/
abbrev Pick := List Nat → List Nat → Except PyErr Nat

/-- Lines 107-144, the inner loop; every round takes one activity from `avail`, so as many rounds as it has
are enough. -/
def fill (p : Project) (arrange : List Nat → List Nat) (pick : Pick) : Nat → St → Except PyErr St
  | n, st =>
    match (arrange st.avail).filter (fits p st) with
    | [] => .ok st
    | x :: l =>
      match n with
      | 0 => .ok st
      | n + 1 => do
        let a ← pick st.started (x :: l)
        fill p arrange pick n (begin p st a)

/-- Lines 145-154: the next activity ends. -/
def advance (p : Project) (st : St) : Except PyErr St :=
  match popMin st.queue with
  | none => .error .indexError
  | some ((t, a), q) =>
    let st := release a { st with queue := q, time := t }
    .ok { st with free := st.free.map fun e => (e.1, if e.1 ∈ p.nonRenewable then e.2 else e.2 + p.need a e.1) }

/-- Lines 103-154, the main loop, at most `n` rounds (`none`: not finished). -/
def loop (p : Project) (arrange : List Nat → List Nat) (pick : Pick) : Nat → St → Except PyErr (Option St)
  | n, st =>
    if st.sched.length < p.count then
      match n with
      | 0 => .ok none
      | n + 1 => do
        let st ← fill p arrange pick st.avail.length st
        let st ← advance p st
        loop p arrange pick n st
    else .ok (some st)

/-- The solution: the permutation (`perm[:-1]`), the schedule (start and end) and the modes. -/
structure Solution where
  permutation : List Int
  schedule : Dict Nat (Nat × Nat)
  modes : List Nat
  deriving DecidableEq

/-- `GreedyChoice` (18-22). -/
inductive Rule
  | mostSuccessors
  | sampleMostSuccessors
  | fastest
  | totallyRandom

/-- `max(l, key)` of a non-empty list: the first of the largest. -/
def maxBy (key : Nat → Nat) (x : Nat) (l : List Nat) : Nat := l.foldl (fun m y => if key m < key y then y else m) x

/-- `min(l, key)`. -/
def minBy (key : Nat → Nat) (x : Nat) (l : List Nat) : Nat := l.foldl (fun m y => if key y < key m then y else m) x

/-- Lines 112-128; `draw` is what the random generator answers: `numpy.random.choice` never takes an index of
probability 0. -/
def choose (p : Project) (rule : Rule) (draw : Nat) : List Nat → Except PyErr Nat
  | [] => .error .valueError
  | x :: l =>
    match rule with
    | .mostSuccessors => .ok (maxBy p.succs x l)
    | .sampleMostSuccessors =>
      let l' := (x :: l).filter fun n => p.succs n ≠ 0
      .ok (if l' = [] then (x :: l)[draw % (x :: l).length]! else l'[draw % l'.length]!)
    | .fastest => .ok (minBy p.duration x l)
    | .totallyRandom => .ok ((x :: l)[draw % (x :: l).length]!)

/-- Lines 76-167, `PileSolverRCPSP.solve`; every round of the loop ends one activity. -/
def solve (p : Project) (arrange : List Nat → List Nat) (rule : Rule) (draws : Nat → Nat) : Except PyErr (Option Solution) := do
  let r ← loop p arrange (fun started l => choose p rule (draws started.length) l) (p.count + 1) (start p)
  .ok (r.map fun st => ⟨st.started.dropLast.map fun a : Nat => (a : Int) - 2, st.sched, (List.range (p.count - 2)).map fun i => p.mode (i + 2)⟩)

/-- What is left of `permutation_jobs` (400, 419). -/
def remaining (permutation started : List Nat) : List Nat := started.foldl List.erase (permutation.erase 1)

/-- Lines 409-410: the possible activity that comes first in the permutation; `index` raises if one is
missing. -/
def byPriority (permutation : List Nat) : Pick
  | _, [] => .error .valueError
  | started, x :: l =>
    let rest := remaining permutation started
    if (x :: l).all (· ∈ rest) then .ok (minBy rest.idxOf x l) else .error .valueError

/-- Lines 381-455, `Executor.compute_schedule_from_priority_list`: the solution and what is left of the list
of the caller. -/
def execute (p : Project) (arrange : List Nat → List Nat) (permutation : List Nat) : Except PyErr (Option (Solution × List Nat)) :=
  if 1 ∈ permutation then do
    let r ← loop p arrange (byPriority permutation) (p.count + 1) (start p)
    .ok (r.map fun st => (⟨st.started.dropLast.map fun a : Nat => (a : Int) - 2, st.sched, (List.range (p.count - 2)).map fun i => p.mode (i + 1)⟩,
      remaining permutation st.started))
  else .error .valueError

end Verif.Pile
