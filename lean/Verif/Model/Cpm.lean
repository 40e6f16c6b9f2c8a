import Verif.Model.Py
import Verif.Model.Sort
/-
Model of the critical path method, `skdecide/builders/discrete_optimization/rcpsp/solver/cpm.py`.

Simplifications: activities are natural numbers, durations natural numbers; `None` in a date is absence from a dictionary;
the heap is a sorted list of pairs (time, activity); sets are lists in their order of iteration, which is a
parameter of the model (the graph library and Python determine it).
-/
namespace Verif.Cpm

/-- What the constructor computes (36-59): the activities, `immediate_successors`, `immediate_predecessors` and the durations of the modes. -/
structure Network where
  nodes : List Nat
  succ : Nat → List Nat
  pred : Nat → List Nat
  modes : Dict Nat (List Nat)
  source : Nat
  sink : Nat

/-- The neighbours in a directed graph given by its edges (46-49); the order of the edges gives the order of iteration. -/
def ofEdges (nodes : List Nat) (edges : List (Nat × Nat)) (modes : Dict Nat (List Nat)) (source sink : Nat) : Network :=
  { nodes := nodes, succ := fun n => (edges.filter (fun e => decide (e.1 = n))).map (·.2),
    pred := fun n => (edges.filter (fun e => decide (e.2 = n))).map (·.1), modes := modes, source := source, sink := sink }

/-- `map_node` (12-17, 44), the queue and the direction of the main loop (62-72). -/
structure St where
  esd : Dict Nat Int
  efd : Dict Nat Int
  lsd : Dict Nat Int
  lfd : Dict Nat Int
  queue : List (Int × Nat)
  forward : Bool
  deriving DecidableEq

/-- Comparison of queue entries: tuples are compared by time, then by activity. -/
def before (a b : Int × Nat) : Bool := a.1 < b.1 || (a.1 == b.1 && a.2 ≤ b.2)

/-- `heappush`. -/
def push (x : Int × Nat) : List (Int × Nat) → List (Int × Nat)
  | [] => [x]
  | y :: ys => if before x y then x :: y :: ys else y :: push x ys

/-- `min([...["duration"] for k in mode_details[node]])` (85-86). -/
def minDuration (net : Network) (n : Nat) : Except PyErr Nat := do
  let l ← net.modes.get n
  match l.min? with
  | some d => .ok d
  | none => .error .valueError

/-- `[getattr(map_node[n]) for n in l]`; `None` makes the following `max` or `min` raise `TypeError`. -/
def values (d : Dict Nat Int) : List Nat → Except PyErr (List Int)
  | [] => .ok []
  | n :: ns => do
    let v ← match d.get? n with
      | some v => .ok v
      | none => .error .typeError
    let vs ← values d ns
    .ok (v :: vs)

/-- Lines 98-102 for one successor. -/
def pushForward (net : Network) (st : St) (m : Nat) : Except PyErr St :=
  if (net.pred m).all (st.esd.contains ·) then do
    let vs ← values st.efd (net.pred m)
    match vs.max? with
    | some t => .ok { st with queue := push (t, m) st.queue }
    | none => .error .valueError
  else .ok st

/-- Lines 103-108 for one predecessor. -/
def pushBackward (net : Network) (st : St) (m : Nat) : Except PyErr St :=
  if (net.succ m).all (st.lsd.contains ·) then do
    let vs ← values st.lsd (net.succ m)
    match vs.min? with
    | some t => .ok { st with queue := push (-t, m) st.queue }
    | none => .error .valueError
  else .ok st

/-- The `for` loop of line 95. -/
def pushAll (f : St → Nat → Except PyErr St) : St → List Nat → Except PyErr St
  | st, [] => .ok st
  | st, m :: ms => do
    let st' ← f st m
    pushAll f st' ms

/-- Lines 109-111. -/
def turn (net : Network) (st : St) (n : Nat) : Except PyErr St :=
  if n = net.sink then
    match st.efd.get? n with
    | some e => .ok { st with forward := false, queue := push (-e, n) st.queue }
    | none => .error .typeError
  else .ok st

/-- One round (74-111): the entry `(t, n)` has been taken from the queue. -/
def visit (net : Network) (t : Int) (n : Nat) (st : St) : Except PyErr St :=
  if st.forward then
    if st.esd.contains n then .ok st else do
      let d ← minDuration net n
      let st2 ← pushAll (pushForward net) { st with esd := st.esd.set n t, efd := st.efd.set n (t + d) } (net.succ n)
      turn net st2 n
  else
    if st.lfd.contains n then .ok st else do
      let d ← minDuration net n
      let st2 ← pushAll (pushBackward net) { st with lfd := st.lfd.set n (-t), lsd := st.lsd.set n (-t - d) } (net.pred n)
      turn net st2 n

/-- The main loop (73-111); `none` when the number of rounds does not suffice. -/
def run (net : Network) : Nat → St → Except PyErr (Option St)
  | 0, st => match st.queue with
    | [] => .ok (some st)
    | _ :: _ => .ok none
  | fuel + 1, st => match st.queue with
    | [] => .ok (some st)
    | (t, n) :: rest => do
      let st' ← visit net t n { st with queue := rest }
      run net fuel st'

/-- The queue of line 71: the activities without ancestors, that is, without predecessors. -/
def start (net : Network) : St :=
  { esd := [], efd := [], lsd := [], lfd := [], queue := (net.nodes.filter (fun n => (net.pred n).isEmpty)).map (fun n => (0, n)), forward := true }

/-- Lines 115-120 from `cur` on; `none` when the number of rounds does not suffice.  The order of `nodes` is the order of iteration of
the set of predecessors. -/
def pathFrom (net : Network) (st : St) : Nat → Nat → Except PyErr (Option (List Nat))
  | fuel, cur => if cur = net.source then .ok (some []) else
    match fuel with
    | 0 => .ok none
    | fuel + 1 =>
      match (net.pred cur).find? (fun n => st.esd.get? n == st.lsd.get? n) with
      | none => .error .indexError
      | some p => do
        let r ← pathFrom net st fuel p
        .ok (r.map (p :: ·))

/-- The critical path (113-121), from the source to the sink. -/
def criticalPath (net : Network) (st : St) (fuel : Nat) : Except PyErr (Option (List Nat)) := do
  let r ← pathFrom net st fuel net.sink
  .ok (r.map (fun l => (net.sink :: l).reverse))

/-- `run_classic_cpm` (61-121). -/
def classic (net : Network) (fuel : Nat) : Except PyErr (Option (St × List Nat)) := do
  let r ← run net fuel (start net)
  match r with
  | none => .ok none
  | some st => do
    let p ← criticalPath net st fuel
    .ok (p.map (fun l => (st, l)))

/-- `return_order_cpm` (123-125) once all dates are known: `es` and `ls` are the earliest and the latest start dates.  Sorting by a pair is sorting by the
second component and then, stably, by the first. -/
def returnOrder (nodes : List Nat) (es ls : Nat → Int) : List Nat := sortBy es (sortBy ls nodes)

/-- Lines 269-273 for one resource: whether some time of `range(time, time + duration)` has less than `need`; past the end of the list is `IndexError`. -/
def blockedOn (avail : List Int) (need : Int) : Nat → Nat → Except PyErr Bool
  | _, 0 => .ok false
  | t, k + 1 =>
    match avail[t]? with
    | none => .error .indexError
    | some a => if a < need then .ok true else blockedOn avail need (t + 1) k

/-- Lines 267-275 for one time. -/
def blockedAt (cons : Dict Nat Int) (duration time : Nat) : List (Nat × List Int) → Except PyErr Bool
  | [] => .ok false
  | (r, avail) :: rest =>
    if duration = 0 then blockedAt cons duration time rest else do
      let need ← cons.get r
      let b ← blockedOn avail need time duration
      if b then .ok true else blockedAt cons duration time rest

/-- The loop of lines 265-275: the remaining times and the value of `time_start`. -/
def firstTimeLoop (avail : List (Nat × List Int)) (cons : Dict Nat Int) (duration : Nat) : List Nat → Option Nat → Except PyErr (Option Nat)
  | [], r => .ok r
  | t :: ts, r => do
    let b ← blockedAt cons duration t avail
    firstTimeLoop avail cons duration ts (if b then some t else r)

/-- `get_first_time_to_do_one_task` (257-276) for an activity with a given earliest start (not negative) in its mode 1; adding a duration to `None` is
`TypeError`.  Resources are numbers. -/
def firstTime (avail : List (Nat × List Int)) (cons : Dict Nat Int) (duration early horizon : Nat) : Except PyErr (Nat × Nat) := do
  let r ← firstTimeLoop avail cons duration (List.range' early (horizon - early)) none
  match r with
  | some t => .ok (t, t + duration)
  | none => .error .typeError

end Verif.Cpm
