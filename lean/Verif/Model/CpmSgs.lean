import Verif.Model.Py
/-
Model of the schedule generation of the critical path solver, `skdecide/builders/discrete_optimization/rcpsp/solver/cpm.py`
lines 127-255 (`run_sgs_on_order`) and 278-364 (`run_sgs_time_loop`).

Simplifications: activities and resources are natural numbers; the details of mode 1 name every resource; the order of the activities names each
one once; dates computed by the critical path method are parameters; sets are lists in their order of iteration. Printing
and `unlock_task_transition` are left out.
-/
namespace Verif.CpmSgs

/-- What the constructor (36-59), the problem (mode 1) and `run_classic_cpm` give. -/
structure Net where
  /-- `immediate_predecessors` -/
  pred : Nat → List Nat
  /-- `successors_map[n]["succs"]`: all descendants -/
  desc : Nat → List Nat
  /-- `predecessors_map[n]["succs"]`: all ancestors -/
  anc : Nat → List Nat
  dur : Nat → Nat
  /-- consumption of an activity on a resource -/
  need : Nat → Nat → Int
  esd : Nat → Nat
  lsd : Nat → Int
  horizon : Nat

/-- `resource_avail_in_time`: a list over time for each resource. -/
abbrev Avail := List (Nat × List Int)

/-- Lines 136-141 and 287-292 for constant capacities. -/
def constant (horizon : Nat) (caps : List (Nat × Int)) : Avail := caps.map (fun x => (x.1, List.replicate horizon x.2))

/-- The same lines for calendars. -/
def calendar (horizon : Nat) (cals : List (Nat × List Int)) : Avail := cals.map (fun x => (x.1, x.2.take (horizon + 1)))

/-- An entry of `causes_of_delay`: the activity, the resource, the time, and the activities that use the resource then. -/
structure Cause where
  task : Nat
  res : Nat
  time : Nat
  users : List Nat
  deriving DecidableEq, Repr

/-- The variables of both functions. `done` is the set of the keys of `current_schedule`. -/
structure St where
  avail : Avail
  sched : Dict Nat (Nat × Nat)
  least : Nat → Nat
  causes : List Cause
  effects : List (Nat × Nat)

/-- Lines 143-148 and 294-301. -/
def start (net : Net) (avail : Avail) : St := { avail := avail, sched := [], least := net.esd, causes := [], effects := [] }

/-- `ressource_usage[res][t]` (184-187): the activities placed at `t` that use the resource, without ancestors of `j`. -/
def users (net : Net) (st : St) (j res t : Nat) : List Nat :=
  (st.sched.filter (fun x => decide (x.2.1 ≤ t ∧ t < x.2.2 ∧ 0 < net.need x.1 res) && !(net.anc j).contains x.1)).map (·.1)

/-- Lines 177-188 for one resource: the first time from `t` on, of `k` times, with less than `need`. Beyond the list is IndexError;
the usage is kept for times below the horizon. -/
def scan (horizon : Nat) (avail : List Int) (need : Int) : Nat → Nat → Except PyErr (Option Nat)
  | _, 0 => .ok none
  | t, k + 1 =>
    match avail[t]? with
    | none => .error .indexError
    | some a =>
      if a < need then (if t < horizon then .ok (some t) else .error .keyError)
      else scan horizon avail need (t + 1) k

/-- Lines 176-190: the first resource and time that do not allow the activity to start at `time`. -/
def scanAll (net : Net) (j time : Nat) : Avail → Except PyErr (Option (Nat × Nat))
  | [] => .ok none
  | (r, l) :: rest =>
    match scan net.horizon l (net.need j r) time (net.dur j) with
    | .error e => .error e
    | .ok (some t) => .ok (some (r, t))
    | .ok none => scanAll net j time rest

/-- The loop over times (174-191) up to the first one that is valid. -/
def findTime (net : Net) (st : St) (j : Nat) : List Nat → Except PyErr (Option Nat × List Cause)
  | [] => .ok (none, [])
  | time :: times =>
    match scanAll net j time st.avail with
    | .error e => .error e
    | .ok none => .ok (some time, [])
    | .ok (some (r, t)) =>
      match findTime net st j times with
      | .error e => .error e
      | .ok (res, cs) => .ok (res, { task := j, res := r, time := t, users := users net st j r t } :: cs)

/-- Lines 207-210 for one resource. -/
def take (horizon : Nat) (need : Int) : Nat → Nat → List Int → Except PyErr (List Int)
  | _, 0, l => .ok l
  | t, k + 1, l =>
    match l[t]? with
    | none => .error .indexError
    | some a => if 0 < need ∧ ¬ t < horizon then .error .keyError else take horizon need (t + 1) k (l.set t (a - need))

/-- Lines 206-210. -/
def takeAll (net : Net) (j time : Nat) : Avail → Except PyErr Avail
  | [] => .ok []
  | (r, l) :: rest =>
    match take net.horizon (net.need j r) time (net.dur j) l with
    | .error e => .error e
    | .ok l' =>
      match takeAll net j time rest with
      | .error e => .error e
      | .ok rest' => .ok ((r, l') :: rest')

/-- Lines 213-216: the descendants start after the end of `j`. -/
def raise (least : Nat → Nat) (desc : List Nat) (stop : Nat) : Nat → Nat :=
  fun k => if k ∈ desc then max (least k) stop else least k

/-- Lines 217-222. -/
def delayed (net : Net) (least : Nat → Nat) (j stop : Nat) : List (Nat × Nat) :=
  ((net.desc j).filter (fun k => decide (least k < stop ∧ net.lsd k < stop))).map (fun k => (k, j))

/-- Lines 203-222: `j` is placed at `time`. -/
def place (net : Net) (st : St) (j time : Nat) : Except PyErr St :=
  match takeAll net j time st.avail with
  | .error e => .error e
  | .ok avail =>
    .ok { st with
      avail := avail
      sched := st.sched.set j (time, time + net.dur j)
      least := raise st.least (net.desc j) (time + net.dur j)
      effects := st.effects ++ delayed net st.least j (time + net.dur j) }

/-- Lines 168-224 for the activity `j`: nothing happens when no time is valid. -/
def schedule (net : Net) (st : St) (j : Nat) : Except PyErr St :=
  match findTime net st j (List.range' (st.least j) (net.horizon - st.least j)) with
  | .error e => .error e
  | .ok (none, cs) => .ok { st with causes := st.causes ++ cs }
  | .ok (some time, cs) => place net { st with causes := st.causes ++ cs } j time

/-- The first activity of the list all of whose predecessors are done (165-166). -/
def nextTask (net : Net) (st : St) (ll : List Nat) : Option Nat := ll.find? (fun t => (net.pred t).all (fun i => st.sched.contains i))

/-- The loop of lines 164-224; `n` is the length of the list. -/
def pass (net : Net) : Nat → List Nat → St → Except PyErr St
  | 0, _, st => .ok st
  | n + 1, ll, st =>
    match nextTask net st ll with
    | none => .error .stopIteration
    | some j =>
      match schedule net st j with
      | .error e => .error e
      | .ok st' => pass net n (ll.erase j) st'

/-- Lines 152-154 and 238-241: the ancestors that are not done, by their place in the order. -/
def before (net : Net) (order : List Nat) (st : St) (c : Nat) : Except PyErr (List Nat) :=
  if ((net.anc c).filter (fun n => !st.sched.contains n)).all (fun n => order.contains n) then
    .ok (order.filter (fun n => (net.anc c).contains n && !st.sched.contains n))
  else .error .keyError

/-- The loop of lines 158-241 with `cut_sgs_by_critical`. -/
def cut (net : Net) (order : List Nat) : List Nat → St → Except PyErr St
  | [], st => .ok st
  | c :: cs, st =>
    match before net order st c with
    | .error e => .error e
    | .ok l =>
      match pass net (l.length + 1) (l ++ [c]) st with
      | .error e => .error e
      | .ok st' => if st'.sched.contains c then cut net order cs st' else .error .keyError

/-- Lines 245-252 and 355-362: the links between an activity that is delayed and those in its way. -/
def linksOf (net : Net) (sched : Dict Nat (Nat × Nat)) : List Cause → Except PyErr (List (Nat × Nat))
  | [] => .ok []
  | x :: xs =>
    match sched.get? x.task with
    | none => .error .keyError
    | some (s, _) =>
      match linksOf net sched xs with
      | .error e => .error e
      | .ok l => .ok ((if net.esd x.task < s ∧ net.lsd x.task - 5 ≤ x.time then x.users.map (fun k => (x.task, k)) else []) ++ l)

/-- What both functions return. -/
structure Result where
  sched : Dict Nat (Nat × Nat)
  links : List (Nat × Nat)
  effects : List (Nat × Nat)
  causes : List Cause

/-- Lines 245-255 and 355-364. -/
def finish (net : Net) (critical : List Nat) (st : St) : Except PyErr Result :=
  match linksOf net st.sched st.causes with
  | .error e => .error e
  | .ok links =>
    match critical.getLast? with
    | none => .error .indexError
    | some c => if st.sched.contains c then .ok ⟨st.sched, links, st.effects, st.causes⟩ else .error .keyError

/-- `run_sgs_on_order` (127-255). -/
def onOrder (net : Net) (avail : Avail) (critical order : List Nat) (byCritical : Bool) : Except PyErr Result :=
  if byCritical then
    if critical = [] then .error .indexError
    else
      match cut net order critical (start net avail) with
      | .error e => .error e
      | .ok st => finish net critical st
  else
    match pass net order.length order (start net avail) with
    | .error e => .error e
    | .ok st => finish net critical st

/-! ### `run_sgs_time_loop` -/

/-- Lines 315-331: the resources that do not allow `j` to start at `cur`; only the first time is looked at. -/
def scanFirst (net : Net) (j cur : Nat) : Avail → Except PyErr (List Nat)
  | [] => .ok []
  | (r, l) :: rest =>
    if net.dur j = 0 then scanFirst net j cur rest
    else
      match l[cur]? with
      | none => .error .indexError
      | some a =>
        if a < net.need j r then
          if cur < net.horizon then
            match scanFirst net j cur rest with
            | .error e => .error e
            | .ok rs => .ok (r :: rs)
          else .error .keyError
        else scanFirst net j cur rest

/-- Lines 308-310: the predecessors have ended and the earliest start is reached. -/
def ready (net : Net) (st : St) (cur j : Nat) : Bool :=
  (net.pred j).all (fun i => match st.sched.get? i with
    | none => false
    | some (_, e) => decide (e ≤ cur)) && decide (st.least j ≤ cur)

/-- The loop of lines 306-352: the first activity that can start is placed, and the loop ends. -/
def tryAll (net : Net) (cur : Nat) : List Nat → St → Except PyErr St
  | [], st => .ok st
  | j :: js, st =>
    if ready net st cur j then
      match scanFirst net j cur st.avail with
      | .error e => .error e
      | .ok [] => place net st j cur
      | .ok (r :: rs) =>
        tryAll net cur js { st with causes := st.causes ++ (r :: rs).map (fun r => { task := j, res := r, time := cur, users := users net st j r cur }) }
    else tryAll net cur js st

/-- The main loop (303-354); `none` when the number of rounds does not suffice. `nodes` is the number of activities. -/
def timeLoop (net : Net) (nodes : Nat) (order : List Nat) : Nat → Nat → St → Except PyErr (Option St)
  | fuel, cur, st =>
    if st.sched.length < nodes then
      match fuel with
      | 0 => .ok none
      | fuel + 1 =>
        match tryAll net cur ((order.filter (fun t => !st.sched.contains t)).take 10) st with
        | .error e => .error e
        | .ok st' => timeLoop net nodes order fuel (cur + 1) st'
    else .ok (some st)

/-- `run_sgs_time_loop` (278-364). -/
def onTime (net : Net) (nodes : Nat) (avail : Avail) (critical order : List Nat) (fuel : Nat) : Except PyErr (Option Result) :=
  match timeLoop net nodes order fuel 0 (start net avail) with
  | .error e => .error e
  | .ok none => .ok none
  | .ok (some st) =>
    match finish net critical st with
    | .error e => .error e
    | .ok r => .ok (some r)

end Verif.CpmSgs
