import Verif.Model.Milp
import Verif.Model.Rcpsp
/-
Model of `rcpsp/solver/rcpsp_lp_solver.py` (directory `skdecide/builders/discrete_optimization`): the time-indexed programs
of `LP_RCPSP` (one mode per task) and `LP_MRCPSP` (several modes), the rows of partial solutions, and the reading of a
solution.

Simplifications: as in `Rcpsp` (task numbers from 1 on, natural durations and times); the horizon of the start solution is a
parameter; the MIP start (a hint to the library) and printing are left out; of `LP_MRCPSP_GUROBI` nothing is modelled.
-/
namespace Verif.RcpspLp
open Verif.Milp Verif.Rcpsp

/-- `PartialSolution` (`rcpsp/rcpsp_model.py` 456-469).  It has no attributes `start_at_end`, `start_together`,
`start_after_nunit`, `start_at_end_plus_offset`. -/
structure Partial where
  taskMode : Option (Dict Nat Nat)
  startTimes : Option (Dict Nat Nat)
  endTimes : Option (Dict Nat Nat)
  permutation : Option (List Nat)
  orders : Option (List (List Nat))

/-- `sorted(self.rcpsp_model.mode_details.keys())` (68, 254). -/
def sortedTasks (pb : Problem) : List Nat := sortBy (fun k => (k : Int)) pb.modes.keys

/-- `mode_details[task][mode]`. -/
def modeAt (pb : Problem) (task mode : Nat) : Except PyErr Mode := do
  let d ← pb.modes.get task
  d.get mode

/-- Consecutive elements: `zip(l[:-1], l[1:])`. -/
def consecutive (l : List Nat) : List (Nat × Nat) := l.zip l.tail

/- One mode per task. -/

/-- `p`, `u`, `c`, `S` (70-92). -/
structure Data where
  p : List Nat
  u : List (List Int)
  c : List Capacity
  S : List (Nat × Nat)

/-- Lines 68-92. -/
def data (pb : Problem) : Except PyErr Data := do
  let p ← mapE (fun k => do let m ← modeAt pb k 1; .ok m.duration) (sortedTasks pb)
  let u ← mapE (fun k => mapE (fun r => do let m ← modeAt pb k 1; m.needs.get r) pb.resources.keys) (sortedTasks pb)
  let S ← mapE (fun k => do let ss ← pb.successors.get k; .ok (ss.map (fun s => (k - 1, s - 1)))) (sortedTasks pb)
  .ok ⟨p, u, pb.resources.map Prod.snd, S.flatten⟩

/-- A bound of a row must be a number; a list raises `TypeError`. -/
def number : Capacity → Except PyErr Int
  | .const c => .ok c
  | .calendar _ => .error .typeError

/-- The row of resource `r` at time `t` (112-116): the variables of the starts from `max(0, t - p[j] + 1)` to `t`. -/
def resourceRow (d : Data) (r t : Nat) : Except PyErr (Row (Nat × Nat)) := do
  let terms ← mapE (fun j => do
    let us ← pyGet d.u j
    let p ← pyGet d.p j
    let n ← pyGet us r
    .ok ((List.range' (t + 1 - p) (t + 1 - (t + 1 - p))).map (fun t2 => (n, (j, t2))))) (List.range d.p.length)
  let c ← pyGet d.c r
  let c ← number c
  .ok ⟨terms.flatten, .le, c⟩

/-- The terms `t * x[j][t]`, with a sign, for all times (107, 118, 140). -/
def startTerms (sign : Int) (H j : Nat) : Lin (Nat × Nat) := (List.range (H + 1)).map (fun (t : Nat) => (sign * t, (j, t)))

/-- `x[j]` (103-105, 118): no such list raises `IndexError`. -/
def listOf (d : Data) (j : Nat) : Except PyErr Nat := if j < d.p.length then .ok j else .error .indexError

/-- The row of a precedence (117-118). -/
def precedenceRow (d : Data) (H : Nat) (q : Nat × Nat) : Except PyErr (Row (Nat × Nat)) := do
  let s ← listOf d q.2
  let j ← listOf d q.1
  let p ← pyGet d.p j
  .ok ⟨startTerms 1 H s ++ startTerms (-1) H j, .ge, p⟩

/-- Lines 98-118: variables, objective and rows; `H` is the makespan of the start solution. -/
def single (pb : Problem) (H : Nat) : Except PyErr (Program (Nat × Nat)) := do
  let d ← data pb
  let last ← if d.p.length = 0 then .error .indexError else .ok (d.p.length - 1)
  let res ← mapE (fun q => resourceRow d q.1 q.2)
    ((List.range d.c.length).flatMap (fun r => (List.range (H + 1)).map (fun t => (r, t))))
  let prec ← mapE (precedenceRow d H) d.S
  .ok { vars := (List.range d.p.length).flatMap (fun j => (List.range (H + 1)).map (fun t => ((j, t), .binary))),
        rows := (List.range d.p.length).map (fun j => ⟨(List.range (H + 1)).map (fun t => (1, (j, t))), .eq, 1⟩) ++ res ++ prec,
        objective := startTerms 1 H last }

/-- The rows `start(t1) <= start(t2)` of a permutation or partial order (138-147). -/
def orderRow (d : Data) (H : Nat) (q : Nat × Nat) : Except PyErr (Row (Nat × Nat)) := do
  let a ← listOf d (q.1 - 1)
  let b ← listOf d (q.2 - 1)
  .ok ⟨startTerms 1 H a ++ startTerms (-1) H b, .le, 0⟩

/-- The two rows of a given start time (132-137). -/
def startRows (d : Data) (H : Nat) (q : Nat × Nat) : Except PyErr (List (Row (Nat × Nat))) := do
  let a ← listOf d (q.1 - 1)
  let t ← if q.2 < H + 1 then .ok q.2 else .error .indexError
  .ok [⟨startTerms 1 H a, .eq, q.2⟩, ⟨[(1, (a, t))], .eq, 1⟩]

/-- `init_model` (46-164).  With a partial solution the attribute `start_at_end` (152) is read, which no partial
solution has. -/
def singleWith (pb : Problem) (H : Nat) : Option Partial → Except PyErr (Program (Nat × Nat))
  | none => single pb H
  | some ps => do
    let _ ← single pb H
    let d ← data pb
    let _ ← mapE (startRows d H) (ps.startTimes.getD [])
    let _ ← mapE (orderRow d H) (consecutive (ps.permutation.getD []))
    let _ ← mapE (orderRow d H) ((ps.orders.getD []).flatMap consecutive)
    .error .attributeError

/-- `retrieve_solutions` (166-190) for one solution: the start of every variable with value at least 0.5. -/
def readSingle (pb : Problem) (n H : Nat) (a : Nat × Nat → Int) : Except PyErr (Dict Nat (Int × Int)) :=
  ((List.range n).flatMap (fun j => (List.range (H + 1)).map (fun t => (j, t)))).foldlM (fun sch q =>
    if 1 ≤ 2 * a q then do
      let m ← modeAt pb (q.1 + 1) 1
      .ok (sch.set (q.1 + 1) ((q.2 : Int), (q.2 : Int) + m.duration))
    else .ok sch) []

/- Several modes. -/

/-- `(task, mode, t)`. -/
abbrev Key := Nat × Nat × Nat

/-- The variables `x[key]` and `durations[task]`. -/
inductive Var where
  | x (k : Key)
  | dur (task : Nat)
  deriving DecidableEq

/-- `max` of a list (255-257); of an empty one: `ValueError`. -/
def maxOf : List Nat → Except PyErr Nat
  | [] => .error .valueError
  | x :: xs => .ok (xs.foldl max x)

/-- `len(self.T)` (255-275): makespan plus one when the start solution is feasible, else the sum of the longest durations. -/
def horizonLen (pb : Problem) (feasible : Bool) (makespan : Nat) : Except PyErr Nat := do
  let p ← mapE (fun k => do let d ← pb.modes.get k; maxOf (d.map (fun q => q.2.duration))) (sortedTasks pb)
  .ok (if feasible then makespan + 1 else p.sum)

/-- `variable_per_task[task]` (282-289). -/
def taskKeys (pb : Problem) (T task : Nat) : Except PyErr (List Key) := do
  let d ← pb.modes.get task
  .ok (d.keys.flatMap (fun m => (List.range T).map (fun t => (task, m, t))))

/-- `variable_per_task` (281-289). -/
def varDict (pb : Problem) (T : Nat) : Except PyErr (Dict Nat (List Key)) :=
  mapE (fun k => do let ks ← taskKeys pb T k; .ok (k, ks)) (sortedTasks pb)

/-- `mode_details[key[0]][key[1]]`. -/
def modeOf (pb : Problem) (k : Key) : Except PyErr Mode := modeAt pb k.1 k.2.1

/-- `key[2] <= t < key[2] + duration` (307-308). -/
def active (pb : Problem) (t : Nat) (k : Key) : Except PyErr Bool :=
  if k.2.2 ≤ t then do
    let m ← modeOf pb k
    .ok (decide (t < k.2.2 + m.duration))
  else .ok false

/-- The term of a resource row, if the key counts at `t` (305-308). -/
def activeTerm (pb : Problem) (r : String) (t : Nat) (k : Key) : Except PyErr (Lin Var) := do
  let b ← active pb t k
  if b then do
    let m ← modeOf pb k
    let n ← m.needs.get r
    .ok [(n, .x k)]
  else .ok []

/-- `renewable_quantity[r][t]` (294-302): a number is repeated `len(T)` times. -/
def quantity (T t : Nat) : Capacity → Except PyErr Int
  | .const c => pyGet (List.replicate T c) t
  | .calendar l => pyGet l t

/-- The row of a renewable resource at `t` (304-308). -/
def renewableRow (pb : Problem) (T : Nat) (keys : List Key) (q : String × Nat) : Except PyErr (Row Var) := do
  let terms ← mapE (activeTerm pb q.1 q.2) keys
  let cap ← pb.resources.get q.1
  let c ← quantity T q.2 cap
  .ok ⟨terms.flatten, .le, c⟩

/-- The row of a non-renewable resource (310-312). -/
def nonRenewableRow (pb : Problem) (T : Nat) (keys : List Key) (r : String) : Except PyErr (Row Var) := do
  let terms ← mapE (fun k => do let m ← modeOf pb k; let n ← m.needs.get r; .ok (n, Var.x k)) keys
  let cap ← pb.resources.get r
  let c ← quantity T 0 cap
  .ok ⟨terms, .le, c⟩

/-- The row that sets `durations[j]` (318-320). -/
def durationRow (pb : Problem) (q : Nat × List Key) : Except PyErr (Row Var) := do
  let terms ← mapE (fun k => do let m ← modeOf pb k; .ok ((m.duration : Int), Var.x k)) q.2
  .ok ⟨terms ++ [(-1, .dur q.1)], .eq, 0⟩

/-- `key[2] * x[key]` with a sign. -/
def timeTerms (sign : Int) (ks : List Key) : Lin Var := ks.map (fun k => (sign * k.2.2, .x k))

/-- The row of a precedence (321-325). -/
def precRow (vd : Dict Nat (List Key)) (q : Nat × Nat) : Except PyErr (Row Var) := do
  let ks ← vd.get q.2
  let kj ← vd.get q.1
  .ok ⟨timeTerms 1 ks ++ timeTerms (-1) kj ++ [(-1, .dur q.1)], .ge, 0⟩

/-- The row of a given start time (343-346). -/
def fixRow (vd : Dict Nat (List Key)) (q : Nat × Nat) : Except PyErr (Row Var) := do
  let ks ← vd.get q.1
  .ok ⟨(ks.filter (fun k => decide (k.2.2 = q.2))).map (fun k => (1, .x k)), .eq, 1⟩

/-- The row of an order (347-358). -/
def beforeRow (vd : Dict Nat (List Key)) (q : Nat × Nat) : Except PyErr (Row Var) := do
  let k1 ← vd.get q.1
  let k2 ← vd.get q.2
  .ok ⟨timeTerms 1 k1 ++ timeTerms (-1) k2, .le, 0⟩

/-- The rows of a partial solution (340-359); modes and end times of it are not read. -/
def partialRows (vd : Dict Nat (List Key)) : Option Partial → Except PyErr (List (Row Var))
  | none => .ok []
  | some ps => do
    let r1 ← mapE (fixRow vd) (ps.startTimes.getD [])
    let r2 ← mapE (beforeRow vd) (consecutive (ps.permutation.getD []))
    let r3 ← mapE (beforeRow vd) ((ps.orders.getD []).flatMap consecutive)
    .ok (r1 ++ r2 ++ r3)

/-- `S` (265-268). -/
def pairs (pb : Problem) : Except PyErr (List (Nat × Nat)) := do
  let S ← mapE (fun k => do let ss ← pb.successors.get k; .ok (ss.map (fun s => (k, s)))) (sortedTasks pb)
  .ok S.flatten

/-- `max(mode_details.keys())` (280): the last of the sorted tasks. -/
def lastTask (pb : Problem) : Except PyErr Nat := maxOf pb.modes.keys

/-- `init_model` of `LP_MRCPSP` (231-359) for `T = range(T)`. -/
def multi (pb : Problem) (T : Nat) (ps : Option Partial) : Except PyErr (Program Var) := do
  let S ← pairs pb
  let last ← lastTask pb
  let vd ← varDict pb T
  let lastKeys ← vd.get last
  let keys := vd.flatMap Prod.snd
  let renewable := pb.resources.keys.filter (fun r => !decide (r ∈ pb.nonRenewable))
  let res ← mapE (renewableRow pb T keys) (renewable.flatMap (fun r => (List.range T).map (fun t => (r, t))))
  let nonres ← mapE (nonRenewableRow pb T keys) pb.nonRenewable
  let durs ← mapE (durationRow pb) vd
  let prec ← mapE (precRow vd) S
  let extra ← partialRows vd ps
  .ok { vars := keys.map (fun k => (.x k, .binary)) ++ vd.map (fun q => (.dur q.1, .integer 0 none)),
        rows := vd.map (fun q => ⟨q.2.map (fun k => (1, .x k)), .eq, 1⟩) ++ res ++ nonres ++ durs ++ prec ++ extra,
        objective := timeTerms 1 lastKeys }

/-- The loop over the variables in `retrieve_solutions` (373-378). -/
def readMulti (pb : Problem) (keys : List Key) (a : Var → Int) : Except PyErr (Dict Nat (Int × Int) × Dict Nat Nat) :=
  keys.foldlM (fun st k =>
    if 1 ≤ 2 * a (.x k) then do
      let m ← modeOf pb k
      .ok (st.1.set k.1 ((k.2.2 : Int), (k.2.2 : Int) + m.duration), st.2.set k.1 k.2.1)
    else .ok st) ([], [])

/-- `modes.pop(1)`, `modes.pop(n_jobs + 2)`, `[modes[k] for k in sorted(modes)]` (381-383). -/
def modesVec (pb : Problem) (modes : Dict Nat Nat) : Except PyErr (List Nat) := do
  let _ ← modes.get 1
  let m1 := modes.erase 1
  let _ ← m1.get pb.sink
  let m2 := m1.erase pb.sink
  .ok ((sortBy (fun q => (q.1 : Int)) m2).map Prod.snd)

/-- `retrieve_solutions` (361-391) for one solution: schedule and modes.  An exception of `modes.pop` drops the solution. -/
def retrieve (pb : Problem) (T : Nat) (a : Var → Int) : Except PyErr (Dict Nat (Int × Int) × List Nat) := do
  let vd ← varDict pb T
  let st ← readMulti pb (vd.flatMap Prod.snd) a
  let ms ← modesVec pb st.2
  .ok (st.1, ms)

end Verif.RcpspLp
