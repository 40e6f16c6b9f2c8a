import Verif.Model.Pile

/-!
Model of `PileSolverRCPSP_Calendar.solve` (rcpsp_pile.py, lines 174-360): the pile solver when the capacities
change over time.

Simplifications: as in `Verif.Model.Pile`; no partial solution is given (lines 227-240); the calendars are not
empty lists; the second table of the non-renewable resources (251-252, 318-319), which is written but never
read, is left out.
-/
namespace Verif.Pile.Calendar

/-- `current_ressource_available`: one row per resource, one entry per time. -/
abbrev Table := List (String × List Int)

/-- Line 242: the calendar and 100 more times the last entry. -/
def table (p : Project) (calendar : String → List Int) : Table :=
  p.resources.map fun r => (r, calendar r ++ List.replicate 100 ((calendar r).getLast?.getD 0))

/-- Lines 279-285: during its duration the activity finds enough, the last entry holding for ever. -/
def fits (p : Project) (tab : Table) (time n : Nat) : Bool :=
  tab.all fun e => (List.range' time (p.duration n)).all fun t => p.need n e.1 ≤ e.2.getD (min t (e.2.length - 1)) 0

/-- `all(need <= row[time] for time in times)`, which stops at the first failure. -/
def enough (need : Int) (row : List Int) : List Nat → Except PyErr Bool
  | [] => .ok true
  | t :: ts => do
    let v ← pyGet row t
    if need ≤ v then enough need row ts else .ok false

/-- Lines 324-330: the same, with one time more and without the limit of the index. -/
def fitsStrict (p : Project) (time n : Nat) : Table → Except PyErr Bool
  | [] => .ok true
  | e :: tab => do
    if ← enough (p.need n e.1) e.2 (List.range' time (p.duration n + 1)) then fitsStrict p time n tab else .ok false

/-- The list of lines 324-330. -/
def possible (p : Project) (tab : Table) (time : Nat) : List Nat → Except PyErr (List Nat)
  | [] => .ok []
  | n :: l => do
    let b ← fitsStrict p time n tab
    let l ← possible p tab time l
    .ok (if b then n :: l else l)

/-- Lines 315-317, one resource. -/
def take (need : Int) : List Nat → List Int → Except PyErr (List Int)
  | [], row => .ok row
  | t :: ts, row => do
    let v ← pyGet row t
    let row ← pySet row t (v - need)
    take need ts row

/-- Lines 314-319. -/
def book (p : Project) (time n : Nat) : Table → Except PyErr Table
  | [] => .ok []
  | e :: tab => do
    let row ← take (p.need n e.1) (List.range' time (p.duration n)) e.2
    let tab ← book p time n tab
    .ok ((e.1, row) :: tab)

/-- The variables of the loop; `free` of `St` is not used. -/
structure CSt where
  st : St
  tab : Table

/-- Lines 299-330, the inner loop. -/
def fill (p : Project) (arrange : List Nat → List Nat) (pick : Pick) : Nat → CSt → List Nat → Except PyErr CSt
  | _, cs, [] => .ok cs
  | 0, cs, _ :: _ => .ok cs
  | n + 1, cs, x :: l => do
    let a ← pick cs.st.started (x :: l)
    let tab ← book p cs.st.time a cs.tab
    let st := begin p cs.st a
    let l ← possible p tab st.time (arrange st.avail)
    fill p arrange pick n ⟨st, tab⟩ l

/-- Lines 331-340: the next activity ends; if none is running, the time advances by one. -/
def advance (st : St) : St :=
  match popMin st.queue with
  | none => { st with time := st.time + 1 }
  | some ((t, a), q) => release a { st with queue := q, time := t }

/-- Lines 272-340, at most `n` rounds (`none`: not finished). -/
def loop (p : Project) (arrange : List Nat → List Nat) (pick : Pick) : Nat → CSt → Except PyErr (Option CSt)
  | n, cs =>
    if cs.st.sched.length < p.count then
      match n with
      | 0 => .ok none
      | n + 1 => do
        let cs ← fill p arrange pick cs.st.avail.length cs ((arrange cs.st.avail).filter (fits p cs.tab cs.st.time))
        loop p arrange pick n ⟨advance cs.st, cs.tab⟩
    else .ok (some cs)

/-- Lines 224-360, the loop limited to `n` rounds. -/
def solve (p : Project) (calendar : String → List Int) (arrange : List Nat → List Nat) (rule : Rule) (draws : Nat → Nat) (n : Nat) :
    Except PyErr (Option Solution) := do
  let r ← loop p arrange (fun started l => choose p rule (draws started.length) l) n ⟨start { p with resources := [] }, table p calendar⟩
  .ok (r.map fun cs => ⟨cs.st.started.dropLast.map fun a : Nat => (a : Int) - 2, cs.st.sched, (List.range (p.count - 2)).map fun i => p.mode (i + 2)⟩)

end Verif.Pile.Calendar
