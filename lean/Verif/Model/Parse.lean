import Verif.Model.Py
import Verif.Model.Milp
/-
The readers of instance files of the discrete optimization library
(`skdecide/builders/discrete_optimization/*/…_parser.py`).

A file is the list of its characters.  Opening the file, the translation of line ends that
`open(…, 'r')` performs, and the constructors of the problem classes are not modelled: each
reader returns the arguments it gives to the constructor.
-/
namespace Verif.Parse
open Verif

/-- White space as `str.split()` and `int()` see it.
Simplification: only the characters of ASCII. -/
def isSpace (c : Char) : Bool :=
  c = ' ' || c = '\t' || c = '\n' || c = '\r' || c = '\x0b' || c = '\x0c' ||
    c = '\x1c' || c = '\x1d' || c = '\x1e' || c = '\x1f'

/-- The loop of `str.split('\n')`; `cur` is the line read so far. -/
def linesGo (cur : List Char) : List Char → List (List Char)
  | [] => [cur]
  | c :: cs => if c = '\n' then cur :: linesGo [] cs else linesGo (cur ++ [c]) cs

/-- `input_data.split('\n')` (`knapsack_parser.py` 19 and the other readers). -/
def pyLines (t : List Char) : List (List Char) := linesGo [] t

/-- The loop of `str.split()`; `cur` is the word read so far. -/
def wordsGo (cur : List Char) : List Char → List (List Char)
  | [] => if cur = [] then [] else [cur]
  | c :: cs =>
    if isSpace c then (if cur = [] then wordsGo [] cs else cur :: wordsGo [] cs)
    else wordsGo (cur ++ [c]) cs

/-- `line.split()` (`knapsack_parser.py` 20, 26 and the other readers). -/
def pyWords (l : List Char) : List (List Char) := wordsGo [] l

/-- `str.strip()`, which `int()` and `float()` apply first. -/
def strip (s : List Char) : List Char :=
  ((s.dropWhile isSpace).reverse.dropWhile isSpace).reverse

/-- The digits of a number without sign. -/
def pyNat (s : List Char) : Except PyErr Nat :=
  if s = [] then .error .valueError
  else if s.all Char.isDigit then .ok (Nat.ofDigitChars 10 s 0)
  else .error .valueError

/-- A sign, and what follows. -/
def signed (s : List Char) : Bool × List Char :=
  match s with
  | '-' :: s => (true, s)
  | '+' :: s => (false, s)
  | s => (false, s)

/-- `int(s)` for a string.
Simplification: underscores between digits and digits outside ASCII, which Python accepts,
raise here. -/
def pyInt (s : List Char) : Except PyErr Int :=
  let p := signed (strip s)
  pyNat p.2 >>= fun n => .ok (if p.1 then -(n : Int) else n)

/-- The digits before and after the decimal point of a number without sign: their value. -/
def pyDecimal (s : List Char) : Except PyErr Rat :=
  let whole := s.takeWhile (· ≠ '.')
  match s.dropWhile (· ≠ '.') with
  | [] => pyNat whole >>= fun n => .ok (n : Rat)
  | _ :: frac =>
    pyNat (whole ++ frac) >>= fun n => .ok ((n : Rat) / (10 : Rat) ^ frac.length)

/-- `float(s)` for a string, as an exact rational.
Simplification: exponents, `inf` and `nan`, which Python accepts, raise here. -/
def pyFloat (s : List Char) : Except PyErr Rat :=
  let p := signed (strip s)
  pyDecimal p.2 >>= fun q => .ok (if p.1 then -q else q)

/-- `l[i]` for an integer `i`: counted from the end when negative. -/
def pyAt {α : Type} (l : List α) (i : Int) : Except PyErr α :=
  if 0 ≤ i then pyGet l i.toNat
  else if 0 ≤ (l.length : Int) + i then pyGet l ((l.length : Int) + i).toNat
  else .error .indexError

/-- `range(a, b)`. -/
def pyRange (a b : Int) : List Int := (List.range (b - a).toNat).map (fun (k : Nat) => a + (k : Int))

/-- `int(parts[k])`. -/
def intAt (parts : List (List Char)) (k : Nat) : Except PyErr Int := pyGet parts k >>= pyInt

/-- `float(parts[k])`. -/
def floatAt (parts : List (List Char)) (k : Nat) : Except PyErr Rat := pyGet parts k >>= pyFloat

/-- `lines[i].split()`. -/
def wordsAt (lines : List (List Char)) (i : Int) : Except PyErr (List (List Char)) :=
  pyAt lines i >>= fun l => .ok (pyWords l)

/-! ### Knapsack -/

/-- An item of a knapsack: `Item(index, value, weight)` (`knapsack_parser.py` 27). -/
structure Item where
  index : Int
  value : Int
  weight : Int
  deriving DecidableEq, Repr

/-- `parse_input_data` (`knapsack_parser.py` 11-28): the capacity and the items. -/
def knapsack (t : List Char) : Except PyErr (Int × List Item) :=
  let lines := pyLines t
  wordsAt lines 0 >>= fun first =>
  intAt first 0 >>= fun count =>
  intAt first 1 >>= fun capacity =>
  Milp.mapE (fun i =>
    wordsAt lines i >>= fun parts =>
    intAt parts 0 >>= fun v =>
    intAt parts 1 >>= fun w => .ok ⟨i - 1, v, w⟩) (pyRange 1 (count + 1)) >>= fun items =>
  .ok (capacity, items)

/-! ### Colouring -/

/-- `parse` (`coloring_parser.py` 10-22): the nodes and the edges given to `Graph`. -/
def coloring (t : List Char) : Except PyErr (List Int × List (Int × Int)) :=
  let lines := pyLines t
  wordsAt lines 0 >>= fun first =>
  intAt first 0 >>= fun nodeCount =>
  intAt first 1 >>= fun edgeCount =>
  Milp.mapE (fun i =>
    wordsAt lines i >>= fun parts =>
    intAt parts 0 >>= fun a =>
    intAt parts 1 >>= fun b => .ok (a, b)) (pyRange 1 (edgeCount + 1)) >>= fun edges =>
  .ok (pyRange 0 nodeCount, edges)

/-! ### Travelling salesman -/

/-- `parse_file` (`tsp_parser.py` 13-29): the points and the number of nodes. -/
def tsp (t : List Char) : Except PyErr (List (Rat × Rat) × Int) :=
  let lines := pyLines t
  pyAt lines 0 >>= fun head =>
  pyInt head >>= fun count =>
  Milp.mapE (fun i =>
    wordsAt lines i >>= fun parts =>
    floatAt parts 0 >>= fun x =>
    floatAt parts 1 >>= fun y => .ok (x, y)) (pyRange 1 (count + 1)) >>= fun points =>
  .ok (points, count)

/-! ### Vehicle routing -/

/-- `Customer2D(name, demand, x, y)` (`vrp_parser.py` 25). -/
structure Customer where
  name : Int
  demand : Int
  x : Rat
  y : Rat
  deriving DecidableEq, Repr

/-- The arguments of `VrpProblem2D` (`vrp_parser.py` 30-35). -/
structure Vrp where
  vehicles : Int
  capacities : List Int
  count : Int
  customers : List Customer
  starts : List Int
  ends : List Int
  deriving DecidableEq, Repr

/-- The number of vehicles (`vrp_parser.py` 19): the one of the caller, or that of the file. -/
def vehiclesOf (vehicles : Option Int) (first : List (List Char)) : Except PyErr Int :=
  match vehicles with
  | none => intAt first 1
  | some v => .ok v

/-- `parse_input` (`vrp_parser.py` 13-35). -/
def vrp (t : List Char) (start stop : Int := 0) (vehicles : Option Int := none) :
    Except PyErr Vrp :=
  let lines := pyLines t
  wordsAt lines 0 >>= fun first =>
  intAt first 0 >>= fun count =>
  vehiclesOf vehicles first >>= fun vehicleCount =>
  intAt first 2 >>= fun capacity =>
  Milp.mapE (fun i =>
    wordsAt lines i >>= fun parts =>
    intAt parts 0 >>= fun d =>
    floatAt parts 1 >>= fun x =>
    floatAt parts 2 >>= fun y => .ok ⟨i - 1, d, x, y⟩) (pyRange 1 (count + 1)) >>= fun customers =>
  .ok { vehicles := vehicleCount
        capacities := List.replicate vehicleCount.toNat capacity
        count := count
        customers := customers
        starts := List.replicate vehicleCount.toNat start
        ends := List.replicate vehicleCount.toNat stop }

/-! ### Facility location -/

/-- `Facility(index, setup_cost, capacity, Point(x, y))` (`facility_parser.py` 20). -/
structure Site where
  index : Int
  setup : Rat
  capacity : Int
  x : Rat
  y : Rat
  deriving DecidableEq, Repr

/-- The arguments of `FacilityProblem2DPoints` (`facility_parser.py` 25). -/
structure Fac where
  facilityCount : Int
  customerCount : Int
  facilities : List Site
  customers : List Customer
  deriving DecidableEq, Repr

/-- `parse` (`facility_parser.py` 10-26). -/
def facility (t : List Char) : Except PyErr Fac :=
  let lines := pyLines t
  wordsAt lines 0 >>= fun first =>
  intAt first 0 >>= fun nf =>
  intAt first 1 >>= fun nc =>
  Milp.mapE (fun i =>
    wordsAt lines i >>= fun parts =>
    floatAt parts 0 >>= fun s =>
    intAt parts 1 >>= fun c =>
    floatAt parts 2 >>= fun x =>
    floatAt parts 3 >>= fun y => .ok ⟨i - 1, s, c, x, y⟩) (pyRange 1 (nf + 1)) >>= fun facilities =>
  Milp.mapE (fun i =>
    wordsAt lines i >>= fun parts =>
    intAt parts 0 >>= fun d =>
    floatAt parts 1 >>= fun x =>
    floatAt parts 2 >>= fun y => .ok ⟨i - 1 - nf, d, x, y⟩) (pyRange (nf + 1) (nf + 1 + nc)) >>=
      fun customers =>
  .ok ⟨nf, nc, facilities, customers⟩

/-! ### Scheduling: the PSPLIB format -/

/-- `lines.index(s)`. -/
def lineIndex (lines : List (List Char)) (s : List Char) : Except PyErr Int :=
  match lines.findIdx? (· = s) with
  | some i => .ok i
  | none => .error .valueError

set_option synthInstance.maxSize 1000 in
/-- The arguments of `SingleModeRCPSPModel` or `MultiModeRCPSPModel`
(`rcpsp_parser.py` 87-100); `multi` tells which. -/
structure Psplib where
  multi : Bool
  resources : List (List Char × Int)
  nonRenewable : List (List Char)
  modes : List (Int × List (Int × List (List Char × Int)))
  successors : List (Int × List Int)
  horizon : Int
  deriving DecidableEq, Repr

/-- The dictionary of resources (`rcpsp_parser.py` 48-50): a name is written as two words. -/
def resourcesOf (names caps : List (List Char)) : Except PyErr (Dict (List Char) Int) :=
  Milp.mapE (fun i =>
    pyGet names (2 * i) >>= fun a =>
    pyGet names (2 * i + 1) >>= fun b =>
    intAt caps i >>= fun c => .ok (a ++ b, c)) (List.range caps.length) >>= fun ps =>
  .ok (ps.foldl (fun (d : Dict (List Char) Int) p => Dict.set d p.1 p.2) [])

/-- One line of the precedence relations (`rcpsp_parser.py` 57-62): the task and its
successors.  The number of modes is read and dropped.
Simplification: a negative number of successors gives none; the slice of the code counts from
the end when that number is below -3. -/
def precLine (parts : List (List Char)) : Except PyErr (Int × List Int) :=
  intAt parts 0 >>= fun task =>
  intAt parts 1 >>= fun _ =>
  intAt parts 2 >>= fun n =>
  Milp.mapE pyInt ((parts.drop 3).take n.toNat) >>= fun succ => .ok (task, succ)

/-- The loop over the precedence relations: the successors and the variable `task_id`, which
keeps its last value. -/
def precLoop (d : Dict Int (List Int)) (task : Option Int) :
    List (List (List Char)) → Except PyErr (Dict Int (List Int) × Option Int)
  | [] => .ok (d, task)
  | parts :: rest => precLine parts >>= fun p => precLoop (Dict.set d p.1 p.2) (some p.1) rest

/-- The loop `for i in range(n_resources)` (`rcpsp_parser.py` 84-85). -/
def usageLoop (d : Dict (List Char) Int) (usage : List Int) :
    List (Nat × List Char) → Except PyErr (Dict (List Char) Int)
  | [] => .ok d
  | (i, r) :: rest => pyGet usage i >>= fun u => usageLoop (Dict.set d r u) usage rest

set_option synthInstance.maxSize 1000 in
/-- The variables of the loop over the modes. -/
structure ModeVars where
  multi : Bool
  task : Option Int
  details : List (Int × List (Int × List (List Char × Int)))
  deriving DecidableEq, Repr

/-- The name under which a duration is kept. -/
def durationKey : List Char := "duration".toList

/-- The words of one line of the modes (`rcpsp_parser.py` 67-78): the multi-mode flag, the
task, the mode, the duration and the usage.  A line with as many words as a task with its
resources names the task, any other line continues the task of the line before. -/
def modeLine (names : List (List Char)) (multi : Bool) (task : Option Int)
    (parts : List (List Char)) : Except PyErr (Bool × Int × Int × Int × List Int) :=
  if parts.length = 3 + names.length then
    intAt parts 0 >>= fun task =>
    intAt parts 1 >>= fun mode =>
    intAt parts 2 >>= fun dur =>
    Milp.mapE pyInt ((parts.drop 3).take names.length) >>= fun usage =>
    .ok (multi, task, mode, dur, usage)
  else
    intAt parts 0 >>= fun mode =>
    intAt parts 1 >>= fun dur =>
    Milp.mapE pyInt ((parts.drop 2).take (1 + names.length)) >>= fun usage =>
    match task with
    | some task => .ok (true, task, mode, dur, usage)
    | none => .error .nameError

/-- The body of the loop over the modes (`rcpsp_parser.py` 66-85). -/
def modeStep (names : List (List Char)) (s : ModeVars) (parts : List (List Char)) :
    Except PyErr ModeVars :=
  modeLine names s.multi s.task parts >>= fun q =>
  usageLoop [(durationKey, q.2.2.2.1)] q.2.2.2.2
    ((List.range names.length).zip names) >>= fun d =>
  .ok ⟨q.1, some q.2.1,
    Dict.set s.details q.2.1 (Dict.set ((Dict.get? s.details q.2.1).getD []) q.2.2.1 d)⟩

/-- The loop over the modes. -/
def modeLoop (names : List (List Char)) (s : ModeVars) :
    List (List (List Char)) → Except PyErr ModeVars
  | [] => .ok s
  | parts :: rest => modeStep names s parts >>= fun s => modeLoop names s rest

/-- `parse_psplib` (`rcpsp_parser.py` 19-101).
Simplification: when a line of the precedence relations or of the modes raises, the lines
before it were read already; all lines are taken first here, so only the choice between two
exceptions may differ. -/
def psplib (t : List Char) : Except PyErr Psplib :=
  let lines := pyLines t
  lineIndex lines "RESOURCES".toList >>= fun r =>
  lineIndex lines "PRECEDENCE RELATIONS:".toList >>= fun p =>
  lineIndex lines "REQUESTS/DURATIONS:".toList >>= fun d =>
  lineIndex lines "RESOURCEAVAILABILITIES:".toList >>= fun a =>
  wordsAt lines (r - 1) >>= fun head =>
  intAt head 2 >>= fun horizon =>
  wordsAt lines (a + 1) >>= fun names =>
  wordsAt lines (a + 2) >>= fun caps =>
  resourcesOf names caps >>= fun resources =>
  Milp.mapE (wordsAt lines) (pyRange (p + 2) (d - 2 + 1)) >>= fun precs =>
  precLoop [] none precs >>= fun sp =>
  Milp.mapE (wordsAt lines) (pyRange (d + 3) (a - 2 + 1)) >>= fun rows =>
  modeLoop (Dict.keys resources) ⟨false, sp.2, []⟩ rows >>= fun s =>
  .ok { multi := s.multi
        resources := resources
        nonRenewable := (Dict.keys resources).filter (fun n => n.head? = some 'N')
        modes := s.details
        successors := sp.1
        horizon := horizon }

/-! ### Travelling thief -/

/-- The lines `fp.readline()` returns one after the other, without their line ends; at the end
of the file it returns the empty string. -/
def fileLines (t : List Char) : List (List Char) :=
  let ls := pyLines t
  if ls.getLast? = some [] then ls.dropLast else ls

/-- What the reader of travelling thief instances collects (`ttp_parser.py` 18-31).  `None` is
`none`.  The rows of `nodes` hold the values of the keys `index`, `x`, `y`, in this order; the
rows of `items` those of `index`, `profit`, `weight`, `node_index`; a key without word is
missing.  The array of the nodes holds the same numbers, with zeros for missing words.
The names of the problem and of its types are one field each. -/
structure Ttp where
  name : Option (List Char) := none
  dataType : Option (List Char) := none
  nodeCount : Option Int := none
  itemCount : Option Int := none
  capacity : Option Rat := none
  minSpeed : Option Rat := none
  maxSpeed : Option Rat := none
  renting : Option Rat := none
  edgeType : Option (List Char) := none
  nodes : Option (List (List Int)) := none
  items : Option (List (List Int)) := none
  nodeArray : Option (List (List Int)) := none
  itemArray : Option (List (List Int)) := none
  deriving DecidableEq, Repr

/-- `line[line.index(":")+1:].split()[0]` (`ttp_parser.py` 36-38). -/
def field (line : List Char) : Except PyErr (List Char) :=
  match line.dropWhile (· ≠ ':') with
  | [] => .error .valueError
  | _ :: rest => pyGet (pyWords rest) 0

/-- One row of a section (`ttp_parser.py` 78-87 and 94-104): `width` names are known, a
further word raises `IndexError`; `f` changes the number read at a place. -/
def row (width : Nat) (f : Nat → Int → Int) (k : Nat) :
    List (List Char) → Except PyErr (List Int)
  | [] => .ok []
  | w :: ws =>
    pyInt w >>= fun n =>
    if k < width then row width f (k + 1) ws >>= fun r => .ok (f k n :: r)
    else .error .indexError

/-- The numbers of a node: the index is the place of the line (`ttp_parser.py` 81-85). -/
def nodeNumber (i k : Nat) (n : Int) : Int := if k = 0 then (i : Int) else n

/-- The numbers of an item: the index is the place of the line, the node counts from zero
(`ttp_parser.py` 97-103). -/
def itemNumber (j k : Nat) (n : Int) : Int :=
  if k = 0 then (j : Int) else if k = 3 then n - 1 else n

/-- The loop over the lines of a section (`ttp_parser.py` 76-88, 92-105): `count` calls of
`readline`; at the end of the file they return the empty string.  Returns the rows and the
lines left. -/
def rows (width : Nat) (f : Nat → Nat → Int → Int) (i : Nat) :
    Nat → List (List Char) → Except PyErr (List (List Int) × List (List Char))
  | 0, ls => .ok ([], ls)
  | n + 1, ls =>
    row width (f i) 0 (pyWords (ls.headD [])) >>= fun r =>
    rows width f (i + 1) n (ls.drop 1) >>= fun p => .ok (r :: p.1, p.2)

/-- The row of the array: zeros for the missing words. -/
def padded (width : Nat) (r : List Int) : List Int := r ++ List.replicate (width - r.length) 0

/-- `np.zeros((n, …))`: `TypeError` for `None`, `ValueError` for a negative number. -/
def zeros (n : Option Int) : Except PyErr Nat :=
  match n with
  | none => .error .typeError
  | some n => if n < 0 then .error .valueError else .ok n.toNat

/-- `line.startswith(s)`. -/
def starts (s : String) (line : List Char) : Bool := s.toList.isPrefixOf line

/-- The body of the loop over the lines (`ttp_parser.py` 35-106): the collected data and the
lines left. -/
def ttpStep (s : Ttp) (line : List Char) (rest : List (List Char)) :
    Except PyErr (Ttp × List (List Char)) :=
  if starts "PROBLEM NAME" line then
    field line >>= fun w => .ok ({ s with name := some w }, rest)
  else if starts "KNAPSACK DATA TYPE" line then
    field line >>= fun w => .ok ({ s with dataType := some w }, rest)
  else if starts "DIMENSION" line then
    field line >>= fun w => pyInt w >>= fun n => .ok ({ s with nodeCount := some n }, rest)
  else if starts "NUMBER OF ITEMS" line then
    field line >>= fun w => pyInt w >>= fun n => .ok ({ s with itemCount := some n }, rest)
  else if starts "CAPACITY OF KNAPSACK" line then
    field line >>= fun w => pyFloat w >>= fun q => .ok ({ s with capacity := some q }, rest)
  else if starts "MIN SPEED" line then
    field line >>= fun w => pyFloat w >>= fun q => .ok ({ s with minSpeed := some q }, rest)
  else if starts "MAX SPEED" line then
    field line >>= fun w => pyFloat w >>= fun q => .ok ({ s with maxSpeed := some q }, rest)
  else if starts "RENTING RATIO" line then
    field line >>= fun w => pyFloat w >>= fun q => .ok ({ s with renting := some q }, rest)
  else if starts "EDGE_WEIGHT_TYPE" line then
    field line >>= fun w => .ok ({ s with edgeType := some w }, rest)
  else if starts "NODE_COORD_SECTION" line then
    zeros s.nodeCount >>= fun n =>
    rows 3 nodeNumber 0 n rest >>= fun p =>
    .ok ({ s with nodes := some p.1, nodeArray := some (p.1.map (padded 3)) }, p.2)
  else if starts "ITEMS SECTION" line then
    zeros s.itemCount >>= fun n =>
    rows 4 itemNumber 0 n rest >>= fun p =>
    .ok ({ s with items := some p.1, itemArray := some (p.1.map (padded 4)) }, p.2)
  else .ok (s, rest)

/-- The loop `while line:`; each turn reads at least one line, so the number of lines is
enough fuel. -/
def ttpLoop : Nat → Ttp → List (List Char) → Except PyErr Ttp
  | _, s, [] => .ok s
  | 0, s, _ :: _ => .ok s
  | fuel + 1, s, line :: rest => ttpStep s line rest >>= fun p => ttpLoop fuel p.1 p.2

/-- `parse` (`ttp_parser.py` 15-117): the arguments of `TTPModel`. -/
def ttp (t : List Char) : Except PyErr Ttp :=
  let ls := fileLines t
  ttpLoop ls.length {} ls

end Verif.Parse
