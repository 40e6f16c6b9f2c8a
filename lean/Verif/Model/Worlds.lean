import Verif.Model.Py

/-!
Models of small domains and of the greedy solver:
skdecide/hub/domain/{maze,simple_grid_world,mastermind,rock_paper_scissors} and
skdecide/hub/solver/simple_greedy, and of the enumerable spaces of skdecide/hub/space/gym.
-/
namespace Verif.Worlds

/-! ### Maze and grid -/

/-- maze.py lines 44-46 and simple_grid_world.py lines 15-17, `State`. -/
structure Cell where
  x : Int
  y : Int
  deriving DecidableEq, Repr

/-- maze.py lines 49-53, `Action`. -/
inductive Move where
  | up | down | left | right
  deriving DecidableEq, Repr

/-- maze.py lines 65-85: what the constructor stores.  `start`/`goal` are unset attributes
when the text has no `o`/`x`. -/
structure Maze where
  rows : List (List Nat)
  cols : Nat
  start : Option Cell
  goal : Option Cell
  deriving DecidableEq, Repr

/-- maze.py lines 71-80: 1 for a free cell, 0 for a wall. -/
def cellOf (c : Char) : Nat := if c = ' ' ∨ c = 'o' ∨ c = 'x' then 1 else 0

/-- The position of the last `c` on the line, starting at column `x` (maze.py lines 74-77
overwrite the attribute each time). -/
def lastIn (c : Char) (y : Nat) : Nat → List Char → Option Cell → Option Cell
  | _, [], acc => acc
  | x, d :: ds, acc => lastIn c y (x + 1) ds (if d = c then some ⟨x, y⟩ else acc)

/-- The position of the last `c` in the text. -/
def lastAt (c : Char) : Nat → List (List Char) → Option Cell → Option Cell
  | _, [], acc => acc
  | y, l :: ls, acc => lastAt c (y + 1) ls (lastIn c y 0 l acc)

/-- maze.py lines 65-85, `__init__`, on the lines of the text after `strip`, `split` and
`rstrip` (there is always at least one; `maze[0]` raises otherwise). -/
def Maze.parse (lines : List (List Char)) : Except PyErr Maze :=
  match lines with
  | [] => .error .indexError
  | l :: _ => .ok
    { rows := lines.map fun l => l.map cellOf
      cols := l.length
      start := lastAt 'o' 0 lines none
      goal := lastAt 'x' 0 lines none }

/-- maze.py lines 91-98: the cell aimed at. -/
def aim (s : Cell) : Move → Cell
  | .left => ⟨s.x - 1, s.y⟩
  | .right => ⟨s.x + 1, s.y⟩
  | .up => ⟨s.x, s.y - 1⟩
  | .down => ⟨s.x, s.y + 1⟩

/-- maze.py lines 88-105, `_get_next_state`; `self._maze[y][x]` raises on a row shorter than
the first one. -/
def Maze.next (m : Maze) (s : Cell) (a : Move) : Except PyErr Cell :=
  let n := aim s a
  if 0 ≤ n.x ∧ n.x < m.cols ∧ 0 ≤ n.y ∧ n.y < m.rows.length then do
    let row ← pyGet m.rows n.y.toNat
    let v ← pyGet row n.x.toNat
    if v = 1 then return n else return s
  else .ok s

/-- maze.py lines 107-115 and simple_grid_world.py lines 55-63, the cost. -/
def cost (s n : Cell) : Int :=
  if n.x = s.x ∧ n.y = s.y then 2 else ((n.x - s.x).natAbs : Int) + ((n.y - s.y).natAbs : Int)

/-- simple_grid_world.py lines 36-39. -/
structure Grid where
  cols : Int
  rows : Int
  deriving DecidableEq, Repr

/-- simple_grid_world.py lines 41-53, `_get_next_state`. -/
def Grid.next (g : Grid) (s : Cell) : Move → Cell
  | .left => ⟨max (s.x - 1) 0, s.y⟩
  | .right => ⟨min (s.x + 1) (g.cols - 1), s.y⟩
  | .up => ⟨s.x, max (s.y - 1) 0⟩
  | .down => ⟨s.x, min (s.y + 1) (g.rows - 1)⟩

/-- simple_grid_world.py lines 71-75, goal and initial state. -/
def Grid.goal (g : Grid) : Cell := ⟨g.cols - 1, g.rows - 1⟩
def Grid.start : Cell := ⟨0, 0⟩

/-! ### Mastermind -/

/-- mastermind.py lines 86-91, `_list_hidden_solutions`. -/
def hiddenSolutions (colours : Nat) : Nat → List (List Nat)
  | 0 => [[]]
  | n + 1 => (hiddenSolutions colours n).flatMap fun s => (List.range colours).map fun c => s ++ [c]

/-- mastermind.py lines 96-99: which positions match exactly; `solution[i]` raises when the
solution is shorter than the guess. -/
def bullsOf : List Nat → List Nat → Except PyErr (List Bool)
  | [], _ => .ok []
  | _ :: _, [] => .error .indexError
  | g :: gs, s :: ss => do
    let bs ← bullsOf gs ss
    return decide (g = s) :: bs

/-- mastermind.py lines 103-106: mark the first position of colour `c` that is neither a bull
nor already a cow. -/
def markCow (c : Nat) : List Nat → List Bool → List Bool → List Bool
  | s :: ss, b :: bs, w :: ws =>
    if c = s ∧ b = false ∧ w = false then true :: ws else w :: markCow c ss bs ws
  | _, _, ws => ws

/-- mastermind.py lines 101-106: the loop over the guess; a position that is an exact match is
skipped. -/
def cowsLoop (solution : List Nat) (bulls : List Bool) : List Nat → List Bool → List Bool → List Bool
  | g :: gs, b :: bs, cows =>
    cowsLoop solution bulls gs bs (if b then cows else markCow g solution bulls cows)
  | _, _, cows => cows

/-- mastermind.py lines 93-107, `_calc_score`: (bulls, cows). -/
def calcScore (solution guess : List Nat) : Except PyErr (Nat × Nat) := do
  let bulls ← bullsOf guess solution
  let cows := cowsLoop solution bulls guess bulls (guess.map fun _ => false)
  return (bulls.count true, cows.count true)

/-- mastermind.py line 84 with gym's `MultiDiscrete.contains`: both below the number of
positions. -/
def inObservationSpace (positions : Nat) (score : Nat × Nat) : Prop :=
  score.1 < positions ∧ score.2 < positions

/-! ### Rock, paper, scissors -/

/-- rock_paper_scissors.py lines 15-18. -/
inductive Hand where
  | rock | paper | scissors
  deriving DecidableEq, Repr

/-- rock_paper_scissors.py lines 45-55, the reward table. -/
def rewards : Hand → Hand → Int × Int
  | .rock, .rock => (0, 0)
  | .rock, .paper => (-1, 1)
  | .rock, .scissors => (1, -1)
  | .paper, .rock => (1, -1)
  | .paper, .paper => (0, 0)
  | .paper, .scissors => (-1, 1)
  | .scissors, .rock => (-1, 1)
  | .scissors, .paper => (1, -1)
  | .scissors, .scissors => (0, 0)

/-- rock_paper_scissors.py lines 38-63, `_state_step`: next move count, rewards, termination. -/
def rpsStep (maxMoves : Int) (n : Int) (a b : Hand) : Int × (Int × Int) × Bool :=
  (n + 1, rewards a b, decide (n + 1 ≥ maxMoves))

/-- Playing a list of rounds from `_state_reset`, stopping at the first termination: the
rounds played with their rewards, and whether the game ended. -/
def rpsPlay (maxMoves : Int) : Int → List (Hand × Hand) → List (Int × Int) × Bool
  | _, [] => ([], false)
  | n, (a, b) :: rest =>
    let r := rpsStep maxMoves n a b
    if r.2.2 then ([r.2.1], true)
    else
      let q := rpsPlay maxMoves r.1 rest
      (r.2.1 :: q.1, q.2)

/-! ### Simple greedy -/

/-- simple_greedy.py line 36: the expected value of one action. -/
def expected (l : List (σ × Rat)) (reward : σ → Rat) : Rat := (l.map fun p => p.2 * reward p.1).sum

/-- simple_greedy.py line 40: `max(range(len(values)), key=…)`, the first index of a largest
value; `ValueError` on an empty list. -/
def argmaxFrom : List Rat → Nat → Nat → Rat → Nat
  | [], _, best, _ => best
  | v :: vs, i, best, bv => if bv < v then argmaxFrom vs (i + 1) i v else argmaxFrom vs (i + 1) best bv

/-- simple_greedy.py line 40. -/
def argmax : List Rat → Except PyErr Nat
  | [] => .error .valueError
  | v :: vs => .ok (argmaxFrom vs 1 0 v)

/-- simple_greedy.py lines 27-41, `_get_next_action`.  `elements` are those of the applicable
actions.  When the transition value does not depend on the next state, the code iterates the
space itself, which has no `__iter__` (core.py lines 49-67): `TypeError`. -/
def greedy (dependent : Bool) (elements : List α) (dist : α → List (σ × Rat)) (reward : α → σ → Rat) :
    Except PyErr α := do
  let values ← if dependent then Except.ok (elements.map fun a => expected (dist a) (reward a))
    else Except.error PyErr.typeError
  let i ← argmax values
  pyGet elements i

/-! ### Enumerable spaces -/

/-- hub/space/gym/gym.py line 220, `_elements.index(x)`: `ValueError` when absent. -/
def indexOf [DecidableEq α] (x : α) : List α → Except PyErr Nat
  | [] => .error .valueError
  | y :: ys => if y = x then .ok 0 else do
    let i ← indexOf x ys
    return i + 1

/-- gym.py lines 219-220 and 171-172, `to_unwrapped`. -/
def toUnwrapped [DecidableEq α] (elements : List α) (xs : List α) : Except PyErr (List Nat) :=
  xs.mapM fun x => indexOf x elements

/-- `l[i]` with Python's negative indices. -/
def pyAt (l : List α) (i : Int) : Except PyErr α :=
  if 0 ≤ i then pyGet l i.toNat
  else if 0 ≤ i + l.length then pyGet l (i + l.length).toNat
  else .error .indexError

/-- gym.py lines 222-223 and 174-175, `from_unwrapped`. -/
def fromUnwrapped (elements : List α) (is : List Int) : Except PyErr (List α) :=
  is.mapM fun i => pyAt elements i

/-- An enumeration: its canonical members by name, in order, and its aliases. -/
structure Enum where
  names : List String
  aliases : Dict String String := []

/-- gym.py lines 158-159, `to_jsonable` (a member is identified by its canonical name). -/
def Enum.toJson (xs : List String) : List String := xs

/-- gym.py lines 161-162, `from_jsonable`: `EnumClass[name]`, which also knows aliases;
`KeyError` otherwise. -/
def Enum.fromJson (e : Enum) (js : List String) : Except PyErr (List String) :=
  js.mapM fun s => if s ∈ e.names then .ok s else e.aliases.get s

/-- gym.py lines 152-156 / 200-204 `get_elements` and `sample` with the index drawn by the
wrapped Discrete space. -/
def sampleAt (elements : List α) (draw : Nat) : Except PyErr α := pyGet elements draw

end Verif.Worlds
