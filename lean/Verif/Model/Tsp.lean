import Verif.Model.Py
/-
Model of `tsp/tsp_model.py` and `tsp/mutation/mutation_tsp.py`
(directory `skdecide/builders/discrete_optimization`).

Node indices are natural numbers, distances exact integers: the Euclidean `length` of two points is the
parameter `dist` (defined for all indices; points missing from `list_points` are not modelled).  Random
draws are parameters.
-/
namespace Verif.Tsp

/-- `TSPModel` (`tsp_model.py` 94-106). -/
structure Model where
  nodeCount : Nat
  start : Nat
  fin : Nat
  dist : Nat → Nat → Int

/-- `ind_in_permutation`, `original_indices_to_permutation_indices` (107, 111-112). -/
def Model.inner (m : Model) : List Nat := (List.range m.nodeCount).filter (fun i => i ≠ m.start && i ≠ m.fin)

/-- `length_permutation` (108). -/
def Model.len (m : Model) : Nat := m.inner.length

/-- The loop filling `original_indices_to_permutation_indices_dict` (113-118) over the given indices. -/
def fillDict (m : Model) : List Nat → Dict Nat Nat → Nat → Dict Nat Nat
  | [], d, _ => d
  | i :: is, d, counter =>
    if i ≠ m.start && i ≠ m.fin then fillDict m is (d.set i counter) (counter + 1) else fillDict m is d counter

/-- `original_indices_to_permutation_indices_dict` (113-118). -/
def Model.dict (m : Model) : Dict Nat Nat := fillDict m (List.range m.nodeCount) [] 0

/-- `convert_perm_from0_to_original_perm` (172-174). -/
def toOriginal (m : Model) : List Nat → Except PyErr (List Nat)
  | [] => .ok []
  | x :: xs => do
    let y ← pyGet m.inner x
    let ys ← toOriginal m xs
    .ok (y :: ys)

/-- `convert_original_perm_to_perm_from0` (176-180). -/
def toFrom0 (m : Model) : List Nat → Except PyErr (List Nat)
  | [] => .ok []
  | x :: xs => do
    let y ← m.dict.get x
    let ys ← toFrom0 m xs
    .ok (y :: ys)

/-- `SolutionTSP` (14-20).  The length may be infinite (`none`): `Mutation2Opt` starts from
`float('inf')`. -/
structure Solution where
  start : Nat
  fin : Nat
  perm : List Nat
  perm0 : List Nat
  lengths : List Int
  length : Option Int
  deriving DecidableEq

/-- The loop of `compute_length` (248-251): `n` legs from position `i` on. -/
def legLoop (dist : Nat → Nat → Int) (sol : List Nat) : Nat → Nat → List Int → Int → Except PyErr (List Int × Int)
  | 0, _, lengths, obj => .ok (lengths, obj)
  | n + 1, i, lengths, obj => do
    let a ← pyGet sol i
    let b ← pyGet sol (i + 1)
    legLoop dist sol n (i + 1) (lengths ++ [dist a b]) (obj + dist a b)

/-- `solution[-1]`. -/
def pyLast (l : List α) : Except PyErr α :=
  match l.getLast? with
  | some x => .ok x
  | none => .error .indexError

/-- `compute_length` (240-254). -/
def computeLength (m : Model) (sol : List Nat) : Except PyErr (List Int × Int) := do
  let a ← pyGet sol 0
  let r ← legLoop m.dist sol (m.len - 1) 0 [m.dist m.start a] (m.dist m.start a)
  let z ← pyLast sol
  .ok (r.1 ++ [m.dist m.fin z], r.2 + m.dist m.fin z)

/-- The loop of `compute_length_np` (269-273): writes leg `i` at position `i`. -/
def legLoopNp (dist : Nat → Nat → Int) (sol : List Nat) : Nat → Nat → List Int → Int → Except PyErr (List Int × Int)
  | 0, _, lengths, obj => .ok (lengths, obj)
  | n + 1, i, lengths, obj => do
    let a ← pyGet sol i
    let b ← pyGet sol (i + 1)
    let lengths ← pySet lengths i (dist a b)
    legLoopNp dist sol n (i + 1) lengths (obj + dist a b)

/-- `compute_length_np` (258-277). -/
def computeLengthNp (m : Model) (sol : List Nat) : Except PyErr (List Int × Int) := do
  let a ← pyGet sol 0
  let l0 ← pySet (List.replicate m.nodeCount (0 : Int)) 0 (m.dist m.start a)
  let r ← legLoopNp m.dist sol (m.len - 1) 0 l0 (m.dist m.start a)
  let z ← pyLast sol
  let l1 ← pySet r.1 (m.nodeCount - 1) (m.dist m.fin z)
  .ok (l1, r.2 + m.dist m.fin z)

/-- `satisfy` (155-158): Python's `None` when the test succeeds. -/
def satisfy (m : Model) (perm : List Nat) : Except PyErr (Option Bool) := do
  let a ← pyGet perm 0
  let z ← pyLast perm
  .ok (if a = m.start ∧ z = m.fin then none else some false)

/-- Constructor with a permutation and without lengths (22-53), evaluation by `eval`. -/
def build (m : Model) (eval : Model → List Nat → Except PyErr (List Int × Int)) (perm : List Nat) :
    Except PyErr Solution := do
  let perm0 ← toFrom0 m perm
  let r ← eval m perm
  .ok { start := m.start, fin := m.fin, perm := perm, perm0 := perm0, lengths := r.1, length := some r.2 }

/-- The node before position `it` (`mutation_tsp.py` 48-51, 104-107). -/
def before (s : Solution) (it : Nat) : Except PyErr Nat :=
  if it = 0 then .ok s.start else pyGet s.perm (it - 1)

/-- The node after position `jt` (52-55, 108-111); `len` is `length_permutation`. -/
def after (s : Solution) (len jt : Nat) : Except PyErr Nat :=
  if jt + 1 = len then .ok s.fin else pyGet s.perm (jt + 1)

/-- `get_points_index` (44-56, 98-112). -/
def pointsIndex (s : Solution) (len it jt : Nat) : Except PyErr (Nat × Nat × Nat × Nat) := do
  let i ← pyGet s.perm it
  let j ← pyGet s.perm jt
  let b ← before s it
  let a ← after s len jt
  .ok (b, i, j, a)

/-- `change` (135-138, 218-221). -/
def change (m : Model) (s : Solution) (it jt : Nat) : Except PyErr Int := do
  let q ← pointsIndex s m.len it jt
  .ok (m.dist q.1 q.2.2.1 - m.dist q.1 q.2.1 - m.dist q.2.2.1 q.2.2.2 + m.dist q.2.1 q.2.2.2)

/-- The move kept by the search: positions and change, the change being infinite (`none`) at first. -/
structure Best where
  it : Nat
  jt : Nat
  change : Option Int

/-- `if change < min_change` (143-146, 222-225). -/
def Best.update (b : Best) (it jt : Nat) (c : Int) : Best :=
  match b.change with
  | none => ⟨it, jt, some c⟩
  | some c' => if c < c' then ⟨it, jt, some c⟩ else b

/-- The search over the candidate moves (121-146, 216-225), in the order they are tried. -/
def searchMoves (m : Model) (s : Solution) : List (Nat × Nat) → Best → Except PyErr Best
  | [], b => .ok b
  | (i, j) :: rest, b => do
    let c ← change m s i j
    searchMoves m s rest (b.update i j c)

/-- `variable.permutation[:it] + variable.permutation[it:jt+1][::-1] + variable.permutation[jt+1:]` (149, 228). -/
def reverseSegment (perm : List Nat) (it jt : Nat) : List Nat :=
  perm.take it ++ ((perm.drop it).take (jt + 1 - it)).reverse ++ perm.drop (jt + 1)

/-- The new list of legs (150-157); `keepTail` is false in `Mutation2OptIntersection` (229-234), which
leaves out lines 156-157. -/
def newLengths (m : Model) (s : Solution) (keepTail : Bool) (it jt : Nat) (q : Nat × Nat × Nat × Nat) : List Int :=
  (if it > 0 then s.lengths.take it else []) ++ [m.dist q.1 q.2.2.1] ++
    ((s.lengths.drop (it + 1)).take (jt - it)).reverse ++ [m.dist q.2.1 q.2.2.2] ++
    (if keepTail && decide (jt + 1 < m.len) then s.lengths.drop (jt + 2) else [])

/-- `variable.length + min_change`. -/
def addLen : Option Int → Option Int → Option Int
  | some a, some b => some (a + b)
  | _, _ => none

/-- The new solution of a two-opt move (147-157, 171-176): the constructor converts the permutation. -/
def applyMove (m : Model) (s : Solution) (keepTail : Bool) (b : Best) : Except PyErr Solution := do
  let q ← pointsIndex s m.len b.it b.jt
  let perm := reverseSegment s.perm b.it b.jt
  let perm0 ← toFrom0 m perm
  .ok { start := s.start, fin := s.fin, perm := perm, perm0 := perm0,
        lengths := newLengths m s keepTail b.it b.jt q, length := addLen s.length b.change }

/-- `min_change < 0` with an infinite change. -/
def improves : Option Int → Bool
  | some c => decide (c < 0)
  | none => false

/-- `Mutation2Opt.__init__` (66-80), the number of tests: `min(None, …)` raises before the default of
lines 79-80 is reached. -/
def initTests (nodeCount : Nat) (nbTest : Option Nat) : Except PyErr Nat :=
  match nbTest with
  | none => .error .typeError
  | some n => .ok (min n (nodeCount - 1))

/-- `Mutation2Opt.mutate_and_compute_obj` (114-179).  `it0, jt0` are the two random draws of lines 115-116,
`cands` the pairs tried (all pairs `i < j`, or random ones). -/
def twoOpt (m : Model) (onlyImprovement : Bool) (it0 jt0 : Nat) (cands : List (Nat × Nat)) (s : Solution) :
    Except PyErr (Solution × Option Int) := do
  let _ ← pointsIndex s m.len it0 jt0
  let b ← searchMoves m s cands ⟨it0, jt0, none⟩
  let v ← applyMove m s true b
  if improves b.change || !onlyImprovement then .ok (v, v.length) else .ok (s, s.length)

/-- `Mutation2OptIntersection.mutate_and_compute_obj` (205-258) with the crossing pairs found; without any
the solution is returned unchanged (212-213; the objective is then a bare number, not a dictionary).  `it`
and `jt` are unbound before the first pair, which always replaces them. -/
def twoOptIntersection (m : Model) (onlyImprovement : Bool) (pairs : List (Nat × Nat)) (s : Solution) :
    Except PyErr (Solution × Option Int) :=
  match pairs with
  | [] => .ok (s, s.length)
  | (i, j) :: rest => do
    let b ← searchMoves m s ((i, j) :: rest) ⟨i, j, none⟩
    let v ← applyMove m s false b
    if improves b.change || !onlyImprovement then .ok (v, v.length) else .ok (s, s.length)

/-- `SwapTSPMove.apply_local_move` (270-290) on the attribute `permutation`; `backtrack_local_move` (292-293)
is the same function. -/
def swapMove (m : Model) (i1 i2 : Nat) (s : Solution) : Except PyErr Solution := do
  let v1 ← pyGet s.perm i1
  let v2 ← pyGet s.perm i2
  let c1 ← pySet s.perm i1 v2
  let cur ← pySet c1 i2 v1
  let q ← pointsIndex { s with perm := cur } m.len i1 i2
  let p1 ← pyGet s.lengths i1
  let p2 ← pyGet s.lengths (i1 + 1)
  let p3 ← pyGet s.lengths i2
  let p4 ← pyGet s.lengths (i2 + 1)
  let a1 ← pyGet cur i1
  let a2 ← pyGet cur (i1 + 1)
  let b0 ← pyGet cur (i2 - 1)
  let b1 ← pyGet cur i2
  let l1 ← pySet s.lengths i1 (m.dist q.1 a1)
  let l2 ← pySet l1 (i1 + 1) (m.dist a1 a2)
  let l3 ← pySet l2 i2 (m.dist b0 b1)
  let l4 ← pySet l3 (i2 + 1) (m.dist b1 q.2.2.2)
  let n1 ← pyGet l4 i1
  let n2 ← pyGet l4 (i1 + 1)
  let n3 ← pyGet l4 i2
  let n4 ← pyGet l4 (i2 + 1)
  .ok { s with perm := cur, lengths := l4,
               length := addLen s.length (some (n1 + n2 + n3 + n4 - (p1 + p2 + p3 + p4))) }

end Verif.Tsp
