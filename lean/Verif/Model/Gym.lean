import Verif.Model.Py
import Mathlib.Algebra.Order.Ring.Rat
import Mathlib.Data.Nat.Digits.Defs

/-!
Model of the features and of the discrete actions that skdecide/hub/domain/gym/gym.py computes for Gym
environments: `GymDomainStateProxy` (78-103), `GymWidthDomain` (239-517) and `GymDiscreteActionDomain` (590-670).

Simplifications: floats are rationals, except in `binary_features`, where a float32 is its pattern of 32 bits;
an array is the list of its items; keys of a `Dict` space are in the order of the space; an element that does
not belong to the space gives a TypeError; the samples drawn for unbounded boxes are a parameter; the parts of a `Tuple` of actions
are discretized even if an earlier part has no action.
-/
namespace Verif.Gym

/-- The spaces of Gym: `Box` (its shape, and bounds per item, `none` for infinite), `Discrete`,
`MultiDiscrete`, `MultiBinary`, `Tuple`, `Dict`. -/
inductive Space where
  | box (shape : List Nat) (bounds : List (Option Rat × Option Rat))
  | discrete (n : Nat)
  | multiDiscrete (nvec : List Nat)
  | multiBinary (n : Nat)
  | tuple (spaces : List Space)
  | dict (keys : List String) (spaces : List Space)

/-- Elements of spaces, with cells of type `F`. -/
inductive Elem (F : Type) where
  | array (cells : List F)
  | int (n : Int)
  | ints (l : List Int)
  | tuple (l : List (Elem F))
  | dict (keys : List String) (l : List (Elem F))

/-! ### `GymDomainStateProxy` -/

mutual
/-- `flatten` (95-103). -/
def flatten : Elem Rat → List Rat
  | .array l => l
  | .int n => [(n : Rat)]
  | .ints l => l.map (fun n : Int => (n : Rat))
  | .tuple l => flattenL l
  | .dict _ l => flattenL l
/-- The comprehensions of 99 and 101. -/
def flattenL : List (Elem Rat) → List Rat
  | [] => []
  | e :: l => flatten e ++ flattenL l
end

/-- `__eq__` (86-87). -/
def proxyEq (a b : Elem Rat) : Bool := flatten a = flatten b

/-! ### `bee1_features` -/

/-- `BEE1Node` (263-267). -/
inductive Bee1 where
  | mk (reference : Rat) (increments : List Rat) (children : List Bee1)

def Bee1.reference : Bee1 → Rat | .mk r _ _ => r
def Bee1.increments : Bee1 → List Rat | .mk _ i _ => i
def Bee1.children : Bee1 → List Bee1 | .mk _ _ c => c

/-- A new node (264-267). -/
def Bee1.new (ref : Rat) : Bee1 := .mk ref [0] []

/-- `bisect.bisect_left` on a sorted list: the first position whose entry is not less than `v`. -/
def bisectLeft (l : List Rat) (v : Rat) : Nat := l.findIdx (fun a => decide (v ≤ a))

/-- The loop of lines 308-318 for the remaining `f` levels, with the changed node. -/
def Bee1.eval (sign : Int) (cell : Rat) : Nat → Bee1 → Except PyErr (List Int × Bee1)
  | 0, node => .ok ([], node)
  | f + 1, node =>
    let v := sign * (cell - node.reference)
    let i := bisectLeft node.increments v
    if node.increments.length ≤ i then
      .ok ((sign * i) :: List.replicate f 0,
        .mk node.reference (node.increments ++ [v])
          (node.children ++ [Bee1.new (node.reference + sign * ((node.increments ++ [v])[i - 1]?.getD 0))]))
    else if 0 < i then
      match node.children[i - 1]? with
      | none => .error .indexError
      | some c =>
        match Bee1.eval sign cell f c with
        | .error e => .error e
        | .ok (cf, c') => .ok ((sign * i) :: cf, .mk node.reference node.increments (node.children.set (i - 1) c'))
    else
      match Bee1.eval sign cell f node with
      | .error e => .error e
      | .ok (cf, node') => .ok ((sign * i) :: cf, node')

/-- `_init_continuous_state_variables` and `_feature_increments` with `BEE1Node`s. -/
structure St1 where
  init : List Rat
  nodes : List Bee1

/-- The first branch of `_init_bee1_features` (270-277). -/
def initCells1 (st : St1) : List Rat → St1
  | [] => st
  | c :: l => initCells1 ⟨st.init ++ [c], st.nodes ++ [Bee1.new c, Bee1.new c]⟩ l

/-- What `for k, s in space.spaces` (282, 394, 512) does with the keys of a dictionary: a key is unpacked into
its two characters, the second of which is no space. -/
def unpackKeys {α : Type} (st : α) : List String → Except PyErr α
  | [] => .ok st
  | k :: _ => if k.length = 2 then .error .runtimeError else .error .valueError

mutual
/-- `_init_bee1_features` (269-285). -/
def init1 (st : St1) : Space → Elem Rat → Except PyErr St1
  | .box _ _, .array l => .ok (initCells1 st l)
  | .tuple sp, .tuple l => init1L st sp l
  | .dict ks _, _ => unpackKeys st ks
  | .discrete _, _ => .error .runtimeError
  | .multiDiscrete _, _ => .error .runtimeError
  | .multiBinary _, _ => .error .runtimeError
  | .box _ _, _ => .error .typeError
  | .tuple _, _ => .error .typeError
/-- The loop of 279-280. -/
def init1L (st : St1) : List Space → List (Elem Rat) → Except PyErr St1
  | [], _ => .ok st
  | s :: sp, e :: l =>
    match init1 st s e with
    | .error er => .error er
    | .ok st' => init1L st' sp l
  | _ :: _, [] => .error .indexError
end

/-- Lines 300-319 for one cell. -/
def cell1 (fidelity : Nat) (st : St1) (index : Nat) (cell : Rat) : Except PyErr (List Int × St1) :=
  match st.init[index]? with
  | none => .error .indexError
  | some ref =>
    let j := if ref < cell then 2 * index else 2 * index + 1
    let sign : Int := if ref < cell then 1 else -1
    match st.nodes[j]? with
    | none => .error .indexError
    | some node =>
      match Bee1.eval sign cell fidelity node with
      | .error e => .error e
      | .ok (cf, node') => .ok (cf, ⟨st.init, st.nodes.set j node'⟩)

/-- The loop of 297-321: index, features, state. -/
def cells1 (fidelity : Nat) : St1 → Nat → List Rat → Except PyErr (Nat × List Int × St1)
  | st, index, [] => .ok (index, [], st)
  | st, index, c :: l =>
    match cell1 fidelity st index c with
    | .error e => .error e
    | .ok (cf, st') =>
      match cells1 fidelity st' (index + 1) l with
      | .error e => .error e
      | .ok (k, fs, st'') => .ok (k, cf ++ fs, st'')

mutual
/-- `_bee1_features` (295-343). -/
def features1 (fidelity : Nat) (st : St1) (start : Nat) : Space → Elem Rat → Except PyErr (Nat × List Int × St1)
  | .box _ _, .array l => cells1 fidelity st start l
  | .discrete _, .int n => .ok (start, [n], st)
  | .multiDiscrete _, .ints l => .ok (start, l, st)
  | .multiBinary _, .ints l => .ok (start, l, st)
  | .tuple sp, .tuple l => features1L fidelity st start sp l
  | .dict _ sp, .dict _ l => features1L fidelity st start sp l
  | _, _ => .error .typeError
/-- The loops of 331-333 and 338-340. -/
def features1L (fidelity : Nat) (st : St1) (start : Nat) :
    List Space → List (Elem Rat) → Except PyErr (Nat × List Int × St1)
  | [], _ => .ok (start, [], st)
  | s :: sp, e :: l =>
    match features1 fidelity st start s e with
    | .error er => .error er
    | .ok (k, fs, st') =>
      match features1L fidelity st' k sp l with
      | .error er => .error er
      | .ok (k', fs', st'') => .ok (k', fs ++ fs', st'')
  | _ :: _, [] => .error .indexError
end

/-- `bee1_features` (287-293): the tables are set up when there are none. -/
def bee1 (fidelity : Nat) (space : Space) (st : St1) (e : Elem Rat) : Except PyErr (List Int × St1) :=
  match (if st.nodes.length = 0 then init1 st space e else .ok st) with
  | .error er => .error er
  | .ok st' =>
    match features1 fidelity st' 0 space e with
    | .error er => .error er
    | .ok (_, fs, st'') => .ok (fs, st'')

/-! ### `bee2_features` -/

/-- `BEE2Node` (345-350). -/
inductive Bee2 where
  | mk (I : List (Rat × Rat)) (llb gub : Rat) (children : List Bee2)

def Bee2.I : Bee2 → List (Rat × Rat) | .mk i _ _ _ => i
def Bee2.llb : Bee2 → Rat | .mk _ l _ _ => l
def Bee2.gub : Bee2 → Rat | .mk _ _ g _ => g
def Bee2.children : Bee2 → List Bee2 | .mk _ _ _ c => c

/-- A new node; its bounds `None` are not read while there is no interval. -/
def Bee2.new : Bee2 := .mk [] 0 0 []

/-- `BEE2Node.eval` (352-378), with the changed node. -/
def Bee2.eval (x : Rat) : Nat → Bee2 → Except PyErr (List Int × Bee2)
  | level, node =>
    if node.I.length = 0 then
      .ok (0 :: List.replicate level (-1), .mk [(x, x)] x x [Bee2.new])
    else if x < node.llb then
      .ok ((node.I.length : Int) :: List.replicate level (-1),
        .mk (node.I ++ [(x, node.llb)]) x node.gub (node.children ++ [Bee2.new]))
    else if node.gub < x then
      .ok ((node.I.length : Int) :: List.replicate level (-1),
        .mk (node.I ++ [(node.gub, x)]) node.llb x (node.children ++ [Bee2.new]))
    else
      match node.I.findIdx? (fun i => decide (i.1 ≤ x) && decide (x ≤ i.2)) with
      | none => .error .runtimeError
      | some k =>
        match level with
        | 0 => .ok ([(k : Int)], node)
        | l + 1 =>
          match node.children[k]? with
          | none => .error .indexError
          | some c =>
            match Bee2.eval x l c with
            | .error e => .error e
            | .ok (sub, c') => .ok ((k : Int) :: sub, .mk node.I node.llb node.gub (node.children.set k c'))

/-- The first branch of `_init_bee2_features` (384-389): every node is evaluated once, at level 0. -/
def initCells2 (nodes : List Bee2) : List Rat → Except PyErr (List Bee2)
  | [] => .ok nodes
  | c :: l =>
    match Bee2.eval c 0 Bee2.new with
    | .error e => .error e
    | .ok (_, node) => initCells2 (nodes ++ [node]) l

mutual
/-- `_init_bee2_features` (383-397). -/
def init2 (nodes : List Bee2) : Space → Elem Rat → Except PyErr (List Bee2)
  | .box _ _, .array l => initCells2 nodes l
  | .tuple sp, .tuple l => init2L nodes sp l
  | .dict ks _, _ => unpackKeys nodes ks
  | .discrete _, _ => .error .runtimeError
  | .multiDiscrete _, _ => .error .runtimeError
  | .multiBinary _, _ => .error .runtimeError
  | .box _ _, _ => .error .typeError
  | .tuple _, _ => .error .typeError
/-- The loop of 391-392. -/
def init2L (nodes : List Bee2) : List Space → List (Elem Rat) → Except PyErr (List Bee2)
  | [], _ => .ok nodes
  | s :: sp, e :: l =>
    match init2 nodes s e with
    | .error er => .error er
    | .ok st' => init2L st' sp l
  | _ :: _, [] => .error .indexError
end

/-- The loop of 409-415, with `level = fidelity - 1`: index, features, nodes. -/
def cells2 (level : Nat) : List Bee2 → Nat → List Rat → Except PyErr (Nat × List Int × List Bee2)
  | nodes, index, [] => .ok (index, [], nodes)
  | nodes, index, c :: l =>
    match nodes[index]? with
    | none => .error .indexError
    | some node =>
      match Bee2.eval c level node with
      | .error e => .error e
      | .ok (cf, node') =>
        match cells2 level (nodes.set index node') (index + 1) l with
        | .error e => .error e
        | .ok (k, fs, nodes') => .ok (k, cf ++ fs, nodes')

mutual
/-- `_bee2_features` (407-437). -/
def features2 (level : Nat) (nodes : List Bee2) (start : Nat) :
    Space → Elem Rat → Except PyErr (Nat × List Int × List Bee2)
  | .box _ _, .array l => cells2 level nodes start l
  | .discrete _, .int n => .ok (start, [n], nodes)
  | .multiDiscrete _, .ints l => .ok (start, l, nodes)
  | .multiBinary _, .ints l => .ok (start, l, nodes)
  | .tuple sp, .tuple l => features2L level nodes start sp l
  | .dict _ sp, .dict _ l => features2L level nodes start sp l
  | _, _ => .error .typeError
/-- The loops of 425-427 and 432-434. -/
def features2L (level : Nat) (nodes : List Bee2) (start : Nat) :
    List Space → List (Elem Rat) → Except PyErr (Nat × List Int × List Bee2)
  | [], _ => .ok (start, [], nodes)
  | s :: sp, e :: l =>
    match features2 level nodes start s e with
    | .error er => .error er
    | .ok (k, fs, nodes') =>
      match features2L level nodes' k sp l with
      | .error er => .error er
      | .ok (k', fs', nodes'') => .ok (k', fs ++ fs', nodes'')
  | _ :: _, [] => .error .indexError
end

/-- `bee2_features` (399-405), for a fidelity of at least 1 (`level = fidelity - 1`). -/
def bee2 (level : Nat) (space : Space) (nodes : List Bee2) (e : Elem Rat) : Except PyErr (List Int × List Bee2) :=
  match (if nodes.length = 0 then init2 nodes space e else .ok nodes) with
  | .error er => .error er
  | .ok nodes' =>
    match features2 level nodes' 0 space e with
    | .error er => .error er
    | .ok (_, fs, nodes'') => .ok (fs, nodes'')

/-! ### `binary_features` -/

/-- `bin(n)[2:]` as truth values, most significant digit first. -/
def bits (n : Nat) : List Bool := if n = 0 then [false] else ((Nat.digits 2 n).map (· == 1)).reverse

/-- Lines 476 and 486: zeros before the digits up to the given length. -/
def pad (len : Nat) (l : List Bool) : List Bool := List.replicate (len - l.length) false ++ l

/-- The number that `struct.unpack('!i', struct.pack('!f', cell))[0]` gives for a pattern of 32 bits. -/
def signed (u : Nat) : Int := if u < 2 ^ 31 then u else (u : Int) - 2 ^ 32

/-- Lines 466-478 for one cell; the pattern of infinity is 0x7f800000. -/
def cellBits (u : Nat) : List Bool :=
  decide (signed u < 0) :: pad (bits 0x7f800000).length (bits (signed u).natAbs)

/-- Lines 483-488: an integer in `range(n)`. -/
def intBits (n : Nat) (e : Int) : List Bool := pad (bits (n - 1)).length (bits e.natAbs)

/-- Lines 493-497. -/
def intsBits : List Nat → List Int → Except PyErr (List Bool)
  | [], _ => .ok []
  | n :: nv, e :: l =>
    match intsBits nv l with
    | .error er => .error er
    | .ok fs => .ok (intBits n e ++ fs)
  | _ :: _, [] => .error .indexError

mutual
/-- `_binary_features` (458-517); a box without cells raises in `np.nditer`. -/
def binary : Space → Elem Nat → Except PyErr (List Bool)
  | .box _ _, .array l => if l.length = 0 then .error .valueError else .ok (l.flatMap cellBits)
  | .discrete n, .int e => .ok (intBits n e)
  | .multiDiscrete nv, .ints l => intsBits nv l
  | .multiBinary _, .ints l => .ok (l.map (fun b => decide (b ≠ 0)))
  | .tuple sp, .tuple l => binaryL sp l
  | .dict ks _, _ => unpackKeys [] ks
  | _, _ => .error .typeError
/-- The loop of 506-508. -/
def binaryL : List Space → List (Elem Nat) → Except PyErr (List Bool)
  | [], _ => .ok []
  | s :: sp, e :: l =>
    match binary s e with
    | .error er => .error er
    | .ok f =>
      match binaryL sp l with
      | .error er => .error er
      | .ok fs => .ok (f ++ fs)
  | _ :: _, [] => .error .indexError
end

/-! ### `GymDiscreteActionDomain` -/

/-- The discrete actions: arrays with items that are `none` when nothing was written to them. -/
inductive Act where
  | array (l : List (Option Rat))
  | int (n : Nat)
  | ints (l : List Nat)
  | list (l : List Act)

/-- The values of one item of a box (621-625); `none` is not a number, the result of `inf * 0`. -/
def itemValues (factor : Nat) (sample : Nat → Rat) : Option Rat × Option Rat → List (Option Rat)
  | (some l, some h) =>
    (List.range factor).map (fun i : Nat => if factor = 1 then none else some (l + (h - l) / ((factor : Rat) - 1) * i))
  | _ => (List.range factor).map (fun i => some (sample i))

/-- All lists with one entry of each list, the last entry changing fastest (655-659). -/
def combinations {α : Type} : List (List α) → List (List α)
  | [] => [[]]
  | vs :: rest => vs.flatMap (fun v => (combinations rest).map (v :: ·))

/-- What becomes of a combination (661-670): only the first item of an array of one dimension is written;
unpacking the items of an array of another dimension raises a TypeError. -/
def toArray (shape : List Nat) (c : List (Option Rat)) : Except PyErr (List (Option Rat)) :=
  match shape with
  | [n] => .ok (match c with | [] => List.replicate n none | v :: _ => v :: List.replicate (n - 1) none)
  | _ => .error .typeError

/-- The nested comprehensions `generate` (632-634, 642-644): they need at least one list. -/
def generate {α : Type} (l : List (List α)) : Except PyErr (List (List α)) :=
  match l with
  | [] => .error .indexError
  | _ => .ok (combinations l)

mutual
/-- `_discretize_action_space` (615-652); `none` is the `None` that the branch of `Dict` returns. -/
def discretize (factor : Nat) (sample : Nat → Rat) : Space → Except PyErr (Option (List Act))
  | .box shape bounds =>
    if bounds.length = 0 then .error .valueError
    else
      match (combinations (bounds.map (itemValues factor sample))).mapM (toArray shape) with
      | .error e => .error e
      | .ok l => .ok (some (l.map .array))
  | .discrete n => .ok (some ((List.range n).map .int))
  | .multiDiscrete nv =>
    match generate (nv.map List.range) with
    | .error e => .error e
    | .ok l => .ok (some (l.map .ints))
  | .multiBinary _ => .error .typeError
  | .tuple sp =>
    match discretizeL factor sample sp with
    | .error e => .error e
    | .ok ls =>
      match generate ls with
      | .error e => .error e
      | .ok l => .ok (some (l.map .list))
  | .dict _ _ => .ok none
/-- The lists of actions of the parts of a tuple; `None` has no `get_elements`. -/
def discretizeL (factor : Nat) (sample : Nat → Rat) : List Space → Except PyErr (List (List Act))
  | [] => .ok []
  | s :: sp =>
    match discretize factor sample s with
    | .error e => .error e
    | .ok none => .error .attributeError
    | .ok (some l) =>
      match discretizeL factor sample sp with
      | .error e => .error e
      | .ok ls => .ok (l :: ls)
end

end Verif.Gym
