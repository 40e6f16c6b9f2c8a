import Verif.Model.Py
import Mathlib.Algebra.Order.Ring.Rat
import Mathlib.Data.Rat.Floor

/-!
Model of Cartesian genetic programming: skdecide/hub/solver/cgp/pycgp/cgp.py and cgpes.py, and of the conversion
of observations and actions in skdecide/hub/solver/cgp/cgp.py.

The values of a program are of any type `V`, so nothing is assumed about floats; fitnesses and normalised values
are exact numbers. Simplifications: genes are natural numbers (`random` and the mutations make no others); every
draw of a random generator is a parameter; Python before 3.12, where `randint` takes floats with integer values;
printing, files and the parallel evaluation are left out.
-/
namespace Verif.Cgp

/-- `CGPFunc` (11-15); the name is left out. -/
structure Func (V : Type) where
  apply : List V → V
  arity : Nat

/-- The arguments of the constructor (22-34) that never change, and the number that empty arrays hold. -/
structure Config (V : Type) where
  inputs : Nat
  outputs : Nat
  cols : Nat
  rows : Nat
  library : List (Func V)
  zero : V

variable {V : Type}

/-- `max_arity` (30-33). -/
def Config.arity (c : Config V) : Nat := c.library.foldl (fun m f => max m f.arity) 0

/-- `max_graph_length` (28). -/
def Config.size (c : Config V) : Nat := c.cols * c.rows

/-- `CGPNode` (17-20). -/
structure Node where
  func : Nat
  args : List Nat
  deriving DecidableEq, Repr

/-- What `create_graph` makes: nodes, output genes, used nodes (latest first) and `node_output`. -/
structure Graph (V : Type) where
  nodes : List Node
  outs : List Nat
  used : List Nat
  output : List V
  deriving DecidableEq

/-- An object of the class `CGP`: `graph` is `none` while `graph_created` is false. -/
structure Ind (V : Type) where
  genome : List Nat
  recurrency : Rat := 1
  graph : Option (Graph V) := none
  deriving DecidableEq

/-! ### The program -/

/-- The loop of lines 46-52, from position `i`; the rounds are at most the length of the genome. -/
def nodesFrom (genome : List Nat) (arity stop : Nat) : Nat → Nat → Except PyErr (List Node)
  | 0, _ => .ok []
  | fuel + 1, i =>
    if i < stop then
      match genome[i]? with
      | none => .error .indexError
      | some f =>
        if genome.length < i + arity + 1 then .error .indexError
        else
          match nodesFrom genome arity stop fuel (i + arity + 1) with
          | .error e => .error e
          | .ok rest => .ok (⟨f, (genome.drop (i + 1)).take arity⟩ :: rest)
    else .ok []

/-- Lines 58-61 and 65-68: the nodes with these numbers are to be evaluated; numbers below `inputs` are inputs. -/
def mark (inputs : Nat) : List Nat → List Bool → Except PyErr (List Bool)
  | [], m => .ok m
  | a :: l, m =>
    if inputs ≤ a then
      if a - inputs < m.length then mark inputs l (m.set (a - inputs) true) else .error .indexError
    else mark inputs l m

/-- The loop of lines 63-70, for the nodes before `p`. -/
def sweep (inputs : Nat) (nodes : List Node) : Nat → List Bool → Except PyErr (List Nat)
  | 0, _ => .ok []
  | p + 1, m =>
    if m[p]? = some true then
      match nodes[p]? with
      | none => .error .indexError
      | some nd =>
        match mark inputs nd.args m with
        | .error e => .error e
        | .ok m' =>
          match sweep inputs nodes p m' with
          | .error e => .error e
          | .ok l => .ok (p :: l)
    else sweep inputs nodes p m

/-- `create_graph` (36-54) and `node_to_evaluate` (56-71). -/
def create (c : Config V) (genome : List Nat) : Except PyErr (Graph V) :=
  if genome.length < c.outputs then .error .indexError
  else
    let outs := genome.drop (genome.length - c.outputs)
    match nodesFrom genome c.arity (genome.length - c.outputs) genome.length 0 with
    | .error e => .error e
    | .ok nodes =>
      match mark c.inputs outs (List.replicate c.size false) with
      | .error e => .error e
      | .ok m =>
        match sweep c.inputs nodes c.size m with
        | .error e => .error e
        | .ok used => .ok ⟨nodes, outs, used, List.replicate (c.size + c.inputs) c.zero⟩

/-- Items of an array (82-83, 105-106). -/
def gather (values : List V) : List Nat → Except PyErr (List V)
  | [] => .ok []
  | i :: l =>
    match values[i]? with
    | none => .error .indexError
    | some v =>
      match gather values l with
      | .error e => .error e
      | .ok vs => .ok (v :: vs)

/-- `load_input_data` (73-75); the order of the items does not matter. -/
def load : Nat → List V → List V → Except PyErr (List V)
  | 0, _, out => .ok out
  | p + 1, x, out =>
    match x[p]? with
    | none => .error .indexError
    | some v => if p < out.length then load p x (out.set p v) else .error .indexError

/-- The loop of lines 80-93: the arguments are the values `old` from before the loop (78). -/
def evalNodes (c : Config V) (nodes : List Node) (old : List V) : List Nat → List V → Except PyErr (List V)
  | [], out => .ok out
  | p :: l, out =>
    match nodes[p]? with
    | none => .error .indexError
    | some nd =>
      match gather old nd.args with
      | .error e => .error e
      | .ok xs =>
        match c.library[nd.func]? with
        | none => .error .indexError
        | some f => evalNodes c nodes old l (out.set (p + c.inputs) (f.apply xs))

/-- `run` (99-101) once the graph is there, with `compute_graph` (77-93) and `read_output` (103-107). -/
def runGraph (c : Config V) (g : Graph V) (x : List V) : Except PyErr (List V × Graph V) :=
  match load c.inputs x g.output with
  | .error e => .error e
  | .ok loaded =>
    match evalNodes c g.nodes loaded g.used.reverse loaded with
    | .error e => .error e
    | .ok out =>
      match gather out g.outs with
      | .error e => .error e
      | .ok ys => .ok (ys, { g with output := out })

/-- Lines 96-98: the graph is made once. -/
def graphOf (c : Config V) (ind : Ind V) : Except PyErr (Graph V) :=
  match ind.graph with
  | some g => .ok g
  | none => create c ind.genome

/-- `run` (95-101). -/
def run (c : Config V) (ind : Ind V) (x : List V) : Except PyErr (List V × Ind V) :=
  match graphOf c ind with
  | .error e => .error e
  | .ok g =>
    match runGraph c g x with
    | .error e => .error e
    | .ok (ys, g') => .ok (ys, { ind with graph := some g' })

/-- Several runs with the same input; the outputs of the last one. -/
def runs (c : Config V) : Nat → Ind V → List V → Except PyErr (List V × Ind V)
  | 0, ind, x => run c ind x
  | n + 1, ind, x =>
    match run c ind x with
    | .error e => .error e
    | .ok (_, ind') => runs c n ind' x

/-! ### Making and changing genomes -/

/-- `rnd.randint(0, hi)` with the draw `d`. -/
def randint (hi : Int) (d : Nat) : Except PyErr Nat :=
  if hi < 0 then .error .valueError else .ok (d % (hi.toNat + 1))

/-- Lines 206-214 for the gene at position `i`. -/
def randomGene (c : Config V) (draw : Nat → Nat) (i : Nat) : Except PyErr Nat :=
  if i < c.size * (c.arity + 1) then
    if i % (c.arity + 1) = 0 then randint ((c.library.length : Int) - 1) (draw i)
    else randint ((c.inputs : Int) + ((i / (c.arity + 1) / c.rows * c.rows : Nat) : Int) - 1) (draw i)
  else randint ((c.inputs : Int) + c.size - 1) (draw i)

/-- `CGP.random` (200-215): the loops go through the genome from left to right. -/
def random (c : Config V) (draw : Nat → Nat) (recurrency : Rat) : Except PyErr (Ind V) :=
  match (List.range (c.size * (c.arity + 1) + c.outputs)).mapM (randomGene c draw) with
  | .error e => .error e
  | .ok g => .ok { genome := g, recurrency := recurrency }

/-- `clone` (109-110): without the recurrency distance. -/
def Ind.clone (ind : Ind V) : Ind V := { genome := ind.genome }

/-- Lines 115-125 for the gene at position `i`. -/
def mutateGene (c : Config V) (d : Nat) (i : Nat) : Except PyErr Nat :=
  if i < c.size * (c.arity + 1) then
    if i % (c.arity + 1) = 0 then randint ((c.library.length : Int) - 1) d
    else randint ((c.inputs : Int) + (((i / (c.arity + 1) : Nat) : Int) - 1) * c.rows) d
  else randint ((c.inputs : Int) + c.size - 1) d

/-- `mutate` (112-125): `draws` are the positions and the values drawn. The graph stays as it is. -/
def Ind.mutate (c : Config V) : List (Nat × Nat) → Ind V → Except PyErr (Ind V)
  | [], ind => .ok ind
  | (p, d) :: l, ind =>
    match randint ((ind.genome.length : Int) - 1) p with
    | .error e => .error e
    | .ok i =>
      match mutateGene c d i with
      | .error e => .error e
      | .ok g => Ind.mutate c l { ind with genome := ind.genome.set i g }

/-- Line 137: the greatest connection, a number that need not be whole. -/
def connection (c : Config V) (recurrency : Rat) (i : Nat) : Rat :=
  min ((c.size : Rat) + c.inputs - 1) (((c.inputs : Rat) + (((i / (c.arity + 1) : Nat) : Rat) - 1) * c.rows) * recurrency)

/-- Lines 129-143 for the gene at position `i`, which is chosen. -/
def mutateGene2 (c : Config V) (recurrency : Rat) (d : Nat) (i : Nat) : Except PyErr Nat :=
  if i < c.size * (c.arity + 1) then
    if i % (c.arity + 1) = 0 then randint ((c.library.length : Int) - 1) d
    else if (connection c recurrency i).den ≠ 1 then .error .valueError
    else randint (connection c recurrency i).num d
  else randint ((c.inputs : Int) + c.size - 1) d

/-- The loop of lines 128-143, from position `i`; `hit` tells whether the gene is chosen. -/
def mutateFrom (c : Config V) (recurrency : Rat) (hit : Nat → Bool) (draw : Nat → Nat) : Nat → List Nat → Except PyErr (List Nat)
  | _, [] => .ok []
  | i, g :: l =>
    match (if hit i then mutateGene2 c recurrency (draw i) i else .ok g) with
    | .error e => .error e
    | .ok g' =>
      match mutateFrom c recurrency hit draw (i + 1) l with
      | .error e => .error e
      | .ok l' => .ok (g' :: l')

/-- `mutate_per_gene` (127-143). The graph stays as it is. -/
def Ind.mutatePerGene (c : Config V) (hit : Nat → Bool) (draw : Nat → Nat) (ind : Ind V) : Except PyErr (Ind V) :=
  match mutateFrom c ind.recurrency hit draw 0 ind.genome with
  | .error e => .error e
  | .ok g => .ok { ind with genome := g }

/-! ### cgpes.py -/

/-- What is drawn for one offspring. -/
structure Draws where
  hit : Nat → Bool
  draw : Nat → Nat

/-- The father and its fitness. -/
structure Es (V : Type) where
  father : Ind V
  fitness : Rat

/-- Lines 37-41: `ks` are the draws for the offsprings; `evaluate` may change the individual. -/
def offsprings (c : Config V) (evaluate : Ind V → Except PyErr (Rat × Ind V)) (father : Ind V) : List Draws → Except PyErr (List (Rat × Ind V))
  | [] => .ok []
  | k :: ks =>
    match Ind.mutatePerGene c k.hit k.draw father.clone with
    | .error e => .error e
    | .ok child =>
      match evaluate child with
      | .error e => .error e
      | .ok r =>
        match offsprings c evaluate father ks with
        | .error e => .error e
        | .ok rs => .ok (r :: rs)

/-- `np.argmax` (51): the first of the greatest. -/
def firstMax (best : Rat × Ind V) : List (Rat × Ind V) → Rat × Ind V
  | [] => best
  | x :: l => firstMax (if best.1 < x.1 then x else best) l

/-- One iteration (34-57). -/
def generation (c : Config V) (evaluate : Ind V → Except PyErr (Rat × Ind V)) (ks : List Draws) (es : Es V) : Except PyErr (Es V) :=
  match offsprings c evaluate es.father ks with
  | .error e => .error e
  | .ok [] => .error .valueError
  | .ok (r :: rs) =>
    let best := firstMax r rs
    if es.fitness ≤ best.1 then .ok ⟨best.2, best.1⟩ else .ok es

/-- `CGPES.run` (25-65): one list of draws per iteration. -/
def evolve (c : Config V) (evaluate : Nat → Ind V → Except PyErr (Rat × Ind V)) : Nat → List (List Draws) → Es V → Except PyErr (Es V)
  | _, [], es => .ok es
  | it, ks :: more, es =>
    match generation c (evaluate it) ks es with
    | .error e => .error e
    | .ok es' => evolve c evaluate (it + 1) more es'

/-- `CGPES.run` (25-65). -/
def evolution (c : Config V) (evaluate : Nat → Ind V → Except PyErr (Rat × Ind V)) (father : Ind V) (draws : List (List Draws)) : Except PyErr (Es V) :=
  match evaluate 0 father with
  | .error e => .error e
  | .ok (f, father') => evolve c evaluate 1 draws ⟨father', f⟩

/-- Lines 326-333 of cgp.py: `np.sort` returns a sorted copy, which nothing reads; dividing by zero raises
(no episode: `ep_max` is 0). -/
def weighted (fitnesses : List Rat) : Except PyErr Rat :=
  if fitnesses.length = 0 then .error .zeroDivisionError
  else .ok ((fitnesses.zipIdx.map (fun x => x.1 * ((x.2 : Rat) + 1))).sum / (fitnesses.zipIdx.map (fun x => (x.2 : Rat) + 1)).sum)

/-! ### Observations and actions (cgp.py) -/

/-- `change_interval` (28-40); `none` is an infinite bound. With bounds of NumPy, dividing by zero gives NaN and a warning. -/
def changeInterval (x : Rat) (inmin inmax : Option Rat) (outmin outmax : Rat) : Except PyErr Rat :=
  let lo := inmin.getD (-1)
  let hi := inmax.getD 1
  let x := max lo (min hi x)
  if hi - lo = 0 then .error .zeroDivisionError
  else .ok ((x - lo) / (hi - lo) * (outmax - outmin) + outmin)

/-- `change_float_to_int_interval` (43-48), with `int` of a number that is not negative. -/
def changeToInt (x : Rat) (inmin inmax : Option Rat) (outmin outmax : Int) : Except PyErr Int :=
  match changeInterval x inmin inmax 0 1 with
  | .error e => .error e
  | .ok y => if y = 1 then .ok outmax else .ok (y * ((outmax : Rat) - outmin + 1) + outmin).floor

/-- The spaces that are told apart (84-94): boxes by the bounds of their cells; `nested` is a tuple within a tuple. -/
inductive Kind where
  | box (bounds : List (Option Rat × Option Rat))
  | discrete (n : Nat)
  | nested
  | other
  deriving DecidableEq, Repr

/-- Lines 85-89 for a box. -/
def normCells : List (Option Rat × Option Rat) → List Rat → Except PyErr (List Rat × List Rat)
  | [], vals => .ok ([], vals)
  | _ :: _, [] => .error .indexError
  | b :: bs, v :: vals =>
    match changeInterval v b.1 b.2 (-1) 1 with
    | .error e => .error e
    | .ok y =>
      match normCells bs vals with
      | .error e => .error e
      | .ok (ys, rest) => .ok (y :: ys, rest)

/-- `norm_and_flatten` (65-95) for the flattened values; values without type stay as they are. -/
def normFlat : List Kind → List Rat → Except PyErr (List Rat)
  | [], vals => .ok vals
  | .box bs :: ts, vals =>
    match normCells bs vals with
    | .error e => .error e
    | .ok (ys, rest) =>
      match normFlat ts rest with
      | .error e => .error e
      | .ok zs => .ok (ys ++ zs)
  | .discrete _ :: _, [] => .error .indexError
  | .discrete n :: ts, v :: vals =>
    match changeInterval v (some 0) (some ((n : Rat) - 1)) (-1) 1 with
    | .error e => .error e
    | .ok y =>
      match normFlat ts vals with
      | .error e => .error e
      | .ok zs => .ok (y :: zs)
  | .nested :: _, _ => .error .valueError
  | .other :: _, _ => .error .valueError

/-- A denormalised value: a real number (`none` when it is infinite or no number), or a whole one. -/
inductive Item where
  | real (x : Option Rat)
  | int (n : Int)
  deriving DecidableEq, Repr

/-- Lines 148-152 for a box of one dimension; an infinite bound makes the result infinite or no number. -/
def denormCells : List (Option Rat × Option Rat) → List Rat → Except PyErr (List Item × List Rat)
  | [], vals => .ok ([], vals)
  | _ :: _, [] => .error .indexError
  | b :: bs, v :: vals =>
    match (match b with
      | (some l, some h) => (changeInterval v (some (-1)) (some 1) l h).map some
      | _ => .ok none) with
    | .error e => .error e
    | .ok y =>
      match denormCells bs vals with
      | .error e => .error e
      | .ok (ys, rest) => .ok (.real y :: ys, rest)

/-- The loop of lines 145-157. -/
def denormAll : List Kind → List Rat → Except PyErr (List Item)
  | [], _ => .ok []
  | .box bs :: ts, vals =>
    match denormCells bs vals with
    | .error e => .error e
    | .ok (ys, rest) =>
      match denormAll ts rest with
      | .error e => .error e
      | .ok zs => .ok (ys ++ zs)
  | .discrete _ :: _, [] => .error .indexError
  | .discrete n :: ts, v :: vals =>
    match changeToInt v (some (-1)) (some 1) 0 ((n : Int) - 1) with
    | .error e => .error e
    | .ok y =>
      match denormAll ts vals with
      | .error e => .error e
      | .ok zs => .ok (.int y :: zs)
  | .nested :: _, _ => .error .valueError
  | .other :: _, _ => .error .valueError

/-- A space as given: a single one or a tuple. -/
inductive Given where
  | single (k : Kind)
  | tuple (ks : List Kind)
  deriving DecidableEq, Repr

/-- Lines 73-75 and 137-139. -/
def Given.kinds : Given → List Kind
  | .single k => [k]
  | .tuple ks => ks

/-- What `denorm` returns: one item or a flat list. -/
inductive Result where
  | one (x : Item)
  | many (l : List Item)
  deriving DecidableEq, Repr

/-- `denorm` (130-162). -/
def denorm (vals : List Rat) (g : Given) : Except PyErr Result :=
  match denormAll g.kinds vals with
  | .error e => .error e
  | .ok out =>
    match g.kinds with
    | [.box _] => .ok (.many out)
    | [_] => match out with
      | [] => .error .indexError
      | x :: _ => .ok (.one x)
    | _ => .ok (.many out)

/-- Lines 222-229: the number of inputs or outputs, from the length of a sample. -/
def Given.places : Given → Nat
  | .single (.box bs) => bs.length
  | .single _ => 1
  | .tuple ks => ks.length

/-- `_check_domain_additional` (187-213) for one space: the loop keeps the answer for the last part; tuples within tuples
are not iterable. -/
def accepted : Given → Bool
  | g => g.kinds.foldl (fun _ k => decide (k ≠ .other)) true

/-- `_get_next_action` (246-250) for values in exact numbers. -/
def nextAction (c : Config Rat) (ind : Ind Rat) (obsSpace actSpace : Given) (obs : List Rat) : Except PyErr (Result × Ind Rat) :=
  match normFlat obsSpace.kinds obs with
  | .error e => .error e
  | .ok x =>
    match run c ind x with
    | .error e => .error e
    | .ok (ys, ind') =>
      match denorm ys actSpace with
      | .error e => .error e
      | .ok r => .ok (r, ind')

end Verif.Cgp
