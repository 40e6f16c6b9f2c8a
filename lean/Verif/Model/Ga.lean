import Verif.Model.Py
/- The genetic algorithm of discrete optimization (skdecide/builders/discrete_optimization/generic_tools/ea/ga.py) and the
alternation between encodings (ea/alternating_ga.py). Numbers are exact; what is drawn is a parameter. The library deap is
described by what its documentation says of the functions used. -/
namespace Verif.Ga

/-! ### Encodings (ga.py 109-178) -/

/-- `TypeAttribute` (do_problem.py 8-17), the kinds told apart. -/
inductive Kind where
  | integers
  | booleans
  | permutation
  | specific
  | other
  deriving DecidableEq, Repr

/-- An encoding in the register of a problem, or given as a dictionary: keys may be missing. -/
structure Entry where
  name : Option String := none
  type : Option Kind := none
  n : Option Nat := none
  arrity : Option Int := none
  arrities : Option (List Int) := none
  deriving DecidableEq, Repr

/-- The parameter `encoding`. -/
inductive Choice where
  | default
  | str (s : String)
  | dict (d : Entry)
  deriving DecidableEq, Repr

/-- What the solver keeps: `arrity` may not be set at all (`none`), or be `None`; `arrities` may not be set. -/
structure Enc where
  name : String
  var : String
  type : Kind
  n : Nat
  arrity : Option (Option Int) := none
  arrities : Option (List Int) := none
  deriving DecidableEq, Repr

/-- A key of a dictionary. -/
def key : Option α → Except PyErr α
  | none => .error .keyError
  | some x => .ok x

/-- Lines 117-129 and 156-170: an encoding of the register. -/
def fromRegister (name : String) (e : Entry) : Except PyErr Enc :=
  match key e.name, key e.type, key e.n with
  | .ok var, .ok type, .ok n =>
    match type with
    | .integers =>
      match key e.arrity with
      | .error err => .error err
      | .ok a => .ok { name := name, var := var, type := type, n := n, arrity := some (some a), arrities := some (List.replicate n a) }
    | .specific =>
      match key e.arrities with
      | .error err => .error err
      | .ok l => .ok { name := name, var := var, type := type, n := n, arrity := some none, arrities := some l }
    | _ => .ok { name := name, var := var, type := type, n := n, arrity := some none }
  | _, _, _ => .error .keyError

/-- Lines 133-148: a dictionary with its three keys; its own `arrities` are looked for in the register. -/
def fromDict (register : Dict String Entry) (d : Entry) : Option (Except PyErr Enc) :=
  match d.name, d.type, d.n with
  | some var, some type, some n =>
    let e : Enc := { name := "custom", var := var, type := type, n := n }
    let e := match d.arrity with
      | none => e
      | some a => { e with arrity := some (some a), arrities := some (List.replicate n a) }
    match d.arrities with
    | none => some (.ok e)
    | some _ =>
      match register.get? "custom" with
      | none => some (.error .keyError)
      | some r =>
        match r.arrities with
        | none => some (.error .keyError)
        | some l => some (.ok { e with arrities := some l })
  | _, _, _ => none

/-- Lines 150-170: the first encoding of the register; without one there is an exception. -/
def firstOf (register : Dict String Entry) : Except PyErr Enc :=
  match register with
  | [] => .error .runtimeError
  | (name, e) :: _ => fromRegister name e

/-- Lines 173-175: the number of values of booleans; their list is kept under another name (`arities`). -/
def booleans (e : Enc) : Enc := if e.type = .booleans then { e with arrity := some (some 2) } else e

/-- Lines 109-175. -/
def setEncoding (register : Dict String Entry) (c : Choice) : Except PyErr Enc :=
  let r := match c with
    | .default => firstOf register
    | .str s =>
      match register.get? s with
      | some e => fromRegister s e
      | none => firstOf register
    | .dict d => (fromDict register d).getD (firstOf register)
  match r with
  | .error err => .error err
  | .ok e => .ok (booleans e)

/-! ### Objectives (ga.py 179-198, 306-320) -/

/-- `ObjectiveHandling` (do_problem.py 39-42). -/
inductive Handling where
  | single
  | aggregate
  | multi
  deriving DecidableEq, Repr

/-- The parameter `objectives`. -/
inductive Objectives where
  | none
  | str (s : String)
  | list (l : List String)
  deriving DecidableEq, Repr

/-- What indexing the objectives gives: the letters of a string. -/
def Objectives.items : Objectives → Option (List String)
  | .none => Option.none
  | .str s => some (s.toList.map (fun c => String.ofList [c]))
  | .list l => some l

/-- Lines 191-198: the weights kept. -/
def setWeights (h : Handling) (o : Objectives) (w : Option (List Rat)) : Except PyErr (List Rat) :=
  match o.items with
  | none => .error .typeError
  | some l =>
    match w with
    | none => .ok (List.replicate l.length 1)
    | some w => if w.length ≠ l.length ∧ h = .aggregate then .ok (List.replicate l.length 1) else .ok w

/-- The sum of lines 316-319. -/
def weighted (values : Dict String Rat) : List String → List Rat → Except PyErr Rat
  | [], _ => .ok 0
  | o :: os, ws =>
    match values.get? o with
    | none => .error .keyError
    | some v =>
      match ws with
      | [] => .error .indexError
      | w :: ws =>
        match weighted values os ws with
        | .error e => .error e
        | .ok r => .ok (v * w + r)

/-- `evaluate_problem` (306-320) and storing the fitness (326-328). A first objective that is no key of the values is
multiplied with a number: a TypeError at once, or when the text so repeated is stored. -/
def fitness (h : Handling) (o : Objectives) (w : List Rat) (values : Dict String Rat) : Except PyErr Rat :=
  match h with
  | .single =>
    match o.items with
    | none => if values.keys = [] then .error .indexError else .error .typeError
    | some [] => .error .indexError
    | some (first :: _) =>
      match values.get? first with
      | some v => .ok v
      | none => if values.keys = [] then .error .indexError else .error .typeError
  | .aggregate =>
    match o.items with
    | none => .error .typeError
    | some l => weighted values l w
  | .multi => .error .nameError

/-! ### Individuals and operators (ga.py 214-286) -/

/-- `random.randint(low, high)`, both ends included, from a number drawn. -/
def randint (low high : Int) (d : Nat) : Except PyErr Int :=
  if high < low then .error .valueError else .ok (low + (d % (high - low + 1).toNat : Nat))

/-- Draw one gene per upper bound. -/
def genes (draw : Nat → Nat) : Nat → List Int → Except PyErr (List Int)
  | _, [] => .ok []
  | i, hi :: his =>
    match randint 0 hi (draw i) with
    | .error e => .error e
    | .ok g =>
      match genes draw (i + 1) his with
      | .error e => .error e
      | .ok gs => .ok (g :: gs)

/-- A number of line 226, which is read when the toolbox is set up. -/
def Enc.one (e : Enc) : Except PyErr Int :=
  match e.arrity with
  | none => .error .attributeError
  | some none => .error .typeError
  | some (some a) => .ok a

/-- The individuals made (214-230), given the numbers drawn and, for permutations, the sample. -/
def individual (e : Enc) (draw : Nat → Nat) (sample : List Int) : Except PyErr (List Int) :=
  match e.type with
  | .booleans => genes draw 0 (List.replicate e.n 1)
  | .permutation => .ok sample
  | .integers =>
    match e.one with
    | .error err => .error err
    | .ok a => genes draw 0 (List.replicate e.n (a - 1))
  | .specific =>
    match e.arrities with
    | none => .error .attributeError
    | some l => genes draw 0 (l.map (· - 1))
  | .other => .error .attributeError

/-- `tools.mutUniformInt(individual, 0, up, indpb)`: fewer bounds than genes raise IndexError; each gene hit is drawn anew
between 0 and its bound, both included. -/
def mutUniform (up : List Int) (hit : Nat → Bool) (draw : Nat → Nat) (l : List Int) : Except PyErr (List Int) :=
  if up.length < l.length then .error .indexError
  else
    let rec go : Nat → List Int → List Int → Except PyErr (List Int)
      | _, [], _ => .ok []
      | _, _ :: _, [] => .ok []
      | i, g :: gs, u :: us =>
        match (if hit i then randint 0 u (draw i) else .ok g) with
        | .error e => .error e
        | .ok g' =>
          match go (i + 1) gs us with
          | .error e => .error e
          | .ok gs' => .ok (g' :: gs')
    go 0 l up

/-- The mutation with whole numbers as set up (286). -/
def mutate (e : Enc) (hit : Nat → Bool) (draw : Nat → Nat) (l : List Int) : Except PyErr (List Int) :=
  match e.arrities with
  | none => .error .attributeError
  | some up => mutUniform up hit draw l

/-! ### The run (ga.py 289-292, 322-360) -/

/-- `int(tournament_size * pop_size)` (290), for sizes that are not negative. -/
def tournsize (t : Rat) (pop : Nat) : Nat := (t * pop).floor.toNat

/-- `int(max_evals / pop_size)` (344). -/
def generations (maxEvals pop : Nat) : Except PyErr Nat := if pop = 0 then .error .zeroDivisionError else .ok (maxEvals / pop)

/-- `max(aspirants, key=fitness)`: the first best. -/
def firstBest (best : α × Rat) : List (α × Rat) → α × Rat
  | [] => best
  | x :: xs => if best.2 < x.2 then firstBest x xs else firstBest best xs

/-- One choice of `selTournament`: the best of those drawn. -/
def tournament (pop : List (α × Rat)) : List Nat → Except PyErr (α × Rat)
  | [] => .error .valueError
  | i :: is =>
    match pop[i]? with
    | none => .error .indexError
    | some x => .ok (firstBest x (is.filterMap (fun j => pop[j]?)))

/-- `HallOfFame(1).update(population)`: the first individual of all, then each one that is better than the one kept. -/
def hall (best : Option (α × Rat)) : List (α × Rat) → Option (α × Rat)
  | [] => best
  | x :: xs =>
    match best with
    | none => hall (some x) xs
    | some b => if b.2 < x.2 then hall (some x) xs else hall (some b) xs

/-- Evaluate a population. -/
def evaluate (f : α → Except PyErr Rat) : List α → Except PyErr (List (α × Rat))
  | [] => .ok []
  | x :: xs =>
    match f x with
    | .error e => .error e
    | .ok v =>
      match evaluate f xs with
      | .error e => .error e
      | .ok r => .ok ((x, v) :: r)

/-- The generations of `eaSimple`: `next` selects and varies, and tells how many children a crossover or mutation touched:
only those are evaluated, the others keep the fitness of their parent, which is the same. The answer is the best kept and the
number of evaluations. -/
def evolve (f : α → Except PyErr Rat) (next : Nat → List (α × Rat) → Except PyErr (List α × Nat)) :
    Nat → Nat → List (α × Rat) → Option (α × Rat) → Nat → Except PyErr (Option (α × Rat) × Nat)
  | 0, _, _, best, evals => .ok (best, evals)
  | k + 1, g, pop, best, evals =>
    match next g pop with
    | .error e => .error e
    | .ok (children, touched) =>
      match evaluate f children with
      | .error e => .error e
      | .ok pop' => evolve f next k (g + 1) pop' (hall best pop') (evals + touched)

/-- `solve` (322-360) for the population drawn: the vector returned and the number of evaluations. -/
def solve (f : α → Except PyErr Rat) (next : Nat → List (α × Rat) → Except PyErr (List α × Nat)) (maxEvals : Nat) (population : List α) :
    Except PyErr (α × Nat) :=
  match evaluate f population with
  | .error e => .error e
  | .ok pop =>
    match generations maxEvals population.length with
    | .error e => .error e
    | .ok k =>
      match evolve f next k 0 pop (hall none pop) population.length with
      | .error e => .error e
      | .ok (none, _) => .error .indexError
      | .ok (some b, evals) => .ok (b.1, evals)

/-! ### Alternation (alternating_ga.py 64-96) -/

/-- The parameters of `AlternatingGa`; `ga` runs one `Ga` on a problem and gives its best solution, `fix` is
`set_fixed_attributes`. -/
structure Alt (P S : Type) where
  encodings : List String
  mutations : List String
  subEvals : List Nat
  maxEvals : Int
  ga : String → String → Nat → Nat → P → Except PyErr S
  fix : P → String → S → P
  dummy : S

/-- The loop (74-87); the first argument is fuel, the second counts the runs. The index of the encoding never changes. -/
def Alt.loop (a : Alt P S) : Nat → Nat → Nat → P → Option S → Option (Except PyErr S)
  | 0, _, _, _, _ => none
  | fuel + 1, runs, count, p, last =>
    if (count : Int) < a.maxEvals then
      match a.encodings[0]?, a.mutations[0]?, a.subEvals[0]? with
      | some enc, some m, some s =>
        match a.ga enc m s runs p with
        | .error e => some (.error e)
        | .ok sol => a.loop fuel (runs + 1) (count + s) (a.fix p enc sol) (some sol)
      | _, _, _ => some (.error .indexError)
    else
      match last with
      | none => some (.error .nameError)
      | some sol => some (.ok sol)

/-- `solve` (64-96): first all encodings are fixed to those of the dummy solution. -/
def Alt.solve (a : Alt P S) (fuel : Nat) (p : P) : Option (Except PyErr S) :=
  a.loop fuel 0 0 (a.encodings.foldl (fun p e => a.fix p e a.dummy) p) none

end Verif.Ga
