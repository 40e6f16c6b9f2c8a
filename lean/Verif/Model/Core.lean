import Verif.Model.Py
/-
Model of `/repo/skdecide/core.py`.
-/
namespace Verif.Core

/-! ### Transition values -/

/-- `TransitionValue` after construction: both attributes are defined.
core.py 280-306. Numbers are exact integers. -/
structure TransitionValue where
  reward : Int
  cost : Int
  deriving DecidableEq, Repr

/-- `TransitionValue.__post_init__`, core.py 304-312 (`_cost_to_reward`,
`_reward_to_cost` 314-318): reward wins over cost, default 0. -/
def mkTransitionValue (reward cost : Option Int) : TransitionValue :=
  match reward with
  | some r => ⟨r, -r⟩
  | none =>
    match cost with
    | some c => ⟨-c, c⟩
    | none => ⟨0, 0⟩

/-! ### Python values and type-hint trees used by the cast functions -/

/-- The type at a node of a hint tree (`Tree.type`), core.py 560-593: the four
container kinds known to `cast_dict`, `Optional`, and any other class. -/
inductive Ty where
  | union | memory | strDict | list | optional
  | other (name : String)
  deriving DecidableEq, Repr

/-- A *pair* of hint trees of the same structure.  `autocast` (core.py 625-636)
always builds the source and the destination tree from the same hint string, so
they have the same structure; the model stores both labels at each node.
Simplification: nodes have zero, one or three children, which covers every hint in
the library (`D.T_x`, `F[..]`, `EnvironmentOutcome[.., .., ..]`). -/
inductive HT where
  | leaf (src dst : Ty)
  | one (src dst : Ty) (sub : HT)
  | three (src dst : Ty) (a b c : HT)
  deriving DecidableEq, Repr

/-- The same pair with source and destination exchanged (used for arguments,
core.py 642). -/
def HT.swap : HT → HT
  | .leaf s d => .leaf d s
  | .one s d t => .one d s t.swap
  | .three s d a b c => .three d s a.swap b.swap c.swap

/-- Python objects as far as the cast functions look at them. `dist` is a
`DiscreteDistribution` (list of element/probability pairs, core.py 194), `single` a
`SingleValueDistribution` (core.py 233), `outcome` an `EnvironmentOutcome` or
`TransitionOutcome` (core.py 323, 352), `atom` any other object. -/
inductive Val where
  | atom (n : Int)
  | none
  | mem (xs : List Val)
  | lst (xs : List Val)
  | dict (kvs : List (String × Val))
  | dist (kvs : List (Val × Int))
  | single (v : Val)
  | outcome (obs value : Val) (termination : Bool) (info : Val)
  deriving Repr

/-- `(src, dst) in cast_dict`, core.py 560-575. -/
def inCastDict : Ty → Ty → Bool
  | .memory, .union | .union, .memory | .memory, .memory
  | .strDict, .union | .union, .strDict | .strDict, .strDict
  | .list, .union | .union, .list | .list, .list
  | .union, .union | .optional, .optional => true
  | _, _ => false

/-- `cast_needed`, core.py 604-613. -/
def castNeeded : HT → Bool
  | .leaf s d => s != d && inCastDict s d
  | .one s d t => (s != d && inCastDict s d) || castNeeded t
  | .three s d a b c => (s != d && inCastDict s d) || (castNeeded a || castNeeded b || castNeeded c)

/-- `for x in xs: f(x)` collecting results, stopping at the first exception. -/
def mapE (f : α → Except PyErr β) : List α → Except PyErr (List β)
  | [] => .ok []
  | x :: xs =>
    match f x with
    | .error e => .error e
    | .ok y =>
      match mapE f xs with
      | .error e => .error e
      | .ok ys => .ok (y :: ys)

/-- `cast`, core.py 616-622, with `cast_dict` 560-575, `default_cast` 577 and the
`_cast` methods of the distributions (229-230, 258-259) and outcomes (343-347,
371-375).  A container function applied to an object of another kind is a
`TypeError`; `obj[0]` on an empty sequence is an `IndexError`;
`next(iter({}.values()))` is `StopIteration`; `src[0]` on a node without
sub-trees is an `IndexError`; a cast to an empty discrete distribution is an
`IndexError` (core.py 215). -/
def cast : HT → Val → Except PyErr Val
  | .leaf s d, v =>
    if castNeeded (.leaf s d) then
      if inCastDict s d then .error .indexError else .ok v
    else .ok v
  | .one s d t, v =>
    if castNeeded (.one s d t) then
      match s, d with
      | .memory, .union =>
        match v with
        | .mem (x :: _) => cast t x
        | .mem [] => .error .indexError
        | _ => .error .typeError
      | .union, .memory => (cast t v).map fun w => .mem [w]
      | .memory, .memory =>
        match v with
        | .mem xs => (mapE (cast t) xs).map .mem
        | _ => .error .typeError
      | .strDict, .union =>
        match v with
        | .dict ((_, x) :: _) => cast t x
        | .dict [] => .error .stopIteration
        | _ => .error .typeError
      | .union, .strDict => (cast t v).map fun w => .dict [("agent", w)]
      | .strDict, .strDict =>
        match v with
        | .dict kvs =>
          (mapE (fun kv => (cast t kv.2).map fun w => (kv.1, w)) kvs).map .dict
        | _ => .error .typeError
      | .list, .union =>
        match v with
        | .lst (x :: _) => cast t x
        | .lst [] => .error .indexError
        | _ => .error .typeError
      | .union, .list => (cast t v).map fun w => .lst [w]
      | .list, .list =>
        match v with
        | .lst xs => (mapE (cast t) xs).map .lst
        | _ => .error .typeError
      | .union, .union => cast t v
      | .optional, .optional =>
        match v with
        | .none => .ok .none
        | v => cast t v
      | _, _ =>
        match v with
        | .dist [] => .error .indexError
        | .dist kvs =>
          (mapE (fun kv => (cast t kv.1).map fun w => (w, kv.2)) kvs).map .dist
        | .single x => (cast t x).map .single
        | v => .ok v
    else .ok v
  | .three s d a b c, v =>
    if castNeeded (.three s d a b c) then
      if inCastDict s d then .error .typeError else
      match v with
      | .outcome o x term i =>
        match cast a o with
        | .error e => .error e
        | .ok o' =>
          match cast b x with
          | .error e => .error e
          | .ok x' =>
            match cast c i with
            | .error e => .error e
            | .ok i' => .ok (.outcome o' x' term i')
      | v => .ok v
    else .ok v

/-! ### Distributions -/

/-- Index chosen by `random.choices`: the first index whose cumulative weight
exceeds the draw `u` (`u = random() * total`), capped at the last index (as
`bisect(cum, u, 0, n-1)` in the standard library).  Linear scan instead of
bisection; the two agree when weights are non-negative. -/
def chooseAux : List (α × Int) → Int → Int → Option α
  | [], _, _ => none
  | [(x, _)], _, _ => some x
  | (x, w) :: rest, acc, u => if u < acc + w then some x else chooseAux rest (acc + w) u

/-- `DiscreteDistribution(values).sample()`, core.py 194-218: unzip raises
`IndexError` on the empty list (215); `random.choices` raises `ValueError` when the
total weight is not positive.  `u` is the random draw scaled to the total weight. -/
def discreteSample (values : List (α × Int)) (u : Int) : Except PyErr α :=
  match values with
  | [] => .error .indexError
  | _ =>
    if (values.map (·.2)).sum ≤ 0 then .error .valueError
    else
      match chooseAux values 0 u with
      | some x => .ok x
      | none => .error .indexError

/-! ### Outcomes with default value and info per agent -/

/-- An observation/value/info slot: one object or one object per agent. -/
inductive PerAgent (α : Type u) where
  | plain (a : α)
  | dict (kvs : List (String × α))
  deriving DecidableEq, Repr

/-- An `EnvironmentOutcome` (core.py 323-347) or `TransitionOutcome` (352-375)
after `__post_init__`; `ι = none` is Python `None`. -/
structure Outcome (ω ι : Type) where
  observation : PerAgent ω
  value : PerAgent TransitionValue
  termination : Bool
  info : PerAgent (Option ι)
  deriving DecidableEq, Repr

/-- `__post_init__`, core.py 336-341 and 364-369: when `value`/`info` is `None`, one
default per key of the observation if it is a `dict`, else one default. -/
def mkOutcome (observation : PerAgent ω) (value : Option (PerAgent TransitionValue))
    (termination : Bool) (info : Option (PerAgent (Option ι))) : Outcome ω ι where
  observation := observation
  value :=
    match value with
    | some v => v
    | none =>
      match observation with
      | .dict kvs => .dict (kvs.map fun kv => (kv.1, mkTransitionValue none none))
      | .plain _ => .plain (mkTransitionValue none none)
  termination := termination
  info :=
    match info with
    | some i => i
    | none =>
      match observation with
      | .dict kvs => .dict (kvs.map fun kv => (kv.1, none))
      | .plain _ => .plain none

/-! ### Constraints -/

/-- The inequality strings accepted by `BoundConstraint`, core.py 505-507. -/
inductive Ineq where
  | lt | le | gt | ge
  deriving DecidableEq, Repr

/-- `BoundConstraint.__init__` 500-508: parse the inequality string (assertion error
for any other string). -/
def parseIneq (s : String) : Except PyErr Ineq :=
  if s = "<" then .ok .lt
  else if s = "<=" then .ok .le
  else if s = ">" then .ok .gt
  else if s = ">=" then .ok .ge
  else .error .assertionError

/-- `inequality_functions`, core.py 506-508. -/
def Ineq.check : Ineq → Int → Int → Bool
  | .lt, v, b => decide (v < b)
  | .le, v, b => decide (v ≤ b)
  | .gt, v, b => decide (v > b)
  | .ge, v, b => decide (v ≥ b)

/-- Construct a `BoundConstraint` and `check` it: core.py 484-511. `eval` is the
user's evaluation function. -/
def boundCheck (eval : μ → ε → Option σ → Int) (inequality : String) (bound : Int)
    (m : μ) (a : ε) (s : Option σ) : Except PyErr Bool :=
  match parseIneq inequality with
  | .error e => .error e
  | .ok q => .ok (q.check (eval m a s) bound)

/-- `BoundConstraint._cast`, core.py 549-556: the cast constraint evaluates the
original function on the back-cast arguments. Argument casts are parameters. -/
def castEval (eval : μ → ε → Option σ → Int) (cm : μ' → μ) (ca : ε' → ε)
    (cs : Option σ' → Option σ) : μ' → ε' → Option σ' → Int :=
  fun m a s => eval (cm m) (ca a) (cs s)

end Verif.Core
