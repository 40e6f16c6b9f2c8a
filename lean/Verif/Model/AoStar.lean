import Verif.Model.Mdp

/-!
Model of the C++ solver /repo/cpp/src/hub/solver/aostar.hh (sequential execution policy).

A pointer to a state node is its state; an action node is its action, because its outcomes are
what the domain answers, the same each time.  Loops that need not end take a number of rounds;
`none` means that they were not finished by then.  Logging is left out.
-/
namespace Verif.AoStar

/-- aostar.hh lines 229-245, `StateNode`, without the state.  A parent (an action node) is only
used for its own parent, so `parents` holds states.  No value is infinity. -/
structure Node (σ α : Type) where
  acts : List α := []
  best : Option α := none
  value : Option Rat := none
  solved : Bool := false
  parents : List σ := []
  deriving DecidableEq

abbrev Graph (σ α : Type) := Dict σ (Node σ α)

/-- The parameters of the constructor (lines 33-48).  `arrange` is the order in which a set of
pointers is walked and in which tips of equal value leave the queue. -/
structure Config (σ : Type) where
  h : σ → Rat
  discount : Rat := 1
  maxTips : Nat := 1
  detect : Bool := false
  arrange : List σ → List σ := id

def value [DecidableEq σ] (g : Graph σ α) (s : σ) : Option Rat := (g.get? s).bind Node.value

def isSolved [DecidableEq σ] (g : Graph σ α) (s : σ) : Bool := ((g.get? s).map Node.solved).getD false

def bestOf [DecidableEq σ] (g : Graph σ α) (s : σ) : Option α := (g.get? s).bind Node.best

def actsOf [DecidableEq σ] (g : Graph σ α) (s : σ) : List α := ((g.get? s).map Node.acts).getD []

def parentsOf [DecidableEq σ] (g : Graph σ α) (s : σ) : List σ := ((g.get? s).map Node.parents).getD []

/-- The node `s` changed by `f`. -/
def modify [DecidableEq σ] (g : Graph σ α) (s : σ) (f : Node σ α → Node σ α) : Graph σ α :=
  match g.get? s with
  | none => g
  | some n => g.set s (f n)

/-- Inserting into a set, kept in the order of insertion. -/
def insertAll [DecidableEq σ] (l xs : List σ) : List σ :=
  xs.foldl (fun l x => if x ∈ l then l else l ++ [x]) l

/-- aostar.hh lines 95-115: one outcome of an action of `s`. -/
def addOutcome [DecidableEq σ] (m : Mdp σ α) (c : Config σ) (s : σ) (g : Graph σ α) (t : σ) : Graph σ α :=
  let g := if g.contains t then g
    else if m.goal t then g.set t { solved := true, value := some 0 }
    else g.set t { value := some (c.h t) }
  modify g t fun n => { n with parents := n.parents ++ [s] }

/-- aostar.hh lines 86-117: one action of `s`. -/
def addAction [DecidableEq σ] (m : Mdp σ α) (c : Config σ) (s : σ) (g : Graph σ α) (a : α) : Graph σ α :=
  (m.outcomes s a).foldl (fun g o => addOutcome m c s g o.2.2) (modify g s fun n => { n with acts := n.acts ++ [a] })

/-- aostar.hh lines 84-117: the tip `s` is expanded. -/
def expand [DecidableEq σ] (m : Mdp σ α) (c : Config σ) (g : Graph σ α) (s : σ) : Graph σ α :=
  (m.actions s).foldl (addAction m c s) g

/-- aostar.hh lines 130-133: the value of an action, infinite if one of its outcomes has an
infinite value (a product of zero and infinity compares like infinity). -/
def finite [DecidableEq σ] (m : Mdp σ α) (g : Graph σ α) (s : σ) (a : α) : Bool :=
  (m.outcomes s a).all fun o => (value g o.2.2).isSome

/-- aostar.hh lines 126-144, the update of one node.  The value and the best action are reset
first.  Without an action of finite value a null pointer is dereferenced (`attributeError`). -/
def update [DecidableEq σ] (m : Mdp σ α) (c : Config σ) (g : Graph σ α) (s : σ) : Except PyErr (Graph σ α) :=
  let g := modify g s fun n => { n with best := none, value := none }
  match Mdp.greedy (fun a => m.q c.discount (fun t => (value g t).getD 0) s a) ((actsOf g s).filter (finite m g s)) with
  | none => .error .attributeError
  | some (a, v) =>
    let g := modify g s fun n => { n with best := some a, value := some v, solved := true }
    .ok (modify g s fun n => { n with solved := (m.outcomes s a).all fun o => isSolved g o.2.2 })

/-- aostar.hh lines 124-151: one round of the back-propagation; also the new frontier. -/
def level [DecidableEq σ] (m : Mdp σ α) (c : Config σ) : List σ → Graph σ α → List σ → Except PyErr (Graph σ α × List σ)
  | [], g, nf => .ok (g, nf)
  | s :: fs, g, nf => do
    let g ← update m c g s
    level m c fs g (insertAll nf (parentsOf g s))

/-- aostar.hh lines 121-161: the back-propagation; `explored` is only used to detect cycles. -/
def backprop [DecidableEq σ] (m : Mdp σ α) (c : Config σ) :
    Nat → List σ → List σ → Graph σ α → Option (Except PyErr (Graph σ α))
  | _, [], _, g => some (.ok g)
  | 0, _ :: _, _, _ => none
  | n + 1, f :: fs, explored, g =>
    match level m c (c.arrange (f :: fs)) g [] with
    | .error e => some (.error e)
    | .ok (g, nf) =>
      if c.detect && nf.any (· ∈ explored) then some (.error .runtimeError)
      else backprop m c n nf (explored ++ nf) g

/-- aostar.hh lines 167-179: one round of the walk along the best actions; the next frontier and
the tips found. -/
def walk [DecidableEq σ] (m : Mdp σ α) (g : Graph σ α) : List σ → List σ → List σ → List σ × List σ
  | [], nf, q => (nf, q)
  | s :: fs, nf, q =>
    if isSolved g s then walk m g fs nf q
    else match bestOf g s with
      | some a => walk m g fs (insertAll nf ((m.outcomes s a).map fun o => o.2.2)) q
      | none => walk m g fs nf (q ++ [s])

/-- aostar.hh lines 163-180: the tips of the best partial graph. -/
def tips [DecidableEq σ] (m : Mdp σ α) (c : Config σ) (g : Graph σ α) : Nat → List σ → List σ → Option (List σ)
  | _, [], q => some q
  | 0, _ :: _, _ => none
  | n + 1, f :: fs, q =>
    let (nf, q) := walk m g (c.arrange (f :: fs)) [] q
    tips m c g n nf q

/-- aostar.hh lines 257-261, `StateNodeCompare`: the one with the smaller value first. -/
def before (v w : Option Rat) : Bool :=
  match v, w with
  | none, none => true
  | none, some _ => false
  | some _, none => true
  | some v, some w => decide (v ≤ w)

/-- One element put into the queue. -/
def enqueue (key : σ → Option Rat) (s : σ) : List σ → List σ
  | [] => [s]
  | t :: q => if before (key s) (key t) then s :: t :: q else t :: enqueue key s q

/-- The order in which the queue gives its elements. -/
def popOrder (key : σ → Option Rat) (q : List σ) : List σ := q.foldr (enqueue key) []

/-- aostar.hh lines 70-181, the main loop: `q` holds the tips. -/
def loop [DecidableEq σ] (m : Mdp σ α) (c : Config σ) (root : σ) (inner : Nat) :
    Nat → List σ → Graph σ α → Option (Except PyErr (Graph σ α))
  | _, [], g => some (.ok g)
  | 0, _ :: _, _ => none
  | n + 1, t :: q, g =>
    let ts := (popOrder (value g) (c.arrange (t :: q))).take c.maxTips
    let g := ts.foldl (expand m c) g
    let frontier := insertAll [] ts
    match backprop m c inner frontier frontier g with
    | none => none
    | some (.error e) => some (.error e)
    | some (.ok g) =>
      match tips m c g inner [root] [] with
      | none => none
      | some q => loop m c root inner n q g

/-- aostar.hh lines 57-190, `solve(s)`, no loop running for more than `fuel` rounds. -/
def solve [DecidableEq σ] (m : Mdp σ α) (c : Config σ) (fuel : Nat) (g : Graph σ α) (s : σ) :
    Option (Except PyErr (Graph σ α)) :=
  let g := if g.contains s then g else g.set s {}
  if isSolved g s || m.goal s then some (.ok g)
  else loop m c s fuel fuel [s] g

/-- aostar.hh lines 192-199, `is_solution_defined_for`. -/
def isSolutionDefinedFor [DecidableEq σ] (g : Graph σ α) (s : σ) : Bool :=
  (bestOf g s).isSome && isSolved g s

/-- aostar.hh lines 201-207, `get_best_action`. -/
def getBestAction [DecidableEq σ] (g : Graph σ α) (s : σ) : Except PyErr α :=
  match bestOf g s with
  | none => .error .runtimeError
  | some a => .ok a

/-- aostar.hh lines 209-215, `get_best_value`; `none` is infinity. -/
def getBestValue [DecidableEq σ] (g : Graph σ α) (s : σ) : Except PyErr (Option Rat) :=
  match g.get? s with
  | none => .error .runtimeError
  | some n => .ok n.value

end Verif.AoStar
