import Verif.Model.Cgp
import Verif.Model.SimpleGreedy
/-
Model of `skdecide/hub/solver/maxent_irl/maxent_irl.py`: learning a table of values from the visits of an expert.

Numbers are exact.  The world is a parameter: its state carries the draws of its generator; rewards of the world only serve to print
a score and are left out, like plots and prints.  The first `theta` is a parameter, as it is drawn.  `cells` is at least 1 and the
bounds of observations differ (otherwise NumPy divides by zero, gives no number, and `int` raises).  `first`, `every` and `save` are
the constants 10000, 5000 and 1000 of the code.
-/
namespace Verif.MaxEnt

/-- The arguments of the constructor (23-32) and the bounds of the space of observations. -/
structure Conf where
  states : Nat
  actions : Nat
  cells : Nat
  gamma : Rat
  qRate : Rat
  thetaRate : Rat
  low : Rat × Rat
  high : Rat × Rat
  first : Nat := 10000
  every : Nat := 5000
  save : Nat := 1000

/-- `int(x)` cuts off. -/
def trunc (q : Rat) : Int := if 0 ≤ q then q.floor else q.ceil

/-- Lines 66-68. -/
def cell (n : Nat) (lo hi x : Rat) : Int := trunc ((x - lo) / ((hi - lo) / n))

/-- `state_to_index` (63-70), the same as `index_to_state` (72-80) and as lines 155-157. -/
def index (c : Conf) (o : Rat × Rat) : Int :=
  cell c.cells c.low.1 c.high.1 o.1 + cell c.cells c.low.2 c.high.2 o.2 * c.cells

/-- The position that an index of a NumPy array of `n` rows stands for: negative ones count from the end. -/
def place (n : Nat) (i : Int) : Except PyErr Nat :=
  if 0 ≤ i then (if i < n then .ok i.toNat else .error .indexError)
  else if 0 ≤ n + i then .ok (n + i).toNat else .error .indexError

/-- `+= self.feature_matrix[int(i)]` (58, 193): the matrix is the identity. -/
def visit (n : Nat) (i : Int) (v : List Rat) : Except PyErr (List Rat) := do
  let k ← place n i
  .ok (v.modify k (· + 1))

/-- The loops of lines 56-58. -/
def visits (n : Nat) : List Int → List Rat → Except PyErr (List Rat)
  | [], v => .ok v
  | i :: l, v => do
    let v ← visit n i v
    visits n l v

/-- `expert_feature_expectations` (53-61) of the demonstrations, given by their observations; there is at least one. -/
def expectations (c : Conf) (demos : List (List (Rat × Rat))) : Except PyErr (List Rat) := do
  let v ← visits c.states (demos.flatten.map (index c)) (List.replicate c.states 0)
  .ok (v.map (· / demos.length))

/-- `gradient_vector` (82-88). -/
def gradient (rate : Rat) (expert learner theta : List Rat) : List Rat :=
  (theta.zip (expert.zip learner)).map fun x =>
    let t := x.1 + rate * (x.2.1 - x.2.2)
    if t > 0 then 0 else t

/-- `max` of a row; of nothing it raises. -/
def rowMax : List Rat → Except PyErr Rat
  | [] => .error .valueError
  | x :: xs => .ok (xs.foldl max x)

/-- The world: `env.reset()` and `env.step(action)`. -/
structure World (W : Type) where
  reset : W → W
  step : W → Nat → W
  obs : W → Rat × Rat
  done : W → Bool

/-- The variables of the training loop. -/
structure St (W : Type) where
  q : List (List Rat)
  theta : List Rat
  seen : List Rat
  world : W
  saved : Option (List (List Rat)) := none

variable {W : Type}

/-- Lines 189-191 (as `update_q_table`, 119-122), `k` and `k'` being positions of rows. -/
def update (c : Conf) (q : List (List Rat)) (k a : Nat) (reward : Rat) (k' : Nat) : Except PyErr (List (List Rat)) := do
  let row ← pyGet q k
  let q1 ← pyGet row a
  let next ← pyGet q k'
  let m ← rowMax next
  .ok (q.set k (row.set a (q1 + c.qRate * (reward + c.gamma * m - q1))))

/-- One turn of the loop of lines 178-201 without its end. -/
def turn (c : Conf) (w : World W) (s : St W) : Except PyErr (St W) := do
  let i := index c (w.obs s.world)
  let k ← place s.q.length i
  let row ← pyGet s.q k
  let a ← SimpleGreedy.argmax row
  let world := w.step s.world a
  let p ← place c.states i
  let reward ← pyGet s.theta p
  let k' ← place s.q.length (index c (w.obs world))
  let q ← update c s.q k a reward k'
  let seen ← visit c.states i s.seen
  .ok { s with q := q, seen := seen, world := world }

/-- Lines 178-201; the first argument bounds the number of turns. -/
def episode (c : Conf) (w : World W) : Nat → St W → Except PyErr (St W)
  | 0, _ => .error .runtimeError
  | fuel + 1, s => do
    let s ← turn c w s
    if w.done s.world then .ok s else episode c w fuel s

/-- Line 174. -/
def learns (c : Conf) (k : Nat) : Bool := (k != 0 && k == c.first) || (decide (c.first < k) && k % c.every == 0)

/-- The body of the loop of lines 170-208. -/
def epoch (c : Conf) (w : World W) (fuel : Nat) (expert : List Rat) (k : Nat) (s : St W) : Except PyErr (St W) := do
  let s := { s with world := w.reset s.world }
  let s := if learns c k then { s with theta := gradient c.thetaRate expert (s.seen.map (· / (k : Rat))) s.theta } else s
  let s ← episode c w fuel s
  if k % c.save = 0 then .ok { s with saved := some s.q } else .ok s

/-- Lines 170-208 for the first `n` epochs. -/
def train (c : Conf) (w : World W) (fuel : Nat) (expert : List Rat) (s : St W) : Nat → Except PyErr (St W)
  | 0 => .ok s
  | n + 1 => do
    let s ← train c w fuel expert s n
    epoch c w fuel expert n s

/-- The table of lines 139 and 164. -/
def zeros (c : Conf) : List (List Rat) := List.replicate c.states (List.replicate c.actions 0)

/-- The variables before the loop (139, 164-166). -/
def start (c : Conf) (world : W) (theta : List Rat) : St W :=
  { q := zeros c, theta := theta, seen := List.replicate c.states 0, world := world }

/-- `_solve_domain` (135-210): the table of the solver afterwards.  `loaded` is the table that the constructor found (48-51),
`demos` the file of the expert, `none` if there is no such file; the answer `none` says that loading (210) finds no file. -/
def solve (c : Conf) (w : World W) (fuel : Nat) (world : W) (theta : List Rat) (loaded : Option (List (List Rat)))
    (demos : Option (List (List (Rat × Rat)))) (epochs : Nat) : Except PyErr (Option (List (List Rat))) :=
  match loaded with
  | some q => .ok (some q)
  | none =>
    match demos with
    | none => .ok (some (zeros c))
    | some d => do
      let expert ← expectations c d
      let s ← train c w fuel expert (start c world theta) epochs
      .ok s.saved

/-- `adapt_action_to_environment` (90-117) for one action and one space that is no tuple; infinite bounds are left out. -/
def adapt (k : Cgp.Kind) (a : Nat) : Except PyErr (Sum (List Rat) Nat) :=
  match k with
  | .discrete n => .ok (.inr (a % n))
  | .box [] => .ok (.inl [])
  | .box [(some l, some h)] => do
    let y ← Cgp.changeInterval a (some (-1)) (some 1) l h
    .ok (.inl [y])
  | .box _ => .error .indexError
  | _ => .error .valueError

/-- `_sample_action` (212-216). -/
def sample (c : Conf) (q : List (List Rat)) (k : Cgp.Kind) (o : Rat × Rat) : Except PyErr (Sum (List Rat) Nat) := do
  let p ← place q.length (index c o)
  let row ← pyGet q p
  let a ← SimpleGreedy.argmax row
  adapt k a

end Verif.MaxEnt
