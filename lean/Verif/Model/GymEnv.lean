import Verif.Model.Gym
import Verif.Model.Worlds

/-!
Model of the domains of skdecide/hub/domain/gym/gym.py that wrap environments: `DeterministicInitializedGymDomain`
(145-236), `DeterministicGymDomain` (678-782), `GymPlanningDomain` (788-856) and `AsGymEnv` (859-986).

Environment objects are kept in a heap, a function from references to values; `deepcopy` stores a copy under a
new reference. Simplifications: rewards are exact, `info` is kept in `AsGymEnv` only; values of `get_state` are
compared by equality (for arrays Python would raise); `_current_depth` is printed only and left out, and so are
`_reset_features`, rendering and closing.
-/
namespace Verif.GymEnv
open Verif.Gym

/-- What a call of `env.step` returns. -/
structure Out (O : Type) where
  obs : O
  reward : Rat
  done : Bool
  deriving DecidableEq, Repr

/-- A Gym environment whose object has a value of type `S`. -/
structure Env (S O A : Type) where
  reset : S → O × S
  step : S → A → Out O × S

/-- The functions `get_state` and `set_state`. -/
structure Access (S X : Type) where
  get : S → X
  set : S → X → S

/-- A changed heap. -/
def store {S : Type} (heap : Nat → S) (r : Nat) (s : S) : Nat → S := fun i => if i = r then s else heap i

/-! ### `DeterministicGymDomain` -/

/-- `GymDomainStateProxy` with the context of lines 704-707 and 720-722: environment, last transition, saved value. -/
structure Proxy (O A X : Type) where
  obs : O
  env : Nat
  last : Option (O × A × Out O)
  saved : Option X
  deriving DecidableEq, Repr

/-- The environment objects, `_gym_env` and the first unused reference. -/
structure Dom (S : Type) where
  heap : Nat → S
  env : Nat
  fresh : Nat

variable {S O A X : Type}

/-- `_get_initial_state_` (702-707). Its result is cached by `_get_initial_state`, so that it is called once. -/
def initial (E : Env S O A) (ac : Option (Access S X)) (d : Dom S) : Proxy O A X × Dom S :=
  let r := E.reset (d.heap d.env)
  (⟨r.1, d.env, none, ac.map (fun a => a.get r.2)⟩, { d with heap := store d.heap d.env r.2 })

/-- `_get_next_state` (709-722); with `set_state` a proxy without saved value is an error of the caller. -/
def next [DecidableEq X] (E : Env S O A) (ac : Option (Access S X)) (d : Dom S) (m : Proxy O A X) (a : A) :
    Except PyErr (Proxy O A X × Dom S) :=
  match ac with
  | none =>
    let r := E.step (d.heap m.env) a
    .ok (⟨r.1.obs, d.fresh, some (m.obs, a, r.1), none⟩, ⟨store d.heap d.fresh r.2, d.fresh, d.fresh + 1⟩)
  | some ac =>
    match m.saved with
    | none => .error .typeError
    | some x =>
      let s := d.heap m.env
      let s' := if x ≠ ac.get s then ac.set s x else s
      let r := E.step s' a
      .ok (⟨r.1.obs, m.env, some (m.obs, a, r.1), some (ac.get r.2)⟩, ⟨store d.heap m.env r.2, m.env, d.fresh⟩)

/-- `_get_transition_value` (724-729): the memory and the action are not looked at. -/
def transitionValue (_memory : Proxy O A X) (_action : A) (nextState : Option (Proxy O A X)) : Except PyErr Rat :=
  match nextState with
  | none => .error .attributeError
  | some p =>
    match p.last with
    | none => .error .attributeError
    | some (_, _, out) => .ok out.reward

/-- `_is_terminal` (731-733). -/
def isTerminal (p : Proxy O A X) : Bool :=
  match p.last with
  | none => false
  | some (_, _, out) => out.done

/-! ### `GymPlanningDomain` -/

mutual
/-- `_are_same` (762-782); elements of different classes fail the assertion of line 763, tuples of different
length that of line 771, dictionaries with other keys that of line 777. -/
def areSame : Space → Elem Rat → Elem Rat → Except PyErr Bool
  | .box _ _, .array a, .array b => .ok (decide (a = b))
  | .discrete _, .int a, .int b => .ok (decide (a = b))
  | .multiBinary _, .ints a, .ints b => .ok (decide (a = b))
  | .multiDiscrete _, .ints _, .ints _ => .error .runtimeError
  | .tuple sp, .tuple a, .tuple b => areSameL sp a b
  | .dict ks sp, .dict k1 a, .dict k2 b =>
    if k1 = k2 ∧ k2 = ks then areSameL sp a b else .error .assertionError
  | _, _, _ => .error .assertionError
/-- The loops of 772-775 and 778-781. -/
def areSameL : List Space → List (Elem Rat) → List (Elem Rat) → Except PyErr Bool
  | [], [], [] => .ok true
  | s :: sp, a :: la, b :: lb =>
    match areSame s a b with
    | .error e => .error e
    | .ok false => .ok false
    | .ok true => areSameL sp la lb
  | _, _, _ => .error .assertionError
end

/-- A proxy with depth and accumulated reward (`_context[5]` and `_context[6]`). -/
structure PProxy (O A X : Type) where
  base : Proxy O A X
  depth : Nat
  acc : Rat
  deriving DecidableEq, Repr

/-- A planning domain: the wrapped one and `_initial_state`. -/
structure PDom (S O A X : Type) where
  dom : Dom S
  init : Option (PProxy O A X)

/-- `_get_initial_state_` (819-825). -/
def pInitial (E : Env S O A) (ac : Option (Access S X)) (d : PDom S O A X) : PProxy O A X × PDom S O A X :=
  let r := initial E ac d.dom
  (⟨r.1, 0, 0⟩, ⟨r.2, some ⟨r.1, 0, 0⟩⟩)

/-- `_get_next_state` (827-841); `same` is `_are_same` for the observation space. -/
def pNext [DecidableEq X] (E : Env S O A) (ac : Option (Access S X)) (same : O → O → Except PyErr Bool) (d : PDom S O A X)
    (m : PProxy O A X) (a : A) : Except PyErr (PProxy O A X × PDom S O A X) :=
  let ini := match d.init with | none => m | some i => i
  match same m.base.obs ini.base.obs with
  | .error e => .error e
  | .ok _ =>
    match next E ac d.dom m.base a with
    | .error e => .error e
    | .ok (p, dom) =>
      .ok (⟨p, m.depth + 1, match m.base.last with | none => m.acc | some (_, _, out) => m.acc + out.reward⟩, ⟨dom, some ini⟩)

/-- `_get_goals_` (853-856). -/
def isGoal (terminationIsGoal : Bool) (maxDepth : Nat) (p : PProxy O A X) : Bool :=
  decide (maxDepth ≤ p.depth) || (terminationIsGoal && isTerminal p.base)

/-! ### `DeterministicInitializedGymDomain` -/

/-- The context of a proxy: an environment, or a saved value. -/
inductive Ctx (X : Type) where
  | env (r : Nat)
  | saved (x : X)
  | none
  deriving DecidableEq, Repr

/-- A proxy of this domain. -/
structure IProxy (O X : Type) where
  obs : O
  ctx : Ctx X
  deriving DecidableEq, Repr

/-- `_gym_env`, `_init_env`, `_initial_state`, `_initial_env_state` (163-168). -/
structure IDom (S O X : Type) where
  heap : Nat → S
  env : Nat
  fresh : Nat
  initEnv : Ctx X
  initState : Option (IProxy O X)

/-- Set the environment from a context (176-180 and 191-195). A context of the other kind is an error of the caller. -/
def restore (ac : Option (Access S X)) (d : IDom S O X) (c : Ctx X) : Except PyErr (IDom S O X) :=
  match ac, c with
  | none, .env r => .ok { d with heap := store d.heap d.fresh (d.heap r), env := d.fresh, fresh := d.fresh + 1, initEnv := c }
  | some ac, .saved x => .ok { d with heap := store d.heap d.env (ac.set (d.heap d.env) x), initEnv := c }
  | _, _ => .error .typeError

/-- `set_memory` (170-180). -/
def setMemory (ac : Option (Access S X)) (d : IDom S O X) (p : IProxy O X) : Except PyErr (IDom S O X) :=
  restore ac { d with initState := some p } p.ctx

/-- `_state_reset` (182-197). -/
def stateReset (E : Env S O A) (ac : Option (Access S X)) (d : IDom S O X) : Except PyErr (IProxy O X × IDom S O X) :=
  match d.initState with
  | none =>
    let r := E.reset (d.heap d.env)
    match ac with
    | some ac =>
      let c := Ctx.saved (ac.get r.2)
      .ok (⟨r.1, c⟩, ⟨store d.heap d.env r.2, d.env, d.fresh, c, some ⟨r.1, c⟩⟩)
    | none =>
      let c := Ctx.env d.fresh
      .ok (⟨r.1, c⟩, ⟨store (store d.heap d.env r.2) d.fresh r.2, d.env, d.fresh + 1, c, some ⟨r.1, c⟩⟩)
  | some p =>
    match restore ac d d.initEnv with
    | .error e => .error e
    | .ok d' => .ok (p, d')

/-- `_state_step` (199-206): the context of the new proxy is that of the initial state. -/
def stateStep (E : Env S O A) (d : IDom S O X) (a : A) : (Out O × IProxy O X) × IDom S O X :=
  let r := E.step (d.heap d.env) a
  ((r.1, ⟨r.1.obs, d.initEnv⟩), { d with heap := store d.heap d.env r.2 })

/-! ### `AsGymEnv` -/

/-- A domain to be wrapped: `reset` and `step` with observation, reward, termination and information. -/
structure SkDomain (σ O A I : Type) where
  reset : σ → Except PyErr (O × σ)
  step : σ → A → Except PyErr ((O × Rat × Bool × Option I) × σ)

variable {σ I U V : Type}

/-- `AsGymEnv.step` (905-927), which does not look at `_unwrap_spaces`; `toU` is `to_unwrapped` of the observation
space and `fromU` is `from_unwrapped` of the action space, for one element. -/
def asStep (D : SkDomain σ O A I) (toU : O → Except PyErr U) (fromU : V → Except PyErr A) (empty : I) (st : σ) (action : V) :
    Except PyErr ((U × Rat × Bool × I) × σ) :=
  match fromU action with
  | .error e => .error e
  | .ok a =>
    match D.step st a with
    | .error e => .error e
    | .ok ((o, r, t, info), st') =>
      match toU o with
      | .error e => .error e
      | .ok u => .ok ((u, r, t, info.getD empty), st')

/-- `AsGymEnv.reset` (929-935): the observation is not unwrapped. -/
def asReset (D : SkDomain σ O A I) (st : σ) : Except PyErr (O × σ) := D.reset st

/-- An environment with information. -/
structure InfoEnv (S O A I : Type) where
  reset : S → O × S
  step : S → A → (O × Rat × Bool × Option I) × S

/-- `GymDomain` (31-75): `_state_reset` and `_state_step`, as `reset` and `step` of a memoryless and fully
observable domain pass them on; its spaces leave elements as they are (`GymSpace.to_unwrapped`). -/
def gymDomain (E : InfoEnv S O A I) : SkDomain S O A I where
  reset s := .ok (E.reset s)
  step s a := .ok (E.step s a)

end Verif.GymEnv
