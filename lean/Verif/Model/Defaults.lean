import Verif.Model.Core
import Verif.Model.Domain
import Mathlib.Algebra.Order.Floor.Defs
import Mathlib.Data.Rat.Floor

/-
Model of the default methods with which a domain is used: `builders/domain/dynamics.py`, `initialization.py`, `observability.py`,
`events.py`, `goals.py`, the spaces and distributions of `core.py`, and `functools.lru_cache`.
-/
namespace Verif.Defaults
open Verif.Core Verif.Domain

/-- A `DiscreteDistribution` or a `SingleValueDistribution`, core.py 194-256.  Weights are integers. -/
inductive Dist (α : Type) where
  | discrete (values : List (α × Int))
  | single (x : α)

/-- `sample()`, core.py 219, 245; `r` is the number that `random.random()` returns. -/
def Dist.sample : Dist α → Rat → Except PyErr α
  | .discrete l, r => discreteSample l ⌊r * ((l.map (·.2)).sum : Int)⌋
  | .single x, _ => .ok x

/-- What a domain declares: the kind of memory, `_get_initial_state_distribution_`, `_get_next_state_distribution`,
`_get_transition_value`, `_is_terminal` and `_get_observation_distribution`. -/
structure Dom (σ α ω : Type) where
  kind : MemKind
  init : Dist σ
  next : Mem σ → α → Dist σ
  value : Mem σ → α → σ → TransitionValue
  terminal : σ → Bool
  observe : σ → Option α → Dist ω

/-- An `EnvironmentOutcome`, core.py 323, without info. -/
structure Out (ω : Type) where
  observation : ω
  value : TransitionValue
  termination : Bool
  deriving DecidableEq, Repr

variable {σ α ω : Type}

/-- `UncertainTransitions._state_sample`, dynamics.py 238-245. -/
def stateSample (d : Dom σ α ω) (m : Mem σ) (a : α) (r : Rat) : Except PyErr (σ × TransitionValue × Bool) := do
  let s ← (d.next m a).sample r
  .ok (s, d.value m a s, d.terminal s)

/-- `Simulation._sample`, dynamics.py 183-207. -/
def sample (d : Dom σ α ω) (m : Mem σ) (a : α) (r r' : Rat) : Except PyErr (Out ω) := do
  let t ← stateSample d m a r
  let o ← (d.observe t.1 (some a)).sample r'
  .ok ⟨o, t.2.1, t.2.2⟩

/-- `Environment._step`, dynamics.py 52-83, with `Simulation._state_step`, 113-115: the memory is that of the domain. -/
def step (d : Dom σ α ω) (m : Mem σ) (a : α) (r r' : Rat) : Except PyErr (Mem σ × Out ω) := do
  let t ← stateSample d m a r
  let o ← (d.observe t.1 (some a)).sample r'
  let m' ← stepMemory d.kind m t.1
  .ok (m', ⟨o, t.2.1, t.2.2⟩)

/-- `Initializable._reset`, initialization.py 40-43, with `UncertainInitialized._state_reset`, 61-63. -/
def reset (d : Dom σ α ω) (r r' : Rat) : Except PyErr (Mem σ × ω) := do
  let s ← d.init.sample r
  let o ← (d.observe s none).sample r'
  .ok (initMemory d.kind s, o)

/-- One `step` after the other; every action comes with the two numbers drawn in its step. -/
def run (d : Dom σ α ω) : Mem σ → List (α × Rat × Rat) → Except PyErr (Mem σ × List (Out ω))
  | m, [] => .ok (m, [])
  | m, (a, r, r') :: as => do
    let t ← step d m a r r'
    let u ← run d t.1 as
    .ok (u.1, t.2 :: u.2)

/-- `reset` and then `step`s. -/
def play (d : Dom σ α ω) (r r' : Rat) (as : List (α × Rat × Rat)) : Except PyErr (Mem σ × ω × List (Out ω)) := do
  let t ← reset d r r'
  let u ← run d t.1 as
  .ok (u.1, t.2, u.2)

/-- `DeterministicTransitions` (dynamics.py 450-453), `DeterministicInitialized` (initialization.py 110-111) and `FullyObservable`
(observability.py 144-147, 187-189). -/
def deterministic (kind : MemKind) (s0 : σ) (next : Mem σ → α → σ) (value : Mem σ → α → σ → TransitionValue) (terminal : σ → Bool) :
    Dom σ α σ where
  kind := kind
  init := .single s0
  next m a := .single (next m a)
  value := value
  terminal := terminal
  observe s _ := .single s

/-! ### The memory that the caller passes -/

/-- The memory object of the caller and the memory of the domain; `none`: the domain holds the very object of the caller. -/
structure Shared (σ : Type) where
  given : Mem σ
  own : Option (Mem σ)

/-- What the domain reads as `self._memory`. -/
def Shared.memory (h : Shared σ) : Mem σ := h.own.getD h.given

/-- `Simulation._set_memory`, dynamics.py 139-158: the attribute refers to the object of the caller; nothing is copied. -/
def setMemory (h : Shared σ) : Shared σ := ⟨h.given, none⟩

/-- The memory update of `_step`, dynamics.py 78-81, on objects: an assignment binds a new object, `append` changes the one that is there. -/
def stepShared (k : MemKind) (h : Shared σ) (next : σ) : Except PyErr (Shared σ) := do
  let m ← stepMemory k h.memory next
  if k.maxlen = some 1 then .ok ⟨h.given, some m⟩
  else match h.own with
    | none => .ok ⟨m, none⟩
    | some _ => .ok ⟨h.given, some m⟩

/-- One episode of `rollout` from a given memory (utils.py 159-205): `set_memory` and then one step per action; only states are kept. -/
def episodeFrom (d : Dom σ α ω) : Shared σ → List (α × Rat) → Except PyErr (Shared σ × List σ)
  | h, [] => .ok (h, [])
  | h, (a, r) :: as => do
    let t ← stateSample d h.memory a r
    let h' ← stepShared d.kind h t.1
    let u ← episodeFrom d h' as
    .ok (u.1, t.1 :: u.2)

/-- `rollout(from_memory=…)`, utils.py 148-205: for every episode the memory it starts from, and its states. -/
def episodesFrom (d : Dom σ α ω) : Shared σ → List (List (α × Rat)) → Except PyErr (List (Mem σ × List σ))
  | _, [] => .ok []
  | h, as :: rest => do
    let u ← episodeFrom d (setMemory h) as
    let v ← episodesFrom d u.1 rest
    .ok (((setMemory h).memory, u.2) :: v)

/-! ### Events, actions and goals -/

/-- Spaces, core.py 47-110: those with a `contains` (`ImplicitSpace`, `EnumerableSpace` and others), and `EmptySpace`, which inherits the
`contains` of `Space`. -/
inductive Space (α : Type) where
  | implicit (p : α → Bool)
  | enum (xs : List α)
  | empty

/-- `contains`, core.py 63, 84, 101. -/
def Space.contains [DecidableEq α] : Space α → α → Except PyErr Bool
  | .implicit p, x => .ok (p x)
  | .enum xs, x => .ok (decide (x ∈ xs))
  | .empty, _ => .error .notImplementedError

/-- `get_elements`, core.py 93, 108; other spaces do not have it. -/
def Space.elements : Space α → Except PyErr (List α)
  | .implicit _ => .error .attributeError
  | .enum xs => .ok xs
  | .empty => .ok []

/-- `D.T_agent[Space]`: one space (`SingleAgent`), or one per agent (`MultiAgent`), agent.py. -/
inductive PerAgent (β : Type) where
  | one (x : β)
  | many (d : Dict String β)

/-- `all(spaces[k].contains(v) for k, v in xs.items())`: events.py 301, goals.py 102, observability.py 99. -/
def allIn [DecidableEq α] (spaces : Dict String (Space α)) : List (String × α) → Except PyErr Bool
  | [] => .ok true
  | (k, v) :: rest => do
    let sp ← spaces.get k
    let b ← sp.contains v
    if b then allIn spaces rest else .ok false

/-- The test of membership in `_is_applicable_action_from` (events.py 297-301), `_is_goal` (goals.py 98-102) and `_is_observation`
(observability.py 95-99).  Single-agent values with several spaces, and the other way round, do not occur. -/
def member [DecidableEq α] : PerAgent (Space α) → PerAgent α → Except PyErr Bool
  | .one sp, .one x => sp.contains x
  | .many d, .many xs => allIn d xs
  | _, _ => .error .attributeError

/-- `if memory is None: memory = self._memory`: events.py 49-50, 99-100, 225-226, 276-277.  The attribute does not exist before the first
`reset` or `set_memory`; the memory of a memoryless domain is `None` itself. -/
def orOwn (arg : Option (Mem σ)) (own : Option (Mem σ)) : Except PyErr (Mem σ) :=
  match arg with
  | some (.bare none) | none =>
    match own with
    | some m => .ok m
    | none => .error .attributeError
  | some m => .ok m

/-- `Events._is_applicable_action`, events.py 261-301. -/
def isApplicable [DecidableEq α] (applicable : Mem σ → PerAgent (Space α)) (own arg : Option (Mem σ)) (a : PerAgent α) : Except PyErr Bool := do
  let m ← orOwn arg own
  member (applicable m) a

/-- `Events._is_enabled_event`, events.py 85-120, for `Actions`, 304-310. -/
def isEnabled [DecidableEq α] (own arg : Option (Mem σ)) (e : α) : Except PyErr Bool := do
  let _ ← orOwn arg own
  (Space.empty : Space α).contains e

/-- `Events._is_action`, events.py 179-192: a `dict` of spaces has no `contains`. -/
def isAction [DecidableEq α] (actions : PerAgent (Space α)) (e : α) : Except PyErr Bool :=
  match actions with
  | .one sp => sp.contains e
  | .many _ => .error .attributeError

/-- The random walker of `rollout`, utils.py 116-148: one sampled action for every agent; `draw` picks an element of a list. -/
def randomAction (draw : String → Nat) : Dict String (Space α) → Except PyErr (Dict String α)
  | [] => .ok []
  | (k, sp) :: rest => do
    let xs ← sp.elements
    let x ← pyGet xs (draw k)
    let r ← randomAction draw rest
    .ok ((k, x) :: r)

/-! ### Cached characteristics -/

/-- The cache of `functools.lru_cache()`: at most 128 entries, the most recently used first.  It belongs to the function of the class, so
all domains share it; the key is the domain. -/
abbrev Cache (κ ν : Type) := List (κ × ν)

/-- A call of a cached method of the domain `k`: `compute` is what the method would answer now. -/
def cached [DecidableEq κ] (size : Nat) (c : Cache κ ν) (k : κ) (compute : ν) : Cache κ ν × ν :=
  match Dict.get? c k with
  | some v => ((k, v) :: c.filter (fun p => p.1 ≠ k), v)
  | none => (((k, compute) :: c).take size, compute)

/-- Calls one after the other; `answer k n` is what the method of domain `k` would answer at the call number `n`. -/
def calls [DecidableEq κ] (size : Nat) (answer : κ → Nat → ν) : Cache κ ν → Nat → List κ → Cache κ ν × List ν
  | c, _, [] => (c, [])
  | c, n, k :: ks =>
    let r := cached size c k (answer k n)
    let s := calls size answer r.1 (n + 1) ks
    (s.1, r.2 :: s.2)

end Verif.Defaults
