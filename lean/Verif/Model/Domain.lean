import Verif.Model.Py
/-
Model of the domain life-cycle code: `builders/domain/memory.py`,
`builders/domain/initialization.py`, `builders/domain/dynamics.py`,
`utils.py` (`rollout`, `rollout_episode`, `match_solvers`) and `solvers.py`.
-/
namespace Verif.Domain

/-! ### Memory -/

/-- The four memory characteristics, `builders/domain/memory.py` 15-114. -/
inductive MemKind where
  | history                    -- History 15-46
  | finiteHistory (n : Nat)    -- FiniteHistory 49-81, `n = _get_memory_maxlen_()`
  | markovian                  -- Markovian 84-94
  | memoryless                 -- Memoryless 97-114
  deriving DecidableEq, Repr

/-- `_get_memory_maxlen()`: `None` for `History` (46), `n`, `1`, `0`. -/
def MemKind.maxlen : MemKind → Option Nat
  | .history => none
  | .finiteHistory n => some n
  | .markovian => some 1
  | .memoryless => some 0

/-- The `_memory` attribute: a bare state (or `None`), or a `Memory` deque (oldest
first) with its optional `maxlen`. -/
inductive Mem (σ : Type u) where
  | bare (s : Option σ)
  | deque (xs : List σ) (maxlen : Option Nat)
  deriving DecidableEq, Repr

/-- `collections.deque(content, maxlen)`: only the last `maxlen` elements are kept. -/
def boundRight (maxlen : Option Nat) (xs : List σ) : List σ :=
  match maxlen with
  | none => xs
  | some n => xs.drop (xs.length - n)

/-- `_init_memory(state)`, memory.py 22-34, 88-90, 108-110, with a non-`None` state. -/
def initMemory (k : MemKind) (s : σ) : Mem σ :=
  match k with
  | .history | .finiteHistory _ => .deque (boundRight k.maxlen [s]) k.maxlen
  | .markovian => .bare (some s)
  | .memoryless => .bare none

/-- The memory update inside `Environment._step`, dynamics.py 78-81.  Comparing
`None > 1` is a `TypeError` (an unbounded history has `maxlen` `None`); appending to
something that is not a deque is an `AttributeError`. -/
def stepMemory (k : MemKind) (m : Mem σ) (next : σ) : Except PyErr (Mem σ) :=
  match k.maxlen with
  | none => .error .typeError
  | some n =>
    if n = 1 then .ok (.bare (some next))
    else if n > 1 then
      match m with
      | .deque xs ml => .ok (.deque (boundRight ml (xs ++ [next])) ml)
      | .bare _ => .error .attributeError
    else .ok m

/-- A run: `reset` to `s0` (initialization.py 40-42) followed by one `step` per action
(dynamics.py 75-83).  `dyn m a` is the state sampled by `_state_step` from the current
memory.  Returns the final memory and the states visited after `s0`. -/
def runMemory (k : MemKind) (dyn : Mem σ → α → σ) (s0 : σ) (acts : List α) :
    Except PyErr (Mem σ × List σ) :=
  go (initMemory k s0) acts
where
  go (m : Mem σ) : List α → Except PyErr (Mem σ × List σ)
    | [] => .ok (m, [])
    | a :: acts =>
      let s := dyn m a
      match stepMemory k m s with
      | .error e => .error e
      | .ok m' =>
        match go m' acts with
        | .error e => .error e
        | .ok (m'', ss) => .ok (m'', s :: ss)

/-! ### Rollouts -/

/-- The environment as seen by `rollout`: hidden state `ε`, observations `ω`, actions
`α`, values `ν`. `step` returns observation, value, termination. -/
structure Env (ε ω α ν : Type) where
  reset : ε → ε × ω
  step : ε → α → ε × (ω × ν × Bool)
  /-- `set_memory(m)` followed by observing the last state of `m`. -/
  startFrom : ε → ε × ω
  /-- `set_memory(observation)` as called by `rollout_episode`. -/
  setMemory : ε → ω → ε

/-- The solver as seen by `rollout`: `reset`, `sample_action` (with hidden state `ς`,
e.g. the random generator). -/
structure Agent (ς ω α : Type) where
  reset : ς → ς
  act : ς → ω → ς × α

/-- Record of one episode: first observation, then one `(action, value, terminated,
observation)` per executed step. -/
structure Episode (ω α ν : Type) where
  first : ω
  steps : List (α × ν × Bool × ω)
  deriving DecidableEq, Repr

/-- The `while` loop of `rollout` (utils.py 170-205) for a step limit; `remaining` is
`max_steps - step + 1`.  Rendering, logging and sleeping are left out.
For `max_steps = None` see `episodeUnlimited`. -/
def episodeLoop (env : Env ε ω α ν) (ag : Agent ς ω α) :
    Nat → ε → ς → ω → ε × ς × List (α × ν × Bool × ω)
  | 0, e, s, _ => (e, s, [])
  | remaining + 1, e, s, obs =>
    let (s', a) := ag.act s obs
    let (e', obs', v, term) := env.step e a
    if term then (e', s', [(a, v, term, obs')])
    else
      let (e'', s'', rest) := episodeLoop env ag remaining e' s' obs'
      (e'', s'', (a, v, term, obs') :: rest)

/-- The same loop with `max_steps = None`: it ends only by termination; `none` when the fuel is used up before. -/
def episodeUnlimited (env : Env ε ω α ν) (ag : Agent ς ω α) : Nat → ε → ς → ω → Option (ε × ς × List (α × ν × Bool × ω))
  | 0, _, _, _ => none
  | fuel + 1, e, s, obs =>
    let (s', a) := ag.act s obs
    let (e', obs', v, term) := env.step e a
    if term then some (e', s', [(a, v, term, obs')])
    else (episodeUnlimited env ag fuel e' s' obs').map (fun r => (r.1, r.2.1, (a, v, term, obs') :: r.2.2))

/-- One iteration of the `for i_episode` loop of `rollout`, utils.py 148-205. -/
def runEpisode (env : Env ε ω α ν) (ag : Agent ς ω α) (fromMemory : Bool) (maxSteps : Nat)
    (e : ε) (s : ς) : ε × ς × Episode ω α ν :=
  let s := ag.reset s
  let (e, obs) := if fromMemory then env.startFrom e else env.reset e
  let (e, s, steps) := episodeLoop env ag maxSteps e s obs
  (e, s, ⟨obs, steps⟩)

/-- `rollout`, utils.py 89-237: runs the episodes; when a result directory is given
(`save`), the function returns at the end of the first iteration (line 237 is inside
the loop). -/
def rollout (env : Env ε ω α ν) (ag : Agent ς ω α) (fromMemory save : Bool) (maxSteps : Nat) :
    Nat → ε → ς → List (Episode ω α ν)
  | 0, _, _ => []
  | n + 1, e, s =>
    let (e', s', ep) := runEpisode env ag fromMemory maxSteps e s
    if save then [ep] else ep :: rollout env ag fromMemory save maxSteps n e' s'

/-- The loop of `rollout_episode`, utils.py 322-347: as above, but the memory of the
domain is overwritten by the last observation before each step (329). Returns the three
lists of the Python function: observations (after the first), actions, values. -/
def episodeLoop2 (env : Env ε ω α ν) (ag : Agent ς ω α) :
    Nat → ε → ς → ω → List ω × List α × List ν × List Bool
  | 0, _, _, _ => ([], [], [], [])
  | remaining + 1, e, s, obs =>
    let (s', a) := ag.act s obs
    let (e', obs', v, term) := env.step (env.setMemory e obs) a
    if term then ([obs'], [a], [v], [term])
    else
      let (os, as, vs, ts) := episodeLoop2 env ag remaining e' s' obs'
      (obs' :: os, a :: as, v :: vs, term :: ts)

/-- `rollout_episode`, utils.py 240-355. Without `from_memory` the variable
`observation` is never assigned (303-304) and reading it raises
`UnboundLocalError` (a `NameError`); with `num_episodes = 0` the function returns
`None` (model: `none`). It returns inside the loop, after the first episode (355). -/
def rolloutEpisode (env : Env ε ω α ν) (ag : Agent ς ω α) (fromMemory : Bool)
    (numEpisodes maxSteps : Nat) (e : ε) (s : ς) :
    Except PyErr (Option (List ω × List α × List ν × List Bool)) :=
  if numEpisodes = 0 then .ok none
  else if fromMemory = false then .error .nameError
  else
    let s := ag.reset s
    let (e, obs) := env.startFrom e
    let (os, as, vs, ts) := episodeLoop2 env ag maxSteps e s obs
    .ok (some (obs :: os, as, vs, ts))

/-! ### Matching solvers with domains -/

/-- Classes are numbers; `bases c` is `c.__bases__`; a base is defined before the class
that uses it. `0` is `object`. -/
structure Classes where
  bases : Nat → List Nat
  base_lt : ∀ c b, b ∈ bases c → b < c

/-- `is_domain_builder(cls)`, solvers.py 61-71: follow the single-base chain; returns the
chain of ancestors when it ends at a class without bases, `none` when some class has
several bases. -/
def builderChain (H : Classes) (c : Nat) : Option (List Nat) :=
  match _h : H.bases c with
  | [] => some []
  | [b] => (builderChain H b).map (b :: ·)
  | _ => none
termination_by c
decreasing_by exact H.base_lt c b (by simp [_h])

/-- `[a for a in l if a not in anc]`, solvers.py 78. -/
def without (anc l : List Nat) : List Nat := l.filter fun a => !anc.contains a

/-- The `while` loop of `Solver._get_domain_requirements`, solvers.py 73-81: walk over
the linearised ancestors, keep builders and remove the ancestors of each kept builder,
drop the others.  `done` is the prefix `sorted_ancestors[:i]`, `todo` the rest; since a
class precedes its ancestors in the MRO, removal is modelled on both parts as in the
code. -/
def requirementsLoop (H : Classes) (done todo : List Nat) : List Nat :=
  match todo with
  | [] => done
  | a :: rest =>
    match builderChain H a with
    | some anc => requirementsLoop H (without anc done ++ [a]) (without anc rest)
    | none => requirementsLoop H done rest
termination_by todo.length
decreasing_by
  · exact Nat.lt_succ_of_le (List.length_filter_le _ _)
  · exact Nat.lt_succ_self _

/-- `Solver._get_domain_requirements`, solvers.py 50-81; `mro` is
`cls.T_domain.__mro__[:-1]`. -/
def domainRequirements (H : Classes) (mro : List Nat) : List Nat := requirementsLoop H [] mro

/-- A solver class: the MRO of its domain type (without `object`) and its additional
check. -/
structure SolverClass (δ : Type) where
  mro : List Nat
  additional : δ → Bool

/-- `Solver._check_domain`, solvers.py 101-116; `isinstance d c` is Python's
`isinstance(domain, cls)`. -/
def checkDomain (H : Classes) (isinstance : δ → Nat → Bool) (s : SolverClass δ) (d : δ) : Bool :=
  (domainRequirements H s.mro).all (isinstance d) && s.additional d

/-- `match_solvers`, utils.py 77-86, with explicit candidates. -/
def matchSolvers (H : Classes) (isinstance : δ → Nat → Bool) (candidates : List (SolverClass δ))
    (d : δ) : List (SolverClass δ) :=
  candidates.foldl (fun acc s => if checkDomain H isinstance s d then acc ++ [s] else acc) []

end Verif.Domain
