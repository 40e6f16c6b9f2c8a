import Verif.Model.Py

/-!
The hindsight planner, skdecide/hub/solver/_hindsight/hindsight.py.
The planners of the scenarios are seen from outside: what `solve` returns from a state, what `get_next_action` answers after it, and the
domain of the scenario.  Costs and weights are exact.  The passes run one item after the other (`multithread = False`, line 45); plans
themselves (`plan_by_scenario`) are stored but never read, so they are left out.
-/
namespace Verif.Hindsight

/-- `dict_planner` and `weight_scenario` (lines 23-24). -/
structure Scenarios (κ σ α : Type) where
  /-- the keys of `dict_planner` -/
  keys : List κ
  /-- `weight_scenario[k]`; every scenario has a weight -/
  weight : κ → Rat
  /-- the cost `solve(from_observation=Memory([s]))[0]` of planner `k` -/
  solve : κ → σ → Rat
  /-- `get_next_action(Memory([s]))` of planner `k` after solving from `s` -/
  act : κ → σ → α
  /-- `_domain.get_next_state(Memory([s]), a)` -/
  next : κ → σ → α → σ
  /-- `_domain.get_transition_value(Memory([s]), a, s').cost` -/
  cost : κ → σ → α → σ → Rat

/-- The attributes of lines 38-41.  They are trees of `defaultdict`s: reading a missing entry gives an empty one. -/
structure St (κ σ α : Type) where
  /-- `action_by_scenario[s]` -/
  acts : σ → Dict κ α
  /-- `q_values_scenar[s][a]` -/
  scen : σ → α → Dict κ Rat
  /-- `q_values[s]` -/
  q : σ → Dict α Rat
  /-- the keys of `planned[s]` -/
  planned : σ → List κ

variable {κ σ α : Type} [DecidableEq κ] [DecidableEq σ] [DecidableEq α]

/-- A planner just built (lines 37-41). -/
def fresh : St κ σ α := ⟨fun _ => [], fun _ _ => [], fun _ => [], fun _ => []⟩

/-- `d[x] = v` for the outermost level. -/
def upd {β : Type} (f : σ → β) (x : σ) (v : β) : σ → β := fun y => if y = x then v else f y

/-- `d[a] = 0.` when missing, then `d[a] += v` (lines 76-78 and 111-114). -/
def addTo (d : Dict α Rat) (a : α) (v : Rat) : Dict α Rat := d.set a ((d.get? a).getD 0 + v)

/-- `q_values_scenar[s][a][k] = v` -/
def setScen (f : σ → α → Dict κ Rat) (s : σ) (a : α) (k : κ) (v : Rat) : σ → α → Dict κ Rat :=
  upd f s (upd (f s) a ((f s a).set k v))

/-- `planned[s][k] = True` -/
def setPlanned (f : σ → List κ) (s : σ) (k : κ) : σ → List κ :=
  upd f s (if k ∈ f s then f s else f s ++ [k])

/-- Lines 69-79: the answer of one planner is recorded. -/
def record (P : Scenarios κ σ α) (s : σ) (st : St κ σ α) (k : κ) : St κ σ α :=
  { acts := upd st.acts s ((st.acts s).set k (P.act k s))
    scen := setScen st.scen s (P.act k s) k (P.solve k s)
    planned := setPlanned st.planned s k
    q := upd st.q s (addTo (st.q s) (P.act k s) (P.solve k s * P.weight k)) }

/-- Lines 56-62: the planners to run.  A state that is not in `planned` has no planned scenario. -/
def missing (P : Scenarios κ σ α) (reuse : Bool) (st : St κ σ α) (s : σ) : List κ :=
  if reuse then P.keys.filter fun k => decide (k ∉ st.planned s) else P.keys

/-- Lines 55-79, `first_pass`. -/
def firstPass (P : Scenarios κ σ α) (reuse : Bool) (s : σ) (st : St κ σ α) : St κ σ α :=
  (missing P reuse st s).foldl (record P s) st

/-- Lines 95-117, `look_one_step_ahead`.  The last `+=` raises `KeyError` when the action has no value at the state (`q_values[s]` is
a plain `dict`, line 75). -/
def lookAhead (P : Scenarios κ σ α) (reuse : Bool) (s : σ) (st : St κ σ α) (x : κ × α) : Except PyErr (St κ σ α) :=
  let k := x.1
  let a := x.2
  let s' := P.next k s a
  let c := P.cost k s a s'
  let f := P.solve k s'
  let a' := P.act k s'
  let scen := setScen (setScen st.scen s a k (c + f)) s' a' k f
  let acts := if reuse then upd st.acts s' ((st.acts s').set k a') else st.acts
  let planned := if reuse then setPlanned st.planned s' k else st.planned
  let q := if reuse then upd st.q s' (addTo (st.q s') a' (f * P.weight k)) else st.q
  match (q s).get? a with
  | none => .error .keyError
  | some v => .ok ⟨acts, scen, upd q s ((q s).set a (v + (c + f) * P.weight k)), planned⟩

/-- Lines 82-88: the pairs without a value.  `order` is the iteration order of the set of actions. -/
def toDo (P : Scenarios κ σ α) (order : List α → List α) (s : σ) (st : St κ σ α) : List (κ × α) :=
  (order ((st.acts s).map (·.2))).flatMap fun a =>
    (P.keys.filter fun k => !(st.scen s a).contains k).map fun k => (k, a)

/-- `foldl` that stops at an exception. -/
def foldE {β γ : Type} (f : β → γ → Except PyErr β) : β → List γ → Except PyErr β
  | b, [] => .ok b
  | b, x :: xs =>
    match f b x with
    | .error e => .error e
    | .ok b' => foldE f b' xs

/-- Lines 81-93, `second_pass`. -/
def secondPass (P : Scenarios κ σ α) (reuse : Bool) (order : List α → List α) (s : σ) (st : St κ σ α) : Except PyErr (St κ σ α) :=
  foldE (lookAhead P reuse s) st (toDo P order s st)

/-- `min(d, key=lambda x: d[x])`: the first key with the least value, `p` so far. -/
def minFrom : α × Rat → Dict α Rat → α
  | p, [] => p.1
  | p, x :: xs => if x.2 < p.2 then minFrom x xs else minFrom p xs

/-- Lines 52-53; `min` of nothing raises `ValueError`. -/
def least : Dict α Rat → Except PyErr α
  | [] => .error .valueError
  | x :: xs => .ok (minFrom x xs)

/-- Lines 48-53, `give_first_action`, with the planner afterwards. -/
def give (P : Scenarios κ σ α) (reuse : Bool) (order : List α → List α) (s : σ) (st : St κ σ α) : Except PyErr (α × St κ σ α) :=
  match secondPass P reuse order s (firstPass P reuse s st) with
  | .error e => .error e
  | .ok st' =>
    match least (st'.q s) with
    | .error e => .error e
    | .ok a => .ok (a, st')

/-- Calls one after the other, with all answers. -/
def calls (P : Scenarios κ σ α) (reuse : Bool) (order : List α → List α) : List σ → St κ σ α → Except PyErr (List α × St κ σ α)
  | [], st => .ok ([], st)
  | s :: ss, st =>
    match give P reuse order s st with
    | .error e => .error e
    | .ok (a, st') =>
      match calls P reuse order ss st' with
      | .error e => .error e
      | .ok (as, st'') => .ok (a :: as, st'')

end Verif.Hindsight
