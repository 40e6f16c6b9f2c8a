import Verif.Model.Py

/-!
Models of skdecide/hub/solver/lazy_astar/lazy_astar.py and
skdecide/hub/solver/lrtastar/lrtastar.py on deterministic domains.

Costs and heuristics are exact rationals.  The domain calls do not raise.
-/
namespace Verif.Search

/-- What both solvers ask of a deterministic goal domain: `get_applicable_actions`,
`get_next_state`, `get_transition_value(...).cost` and `is_goal`. -/
structure Problem (σ α : Type) where
  actions : σ → List α
  next : σ → α → σ
  cost : σ → α → σ → Rat
  goal : σ → Bool

/-! ### Lazy A* -/

/-- An entry of the queue (lazy_astar.py lines 74 and 116).  Parent and label are both absent
(the source) or both present, so they are one optional pair here. -/
structure Entry (σ α : Type) where
  f : Rat
  cnt : Nat
  node : σ
  dist : Rat
  parent : Option (σ × α)

/-- The local variables of the search (lines 64-77): queue, counter, `enqueued`, `explored`. -/
structure Search (σ α : Type) where
  queue : List (Entry σ α)
  cnt : Nat
  enqueued : Dict σ (Rat × Rat)
  explored : Dict σ (Option (σ × α))

/-- Tuple order on `(f, counter, …)`; counters are distinct, so later fields are never compared. -/
def Entry.before (e m : Entry σ α) : Bool := decide (e.f < m.f ∨ (e.f = m.f ∧ e.cnt < m.cnt))

/-- `heappop` (line 82): the smallest entry and the others.  The heap layout is not modelled. -/
def popMin : List (Entry σ α) → Option (Entry σ α × List (Entry σ α))
  | [] => none
  | e :: es =>
    match popMin es with
    | none => some (e, [])
    | some (m, rest) => if e.before m then some (e, es) else some (m, e :: rest)

/-- lazy_astar.py lines 41-47, `extender`. -/
def extender [DecidableEq σ] (p : Problem σ α) (node : σ) (explored : Dict σ (Option (σ × α))) :
    List (σ × Rat × α) :=
  (((p.actions node).map fun a => (p.next node a, a)).filter fun q => !explored.contains q.1).map
    fun q => (q.1, p.cost node q.2 q.1, q.2)

/-- lazy_astar.py lines 100-116: the loop over the neighbours. -/
def pushAll [DecidableEq σ] (h : σ → Rat) (w : Rat) (cur : σ) (dist : Rat) :
    List (σ × Rat × α) → Search σ α → Search σ α
  | [], s => s
  | (n, c, a) :: rest, s =>
    if s.explored.contains n then pushAll h w cur dist rest s
    else
      let ncost := dist + c
      match s.enqueued.get? n with
      | some (q, hn) =>
        if q ≤ ncost then pushAll h w cur dist rest s
        else pushAll h w cur dist rest
          { s with
            enqueued := s.enqueued.set n (ncost, hn)
            queue := ⟨ncost + w * hn, s.cnt, n, ncost, some (cur, a)⟩ :: s.queue
            cnt := s.cnt + 1 }
      | none => pushAll h w cur dist rest
          { s with
            enqueued := s.enqueued.set n (ncost, h n)
            queue := ⟨ncost + w * h n, s.cnt, n, ncost, some (cur, a)⟩ :: s.queue
            cnt := s.cnt + 1 }

/-- lazy_astar.py lines 97-116: one popped entry that is not a goal. -/
def expand [DecidableEq σ] (p : Problem σ α) (h : σ → Rat) (w : Rat) (e : Entry σ α) (s : Search σ α) :
    Search σ α :=
  if s.explored.contains e.node then s
  else
    let s := { s with explored := s.explored.set e.node e.parent }
    pushAll h w e.node e.dist (extender p e.node s.explored) s

/-- lazy_astar.py lines 80-116: the main loop, at most `fuel` pops; the goal entry popped, or
`none` when the queue ran empty.  `runtimeError` means that `fuel` pops were not enough. -/
def loop [DecidableEq σ] (p : Problem σ α) (h : σ → Rat) (w : Rat) :
    Nat → Search σ α → Except PyErr (Option (Entry σ α) × Search σ α)
  | 0, _ => .error .runtimeError
  | fuel + 1, s =>
    match popMin s.queue with
    | none => .ok (none, s)
    | some (e, q) =>
      if p.goal e.node then .ok (some e, { s with queue := q })
      else loop p h w fuel (expand p h w e { s with queue := q })

/-- lazy_astar.py lines 91-95: walking back through `explored`; at most `fuel` steps. -/
def chain [DecidableEq σ] (explored : Dict σ (Option (σ × α))) :
    Nat → σ → List (σ × Option α) → Except PyErr (List (σ × Option α))
  | 0, _, _ => .error .runtimeError
  | fuel + 1, node, path => do
    let pl ← explored.get node
    match pl with
    | none => return path
    | some (parent, label) => chain explored fuel parent ((parent, some label) :: path)

/-- What the solver keeps (lines 35-36 and 117-122). -/
structure Outcome (σ α : Type) where
  policy : Dict σ (Option α) := []
  values : Dict σ Rat := []
  plan : List α := []

/-- lazy_astar.py lines 118-122. -/
def record [DecidableEq σ] (total : Rat) (enqueued : Dict σ (Rat × Rat)) :
    List (σ × Option α) → Outcome σ α → Except PyErr (Outcome σ α)
  | [], o => .ok o
  | (n, l) :: rest, o => do
    let g ← enqueued.get n
    record total enqueued rest
      { policy := o.policy.set n l
        values := o.values.set n (total - g.1)
        plan := o.plan ++ l.toList }

/-- lazy_astar.py lines 64-77: the variables before the loop. -/
def init (h : σ → Rat) (w : Rat) (s0 : σ) : Search σ α :=
  { queue := [⟨w * h s0, 0, s0, 0, none⟩]
    cnt := 1
    enqueued := [(s0, (0, w * h s0))]
    explored := [] }

/-- lazy_astar.py lines 38-122, `_solve_domain`, of a fresh solver.  A goal popped without a
parent puts `(None, None)` on the path, and `enqueued[None]` raises at line 120. -/
def solve [DecidableEq σ] (p : Problem σ α) (h : σ → Rat) (w : Rat) (s0 : σ) (fuel : Nat) :
    Except PyErr (Outcome σ α) := do
  let (found, s) ← loop p h w fuel (init h w s0)
  match found with
  | none => return {}
  | some e =>
    match e.parent with
    | none => .error .keyError
    | some (u, a) => do
      let path ← chain s.explored (s.explored.length + 1) u [(u, some a), (e.node, none)]
      record e.f s.enqueued path {}

/-! ### LRTA* -/

/-- Stored values; `none` is `inf`. -/
abbrev Values (σ : Type) := Dict σ (Option Rat)

/-- The value of a successor: stored, else the heuristic (lines 105-107). -/
def oldValue [DecidableEq σ] (h : σ → Rat) (vs : Values σ) (st : σ) : Option Rat :=
  match vs.get? st with
  | some v => v
  | none => some (h st)

/-- A successor without a value gets the heuristic (lines 105-106). -/
def remember [DecidableEq σ] (h : σ → Rat) (vs : Values σ) (st : σ) : Values σ :=
  match vs.get? st with
  | some _ => vs
  | none => vs.set st (some (h st))

/-- The comparison of line 107: strictly less than the best estimate so far. -/
def better (r : Rat) (old : Option Rat) (best : Option (σ × α × Rat)) : Bool :=
  match old, best with
  | none, _ => false
  | some _, none => true
  | some v, some b => decide (r + v < b.2.2)

/-- lrtastar.py lines 97-110: the loop over the applicable actions.  The best candidate is
absent while `best_estimated_cost` is infinite. -/
def pick [DecidableEq σ] (p : Problem σ α) (h : σ → Rat) (roll : List σ) (cur : σ) :
    List α → Values σ → Option (σ × α × Rat) → Values σ × Option (σ × α × Rat)
  | [], vs, best => (vs, best)
  | a :: as, vs, best =>
    let st := p.next cur a
    let r := p.cost cur a st
    if st ∈ roll then pick p h roll cur as vs best
    else
      let old := oldValue h vs st
      pick p h roll cur as (remember h vs st)
        (if better r old best then old.map fun v => (st, a, r + v) else best)

/-- What `doTrial` returns and leaves behind. -/
structure Trial (σ α : Type) where
  deadEnd : Bool
  cost : Option Rat
  roll : List (σ × Option α)
  plan : List α
  values : Values σ
  changed : Bool

/-- lrtastar.py lines 117-119. -/
def update [DecidableEq σ] (vs : Values σ) (cur : σ) (best : Rat) (changed : Bool) : Values σ × Bool :=
  if vs.get? cur = some (some best) then (vs, changed) else (vs.set cur (some best), true)

/-- lrtastar.py lines 84-131, `doTrial`, with `depth` steps left, from the current state;
`roll` are the states visited.  The cost of a step (line 120) is the estimate minus the stored
value of the successor, which the loop above has just read or stored. -/
def doTrial [DecidableEq σ] (p : Problem σ α) (h : σ → Rat) :
    Nat → σ → List σ → Values σ → Bool → Rat → List (σ × Option α) → List α → Except PyErr (Trial σ α)
  | depth, cur, roll, vs, changed, cum, ra, acts =>
    if p.goal cur then do
      let v ← vs.get cur
      return ⟨false, v.map (cum + ·), ra ++ [(cur, none)], acts, vs, changed⟩
    else
      match depth with
      | 0 => do
        let v ← vs.get cur
        return ⟨false, v.map (cum + ·), ra ++ [(cur, none)], acts, vs, changed⟩
      | depth + 1 =>
        match pick p h roll cur (p.actions cur) vs none with
        | (vs, none) => .ok ⟨true, none, ra ++ [(cur, none)], acts, vs.set cur none, true⟩
        | (vs, some (st, a, best)) =>
          let u := update vs cur best changed
          match u.1.get? st with
          | some none => .error .runtimeError
          | some (some v) => doTrial p h depth st (roll ++ [st]) u.1 u.2 (cum + (best - v))
              (ra ++ [(cur, some a)]) (acts ++ [a])
          | none => doTrial p h depth st (roll ++ [st]) u.1 u.2 (cum + (best - h st))
              (ra ++ [(cur, some a)]) (acts ++ [a])

/-- One call of `doTrial` from the start (lines 85-92). -/
def trial [DecidableEq σ] (p : Problem σ α) (h : σ → Rat) (maxDepth : Nat) (s0 : σ) (vs : Values σ) :
    Except PyErr (Trial σ α) :=
  doTrial p h maxDepth s0 [s0] vs false 0 [] []

/-- `cumulated_cost < best_cost` with infinities. -/
def cheaper : Option Rat → Option Rat → Bool
  | none, _ => false
  | some _, none => true
  | some a, some b => decide (a < b)

/-- lrtastar.py lines 67-82: the trials, `iters + 1` at most. -/
def lrtaLoop [DecidableEq σ] (p : Problem σ α) (h : σ → Rat) (maxDepth : Nat) (s0 : σ) :
    Nat → Values σ → Option Rat → Dict σ (Option α) → Except PyErr (Values σ × Dict σ (Option α) × Trial σ α)
  | iters, vs, best, policy => do
    let t ← trial p h maxDepth s0 vs
    let better := !t.deadEnd && cheaper t.cost best
    let policy := if better then t.roll.foldl (fun d q => d.set q.1 q.2) policy else policy
    let best := if better then t.cost else best
    if t.changed = false then return (t.values, policy, t)
    else
      match iters with
      | 0 => return (t.values, policy, t)
      | iters + 1 => lrtaLoop p h maxDepth s0 iters t.values best policy

/-- lrtastar.py lines 56-82, `_solve_domain`; also returns the last trial. -/
def lrta [DecidableEq σ] (p : Problem σ α) (h : σ → Rat) (maxIter maxDepth : Nat) (s0 : σ) :
    Except PyErr (Values σ × Dict σ (Option α) × Trial σ α) :=
  lrtaLoop p h maxDepth s0 maxIter [] none []

end Verif.Search
