import Verif.Model.Policies

/-!
Rolling out a schedule-following policy on the scheduling domain: the termination test of
skdecide/builders/scheduling (scheduling_domains.py, resource_renewability.py) and the loop of
skdecide/utils.py.
-/
namespace Verif.Sched

/-- modes.py lines 61-67, `get_resource_need`: only `ConstantModeConsumption` has it, so a
`VaryingModeConsumption` raises `AttributeError`. -/
def Mode.constantNeed (m : Mode) (r : Res) : Except PyErr Int :=
  match m with
  | .constant d => .ok ((d.get? r).getD 0)
  | .varying _ => .error .attributeError

/-- resource_renewability.py lines 35-42: the loop over the resources for one mode, stopping at the
first non-renewable resource of which too little is left. -/
def modePossible (dom : Dom) (st : State) (md : Mode) : List Res → Except PyErr Bool
  | [] => .ok true
  | r :: rs => do
    let b ← dom.renewable.get r
    if b then modePossible dom st md rs
    else do
      let need ← md.constantNeed r
      let a ← st.avail.get r
      let u ← st.used.get r
      if a - u - need < 0 then return false else modePossible dom st md rs

/-- resource_renewability.py lines 33-46: the loop over the modes; `last` is the value of the
variable `mode_possible` before the loop (it survives from the task before; `none` when unset, in
which case reading it raises). -/
def someMode (dom : Dom) (st : State) (ms : Dict ModeId Mode) : Option Bool → List ModeId → Except PyErr Bool
  | some b, [] => .ok b
  | none, [] => .error .nameError
  | _, m :: rest => do
    let md ← ms.get m
    let b ← modePossible dom st md dom.resTypes
    if b then return true else someMode dom st ms (some false) rest

/-- resource_renewability.py lines 32-46: the loop over the remaining tasks. -/
def tasksPossible (dom : Dom) (st : State) : Option Bool → List TaskId → Except PyErr Bool
  | _, [] => .ok true
  | last, x :: rest => do
    let ms ← dom.modes.get x
    let b ← someMode dom st ms last ms.keys
    if b then tasksPossible dom st (some b) rest else return false

/-- resource_renewability.py lines 26-47, `all_tasks_possible`. -/
def allTasksPossible (dom : Dom) (st : State) : Except PyErr Bool := tasksPossible dom st none st.remaining

/-- scheduling_domains.py lines 801-806, `_is_terminal`. -/
def isTerminal (dom : Dom) (st : State) : Except PyErr Bool := do
  let b ← allTasksPossible dom st
  return decide (dom.horizon < st.t) || !b || isGoal st

/-- utils.py lines 174-204, the loop of `rollout` for `max_steps` steps: ask the policy, apply its
action, stop when the outcome is a termination (scheduling_domains.py line 106: a goal or a
terminal state).  `draw` gives the values drawn in each step.  Returns the last state. -/
def Policy.follow (p : Policy) (meth : Method) (ord : List TaskId → List TaskId) (dTime dIndex : Int)
    (dom : Dom) (draw : State → Action → Draw) : Nat → State → Except PyErr State
  | 0, st => .ok st
  | n + 1, st => do
    let a ← p.next meth ord dTime dIndex dom st
    let st' ← nextState dom (draw st a) st a
    let b ← isTerminal dom st'
    if b then return st' else p.follow meth ord dTime dIndex dom draw n st'

end Verif.Sched
