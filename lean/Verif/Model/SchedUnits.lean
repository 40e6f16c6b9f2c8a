import Verif.Model.Sched

/-!
The action spaces of scheduling domains with resource units (scheduling_domains.py 943-1102, skills.py 61-75).
-/
namespace Verif.Sched

/-- skills.py 71-72: the resource has every skill of the task to the required level. -/
def alone (dom : Dom) (need : Dict Skill Int) (r : Res) : Except PyErr Bool := do
  let sk ← dom.resSkills.get r
  return need.all fun p => decide ((sk.get? p.1).getD 0 ≥ p.2)

/-- skills.py 70-73. -/
def aloneIn (dom : Dom) (need : Dict Skill Int) : List Res → Except PyErr (List Res)
  | [] => .ok []
  | r :: rs => do
    let b ← alone dom need r
    let l ← aloneIn dom need rs
    return if b then r :: l else l

/-- skills.py 61-75, `find_one_ressource_to_do_one_task`; Python's `None` is `none`. -/
def oneUnit (dom : Dom) (task : TaskId) (mode : ModeId) : Except PyErr (List (Option Res)) := do
  let need ← skillsOfTask dom task (some mode)
  if need = [] then return [none]
  else do
    let l ← aloneIn dom need dom.resSkills.keys
    return l.map some

/-- scheduling_domains.py 975-976, 998-999: one more unit of the resource is available. -/
def freeUnit (st : State) (r : Res) : Except PyErr Bool := do
  let u ← st.used.get r
  let a ← st.avail.get r
  return decide (u + 1 ≤ a)

/-- scheduling_domains.py 968-976 and 992-999: both lists make START actions. -/
def unitActions (st : State) (task : TaskId) (mode : ModeId) : List (Option Res) → Except PyErr (List Action)
  | [] => .ok []
  | none :: rs => do
    let l ← unitActions st task mode rs
    return ⟨some task, .start, some mode, false, none⟩ :: l
  | some r :: rs => do
    let b ← freeUnit st r
    let l ← unitActions st task mode rs
    return if b then ⟨some task, .start, some mode, false, some [r]⟩ :: l else l

/-- scheduling_domains.py 964-976: the actions of the tasks that can be started. -/
def unitStarts (dom : Dom) (st : State) : Dict TaskId ModeId → Except PyErr (List Action)
  | [] => .ok []
  | (t, m) :: rest => do
    let us ← oneUnit dom t m
    let l ← unitActions st t m us
    let l' ← unitStarts dom st rest
    return l ++ l'

/-- scheduling_domains.py 985-999: the actions for the tasks that are paused. -/
def unitResumes (dom : Dom) (st : State) : List TaskId → Except PyErr (List Action)
  | [] => .ok []
  | t :: rest => do
    let m ← st.mode.get t
    let us ← oneUnit dom t m
    let l ← unitActions st t m us
    let l' ← unitResumes dom st rest
    return l ++ l'

/-- scheduling_domains.py 949-1004, `SchedulingActionSpaceWithResourceUnit._get_elements`. -/
def unitSpace (dom : Dom) (st : State) : Except PyErr (List Action) := do
  let over ← overconsuming st st.used
  let starts ← if over then pure [] else do
    let d ← possibleStarting dom st
    unitStarts dom st d
  let pauses ← pauseActions dom st.ongoing
  let resumes ← if over then pure [] else unitResumes dom st st.paused
  return starts ++ pauses ++ resumes ++ [timeAction]

/-! ### Sampled actions -/

/-- scheduling_domains.py 678-683: paused tasks whose direct predecessors are complete, with each of their modes. -/
def resumePairs (dom : Dom) (st : State) : List TaskId → Except PyErr (List (TaskId × ModeId))
  | [] => .ok []
  | n :: rest => do
    let ms ← dom.modes.get n
    let l ← resumePairs dom st rest
    if ((dom.preds n).all fun m => decide (m ∈ st.complete)) = true then
      return ms.keys.map (fun m => (n, m)) ++ l
    else return l

/-- scheduling_domains.py 678-695, `get_possible_resume_tasks`: the last mode of each task. -/
def possibleResume (dom : Dom) (st : State) : Except PyErr (Dict TaskId ModeId) := do
  let ps ← resumePairs dom st st.paused
  let ps ← enoughPairs dom st ps
  return ps.foldl (fun d p => Dict.set d p.1 p.2) []

/-- scheduling_domains.py 1047-1060: take free resources with some of the skills, in the shuffled order, until the skills suffice;
`none` when they never do. -/
def gather (dom : Dom) (st : State) (need : Dict Skill Int) : List Res → List Res → Dict Skill Int → Except PyErr (Option (List Res))
  | [], _, _ => .ok none
  | r :: rs, got, cur => do
    let b ← freeUnit st r
    if b then
      let sk ← dom.resSkills.get r
      if (need.any fun p => decide ((sk.get? p.1).getD 0 > 0)) = true then
        let cur := cur.map fun p => (p.1, p.2 + (sk.get? p.1).getD 0)
        if (need.all fun p => decide ((Dict.get? cur p.1).getD 0 ≥ p.2)) = true then return some (got ++ [r])
        else gather dom st need rs (got ++ [r]) cur
      else gather dom st need rs got cur
    else gather dom st need rs got cur

/-- `random.choice(l)`, where `k` is the draw. -/
def choice (l : List α) (k : Nat) : Except PyErr α := pyGet l (k % l.length)

/-- scheduling_domains.py 1027-1075: a START or a RESUME; `ord` is the order of the shuffled resources. -/
def sampleStart (dom : Dom) (st : State) (kind : Kind) (d : Dict TaskId ModeId) (i : Nat) (ord : List Res) : Except PyErr Action :=
  if d = [] then .ok timeAction
  else do
    let (t, m) ← choice d i
    let need ← skillsOfTask dom t (some m)
    if need = [] then return ⟨some t, kind, some m, false, none⟩
    else do
      match ← gather dom st need ord [] (need.map fun p => (p.1, 0)) with
      | some got => return ⟨some t, kind, some m, false, some got⟩
      | none => return timeAction

/-- scheduling_domains.py 1080-1093: a PAUSE. -/
def samplePause (dom : Dom) (st : State) (i : Nat) : Except PyErr Action := do
  let l ← pauseActions dom st.ongoing
  if l = [] then return timeAction else choice l i

/-- scheduling_domains.py 1018-1099, `SchedulingActionSpaceWithResourceUnitSamplable.sample`: `kind` is the random choice of the kind
of action, only PAUSE when more is in use than available. -/
def sample (dom : Dom) (st : State) (kind : Kind) (i : Nat) (ord : List Res) : Except PyErr Action := do
  let over ← overconsuming st st.used
  if over then samplePause dom st i
  else match kind with
    | .start => do
      let d ← possibleStarting dom st
      sampleStart dom st .start d i ord
    | .resume => do
      let d ← possibleResume dom st
      sampleStart dom st .resume d i ord
    | .pause => samplePause dom st i
    | .timePr => .ok timeAction

end Verif.Sched
