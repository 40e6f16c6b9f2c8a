import Verif.Model.Binding
import Verif.Model.Durations

/-!
Random durations for a project and projects drawn from it: `Stochastic_RCPSP`, `build_stochastic_from_deterministic`
and `build_n_determinist_from_stochastic` in skdecide/hub/domain/rcpsp/rcpsp_sk.py (182-285).

Simplifications: as in `Verif.Model.Binding`; probabilities are exact rationals instead of floats.  The durations that
`initialize_domain` draws to build the graph (precedence.py lines 45-47) are not used by anything modelled here.
-/
namespace Verif.Binding
open Verif.Durations (intRange)

/-- What an object of class `Stochastic_RCPSP` holds (rcpsp_sk.py lines 211-228). -/
structure Stochastic where
  resources : List String
  tasks : List Nat
  modes : Dict Nat (Dict Nat (Dict String Int))
  /-- `duration_distribution`: the values with their probabilities -/
  dist : Dict Nat (Dict Nat (List (Nat × Rat)))
  successors : Dict Nat (List Nat)
  preds : Dict Nat (List Nat)
  horizon : Nat
  avail : Dict String Int
  /-- `resource_renewable`, as given -/
  renewable : Dict String Bool

/-- rcpsp_sk.py lines 239-244: the distribution made for a duration. -/
def noisy (noise : Bool) (d : Nat) : List (Nat × Rat) :=
  if d = 0 ∨ noise = false then [(d, 1)]
  else (intRange (-10) 11).map fun i => ((max 1 ((d : Int) + i)).toNat, 1 / 21)

/-- rcpsp_sk.py lines 237-245 for the modes of one task. -/
def noisyModes (noise : Bool) (ds : Dict Nat Nat) : List Nat → Except PyErr (Dict Nat (List (Nat × Rat)))
  | [] => .ok []
  | m :: rest => do
    let d ← ds.get m
    let r ← noisyModes noise ds rest
    return (m, noisy noise d) :: r

/-- rcpsp_sk.py lines 232-233, 239: whether a task gets noise. -/
def gets (noise : Option (List Nat)) (t : Nat) : Bool := match noise with | none => true | some l => decide (t ∈ l)

/-- rcpsp_sk.py lines 234-245: `duration_distribution`; without `task_to_noise` all tasks get noise. -/
def noisyTasks (P : Project) (noise : Option (List Nat)) : List Nat → Except PyErr (Dict Nat (Dict Nat (List (Nat × Rat))))
  | [] => .ok []
  | t :: rest => do
    let ms ← P.modes.get t
    let ds ← P.durations.get t
    let d ← noisyModes (gets noise t) ds ms.keys
    let r ← noisyTasks P noise rest
    return (t, d) :: r

/-- rcpsp_sk.py lines 231-254, `build_stochastic_from_deterministic`; the graph is made anew from the successors. -/
def buildStochastic (P : Project) (noise : Option (List Nat)) : Except PyErr Stochastic := do
  let dist ← noisyTasks P noise P.tasks
  return { resources := P.resources, tasks := P.tasks, modes := P.modes, dist := dist
           successors := successorsMap P.tasks P.successors, preds := predecessorsMap P.tasks P.successors
           horizon := P.horizon * 2, avail := P.avail, renewable := P.renewable }

/-- `get_resource_renewability` of `Stochastic_RCPSP`: the class derives from `RenewableOnly` (scheduling_domains.py line
1280, resource_renewability.py lines 50-60) and does not look at the argument it was given. -/
def Stochastic.renewability (S : Stochastic) : Dict String Bool := S.resources.map fun r => (r, true)

/-- `sample_task_duration` (task_duration.py lines 39-42, 65-68): `draw t m` is the position drawn. -/
def Stochastic.sample (S : Stochastic) (draw : Nat → Nat → Nat) (t m : Nat) : Except PyErr Nat := do
  let ds ← S.dist.get t
  let l ← ds.get m
  let e ← pyGet l (draw t m)
  return e.1

/-- rcpsp_sk.py lines 261-268 for the modes of one task. -/
def drawModes (S : Stochastic) (draw : Nat → Nat → Nat) (t : Nat) : Dict Nat (Dict String Int) → Except PyErr (Dict Nat Rcpsp.Mode)
  | [] => .ok []
  | (m, needs) :: rest => do
    let d ← S.sample draw t m
    let r ← drawModes S draw t rest
    return (m, ⟨d, needs⟩) :: r

/-- rcpsp_sk.py lines 261-268: `modes_for_rcpsp`. -/
def drawTasks (S : Stochastic) (draw : Nat → Nat → Nat) : Dict Nat (Dict Nat (Dict String Int)) → Except PyErr (Dict Nat (Dict Nat Rcpsp.Mode))
  | [] => .ok []
  | (t, ms) :: rest => do
    let d ← drawModes S draw t ms
    let r ← drawTasks S draw rest
    return (t, d) :: r

/-- rcpsp_sk.py lines 270-272: `resource_availability_dict`. -/
def amounts (avail : Dict String Int) : List String → Except PyErr (Dict String Int)
  | [] => .ok []
  | r :: rest => do
    let c ← avail.get r
    let d ← amounts avail rest
    return (r, c) :: d

/-- rcpsp_sk.py lines 260-284: one project. -/
def drawProject (S : Stochastic) (draw : Nat → Nat → Nat) : Except PyErr Project := do
  let modes ← drawTasks S draw S.modes
  let avail ← amounts S.avail S.resources
  newMrcpsp S.resources S.tasks modes S.successors S.horizon avail S.renewability

/-- rcpsp_sk.py lines 257-285, `build_n_determinist_from_stochastic`; `draw i` are the draws for project `i`. -/
def drawProjects (S : Stochastic) (draw : Nat → Nat → Nat → Nat) : Nat → Nat → Except PyErr (List Project)
  | 0, _ => .ok []
  | n + 1, i => do
    let p ← drawProject S (draw i)
    let r ← drawProjects S draw n (i + 1)
    return p :: r

end Verif.Binding
