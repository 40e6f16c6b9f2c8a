import Verif.Model.Py
import Verif.Model.Results
/-
Model of `skdecide/builders/scheduling/task_duration.py`.

Durations, bounds, tasks and modes are integers; progress is any type with decidable equality.
Probabilities are exact rationals instead of floats.  A random draw is a parameter.
-/
namespace Verif.Durations

/-- `self.sampled_durations`: task, mode, progress. -/
abbrev Memory (π : Type) := Dict Int (Dict Int (Dict π Int))

/-- `SimulatedTaskDuration.sample_task_duration` (task_duration.py lines 13-21); `draw` is what
`_sample_task_duration` would return. -/
def sample [DecidableEq π] (draw : Int) (mem : Memory π) (task mode : Int) (progress : π) :
    Except PyErr (Memory π × Int) := do
  let mem := if mem.contains task then mem else mem.set task []
  let d ← mem.get task
  let d := if d.contains mode then d else d.set mode []
  let e ← d.get mode
  let e := if e.contains progress then e else e.set progress draw
  let v ← e.get progress
  return (mem.set task (d.set mode e), v)

/-- The three nested tests of `get_latest_sampled_duration` (lines 28-31). -/
def recall [DecidableEq π] (mem : Memory π) (task mode : Int) (progress : π) : Option Int :=
  match mem.get? task with
  | none => none
  | some d =>
    match d.get? mode with
    | none => none
    | some e => e.get? progress

/-- `SimulatedTaskDuration.get_latest_sampled_duration` (lines 27-32). -/
def latest [DecidableEq π] (draw : Int) (mem : Memory π) (task mode : Int) (progress : π) :
    Except PyErr (Memory π × Int) :=
  match recall mem task mode progress with
  | some v => .ok (mem, v)
  | none => sample draw mem task mode progress

/-- `UncertainMultivariateTaskDuration.sample_task_duration` (lines 39-42): nothing is stored. -/
def sampleUncertain (draw : Int) (mem : Memory π) : Memory π × Int := (mem, draw)

/-- `get_latest_sampled_duration` of the uncertain classes: inherited, calling their own
`sample_task_duration`. -/
def latestUncertain [DecidableEq π] (draw : Int) (mem : Memory π) (task mode : Int) (progress : π) :
    Memory π × Int :=
  match recall mem task mode progress with
  | some v => (mem, v)
  | none => sampleUncertain draw mem

/-- Python `range(lo, hi)` for integers. -/
def intRange (lo hi : Int) : List Int := (List.range (hi - lo).toNat).map (fun i => lo + Int.ofNat i)

/-- `DiscreteDistribution(values)` (core.py lines 197-216): the empty list raises `IndexError`. -/
def mkDiscrete (values : List (Int × Rat)) : Except PyErr (List (Int × Rat)) :=
  if values = [] then .error .indexError else .ok values

/-- `UniformBoundedTaskDuration._get_task_duration_distribution` (lines 118-127), given the two
bounds. -/
def uniform (lb ub : Int) : Except PyErr (List (Int × Rat)) :=
  let n := ub - lb + 1
  if n = 0 then .error .zeroDivisionError
  else mkDiscrete ((intRange lb (ub + 1)).map (fun x => (x, 1 / (n : Rat))))

/-- `EnumerableTaskDuration._get_task_duration_upper_bound` (lines 151-154): Python `max`. -/
def enumUpper (values : List (Int × Rat)) : Except PyErr Int :=
  Results.pyMaxBy (fun x => x) (values.map Prod.fst)

/-- `EnumerableTaskDuration._get_task_duration_lower_bound` (lines 156-159). -/
def enumLower (values : List (Int × Rat)) : Except PyErr Int :=
  Results.pyMinBy (fun x => x) (values.map Prod.fst)

/-- A deterministic domain: duration of a task in a mode from some progress (line 173). -/
abbrev Fixed := Int → Int → Rat → Int

/-- `DeterministicTaskDuration._get_task_duration_distribution` (lines 177-181): the progress
is not passed on, so its default 0 is used. -/
def fixedDistribution (f : Fixed) (task mode : Int) (_progress : Rat) : List (Int × Rat) := [(f task mode 0, 1)]

/-- `DeterministicTaskDuration.sample_task_duration` (lines 39-42 and 165-167). -/
def fixedSample (f : Fixed) (task mode : Int) (progress : Rat) : Int := f task mode progress

/-- Both bounds of `DeterministicTaskDuration` (lines 183-189): without the progress. -/
def fixedBound (f : Fixed) (task mode : Int) (_progress : Rat) : Int := f task mode 0

end Verif.Durations
