import Verif.Model.Rcpsp
import Verif.Model.Objectives
import Verif.Model.Milp
/-
Model of robust and uncertain projects: `skdecide/builders/discrete_optimization/rcpsp/rcpsp_model.py` 874-1078
(`Aggreg_RCPSPModel.get_unique_rcpsp_model`, `create_poisson_laws…`, `UncertainRCPSPModel`), with the aggregations of
`generic_tools/do_problem.py` 155-170, and `generic_tools/robustness/robustness_tool.py` 20-72.

Simplifications: numbers are exact; durations that come out negative are written 0; `copy` (661-667) copies modes and
successors, so the projects given are never changed; the laws of `scipy.stats` are written as lists of values with
weights: `randint` gives equal weights, `poisson(mean)` the weights `mean^k / k!` (the factor `exp(-mean)` cancels when
the probabilities are divided by their sum); activities and modes that have laws but no detail are looked up like the
others.
-/
namespace Verif.Robust
open Rcpsp Milp

/-! ### Aggregations -/

/-- The methods of `BaseMethodAggregating` (127-133). -/
inductive Agg where
  | mean
  | median
  | percentile (q : Rat)
  | ponderation (ws : List Rat)
  | min
  | max

def sortR (l : List Rat) : List Rat := l.mergeSort (fun a b => decide (a ≤ b))

/-- `np.percentile` with linear interpolation: position `(n - 1) q / 100` of the sorted values. -/
def percentileOf (q : Rat) (l : List Rat) : Except PyErr Rat :=
  if q < 0 ∨ 100 < q then .error .valueError
  else
    let x := ((l.length : Rat) - 1) * q / 100
    let i := x.floor.toNat
    match (sortR l)[i]?, (sortR l)[i + 1]? with
    | some a, some b => .ok (a + (x - i) * (b - a))
    | some a, none => .ok a
    | none, _ => .error .indexError

/-- `np.median`: the mean of the middle values. -/
def medianOf (l : List Rat) : Except PyErr Rat :=
  match (sortR l)[(l.length - 1) / 2]?, (sortR l)[l.length / 2]? with
  | some a, some b => .ok ((a + b) / 2)
  | _, _ => .error .indexError

/-- `aggregate_vector` (155-170) on an array that is not empty. -/
def Agg.apply : Agg → List Rat → Except PyErr Rat
  | .mean, l => Objectives.Method.apply .mean l
  | .median, l => medianOf l
  | .percentile q, l => percentileOf q l
  | .ponderation ws, l => Objectives.Method.apply (.ponderation ws) l
  | .min, l => Objectives.Method.apply .min l
  | .max, l => Objectives.Method.apply .max l

/-- `int(x)`: towards 0. -/
def trunc (x : Rat) : Int := if 0 ≤ x then x.floor else -((-x).floor)

/-- A loop over the entries of a dictionary that replaces each value. -/
def mapD {κ α β : Type} (f : κ → α → Except PyErr β) (d : Dict κ α) : Except PyErr (Dict κ β) :=
  mapE (fun p => do
    let x ← f p.1 p.2
    .ok (p.1, x)) d

/-! ### One project for all (893-903) -/

/-- `[self.list_problem[i].mode_details[job][mode][res] for i in …]` (899-900), with `f` for the last index. -/
def column (job mode : Nat) (f : Mode → Except PyErr Int) (pbs : List Problem) : Except PyErr (List Int) :=
  mapE (fun pb => do
    let ms ← pb.modes.get job
    let m ← ms.get mode
    f m) pbs

/-- Lines 899-902 for one entry. -/
def entry (agg : Agg) (pbs : List Problem) (job mode : Nat) (f : Mode → Except PyErr Int) : Except PyErr Int := do
  let xs ← column job mode f pbs
  let x ← agg.apply (xs.map (fun z : Int => (z : Rat)))
  .ok (trunc x)

/-- Lines 898-902 for one mode. -/
def uniqueMode (agg : Agg) (pbs : List Problem) (job mode : Nat) (m : Mode) : Except PyErr Mode := do
  let d ← entry agg pbs job mode (fun m => .ok (m.duration : Int))
  let needs ← mapD (fun r _ => entry agg pbs job mode (fun m => m.needs.get r)) m.needs
  .ok ⟨d.toNat, needs⟩

/-- `get_unique_rcpsp_model` (893-903). -/
def unique (agg : Agg) (pbs : List Problem) : Except PyErr Problem := do
  let first ← pyGet pbs 0
  let modes ← mapD (fun j ms => mapD (fun k m => uniqueMode agg pbs j k m) ms) first.modes
  .ok { first with modes := modes }

/-! ### Laws (952-1018) -/

/-- (min, mean, max). -/
structure Law where
  lo : Int
  mid : Int
  hi : Int
  deriving DecidableEq

abbrev Laws := Dict Nat (Dict Nat (Dict String Law))

/-- `create_poisson_laws_duration` (952-967). -/
def durationLaws (pb : Problem) (range : Int) : Laws :=
  pb.modes.map (fun j => (j.1, j.2.map (fun k => (k.1,
    let d : Int := k.2.duration
    if j.1 = 1 ∨ j.1 = pb.sink then [("duration", ⟨d, d, d⟩)]
    else [("duration", ⟨max 1 (d - range), d, d + range⟩)]))))

/-- Lines 980-994 for one mode. -/
def resourceLaw (pb : Problem) (range : Int) (fixed : Bool) : Dict String Int → Except PyErr (Dict String Law)
  | [] => .ok []
  | (r, c) :: rest =>
    if pb.nonRenewable.contains r then resourceLaw pb range fixed rest
    else do
      let law ← (if fixed then .ok ⟨c, c, c⟩
        else do
          let cap ← pb.resources.get r
          match cap with
          | .const l => .ok ⟨max 0 (c - range), c, min (c + range) l⟩
          | .calendar _ => .error .typeError : Except PyErr Law)
      let others ← resourceLaw pb range fixed rest
      .ok ((r, law) :: others)

/-- `create_poisson_laws_resource` (970-995). -/
def resourceLaws (pb : Problem) (range : Int) : Except PyErr Laws :=
  mapD (fun j ms => mapD (fun _ m => resourceLaw pb range (decide (j = 1 ∨ j = pb.sink)) m.needs) ms) pb.modes

/-- `poisson_laws[job][mode][res] = law` in a `tree()`. -/
def plant (t : Laws) (job mode : Nat) (res : String) (law : Law) : Laws :=
  let ms := (t.get? job).getD []
  let l := (ms.get? mode).getD []
  t.set job (ms.set mode (l.set res law))

/-- The loops of lines 1007-1010 and 1014-1017. -/
def plantAll (t : Laws) (laws : Laws) : Laws :=
  laws.foldl (fun t j => j.2.foldl (fun t k => k.2.foldl (fun t p => plant t j.1 k.1 p.1 p.2) t) t) t

/-- `create_poisson_laws` (998-1018). -/
def makeLaws (pb : Problem) (rangeRes rangeDur : Int) (doRes doDur : Bool) : Except PyErr Laws := do
  let t := if doDur then plantAll [] (durationLaws pb rangeDur) else []
  if doRes then
    let l ← resourceLaws pb rangeRes
    .ok (plantAll t l)
  else .ok t

/-! ### Uncertain projects (1021-1078) -/

abbrev Dist := List (Int × Rat)

/-- `np.arange(min_, max_+1, 1)` (1041). -/
def values (l : Law) : List Int := (List.range (l.hi - l.lo + 1).toNat).map (fun (i : Nat) => l.lo + (i : Int))

/-- `n!`. -/
def fact : Nat → Nat
  | 0 => 1
  | n + 1 => (n + 1) * fact n

/-- `rv.pmf` up to a factor (1037-1040, 1045). -/
def weight (uniform : Bool) (l : Law) (v : Int) : Rat :=
  if uniform then 1
  else if v < 0 then 0
  else (l.mid : Rat) ^ v.toNat / (fact v.toNat : Rat)

/-- Lines 1036-1053 for one law: probabilities that do not add up to 1 are refused by `rv_discrete`; negative lengths by
`np.zeros`; negative means give `nan`. -/
def dist (uniform : Bool) (l : Law) : Except PyErr Dist :=
  let vs := values l
  let w := (vs.map (weight uniform l)).sum
  if w = 0 ∨ (!uniform && decide (l.mid < 0)) then .error .valueError
  else .ok (vs.map (fun v => (v, weight uniform l v / w)))

/-- The mean of a distribution. -/
def mean (d : Dist) : Rat := (d.map (fun p => (p.1 : Rat) * p.2)).sum

/-- `rv_discrete.ppf` for 0 < p < 1: the first value at which the cumulated probabilities reach `p`. -/
def ppf (p : Rat) : Rat → Dist → Option Int
  | _, [] => none
  | acc, (v, q) :: rest => if p ≤ acc + q then some v else ppf p (acc + q) rest

/-- `isf(q=1-percentile/100)`: one below the support for 0, its end for 100. -/
def isf (percentile : Rat) (d : Dist) : Except PyErr Int :=
  if percentile < 0 ∨ 100 < percentile then .error .valueError
  else
    match d, d.getLast? with
    | first :: _, some last =>
      if percentile = 0 then .ok (first.1 - 1)
      else if percentile = 100 then .ok last.1
      else .ok ((ppf (percentile / 100) 0 d).getD first.1)
    | _, _ => .error .indexError

/-- `MethodBaseRobustification` (933-938); `sample` carries the uniform draws of `rvs`. -/
inductive Method where
  | average
  | worst
  | best
  | percentile (p : Rat)
  | sample (u : Nat → Nat → String → Rat)

/-- Lines 1062-1077 for one entry. -/
def pick (m : Method) (act mode : Nat) (key : String) (d : Dist) : Except PyErr Int :=
  match m with
  | .average => .ok (trunc (mean d))
  | .worst => match d.getLast? with
    | some p => .ok p.1
    | none => .error .indexError
  | .best => match d.head? with
    | some p => .ok p.1
    | none => .error .indexError
  | .percentile p => do
    let x ← isf p d
    .ok (max x 1)
  | .sample u => match ppf (u act mode key) 0 d with
    | some v => .ok v
    | none => .error .indexError

/-- `model.mode_details[activity][mode][detail] = x` on the mode. -/
def setDetail (m : Mode) (key : String) (x : Int) : Mode :=
  if key = "duration" then { m with duration := x.toNat } else { m with needs := m.needs.set key x }

/-- The loop over the details (1061-1077). -/
def applyDetails (mt : Method) (uniform : Bool) (act mode : Nat) : Dict String Law → Mode → Except PyErr Mode
  | [], m => .ok m
  | (key, l) :: rest, m => do
    let d ← dist uniform l
    let x ← pick mt act mode key d
    applyDetails mt uniform act mode rest (setDetail m key x)

/-- The loop over the modes (1060-1077). -/
def applyModes (mt : Method) (uniform : Bool) (act : Nat) : Dict Nat (Dict String Law) → Dict Nat Mode → Except PyErr (Dict Nat Mode)
  | [], ms => .ok ms
  | (k, l) :: rest, ms => do
    let m ← ms.get k
    let m' ← applyDetails mt uniform act k l m
    applyModes mt uniform act rest (ms.set k m')

/-- The loop over the activities (1057-1077). -/
def applyLaws (mt : Method) (uniform : Bool) (sink : Nat) : Laws → Dict Nat (Dict Nat Mode) → Except PyErr (Dict Nat (Dict Nat Mode))
  | [], modes => .ok modes
  | (act, l) :: rest, modes =>
    if act = sink ∨ act = 1 then applyLaws mt uniform sink rest modes
    else do
      let ms ← modes.get act
      let ms' ← applyModes mt uniform act l ms
      applyLaws mt uniform sink rest (modes.set act ms')

/-- `UncertainRCPSPModel(base, laws, uniform_law).create_rcpsp_model(method)` (1021-1078): all distributions are made
first. -/
def create (pb : Problem) (laws : Laws) (uniform : Bool) (mt : Method) : Except PyErr Problem := do
  let _ ← mapE (fun j => mapE (fun k => mapE (fun p => dist uniform p.2) k.2) j.2) laws
  let modes ← applyLaws mt uniform pb.sink laws pb.modes
  .ok { pb with modes := modes }

/-! ### Training and test instances (robustness_tool.py 22-44) -/

/-- The split after shuffling; `none` for the test instances when only training instances are given. -/
def split {α : Type} (shuffled : List α) (train test : Option (List α)) (proportion : Rat) :
    Except PyErr (List α × Option (List α)) := do
  let (tr, te) := match train with
    | some t => (t, test)
    | none =>
      let n := trunc (proportion * shuffled.length)
      -- slices with a negative bound count from the end
      let k := if n < 0 then ((shuffled.length : Int) + n).toNat else n.toNat
      (shuffled.take k, some (shuffled.drop k))
  let _ ← pyGet tr 0
  .ok (tr, te)

end Verif.Robust
