import Verif.Lemmas.SchedList
import Verif.Props.Replay

/-!
C104: the policies that follow a list of tasks always finish, whatever durations are drawn.
-/
namespace Verif.Sched

/-- In a domain with renewable resources and without preemption, skills and conditional tasks,
rolling out any of the five methods that follow a list ("precedence ready", "ready", "strict", "time
freedom", "index freedom") with a permutation of the tasks, in whatever order, ends with all tasks
complete, without error, after at most `(D + 1)` steps per task and by time `D` per task, whatever
durations up to `D` and whatever capacities are drawn, as long as every task alone fits the capacities
in the mode chosen for it.  (Partial: a task that draws duration zero must need nothing.) -/
theorem C104_list_methods_finish_partial (dom : Dom) (D : Nat) (hw : WellFormed dom) (hs : Simple dom)
    (hnd : dom.tasks.Nodup) (hpl : unconditional dom = dom.tasks) (hne : dom.tasks ≠ [])
    (hclosed : ∀ x ∈ dom.tasks, ∀ q ∈ dom.preds x, q ∈ dom.tasks) (pol : Policy) (meth : Method)
    (hm : meth ∈ [Method.precedence, .ready, .strict, .timeFreedom, .indexFreedom])
    (ord : List TaskId → List TaskId) (hord : ∀ l, (ord l).Perm l) (dT dI : Int) (hT : 0 ≤ dT) (hI : 0 ≤ dI)
    (halloc : pol.alloc = none) (hperm : ∀ x, x ∈ pol.perm ↔ x ∈ dom.tasks)
    (hsched : ∀ sched, pol.schedule = some sched → ∀ x ∈ dom.tasks, (sched.get? x).isSome = true)
    (draw : State → Action → Draw) (hdr : ∀ st a, FitDraw dom pol D a (draw st a))
    (d0 : Draw) (hd0 : Fits dom pol d0.avail) (hH : (D * dom.tasks.length : Nat) ≤ dom.horizon)
    (n : Nat) (hn : (D + 1) * dom.tasks.length ≤ n) :
    ∃ st, pol.follow meth ord dT dI dom draw n (initState dom d0) = .ok st ∧ isGoal st = true ∧
      st.t ≤ (D * dom.tasks.length : Nat) ∧ ∀ x ∈ dom.tasks, x ∈ st.complete := by
  have hm' : meth ≠ .gantt ∧ meth ≠ .pile := by
    constructor <;> (rintro rfl; simp at hm)
  have hi := initState_acc dom d0 hnd
  have hrem : (initState dom d0).remaining = dom.tasks := hpl
  have hL : Live dom D (initState dom d0) := by
    refine ⟨initState_safe d0 hnd, hi.1, hi.2.1, ?_, rfl, rfl, ?_, ?_, d0.avail, hd0.roomy, ?_⟩
    · have hn : ∀ (l : List Res) (m : Dict Res Int), m.keys.Nodup →
          (Dict.keys (l.foldl (fun m r => Dict.set m r (d0.avail r)) m)).Nodup := by
        intro l
        induction l with
        | nil => exact fun m h => h
        | cons r l ih => exact fun m h => ih _ (Dict.nodup_keys_set _ _ h)
      have := hn (dom.resTypes ++ dom.resUnits) [] (by simp [Dict.keys])
      show (List.map _ (List.map _ _)).Nodup
      rw [List.map_map]
      exact this
    · intro x hx; cases hx
    · intro x
      simp [allOf, initState]
    · intro r hr
      rw [(initState_get dom d0 r).1, if_pos hr]
  have hg : isGoal (initState dom d0) = false := by
    unfold isGoal
    rw [hrem]
    cases hd : dom.tasks with
    | nil => exact absurd hd hne
    | cons y l => rfl
  have ht0 : (initState dom d0).t = 0 := rfl
  obtain ⟨st, e1, e2, e3, e4⟩ := follow_list hw hs hpl hclosed hord hm' hT hI halloc hperm
    (fun sched h x hx => hsched sched h x ((hperm x).1 hx)) hdr n (initState dom d0) 0 hL
    ⟨d0.avail, hd0, fun r hr => by rw [(initState_get dom d0 r).1, if_pos hr]⟩ hg (fun x hx => by cases hx)
    (by rw [hrem, ht0]; omega) (by rw [hrem]; omega)
  rw [hrem, ht0] at e4
  refine ⟨st, e1, e3, by omega, fun y hy => ?_⟩
  simp only [isGoal, Bool.and_eq_true, List.isEmpty_iff] at e3
  have hmem := (e2.all y).2 (by rw [hpl]; exact hy)
  simpa [allOf, e3.1.1, e3.1.2, e3.2] using hmem

/-- The hypotheses hold for the domain of four tasks and two units above: durations drawn are
longer than planned. -/
def lateDraw (_ : State) (a : Action) : Draw := ⟨match a.task with | some x => x + 1 | none => 1, fun _ => 2⟩

theorem anDom_wellFormed : WellFormed anDom := by
  refine ⟨by decide, ?_, by decide, by decide, by decide, nofun, fun h => absurd rfl h⟩
  intro x ms m md h1 h2
  have h1 := Dict.mem_of_get? h1
  have h2 := Dict.mem_of_get? h2
  simp only [anDom, exMode, List.mem_cons, Prod.mk.injEq, List.not_mem_nil, or_false] at h1
  rcases h1 with ⟨_, rfl⟩ | ⟨_, rfl⟩ | ⟨_, rfl⟩ | ⟨_, rfl⟩ <;>
  · simp only [List.mem_cons, Prod.mk.injEq, List.not_mem_nil, or_false] at h2
    exact ⟨_, h2.2⟩

theorem anDom_simple : Simple anDom := by
  refine ⟨?_, rfl, by decide, id, by decide⟩
  intro x h
  have := Dict.mem_of_get? h
  simp [anDom] at this

theorem anPol_fits : Fits anDom anPol fun _ => 2 := by
  refine ⟨by simp, ?_⟩
  intro x hx
  have hx : x = 1 ∨ x = 2 ∨ x = 3 ∨ x = 4 := by simpa [anDom] using hx
  rcases hx with rfl | rfl | rfl | rfl <;>
    refine ⟨1, _, _, rfl, rfl, rfl, ?_⟩ <;> decide

example : WellFormed anDom ∧ Simple anDom ∧ unconditional anDom = anDom.tasks ∧ Fits anDom anPol (fun _ => 2) ∧
    (∀ x, x ∈ anPol.perm ↔ x ∈ anDom.tasks) ∧ (∀ x ∈ anDom.tasks, ∀ q ∈ anDom.preds x, q ∈ anDom.tasks) ∧
    (5 * anDom.tasks.length : Nat) ≤ anDom.horizon := 
  ⟨anDom_wellFormed, anDom_simple, by decide, anPol_fits, fun _ => Iff.rfl, by decide, by decide⟩

/-- Each method on late durations (task `x` lasts `x + 1`), as the theorem says. -/
example : ∀ meth ∈ [Method.ready, .precedence, .strict, .timeFreedom, .indexFreedom],
    outcome (anPol.follow meth id 0 0 anDom lateDraw 24 (initState anDom ⟨0, fun _ => 2⟩)) =
      some ⟨12, [], [(1, some 0, some 2), (2, some 5, some 8), (3, some 8, some 12), (4, some 0, some 5)]⟩ := by
  decide +kernel

/-! ### What does not hold -/

/-- The Gantt policy does not finish when a task takes longer than planned: with task 1 lasting two
units instead of one, tasks 2, 3 and so 4 miss the moment at which they should start, and time passes
beyond the horizon; the other methods finish. -/
theorem C104_gantt_refuted :
    outcome (anPol.follow .gantt id 0 0 anDom lateDraw 40 (initState anDom ⟨0, fun _ => 2⟩)) =
      some ⟨21, [2, 3], [(1, some 0, some 2), (2, none, none), (3, none, none), (4, some 2, some 7)]⟩ := by
  decide +kernel

/-- With a negative freedom "time freedom" (given start times) and "index freedom" never start
anything. -/
theorem C104_negative_freedom_refuted :
    outcome (anPol.follow .timeFreedom id (-1) 0 anDom lateDraw 40 (initState anDom ⟨0, fun _ => 2⟩)) =
      some ⟨21, [1, 2, 3, 4], [(1, none, none), (2, none, none), (3, none, none), (4, none, none)]⟩ ∧
    outcome (anPol.follow .indexFreedom id 0 (-1) anDom lateDraw 40 (initState anDom ⟨0, fun _ => 2⟩)) =
      some ⟨21, [1, 2, 3, 4], [(1, none, none), (2, none, none), (3, none, none), (4, none, none)]⟩ := by
  decide +kernel

/-- A task left out of the permutation is never started, and one without a chosen mode makes the
policy raise as soon as it is tried. -/
theorem C104_incomplete_refuted :
    outcome ({ anPol with perm := [1, 2, 3] }.follow .ready id 0 0 anDom lateDraw 40 (initState anDom ⟨0, fun _ => 2⟩)) =
      some ⟨21, [4], [(1, some 0, some 2), (2, some 2, some 5), (3, some 5, some 9), (4, none, none)]⟩ ∧
    ({ anPol with modes := [(1, 1), (2, 1), (3, 1)] } : Policy).next .ready id 0 0 anDom
      { initState anDom ⟨0, fun _ => 2⟩ with remaining := [2, 3, 4] } = .error .keyError := by
  decide +kernel

end Verif.Sched
