import Verif.Lemmas.GphhPlay
import Verif.Lemmas.PilePolicy
import Verif.Props.Gphh
import Verif.Props.PilePolicy

/-!
C154: playing an evolved heuristic follows its priorities and finishes.
-/
namespace Verif.Gphh

open Verif.Sched

theorem available_all {dom : Dom} (hpl : unconditional dom = dom.tasks) (c : List Cond) : availableTasks dom c = dom.tasks := by
  unfold unconditional at hpl
  rw [List.filter_eq_self] at hpl
  unfold availableTasks
  rw [List.filter_eq_self]
  intro x hx
  have := hpl x hx
  cases he : dom.existence.get? x with
  | none => rfl
  | some cs => rw [he] at this; simp only at this ⊢; rw [List.isEmpty_iff.1 this]; rfl

/-- The modes of the policy: 1 for each of the numbers 1 to `n`. -/
def ones (n : Nat) : Dict TaskId ModeId := (List.range n).map fun i => (i + 1, 1)

theorem ones_get {n x : Nat} (h1 : 1 ≤ x) (h2 : x ≤ n) : (ones n).get? x = some 1 := by
  have hk : (ones n).keys.Nodup := by
    unfold ones Dict.keys
    rw [List.map_map]
    exact (List.nodup_range (n := n)).map fun a b h => by simpa using h
  exact Dict.get?_of_mem hk (List.mem_map.2 ⟨x - 1, List.mem_range.2 (by omega), by rw [show x - 1 + 1 = x by omega]⟩)

theorem ones_one {n x m : Nat} (h : (ones n).get? x = some m) : m = 1 ∧ 1 ≤ x ∧ x ≤ n := by
  have := Dict.mem_of_get? h
  obtain ⟨i, hi, e⟩ := List.mem_map.1 this
  have hi := List.mem_range.1 hi
  obtain ⟨e1, e2⟩ := Prod.mk.inj e
  subst e1 e2
  exact ⟨rfl, Nat.le_add_left 1 i, hi⟩

theorem policyOf_perm (dom : Dom) (value : State → TaskId → Rat) (avail : List TaskId → List TaskId) (sched : State → Dict TaskId Int)
    (st : State) : (policyOf dom value avail sched st).perm.Perm (List.range' 1 (avail (availableTasks dom st.conds)).length) := by
  have := rank_perm ((avail (availableTasks dom st.conds)).map (value st))
  rwa [List.length_map] at this

theorem policyOf_modes (dom : Dom) (value : State → TaskId → Rat) (avail : List TaskId → List TaskId) (sched : State → Dict TaskId Int)
    (st : State) : (policyOf dom value avail sched st).modes = ones (avail (availableTasks dom st.conds)).length := by
  have := (policyOf_perm dom value avail sched st).length_eq
  rw [List.length_range'] at this
  show ones (policyOf dom value avail sched st).perm.length = _
  rw [this]

/-- Whatever the heuristic and the method, the answer lets time pass or starts, in mode 1, a ready task that the domain accepts; with
"follow the Gantt chart" it is a task that the schedule starts now. -/
theorem C154_answer (dom : Dom) (value : State → TaskId → Rat) (avail : List TaskId → List TaskId) (sched : State → Dict TaskId Int)
    (meth : Method) (ord : List TaskId → List TaskId) (hord : ∀ l, (ord l).Perm l) (dT dI : Int) (st : State) (a : Action)
    (h : (policyOf dom value avail sched st).next meth ord dT dI dom st = .ok a) :
    a = timeAction ∨ ∃ x, Ready dom st x ∧ a = startIn x 1 ∧ Accepted dom st a ∧ (meth = .gantt → (x, st.t) ∈ sched st) := by
  rcases C16_returns_accepted_or_time _ meth ord hord dT dI dom st a h with h | ⟨x, h1, h2, h3, _, h5⟩
  · exact Or.inl h
  · right
    refine ⟨x, h1, ?_, h3, fun hm => ?_⟩
    · obtain ⟨t, k, md, tp, un⟩ := a
      obtain ⟨e1, e2, e3, ⟨m, e4, e5⟩, _, e6⟩ := h2
      rw [policyOf_modes] at e4
      have := (ones_one e4).1
      replace e6 := e6 (.inl rfl)
      subst this
      simp only at e1 e2 e3 e5 e6
      subst e1 e2 e3 e5 e6
      rfl
    · obtain ⟨s, e1, e2⟩ := h5 hm
      cases e1
      exact e2

/-- With the method "ready" and tasks numbered from 1 (which Python's set lists in this order), the heuristic is a priority: among the
ready tasks whose start in mode 1 the domain accepts, the one of least value starts, the lower number among equal values; time passes
only if there is none.  (Partial: the available tasks must be exactly the numbers 1 to `n`.) -/
theorem C154_priority_partial (dom : Dom) (value : State → TaskId → Rat) (avail : List TaskId → List TaskId)
    (sched : State → Dict TaskId Int) (ord : List TaskId → List TaskId) (dT dI : Int) (st : State) (a : Action) (n : Nat)
    (hav : avail (availableTasks dom st.conds) = List.range' 1 n) (hrem : ∀ x ∈ st.remaining, 1 ≤ x ∧ x ≤ n)
    (h : (policyOf dom value avail sched st).next .ready ord dT dI dom st = .ok a) :
    (a = timeAction ∧ ∀ y, Ready dom st y → Rejected dom st (startIn y 1)) ∨
    ∃ x, Ready dom st x ∧ a = startIn x 1 ∧ Accepted dom st a ∧
      ∀ y, Ready dom st y → Accepted dom st (startIn y 1) → y ≠ x → value st x < value st y ∨ (value st x = value st y ∧ x < y) := by
  set pol := policyOf dom value avail sched st with hpol
  have hmodes : pol.modes = ones n := by rw [hpol, policyOf_modes, hav, List.length_range']
  have hperm : pol.perm = rank ((List.range' 1 n).map (value st)) := by rw [hpol]; unfold policyOf; simp only [hav]
  have hmem : ∀ y, Ready dom st y → y ∈ readyList pol dom st := by
    intro y hy
    refine List.mem_filter.2 ⟨?_, by simpa using hy⟩
    rw [hperm, (rank_perm _).mem_iff, List.length_map, List.length_range', List.mem_range'_1]
    have := hrem y hy.1
    exact ⟨this.1, Nat.lt_of_le_of_lt this.2 (by rw [Nat.add_comm]; exact Nat.lt_succ_self n)⟩
  have hstart : ∀ y b, IsStartOf pol y b → b = startIn y 1 := by
    rintro y ⟨t, k, md, tp, un⟩ ⟨e1, e2, e3, ⟨m, e4, e5⟩, _, e6⟩
    rw [hmodes] at e4
    have := (ones_one e4).1
    replace e6 := e6 (.inl rfl)
    subst this
    simp only at e1 e2 e3 e5 e6
    subst e1 e2 e3 e5 e6
    rfl
  have hbef : (readyList pol dom st).Pairwise (Before ((List.range' 1 n).map (value st))) := by
    have := rank_before ((List.range' 1 n).map (value st))
    rw [← hperm] at this
    exact this.sublist List.filter_sublist
  rcases (C16_ready_picks_first pol dom st a).1 h with ⟨pre, x, post, e, h1, h2, h3⟩ | ⟨h1, h2⟩
  · right
    have hx : x ∈ readyList pol dom st := by rw [e]; simp
    refine ⟨x, by simpa using (List.mem_filter.1 hx).2, hstart x a h1, h2, ?_⟩
    intro y hy hacc hne
    have hy' := hmem y hy
    rw [e] at hy' hbef
    rcases List.mem_append.1 hy' with hp | hp
    · obtain ⟨b, e1, use, e2⟩ := h3 y hp
      obtain ⟨use', e3⟩ := hacc
      rw [hstart y b e1, e3] at e2
      cases e2
    · rcases List.mem_cons.1 hp with hp | hp
      · exact absurd hp hne
      · obtain ⟨u, v, g1, g2, g3⟩ := (List.pairwise_cons.1 (List.pairwise_append.1 hbef).2.1).1 y hp
        have hval : ∀ z w, 1 ≤ z → ((List.range' 1 n).map (value st))[z - 1]? = some w → w = value st z := by
          intro z w hz hw
          rw [List.getElem?_map] at hw
          cases hr : (List.range' 1 n)[z - 1]? with
          | none => rw [hr] at hw; cases hw
          | some q =>
            rw [hr] at hw
            obtain ⟨hlt, hq⟩ := List.getElem?_eq_some_iff.1 hr
            rw [List.getElem_range'] at hq
            have : q = z := by
              rw [← hq, Nat.one_mul]
              exact Nat.add_sub_cancel' hz
            subst this
            exact (Option.some.inj hw).symm
        have hxr : Ready dom st x := by simpa using (List.mem_filter.1 hx).2
        rw [hval x u (hrem x hxr.1).1 g1, hval y v (hrem y hy.1).1 g2] at g3
        exact g3
  · left
    refine ⟨h1, fun y hy => ?_⟩
    obtain ⟨b, e1, e2⟩ := h2 y (hmem y hy)
    rwa [hstart y b e1] at e2

/-- In a domain with tasks numbered from 1, renewable resources and without preemption, skills and conditional tasks, rolling out any
heuristic with any of the five methods that follow a list ends with all tasks complete, without error, after at most `D + 1` steps per
task and by time `D` per task, whatever durations up to `D` and whatever capacities are drawn, as long as every task alone fits the
capacities in mode 1.  (Partial: a task that draws duration zero must need nothing; the schedules must have an entry for every task.) -/
theorem C154_finishes_partial (dom : Dom) (D : Nat) (hw : WellFormed dom) (hs : Simple dom) (hnd : dom.tasks.Nodup)
    (hpl : unconditional dom = dom.tasks) (hne : dom.tasks ≠ []) (hclosed : ∀ x ∈ dom.tasks, ∀ q ∈ dom.preds x, q ∈ dom.tasks)
    (hnum : ∀ x, x ∈ dom.tasks ↔ 1 ≤ x ∧ x ≤ dom.tasks.length) (value : State → TaskId → Rat)
    (avail : List TaskId → List TaskId) (hav : ∀ l, (avail l).Perm l) (sched : State → Dict TaskId Int)
    (hsched : ∀ st, ∀ x ∈ dom.tasks, ((sched st).get? x).isSome = true) (meth : Method)
    (hm : meth ∈ [Method.precedence, .ready, .strict, .timeFreedom, .indexFreedom])
    (ord : List TaskId → List TaskId) (hord : ∀ l, (ord l).Perm l) (dT dI : Int) (hT : 0 ≤ dT) (hI : 0 ≤ dI)
    (draw : State → Action → Draw) (hdr : ∀ st a, FitOneDraw dom D a (draw st a))
    (d0 : Draw) (hd0 : FitsOne dom d0.avail) (hH : (D * dom.tasks.length : Nat) ≤ dom.horizon)
    (n : Nat) (hn : (D + 1) * dom.tasks.length ≤ n) :
    ∃ st, follow dom (policyOf dom value avail sched) meth ord dT dI draw n (initState dom d0) = .ok st ∧ isGoal st = true ∧
      st.t ≤ (D * dom.tasks.length : Nat) ∧ ∀ x ∈ dom.tasks, x ∈ st.complete := by
  have hm' : meth ≠ .gantt ∧ meth ≠ .pile := by
    constructor <;> (rintro rfl; simp at hm)
  have hlen : ∀ st : State, (avail (availableTasks dom st.conds)).length = dom.tasks.length := by
    intro st; rw [(hav _).length_eq, available_all hpl]
  set pol0 : Policy := { perm := [], modes := ones dom.tasks.length } with hpol0
  have hfit : ∀ f, FitsOne dom f → Fits dom pol0 f := by
    rintro f ⟨h1, h2⟩
    refine ⟨h1, fun x hx => ?_⟩
    obtain ⟨ms, dd, e1, e2, e3⟩ := h2 x hx
    have := (hnum x).1 hx
    exact ⟨1, ms, dd, ones_get this.1 this.2, e1, e2, e3⟩
  have hmo : ∀ st, (policyOf dom value avail sched st).modes = pol0.modes := fun st => by rw [policyOf_modes, hlen]
  have hperm : ∀ st x, x ∈ (policyOf dom value avail sched st).perm ↔ x ∈ dom.tasks := by
    intro st x
    rw [(policyOf_perm dom value avail sched st).mem_iff, List.mem_range'_1, hlen, hnum, Nat.add_comm 1, Nat.lt_succ_iff]
  have hi := initState_acc dom d0 hnd
  have hrem : (initState dom d0).remaining = dom.tasks := hpl
  have hL : Live dom D (initState dom d0) := by
    refine ⟨initState_safe d0 hnd, hi.1, hi.2.1, ?_, rfl, rfl, ?_, ?_, d0.avail, hd0.roomy, ?_⟩
    · have hn : ∀ (l : List Res) (m : Dict Res Int), m.keys.Nodup →
          (Dict.keys (l.foldl (fun m r => Dict.set m r (d0.avail r)) m)).Nodup := by
        intro l
        induction l with
        | nil => exact fun m h => h
        | cons r l ih => exact fun m h => ih _ (Dict.nodup_keys_set _ _ h)
      have := hn (dom.resTypes ++ dom.resUnits) [] (by simp [Dict.keys])
      show (List.map _ (List.map _ _)).Nodup
      rw [List.map_map]
      exact this
    · intro x hx; cases hx
    · intro x
      simp [allOf, initState]
    · intro r hr
      rw [(initState_get dom d0 r).1, if_pos hr]
  have hg : isGoal (initState dom d0) = false := by
    unfold isGoal
    rw [hrem]
    cases hd : dom.tasks with
    | nil => exact absurd hd hne
    | cons y l => rfl
  have ht0 : (initState dom d0).t = 0 := rfl
  obtain ⟨st, e1, e2, e3, e4⟩ := follow_var hw hs hpl hclosed (pol := policyOf dom value avail sched) hmo hord hm' hT hI
    (fun _ => rfl) hperm (fun st s h x hx => by cases h; exact hsched st x ((hperm st x).1 hx))
    (fun st a => by obtain ⟨g1, g2, g3, g4⟩ := hdr st a; exact ⟨g1, g2, g3, hfit _ g4⟩) n (initState dom d0) 0 hL
    ⟨d0.avail, hfit _ hd0, fun r hr => by rw [(initState_get dom d0 r).1, if_pos hr]⟩ hg (fun x hx => by cases hx)
    (by rw [hrem, ht0]; omega) (by rw [hrem]; omega)
  rw [hrem, ht0] at e4
  refine ⟨st, e1, e3, by omega, fun y hy => ?_⟩
  simp only [isGoal, Bool.and_eq_true, List.isEmpty_iff] at e3
  have hmem := (e2.all y).2 (by rw [hpl]; exact hy)
  simpa [allOf, e3.1.1, e3.1.2, e3.2] using hmem

/-! ### Examples -/

/-- Higher numbers first. -/
def exValue (_ : State) (x : TaskId) : Rat := - (x : Rat)

def exSched (_ : State) : Dict TaskId Int := [(1, 0), (2, 1), (3, 2), (4, 0)]

example : (∀ x, x ∈ anDom.tasks ↔ 1 ≤ x ∧ x ≤ anDom.tasks.length) ∧ FitsOne anDom (fun _ => 2) ∧
    (∀ st, ∀ x ∈ anDom.tasks, ((exSched st).get? x).isSome = true) ∧
    ((policyOf anDom exValue id exSched (initState anDom ⟨0, fun _ => 2⟩)).next .ready id 0 0 anDom
      (initState anDom ⟨0, fun _ => 2⟩)).map (·.task) = .ok (some 4) := by
  refine ⟨?_, anDom_fitsOne, fun _ => (by decide +kernel : ∀ x ∈ anDom.tasks, (Dict.get? [(1, (0 : Int)), (2, 1), (3, 2), (4, 0)] x).isSome = true), by decide +kernel⟩
  intro (x : Nat)
  simp only [anDom, List.mem_cons, List.not_mem_nil, or_false, List.length_cons, List.length_nil]
  show x = 1 ∨ x = 2 ∨ x = 3 ∨ x = 4 ↔ 1 ≤ x ∧ x ≤ 4
  omega

example : outcome (follow anDom (policyOf anDom exValue id exSched) .ready id 0 0 lateDraw 24 (initState anDom ⟨0, fun _ => 2⟩)) =
    some ⟨12, [], [(1, some 0, some 2), (2, some 5, some 8), (3, some 8, some 12), (4, some 0, some 5)]⟩ := by
  decide +kernel

/-- The same domain with the tasks numbered from 0. -/
def zeroDom : Dom where
  tasks := [0, 1, 2, 3]
  modes := [(0, exMode 1), (1, exMode 2), (2, exMode 1), (3, exMode 1)]
  resTypes := [0]
  renewable := [(0, true)]
  preds := fun x => if x = 1 then [0] else if x = 2 then [1] else []
  duration := fun _ _ => 1
  preempt := [(0, false), (1, false), (2, false), (3, false)]
  horizon := 9

/-- Positions are taken for task numbers: with tasks numbered from 0, task 0 is never started and nothing after it, while the last
position stands for a task that does not exist. -/
theorem C154_numbers_refuted :
    outcome (follow zeroDom (policyOf zeroDom exValue id fun _ => [(0, 0), (1, 1), (2, 2), (3, 0)]) .ready id 0 0
      (fun _ _ => ⟨1, fun _ => 2⟩) 20 (initState zeroDom ⟨0, fun _ => 2⟩)) =
      some ⟨10, [0, 1, 2], [(0, none, none), (1, none, none), (2, none, none), (3, some 0, some 1)]⟩ ∧
    (policyOf zeroDom exValue id (fun _ => []) (initState zeroDom ⟨0, fun _ => 2⟩)).perm = [4, 3, 2, 1] := by
  decide +kernel

end Verif.Gphh
