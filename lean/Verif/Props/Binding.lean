import Verif.Lemmas.BindingRun
import Verif.Lemmas.BindingTrip

/-!
C105: the binding between scheduling domains and discrete-optimisation problems keeps the project.
C106: solving a domain with schedule generation and running the resulting policy.
-/
namespace Verif.Binding
open Verif.Rcpsp (Problem Capacity capOf load total runsAt NeedTable Instance sgs satisfy Result)
open Verif.Sched (Dom Policy Plan needOf HasMode initState isGoal State Action Draw TaskId)

/-! ## C105 -/

/-- A scheduling domain made from a complete description and the problem made from it have the same modes, with the
same durations. -/
theorem C105_same_modes {resources : List String} {tasks : List Nat} {tasksMode : Dict Nat (Dict Nat Rcpsp.Mode)}
    {successors : Dict Nat (List Nat)} {horizon : Nat} {avail : Dict String Int} {renewable : Dict String Bool}
    (hd : Described resources tasks tasksMode successors avail renewable) {P : Project}
    (hP : newMrcpsp resources tasks tasksMode successors horizon avail renewable = .ok P) (num : String → Nat) :
    ∃ pb, buildDo P = .ok pb ∧ ∀ x k,
      (HasMode (P.dom num) x k ↔ ∃ ms m, pb.modes.get? x = some ms ∧ ms.get? k = some m) ∧
      ∀ ms m, pb.modes.get? x = some ms → ms.get? k = some m → (P.dom num).duration x k = m.duration ∧
        ∃ ms' m', tasksMode.get? x = some ms' ∧ ms'.get? k = some m' ∧ m'.duration = m.duration := by
  obtain ⟨P', g1, g2, g3, g4, g5, g6, g7, g8, g9, g10⟩ := new_complete horizon hd
  rw [hP] at g1; cases g1
  obtain ⟨pb, h1, h2, _⟩ := buildDo_agree g2
  refine ⟨pb, h1, fun x k => ⟨?_, ?_⟩⟩
  · rw [dom_hasMode, h2.modes]
    constructor
    · rintro ⟨d, hd⟩
      obtain ⟨m, hm, _⟩ := Option.map_eq_some_iff.1 hd
      obtain ⟨ms, k1, k2⟩ := Option.bind_eq_some_iff.1 hm
      exact ⟨ms, m, k1, k2⟩
    · rintro ⟨ms, m, k1, k2⟩
      exact ⟨_, by unfold mode?; rw [k1, Option.bind_some, k2, Option.map_some]⟩
  · intro ms m k1 k2
    have hm : mode? pb x k = some m := by unfold mode?; rw [k1]; exact k2
    have hdur := h2.durations x k m hm
    refine ⟨?_, ?_⟩
    · unfold Project.dur? at hdur
      show (match (P.durations.get? x).bind fun d => d.get? k with | some d => (d : Int) | none => 0) = _
      rw [hdur]
    · rw [g9] at hdur
      obtain ⟨m', k3, k4⟩ := Option.map_eq_some_iff.1 hdur
      obtain ⟨ms', k5, k6⟩ := Option.bind_eq_some_iff.1 k3
      exact ⟨ms', m', k5, k6, k4⟩

/-- From the domain to the problem: `build_do_domain` succeeds, and for every schedule of all tasks in existing modes
whose last task ends last, the problem's check accepts it exactly when it is a feasible plan of the domain. -/
theorem C105_domain_to_problem {resources : List String} {tasks : List Nat} {tasksMode : Dict Nat (Dict Nat Rcpsp.Mode)}
    {successors : Dict Nat (List Nat)} {horizon : Nat} {avail : Dict String Int} {renewable : Dict String Bool}
    (hd : Described resources tasks tasksMode successors avail renewable) {P : Project}
    (hP : newMrcpsp resources tasks tasksMode successors horizon avail renewable = .ok P)
    {num : String → Nat} {cap : Nat → Int} (hnum : ∀ r ∈ resources, ∀ r' ∈ resources, num r = num r' → r = r')
    (hcap : ∀ r ∈ resources, avail.get? r = some (cap (num r))) :
    ∃ pb, buildDo P = .ok pb ∧ ∀ modes sch, Whole P modes sch →
      (∀ p, sch.get? tasks.length = some p → ∀ x s e, sch.get? x = some (s, e) → e ≤ p.2) →
      (satisfy pb none modes sch = .ok true ↔ (planOf modes sch).Feasible (P.dom num) cap) := by
  obtain ⟨P', g1, g2, g3, g4, g5, g6, g7, _⟩ := new_complete horizon hd
  rw [hP] at g1; cases g1
  obtain ⟨pb, h1, h2, h3, _⟩ := buildDo_agree g2
  refine ⟨pb, h1, fun modes sch hw hl => feasible_iff g2 h2 h3 (by rw [g3]; exact hnum) (by rw [g3, g6]; exact hcap) hw (by rw [g4]; exact hl)⟩

/-- From the problem to the domain: `build_sk_domain` succeeds on problems with constant capacities, and the same holds. -/
theorem C105_problem_to_domain {pb : Problem} (h : Plain pb)
    {num : String → Nat} {cap : Nat → Int} (hnum : ∀ r ∈ pb.resources.keys, ∀ r' ∈ pb.resources.keys, num r = num r' → r = r')
    (hcap : ∀ r c, pb.resources.get? r = some c → c = .const (cap (num r))) :
    ∃ P, buildSk pb = .ok P ∧ ∀ modes sch, Whole P modes sch →
      (∀ p, sch.get? pb.modes.length = some p → ∀ x s e, sch.get? x = some (s, e) → e ≤ p.2) →
      (satisfy pb none modes sch = .ok true ↔ (planOf modes sch).Feasible (P.dom num) cap) := by
  obtain ⟨P, h1, h2, h3⟩ := buildSk_agree h
  refine ⟨P, h1, fun modes sch hw hl => feasible_iff h2 h3 h.inst (by rw [← h3.resources]; exact hnum) ?_ hw (by rw [← h3.size]; exact hl)⟩
  intro r hr
  rw [← h3.resources] at hr
  obtain ⟨c, hc⟩ := Option.isSome_iff_exists.1 ((Dict.get?_isSome_iff_mem_keys _ _).2 hr)
  obtain ⟨v, k1, k2⟩ := h3.caps r c hc
  have := hcap r c hc
  rw [k1] at this
  cases this
  exact k2

/-- A problem in the form in which the binding writes problems comes back from the domain unchanged. -/
theorem C105_round_trip {pb : Problem} (h : Normal pb) : (buildSk pb >>= buildDo) = .ok pb := round_trip h

/-! ### Examples -/

theorem demo_normal : Normal Rcpsp.demo := by
  have k1 : ∀ p ∈ Rcpsp.demo.modes, p.2.keys.Nodup ∧ ∀ q ∈ p.2, q.2.needs.keys.Nodup ∧ (∀ e ∈ q.2.needs, 0 ≤ e.2) ∧
    ∀ r ∈ q.2.needs.keys, r ∈ Rcpsp.demo.resources.keys := by decide
  have k2 : ∀ p ∈ Rcpsp.demo.successors, p.2.Nodup := by decide
  refine ⟨⟨Rcpsp.demo_instance, ?_, ?_, by decide⟩, rfl, ?_, by decide +kernel, fun a ss h => k2 (a, ss) h, by decide⟩
  · intro a d h
    refine ⟨(k1 _ h).1, fun k m hm => ⟨((k1 _ h).2 _ hm).1, fun r n hn => ?_⟩⟩
    exact ((k1 _ h).2 _ hm).2.1 (r, n) (Dict.mem_of_get? hn)
  · intro r c h
    have := Dict.mem_of_get? h
    simp only [Rcpsp.demo, List.mem_cons, List.not_mem_nil, or_false, Prod.mk.injEq] at this
    rcases this with ⟨_, rfl⟩ | ⟨_, rfl⟩
    · exact ⟨1, rfl, by decide⟩
    · exact ⟨2, rfl, by decide⟩
  · intro a d h k m hm
    exact ((k1 _ h).2 _ hm).2.2

example : (buildSk Rcpsp.demo >>= buildDo) = .ok Rcpsp.demo := C105_round_trip demo_normal

/-- Resource names as numbers. -/
def demoNum (r : String) : Nat := if r = "machine" then 0 else 1

def demoCap (r : Nat) : Int := if r = 0 then 1 else 2

/-- The project of `demo`, written with the successors in another order and with a mode that mentions an unknown resource. -/
def demoModes : Dict Nat (Dict Nat Rcpsp.Mode) :=
  [(1, [(1, ⟨0, [("machine", 0), ("tool", 0)]⟩)]), (2, [(1, ⟨3, [("machine", 1), ("tool", 1), ("oil", 4)]⟩), (2, ⟨1, [("machine", 1), ("tool", 2)]⟩)]),
    (3, [(1, ⟨2, [("machine", 1), ("tool", 1)]⟩)]), (4, [(1, ⟨0, [("machine", 0), ("tool", 0)]⟩)])]

theorem demo_described : Described ["machine", "tool"] [1, 2, 3, 4] demoModes [(3, [4]), (1, [3, 2, 3]), (2, [4])]
    [("machine", 1), ("tool", 2)] [("machine", true), ("tool", false)] := by
  have k1 : ∀ p ∈ demoModes, (Dict.keys p.2).Nodup ∧ 1 ∈ Dict.keys p.2 ∧ ∀ q ∈ p.2, q.2.needs.keys.Nodup ∧
    ∀ r ∈ ["machine", "tool"], ∃ n ∈ [0, 1, 2], q.2.needs.get? r = some n := by decide
  have k2 : ∀ p ∈ [((3 : Nat), [4]), (1, [3, 2, 3]), (2, [4])], ∀ b ∈ p.2, p.1 ∈ [1, 2, 3, 4] ∧ b ∈ [1, 2, 3, 4] ∧ p.1 < b := by decide
  have kn : ∀ a, a ∈ [1, 2, 3, 4] ↔ 1 ≤ a ∧ a ≤ 4 := by
    intro a
    simp only [List.mem_cons, List.not_mem_nil, or_false]
    omega
  refine ⟨by decide, ?_, ⟨by decide, fun r => Iff.rfl⟩, by decide, kn, by decide, ⟨by decide, fun x => Iff.rfl⟩, ?_, ?_, ?_⟩
  · intro r hr
    simp only [List.mem_cons, List.not_mem_nil, or_false] at hr
    rcases hr with rfl | rfl
    · exact ⟨1, by decide, by decide⟩
    · exact ⟨2, by decide, by decide⟩
  · intro x d h
    obtain ⟨h1, h2, h3⟩ := k1 (x, d) h
    refine ⟨h1, h2, fun k m hm => ⟨(h3 (k, m) hm).1, fun r hr => ?_⟩⟩
    obtain ⟨n, hn, hg⟩ := (h3 (k, m) hm).2 r hr
    refine ⟨n, hg, ?_⟩
    simp only [List.mem_cons, List.not_mem_nil, or_false] at hn
    omega
  · intro a ss h b hb
    have := k2 (a, ss) h b hb
    exact ⟨this.1, this.2.1⟩
  · exact ⟨id, fun a ss h b hb => (k2 (a, ss) h b hb).2.2⟩

/-- The project object for these arguments. -/
def demoProject : Except PyErr Project :=
  newMrcpsp ["machine", "tool"] [1, 2, 3, 4] demoModes [(3, [4]), (1, [3, 2, 3]), (2, [4])] 10
    [("machine", 1), ("tool", 2)] [("machine", true), ("tool", false)]

/-- The problem made from it: the successors are listed in the order of the tasks, each once; the unknown resource is gone. -/
example : (demoProject >>= buildDo).toOption.map (fun pb => (pb.successors, pb.nonRenewable, pb.modes.get? 2)) =
    some ([(1, [3, 2]), (2, [4]), (3, [4]), (4, [])], ["tool"],
      some [(1, ⟨3, [("machine", 1), ("tool", 1)]⟩), (2, ⟨1, [("machine", 1), ("tool", 2)]⟩)]) := by decide +kernel

/-- A whole schedule that both accept, and one that both refuse (two activities on one machine). -/
example : (demoProject >>= buildDo >>= fun pb => satisfy pb none [1, 1] [(1, (0, 0)), (3, (0, 2)), (2, (2, 5)), (4, (5, 5))]) = .ok true ∧
    (demoProject >>= buildDo >>= fun pb => satisfy pb none [1, 1] [(1, (0, 0)), (3, (0, 2)), (2, (1, 4)), (4, (4, 4))]) = .ok false := by
  decide +kernel

/-! ### What is lost -/

/-- One activity of four time units, a horizon of 3 and a multiplier of 2. -/
def longPb : Problem where
  resources := [("machine", .const 1)]
  nonRenewable := []
  modes := [(1, [(1, ⟨0, [("machine", 0)]⟩)]), (2, [(1, ⟨4, [("machine", 1)]⟩)]), (3, [(1, ⟨0, [("machine", 0)]⟩)])]
  successors := [(1, [2]), (2, [3]), (3, [])]
  horizon := 3
  multiplier := 2

/-- `build_sk_domain` does not keep the horizon multiplier: the problem is solvable, what comes back from the domain is not. -/
theorem C105_multiplier_refuted :
    (sgs longPb [0] [1]).toOption.map (·.feasible) = some true ∧
    ((buildSk longPb >>= buildDo) >>= fun pb => sgs pb [0] [1]).toOption.map (·.feasible) = some false := by decide +kernel

/-- The machine becomes available at time 2 only. -/
def calPb : Problem where
  resources := [("machine", .calendar [0, 0, 1, 1, 1, 1])]
  nonRenewable := []
  modes := [(1, [(1, ⟨0, [("machine", 0)]⟩)]), (2, [(1, ⟨1, [("machine", 1)]⟩)]), (3, [(1, ⟨0, [("machine", 0)]⟩)])]
  successors := [(1, [2]), (2, [3]), (3, [])]
  horizon := 5
  multiplier := 1

/-- A calendar becomes its maximum: a schedule that the problem refuses is accepted after the passage through the domain. -/
theorem C105_calendar_refuted :
    satisfy calPb none [1] [(1, (0, 0)), (2, (0, 1)), (3, (1, 1))] = .ok false ∧
    ((buildSk calPb >>= buildDo) >>= fun pb => satisfy pb none [1] [(1, (0, 0)), (2, (0, 1)), (3, (1, 1))]) = .ok true := by decide +kernel

/-- A project whose tasks do not mention the resource that they do not need. -/
def tersePr : Except PyErr Project :=
  newMrcpsp ["machine"] [1, 2, 3] [(1, [(1, ⟨0, []⟩)]), (2, [(1, ⟨1, []⟩)]), (3, [(1, ⟨0, []⟩)])] [(1, [2]), (2, [3])] 5
    [("machine", 1)] [("machine", true)]

/-- In the domain a need that is not mentioned is zero, and the project runs; in the problem schedule generation and
the check raise a `KeyError`. -/
theorem C105_omitted_need_refuted :
    (∃ P, tersePr = .ok P ∧ (planOf [1] [(1, (0, 0)), (2, (0, 1)), (3, (1, 1))]).Feasible (P.dom fun _ => 0) (fun _ => 1)) ∧
    (tersePr >>= buildDo >>= fun pb => sgs pb [0] [1]).toOption = none ∧
    (tersePr >>= buildDo >>= fun pb => satisfy pb none [1] [(1, (0, 0)), (2, (0, 1)), (3, (1, 1))]) = .error .keyError := by
  refine ⟨⟨_, rfl, ?_⟩, by decide +kernel, by decide +kernel⟩
  refine ⟨?_, by decide +kernel, by decide +kernel, by decide +kernel, ?_, by decide +kernel⟩
  · intro x hx
    have hx : x = 1 ∨ x = 2 ∨ x = 3 := by simpa [Project.dom] using hx
    rcases hx with rfl | rfl | rfl <;> exact ⟨_, _, rfl, rfl⟩
  · intro r _ _ t
    have hz : ∀ x ∈ [1, 2, 3], needOf (Project.dom ⟨["machine"], [1, 2, 3], [(1, [(1, [])]), (2, [(1, [])]), (3, [(1, [])])], [(1, [(1, 0)]), (2, [(1, 1)]), (3, [(1, 0)])],
        [(1, [2]), (2, [3]), (3, [])], [(1, []), (2, [1]), (3, [2])], 5, [("machine", 1)], [("machine", true)]⟩ fun _ => 0) (planOf [1] [(1, (0, 0)), (2, (0, 1)), (3, (1, 1))]).mode r x = 0 := by
      intro x hx
      simp only [List.mem_cons, List.not_mem_nil, or_false] at hx
      rcases hx with rfl | rfl | rfl <;> rfl
    have : ∀ l : List Nat, (∀ x ∈ l, x ∈ [1, 2, 3]) → (l.map (needOf (Project.dom ⟨["machine"], [1, 2, 3], [(1, [(1, [])]), (2, [(1, [])]), (3, [(1, [])])], [(1, [(1, 0)]), (2, [(1, 1)]), (3, [(1, 0)])],
        [(1, [2]), (2, [3]), (3, [])], [(1, []), (2, [1]), (3, [2])], 5, [("machine", 1)], [("machine", true)]⟩ fun _ => 0) (planOf [1] [(1, (0, 0)), (2, (0, 1)), (3, (1, 1))]).mode r)).sum = 0 := by
      intro l
      induction l with
      | nil => intro _; rfl
      | cons y l ih =>
        intro h
        rw [List.map_cons, List.sum_cons, hz y (h y (by simp)), ih fun x hx => h x (by simp [hx])]; rfl
    exact Int.le_trans (Int.le_of_eq (this _ fun x hx => (List.mem_filter.1 hx).1)) (by decide)

/-! ## C106 -/

/-- Solving and running: a project from a complete description is turned into a problem; schedule generation returns a
schedule reported as feasible; the policy made from it is run in the domain, in which durations and capacities are as
described.  Then, for every iteration order of sets and every bound on the number of steps of at least the number of
tasks plus the makespan, the run ends without error in a goal state at the makespan, and the solution read from the last
state has the modes and, for every task, the times of the generated schedule.
(Partial: tasks of no duration need nothing, durations are below 10000; without any resource the schedule must end before
the horizon, which is otherwise proved.) -/
theorem C106_solved_and_run_partial {resources : List String} {tasks : List Nat} {tasksMode : Dict Nat (Dict Nat Rcpsp.Mode)}
    {successors : Dict Nat (List Nat)} {horizon : Nat} {avail : Dict String Int} {renewable : Dict String Bool}
    (hd : Described resources tasks tasksMode successors avail renewable) {P : Project}
    (hP : newMrcpsp resources tasks tasksMode successors horizon avail renewable = .ok P)
    (hidle : ∀ x d k m, (x, d) ∈ tasksMode → (k, m) ∈ d → m.duration < 10000 ∧
      (m.duration = 0 → ∀ r ∈ resources, ∀ v, m.needs.get? r = some v → v = 0))
    {num : String → Nat} {cap : Nat → Int} (hnum : ∀ r ∈ resources, ∀ r' ∈ resources, num r = num r' → r = r')
    (hcap : ∀ r ∈ resources, avail.get? r = some (cap (num r)))
    {pb : Problem} (hb : buildDo P = .ok pb) {perm modes : List Nat} {r : Result}
    (hp : perm.Perm (List.range (tasks.length - 2))) (hm : modes.length + 2 = tasks.length)
    (h : sgs pb perm modes = .ok r) (hf : r.feasible = true)
    (hin : resources = [] → ∀ x s e, (x, (s, e)) ∈ r.schedule → e ≤ (horizon : Int))
    (ord : List TaskId → List TaskId) (hord : ∀ l, (ord l).Perm l) (draw : State → Action → Draw)
    (hdr : ∀ st a, (∀ x k d m, a.task = some x → a.mode = some k → tasksMode.get? x = some d → d.get? k = some m →
      (draw st a).duration = m.duration) ∧ ∀ r ∈ resources, (draw st a).avail (num r) = cap (num r))
    (d0 : Draw) (hd0 : ∀ r ∈ resources, d0.avail (num r) = cap (num r)) (dT dI T : Int)
    (hT : ∀ x s e, (x, (s, e)) ∈ r.schedule → e ≤ T) (hT' : ∃ x s, (x, (s, T)) ∈ r.schedule)
    (n : Nat) (hn : tasks.length + T.toNat ≤ n) :
    ∃ mid st sol, r.ext = 1 :: mid ++ [1] ∧
      (fromSolution pb mid r.schedule).follow .gantt ord dT dI (P.dom num) draw n (initState (P.dom num) d0) = .ok st ∧
      isGoal st = true ∧ st.t = T ∧ toSolution P st = .ok sol ∧ sol.problem = pb ∧ sol.modes = mid ∧
      (∀ x, sol.schedule.get? x = r.schedule.get? x) ∧ sol.schedule.keys = tasks := by
  obtain ⟨P', g1, hc, g3, g4, g5, g6, g7, g8, g9, g10⟩ := new_complete horizon hd
  rw [hP] at g1; cases g1
  obtain ⟨pb', h1, ha, hi, hmul, hmk⟩ := buildDo_agree hc
  rw [hb] at h1; cases h1
  have hnum' : ∀ r ∈ P.resources, ∀ r' ∈ P.resources, num r = num r' → r = r' := by rw [g3]; exact hnum
  have hcap' : ∀ r ∈ P.resources, P.avail.get? r = some (cap (num r)) := by rw [g3, g6]; exact hcap
  have hmode : ∀ x k d, P.need? x k = some d → ∃ dm m, (x, dm) ∈ tasksMode ∧ (k, m) ∈ dm ∧ dm.get? k = some m ∧ tasksMode.get? x = some dm ∧
      d = m.needs.filter (fun e => decide (e.1 ∈ resources)) ∧ P.dur? x k = some m.duration := by
    intro x k d hx
    rw [g8] at hx
    obtain ⟨m, k1, k2⟩ := Option.map_eq_some_iff.1 hx
    obtain ⟨dm, k3, k4⟩ := Option.bind_eq_some_iff.1 k1
    exact ⟨dm, m, Dict.mem_of_get? k3, Dict.mem_of_get? k4, k4, k3, k2.symm, by rw [g9, k1]; rfl⟩
  have hz : ZeroIdle P := by
    intro x k d hx hx0 r v hv
    obtain ⟨dm, m, k1, k2, _, _, k5, k6⟩ := hmode x k d hx
    rw [hx0] at k6
    have hr : r ∈ resources := by
      rw [← g3]
      exact (hc.needs x k d hx).2.2 r ((Dict.get?_isSome_iff_mem_keys _ _).1 (by rw [hv]; rfl))
    rw [k5, get?_filterk (fun s => decide (s ∈ resources)) _ (decide_eq_true hr)] at hv
    exact (hidle x dm k m k1 k2).2 (Option.some.inj k6).symm r hr v hv
  obtain ⟨mid, hmid, hw, hfe, hdu⟩ := generated_feasible hc ha hi hnum' hcap' hz (by rw [g4]; exact hp) (by rw [g4]; exact hm) h hf
  have ho := dom_ordinary hc hnum'
  have hsound : (planOf mid r.schedule).Sound (P.dom num) := by
    constructor
    · intro x hx
      obtain ⟨d, k1, k2⟩ := hdu x hx
      obtain ⟨dn, hdn⟩ := hw.modes x hx
      obtain ⟨dm, m, k3, k4, _, _, _, k6⟩ := hmode x _ dn hdn
      rw [k2]
      have k1' : P.dur? x ((1 :: mid ++ [1]).getD (x - 1) 1) = some d := k1
      rw [k6] at k1'
      cases k1'
      have := (hidle x dm _ m k3 k4).1
      omega
    · intro x hx h0 ρ
      obtain ⟨d, k1, k2⟩ := hdu x hx
      rw [k2] at h0
      have h0 : d = 0 := by omega
      subst h0
      obtain ⟨dn, hdn⟩ := hw.modes x hx
      have hneed := hz x _ dn hdn k1
      have hm := dom_modes (P := P) (num := num) (x := x) (k := (1 :: mid ++ [1]).getD (x - 1) 1)
      rw [hdn, Option.map_some] at hm
      obtain ⟨ms, k3, k4⟩ := Option.bind_eq_some_iff.1 hm
      rw [Sched.needOf_eq (m := (planOf mid r.schedule).mode) k3 k4]
      unfold Sched.val
      cases hg : Dict.get? (dn.map fun e => (num e.1, e.2)) ρ with
      | none => rfl
      | some v =>
        obtain ⟨s, hs⟩ := get?_mapk_mem hg
        have : dn.get? s = some v := Dict.get?_of_mem (hc.needs x _ dn hdn).1 hs
        exact hneed s v this
  have hsink : pb.sink = P.tasks.length := ha.size
  have hE := (Rcpsp.extended_nodup (perm := perm) hi.two (by rw [ha.size, g4]; exact hp)).1
  have hTH : T ≤ (horizon : Int) := by
    obtain ⟨x, s, hx⟩ := hT'
    by_cases hr : resources = []
    · exact hin hr x s T hx
    · have := Rcpsp.generated_inside hE hi.resources (by
        intro e
        apply hr
        rw [← g3, ← ha.resources, e]; rfl) h hf x s T hx
      have e : (pb.newHorizon : Int) = horizon := by
        unfold Problem.newHorizon
        rw [hmul, Nat.mul_one, ha.horizon, g5]
      rw [e] at this
      exact this
  obtain ⟨st, r1, r2, r3, r4⟩ := Sched.C102_replay_partial (P.dom num) ho (planOf mid r.schedule) cap hfe hsound (fun r hr => by cases hr)
    (fromSolution pb mid r.schedule) _ rfl rfl (by
      intro x hx s
      obtain ⟨s', e, hse⟩ := hw.get hx
      rw [(planOf_get hse).1]
      constructor
      · intro hmem
        obtain ⟨q, hq, hq'⟩ := List.mem_map.1 hmem
        cases hq'
        have := Dict.get?_of_mem hw.nodup (k := q.1) (v := q.2) hq
        rw [hse] at this
        rw [← Option.some.inj this]
      · rintro rfl
        exact List.mem_map.2 ⟨_, Dict.mem_of_get? hse, rfl⟩) (by
      intro x hx
      have hxr := (hc.numbered x).1 hx
      show (modesPolicy pb.sink mid).get? x = _
      rw [hsink, modesPolicy_get hw.length hxr.1 hxr.2]; rfl) ord hord draw (by
      intro st a
      refine ⟨?_, ?_⟩
      · intro x hxt hx hk
        obtain ⟨d, k1, k2⟩ := hdu x hxt
        obtain ⟨dn, hdn⟩ := hw.modes x hxt
        obtain ⟨dm, m, _, _, k5, k6, _, k8⟩ := hmode x _ dn hdn
        have k1' : P.dur? x ((1 :: mid ++ [1]).getD (x - 1) 1) = some d := k1
        rw [k8] at k1'
        cases k1'
        rw [(hdr st a).1 x _ dm m hx hk k6 k5, k2]
      · intro ρ hρ
        have hρ : ρ ∈ P.resources.map num := by simpa [Project.dom] using hρ
        obtain ⟨s, hs, rfl⟩ := List.mem_map.1 hρ
        exact (hdr st a).2 s (by rw [← g3]; exact hs)) d0 (by
      intro ρ hρ
      have hρ : ρ ∈ P.resources.map num := by simpa [Project.dom] using hρ
      obtain ⟨s, hs, rfl⟩ := List.mem_map.1 hρ
      exact hd0 s (by rw [← g3]; exact hs)) dT dI T (by
      intro x hx
      obtain ⟨s, e, hse⟩ := hw.get hx
      rw [(planOf_get hse).2.1]
      exact hT x s e (Dict.mem_of_get? hse)) (by
      obtain ⟨x, s, hx⟩ := hT'
      have := Dict.get?_of_mem hw.nodup hx
      exact ⟨x, (hw.keys x).1 (List.mem_map.2 ⟨_, hx, rfl⟩), (planOf_get this).2.1⟩) (by
      show T ≤ (P.horizon : Int)
      rw [g5]; exact hTH) n (by
      show P.tasks.length + _ ≤ _
      rw [g4]; exact hn)
  have hkeys : st.details.keys = P.tasks := by
    rw [Sched.follow_detailKeys n r1]
    exact Sched.initState_detailKeys d0 hc.tasks
  obtain ⟨sol, s1, s2, s3, s4, s5⟩ := toSolution_ok hc hb hw hkeys (fun x hx => (r4 x hx).2.1) (by
    intro x hx
    obtain ⟨_, _, i, k1, k2, k3⟩ := r4 x hx
    obtain ⟨s, e, hse⟩ := hw.get hx
    rw [(planOf_get hse).1] at k2
    rw [(planOf_get hse).2.1] at k3
    exact ⟨i, s, e, k1, hse, k2, k3⟩)
  exact ⟨mid, st, sol, hmid, r1, r2, r3, s1, s2, s3, s4, by rw [s5, g4]⟩

/-- The whole way for `demo`: the times that come back are those that were generated. -/
def demoWay : Except PyErr (List (Nat × (Int × Int)) × List Nat × List Int) := do
  let P ← demoProject
  let pb ← buildDo P
  let r ← sgs pb [1, 0] [1, 1]
  let st ← (fromSolution pb [1, 1] r.schedule).follow .gantt id 0 0 (P.dom demoNum)
    (fun _ a => ⟨match a.task with | some 2 => 3 | some 3 => 2 | _ => 0, demoCap⟩) 9 (initState (P.dom demoNum) ⟨0, demoCap⟩)
  let sol ← toSolution P st
  return (sol.schedule, sol.modes, sol.perm)

example : demoWay = .ok ([(1, (0, 0)), (2, (2, 5)), (3, (0, 2)), (4, (5, 5))], [1, 1], [1, 0]) := by decide +kernel

example : (demoProject >>= buildDo >>= fun pb => sgs pb [1, 0] [1, 1]).toOption.map (fun r => (r.schedule, r.feasible)) =
    some ([(1, (0, 0)), (3, (0, 2)), (2, (2, 5)), (4, (5, 5))], true) := by decide +kernel

/-- `demo` meets the hypotheses about needs and names. -/
example : (∀ p ∈ demoModes, ∀ q ∈ p.2, q.2.duration < 10000 ∧ (q.2.duration = 0 → ∀ r ∈ ["machine", "tool"], q.2.needs.get? r = some 0)) ∧
    (∀ r ∈ ["machine", "tool"], ∀ r' ∈ ["machine", "tool"], demoNum r = demoNum r' → r = r') ∧
    (∀ r ∈ ["machine", "tool"], Dict.get? [("machine", (1 : Int)), ("tool", 2)] r = some (demoCap (demoNum r))) := by decide

/-- The same kind of project with tasks 0, 1, 2 instead of 1, 2, 3. -/
def zeroPr : Except PyErr Project :=
  newMrcpsp ["machine"] [0, 1, 2] [(0, [(1, ⟨0, [("machine", 0)]⟩)]), (1, [(1, ⟨1, [("machine", 1)]⟩)]), (2, [(1, ⟨0, [("machine", 0)]⟩)])]
    [(0, [1]), (1, [2])] 5 [("machine", 1)] [("machine", true)]

/-- The numbering from 1 on is needed: with tasks 0, 1, 2 the domain and the problem are built without complaint and the
domain can be run to its goal by a list policy, but schedule generation raises a `KeyError`, whatever the modes and the
priority list of the one inner activity. -/
theorem C106_numbering_refuted :
    (zeroPr >>= fun P => ((⟨[0, 1, 2], [(0, 1), (1, 1), (2, 1)], none, none⟩ : Policy).follow .precedence id 0 0 (P.dom fun _ => 0)
      (fun _ a => ⟨if a.task = some 1 then 1 else 0, fun _ => 1⟩) 6 (initState (P.dom fun _ => 0) ⟨0, fun _ => 1⟩)).map isGoal) = .ok true ∧
    ∀ m, (zeroPr >>= buildDo >>= fun pb => sgs pb [0] [m]) = .error .keyError := by
  refine ⟨by decide +kernel, fun m => ?_⟩
  have hP : ∃ pb, (zeroPr >>= buildDo) = .ok pb ∧ pb.modes.get? 3 = none ∧ pb.modes.get? 1 = some [(1, ⟨1, [("machine", 1)]⟩)] ∧
      pb.modes.get? 2 = some [(1, ⟨0, [("machine", 0)]⟩)] := ⟨_, rfl, by decide +kernel, by decide +kernel, by decide +kernel⟩
  obtain ⟨pb, h1, h2, h3, h4⟩ := hP
  rw [h1, bind_ok]
  simp only [sgs, List.cons_append, List.nil_append, Rcpsp.fixModes, Dict.get, h2, h3, h4, bind_ok]
  rfl

end Verif.Binding
