import Verif.Model.Gphh
import Verif.Lemmas.SchedList

/-!
Rolling out a policy that is built anew in every state.
-/
namespace Verif.Gphh

open Verif.Sched

/-- As `follow_list`, for a policy built anew in every state. -/
theorem follow_var {dom : Dom} {D : Nat} (hw : WellFormed dom) (hs : Simple dom) (hpl : unconditional dom = dom.tasks)
    (hclosed : ∀ x ∈ dom.tasks, ∀ q ∈ dom.preds x, q ∈ dom.tasks) {pol : State → Policy} {pol0 : Policy} (hmo : ∀ st, (pol st).modes = pol0.modes) {meth : Method}
    {ord : List TaskId → List TaskId} (hord : ∀ l, (ord l).Perm l) {dT dI : Int} (hm : meth ≠ .gantt ∧ meth ≠ .pile)
    (hT : 0 ≤ dT) (hI : 0 ≤ dI) (halloc : ∀ st, (pol st).alloc = none) (hperm : ∀ st x, x ∈ (pol st).perm ↔ x ∈ dom.tasks)
    (hsched : ∀ st sched, (pol st).schedule = some sched → ∀ x ∈ (pol st).perm, (sched.get? x).isSome = true)
    {draw : State → Action → Draw} (hdr : ∀ st a, FitDraw dom pol0 D a (draw st a)) :
    ∀ (n : Nat) (st : State) (k : Nat), Live dom D st →
      (∃ f, Fits dom pol0 f ∧ ∀ r ∈ dom.resTypes ++ dom.resUnits, st.avail.get? r = some (f r)) → isGoal st = false →
      (∀ x ∈ st.ongoing, ∃ t0 d, 1 ≤ d ∧ d ≤ (D : Int) ∧ t0 ≤ st.t ∧ t0 + d ≤ st.t + k ∧ Phase x t0 d st) →
      st.t + (D * st.remaining.length + k : Nat) ≤ dom.horizon →
      (D + 1) * st.remaining.length + k ≤ n →
      ∃ st', follow dom pol meth ord dT dI draw n st = .ok st' ∧ Live dom D st' ∧ isGoal st' = true ∧
        st'.t ≤ st.t + (D * st.remaining.length + k : Nat) := by
  intro n
  induction n with
  | zero =>
    intro st k hL hf hg hk hH hn
    exfalso
    simp only [Nat.le_zero, Nat.add_eq_zero_iff, Nat.mul_eq_zero] at hn
    obtain ⟨h1, rfl⟩ := hn
    have hr : st.remaining = [] := by
      rcases h1 with h1 | h1
      · omega
      · exact List.length_eq_zero_iff.1 h1
    rw [goal_of_idle hL hr rfl hk] at hg
    cases hg
  | succ n ih =>
    intro st k hL hf hg hk hH hn
    have hf' : ∃ f, Fits dom (pol st) f ∧ ∀ r ∈ dom.resTypes ++ dom.resUnits, st.avail.get? r = some (f r) := by
      unfold Fits at hf ⊢
      rw [hmo st]; exact hf
    obtain ⟨a, ha, hcase⟩ := list_step hw hs hpl hclosed hord hm hT hI (halloc st) (hperm st) (hsched st) hL hf'
    obtain ⟨g1, g2, g3, g4⟩ := hdr st a
    have hmodes : ∀ x ∈ dom.tasks, ∃ m, HasMode dom x m := by
      intro x hx
      obtain ⟨m, ms, dd, _, h2, h3, _⟩ := g4.2 x hx
      exact ⟨m, ms, dd, h2, h3⟩
    suffices hstep : ∃ s k', nextState dom (draw st a) st a = .ok s ∧ Live dom D s ∧
        (∃ f, Fits dom pol0 f ∧ ∀ r ∈ dom.resTypes ++ dom.resUnits, s.avail.get? r = some (f r)) ∧
        (∀ x ∈ s.ongoing, ∃ t0 d, 1 ≤ d ∧ d ≤ (D : Int) ∧ t0 ≤ s.t ∧ t0 + d ≤ s.t + (k' : Nat) ∧ Phase x t0 d s) ∧
        s.t + (D * s.remaining.length + k' : Nat) ≤ st.t + (D * st.remaining.length + k : Nat) ∧
        (D + 1) * s.remaining.length + k' ≤ n by
      obtain ⟨s, k', e1, e2, e3, e4, e5, e6⟩ := hstep
      have hter : isTerminal dom s = .ok (isGoal s) := by
        unfold isTerminal
        rw [possible_renewable hw hs e2.safe hmodes, bind_ok]
        have : ¬ dom.horizon < s.t := by omega
        simp [this]
        rfl
      have eq : follow dom pol meth ord dT dI draw (n + 1) st =
          if isGoal s then .ok s else follow dom pol meth ord dT dI draw n s := by
        rw [follow, ha, bind_ok, e1, bind_ok, hter, bind_ok]
        rfl
      rw [eq]
      cases hg' : isGoal s with
      | true =>
        simp only [if_true]
        exact ⟨s, rfl, e2, hg', by omega⟩
      | false =>
        simp only [Bool.false_eq_true, if_false]
        obtain ⟨st', f1, f2, f3, f4⟩ := ih s k' e2 e3 hg' e4 (by omega) e6
        exact ⟨st', f1, f2, f3, by omega⟩
    rcases hcase with ⟨x, m, hx, rfl, hHM, hE⟩ | ⟨rfl, ho⟩
    · obtain ⟨s, e1, e2, e3, e4, e5⟩ := live_start hw hs.noSkills hL (draw st (startIn x m)) hx hHM hE ⟨g2, g3⟩ g1
      have hav : s.avail = st.avail := (C13_availability_updated dom _ st s (startIn x m) e1).2 rfl
      have hmul : (D + 1) * st.remaining.length = (D + 1) * s.remaining.length + D + 1 := by
        rw [← e3, Nat.mul_add]; omega
      have hmul' : D * st.remaining.length = D * s.remaining.length + D := by
        rw [← e3, Nat.mul_add]; omega
      refine ⟨s, max k D, e1, e2, by rw [hav]; exact hf, ?_, by omega, by omega⟩
      intro y hy
      rcases e5 y hy with hy' | ⟨hP, hd1⟩
      · obtain ⟨t0, dd, b1, b2, b3, b4, b5⟩ := hk y hy'
        exact ⟨t0, dd, b1, b2, by omega, by omega, nextState_phase hL.safe.nodup b1 b5 (by simp) e1⟩
      · exact ⟨_, _, hd1, g3, by omega, by omega, hP⟩
    · have hon : st.ongoing ≠ [] := by
        rcases ho with h | h
        · exact h
        · rw [h] at hg; cases hg
      have hkpos : 1 ≤ k := by
        obtain ⟨x, hx⟩ := List.exists_mem_of_ne_nil _ hon
        obtain ⟨t0, dd, b1, _, b2, b3, b4⟩ := hk x hx
        rcases b4 with ⟨_, c1, _⟩ | ⟨c1, _⟩
        · omega
        · have := nodup_count hL.safe.nodup x
          rw [count_allOf] at this
          have a1 := List.count_pos_iff.2 c1
          have a2 := List.count_pos_iff.2 hx
          omega
      obtain ⟨s, e1, e2, e3, e4, e5⟩ := live_time hw hL (draw st timeAction) g4.roomy
      refine ⟨s, k - 1, e1, e2, ⟨_, g4, (C13_availability_updated dom _ st s timeAction e1).1 rfl⟩, ?_,
        by rw [e3]; omega, by rw [e3]; omega⟩
      intro y hy
      obtain ⟨t0, dd, b1, b2, b3, b4, b5⟩ := hk y (e5 y hy)
      exact ⟨t0, dd, b1, b2, by omega, by omega, nextState_phase hL.safe.nodup b1 b5 (by simp [timeAction]) e1⟩

end Verif.Gphh
