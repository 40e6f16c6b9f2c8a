import Verif.Lemmas.SchedTrack
import Mathlib.Algebra.Order.Field.Rat
import Mathlib.Algebra.Order.Field.Basic
import Mathlib.Tactic.Linarith
import Mathlib.Tactic.Ring

/-! How long a started task stays ongoing. -/
namespace Verif.Sched

theorem threshold_div (k d : Int) (h : 1 ≤ d) :
    threshold ≤ (k : Rat) / d ↔ 9999 * d ≤ 10000 * k := by
  have hd : (0 : Rat) < d := by exact_mod_cast (by omega : 0 < d)
  unfold threshold
  rw [le_div_iff₀ hd, ← Int.cast_le (R := Rat)]
  push_cast
  constructor <;> intro h <;> linarith

/-- `x` started at `t0` with drawn duration `d`: still ongoing, or complete after `e` units. -/
def Phase (x : TaskId) (t0 d : Int) (st : State) : Prop :=
  (x ∈ st.ongoing ∧ 10000 * (st.t - t0) < 9999 * d ∧ t0 ≤ st.t ∧
    st.progress.get? x = some (((st.t - t0 : Int) : Rat) / d) ∧
    ∃ info, st.details.get? x = some info ∧ info.start = some t0 ∧ info.sampled = some d) ∨
  (x ∈ st.complete ∧ ∃ e, 10000 * (e - 1) < 9999 * d ∧ 9999 * d ≤ 10000 * e ∧ t0 + e ≤ st.t ∧
    ∃ info, st.details.get? x = some info ∧ info.start = some t0 ∧ info.finish = some (t0 + e))

theorem Phase.same {x : TaskId} {t0 d : Int} {st st' : State} (h : Phase x t0 d st)
    (hs : Same x st st') (ht : st'.t = st.t) : Phase x t0 d st' := by
  unfold Phase at *
  rw [hs.ong, hs.com, hs.progress, hs.details, ht]
  exact h

private theorem apart {st : State} (hn : (allOf st).Nodup) (x : TaskId) :
    st.remaining.count x + st.ongoing.count x + st.paused.count x + st.complete.count x ≤ 1 := by
  have := nodup_count hn x
  rw [count_allOf] at this
  omega

theorem Phase.where_ {x : TaskId} {t0 d : Int} {st : State} (hn : (allOf st).Nodup)
    (h : Phase x t0 d st) : x ∉ st.remaining ∧ x ∉ st.paused := by
  have h1 := apart hn x
  have : 0 < st.ongoing.count x + st.complete.count x := by
    rcases h with ⟨h, _⟩ | ⟨h, _⟩
    · have := List.count_pos_iff.2 h; omega
    · have := List.count_pos_iff.2 h; omega
  exact ⟨List.count_eq_zero.1 (by omega), List.count_eq_zero.1 (by omega)⟩

theorem Phase.dummyOk {x : TaskId} {t0 d : Int} {st : State} (hn : (allOf st).Nodup) (hd : 1 ≤ d)
    (h : Phase x t0 d st) (info : Info) (hi : st.details.get? x = some info)
    (hs : info.sampled = some 0) : x ∉ st.ongoing := by
  rcases h with ⟨_, _, _, _, i, h1, _, h2⟩ | ⟨h, _⟩
  · rw [hi] at h1; cases h1
    rw [hs] at h2
    have := Option.some.inj h2
    omega
  · have h1 := apart hn x
    have := List.count_pos_iff.2 h
    exact List.count_eq_zero.1 (by omega)

theorem updateTime_phase {dom : Dom} {st st' : State} {a : Action} {x : TaskId} {t0 d : Int}
    (hn : (allOf st).Nodup) (hd : 1 ≤ d) (hP : Phase x t0 d st)
    (h : updateTime dom st a = .ok st') : Phase x t0 d st' := by
  cases hta : a.timeProgress with
  | false =>
    rcases updateTime_ok h with ⟨_, rfl⟩ | ⟨ht, _⟩
    · exact hP
    · rw [hta] at ht; cases ht
  | true =>
    have ht := updateTime_t h
    rw [hta] at ht
    simp only [if_true] at ht
    obtain ⟨r1, r2⟩ := updateTime_record (x := x) hn hta h
    have hdr : (0 : Rat) < d := by exact_mod_cast (by omega : 0 < d)
    rcases hP with ⟨h1, h2, h3, h4, info, h5, h6, h7⟩ | ⟨h1, e, h2, h3, h4, info, h5, h6, h7⟩
    · obtain ⟨p, mode, info', g1, g2, g3, g4, g5, g6⟩ := r2 h1
      rw [h5] at g3; cases g3
      rw [h4] at g1; cases g1
      have hp : ((st.t - t0 : Int) : Rat) / d + taskProgress dom x mode info.sampled =
          ((st'.t - t0 : Int) : Rat) / d := by
        simp only [taskProgress, h7, hdr.ne', if_false]
        rw [ht, ← add_div]
        congr 1
        push_cast
        ring
      rw [hp] at g6
      rcases g6 with ⟨e1, e2, e3, e4, e5⟩ | ⟨e1, e2, e3, e4, e5⟩
      · left
        refine ⟨e2, ?_, by omega, e5, info, e4, h6, h7⟩
        have := mt (threshold_div (st'.t - t0) d hd).2 (not_le.2 e1)
        omega
      · right
        refine ⟨e3, st'.t - t0, by omega, (threshold_div _ d hd).1 e1, by omega, _, e4, h6, ?_⟩
        simp only [Option.some.injEq]; omega
    · have hxo : x ∉ st.ongoing := by
        have a1 := apart hn x
        have := List.count_pos_iff.2 h1
        exact List.count_eq_zero.1 (by omega)
      obtain ⟨g1, g2, g3, g4, g5, g6⟩ := r1 hxo
      right
      exact ⟨g6.2 h1, e, h2, h3, by omega, info, by rw [g1]; exact h5, h6, h7⟩

theorem nextState_phase {dom : Dom} {dr : Draw} {st st' : State} {a : Action} {x : TaskId}
    {t0 d : Int} (hn : (allOf st).Nodup) (hd : 1 ≤ d) (hP : Phase x t0 d st)
    (hx : a.kind = .pause → a.task ≠ some x)
    (h : nextState dom dr st a = .ok st') : Phase x t0 d st' := by
  obtain ⟨s1, s2, s3, s4, s5, h1, h2, h3, h4, h5, rfl⟩ := nextState_ok h
  have n1 := (updatePause_sets hn h1).nodup hn
  have n2 := (updateResume_sets n1 h2).nodup n1
  have n3 := (updateStart_sets n2 h3).nodup n2
  have n4 := (updateDummy_sets n3 h4).nodup n3
  have p1 := hP.same (updatePause_same hx h1) (updatePause_t h1)
  have p2 := p1.same (updateResume_same (fun _ => .inr (p1.where_ n1).2) h2) (updateResume_t h2)
  have p3 := p2.same (updateStart_same (fun _ => .inr (p2.where_ n2).1) h3) (updateStart_t h3)
  have p4 := p3.same (updateDummy_same (fun _ _ i hi hs => p3.dummyOk n3 hd i hi hs) h4)
    (updateDummy_t h4)
  have p5 := updateTime_phase n4 hd p4 h5
  refine p5.same (updateAvail_same dom dr s5 a x) ?_
  unfold updateAvail
  split <;> rfl

/-- An accepted start with a positive drawn duration opens a phase. -/
theorem nextState_opens {dom : Dom} {dr : Draw} {st st' : State} {a : Action} {x : TaskId}
    (hn : (allOf st).Nodup) (hd : 1 ≤ dr.duration) (hk : a.kind = .start) (ha : a.task = some x)
    (hr : x ∈ st.remaining) (hr' : x ∉ st'.remaining)
    (h : nextState dom dr st a = .ok st') : Phase x st.t dr.duration st' := by
  obtain ⟨s1, s2, s3, s4, s5, h1, h2, h3, h4, h5, rfl⟩ := nextState_ok h
  have e1 : s1 = st := by
    rcases updatePause_ok h1 with ⟨_, h⟩ | ⟨h, _⟩
    · exact h
    · rw [hk] at h; cases h
  subst e1
  have e2 : s2 = s1 := by
    rcases updateResume_ok h2 with ⟨_, h⟩ | ⟨h, _⟩
    · exact h
    · rw [hk] at h; cases h
  subst e2
  have n3 := (updateStart_sets hn h3).nodup hn
  have n4 := (updateDummy_sets n3 h4).nodup n3
  have hlast : Same x s5 (updateAvail dom dr s5 a) := updateAvail_same dom dr s5 a x
  have htl : (updateAvail dom dr s5 a).t = s5.t := by
    unfold updateAvail
    split <;> rfl
  rw [hlast.rem] at hr'
  have hxs3 : x ∉ s3.remaining := by
    intro hx3
    have hro : x ∉ s3.ongoing := by
      have a1 := apart n3 x
      have := List.count_pos_iff.2 hx3
      exact List.count_eq_zero.1 (by omega)
    have hm4 : x ∈ s4.remaining := (updateDummy_same (fun _ _ _ _ _ => hro) h4).rem.2 hx3
    have hro4 : x ∉ s4.ongoing := by
      have a1 := apart n4 x
      have := List.count_pos_iff.2 hm4
      exact List.count_eq_zero.1 (by omega)
    cases hta : a.timeProgress with
    | true => exact hr' (((updateTime_record (x := x) n4 hta h5).1 hro4).2.2.1.2 hm4)
    | false =>
      rcases updateTime_ok h5 with ⟨_, rfl⟩ | ⟨ht, _⟩
      · exact hr' hm4
      · rw [hta] at ht; cases ht
  have p3 : Phase x s2.t dr.duration s3 := by
    rcases updateStart_ok h3 with ⟨hk', _⟩ | ⟨_, b, use, _, hc⟩
    · exact absurd hk hk'
    · rcases hc with ⟨_, rfl⟩ | ⟨_, task, mode, info, used, ht, _, hm, _, _, rfl⟩
      · exact absurd hr hxs3
      · rw [ha] at ht; cases ht
        left
        refine ⟨mem_sadd.2 (.inr rfl), ?_, Int.le_refl _, ?_, _, Dict.get?_set_self _ _ _, rfl, rfl⟩
        · have : (started dr s2 x mode info use used).t = s2.t := rfl
          rw [this]; omega
        · have : (started dr s2 x mode info use used).t = s2.t := rfl
          rw [this]
          simp only [Int.sub_self, Int.cast_zero, zero_div]
          exact Dict.get?_set_self _ _ _
  have p4 := p3.same (updateDummy_same (fun _ _ i hi hs => p3.dummyOk n3 hd i hi hs) h4)
    (updateDummy_t h4)
  exact (updateTime_phase n4 hd p4 h5).same hlast htl

theorem run_phase {dom : Dom} {l : List (Action × Draw)} {st st' : State} {x : TaskId} {t0 d : Int}
    (hn : (allOf st).Nodup) (hd : 1 ≤ d) (hP : Phase x t0 d st)
    (hx : ∀ p ∈ l, p.1.kind = .pause → p.1.task ≠ some x)
    (h : run dom st l = .ok st') : Phase x t0 d st' := by
  induction l generalizing st with
  | nil => cases h; exact hP
  | cons p l ih =>
    obtain ⟨a, dr⟩ := p
    obtain ⟨s, h1, h2⟩ := run_cons_ok.1 h
    exact ih ((nextState_sets hn h1).nodup hn)
      (nextState_phase hn hd hP (fun hk => hx (a, dr) (by simp) hk) h1)
      (fun p hp => hx p (by simp [hp])) h2

end Verif.Sched
