import Verif.Model.SchedRollout
import Verif.Lemmas.Sched

/-! The tasks with recorded details never change. -/
namespace Verif.Sched

theorem detailKeys_set {d : Dict TaskId Info} {x : TaskId} {i j : Info} (h : d.get? x = some i) :
    (d.set x j).keys = d.keys := by
  rw [Dict.keys_set, if_pos ((Dict.get?_isSome_iff_mem_keys d x).1 (by rw [h]; rfl))]

theorem nextState_detailKeys {dom : Dom} {d : Draw} {st st' : State} {a : Action} (h : nextState dom d st a = .ok st') :
    st'.details.keys = st.details.keys := by
  obtain ⟨s1, s2, s3, s4, s5, h1, h2, h3, h4, h5, rfl⟩ := nextState_ok h
  have e1 : s1.details.keys = st.details.keys := by
    rcases updatePause_ok h1 with ⟨_, rfl⟩ | ⟨_, task, uf, used, info, _, _, _, _, hi, rfl⟩
    · rfl
    · exact detailKeys_set hi
  have e2 : s2.details.keys = s1.details.keys := by
    rcases updateResume_ok h2 with ⟨_, rfl⟩ | ⟨_, task, info, b, use, _, _, hi, _, ⟨_, rfl⟩ | ⟨_, used, _, rfl⟩⟩
    · rfl
    · exact detailKeys_set hi
    · exact detailKeys_set hi
  have e3 : s3.details.keys = s2.details.keys := by
    rcases updateStart_ok h3 with ⟨_, rfl⟩ | ⟨_, b, use, _, ⟨_, rfl⟩ | ⟨_, task, mode, info, used, _, _, _, hi, _, rfl⟩⟩
    · rfl
    · rfl
    · exact detailKeys_set hi
  have e4 : s4.details.keys = s3.details.keys := by
    rcases updateDummy_ok h4 with ⟨_, rfl⟩ | ⟨_, task, info, _, hi, ⟨_, rfl⟩ | ⟨_, _, _, rfl⟩⟩
    · rfl
    · rfl
    · exact detailKeys_set hi
  have e5 : s5.details.keys = s4.details.keys := by
    rcases updateTime_ok h5 with ⟨_, rfl⟩ | ⟨_, pr, usedFor, used, st2, _, _, k3, rfl⟩
    · rfl
    · obtain ⟨done, _, k4⟩ := updateComplete_ok k3
      show st2.details.keys = s4.details.keys
      refine completions_invariant (fun s => s.details.keys = s4.details.keys) ?_ ?_ k4
      · intro s s' task hs hc
        obtain ⟨uf, used, info, _, _, _, hi, rfl⟩ := completeOne_ok hc
        exact (detailKeys_set hi).trans hs
      · rfl
  have e6 : (updateAvail dom d s5 a).details = s5.details := by
    unfold updateAvail
    split <;> rfl
  rw [e6, e5, e4, e3, e2, e1]

theorem follow_detailKeys {p : Policy} {meth : Method} {ord : List TaskId → List TaskId} {dT dI : Int} {dom : Dom}
    {draw : State → Action → Draw} : ∀ (n : Nat) {st st' : State}, p.follow meth ord dT dI dom draw n st = .ok st' →
    st'.details.keys = st.details.keys := by
  intro n
  induction n with
  | zero => intro st st' h; cases h; rfl
  | succ n ih =>
    intro st st' h
    simp only [Policy.follow, bind_eq_ok] at h
    obtain ⟨a, _, s, h1, b, _, h2⟩ := h
    cases b with
    | true =>
      cases h2
      exact nextState_detailKeys h1
    | false =>
      exact (ih h2).trans (nextState_detailKeys h1)

theorem initState_detailKeys {dom : Dom} (d : Draw) (h : dom.tasks.Nodup) : (initState dom d).details.keys = dom.tasks := by
  have key : ∀ (l : List TaskId) (acc : Dict TaskId Info), (acc.keys ++ l).Nodup →
      (l.foldl (fun m x => Dict.set m x ({} : Info)) acc).keys = acc.keys ++ l := by
    intro l
    induction l with
    | nil => intro acc _; simp
    | cons x l ih =>
      intro acc hn
      have hx : x ∉ acc.keys := by
        intro hx
        rw [List.nodup_append] at hn
        exact hn.2.2 x hx x (by simp) rfl
      rw [List.foldl_cons, ih, Dict.keys_set, if_neg hx]
      · simp
      · rw [Dict.keys_set, if_neg hx]; simpa using hn
  have := key dom.tasks [] (by simpa [Dict.keys] using h)
  exact this

end Verif.Sched
