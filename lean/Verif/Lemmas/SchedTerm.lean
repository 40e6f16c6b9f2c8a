import Verif.Model.SchedRollout
import Verif.Lemmas.SchedSafe

/-! The termination test of the scheduling domain. -/
namespace Verif.Sched

/-- Enough is left of every non-renewable resource type for a mode with needs `dd`. -/
def Left (dom : Dom) (st : State) (dd : Dict Res Int) (l : List Res) : Prop :=
  ∀ r ∈ l, dom.renewable.get? r = some false → val dd r ≤ val st.avail r - val st.used r

instance (dom : Dom) (st : State) (dd : Dict Res Int) (l : List Res) : Decidable (Left dom st dd l) := by
  unfold Left; infer_instance

theorem modePossible_spec {dom : Dom} {st : State} {dd : Dict Res Int} {l : List Res}
    (hl : ∀ r ∈ l, (dom.renewable.get? r).isSome = true ∧ (st.avail.get? r).isSome = true ∧ (st.used.get? r).isSome = true) :
    modePossible dom st (.constant dd) l = .ok (decide (Left dom st dd l)) := by
  induction l with
  | nil => simp [modePossible, Left]
  | cons r l ih =>
    have ih := ih fun r hr => hl r (List.mem_cons_of_mem _ hr)
    obtain ⟨h1, h2, h3⟩ := hl r (by simp)
    obtain ⟨b, hb⟩ := some_of_isSome h1
    obtain ⟨a, ha⟩ := some_of_isSome h2
    obtain ⟨u, hu⟩ := some_of_isSome h3
    have hcons : Left dom st dd (r :: l) ↔
        (dom.renewable.get? r = some false → val dd r ≤ val st.avail r - val st.used r) ∧ Left dom st dd l := by
      simp [Left]
    rw [modePossible, Dict.get_ok_iff.2 hb, bind_ok]
    cases b with
    | true =>
      simp only [if_true, ih, Except.ok.injEq, decide_eq_decide]
      rw [hcons, hb]; simp
    | false =>
      simp only [Bool.false_eq_true, if_false, Mode.constantNeed, bind_ok, Dict.get_ok_iff.2 ha, Dict.get_ok_iff.2 hu]
      have e : (dd.get? r).getD 0 = val dd r := rfl
      rw [e]
      by_cases hlt : a - u - val dd r < 0
      · rw [if_pos hlt]
        show Except.ok false = _
        rw [Except.ok.injEq, eq_comm, decide_eq_false_iff_not, hcons]
        rintro ⟨h, _⟩
        have := h hb
        rw [val_of_get ha, val_of_get hu] at this
        omega
      · rw [if_neg hlt, ih, Except.ok.injEq, decide_eq_decide, hcons]
        rw [val_of_get ha, val_of_get hu]
        constructor
        · exact fun h => ⟨fun _ => by omega, h⟩
        · exact fun h => h.2

/-- Some mode of the task fits what is left of the non-renewable resources. -/
def SomeFits (dom : Dom) (st : State) (ms : Dict ModeId Mode) (l : List ModeId) : Prop :=
  ∃ m ∈ l, ∃ dd, ms.get? m = some (.constant dd) ∧ Left dom st dd dom.resTypes

theorem someMode_spec {dom : Dom} {st : State} {ms : Dict ModeId Mode} {l : List ModeId} {last : Option Bool}
    (hl : ∀ r ∈ dom.resTypes, (dom.renewable.get? r).isSome = true ∧ (st.avail.get? r).isSome = true ∧ (st.used.get? r).isSome = true)
    (hm : ∀ m ∈ l, ∃ dd, ms.get? m = some (.constant dd)) (hne : l ≠ [] ∨ last = some false) :
    ∃ b, someMode dom st ms last l = .ok b ∧ (b = true ↔ SomeFits dom st ms l) := by
  induction l generalizing last with
  | nil =>
    rcases hne with h | rfl
    · exact absurd rfl h
    · exact ⟨false, rfl, by simp [SomeFits]⟩
  | cons m l ih =>
    obtain ⟨dd, hd⟩ := hm m (by simp)
    have e : someMode dom st ms last (m :: l) =
        if decide (Left dom st dd dom.resTypes) then .ok true else someMode dom st ms (some false) l := by
      rw [someMode, Dict.get_ok_iff.2 hd, bind_ok, modePossible_spec hl, bind_ok]
      rfl
    rw [e]
    by_cases hf : Left dom st dd dom.resTypes
    · refine ⟨true, by rw [if_pos (by simpa using hf)], ?_⟩
      simp only [true_iff]
      exact ⟨m, by simp, dd, hd, hf⟩
    · obtain ⟨b, h1, h2⟩ := ih (last := some false) (fun m hm' => hm m (List.mem_cons_of_mem _ hm')) (.inr rfl)
      refine ⟨b, by rw [if_neg (by simpa using hf)]; exact h1, h2.trans ?_⟩
      constructor
      · rintro ⟨m', h3, h4⟩
        exact ⟨m', List.mem_cons_of_mem _ h3, h4⟩
      · rintro ⟨m', h3, dd', h4, h5⟩
        rcases List.mem_cons.1 h3 with rfl | h3
        · rw [hd] at h4; cases h4
          exact absurd h5 hf
        · exact ⟨m', h3, dd', h4, h5⟩

theorem tasksPossible_spec {dom : Dom} {st : State} {l : List TaskId} {last : Option Bool}
    (hl : ∀ r ∈ dom.resTypes, (dom.renewable.get? r).isSome = true ∧ (st.avail.get? r).isSome = true ∧ (st.used.get? r).isSome = true)
    (hx : ∀ x ∈ l, ∃ ms, dom.modes.get? x = some ms ∧ ms.keys ≠ [] ∧ ∀ m ∈ ms.keys, ∃ dd, ms.get? m = some (.constant dd)) :
    ∃ b, tasksPossible dom st last l = .ok b ∧
      (b = true ↔ ∀ x ∈ l, ∃ ms, dom.modes.get? x = some ms ∧ SomeFits dom st ms ms.keys) := by
  induction l generalizing last with
  | nil => exact ⟨true, rfl, by simp⟩
  | cons x l ih =>
    obtain ⟨ms, h1, h2, h3⟩ := hx x (by simp)
    obtain ⟨b, h4, h5⟩ := someMode_spec (last := last) hl h3 (.inl h2)
    rw [tasksPossible, Dict.get_ok_iff.2 h1, bind_ok, h4, bind_ok]
    cases b with
    | false =>
      refine ⟨false, rfl, ?_⟩
      simp only [Bool.false_eq_true, false_iff]
      intro h
      obtain ⟨ms', g1, g2⟩ := h x (by simp)
      rw [h1] at g1; cases g1
      have := h5.2 g2
      cases this
    | true =>
      obtain ⟨b', g1, g2⟩ := ih (last := some true) fun y hy => hx y (List.mem_cons_of_mem _ hy)
      refine ⟨b', by simpa using g1, g2.trans ?_⟩
      constructor
      · intro h y hy
        rcases List.mem_cons.1 hy with rfl | hy
        · exact ⟨ms, h1, h5.1 rfl⟩
        · exact h y hy
      · exact fun h y hy => h y (List.mem_cons_of_mem _ hy)

/-- The test of a safe state of a completely described domain. -/
theorem allTasksPossible_spec {dom : Dom} (hw : WellFormed dom) {st : State} (hS : Safe dom st)
    (hm : ∀ x ∈ st.remaining, ∃ m, HasMode dom x m) :
    ∃ b, allTasksPossible dom st = .ok b ∧ (b = true ↔ ∀ x ∈ st.remaining, ∃ m ms dd,
      dom.modes.get? x = some ms ∧ ms.get? m = some (.constant dd) ∧
      ∀ r ∈ dom.resTypes, dom.renewable.get? r = some false → val dd r ≤ val st.avail r - val st.used r) := by
  have hl : ∀ r ∈ dom.resTypes, (dom.renewable.get? r).isSome = true ∧ (st.avail.get? r).isSome = true ∧
      (st.used.get? r).isSome = true := fun r hr =>
    ⟨hw.renewable r hr, (hS.entries r).2.2 (List.mem_append_left _ hr), (hS.entries r).1.2 (List.mem_append_left _ hr)⟩
  obtain ⟨b, h1, h2⟩ := tasksPossible_spec (last := none) (l := st.remaining) hl (by
    intro x hx
    obtain ⟨m, ms, dd, h1, h2⟩ := hm x hx
    refine ⟨ms, h1, ?_, ?_⟩
    · exact List.ne_nil_of_mem ((Dict.get?_isSome_iff_mem_keys ms m).1 (by rw [h2]; rfl))
    · intro m' hm'
      obtain ⟨md, hmd⟩ := some_of_isSome ((Dict.get?_isSome_iff_mem_keys ms m').2 hm')
      obtain ⟨dd', rfl⟩ := hw.constant x ms m' md h1 hmd
      exact ⟨dd', hmd⟩)
  refine ⟨b, h1, h2.trans ?_⟩
  constructor
  · intro h x hx
    obtain ⟨ms, g1, m, _, dd, g3, g4⟩ := h x hx
    exact ⟨m, ms, dd, g1, g3, g4⟩
  · intro h x hx
    obtain ⟨m, ms, dd, g1, g3, g4⟩ := h x hx
    exact ⟨ms, g1, m, (Dict.get?_isSome_iff_mem_keys ms m).1 (by rw [g3]; rfl), dd, g3, g4⟩

end Verif.Sched
