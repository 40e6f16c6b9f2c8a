import Verif.Lemmas.SchedRes

/-! Invariants of resource accounting. -/
namespace Verif.Sched

/-- The renewable quantities in use are what the ongoing tasks hold. -/
structure Acc (dom : Dom) (st : State) : Prop where
  nodup : (allOf st).Nodup
  kn : st.usedFor.keys.Nodup
  sub : ∀ x, (st.usedFor.get? x).isSome = true → x ∈ st.ongoing
  inn : ∀ x uf, st.usedFor.get? x = some uf → uf.keys.Nodup
  sum : ∀ r, dom.renewable.get? r = some true → val st.used r = total r st.usedFor

theorem keys_erase_nodup {d : Dict TaskId (Dict Res Int)} (h : d.keys.Nodup) (k : TaskId) :
    (Dict.keys (d.erase k)).Nodup := by
  rw [Dict.keys_erase]; exact h.erase k

theorem get?_erase_some {d : Dict TaskId (Dict Res Int)} (h : d.keys.Nodup) {k x : TaskId}
    {v : Dict Res Int} (hx : (d.erase k).get? x = some v) : x ≠ k ∧ d.get? x = some v := by
  by_cases hk : x = k
  · subst hk
    rw [Dict.get?_erase_self h] at hx; cases hx
  · rw [Dict.get?_erase_ne _ hk] at hx
    exact ⟨hk, hx⟩

theorem notUsed {dom : Dom} {st : State} (hI : Acc dom st) {x : TaskId} (hx : x ∉ st.ongoing) :
    st.usedFor.get? x = none := by
  cases h : st.usedFor.get? x with
  | none => rfl
  | some v => exact absurd (hI.sub x (by rw [h]; rfl)) hx

private theorem apart' {st : State} (hn : (allOf st).Nodup) (x : TaskId) :
    st.remaining.count x + st.ongoing.count x + st.paused.count x + st.complete.count x ≤ 1 := by
  have := nodup_count hn x
  rw [count_allOf] at this
  omega

theorem notOngoing_of_remaining {st : State} (hn : (allOf st).Nodup) {x : TaskId}
    (hx : x ∈ st.remaining) : x ∉ st.ongoing := by
  have h1 := apart' hn x
  have := List.count_pos_iff.2 hx
  exact List.count_eq_zero.1 (by omega)

theorem notOngoing_of_paused {st : State} (hn : (allOf st).Nodup) {x : TaskId}
    (hx : x ∈ st.paused) : x ∉ st.ongoing := by
  have h1 := apart' hn x
  have := List.count_pos_iff.2 hx
  exact List.count_eq_zero.1 (by omega)

/-- Dropping a task together with the renewable quantities it holds. -/
theorem Acc.drop {dom : Dom} {st st' : State} {task : TaskId} {uf used : Dict Res Int} (hI : Acc dom st)
    (hn' : (allOf st').Nodup) (hu : st.usedFor.get? task = some uf)
    (hong : st'.ongoing = st.ongoing.erase task) (huf : st'.usedFor = st.usedFor.erase task)
    (hused : st'.used = used)
    (hval : ∀ r, dom.renewable.get? r = some true → val used r = val st.used r - val uf r) :
    Acc dom st' := by
  refine ⟨hn', ?_, ?_, ?_, ?_⟩
  · rw [huf]; exact keys_erase_nodup hI.kn task
  · intro x hx
    rw [huf] at hx
    obtain ⟨v, hv⟩ := Option.isSome_iff_exists.1 hx
    obtain ⟨h1, h2⟩ := get?_erase_some hI.kn hv
    rw [hong]
    exact (List.mem_erase_of_ne h1).2 (hI.sub x (by rw [h2]; rfl))
  · intro x v hv
    rw [huf] at hv
    exact hI.inn x v (get?_erase_some hI.kn hv).2
  · intro r hr
    rw [hused, huf, hval r hr, total_erase hu, hI.sum r hr]

/-- Adding a task together with the quantities it takes. -/
theorem Acc.take {dom : Dom} {st st' : State} {task : TaskId} {use used : Dict Res Int}
    (hI : Acc dom st) (hn' : (allOf st').Nodup) (hx : task ∉ st.ongoing) (hkn : use.keys.Nodup)
    (hong : st'.ongoing = sadd st.ongoing task) (huf : st'.usedFor = st.usedFor.set task use)
    (hused : st'.used = used) (ha : addAll st.used use = .ok used) : Acc dom st' := by
  refine ⟨hn', ?_, ?_, ?_, ?_⟩
  · rw [huf]; exact Dict.nodup_keys_set _ _ hI.kn
  · intro x hx
    rw [huf, Dict.get?_set] at hx
    rw [hong, mem_sadd]
    split at hx
    · exact .inr (by assumption)
    · exact .inl (hI.sub x hx)
  · intro x v hv
    rw [huf, Dict.get?_set] at hv
    split at hv
    · cases hv; exact hkn
    · exact hI.inn x v hv
  · intro r hr
    rw [hused, huf, addAll_val hkn ha, total_set_new use (notUsed hI hx), hI.sum r hr]

theorem updatePause_acc {dom : Dom} {st st' : State} {a : Action} (hI : Acc dom st)
    (h : updatePause dom st a = .ok st') : Acc dom st' := by
  have hn' := (updatePause_sets hI.nodup h).nodup hI.nodup
  rcases updatePause_ok h with ⟨_, rfl⟩ | ⟨_, task, uf, used, info, _, hm, hu, hrel, hi, rfl⟩
  · exact hI
  · refine hI.drop hn' hu rfl rfl rfl fun r hr => ?_
    refine (releaseAll_val (hI.inn _ _ hu) hrel r).1 ?_
    simp [isRenewable, Dict.get_ok_iff.2 hr]
    rfl

theorem updateResume_acc {dom : Dom} {st st' : State} {a : Action} (hI : Acc dom st)
    (h : updateResume dom st a = .ok st') : Acc dom st' := by
  have hn' := (updateResume_sets hI.nodup h).nodup hI.nodup
  rcases updateResume_ok h with ⟨_, rfl⟩ | ⟨hk, task, info, b, use, _, hm, hi, hch, hc⟩
  · exact hI
  · rcases hc with ⟨_, rfl⟩ | ⟨rfl, used, ha, rfl⟩
    · exact ⟨hn', hI.kn, fun x hx => mem_sadd.2 (.inl (hI.sub x hx)), hI.inn, hI.sum⟩
    · exact hI.take hn' (notOngoing_of_paused hI.nodup hm) (checkStart_nodup (.inr hk) hch) rfl rfl rfl ha

theorem updateStart_acc {dom : Dom} {d : Draw} {st st' : State} {a : Action} (hI : Acc dom st)
    (h : updateStart dom d st a = .ok st') : Acc dom st' := by
  have hn' := (updateStart_sets hI.nodup h).nodup hI.nodup
  rcases updateStart_ok h with ⟨_, rfl⟩ | ⟨hk, b, use, hch, hc⟩
  · exact hI
  · rcases hc with ⟨_, rfl⟩ | ⟨rfl, task, mode, info, used, hta, _, hm, hi, ha, rfl⟩
    · exact hI
    · exact hI.take hn' (notOngoing_of_remaining hI.nodup hm) (checkStart_nodup (.inl hk) hch) rfl rfl rfl ha

theorem completeOne_acc {dom : Dom} {st st' : State} {task : TaskId} (hI : Acc dom st)
    (h : completeOne dom st task = .ok st') : Acc dom st' := by
  have hn' := (completeOne_sets hI.nodup h).nodup hI.nodup
  obtain ⟨uf, used, info, hm, hu, hrel, _, rfl⟩ := completeOne_ok h
  exact hI.drop hn' hu rfl rfl rfl fun r hr =>
    (releaseAll_val (hI.inn _ _ hu) hrel r).1 (Dict.get_ok_iff.2 hr)

/-- The consumption update keeps recorded holders and moves totals and use together. -/
theorem updateCons_ok {dom : Dom} {st : State} {l : List TaskId}
    {uf uf' : Dict TaskId (Dict Res Int)} {us us' : Dict Res Int}
    (h : updateCons dom st l (uf, us) = .ok (uf', us')) :
    (uf.keys.Nodup → uf'.keys.Nodup) ∧
    (∀ x, (uf'.get? x).isSome = (uf.get? x).isSome) ∧
    ((∀ x v, uf.get? x = some v → v.keys.Nodup) → ∀ x v, uf'.get? x = some v → v.keys.Nodup) ∧
    (∀ r, val us' r - total r uf' = val us r - total r uf) := by
  induction l generalizing uf us with
  | nil =>
    simp only [updateCons, Except.ok.injEq, Prod.mk.injEq] at h
    obtain ⟨rfl, rfl⟩ := h
    exact ⟨id, fun _ => rfl, id, fun _ => rfl⟩
  | cons task l ih =>
    simp only [updateCons, bind_eq_ok, Dict.get_ok_iff] at h
    obtain ⟨mode, h1, info, h2, time, h3, use, h4, h5⟩ := h
    split at h5
    · exact ih h5
    · simp only [bind_eq_ok, Dict.get_ok_iff] at h5
      obtain ⟨v, h6, ⟨v', u'⟩, h7, h8⟩ := h5
      obtain ⟨g1, g2, g3, g4⟩ := ih h8
      refine ⟨fun hn => g1 (Dict.nodup_keys_set _ _ hn), ?_, ?_, ?_⟩
      · intro x
        rw [g2 x, Dict.get?_set]
        split
        · rename_i he; subst he; rw [h6]; rfl
        · rfl
      · intro hin
        refine g3 fun x w hw => ?_
        rw [Dict.get?_set] at hw
        split at hw
        · cases hw; exact replaceUse_keys h7 (hin _ _ h6)
        · exact hin x w hw
      · intro r
        rw [g4 r, total_set_old v' h6]
        have := replaceUse_val h7 r
        simp only
        omega

theorem updateTime_acc {dom : Dom} {st st' : State} {a : Action} (hI : Acc dom st)
    (h : updateTime dom st a = .ok st') : Acc dom st' := by
  rcases updateTime_ok h with ⟨ht, rfl⟩ | ⟨ht, pr, uf, us, st2, _, h2, h3, rfl⟩
  · exact hI
  · obtain ⟨g1, g2, g3, g4⟩ := updateCons_ok h2
    obtain ⟨done, _, h4⟩ := updateComplete_ok h3
    have h0 : Acc dom { st with
        progress := done.foldl (fun d x => Dict.set d x (1 : Rat)) pr, usedFor := uf, used := us } := by
      refine ⟨hI.nodup, g1 hI.kn, fun x hx => hI.sub x (by rw [← g2 x]; exact hx), g3 hI.inn, ?_⟩
      intro r hr
      have := g4 r
      have := hI.sum r hr
      show val us r = total r uf
      omega
    have h5 : Acc dom st2 := completions_invariant (Acc dom)
      (fun s s' t hs hc => completeOne_acc hs hc) h0 h4
    exact ⟨h5.nodup, h5.kn, h5.sub, h5.inn, h5.sum⟩

/-- A drawn duration of zero is only for a mode without renewable needs. -/
def ZeroFree (dom : Dom) (a : Action) (d : Draw) : Prop :=
  a.kind = .start → d.duration = 0 → a.units.getD [] = [] ∧
    ∀ task m ms md, a.task = some task → a.mode = some m → dom.modes.get? task = some ms →
      ms.get? m = some md → ∀ r n t, md.need r t = .ok n → n = 0

/-- No ongoing or paused task has drawn duration zero. -/
def NoZero (st : State) : Prop :=
  ∀ x info, (x ∈ st.ongoing ∨ x ∈ st.paused) → st.details.get? x = some info → info.sampled ≠ some 0

theorem nextState_acc {dom : Dom} {d : Draw} {st st' : State} {a : Action} (hI : Acc dom st)
    (hz : NoZero st) (hf : ZeroFree dom a d) (h : nextState dom d st a = .ok st') :
    Acc dom st' ∧ NoZero st' := by
  obtain ⟨s1, s2, s3, s4, s5, h1, h2, h3, h4, h5, rfl⟩ := nextState_ok h
  have i1 := updatePause_acc hI h1
  have i2 := updateResume_acc i1 h2
  have i3 := updateStart_acc i2 h3
  have z1 : NoZero s1 := by
    rcases updatePause_ok h1 with ⟨_, rfl⟩ | ⟨_, task, uf, used, info, _, hm, _, _, hi, rfl⟩
    · exact hz
    · intro x i hx hd
      by_cases he : x = task
      · subst he
        rw [Dict.get?_set_self] at hd
        cases hd
        exact hz x info (.inl hm) hi
      · rw [Dict.get?_set_ne _ _ he] at hd
        refine hz x i ?_ hd
        simpa only [List.mem_erase_of_ne he, mem_sadd_ne he] using hx
  have z2 : NoZero s2 := by
    rcases updateResume_ok h2 with ⟨_, rfl⟩ | ⟨_, task, info, b, use, _, hm, hi, _, hc⟩
    · exact z1
    · have : NoZero (resumed s1 task info) := by
        intro x i hx hd
        simp only [resumed] at hx hd
        by_cases he : x = task
        · subst he
          rw [Dict.get?_set_self] at hd
          cases hd
          exact z1 x info (.inr hm) hi
        · rw [Dict.get?_set_ne _ _ he] at hd
          refine z1 x i ?_ hd
          simpa only [List.mem_erase_of_ne he, mem_sadd_ne he] using hx
      rcases hc with ⟨_, rfl⟩ | ⟨_, used, _, rfl⟩
      · exact this
      · exact this
  have key : Acc dom s4 ∧ NoZero s4 := by
    have hn4 := (updateDummy_sets i3.nodup h4).nodup i3.nodup
    rcases updateStart_ok h3 with ⟨hk, rfl⟩ | ⟨hk, b, use, hch, hc⟩
    · rcases updateDummy_ok h4 with ⟨_, rfl⟩ | ⟨hk', _⟩
      · exact ⟨i3, z2⟩
      · exact absurd hk' hk
    · rcases hc with ⟨rfl, rfl⟩ | ⟨rfl, task, mode, info, used, hta, hmo, hm, hi, ha, rfl⟩
      · rcases updateDummy_ok h4 with ⟨hk', _⟩ | ⟨_, task, info, ht, hi, hc⟩
        · exact absurd hk hk'
        · rcases hc with ⟨_, rfl⟩ | ⟨hs, hm, _, rfl⟩
          · exact ⟨i3, z2⟩
          · exact absurd hs (z2 task info (.inl hm) hi)
      · rcases updateDummy_ok h4 with ⟨hk', _⟩ | ⟨_, task', info', ht, hi', hc⟩
        · exact absurd hk hk'
        · rw [hta] at ht; cases ht
          have he : info' = { info with start := some s2.t, sampled := some d.duration } := by
            simp only [started] at hi'
            rw [Dict.get?_set_self] at hi'
            exact (Option.some.inj hi').symm
          rcases hc with ⟨hs, rfl⟩ | ⟨hs, hm', ⟨uf, hu⟩, rfl⟩
          · refine ⟨i3, ?_⟩
            intro x i hx hd
            simp only [started] at hx hd
            by_cases hxe : x = task
            · subst hxe
              rw [Dict.get?_set_self] at hd
              cases hd
              rw [he] at hs; exact hs
            · rw [Dict.get?_set_ne _ _ hxe] at hd
              refine z2 x i ?_ hd
              simpa only [mem_sadd_ne hxe] using hx
          · have hd0 : d.duration = 0 := by
              rw [he] at hs; exact Option.some.inj hs
            obtain ⟨hun, hneed⟩ := hf hk hd0
            have hu' : uf = use := by
              simp only [started] at hu
              rw [Dict.get?_set_self] at hu
              exact (Option.some.inj hu).symm
            refine ⟨i3.drop (uf := uf) hn4 hu rfl rfl rfl ?_, ?_⟩
            · intro r hr
              obtain ⟨task', _, time, e1, _, _, e2, _⟩ := checkStart_true (.inl hk) hch
              rw [hta] at e1; cases e1
              obtain ⟨_, _, k1, k2⟩ := resourceUsed_ok e2
              rw [hun] at k1 k2
              have hzero : val uf r = 0 := by
                rw [hu']
                by_cases hrt : r ∈ dom.resTypes
                · obtain ⟨ms, m, md, n, f1, f2, f3, f4, f5⟩ := k1 r hrt (by simp)
                  rw [val_of_get f5]
                  exact hneed task m ms md hta f1 f2 f3 r n time f4
                · unfold val; rw [k2 r hrt (by simp)]; rfl
              rw [hzero]
              show val used r = val used r - 0
              omega
            · intro x i hx hd
              simp only [dummied, started] at hx hd
              by_cases hxe : x = task
              · subst hxe
                exfalso
                have hn3 := i3.nodup
                have hcount := apart' hn4 x
                have : x ∈ (dummied (started d s2 x mode info use used) x info').complete :=
                  mem_sadd.2 (.inr rfl)
                have := List.count_pos_iff.2 this
                rcases hx with hx | hx
                · have hx : x ∈ (dummied (started d s2 x mode info use used) x info').ongoing := hx
                  have := List.count_pos_iff.2 hx
                  omega
                · have hx : x ∈ (dummied (started d s2 x mode info use used) x info').paused := hx
                  have := List.count_pos_iff.2 hx
                  omega
              · rw [Dict.get?_set_ne _ _ hxe, Dict.get?_set_ne _ _ hxe] at hd
                refine z2 x i ?_ hd
                simpa only [mem_sadd_ne hxe, List.mem_erase_of_ne hxe] using hx
  obtain ⟨i4, z4⟩ := key
  have i5 := updateTime_acc i4 h5
  have z5 : NoZero s5 := by
    intro x i hx hd
    cases hta : a.timeProgress with
    | false =>
      rcases updateTime_ok h5 with ⟨_, rfl⟩ | ⟨ht, _⟩
      · exact z4 x i hx hd
      · rw [hta] at ht; cases ht
    | true =>
      obtain ⟨r1, r2⟩ := updateTime_record (x := x) i4.nodup hta h5
      by_cases hxo : x ∈ s4.ongoing
      · obtain ⟨p, m, info, g1, g2, g3, g4, g5, g6⟩ := r2 hxo
        rcases g6 with ⟨_, _, _, e1, _⟩ | ⟨_, _, _, e1, _⟩
        · rw [e1] at hd; cases hd; exact z4 x _ (.inl hxo) g3
        · rw [e1] at hd; cases hd; exact z4 x info (.inl hxo) g3
      · obtain ⟨g1, g2, g3, g4, g5, g6⟩ := r1 hxo
        rw [g1] at hd
        refine z4 x i ?_ hd
        rcases hx with hx | hx
        · exact absurd hx g4
        · exact .inr (g5.1 hx)
  unfold updateAvail
  split
  · exact ⟨⟨i5.nodup, i5.kn, i5.sub, i5.inn, i5.sum⟩, z5⟩
  · exact ⟨i5, z5⟩

/-! ### Capacity, with constant consumption -/

/-- Every declared mode has a constant, non-negative consumption. -/
def ConstantModes (dom : Dom) : Prop :=
  ∀ x ms m md, dom.modes.get? x = some ms → ms.get? m = some md →
    ∃ dd, md = .constant dd ∧ ∀ r, 0 ≤ val dd r

theorem need_constant (dd : Dict Res Int) (r : Res) (t : Int) :
    (Mode.constant dd).need r t = .ok (val dd r) := by
  unfold Mode.need val
  simp only
  cases dd.get? r <;> rfl

/-- The quantities of `uf` are those declared for task `x` in its recorded mode. -/
def Declared (dom : Dom) (mode : Dict TaskId ModeId) (x : TaskId) (uf : Dict Res Int) : Prop :=
  ∀ r ∈ dom.resTypes, ∃ m ms dd, mode.get? x = some m ∧ dom.modes.get? x = some ms ∧
    ms.get? m = some (.constant dd) ∧ uf.get? r = some (val dd r)

/-- What a task holds is what the mode it was started in declares; when `C`, no more is in use
than available. -/
structure Cap (C : Prop) (dom : Dom) (st : State) : Prop where
  nodup : (allOf st).Nodup
  kn : st.usedFor.keys.Nodup
  sub : ∀ x, (st.usedFor.get? x).isSome = true → x ∈ st.ongoing
  inn : ∀ x uf, st.usedFor.get? x = some uf → uf.keys.Nodup
  nd : ∀ x uf, st.usedFor.get? x = some uf → Declared dom st.mode x uf
  pos : ∀ x uf r, st.usedFor.get? x = some uf → 0 ≤ val uf r
  cap : C → ∀ r, val st.used r ≤ val st.avail r

theorem Cap.drop {C : Prop} {dom : Dom} {st st' : State} {task : TaskId} {uf used : Dict Res Int} (hI : Cap C dom st)
    {back : Res → Except PyErr Bool}
    (hn' : (allOf st').Nodup) (hu : st.usedFor.get? task = some uf)
    (hong : st'.ongoing = st.ongoing.erase task) (huf : st'.usedFor = st.usedFor.erase task)
    (hused : st'.used = used) (hmode : st'.mode = st.mode) (hav : st'.avail = st.avail)
    (hrel : releaseAll back st.used uf = .ok used) : Cap C dom st' := by
  refine ⟨hn', ?_, ?_, ?_, ?_, ?_, ?_⟩
  · rw [huf]; exact keys_erase_nodup hI.kn task
  · intro x hx
    rw [huf] at hx
    obtain ⟨v, hv⟩ := Option.isSome_iff_exists.1 hx
    obtain ⟨h1, h2⟩ := get?_erase_some hI.kn hv
    rw [hong]
    exact (List.mem_erase_of_ne h1).2 (hI.sub x (by rw [h2]; rfl))
  · intro x v hv
    rw [huf] at hv
    exact hI.inn x v (get?_erase_some hI.kn hv).2
  · intro x v hv
    rw [huf] at hv
    rw [hmode]
    exact hI.nd x v (get?_erase_some hI.kn hv).2
  · intro x v r hv
    rw [huf] at hv
    exact hI.pos x v r (get?_erase_some hI.kn hv).2
  · intro hc r
    rw [hused, hav]
    have h1 := hI.cap hc r
    have h2 := hI.pos task uf r hu
    obtain ⟨g1, g2⟩ := releaseAll_val (hI.inn _ _ hu) hrel r
    by_cases hb : back r = .ok true
    · rw [g1 hb]; omega
    · rw [g2 hb]; exact h1

/-- Units named by an action are not resource types. -/
def UnitsApart (dom : Dom) (a : Action) : Prop := ∀ u ∈ a.units.getD [], u ∉ dom.resTypes

theorem Cap.take {C : Prop} {dom : Dom} {st sc st' : State} {task : TaskId} {a : Action}
    {use used : Dict Res Int} (hC : ConstantModes dom) (hA : UnitsApart dom a)
    (hI : Cap C dom st) (hn' : (allOf st').Nodup)
    (hk : a.kind = .start ∨ a.kind = .resume) (hch : checkStart dom sc a = .ok (true, use))
    (hsu : sc.used = st.used) (hsa : sc.avail = st.avail)
    (ht : a.task = some task) (hm : a.mode = st'.mode.get? task)
    (hong : st'.ongoing = sadd st.ongoing task) (huf : st'.usedFor = st.usedFor.set task use)
    (hused : st'.used = used) (hav : st'.avail = st.avail)
    (hmode' : ∀ x, x ≠ task → st'.mode.get? x = st.mode.get? x)
    (ha : addAll st.used use = .ok used) : Cap C dom st' := by
  obtain ⟨task', info, time, e1, _, _, e2, e3, _⟩ := checkStart_true hk hch
  rw [ht] at e1; cases e1
  obtain ⟨k1, k2, k3, k4⟩ := resourceUsed_ok e2
  have hnd : Declared dom st'.mode task use := by
    intro r hr
    obtain ⟨ms, m, md, n, f1, f2, f3, f4, f5⟩ := k3 r hr (fun hu => hA r hu hr)
    obtain ⟨dd, rfl, _⟩ := hC task ms m md f2 f3
    rw [need_constant] at f4
    cases f4
    exact ⟨m, ms, dd, by rw [← hm]; exact f1, f2, f3, f5⟩
  have hpos : ∀ r, 0 ≤ val use r := by
    intro r
    by_cases hu : r ∈ a.units.getD []
    · rw [val_of_get (k2 r hu)]; omega
    · by_cases hrt : r ∈ dom.resTypes
      · obtain ⟨m, ms, dd, _, f1, f2, f3⟩ := hnd r hrt
        rw [val_of_get f3]
        obtain ⟨dd', hdd, hp⟩ := hC task ms m _ f1 f2
        cases hdd
        exact hp r
      · unfold val; rw [k4 r hrt hu]; simp
  refine ⟨hn', ?_, ?_, ?_, ?_, ?_, ?_⟩
  · rw [huf]; exact Dict.nodup_keys_set _ _ hI.kn
  · intro x hx
    rw [huf, Dict.get?_set] at hx
    rw [hong, mem_sadd]
    split at hx
    · exact .inr (by assumption)
    · exact .inl (hI.sub x hx)
  · intro x v hv
    rw [huf, Dict.get?_set] at hv
    split at hv
    · cases hv; exact k1
    · exact hI.inn x v hv
  · intro x v hv
    rw [huf, Dict.get?_set] at hv
    split at hv
    · rename_i he; subst he; cases hv
      exact hnd
    · rename_i he
      intro r hr
      rw [hmode' x he]
      exact hI.nd x v hv r hr
  · intro x v r hv
    rw [huf, Dict.get?_set] at hv
    split at hv
    · cases hv; exact hpos r
    · exact hI.pos x v r hv
  · intro hc r
    rw [hused, hav, addAll_val k1 ha]
    cases hg : use.get? r with
    | none =>
      have : val use r = 0 := by unfold val; rw [hg]; rfl
      have := hI.cap hc r
      omega
    | some n =>
      obtain ⟨av, u, g1, g2, g3⟩ := e3 r n (Dict.mem_of_get? hg)
      rw [hsa] at g1
      rw [hsu] at g2
      rw [val_of_get hg, val_of_get g1, val_of_get g2]
      omega

/-- With constant modes the consumption update changes no quantity. -/
theorem updateCons_const {dom : Dom} {st : State} {l : List TaskId}
    {uf uf' : Dict TaskId (Dict Res Int)} {us us' : Dict Res Int}
    (hnd : ∀ x v, uf.get? x = some v → Declared dom st.mode x v)
    (h : updateCons dom st l (uf, us) = .ok (uf', us')) :
    (∀ x v, uf'.get? x = some v → ∃ w, uf.get? x = some w ∧ ∀ r, v.get? r = w.get? r) ∧
    (∀ r, val us' r = val us r) := by
  induction l generalizing uf us with
  | nil =>
    simp only [updateCons, Except.ok.injEq, Prod.mk.injEq] at h
    obtain ⟨rfl, rfl⟩ := h
    exact ⟨fun x v hv => ⟨v, hv, fun _ => rfl⟩, fun _ => rfl⟩
  | cons task l ih =>
    simp only [updateCons, bind_eq_ok, Dict.get_ok_iff] at h
    obtain ⟨mode, h1, info, h2, time, h3, use, h4, h5⟩ := h
    split at h5
    · exact ih hnd h5
    · simp only [bind_eq_ok, Dict.get_ok_iff] at h5
      obtain ⟨v, h6, ⟨v', u'⟩, h7, h8⟩ := h5
      have f2 := hnd task v h6
      obtain ⟨k1, _, k3, k4⟩ := resourceUsed_ok h4
      have hsame : ∀ r, v'.get? r = v.get? r ∧ val u' r = val us r := by
        refine replaceUse_same ?_ h7
        intro r n hm
        have hg := Dict.get?_of_mem k1 hm
        by_cases hrt : r ∈ dom.resTypes
        · obtain ⟨ms', m', md', n', g1, g2, g3, g4, g5⟩ := k3 r hrt (by simp)
          cases g1
          obtain ⟨m, ms, dd, e0, e1, e2, e3⟩ := f2 r hrt
          rw [h1] at e0; cases e0
          rw [e1] at g2; cases g2
          rw [e2] at g3; cases g3
          rw [hg] at g5; cases g5
          rw [need_constant] at g4
          cases g4
          exact e3
        · rw [k4 r hrt (by simp)] at hg; cases hg
      have hnd' : ∀ x w, (uf.set task v').get? x = some w →
          Declared dom st.mode x w := by
        intro x w hw
        rw [Dict.get?_set] at hw
        split at hw
        · rename_i he; subst he; cases hw
          intro r hr
          rw [(hsame r).1]
          exact f2 r hr
        · exact hnd x w hw
      obtain ⟨g1, g2⟩ := ih hnd' h8
      refine ⟨?_, fun r => by rw [g2 r, (hsame r).2]⟩
      intro x w hw
      obtain ⟨w', hw', e⟩ := g1 x w hw
      rw [Dict.get?_set] at hw'
      split at hw'
      · rename_i he; subst he; cases hw'
        exact ⟨v, h6, fun r => by rw [e r, (hsame r).1]⟩
      · exact ⟨w', hw', e⟩

theorem updateTime_cap {C : Prop} {dom : Dom} {st st' : State} {a : Action} (hI : Cap C dom st)
    (h : updateTime dom st a = .ok st') : Cap C dom st' := by
  rcases updateTime_ok h with ⟨ht, rfl⟩ | ⟨ht, pr, uf, us, st2, _, h2, h3, rfl⟩
  · exact hI
  · obtain ⟨g1, g2, g3, g4⟩ := updateCons_ok h2
    obtain ⟨k1, k2⟩ := updateCons_const (by exact hI.nd) h2
    obtain ⟨done, _, h4⟩ := updateComplete_ok h3
    have h0 : Cap C dom { st with
        progress := done.foldl (fun d x => Dict.set d x (1 : Rat)) pr, usedFor := uf, used := us } := by
      refine ⟨hI.nodup, g1 hI.kn, fun x hx => hI.sub x (by rw [← g2 x]; exact hx), g3 hI.inn, ?_, ?_, ?_⟩
      · intro x v hv
        obtain ⟨w, hw, e⟩ := k1 x v hv
        intro r hr
        rw [e r]
        exact hI.nd x w hw r hr
      · intro x v r hv
        obtain ⟨w, hw, e⟩ := k1 x v hv
        have := hI.pos x w r hw
        unfold val at *
        rw [e r]; exact this
      · intro hc r
        show val us r ≤ val st.avail r
        rw [k2 r]; exact hI.cap hc r
    have h5 : Cap C dom st2 := by
      refine completions_invariant (Cap C dom) ?_ h0 h4
      intro s s' t hs hc
      have hn' := (completeOne_sets hs.nodup hc).nodup hs.nodup
      obtain ⟨uf, used, info, hm, hu, hrel, _, rfl⟩ := completeOne_ok hc
      exact hs.drop hn' hu rfl rfl rfl rfl rfl hrel
    exact ⟨h5.nodup, h5.kn, h5.sub, h5.inn, h5.nd, h5.pos, h5.cap⟩

/-- A resumed task is resumed in the mode it was started in. -/
def ResumesInMode (st : State) (a : Action) : Prop :=
  a.kind = .resume → ∀ task, a.task = some task → a.mode = st.mode.get? task

theorem nextState_cap {C : Prop} {dom : Dom} {d : Draw} {st st' : State} {a : Action} (hC : ConstantModes dom)
    (hI : Cap C dom st) (hA : UnitsApart dom a) (hm : ResumesInMode st a)
    (hd : C → a.timeProgress = true → ∀ r ∈ dom.resUnits ++ dom.resTypes, val st.avail r ≤ d.avail r)
    (h : nextState dom d st a = .ok st') : Cap C dom st' := by
  obtain ⟨s1, s2, s3, s4, s5, h1, h2, h3, h4, h5, rfl⟩ := nextState_ok h
  have i1 : Cap C dom s1 ∧ s1.avail = st.avail ∧ s1.mode = st.mode := by
    have hn' := (updatePause_sets hI.nodup h1).nodup hI.nodup
    rcases updatePause_ok h1 with ⟨_, rfl⟩ | ⟨_, task, uf, used, info, _, _, hu, hrel, _, rfl⟩
    · exact ⟨hI, rfl, rfl⟩
    · exact ⟨hI.drop hn' hu rfl rfl rfl rfl rfl hrel, rfl, rfl⟩
  obtain ⟨i1, a1, m1⟩ := i1
  have i2 : Cap C dom s2 ∧ s2.avail = st.avail := by
    have hn' := (updateResume_sets i1.nodup h2).nodup i1.nodup
    rcases updateResume_ok h2 with ⟨_, rfl⟩ | ⟨hk, task, info, b, use, ht, _, _, hch, hc⟩
    · exact ⟨i1, a1⟩
    · rcases hc with ⟨_, rfl⟩ | ⟨rfl, used, ha, rfl⟩
      · exact ⟨⟨hn', i1.kn, fun x hx => mem_sadd.2 (.inl (i1.sub x hx)), i1.inn, i1.nd, i1.pos, i1.cap⟩, a1⟩
      · refine ⟨Cap.take (st := s1) (sc := resumed s1 task info) hC hA i1 hn' (.inr hk) hch rfl rfl ht ?_
          rfl rfl rfl rfl (fun _ _ => rfl) ha, a1⟩
        show a.mode = s1.mode.get? task
        rw [m1]; exact hm hk task ht
  obtain ⟨i2, a2⟩ := i2
  have i3 : Cap C dom s3 ∧ s3.avail = st.avail := by
    have hn' := (updateStart_sets i2.nodup h3).nodup i2.nodup
    rcases updateStart_ok h3 with ⟨_, rfl⟩ | ⟨hk, b, use, hch, hc⟩
    · exact ⟨i2, a2⟩
    · rcases hc with ⟨_, rfl⟩ | ⟨rfl, task, mode, info, used, hta, hmo, _, _, ha, rfl⟩
      · exact ⟨i2, a2⟩
      · refine ⟨Cap.take (st := s2) (sc := s2) hC hA i2 hn' (.inl hk) hch rfl rfl hta ?_ rfl rfl rfl rfl
          ?_ ha, a2⟩
        · simp only [started]
          rw [Dict.get?_set_self]; exact hmo
        · intro x hx
          simp only [started]
          rw [Dict.get?_set_ne _ _ hx]
  obtain ⟨i3, a3⟩ := i3
  have i4 : Cap C dom s4 ∧ s4.avail = st.avail := by
    have hn' := (updateDummy_sets i3.nodup h4).nodup i3.nodup
    rcases updateDummy_ok h4 with ⟨_, rfl⟩ | ⟨_, task, info, _, _, hc⟩
    · exact ⟨i3, a3⟩
    · rcases hc with ⟨_, rfl⟩ | ⟨_, hm, ⟨uf, hu⟩, rfl⟩
      · exact ⟨i3, a3⟩
      · refine ⟨⟨hn', keys_erase_nodup i3.kn task, ?_, ?_, ?_, ?_, i3.cap⟩, a3⟩
        · intro x hx
          obtain ⟨v, hv⟩ := Option.isSome_iff_exists.1 hx
          obtain ⟨h1, h2⟩ := get?_erase_some i3.kn hv
          exact (List.mem_erase_of_ne h1).2 (i3.sub x (by rw [h2]; rfl))
        · exact fun x v hv => i3.inn x v (get?_erase_some i3.kn hv).2
        · exact fun x v hv => i3.nd x v (get?_erase_some i3.kn hv).2
        · exact fun x v r hv => i3.pos x v r (get?_erase_some i3.kn hv).2
  obtain ⟨i4, a4⟩ := i4
  have i5 := updateTime_cap i4 h5
  have a5 : s5.avail = st.avail := by
    rcases updateTime_ok h5 with ⟨ht, rfl⟩ | ⟨ht, pr, uf, us, st2, _, _, k3, rfl⟩
    · exact a4
    · obtain ⟨done, _, k4⟩ := updateComplete_ok k3
      have : st2.avail = s4.avail := by
        refine completions_invariant (fun s : State => s.avail = s4.avail) ?_ ?_ k4
        rotate_left
        · rfl
        intro s s' task hs hc
        obtain ⟨uf, used, info, hm, _, _, _, rfl⟩ := completeOne_ok hc
        exact hs
      rw [← a4]; exact this
  unfold updateAvail
  split
  · rename_i htp
    refine ⟨i5.nodup, i5.kn, i5.sub, i5.inn, i5.nd, i5.pos, ?_⟩
    intro hc r
    have hset : ∀ (l : List Res) (m : Dict Res Int),
        val (l.foldl (fun m r => m.set r (d.avail r)) m) r = if r ∈ l then d.avail r else val m r := by
      intro l
      induction l with
      | nil => intro m; simp
      | cons r0 l ih =>
        intro m
        rw [List.foldl_cons, ih, val_set]
        by_cases g1 : r ∈ l
        · simp [g1]
        · by_cases g2 : r = r0 <;> simp [g1, g2]
    show val s5.used r ≤ val (List.foldl _ s5.avail _) r
    rw [hset]
    have := i5.cap hc r
    split
    · rename_i hr
      have := hd hc htp r hr
      rw [a5] at *
      omega
    · exact this
  · exact i5

/-- Every ongoing task holds its resources. -/
def Holds (st : State) : Prop := ∀ x ∈ st.ongoing, (st.usedFor.get? x).isSome = true

/-- A resume action passes the check in the state where its task has been moved. -/
def ResumeAccepted (dom : Dom) (st : State) (a : Action) : Prop :=
  a.kind = .resume → ∀ task info, a.task = some task → st.details.get? task = some info →
    ∃ use, checkStart dom (resumed st task info) a = .ok (true, use)

theorem holds_erase {st : State} {x task : TaskId} (h : Holds st) (hn : st.ongoing.Nodup)
    (hx : x ∈ st.ongoing.erase task) : ((st.usedFor.erase task).get? x).isSome = true := by
  have hne : x ≠ task := by
    rintro rfl; exact (List.Nodup.not_mem_erase hn) hx
  rw [Dict.get?_erase_ne _ hne]
  exact h x ((List.mem_erase_of_ne hne).1 hx)

theorem holds_set {st : State} {x task : TaskId} {use : Dict Res Int} (h : Holds st)
    (hx : x ∈ sadd st.ongoing task) : ((st.usedFor.set task use).get? x).isSome = true := by
  rw [Dict.get?_set]
  split
  · rfl
  · rename_i hne
    rcases mem_sadd.1 hx with hx | hx
    · exact h x hx
    · exact absurd hx hne

theorem ongoing_nodup {st : State} (h : (allOf st).Nodup) : st.ongoing.Nodup := by
  rw [List.nodup_iff_count]
  intro x
  have := apart' h x
  omega

theorem nextState_holds {dom : Dom} {d : Draw} {st st' : State} {a : Action}
    (hn : (allOf st).Nodup) (hI : Holds st) (hr : ResumeAccepted dom st a)
    (h : nextState dom d st a = .ok st') : Holds st' := by
  obtain ⟨s1, s2, s3, s4, s5, h1, h2, h3, h4, h5, rfl⟩ := nextState_ok h
  have n1 := (updatePause_sets hn h1).nodup hn
  have n2 := (updateResume_sets n1 h2).nodup n1
  have n3 := (updateStart_sets n2 h3).nodup n2
  have n4 := (updateDummy_sets n3 h4).nodup n3
  have i1 : Holds s1 := by
    rcases updatePause_ok h1 with ⟨_, rfl⟩ | ⟨_, task, uf, used, info, _, _, hu, hrel, _, rfl⟩
    · exact hI
    · exact fun x hx => holds_erase hI (ongoing_nodup hn) hx
  have i2 : Holds s2 := by
    rcases updateResume_ok h2 with ⟨_, rfl⟩ | ⟨hk, task, info, b, use, ht, _, hi, hch, hc⟩
    · exact i1
    · have e1 : s1 = st := by
        rcases updatePause_ok h1 with ⟨_, h⟩ | ⟨h, _⟩
        · exact h
        · rw [hk] at h; cases h
      subst e1
      obtain ⟨use', hc'⟩ := hr hk task info ht hi
      rcases hc with ⟨rfl, rfl⟩ | ⟨rfl, used, ha, rfl⟩
      · rw [hch] at hc'; cases hc'
      · exact fun x hx => holds_set i1 hx
  have i3 : Holds s3 := by
    rcases updateStart_ok h3 with ⟨_, rfl⟩ | ⟨hk, b, use, hch, hc⟩
    · exact i2
    · rcases hc with ⟨_, rfl⟩ | ⟨rfl, task, mode, info, used, hta, hmo, _, _, ha, rfl⟩
      · exact i2
      · exact fun x hx => holds_set i2 hx
  have i4 : Holds s4 := by
    rcases updateDummy_ok h4 with ⟨_, rfl⟩ | ⟨_, task, info, _, _, hc⟩
    · exact i3
    · rcases hc with ⟨_, rfl⟩ | ⟨_, hm, ⟨uf, hu⟩, rfl⟩
      · exact i3
      · exact fun x hx => holds_erase i3 (ongoing_nodup n3) hx
  have i5 : Holds s5 := by
    rcases updateTime_ok h5 with ⟨ht, rfl⟩ | ⟨ht, pr, uf, us, st2, _, k2, k3, rfl⟩
    · exact i4
    · obtain ⟨done, _, k4⟩ := updateComplete_ok k3
      obtain ⟨_, g2, _, _⟩ := updateCons_ok k2
      have h0 : (fun s : State => (allOf s).Nodup ∧ Holds s) { s4 with
          progress := done.foldl (fun d x => Dict.set d x (1 : Rat)) pr, usedFor := uf, used := us } :=
        ⟨n4, fun x hx => by
          show (uf.get? x).isSome = true
          rw [g2 x]; exact i4 x hx⟩
      have : (fun s : State => (allOf s).Nodup ∧ Holds s) st2 := by
        refine completions_invariant (fun s : State => (allOf s).Nodup ∧ Holds s) ?_ h0 k4
        rintro s s' task ⟨hns, hs⟩ hc
        have hns' := (completeOne_sets hns hc).nodup hns
        obtain ⟨uf, used, info, hm, _, _, _, rfl⟩ := completeOne_ok hc
        exact ⟨hns', fun x hx => holds_erase hs (ongoing_nodup hns) hx⟩
      exact this.2
  unfold updateAvail
  split <;> exact i5

/-! ### Every run -/

/-- `P` holds at each step of a run. -/
def Along (P : State → Action → Draw → Prop) (dom : Dom) : State → List (Action × Draw) → Prop
  | _, [] => True
  | st, (a, d) :: rest => P st a d ∧ ∀ st', nextState dom d st a = .ok st' → Along P dom st' rest

theorem along_run {P : State → Action → Draw → Prop} {I : State → Prop} {dom : Dom}
    (hstep : ∀ st a d st', I st → P st a d → nextState dom d st a = .ok st' → I st')
    {l : List (Action × Draw)} {st st' : State} (hI : I st) (hP : Along P dom st l)
    (h : run dom st l = .ok st') : I st' := by
  induction l generalizing st with
  | nil => cases h; exact hI
  | cons x l ih =>
    obtain ⟨a, d⟩ := x
    obtain ⟨s, g1, g2⟩ := run_cons_ok.1 h
    exact ih (hstep st a d s hI hP.1 g1) (hP.2 s g1) g2

theorem Along.imp {P Q : State → Action → Draw → Prop} {dom : Dom} (hpq : ∀ st a d, P st a d → Q st a d)
    {l : List (Action × Draw)} {st : State} (h : Along P dom st l) : Along Q dom st l := by
  induction l generalizing st with
  | nil => trivial
  | cons x l ih =>
    obtain ⟨a, d⟩ := x
    exact ⟨hpq _ _ _ h.1, fun st' hs => ih (h.2 st' hs)⟩

theorem along_true {dom : Dom} {l : List (Action × Draw)} {st : State} :
    Along (fun _ _ _ => True) dom st l := by
  induction l generalizing st with
  | nil => trivial
  | cons x l ih => exact ⟨trivial, fun _ _ => ih⟩

/-- Only ongoing tasks hold resources. -/
structure Sub (st : State) : Prop where
  nodup : (allOf st).Nodup
  kn : st.usedFor.keys.Nodup
  sub : ∀ x, (st.usedFor.get? x).isSome = true → x ∈ st.ongoing

theorem Sub.drop {st st' : State} {task : TaskId} (hI : Sub st) (hn' : (allOf st').Nodup)
    (hong : st'.ongoing = st.ongoing.erase task) (huf : st'.usedFor = st.usedFor.erase task) : Sub st' := by
  refine ⟨hn', ?_, ?_⟩
  · rw [huf]; exact keys_erase_nodup hI.kn task
  · intro x hx
    rw [huf] at hx
    obtain ⟨v, hv⟩ := Option.isSome_iff_exists.1 hx
    obtain ⟨h1, h2⟩ := get?_erase_some hI.kn hv
    rw [hong]
    exact (List.mem_erase_of_ne h1).2 (hI.sub x (by rw [h2]; rfl))

theorem Sub.take {st st' : State} {task : TaskId} {use : Dict Res Int} (hI : Sub st)
    (hn' : (allOf st').Nodup) (hong : st'.ongoing = sadd st.ongoing task)
    (huf : st'.usedFor = st.usedFor.set task use) : Sub st' := by
  refine ⟨hn', ?_, ?_⟩
  · rw [huf]; exact Dict.nodup_keys_set _ _ hI.kn
  · intro x hx
    rw [huf, Dict.get?_set] at hx
    rw [hong, mem_sadd]
    split at hx
    · exact .inr (by assumption)
    · exact .inl (hI.sub x hx)

theorem nextState_sub {dom : Dom} {d : Draw} {st st' : State} {a : Action} (hI : Sub st)
    (h : nextState dom d st a = .ok st') : Sub st' := by
  obtain ⟨s1, s2, s3, s4, s5, h1, h2, h3, h4, h5, rfl⟩ := nextState_ok h
  have n1 := (updatePause_sets hI.nodup h1).nodup hI.nodup
  have n2 := (updateResume_sets n1 h2).nodup n1
  have n3 := (updateStart_sets n2 h3).nodup n2
  have n4 := (updateDummy_sets n3 h4).nodup n3
  have i1 : Sub s1 := by
    rcases updatePause_ok h1 with ⟨_, rfl⟩ | ⟨_, task, uf, used, info, _, _, hu, hrel, _, rfl⟩
    · exact hI
    · exact hI.drop n1 rfl rfl
  have i2 : Sub s2 := by
    rcases updateResume_ok h2 with ⟨_, rfl⟩ | ⟨hk, task, info, b, use, ht, _, hi, hch, hc⟩
    · exact i1
    · rcases hc with ⟨rfl, rfl⟩ | ⟨rfl, used, ha, rfl⟩
      · exact ⟨n2, i1.kn, fun x hx => mem_sadd.2 (.inl (i1.sub x hx))⟩
      · exact i1.take n2 rfl rfl
  have i3 : Sub s3 := by
    rcases updateStart_ok h3 with ⟨_, rfl⟩ | ⟨hk, b, use, hch, hc⟩
    · exact i2
    · rcases hc with ⟨_, rfl⟩ | ⟨rfl, task, mode, info, used, hta, hmo, _, _, ha, rfl⟩
      · exact i2
      · exact i2.take n3 rfl rfl
  have i4 : Sub s4 := by
    rcases updateDummy_ok h4 with ⟨_, rfl⟩ | ⟨_, task, info, _, _, hc⟩
    · exact i3
    · rcases hc with ⟨_, rfl⟩ | ⟨_, hm, ⟨uf, hu⟩, rfl⟩
      · exact i3
      · exact i3.drop n4 rfl rfl
  have i5 : Sub s5 := by
    rcases updateTime_ok h5 with ⟨ht, rfl⟩ | ⟨ht, pr, uf, us, st2, _, k2, k3, rfl⟩
    · exact i4
    · obtain ⟨done, _, k4⟩ := updateComplete_ok k3
      obtain ⟨g1, g2, _, _⟩ := updateCons_ok k2
      have h0 : Sub { s4 with
          progress := done.foldl (fun d x => Dict.set d x (1 : Rat)) pr, usedFor := uf, used := us } :=
        ⟨n4, g1 i4.kn, fun x hx => i4.sub x (by rw [← g2 x]; exact hx)⟩
      have : Sub st2 := by
        refine completions_invariant Sub ?_ h0 k4
        intro s s' task hs hc
        have hns' := (completeOne_sets hs.nodup hc).nodup hs.nodup
        obtain ⟨uf, used, info, hm, _, _, _, rfl⟩ := completeOne_ok hc
        exact hs.drop hns' rfl rfl
      exact ⟨this.nodup, this.kn, this.sub⟩
  unfold updateAvail
  split
  · exact ⟨i5.nodup, i5.kn, i5.sub⟩
  · exact i5

theorem addAll_some {l d d' : Dict Res Int} (h : addAll d l = .ok d') (r : Res) :
    (d'.get? r).isSome = (d.get? r).isSome := by
  induction l generalizing d with
  | nil => cases h; rfl
  | cons p l ih =>
    obtain ⟨k, n⟩ := p
    simp only [addAll, bind_eq_ok, Dict.get_ok_iff] at h
    obtain ⟨u, h1, h2⟩ := h
    rw [ih h2, Dict.get?_set]
    split
    · rename_i he; subst he; rw [h1]; rfl
    · rfl

theorem releaseAll_some {back : Res → Except PyErr Bool} {l d d' : Dict Res Int}
    (h : releaseAll back d l = .ok d') (r : Res) : (d'.get? r).isSome = (d.get? r).isSome := by
  induction l generalizing d with
  | nil => cases h; rfl
  | cons p l ih =>
    obtain ⟨k, n⟩ := p
    simp only [releaseAll, bind_eq_ok] at h
    obtain ⟨b, _, h2⟩ := h
    cases b with
    | true =>
      simp only [if_true, bind_eq_ok, Dict.get_ok_iff] at h2
      obtain ⟨u, h3, h4⟩ := h2
      rw [ih h4, Dict.get?_set]
      split
      · rename_i he; subst he; rw [h3]; rfl
      · rfl
    | false =>
      simp only [Bool.false_eq_true, if_false] at h2
      exact ih h2

theorem replaceUse_some {use uf uf' used used' : Dict Res Int}
    (h : replaceUse use (uf, used) = .ok (uf', used')) (r : Res) :
    (used'.get? r).isSome = (used.get? r).isSome := by
  induction use generalizing uf used with
  | nil => cases h; rfl
  | cons p use ih =>
    obtain ⟨k, n⟩ := p
    simp only [replaceUse, bind_eq_ok, Dict.get_ok_iff] at h
    obtain ⟨prev, h1, u, h2, h3⟩ := h
    rw [ih h3, Dict.get?_set]
    split
    · rename_i he; subst he; rw [h2]; rfl
    · rfl

theorem updateCons_some {dom : Dom} {st : State} {l : List TaskId}
    {uf uf' : Dict TaskId (Dict Res Int)} {us us' : Dict Res Int}
    (h : updateCons dom st l (uf, us) = .ok (uf', us')) (r : Res) :
    (us'.get? r).isSome = (us.get? r).isSome := by
  induction l generalizing uf us with
  | nil => cases h; rfl
  | cons x l ih =>
    simp only [updateCons, bind_eq_ok] at h
    obtain ⟨mode, _, info, _, time, _, use, _, h5⟩ := h
    split at h5
    · exact ih h5
    · simp only [bind_eq_ok] at h5
      obtain ⟨v, _, ⟨uf1, us1⟩, h7, h8⟩ := h5
      rw [ih h8, replaceUse_some h7]

/-- Every declared resource has an entry among the quantities in use and available. -/
def Entries (dom : Dom) (st : State) : Prop :=
  ∀ r, ((st.used.get? r).isSome = true ↔ r ∈ dom.resTypes ++ dom.resUnits) ∧
    ((st.avail.get? r).isSome = true ↔ r ∈ dom.resTypes ++ dom.resUnits)

theorem nextState_entries {dom : Dom} {d : Draw} {st st' : State} {a : Action} (hI : Entries dom st)
    (h : nextState dom d st a = .ok st') : Entries dom st' := by
  obtain ⟨s1, s2, s3, s4, s5, h1, h2, h3, h4, h5, rfl⟩ := nextState_ok h
  have e1 : s1.avail = st.avail ∧ ∀ r, (s1.used.get? r).isSome = (st.used.get? r).isSome := by
    rcases updatePause_ok h1 with ⟨_, rfl⟩ | ⟨_, task, uf, used, info, _, _, hu, hrel, _, rfl⟩
    · exact ⟨rfl, fun _ => rfl⟩
    · exact ⟨rfl, fun r => releaseAll_some hrel r⟩
  have e2 : s2.avail = s1.avail ∧ ∀ r, (s2.used.get? r).isSome = (s1.used.get? r).isSome := by
    rcases updateResume_ok h2 with ⟨_, rfl⟩ | ⟨hk, task, info, b, use, ht, _, hi, hch, hc⟩
    · exact ⟨rfl, fun _ => rfl⟩
    · rcases hc with ⟨rfl, rfl⟩ | ⟨rfl, used, ha, rfl⟩
      · exact ⟨rfl, fun _ => rfl⟩
      · exact ⟨rfl, fun r => addAll_some ha r⟩
  have e3 : s3.avail = s2.avail ∧ ∀ r, (s3.used.get? r).isSome = (s2.used.get? r).isSome := by
    rcases updateStart_ok h3 with ⟨_, rfl⟩ | ⟨hk, b, use, hch, hc⟩
    · exact ⟨rfl, fun _ => rfl⟩
    · rcases hc with ⟨_, rfl⟩ | ⟨rfl, task, mode, info, used, hta, hmo, _, _, ha, rfl⟩
      · exact ⟨rfl, fun _ => rfl⟩
      · exact ⟨rfl, fun r => addAll_some ha r⟩
  have e4 : s4.avail = s3.avail ∧ ∀ r, (s4.used.get? r).isSome = (s3.used.get? r).isSome := by
    rcases updateDummy_ok h4 with ⟨_, rfl⟩ | ⟨_, task, info, _, _, hc⟩
    · exact ⟨rfl, fun _ => rfl⟩
    · rcases hc with ⟨_, rfl⟩ | ⟨_, hm, ⟨uf, hu⟩, rfl⟩
      · exact ⟨rfl, fun _ => rfl⟩
      · exact ⟨rfl, fun _ => rfl⟩
  have e5 : s5.avail = s4.avail ∧ ∀ r, (s5.used.get? r).isSome = (s4.used.get? r).isSome := by
    rcases updateTime_ok h5 with ⟨ht, rfl⟩ | ⟨ht, pr, uf, us, st2, _, k2, k3, rfl⟩
    · exact ⟨rfl, fun _ => rfl⟩
    · obtain ⟨done, _, k4⟩ := updateComplete_ok k3
      have h0 : (fun s : State => s.avail = s4.avail ∧
          ∀ r, (s.used.get? r).isSome = (s4.used.get? r).isSome) { s4 with
          progress := done.foldl (fun d x => Dict.set d x (1 : Rat)) pr, usedFor := uf, used := us } :=
        ⟨rfl, fun r => updateCons_some k2 r⟩
      have := completions_invariant (fun s : State => s.avail = s4.avail ∧
        ∀ r, (s.used.get? r).isSome = (s4.used.get? r).isSome) (dom := dom) (st' := st2) (by
          rintro s s' task ⟨q1, q2⟩ hc
          obtain ⟨uf, used, info, hm, _, hrel, _, rfl⟩ := completeOne_ok hc
          exact ⟨q1, fun r => by rw [← q2 r]; exact releaseAll_some hrel r⟩) h0 k4
      exact this
  have hset : ∀ (l : List Res) (m : Dict Res Int) (r : Res),
      ((l.foldl (fun m r => m.set r (d.avail r)) m).get? r).isSome = true ↔
        r ∈ l ∨ (m.get? r).isSome = true := by
    intro l
    induction l with
    | nil => intro m r; simp
    | cons r0 l ih =>
      intro m r
      rw [List.foldl_cons, ih, Dict.get?_set]
      by_cases g : r = r0 <;> simp [g]
  intro r
  obtain ⟨q1, q2⟩ := hI r
  have u5 : (s5.used.get? r).isSome = (st.used.get? r).isSome := by
    rw [e5.2, e4.2, e3.2, e2.2, e1.2]
  have a5 : s5.avail = st.avail := by rw [e5.1, e4.1, e3.1, e2.1, e1.1]
  have hu : (updateAvail dom d s5 a).used = s5.used := by unfold updateAvail; split <;> rfl
  refine ⟨by rw [hu, u5]; exact q1, ?_⟩
  unfold updateAvail
  split
  · show ((List.foldl _ s5.avail _).get? r).isSome = true ↔ _
    rw [hset, a5, q2, List.mem_append, List.mem_append]
    constructor
    · rintro ((h | h) | h)
      · exact .inr h
      · exact .inl h
      · exact h
    · exact fun h => .inr h
  · rw [a5]; exact q2

theorem initAvail_get (l : List Res) (f : Res → Int) (m : Dict Res Int) (r : Res) :
    (l.foldl (fun m r => Dict.set m r (f r)) m).get? r = if r ∈ l then some (f r) else m.get? r := by
  induction l generalizing m with
  | nil => simp
  | cons r0 l ih =>
    rw [List.foldl_cons, ih, Dict.get?_set]
    by_cases g : r ∈ l
    · simp [g]
    · by_cases g' : r = r0 <;> simp [g, g']

theorem zeros_get (d : Dict Res Int) (r : Res) :
    (Dict.get? (d.map fun p => (p.1, (0 : Int))) r) = (d.get? r).map fun _ => 0 := by
  induction d with
  | nil => rfl
  | cons p d ih =>
    obtain ⟨k, v⟩ := p
    simp only [List.map_cons, Dict.get?]
    split
    · rfl
    · exact ih

theorem initState_get (dom : Dom) (d : Draw) (r : Res) :
    (initState dom d).avail.get? r = (if r ∈ dom.resTypes ++ dom.resUnits then some (d.avail r) else none) ∧
    (initState dom d).used.get? r = (if r ∈ dom.resTypes ++ dom.resUnits then some 0 else none) := by
  have h := initAvail_get (dom.resTypes ++ dom.resUnits) d.avail [] r
  have e : (initState dom d).avail.get? r =
      if r ∈ dom.resTypes ++ dom.resUnits then some (d.avail r) else none := h
  refine ⟨e, ?_⟩
  have : (initState dom d).used.get? r = ((initState dom d).avail.get? r).map fun _ => 0 := zeros_get _ r
  rw [this, e]
  split <;> rfl

theorem initState_entries (dom : Dom) (d : Draw) : Entries dom (initState dom d) := by
  intro r
  obtain ⟨h1, h2⟩ := initState_get dom d r
  rw [h1, h2]
  constructor <;> split <;> simp_all

theorem total_keys {r : Res} {d : Dict TaskId (Dict Res Int)} (hn : d.keys.Nodup) (f : TaskId → Int)
    (hf : ∀ x v, d.get? x = some v → f x = val v r) : total r d = (d.keys.map f).sum := by
  induction d with
  | nil => rfl
  | cons p d ih =>
    obtain ⟨k, v⟩ := p
    obtain ⟨hk, hn'⟩ := List.nodup_cons.1 (show (k :: Dict.keys d).Nodup from hn)
    rw [total_cons]
    show _ = (List.map f (k :: Dict.keys d)).sum
    rw [List.map_cons, List.sum_cons, ← ih hn', hf k v (by simp [Dict.get?])]
    intro x w hx
    refine hf x w ?_
    have : k ≠ x := by
      rintro rfl
      exact hk ((Dict.get?_isSome_iff_mem_keys d k).1 (by rw [hx]; rfl))
    simp [Dict.get?, this, hx]

end Verif.Sched
