import Verif.Lemmas.SchedSim

/-! Resource accounting. -/
namespace Verif.Sched

/-- The quantity recorded for a resource, 0 when there is none. -/
def val (d : Dict Res Int) (r : Res) : Int := (d.get? r).getD 0

/-- The quantity of `r` recorded over all tasks. -/
def total (r : Res) (d : Dict TaskId (Dict Res Int)) : Int := (d.map fun p => val p.2 r).sum

theorem val_nil (r : Res) : val [] r = 0 := rfl

theorem val_cons (k : Res) (v : Int) (d : Dict Res Int) (r : Res) :
    val ((k, v) :: d) r = if k = r then v else val d r := by
  unfold val
  rw [Dict.get?]
  split <;> rfl

theorem val_set (d : Dict Res Int) (k : Res) (v : Int) (r : Res) :
    val (d.set k v) r = if r = k then v else val d r := by
  unfold val
  rw [Dict.get?_set]
  split <;> rfl

theorem val_of_get {d : Dict Res Int} {r : Res} {v : Int} (h : d.get? r = some v) : val d r = v := by
  unfold val; rw [h]; rfl

theorem val_of_notMem {d : Dict Res Int} {r : Res} (h : r ∉ d.keys) : val d r = 0 := by
  unfold val
  cases hg : d.get? r with
  | none => rfl
  | some v => exact absurd ((Dict.get?_isSome_iff_mem_keys d r).1 (by rw [hg]; rfl)) h

theorem total_nil (r : Res) : total r [] = 0 := rfl

theorem total_cons (r : Res) (k : TaskId) (v : Dict Res Int) (d : Dict TaskId (Dict Res Int)) :
    total r ((k, v) :: d) = val v r + total r d := by
  simp [total]

theorem total_erase {r : Res} {d : Dict TaskId (Dict Res Int)} {k : TaskId} {v : Dict Res Int}
    (h : d.get? k = some v) : total r (d.erase k) = total r d - val v r := by
  induction d with
  | nil => simp at h
  | cons p d ih =>
    obtain ⟨a, w⟩ := p
    by_cases ha : a = k
    · subst ha
      simp only [Dict.get?, if_true, Option.some.injEq] at h
      subst h
      simp only [Dict.erase, if_true, total_cons]
      omega
    · simp only [Dict.get?, ha, if_false] at h
      simp only [Dict.erase, ha, if_false, total_cons, ih h]
      omega

theorem total_set_new {r : Res} {d : Dict TaskId (Dict Res Int)} {k : TaskId} (v : Dict Res Int)
    (h : d.get? k = none) : total r (d.set k v) = total r d + val v r := by
  induction d with
  | nil => simp [Dict.set, total]
  | cons p d ih =>
    obtain ⟨a, w⟩ := p
    by_cases ha : a = k
    · subst ha; simp [Dict.get?] at h
    · simp only [Dict.get?, ha, if_false] at h
      simp only [Dict.set, ha, if_false, total_cons, ih h]
      omega

theorem total_set_old {r : Res} {d : Dict TaskId (Dict Res Int)} {k : TaskId} {w : Dict Res Int}
    (v : Dict Res Int) (h : d.get? k = some w) :
    total r (d.set k v) = total r d - val w r + val v r := by
  induction d with
  | nil => simp at h
  | cons p d ih =>
    obtain ⟨a, x⟩ := p
    by_cases ha : a = k
    · subst ha
      simp only [Dict.get?, if_true, Option.some.injEq] at h
      subst h
      simp only [Dict.set, if_true, total_cons]
      omega
    · simp only [Dict.get?, ha, if_false] at h
      simp only [Dict.set, ha, if_false, total_cons, ih h]
      omega

theorem addAll_val {l d d' : Dict Res Int} (hn : l.keys.Nodup) (h : addAll d l = .ok d') (r : Res) :
    val d' r = val d r + val l r := by
  induction l generalizing d with
  | nil => simp only [addAll, Except.ok.injEq] at h; subst h; simp [val_nil]
  | cons p l ih =>
    obtain ⟨k, n⟩ := p
    simp only [addAll, bind_eq_ok, Dict.get_ok_iff] at h
    obtain ⟨u, h1, h2⟩ := h
    obtain ⟨hk, hn'⟩ := List.nodup_cons.1 (show (k :: Dict.keys l).Nodup from hn)
    rw [ih hn' h2, val_set, val_cons]
    by_cases hr : r = k
    · subst hr
      simp only [if_true]
      rw [val_of_notMem hk, val_of_get h1]
      omega
    · simp [hr, Ne.symm hr]

theorem releaseAll_val {back : Res → Except PyErr Bool} {l d d' : Dict Res Int} (hn : l.keys.Nodup)
    (h : releaseAll back d l = .ok d') (r : Res) :
    (back r = .ok true → val d' r = val d r - val l r) ∧
    (back r ≠ .ok true → val d' r = val d r) := by
  induction l generalizing d with
  | nil => simp only [releaseAll, Except.ok.injEq] at h; subst h; simp [val_nil]
  | cons p l ih =>
    obtain ⟨k, n⟩ := p
    simp only [releaseAll, bind_eq_ok] at h
    obtain ⟨b, h1, h2⟩ := h
    obtain ⟨hk, hn'⟩ := List.nodup_cons.1 (show (k :: Dict.keys l).Nodup from hn)
    cases b with
    | true =>
      simp only [if_true, bind_eq_ok, Dict.get_ok_iff] at h2
      obtain ⟨u, h3, h4⟩ := h2
      obtain ⟨g1, g2⟩ := ih hn' h4
      rw [val_set] at g1 g2
      rw [val_cons]
      by_cases hr : r = k
      · subst hr
        simp only [if_true] at *
        refine ⟨fun hb => ?_, fun hb => absurd h1 hb⟩
        rw [g1 hb, val_of_notMem hk, val_of_get h3]
        omega
      · simp only [hr, Ne.symm hr, if_false] at *
        exact ⟨g1, g2⟩
    | false =>
      simp only [Bool.false_eq_true, if_false] at h2
      obtain ⟨g1, g2⟩ := ih hn' h2
      rw [val_cons]
      by_cases hr : r = k
      · subst hr
        refine ⟨fun hb => ?_, g2⟩
        rw [h1] at hb; cases hb
      · simp only [Ne.symm hr, if_false]
        exact ⟨g1, g2⟩

theorem replaceUse_val {use uf uf' used used' : Dict Res Int}
    (h : replaceUse use (uf, used) = .ok (uf', used')) (r : Res) :
    val used' r - val used r = val uf' r - val uf r := by
  induction use generalizing uf used with
  | nil =>
    simp only [replaceUse, Except.ok.injEq, Prod.mk.injEq] at h
    obtain ⟨rfl, rfl⟩ := h; omega
  | cons p use ih =>
    obtain ⟨k, n⟩ := p
    simp only [replaceUse, bind_eq_ok, Dict.get_ok_iff] at h
    obtain ⟨prev, h1, u, h2, h3⟩ := h
    have := ih h3
    rw [val_set, val_set] at this
    by_cases hr : r = k
    · subst hr
      simp only [if_true] at this
      rw [val_of_get h1, val_of_get h2]
      omega
    · simp only [hr, if_false] at this
      omega

theorem replaceUse_keys {use uf uf' used used' : Dict Res Int}
    (h : replaceUse use (uf, used) = .ok (uf', used')) (hn : uf.keys.Nodup) : uf'.keys.Nodup := by
  induction use generalizing uf used with
  | nil =>
    simp only [replaceUse, Except.ok.injEq, Prod.mk.injEq] at h
    obtain ⟨rfl, rfl⟩ := h; exact hn
  | cons p use ih =>
    obtain ⟨k, n⟩ := p
    simp only [replaceUse, bind_eq_ok] at h
    obtain ⟨prev, _, u, _, h3⟩ := h
    exact ih h3 (Dict.nodup_keys_set _ _ hn)

/-- Replacing entries by the values already there changes nothing. -/
theorem replaceUse_same {use uf uf' used used' : Dict Res Int}
    (hs : ∀ r n, (r, n) ∈ use → uf.get? r = some n)
    (h : replaceUse use (uf, used) = .ok (uf', used')) (r : Res) :
    uf'.get? r = uf.get? r ∧ val used' r = val used r := by
  have key : uf'.get? r = uf.get? r := by
    induction use generalizing uf used with
    | nil =>
      simp only [replaceUse, Except.ok.injEq, Prod.mk.injEq] at h
      obtain ⟨rfl, rfl⟩ := h; rfl
    | cons p use ih =>
      obtain ⟨k, n⟩ := p
      simp only [replaceUse, bind_eq_ok] at h
      obtain ⟨prev, _, u, _, h3⟩ := h
      have hk := hs k n (by simp)
      have hget : ∀ r', (uf.set k n).get? r' = uf.get? r' := by
        intro r'
        rw [Dict.get?_set]
        split
        · rename_i he; subst he; exact hk.symm
        · rfl
      rw [ih (fun r n hm => by rw [hget]; exact hs r n (by simp [hm])) h3, hget]
  refine ⟨key, ?_⟩
  have := replaceUse_val h r
  have e : val uf' r = val uf r := by unfold val; rw [key]
  omega

/-! ### What a task uses -/

theorem usedTypes_ok {dom : Dom} {task : TaskId} {mode : Option ModeId} {time : Int} {l : List Res}
    {acc use : Dict Res Int} (h : usedTypes dom task mode time l acc = .ok use) :
    (acc.keys.Nodup → use.keys.Nodup) ∧
    (∀ r, r ∉ l → use.get? r = acc.get? r) ∧
    (∀ r ∈ l, ∃ ms m md n, mode = some m ∧ dom.modes.get? task = some ms ∧ ms.get? m = some md ∧
      md.need r time = .ok n ∧ use.get? r = some n) := by
  induction l generalizing acc with
  | nil => simp only [usedTypes, Except.ok.injEq] at h; subst h; simp
  | cons r0 l ih =>
    simp only [usedTypes, bind_eq_ok, Dict.get_ok_iff, dgetO_ok] at h
    obtain ⟨ms, h1, md, ⟨m, h2, h3⟩, n, h4, h5⟩ := h
    obtain ⟨g1, g2, g3⟩ := ih h5
    refine ⟨fun hn => g1 (Dict.nodup_keys_set _ _ hn), ?_, ?_⟩
    · intro r hr
      simp only [List.mem_cons, not_or] at hr
      rw [g2 r hr.2, Dict.get?_set_ne _ _ hr.1]
    · intro r hr
      by_cases hl : r ∈ l
      · exact g3 r hl
      · have : r = r0 := by simpa [hl] using hr
        subst this
        exact ⟨ms, m, md, n, h2, h1, h3, h4, by rw [g2 r hl, Dict.get?_set_self]⟩

theorem setOnesRes {us : List Res} {d : Dict Res Int} (r : Res) :
    (us.foldl (fun d u => Dict.set d u (1 : Int)) d).get? r = if r ∈ us then some 1 else d.get? r := by
  induction us generalizing d with
  | nil => simp
  | cons u us ih =>
    rw [List.foldl_cons, ih, Dict.get?_set]
    by_cases h1 : r ∈ us
    · simp [h1]
    · by_cases h2 : r = u <;> simp [h1, h2]

theorem setOnesRes_nodup {us : List Res} {d : Dict Res Int} (h : d.keys.Nodup) :
    (Dict.keys (us.foldl (fun d u => Dict.set d u (1 : Int)) d)).Nodup := by
  induction us generalizing d with
  | nil => exact h
  | cons u us ih => exact ih (Dict.nodup_keys_set _ _ h)

theorem resourceUsed_ok {dom : Dom} {task : TaskId} {mode : Option ModeId} {units : Option (List Res)}
    {time : Int} {use : Dict Res Int} (h : resourceUsed dom task mode units time = .ok use) :
    use.keys.Nodup ∧
    (∀ r ∈ units.getD [], use.get? r = some 1) ∧
    (∀ r ∈ dom.resTypes, r ∉ units.getD [] → ∃ ms m md n, mode = some m ∧
      dom.modes.get? task = some ms ∧ ms.get? m = some md ∧ md.need r time = .ok n ∧
      use.get? r = some n) ∧
    (∀ r, r ∉ dom.resTypes → r ∉ units.getD [] → use.get? r = none) := by
  unfold resourceUsed at h
  simp only [bind_eq_ok] at h
  obtain ⟨d, h1, h2⟩ := h
  have h2 := (Except.ok.inj h2).symm
  subst h2
  obtain ⟨g1, g2, g3⟩ := usedTypes_ok h1
  refine ⟨setOnesRes_nodup (g1 (by simp [Dict.keys])), ?_, ?_, ?_⟩
  · intro r hr; rw [setOnesRes, if_pos hr]
  · intro r hr hu
    obtain ⟨ms, m, md, n, e1, e2, e3, e4, e5⟩ := g3 r hr
    exact ⟨ms, m, md, n, e1, e2, e3, e4, by rw [setOnesRes, if_neg hu, e5]⟩
  · intro r hr hu
    rw [setOnesRes, if_neg hu, g2 r hr]; rfl

theorem lacking_false {st : State} {l : Dict Res Int} (h : lacking st l = .ok false) :
    ∀ r n, (r, n) ∈ l → ∃ a u, st.avail.get? r = some a ∧ st.used.get? r = some u ∧ n ≤ a - u := by
  induction l with
  | nil => simp
  | cons p l ih =>
    obtain ⟨k, v⟩ := p
    simp only [lacking, bind_eq_ok, Dict.get_ok_iff] at h
    obtain ⟨a, h1, u, h2, h3⟩ := h
    split at h3
    · cases h3
    · rename_i hle
      intro r n hm
      rcases List.mem_cons.1 hm with hm | hm
      · cases hm; exact ⟨a, u, h1, h2, by omega⟩
      · exact ih h3 r n hm

theorem checkStart_true {dom : Dom} {st : State} {a : Action} {use : Dict Res Int}
    (hk : a.kind = .start ∨ a.kind = .resume) (h : checkStart dom st a = .ok (true, use)) :
    ∃ task info time, a.task = some task ∧ st.details.get? task = some info ∧
      info.activeTime st.t = .ok time ∧ resourceUsed dom task a.mode a.units time = .ok use ∧
      (∀ r n, (r, n) ∈ use → ∃ av u, st.avail.get? r = some av ∧ st.used.get? r = some u ∧ n ≤ av - u) ∧
      skillsOk dom task a.mode use = .ok true := by
  unfold checkStart at h
  rw [if_pos hk] at h
  simp only [bind_eq_ok, dgetO_ok] at h
  obtain ⟨info, ⟨task, h1, h2⟩, time, h3, h4⟩ := h
  rw [h1] at h4
  simp only [bind_eq_ok] at h4
  obtain ⟨use', h5, b, h6, h7⟩ := h4
  cases b with
  | true => simp only [if_true] at h7; cases h7
  | false =>
    simp only [Bool.false_eq_true, if_false, bind_eq_ok] at h7
    obtain ⟨b', h8, h9⟩ := h7
    cases h9
    exact ⟨task, info, time, h1, h2, h3, h5, lacking_false h6, h8⟩

theorem checkStart_nodup {dom : Dom} {st : State} {a : Action} {use : Dict Res Int}
    (hk : a.kind = .start ∨ a.kind = .resume) (h : checkStart dom st a = .ok (true, use)) :
    use.keys.Nodup := by
  obtain ⟨_, _, _, _, _, _, h, _⟩ := checkStart_true hk h
  exact (resourceUsed_ok h).1

end Verif.Sched
