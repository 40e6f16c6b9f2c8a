import Verif.Lemmas.RcpspSpec
import Verif.Lemmas.ListSum
/- Schedule generation never raises on well-formed instances, and succeeds when there is room. -/
namespace Verif.Rcpsp

/-- Every activity has a mode number in `ext`, all modes list all resources, calendars reach the horizon, successors are
activities and there are no cycles. -/
structure Wf (pb : Problem) (E : List Nat) (ext : List Nat) : Prop where
  modes : ∀ a ∈ E, ∃ m, details pb ext a = .ok m ∧ ∀ res ∈ pb.resources.keys, ∃ n, m.needs.get? res = some n
  succs : ∀ a ∈ E, ∃ ss, pb.successors.get? a = some ss ∧ ∀ b ∈ ss, b ∈ pb.successors.keys
  calendars : ∀ res cap, pb.resources.get? res = some cap → ∀ t, t < pb.newHorizon → ∃ c, capOf cap t = some c
  acyclic : ∃ rank : Nat → Nat, ∀ a ss, (a, ss) ∈ pb.successors → ∀ b ∈ ss, rank a < rank b

/-- All look-ups up to the horizon succeed. -/
def Supplied (H : Nat) (m : Mode) (rows : Dict String (List Int)) : Prop :=
  ∀ p ∈ rows, H ≤ p.2.length ∧ ∃ n, m.needs.get? p.1 = some n

theorem exists_min (rank : Nat → Nat) : ∀ l : List Nat, l ≠ [] → ∃ x ∈ l, ∀ y ∈ l, rank x ≤ rank y := by
  intro l
  induction l with
  | nil => intro h; exact absurd rfl h
  | cons a l ih =>
    intro _
    by_cases hl : l = []
    · subst hl; exact ⟨a, by simp, by simp⟩
    · obtain ⟨x, hx, hmin⟩ := ih hl
      by_cases hax : rank a ≤ rank x
      · refine ⟨a, by simp, fun y hy => ?_⟩
        rcases List.mem_cons.1 hy with rfl | h
        · exact Nat.le_refl _
        · exact Nat.le_trans hax (hmin y h)
      · refine ⟨x, by simp [hx], fun y hy => ?_⟩
        rcases List.mem_cons.1 hy with rfl | h
        · omega
        · exact hmin y h

theorem pick_some {succs : Dict Nat (List Nat)} {perm : List Nat} (hne : perm ≠ [])
    (hac : ∃ rank : Nat → Nat, ∀ a ss, (a, ss) ∈ succs → ∀ b ∈ ss, rank a < rank b) : ∃ b ∈ perm, pick succs perm = some b := by
  obtain ⟨rank, hr⟩ := hac
  obtain ⟨x, hx, hmin⟩ := exists_min rank perm hne
  cases h : pick succs perm with
  | some b => exact ⟨b, List.mem_of_find?_eq_some h, rfl⟩
  | none =>
    exfalso
    unfold pick at h
    have := List.find?_eq_none.1 h x hx
    apply this
    rw [List.all_eq_true]
    intro kv hkv
    simp only [Bool.not_eq_eq_eq_not, Bool.not_true, Bool.and_eq_false_iff, List.contains_eq_mem, decide_eq_false_iff_not]
    by_cases hxs : x ∈ kv.2
    · right
      intro hk
      have := hr kv.1 kv.2 hkv x hxs
      have := hmin kv.1 hk
      omega
    · exact .inl hxs

theorem checkRes_ok (H t : Nat) (m : Mode) : ∀ (rows : Dict String (List Int)) (v : Bool × Bool), Supplied H m rows →
    ∃ v', checkRes H t m rows v = .ok v' := by
  intro rows
  induction rows with
  | nil => intro v _; exact ⟨v, rfl⟩
  | cons p rows ih =>
    intro v h
    obtain ⟨res, row⟩ := p
    obtain ⟨hl, n, hn⟩ := h (res, row) (by simp)
    simp only at hl hn
    simp only [checkRes]
    split
    · rename_i ht
      rw [pyGet_of_lt (by omega : t < row.length), bind_ok, dict_get_ok.2 hn, bind_ok]
      exact ih _ (fun p hp => h p (by simp [hp]))
    · exact ih _ (fun p hp => h p (by simp [hp]))

theorem checkWindow_ok (H : Nat) (m : Mode) (rows : Dict String (List Int)) (hs : Supplied H m rows) : ∀ (n t : Nat) (v : Bool × Bool),
    ∃ v', checkWindow H m rows n t v = .ok v' := by
  intro n
  induction n with
  | zero => intro t v; exact ⟨v, rfl⟩
  | succ n ih =>
    intro t v
    obtain ⟨w, hw⟩ := checkRes_ok H t m rows v hs
    simp only [checkWindow, hw, bind_ok]
    exact ih _ _

theorem search_ok (H : Nat) (m : Mode) (rows : Dict String (List Int)) (hs : Supplied H m rows) (c0 : Nat) (flag : Bool) :
    ∃ r, search H m rows H c0 flag = .ok r := by
  have h : ∀ fuel c0 flag, (∃ r, search H m rows fuel c0 flag = .ok r) ∨ search H m rows fuel c0 flag = .error .runtimeError := by
    intro fuel
    induction fuel with
    | zero =>
      intro c0 flag
      obtain ⟨v, hv⟩ := checkWindow_ok H m rows hs m.duration c0 (true, flag)
      unfold search
      simp only [hv, bind_ok]
      split
      · exact .inl ⟨_, rfl⟩
      · exact .inr rfl
    | succ fuel ih =>
      intro c0 flag
      obtain ⟨v, hv⟩ := checkWindow_ok H m rows hs m.duration c0 (true, flag)
      unfold search
      simp only [hv, bind_ok]
      split
      · exact .inl ⟨_, rfl⟩
      · exact ih _ _
  rcases h H c0 flag with g | g
  · exact g
  · exact absurd g (search_fuel H m rows H c0 flag (by omega))

theorem drain_ok (n : Int) : ∀ (k tt : Nat) (row : List Int) (f : Bool), (k = 0 ∨ tt + k ≤ row.length) →
    ∃ row' f', drain n k tt row f = .ok (row', f') ∧ row'.length = row.length := by
  intro k
  induction k with
  | zero => intro tt row f _; exact ⟨row, f, rfl, rfl⟩
  | succ k ih =>
    intro tt row f h
    simp only [drain]
    rw [pyGet_of_lt (by omega : tt < row.length), bind_ok]
    obtain ⟨row', f', h1, h2⟩ := ih (tt + 1) (row.set tt (row[tt] - n)) (f || decide (row[tt] - n < 0)) (by
      right; simp only [List.length_set]; omega)
    rw [pySet_ok_iff.2 ⟨(by omega : tt < row.length), rfl⟩, bind_ok]
    exact ⟨row', f', h1, by simpa using h2⟩

theorem bookRow_ok (nr : Bool) (H endT t : Nat) (n : Int) (row : List Int) (f : Bool) (hl : H ≤ row.length) (ht : t < H) :
    ∃ row' f', bookRow nr H endT t n row f = .ok (row', f') ∧ row'.length = row.length ∧ (nr = false → f' = f) := by
  simp only [bookRow]
  rw [pyGet_of_lt (by omega : t < row.length), bind_ok, pySet_ok_iff.2 ⟨(by omega : t < row.length), rfl⟩, bind_ok]
  split
  · rename_i hc
    obtain ⟨row', f', h1, h2⟩ := drain_ok n (H - (endT + 1)) (endT + 1) (row.set t (row[t] - n)) f (by
      simp only [List.length_set]; omega)
    refine ⟨row', f', h1, by simpa using h2, ?_⟩
    rintro rfl
    simp at hc
  · exact ⟨_, _, rfl, by simp, fun _ => rfl⟩

theorem bookRes_ok (pb : Problem) (H endT t : Nat) (m : Mode) (ht : t < H) : ∀ (rows : Dict String (List Int)) (f : Bool), Supplied H m rows →
    ∃ rows' f', bookRes pb H endT t m rows f = .ok (rows', f') ∧ Supplied H m rows' ∧ rows'.keys = rows.keys ∧
      ((∀ res ∈ rows.keys, res ∉ pb.nonRenewable) → f' = f) := by
  intro rows
  induction rows with
  | nil => intro f _; exact ⟨[], f, rfl, (by intro p hp; cases hp), rfl, fun _ => rfl⟩
  | cons p rows ih =>
    intro f h
    obtain ⟨res, row⟩ := p
    obtain ⟨hl, n, hn⟩ := h (res, row) (by simp)
    simp only at hl hn
    obtain ⟨row', f1, h1, h2, h3⟩ := bookRow_ok (pb.nonRenewable.contains res) H endT t n row f hl ht
    obtain ⟨rows', f2, g1, g2, g3, g4⟩ := ih f1 (fun p hp => h p (by simp [hp]))
    refine ⟨(res, row') :: rows', f2, ?_, ?_, ?_, ?_⟩
    · simp only [bookRes, dict_get_ok.2 hn, bind_ok, h1, g1]
    · intro p hp
      rcases List.mem_cons.1 hp with rfl | hp
      · exact ⟨by simp only; omega, n, hn⟩
      · exact g2 p hp
    · simp only [Dict.keys, List.map_cons] at g3 ⊢
      rw [g3]
    · intro hnr
      rw [g4 (fun r hr => hnr r (by simp only [Dict.keys, List.map_cons, List.mem_cons] at hr ⊢; exact .inr hr))]
      apply h3
      have := hnr res (by simp [Dict.keys])
      simpa using this

theorem bookWindow_ok (pb : Problem) (H endT : Nat) (m : Mode) : ∀ (k t : Nat) (rows : Dict String (List Int)) (f : Bool),
    Supplied H m rows → (rows = [] ∨ k = 0 ∨ t + k ≤ H) →
    ∃ rows' f', bookWindow pb H endT m k t rows f = .ok (rows', f') ∧ ((∀ res ∈ rows.keys, res ∉ pb.nonRenewable) → f' = f) := by
  intro k
  induction k with
  | zero => intro t rows f _ _; exact ⟨rows, f, rfl, fun _ => rfl⟩
  | succ k ih =>
    intro t rows f hs hc
    simp only [bookWindow]
    by_cases hr : rows = []
    · subst hr
      simp only [bookRes, bind_ok]
      exact ih (t + 1) [] f hs (.inl rfl)
    · have hc : t + (k + 1) ≤ H := by
        rcases hc with g | g | g
        · exact absurd g hr
        · omega
        · exact g
      obtain ⟨rows1, f1, h1, h2, h3, h4⟩ := bookRes_ok pb H endT t m (by omega) rows f hs
      rw [h1, bind_ok]
      obtain ⟨rows', f', g1, g2⟩ := ih (t + 1) rows1 f1 h2 (.inr (.inr (by omega)))
      exact ⟨rows', f', g1, fun hnr => by rw [g2 (by rw [h3]; exact hnr), h4 hnr]⟩

theorem bump_ok (e : Nat) : ∀ (ss : List Nat) (ms : Dict Nat Nat), (∀ b ∈ ss, b ∈ ms.keys) → ∃ ms', bump e ss ms = .ok ms' := by
  intro ss
  induction ss with
  | nil => intro ms _; exact ⟨ms, rfl⟩
  | cons s ss ih =>
    intro ms h
    have hs := h s (by simp)
    obtain ⟨v, hv⟩ := Option.isSome_iff_exists.1 ((Dict.get?_isSome_iff_mem_keys _ _).2 hs)
    simp only [bump, dict_get_ok.2 hv, bind_ok]
    apply ih
    intro b hb
    rw [Dict.keys_set, if_pos hs]
    exact h b (by simp [hb])

/-- The rows hold enough. -/
theorem supplied_of_inv {base : Nat → Nat} {pb : Problem} {ext E : List Nat} {st : St} (hres : pb.resources.keys.Nodup) (inv : Inv pb base ext E st) (wf : Wf pb E ext)
    {m : Mode} (hm : ∀ res ∈ pb.resources.keys, ∃ n, m.needs.get? res = some n) : Supplied pb.newHorizon m st.rows := by
  intro p hp
  have hk : p.1 ∈ pb.resources.keys := by rw [← inv.rowKeys]; exact List.mem_map.2 ⟨p, hp, rfl⟩
  refine ⟨?_, hm p.1 hk⟩
  obtain ⟨cap, hcap⟩ := Option.isSome_iff_exists.1 ((Dict.get?_isSome_iff_mem_keys _ _).2 hk)
  obtain ⟨row, r1, r2, _, _⟩ := inv.row p.1 cap hcap
  have hn : st.rows.keys.Nodup := by rw [inv.rowKeys]; exact hres
  rw [Dict.get?_of_mem hn (k := p.1) (v := p.2) hp] at r1
  cases r1
  by_cases h0 : pb.newHorizon = 0
  · omega
  · have ht : pb.newHorizon - 1 < pb.newHorizon := by omega
    obtain ⟨c, hc⟩ := wf.calendars p.1 cap hcap _ ht
    apply Nat.le_of_not_lt
    intro hlt
    have := (r2 _ ht).1 (List.getElem?_eq_none_iff.2 (by omega))
    rw [initRow_some ht hc] at this
    cases this

/-- One round on a well-formed instance. -/
theorem step_ok {base : Nat → Nat} {pb : Problem} {ext E : List Nat} (hres : pb.resources.keys.Nodup) {st : St} (inv : Inv pb base ext E st)
    (hflag : st.flag = false) (hne : st.perm ≠ []) (wf : Wf pb E ext) (hkeys : st.minStart.keys = pb.successors.keys) :
    ∃ b m v c f, b ∈ st.perm ∧ details pb ext b = .ok m ∧ st.minStart.get? b = some v ∧
      search pb.newHorizon m st.rows pb.newHorizon v false = .ok (c, f) ∧
      ((f = true ∧ step pb ext st = .ok { st with flag := true, prev := some b }) ∨
       (f = false ∧ ∃ st', step pb ext st = .ok st' ∧ st'.ends = st.ends.set b (c + m.duration) ∧ st'.minStart.keys = pb.successors.keys ∧
        ((∀ res ∈ pb.resources.keys, res ∉ pb.nonRenewable) → st'.flag = false))) := by
  obtain ⟨b, hb, hpick⟩ := pick_some hne wf.acyclic
  have hbE : b ∈ E := by rw [inv.perm] at hb; exact (List.mem_filter.1 hb).1
  obtain ⟨m, hm, hneeds⟩ := wf.modes b hbE
  obtain ⟨ss, hss, hsub⟩ := wf.succs b hbE
  have hbk : b ∈ st.minStart.keys := by
    rw [hkeys]; exact (Dict.get?_isSome_iff_mem_keys _ _).1 (by rw [hss]; rfl)
  obtain ⟨v, hv⟩ := Option.isSome_iff_exists.1 ((Dict.get?_isSome_iff_mem_keys _ _).2 hbk)
  have hsup := supplied_of_inv hres inv wf hneeds
  obtain ⟨⟨c, f⟩, hs⟩ := search_ok pb.newHorizon m st.rows hsup v false
  refine ⟨b, m, v, c, f, hb, hm, hv, hs, ?_⟩
  have hstep : step pb ext st = if f then .ok { st with flag := true, prev := some b } else place pb b m c st := by
    simp only [step, hpick, pickStale, bind_ok, dict_get_ok.2 hv, hm, hflag, hs]
  cases f with
  | true => left; exact ⟨rfl, by rw [hstep, if_pos rfl]⟩
  | false =>
    right
    refine ⟨rfl, ?_⟩
    rw [hstep, if_neg (by simp)]
    obtain ⟨_, _, _, s4⟩ := search_spec _ _ _ _ _ _ _ _ hs
    obtain ⟨rows', f', h1, h2⟩ := bookWindow_ok pb pb.newHorizon (c + m.duration - 1) m m.duration c st.rows false hsup (s4 rfl).2
    obtain ⟨ms', hms⟩ := bump_ok (c + m.duration) ss st.minStart (by rw [hkeys]; exact hsub)
    have hrem : pyRemove st.perm b = .ok (st.perm.erase b) := by simp [pyRemove, hb]
    refine ⟨_, by simp only [place, h1, bind_ok, hrem, dict_get_ok.2 hss, hms]; rfl, rfl, ?_, ?_⟩
    · exact (bump_spec _ _ _ _ hms).1.trans hkeys
    · intro hnr
      exact h2 (by rw [inv.rowKeys]; exact hnr)

theorem loop_ok {base : Nat → Nat} {pb : Problem} {ext E : List Nat} (hE : E.Nodup) (hres : pb.resources.keys.Nodup) (wf : Wf pb E ext) : ∀ (n : Nat) (st : St),
    Inv pb base ext E st → st.minStart.keys = pb.successors.keys → ∃ st', loop pb ext n st = .ok st' := by
  intro n
  induction n with
  | zero => intro st _ _; exact ⟨st, rfl⟩
  | succ n ih =>
    intro st inv hk
    simp only [loop]
    split
    · exact ⟨st, rfl⟩
    · rename_i hc
      simp only [Bool.or_eq_true, List.isEmpty_iff, not_or, Bool.not_eq_true] at hc
      obtain ⟨b, m, v, c, f, hb, hm, hv, hs, h | ⟨_, st', h, _, h2, _⟩⟩ := step_ok hres inv hc.2 hc.1 wf hk
      · rw [h.2, bind_ok]
        exact ih _ (step_inv hE hres inv hc.2 h.2).1 hk
      · rw [h, bind_ok]
        exact ih _ (step_inv hE hres inv hc.2 h).1 h2

theorem times_ok {pb : Problem} {ext : List Nat} : ∀ (ends : Dict Nat Nat), (∀ a ∈ ends.keys, ∃ m, details pb ext a = .ok m) →
    ∃ sch, times pb ext ends = .ok sch := by
  intro ends
  induction ends with
  | nil => intro _; exact ⟨[], rfl⟩
  | cons p ends ih =>
    intro h
    obtain ⟨a, e⟩ := p
    obtain ⟨m, hm⟩ := h a (by simp [Dict.keys])
    obtain ⟨r, hr⟩ := ih (fun a ha => h a (by simp only [Dict.keys, List.map_cons, List.mem_cons] at ha ⊢; exact .inr ha))
    exact ⟨_, by simp only [times, hm, bind_ok, hr]; rfl⟩

theorem fixModes_ok (pb : Problem) : ∀ (i : Nat) (ms : List Nat), (∀ j, j < ms.length → i + j + 1 ∈ pb.modes.keys) → ∃ ext, fixModes pb i ms = .ok ext := by
  intro i ms
  induction ms generalizing i with
  | nil => intro _; exact ⟨[], rfl⟩
  | cons m ms ih =>
    intro h
    obtain ⟨d, hd⟩ := Option.isSome_iff_exists.1 ((Dict.get?_isSome_iff_mem_keys _ _).2 (h 0 (by simp)))
    obtain ⟨ext, he⟩ := ih (i + 1) (fun j hj => by
      have := h (j + 1) (by simp; omega)
      rwa [show i + (j + 1) + 1 = i + 1 + j + 1 from by omega] at this)
    rw [show i + 0 + 1 = i + 1 from rfl] at hd
    exact ⟨_, by simp only [fixModes, dict_get_ok.2 hd, bind_ok, he]; rfl⟩

/-- The result exists when the corrected modes are well-formed. -/
theorem sgs_ok {pb : Problem} {perm modes ext : List Nat} (hE : (extended pb perm).Nodup) (hres : pb.resources.keys.Nodup)
    (hext : fixModes pb 0 (1 :: modes ++ [1]) = .ok ext) (wf : Wf pb (extended pb perm) ext) : ∃ r, sgs pb perm modes = .ok r := by
  have inv0 := init_inv pb (fun _ => 0) ext (extended pb perm)
  have hk0 : (initSt pb perm).minStart.keys = pb.successors.keys := by simp [initSt, initFrom, Dict.keys]
  obtain ⟨st, hst⟩ := loop_ok hE hres wf (extended pb perm).length _ inv0 hk0
  obtain ⟨inv, _⟩ := loop_inv hE hres _ _ _ inv0 (Nat.le_refl _) hst
  obtain ⟨sch, hsch⟩ := times_ok (pb := pb) (ext := ext) st.ends (fun a ha => by
    obtain ⟨m, hm, _⟩ := wf.modes a (inv.sub a ha); exact ⟨m, hm⟩)
  have hfin : ∃ r, finish pb st.flag sch = .ok r := by
    unfold finish
    split
    · obtain ⟨ss, hss, _⟩ := wf.succs 1 (by simp [extended])
      have hne : pb.successors ≠ [] := by intro h; rw [h] at hss; cases hss
      have : ∃ l, lastKey pb = .ok l := by
        unfold lastKey
        rcases hl : pb.successors.getLast? with _ | p
        · exact absurd (List.getLast?_eq_none_iff.1 hl) hne
        · exact ⟨_, rfl⟩
      obtain ⟨l, hl⟩ := this
      rw [hl, bind_ok]
      split <;> exact ⟨_, rfl⟩
    · exact ⟨_, rfl⟩
  obtain ⟨r, hr⟩ := hfin
  exact ⟨_, by simp only [sgs, initSt, hext, bind_ok, hst, hsch, hr]; rfl⟩

/-! ### Room -/

theorem checkWindow_flag (H : Nat) (m : Mode) (rows : Dict String (List Int)) : ∀ (n t : Nat) (v v' : Bool × Bool),
    checkWindow H m rows n t v = .ok v' → t + n ≤ H → v'.2 = v.2 := by
  intro n
  induction n with
  | zero => intro t v v' h _; cases h; rfl
  | succ n ih =>
    intro t v v' h hH
    simp only [checkWindow] at h
    obtain ⟨w, hw, h⟩ := bind_eq_ok.1 h
    obtain ⟨_, _, a3⟩ := checkRes_spec H t m rows v w hw
    rw [ih _ _ _ h (by omega)]
    have : ¬ (H ≤ t ∧ rows ≠ []) := by omega
    simp only [this, or_false] at a3
    exact Bool.eq_iff_iff.2 a3

theorem search_flag (H : Nat) (m : Mode) (rows : Dict String (List Int)) : ∀ (fuel c0 : Nat) (flag : Bool) (c : Nat) (f : Bool),
    search H m rows fuel c0 flag = .ok (c, f) → c + m.duration ≤ H → f = flag := by
  intro fuel
  induction fuel with
  | zero =>
    intro c0 flag c f h hc
    unfold search at h
    obtain ⟨v, hv, h⟩ := bind_eq_ok.1 h
    split at h
    · cases h; exact checkWindow_flag H m rows _ _ _ _ hv hc
    · cases h
  | succ fuel ih =>
    intro c0 flag c f h hc
    have hcopy := h
    unfold search at h
    obtain ⟨v, hv, h⟩ := bind_eq_ok.1 h
    split at h
    · cases h; exact checkWindow_flag H m rows _ _ _ _ hv hc
    · obtain ⟨hle, _, _, _⟩ := search_spec _ _ _ _ _ _ _ _ h
      rw [ih _ _ _ _ h hc]
      exact checkWindow_flag H m rows _ _ _ _ hv (by omega)

/-- The durations of some activities together. -/
def work (pb : Problem) (ext : List Nat) (l : List Nat) : Nat := (l.map (dur pb ext)).sum

theorem work_erase {pb : Problem} {ext l : List Nat} {b : Nat} (h : b ∈ l) : work pb ext (l.erase b) + dur pb ext b = work pb ext l := by
  unfold work
  induction l with
  | nil => cases h
  | cons a l ih =>
    by_cases e : a = b
    · subst e; simp; omega
    · have hb : b ∈ l := by
        rcases List.mem_cons.1 h with g | g
        · exact absurd g.symm e
        · exact g
      rw [List.erase_cons_tail (by simpa using e)]
      have := ih hb
      simp only [List.map_cons, List.sum_cons]
      omega

theorem room_loop {base : Nat → Nat} {pb : Problem} {ext E : List Nat} (hE : E.Nodup) (hres : pb.resources.keys.Nodup) (wf : Wf pb E ext)
    (hnr : ∀ res ∈ pb.resources.keys, res ∉ pb.nonRenewable)
    (hcap : ∀ res cap, pb.resources.get? res = some cap → ∀ a ∈ E, ∀ m n, details pb ext a = .ok m → m.needs.get? res = some n →
      ∀ t c, capOf cap t = some c → n ≤ c) :
    ∀ (n : Nat) (st st' : St) (W : Nat), Inv pb base ext E st → st.minStart.keys = pb.successors.keys → st.flag = false →
      (∀ a, base a ≤ W) → (∀ a e, (a, e) ∈ st.ends → e ≤ W) → W + work pb ext st.perm ≤ pb.newHorizon → loop pb ext n st = .ok st' →
      st'.flag = false ∧ ∀ a e, (a, e) ∈ st'.ends → e ≤ W + work pb ext st.perm := by
  intro n
  induction n with
  | zero => intro st st' W _ _ hf _ hW _ h; cases h; exact ⟨hf, fun a e he => Nat.le_add_right_of_le (hW a e he)⟩
  | succ n ih =>
    intro st st' W inv hk hf hbW hW hroom h
    simp only [loop] at h
    split at h
    · cases h; exact ⟨hf, fun a e he => Nat.le_add_right_of_le (hW a e he)⟩
    · rename_i hc
      simp only [Bool.or_eq_true, List.isEmpty_iff, not_or, Bool.not_eq_true] at hc
      obtain ⟨b, m, v, c, f, hb, hm, hv, hs, hcase⟩ := step_ok hres inv hc.2 hc.1 wf hk
      obtain ⟨hs1, hs2, hs3, hs4⟩ := search_spec _ _ _ _ _ _ _ _ hs
      have hbE : b ∈ E := by rw [inv.perm] at hb; exact (List.mem_filter.1 hb).1
      have hdur : dur pb ext b = m.duration := by simp [dur, hm]
      have hwe := work_erase (pb := pb) (ext := ext) hb
      have hvW : v ≤ W := inv.high b v hv W (hbW b) (fun a ea hm _ _ _ => hW a ea hm)
      have hcW : c ≤ W := by
        apply Nat.le_of_not_lt
        intro hlt
        obtain ⟨t, t1, t2, tH, ⟨res, row⟩, hmem, a, nn, ha, hn, han⟩ := hs3 W hvW hlt
        simp only at ha hn
        have hrn : st.rows.keys.Nodup := by rw [inv.rowKeys]; exact hres
        have hkey : res ∈ pb.resources.keys := by rw [← inv.rowKeys]; exact List.mem_map.2 ⟨_, hmem, rfl⟩
        obtain ⟨cap, hcp⟩ := Option.isSome_iff_exists.1 ((Dict.get?_isSome_iff_mem_keys _ _).2 hkey)
        obtain ⟨row2, r1, _, r3, _⟩ := inv.row res cap hcp
        rw [Dict.get?_of_mem hrn hmem] at r1
        cases r1
        obtain ⟨cc, hcc⟩ := wf.calendars res cap hcp t tH
        have hneed : ∃ need, IsNeed pb ext res need := by
          refine ⟨fun a => match details pb ext a with | .ok m => (m.needs.get? res).getD 0 | .error _ => 0, ?_⟩
          intro a m n h1 h2
          simp [h1, h2]
        obtain ⟨need, hneed⟩ := hneed
        have hr := r3 need hneed t tH cc (initRow_some tH hcc)
        rw [ha] at hr
        have hz : used (pb.nonRenewable.contains res) need (placed pb ext st.ends) t = 0 := by
          apply used_zero
          intro p hp
          obtain ⟨x, s, e⟩ := p
          obtain ⟨e', he', rfl, rfl⟩ := mem_placed.1 hp
          have := hW x e' he'
          have hc' : pb.nonRenewable.contains res = false := by simpa using hnr res hkey
          simp only [hc', charged, Bool.false_eq_true, ↓reduceIte, decide_eq_false_iff_not]
          omega
        rw [hz] at hr
        have := hcap res cap hcp b hbE m nn hm hn t cc hcc
        have := Option.some.inj hr
        omega
      have hff : f = false := search_flag _ _ _ _ _ _ _ _ hs (by omega)
      rcases hcase with ⟨g, _⟩ | ⟨_, st2, h2, hends, hk2, hfl2⟩
      · rw [hff] at g; cases g
      · rw [h2, bind_ok] at h
        have inv2 := (step_inv hE hres inv hc.2 h2).1
        have hbe : b ∉ st.ends.keys := by
          rw [inv.perm] at hb; simpa using (List.mem_filter.1 hb).2
        rw [set_new _ _ hbe] at hends
        have hperm2 : st2.perm = st.perm.erase b := by
          rw [inv2.perm, hends, inv.perm, keys_append]
          have hnd : (E.filter (fun x => !st.ends.keys.contains x)).Nodup := List.Pairwise.filter _ hE
          rw [hnd.erase_eq_filter, List.filter_filter]
          apply List.filter_congr
          intro x hx
          simp only [Dict.keys, List.map_cons, List.map_nil, List.contains_eq_mem, List.mem_append, List.mem_singleton]
          by_cases e : x = b
          · simp [e]
          · simp [e]
        have := ih st2 st' (W + m.duration) inv2 hk2 (hfl2 hnr) (fun a => Nat.le_trans (hbW a) (Nat.le_add_right _ _)) (by
          intro a e he
          rw [hends] at he
          rcases List.mem_append.1 he with g | g
          · have := hW a e g; omega
          · simp only [List.mem_singleton, Prod.mk.injEq] at g
            omega) (by rw [hperm2]; omega) h
        refine ⟨this.1, fun a e he => ?_⟩
        have := this.2 a e he
        rw [hperm2] at this
        omega

end Verif.Rcpsp
