import Verif.Lemmas.MultiSkillLoop
import Verif.Props.Rcpsp
/- What the properties of multi-skill schedules talk about, its relation to the placements, and the absence of exceptions. -/
namespace Verif.MultiSkill
open Verif.Rcpsp (Mode dict_get_ok total Supplied)

/-- The mode in which activity `a` is executed, given the corrected mode numbers. -/
def ChosenMode (pb : Problem) (ext : List Nat) (a : Nat) (m : Mode) : Prop :=
  ∃ d k, pb.modes.get? a = some d ∧ ext[a - 1]? = some k ∧ d.get? k = some m

/-- `need` tells how much of the resource each activity needs; a resource that is not listed is not needed. -/
def Requirement (pb : Problem) (ext : List Nat) (res : String) (need : Nat → Int) : Prop :=
  ∀ a m, ChosenMode pb ext a m → need a = (m.needs.get? res).getD 0

/-- The activities that run at time `t`. -/
def running (sch : Schedule) (t : Nat) : List Nat := (sch.filter (fun p => decide (p.2.1 ≤ t) && decide (t < p.2.2))).map (·.1)

/-- The activities that take time. -/
def lasting (sch : Schedule) : List Nat := (sch.filter (fun p => decide (p.2.1 < p.2.2))).map (·.1)

/-- The activities that take time and have begun at time `t`. -/
def begun (sch : Schedule) (t : Nat) : List Nat := (sch.filter (fun p => decide (p.2.1 < p.2.2) && decide (p.2.1 ≤ t))).map (·.1)

theorem used_eq {pb : Problem} {ext : List Nat} {res : String} {need : Nat → Int} (hneed : Requirement pb ext res need) (nr : Bool) (t : Nat)
    (log : List Placement) (hm : ∀ p ∈ log, details pb ext p.act = .ok p.mode) :
    used nr res log t = total need (if nr then begun (schedOf log) t else running (schedOf log) t) := by
  induction log with
  | nil => cases nr <;> rfl
  | cons p log ih =>
    have ih := ih (fun q hq => hm q (by simp [hq]))
    have hp : need p.act = needOf p.mode res := hneed _ _ (details_ok (hm p (by simp)))
    simp only [used, List.map_cons, List.sum_cons] at ih ⊢
    rw [ih]
    cases nr with
    | true =>
      simp only [↓reduceIte, begun, schedOf, List.map_cons, List.filter_cons, Placement.charged]
      split
      · rw [← hp]; simp [total]
      · omega
    | false =>
      simp only [Bool.false_eq_true, ↓reduceIte, running, schedOf, List.map_cons, List.filter_cons, Placement.charged, Placement.runs]
      split
      · rw [← hp]; simp [total]
      · omega

/-! ### No exceptions -/

/-- What schedule generation needs besides a well-formed instance without workers. -/
structure Manned (pb : Problem) (prio : List (List Nat)) (ext E : List Nat) : Prop where
  calendars : ∀ w e, pb.employees.get? w = some e → pb.horizon ≤ e.calendar.length
  lists : ∀ a ∈ E, ∀ m, details pb ext a = .ok m → required pb m ≠ [] → ∃ l, prioOf prio a = .ok l

theorem checkRes_total (H t : Nat) (m : Mode) : ∀ (rows : Dict String (List Int)), Supplied H m rows → ∃ v, checkRes H t m rows = .ok v := by
  intro rows
  induction rows with
  | nil => intro _; exact ⟨_, rfl⟩
  | cons p rows ih =>
    intro h
    obtain ⟨res, row⟩ := p
    obtain ⟨hl, n, hn⟩ := h (res, row) (by simp)
    simp only at hl hn
    simp only [checkRes]
    split
    · rename_i ht
      rw [pyGet_of_lt (by omega : t < row.length), bind_ok, dict_get_ok.2 hn, bind_ok]
      split
      · exact ⟨_, rfl⟩
      · exact ih (fun p hp => h p (by simp [hp]))
    · exact ⟨_, rfl⟩

theorem checkWindow_total (H : Nat) (m : Mode) (rows : Dict String (List Int)) (hs : Supplied H m rows) : ∀ (n t : Nat),
    ∃ v, checkWindow H m rows n t = .ok v := by
  intro n
  induction n with
  | zero => intro t; exact ⟨_, rfl⟩
  | succ n ih =>
    intro t
    obtain ⟨w, hw⟩ := checkRes_total H t m rows hs
    simp only [checkWindow, hw, bind_ok]
    split
    · exact ih _
    · exact ⟨_, rfl⟩

theorem allTrue_total (cal : List Bool) : ∀ (n c : Nat), c + n ≤ cal.length → ∃ b, allTrue cal n c = .ok b := by
  intro n
  induction n with
  | zero => intro c _; exact ⟨_, rfl⟩
  | succ n ih =>
    intro c h
    simp only [allTrue, pyGet_of_lt (by omega : c < cal.length), bind_ok]
    split
    · exact ih _ (by omega)
    · exact ⟨_, rfl⟩

theorem freeWorkers_total (n c : Nat) : ∀ (ws : Workers), (∀ p ∈ ws, c + n ≤ p.2.2.length) → ∃ ids, freeWorkers n c ws = .ok ids := by
  intro ws
  induction ws with
  | nil => intro _; exact ⟨_, rfl⟩
  | cons p ws ih =>
    intro h
    obtain ⟨w, e, cal⟩ := p
    obtain ⟨b, hb⟩ := allTrue_total cal n c (h (w, e, cal) (by simp))
    obtain ⟨r, hr⟩ := ih (fun p hp => h p (by simp [hp]))
    exact ⟨_, by simp only [freeWorkers, hb, bind_ok, hr]; rfl⟩

theorem staff_total {pb : Problem} {m : Mode} {ws : Workers} {c : Nat} (h : ∀ p ∈ ws, c + m.duration ≤ p.2.2.length) : ∃ v, staff pb m ws c = .ok v := by
  obtain ⟨ids, hids⟩ := freeWorkers_total m.duration c ws h
  unfold staff
  split
  · exact ⟨_, rfl⟩
  · rw [hids, bind_ok]
    split
    · split <;> exact ⟨_, rfl⟩
    · split <;> exact ⟨_, rfl⟩

theorem attempt_total {pb : Problem} {m : Mode} {rows : Dict String (List Int)} {ws : Workers} (hs : Supplied pb.newHorizon m rows)
    (hw : ∀ p ∈ ws, pb.horizon ≤ p.2.2.length) (c : Nat) (nr : Bool) : ∃ r, attempt pb m rows ws c nr = .ok r := by
  unfold attempt
  split
  · exact ⟨_, rfl⟩
  · rename_i hh
    obtain ⟨v, hv⟩ := checkWindow_total _ m rows hs m.duration c
    obtain ⟨s, hs'⟩ := staff_total (pb := pb) (m := m) (ws := ws) (c := c) (fun p hp => by have := hw p hp; omega)
    have : ∃ u, trial pb m rows ws c = .ok u := by
      simp only [trial, hv, bind_ok, hs']
      split <;> exact ⟨_, rfl⟩
    obtain ⟨u, hu⟩ := this
    simp only [hu, bind_ok]
    split
    · exact ⟨_, rfl⟩
    · split <;> exact ⟨_, rfl⟩

theorem search_total {pb : Problem} {m : Mode} {rows : Dict String (List Int)} {ws : Workers} (hs : Supplied pb.newHorizon m rows)
    (hw : ∀ p ∈ ws, pb.horizon ≤ p.2.2.length) (c : Nat) (nr : Bool) : ∃ f, search pb m rows ws (pb.horizon + 1) c nr = .ok f := by
  have h : ∀ fuel c nr, (∃ f, search pb m rows ws fuel c nr = .ok f) ∨ search pb m rows ws fuel c nr = .error .runtimeError := by
    intro fuel
    induction fuel with
    | zero => intro c nr; exact .inr rfl
    | succ fuel ih =>
      intro c nr
      obtain ⟨r, hr⟩ := attempt_total hs hw c nr
      simp only [search, hr, bind_ok]
      split
      · exact .inl ⟨_, rfl⟩
      · exact ih _ _
  rcases h (pb.horizon + 1) c nr with g | g
  · exact g
  · rcases search_fuel pb m rows ws (pb.horizon + 1) c nr (by omega) with k | ⟨k, _⟩
    · exact absurd g k
    · omega

theorem supplied_of_inv {pb : Problem} {prio : List (List Nat)} {ext E : List Nat} {st : St} {log : List Placement} (hd : Dicts pb)
    (inv : Inv pb prio ext E st log) (wf : Rcpsp.Wf pb.base E ext)
    {m : Mode} (hm : ∀ res ∈ pb.resources.keys, ∃ n, m.needs.get? res = some n) : Supplied pb.newHorizon m st.rows := by
  intro p hp
  have hk : p.1 ∈ pb.resources.keys := by rw [← inv.rowKeys]; exact List.mem_map.2 ⟨p, hp, rfl⟩
  refine ⟨?_, hm p.1 hk⟩
  obtain ⟨cap, hcap⟩ := Option.isSome_iff_exists.1 ((Dict.get?_isSome_iff_mem_keys _ _).2 hk)
  obtain ⟨row, r1, r2, _⟩ := inv.row p.1 cap hcap
  have hn : st.rows.keys.Nodup := by rw [inv.rowKeys]; exact hd.resources
  rw [Dict.get?_of_mem hn (k := p.1) (v := p.2) hp] at r1
  cases r1
  by_cases h0 : pb.newHorizon = 0
  · omega
  · have ht : pb.newHorizon - 1 < pb.newHorizon := by omega
    have hb : pb.base.resources.get? p.1 = some (.calendar cap) := by
      have : ∀ d : Dict String (List Int), d.get? p.1 = some cap → Dict.get? (d.map (fun q => (q.1, Rcpsp.Capacity.calendar q.2))) p.1 = some (.calendar cap) := by
        intro d
        induction d with
        | nil => intro h; cases h
        | cons q d ih =>
          obtain ⟨k, x⟩ := q
          simp only [List.map_cons, Dict.get?]
          split
          · intro h; cases h; rfl
          · exact ih
      exact this _ hcap
    obtain ⟨c, hc⟩ := wf.calendars p.1 _ hb _ ht
    simp only [Rcpsp.capOf] at hc
    have := r2 _ ht
    rw [hc] at this
    have := (List.getElem?_eq_some_iff.1 this).1
    omega

theorem ws_length {pb : Problem} {prio : List (List Nat)} {ext E : List Nat} {st : St} {log : List Placement} (hd : Dicts pb)
    (inv : Inv pb prio ext E st log) (man : Manned pb prio ext E) : ∀ p ∈ st.ws, pb.horizon ≤ p.2.2.length := by
  intro p hp
  obtain ⟨w, e, cal⟩ := p
  have hn : st.ws.keys.Nodup := by rw [inv.wsKeys]; exact hd.employees
  have hg := Dict.get?_of_mem hn hp
  have : w ∈ pb.employees.keys := by rw [← inv.wsKeys]; exact List.mem_map.2 ⟨_, hp, rfl⟩
  obtain ⟨e', he'⟩ := Option.isSome_iff_exists.1 ((Dict.get?_isSome_iff_mem_keys _ _).2 this)
  obtain ⟨cal', h1, h2⟩ := inv.ws w e' he'
  rw [hg] at h1; cases h1
  have hl := man.calendars w e he'
  by_cases h0 : pb.horizon = 0
  · omega
  · have := h2 (pb.horizon - 1)
    rw [List.getElem?_eq_getElem (by omega : pb.horizon - 1 < e.calendar.length)] at this
    have := (List.getElem?_eq_some_iff.1 this).1
    simp only
    omega

theorem details_base {pb : Problem} {ext : List Nat} {a : Nat} {m : Mode} (h : Rcpsp.details pb.base ext a = .ok m) : details pb ext a = .ok m := by
  obtain ⟨d, k, h1, h2, h3⟩ := Rcpsp.details_ok h
  have h1 : pb.modes.get? a = some d := h1
  simp only [details, pyGet_ok_iff.2 h2, bind_ok, dict_get_ok.2 h1, dict_get_ok.2 h3]

theorem base_keys (pb : Problem) : pb.base.resources.keys = pb.resources.keys := by simp [Problem.base, Dict.keys]

theorem step_total {pb : Problem} {prio : List (List Nat)} {ext E : List Nat} {st : St} {log : List Placement} (hd : Dicts pb)
    (inv : Inv pb prio ext E st log) (wf : Rcpsp.Wf pb.base E ext) (man : Manned pb prio ext E) (hne : st.perm ≠ [])
    (hkeys : st.minStart.keys = pb.successors.keys) : ∃ st', step pb prio ext st = .ok st' ∧ st'.minStart.keys = pb.successors.keys := by
  obtain ⟨b, hb, hpick⟩ := Rcpsp.pick_some hne wf.acyclic
  have hpick : Rcpsp.pick pb.successors st.perm = some b := hpick
  have hbE : b ∈ E := by rw [inv.perm] at hb; exact (List.mem_filter.1 hb).1
  obtain ⟨m, hm, hneeds⟩ := wf.modes b hbE
  obtain ⟨ss, hss, hsub⟩ := wf.succs b hbE
  have hss : pb.successors.get? b = some ss := hss
  have hm := details_base hm
  have hbk : b ∈ st.minStart.keys := by
    rw [hkeys]; exact (Dict.get?_isSome_iff_mem_keys _ _).1 (by rw [hss]; rfl)
  obtain ⟨v, hv⟩ := Option.isSome_iff_exists.1 ((Dict.get?_isSome_iff_mem_keys _ _).2 hbk)
  have hsup := supplied_of_inv hd inv wf (by rw [← base_keys]; exact hneeds)
  obtain ⟨f, hs⟩ := search_total hsup (ws_length hd inv man) v st.nr
  have hstep : step pb prio ext st = if f.nr || f.late then .ok { st with nr := f.nr, late := f.late } else place pb prio b m f st := by
    simp only [step, hpick, dict_get_ok.2 hv, bind_ok, hm, hs]
  rw [hstep]
  split
  · exact ⟨_, rfl, hkeys⟩
  · rename_i hf
    simp only [Bool.or_eq_true, not_or, Bool.not_eq_true] at hf
    obtain ⟨_, _, _, _, g5, g6, _⟩ := search_spec _ _ _ _ _ _ _ _ hs hf.1 hf.2
    have hwin := (checkWindow_spec _ _ _ _ _ _ g5).1 rfl
    obtain ⟨rows', f', h1, _⟩ := Rcpsp.bookWindow_ok pb.base pb.newHorizon (f.time + m.duration - 1) m m.duration f.time st.rows false hsup (by
      by_cases hr : st.rows = []
      · exact .inl hr
      · by_cases hz : m.duration = 0
        · exact .inr (.inl hz)
        · right; right
          rcases (hwin.2 (f.time + m.duration - 1) (by omega) (by omega)).1 with g | g
          · exact absurd g hr
          · omega)
    obtain ⟨ms', hms⟩ := Rcpsp.bump_ok (f.time + m.duration) ss st.minStart (by rw [hkeys]; exact hsub)
    have hrem : Rcpsp.pyRemove st.perm b = .ok (st.perm.erase b) := by simp [Rcpsp.pyRemove, hb]
    have hst : ∃ w, staffing pb prio b m f.time f.ids st.ws st.usage = .ok w := by
      unfold staffing
      split
      · exact ⟨_, rfl⟩
      · rename_i ids hids
        obtain ⟨k1, _⟩ := staff_ok hd inv g6
        have hreq : required pb m ≠ [] := fun h => by have := k1 h; rw [hids] at this; cases this
        obtain ⟨l, hl⟩ := man.lists b hbE m hm hreq
        rw [hl, bind_ok]
        exact ⟨_, rfl⟩
    obtain ⟨w, hw⟩ := hst
    refine ⟨_, by simp only [place, h1, bind_ok, hw, hrem, dict_get_ok.2 hss, hms]; rfl, ?_⟩
    exact (Rcpsp.bump_spec _ _ _ _ hms).1.trans hkeys

theorem loop_total {pb : Problem} {prio : List (List Nat)} {ext E : List Nat} (hd : Dicts pb) (hE : E.Nodup) (wf : Rcpsp.Wf pb.base E ext)
    (man : Manned pb prio ext E) : ∀ (n : Nat) (st : St) (log : List Placement), Inv pb prio ext E st log → st.minStart.keys = pb.successors.keys →
      ∃ st', loop pb prio ext n st = .ok st' := by
  intro n
  induction n with
  | zero => intro st _ _ _; exact ⟨st, rfl⟩
  | succ n ih =>
    intro st log inv hk
    simp only [loop]
    split
    · exact ⟨st, rfl⟩
    · rename_i hc
      simp only [Bool.or_eq_true, List.isEmpty_iff, not_or, Bool.not_eq_true] at hc
      obtain ⟨st', h, hk'⟩ := step_total hd inv wf man hc.1.1 hk
      obtain ⟨log', inv', _⟩ := step_inv hd hE inv hc.1.2 h
      rw [h, bind_ok]
      exact ih _ _ inv' hk'

theorem times_total {pb : Problem} {ext : List Nat} : ∀ (ends : Dict Nat Nat), (∀ a ∈ ends.keys, ∃ m, details pb ext a = .ok m) →
    ∃ sch, times pb ext ends = .ok sch := by
  intro ends
  induction ends with
  | nil => intro _; exact ⟨[], rfl⟩
  | cons p ends ih =>
    intro h
    obtain ⟨a, e⟩ := p
    obtain ⟨m, hm⟩ := h a (by simp [Dict.keys])
    obtain ⟨r, hr⟩ := ih (fun a ha => h a (by simp only [Dict.keys, List.map_cons, List.mem_cons] at ha ⊢; exact .inr ha))
    exact ⟨_, by simp only [times, hm, bind_ok, hr]; rfl⟩

theorem sgs_total {pb : Problem} {perm modes ext : List Nat} {prio : List (List Nat)} (hd : Dicts pb) (hE : (extended pb perm).Nodup)
    (hext : Rcpsp.fixModes pb.base 0 (1 :: modes ++ [1]) = .ok ext) (wf : Rcpsp.Wf pb.base (extended pb perm) ext)
    (man : Manned pb prio ext (extended pb perm)) : ∃ r, sgs pb perm modes prio = .ok r := by
  have inv0 := init_inv pb prio ext perm
  have hk0 : (initSt pb perm).minStart.keys = pb.successors.keys := by simp [initSt, Dict.keys]
  obtain ⟨st, hst⟩ := loop_total hd hE wf man (extended pb perm).length _ _ inv0 hk0
  obtain ⟨log, inv, _⟩ := loop_inv hd hE _ _ _ [] inv0 (Nat.le_refl _) hst
  obtain ⟨sch, hsch⟩ := times_total (pb := pb) (ext := ext) st.ends (fun a ha => by
    rw [inv.ends, ends_keys] at ha
    obtain ⟨p, hp, rfl⟩ := List.mem_map.1 ha
    obtain ⟨_, _, _, he⟩ := entry_of_mem inv hp
    exact ⟨_, he.mode⟩)
  have hfin : ∃ r, finish pb (st.nr || st.late) sch = .ok r := by
    unfold finish
    split
    · obtain ⟨ss, hss, _⟩ := wf.succs 1 (by simp [extended])
      have hss : pb.successors.get? 1 = some ss := hss
      have hne : pb.successors.keys ≠ [] := by
        intro h
        have : 1 ∈ pb.successors.keys := (Dict.get?_isSome_iff_mem_keys _ _).1 (by rw [hss]; rfl)
        rw [h] at this; cases this
      rcases hl : pb.successors.keys.max? with _ | l
      · exact absurd (List.max?_eq_none_iff.1 hl) hne
      · simp only
        split <;> exact ⟨_, rfl⟩
    · exact ⟨_, rfl⟩
  obtain ⟨r, hr⟩ := hfin
  exact ⟨_, by simp only [sgs, hext, bind_ok, hst, hsch, hr]; rfl⟩

end Verif.MultiSkill
