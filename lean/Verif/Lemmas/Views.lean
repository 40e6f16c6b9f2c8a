import Verif.Model.Views
import Mathlib.Algebra.BigOperators.Group.List.Basic
import Mathlib.Algebra.Order.Ring.Int
/- Lemmas about the consumption of resources over time and the schedules of units. -/
namespace Verif.Views
open Rcpsp

/-- The activity runs at time `t` in the view on the past (from its start, before its end) or on the future (after
its start, up to its end). -/
def Runs (future : Bool) (t : Nat) (p : Nat × Nat) : Bool :=
  if future then decide (p.1 < t ∧ t ≤ p.2) else decide (p.1 ≤ t ∧ t < p.2)

theorem length_addSlice (a b : Nat) (u : Int) (row : List Int) : (addSlice a b u row).length = row.length := by
  simp [addSlice]

theorem addSlice_get (a b : Nat) (u : Int) (row : List Int) (t : Nat) :
    (addSlice a b u row)[t]? = (row[t]?).map (fun x => if a ≤ t ∧ t < b then x + u else x) := by
  simp [addSlice, List.getElem?_mapIdx]

/-- One activity. -/
theorem addUses_ok (pb : Problem) (ext : List Nat) (future : Bool) (act s e : Nat) (use : String → Int)
    (rows : List (String × List Int)) (h : ∀ p ∈ rows, useOf pb ext act p.1 = .ok (use p.1)) :
    addUses pb ext future act s e rows = .ok (rows.map (fun p =>
      (p.1, if future then addSlice (s + 1) (e + 1) (use p.1) p.2 else addSlice s e (use p.1) p.2))) := by
  induction rows with
  | nil => rfl
  | cons p ps ih =>
    obtain ⟨r, row⟩ := p
    have h1 : useOf pb ext act r = .ok (use r) := h (r, row) List.mem_cons_self
    simp only [addUses, h1, ih (fun q hq => h q (List.mem_cons_of_mem _ hq)), bind_ok, List.map_cons]

theorem addUses_error (pb : Problem) (ext : List Nat) (future : Bool) (act s e : Nat)
    (rows : List (String × List Int)) (h : ∃ p ∈ rows, ∃ err, useOf pb ext act p.1 = .error err) :
    ∃ err, addUses pb ext future act s e rows = .error err := by
  induction rows with
  | nil => obtain ⟨p, hp, -⟩ := h; simp at hp
  | cons q ps ih =>
    obtain ⟨r, row⟩ := q
    simp only [addUses]
    cases h1 : useOf pb ext act r with
    | error err => exact ⟨err, rfl⟩
    | ok u =>
      have h' : ∃ p ∈ ps, ∃ err, useOf pb ext act p.1 = .error err := by
        obtain ⟨p, hp, err, he⟩ := h
        rcases List.mem_cons.1 hp with rfl | hp
        · rw [h1] at he; cases he
        · exact ⟨p, hp, err, he⟩
      obtain ⟨err, he⟩ := ih h'
      exact ⟨err, by simp only [he, bind_ok, bind_error]⟩

/-- All activities: each cell grows by the uses of the activities that run. -/
theorem addAll_ok (pb : Problem) (ext : List Nat) (future : Bool) (use : Nat → String → Int) (sch : Schedule)
    (rows : List (String × List Int))
    (h : ∀ q ∈ sch, ∀ p ∈ rows, useOf pb ext q.1 p.1 = .ok (use q.1 p.1)) :
    ∃ rows', addAll pb ext future sch rows = .ok rows' ∧ rows'.length = rows.length ∧
      ∀ (i : Nat) r row, rows[i]? = some (r, row) → ∃ row', rows'[i]? = some (r, row') ∧ row'.length = row.length ∧
        ∀ (t : Nat) c, row[t]? = some c →
          row'[t]? = some (c + ((sch.filter (fun q => Runs future t q.2)).map (fun q => use q.1 r)).sum) := by
  induction sch generalizing rows with
  | nil =>
    exact ⟨rows, rfl, rfl, fun i r row hi => ⟨row, hi, rfl, fun t c hc => by simpa using hc⟩⟩
  | cons q qs ih =>
    obtain ⟨act, s, e⟩ := q
    have hq := addUses_ok pb ext future act s e (use act) rows (fun p hp => h _ List.mem_cons_self p hp)
    obtain ⟨rows', hr, hl, hc⟩ := ih (rows.map (fun p =>
      (p.1, if future then addSlice (s + 1) (e + 1) (use act p.1) p.2 else addSlice s e (use act p.1) p.2)))
      (by
        intro q hq p hp
        obtain ⟨p', hp', rfl⟩ := List.mem_map.1 hp
        exact h q (List.mem_cons_of_mem _ hq) p' hp')
    refine ⟨rows', by simp only [addAll, hq, bind_ok, hr], by rw [hl, List.length_map], ?_⟩
    intro i r row hi
    obtain ⟨row', h1, h2, h3⟩ := hc i r
      (if future then addSlice (s + 1) (e + 1) (use act r) row else addSlice s e (use act r) row)
      (by rw [List.getElem?_map, hi]; rfl)
    refine ⟨row', h1, ?_, ?_⟩
    · rw [h2]
      split <;> exact length_addSlice _ _ _ _
    · intro t c hcell
      cases future with
      | true =>
        simp only [if_true] at h3
        rw [h3 t (if s + 1 ≤ t ∧ t < e + 1 then c + use act r else c) (by rw [addSlice_get, hcell]; rfl)]
        rw [List.filter_cons]
        have hiff : (s + 1 ≤ t ∧ t < e + 1) ↔ (s < t ∧ t ≤ e) := by omega
        by_cases hrun : s < t ∧ t ≤ e
        · simp only [Runs, if_true, hiff, hrun, decide_true, and_self]
          simp
          omega
        · simp only [Runs, if_true, hiff, hrun, decide_false, if_false, Bool.false_eq_true]
      | false =>
        simp only [Bool.false_eq_true, if_false] at h3
        rw [h3 t (if s ≤ t ∧ t < e then c + use act r else c) (by rw [addSlice_get, hcell]; rfl)]
        rw [List.filter_cons]
        by_cases hrun : s ≤ t ∧ t < e
        · simp only [Runs, Bool.false_eq_true, if_false, hrun, decide_true, and_self]
          simp
          omega
        · simp only [Runs, Bool.false_eq_true, if_false, hrun, decide_false]

theorem addAll_error (pb : Problem) (ext : List Nat) (future : Bool) (sch : Schedule)
    (rows : List (String × List Int))
    (h : ∃ q ∈ sch, ∃ r ∈ rows.map Prod.fst, ∃ err, useOf pb ext q.1 r = .error err) :
    ∃ err, addAll pb ext future sch rows = .error err := by
  induction sch generalizing rows with
  | nil => obtain ⟨q, hq, -⟩ := h; simp at hq
  | cons q qs ih =>
    obtain ⟨act, s, e⟩ := q
    simp only [addAll]
    cases hu : addUses pb ext future act s e rows with
    | error err => exact ⟨err, rfl⟩
    | ok rows' =>
      simp only [bind_ok]
      have hnames : rows'.map Prod.fst = rows.map Prod.fst := by
        clear ih h
        induction rows generalizing rows' with
        | nil => simp only [addUses] at hu; rw [← Except.ok.inj hu]
        | cons p ps ihr =>
          obtain ⟨r, row⟩ := p
          simp only [addUses] at hu
          cases h1 : useOf pb ext act r with
          | error err => rw [h1] at hu; cases hu
          | ok u =>
            rw [h1] at hu
            simp only [bind_ok] at hu
            cases h2 : addUses pb ext future act s e ps with
            | error err => rw [h2] at hu; cases hu
            | ok ps' =>
              rw [h2] at hu
              simp only [bind_ok] at hu
              rw [← Except.ok.inj hu]
              simp only [List.map_cons, ihr ps' h2]
      apply ih
      obtain ⟨q', hq', r, hr, err, he⟩ := h
      rcases List.mem_cons.1 hq' with rfl | hq'
      · exfalso
        obtain ⟨p, hp, rfl⟩ := List.mem_map.1 hr
        obtain ⟨err', he'⟩ := addUses_error pb ext future act s e rows ⟨p, hp, err, he⟩
        rw [hu] at he'
        cases he'
      · exact ⟨q', hq', r, by rw [hnames]; exact hr, err, he⟩

theorem lastEnd_ok {sch : Schedule} {mk : Nat} (h : lastEnd sch = .ok mk) :
    ∃ a s, sch.get? a = some (s, mk) ∧ ∀ b ∈ sch.keys, b ≤ a := by
  unfold lastEnd at h
  cases hm : sch.keys.max? with
  | none => rw [hm] at h; cases h
  | some a =>
    rw [hm] at h
    simp only at h
    cases hg : sch.get? a with
    | none => simp only [Dict.get, hg] at h; cases h
    | some p =>
      simp only [Dict.get, hg, bind_ok] at h
      have := Except.ok.inj h
      obtain ⟨s, e⟩ := p
      exact ⟨a, s, by rw [hg]; simp_all, fun b hb => (List.max?_eq_some_iff.1 hm).2 b hb⟩

theorem lastEnd_exists {sch : Schedule} (h : sch ≠ []) : ∃ mk, lastEnd sch = .ok mk := by
  unfold lastEnd
  cases hm : sch.keys.max? with
  | none =>
    have := List.max?_eq_none_iff.1 hm
    simp [Dict.keys] at this
    exact absurd this h
  | some a =>
    have ha := (List.max?_eq_some_iff.1 hm).1
    have hs := (Dict.get?_isSome_iff_mem_keys sch a).2 ha
    cases hg : sch.get? a with
    | none => rw [hg] at hs; cases hs
    | some p => exact ⟨p.2, by simp only [Dict.get, hg, bind_ok]⟩

/-- The consumption when all look-ups succeed. -/
theorem consumption_ok (pb : Problem) (sch : Schedule) (modes : List Nat) (resources : Option (List String))
    (future : Bool) (use : Nat → String → Int) (mk : Nat) (hmk : lastEnd sch = .ok mk)
    (h : ∀ q ∈ sch, ∀ r ∈ resources.getD pb.resources.keys, useOf pb (extend modes) q.1 r = .ok (use q.1 r)) :
    ∃ rows, consumption pb sch modes resources future = .ok rows ∧
      rows.length = (resources.getD pb.resources.keys).length ∧
      ∀ (i : Nat) r, (resources.getD pb.resources.keys)[i]? = some r →
        ∃ row, rows[i]? = some (r, row) ∧ row.length = mk + 1 ∧
          ∀ t, t ≤ mk →
            row[t]? = some (((sch.filter (fun q => Runs future t q.2)).map (fun q => use q.1 r)).sum) := by
  obtain ⟨rows, h1, h2, h3⟩ := addAll_ok pb (extend modes) future use sch
    ((resources.getD pb.resources.keys).map (fun r => (r, List.replicate (mk + 1) 0))) (by
      intro q hq p hp
      obtain ⟨r, hr, rfl⟩ := List.mem_map.1 hp
      exact h q hq r hr)
  refine ⟨rows, by simp only [consumption, hmk, bind_ok, h1], by rw [h2, List.length_map], ?_⟩
  intro i r hi
  obtain ⟨row, g1, g2, g3⟩ := h3 i r (List.replicate (mk + 1) 0) (by rw [List.getElem?_map, hi]; rfl)
  refine ⟨row, g1, by rw [g2, List.length_replicate], ?_⟩
  intro t ht
  rw [g3 t 0 (by rw [List.getElem?_replicate]; simp; omega)]
  simp

/-- The schedule with integer times, as the check of schedules reads it. -/
def asInt (sch : Schedule) : Dict Nat (Int × Int) := sch.map (fun p => (p.1, ((p.2.1 : Int), (p.2.2 : Int))))

theorem get_asInt (sch : Schedule) (a : Nat) :
    (asInt sch).get? a = (sch.get? a).map (fun p => ((p.1 : Int), (p.2 : Int))) := by
  induction sch with
  | nil => rfl
  | cons p ps ih =>
    simp only [asInt, List.map_cons, Dict.get?]
    split
    · rfl
    · exact ih

theorem addNeeds_ok (pb : Problem) (act mode : Nat) (use : String → Int) (u : Dict String Int)
    (h : ∀ r ∈ u.keys, ∃ ms m, pb.modes.get? act = some ms ∧ ms.get? mode = some m ∧ m.needs.get? r = some (use r)) :
    addNeeds pb act mode u = .ok (u.map (fun p => (p.1, p.2 + use p.1))) := by
  induction u with
  | nil => rfl
  | cons p ps ih =>
    obtain ⟨r, x⟩ := p
    obtain ⟨ms, m, h1, h2, h3⟩ := h r (by simp [Dict.keys])
    have := ih (fun r hr => h r (by simp only [Dict.keys, List.map_cons, List.mem_cons] at hr ⊢; exact .inr hr))
    simp only [addNeeds, Dict.get, h1, h2, h3, bind_ok, this, List.map_cons]

theorem useOf_inv {pb : Problem} {ext : List Nat} {act : Nat} {r : String} {n : Int}
    (h : useOf pb ext act r = .ok n) :
    ∃ mode ms m, ext[act - 1]? = some mode ∧ pb.modes.get? act = some ms ∧ ms.get? mode = some m ∧
      m.needs.get? r = some n := by
  simp only [useOf, details, Dict.get] at h
  cases h1 : pb.modes.get? act with
  | none => simp only [h1] at h; cases h
  | some ms =>
    simp only [h1, bind_ok] at h
    cases h2 : pyGet ext (act - 1) with
    | error e => rw [h2] at h; cases h
    | ok mode =>
      simp only [h2, bind_ok] at h
      cases h3 : ms.get? mode with
      | none => simp only [h3] at h; cases h
      | some m =>
        simp only [h3, bind_ok] at h
        cases h4 : m.needs.get? r with
        | none => simp only [h4] at h; cases h
        | some n' =>
          simp only [h4] at h
          have := Except.ok.inj h
          subst this
          exact ⟨mode, ms, m, pyGet_ok_iff.1 h2, rfl, h3, h4⟩

theorem usageLoop_ok (pb : Problem) (ext : List Nat) (sch : Schedule) (t : Nat) (use : Nat → String → Int)
    (rs : List String) (hrs : rs ≠ []) (acts : List Nat) (u : Dict String Int) (hu : u.keys = rs)
    (h : ∀ a ∈ acts, ∃ p, sch.get? a = some p ∧ ∀ r ∈ rs, useOf pb ext a r = .ok (use a r)) :
    usageLoop pb ext (asInt sch) (t : Int) acts u = .ok (u.map (fun p => (p.1, p.2 +
      ((acts.filter (fun a => ((sch.get? a).map (fun p => Runs false t p)).getD false)).map (fun a => use a p.1)).sum))) := by
  induction acts generalizing u with
  | nil => simp [usageLoop]
  | cons a as ih =>
    obtain ⟨p, hp, huse⟩ := h a List.mem_cons_self
    obtain ⟨r0, hr0⟩ := List.exists_mem_of_ne_nil rs hrs
    obtain ⟨mode, ms, m, g1, g2, g3, g4⟩ := useOf_inv (huse r0 hr0)
    have hget : (asInt sch).get a = .ok ((p.1 : Int), (p.2 : Int)) := by
      simp only [Dict.get, get_asInt, hp]; rfl
    have hmode : pyGet ext (a - 1) = .ok mode := pyGet_ok_iff.2 g1
    simp only [usageLoop, hget, hmode, bind_ok]
    have has : ∀ a ∈ as, ∃ p, sch.get? a = some p ∧ ∀ r ∈ rs, useOf pb ext a r = .ok (use a r) :=
      fun b hb => h b (List.mem_cons_of_mem _ hb)
    by_cases hrun : p.1 ≤ t ∧ t < p.2
    · rw [if_pos (by omega)]
      have hn := addNeeds_ok pb a mode (use a) u (by
        intro r hr
        rw [hu] at hr
        obtain ⟨mode', ms', m', k1, k2, k3, k4⟩ := useOf_inv (huse r hr)
        rw [g1] at k1
        cases k1
        exact ⟨ms', m', k2, k3, k4⟩)
      rw [hn]
      simp only [bind_ok]
      rw [ih _ (by simp only [Dict.keys, List.map_map] at hu ⊢; exact hu) has, List.map_map]
      congr 1
      apply List.map_congr_left
      intro q _
      simp only [Function.comp, List.filter_cons, hp, Option.map_some, Option.getD_some, Runs, Bool.false_eq_true,
        if_false, hrun, and_self, decide_true, if_true, List.map_cons, List.sum_cons, Prod.mk.injEq, true_and]
      omega
    · rw [if_neg (by omega), ih _ hu has]
      congr 1
      apply List.map_congr_left
      intro q _
      simp only [List.filter_cons, hp, Option.map_some, Option.getD_some, Runs, Bool.false_eq_true,
        if_false, hrun, decide_false]

end Verif.Views
