import Verif.Lemmas.Views
/- Properties of the consumption of resources over time (C174). -/
namespace Verif.Views
open Rcpsp

/-- C174: for a schedule with at least one activity whose requirements are all known,
`compute_resource_consumption` returns for each resource asked for one row over the times `0 … makespan`; the entry
at `t` is the sum of the requirements of the activities with `start ≤ t < end`, and in the view on the future of
those with `start < t ≤ end`. -/
theorem C174_view (pb : Problem) (sch : Schedule) (modes : List Nat) (resources : Option (List String))
    (use : Nat → String → Int) (hne : sch ≠ [])
    (h : ∀ q ∈ sch, ∀ r ∈ resources.getD pb.resources.keys, useOf pb (extend modes) q.1 r = .ok (use q.1 r)) :
    ∃ mk past future, lastEnd sch = .ok mk ∧ consumption pb sch modes resources false = .ok past ∧
      consumption pb sch modes resources true = .ok future ∧
      past.map Prod.fst = resources.getD pb.resources.keys ∧ future.map Prod.fst = resources.getD pb.resources.keys ∧
      (∀ r row, (r, row) ∈ past → row.length = mk + 1 ∧ ∀ t, t ≤ mk →
        row[t]? = some (((sch.filter (fun q => decide (q.2.1 ≤ t ∧ t < q.2.2))).map (fun q => use q.1 r)).sum)) ∧
      (∀ r row, (r, row) ∈ future → row.length = mk + 1 ∧ ∀ t, t ≤ mk →
        row[t]? = some (((sch.filter (fun q => decide (q.2.1 < t ∧ t ≤ q.2.2))).map (fun q => use q.1 r)).sum)) := by
  obtain ⟨mk, hmk⟩ := lastEnd_exists hne
  obtain ⟨past, p1, p2, p3⟩ := consumption_ok pb sch modes resources false use mk hmk h
  obtain ⟨future, f1, f2, f3⟩ := consumption_ok pb sch modes resources true use mk hmk h
  have names : ∀ (rows : List (String × List Int)), rows.length = (resources.getD pb.resources.keys).length →
      (∀ (i : Nat) r, (resources.getD pb.resources.keys)[i]? = some r → ∃ row, rows[i]? = some (r, row)) →
      rows.map Prod.fst = resources.getD pb.resources.keys := by
    intro rows hl hr
    apply List.ext_getElem?
    intro i
    rw [List.getElem?_map]
    cases hi : (resources.getD pb.resources.keys)[i]? with
    | none =>
      rw [List.getElem?_eq_none_iff] at hi
      rw [List.getElem?_eq_none (by omega)]
      rfl
    | some r =>
      obtain ⟨row, hrow⟩ := hr i r hi
      rw [hrow]
      rfl
  have n1 := names past p2 (fun i r hi => by obtain ⟨row, h, -⟩ := p3 i r hi; exact ⟨row, h⟩)
  have n2 := names future f2 (fun i r hi => by obtain ⟨row, h, -⟩ := f3 i r hi; exact ⟨row, h⟩)
  refine ⟨mk, past, future, hmk, p1, f1, n1, n2, ?_, ?_⟩
  · intro r row hr
    obtain ⟨i, hi⟩ := List.mem_iff_getElem?.1 hr
    obtain ⟨row', g1, g2, g3⟩ := p3 i r (by rw [← n1, List.getElem?_map, hi]; rfl)
    rw [hi] at g1
    cases g1
    exact ⟨g2, g3⟩
  · intro r row hr
    obtain ⟨i, hi⟩ := List.mem_iff_getElem?.1 hr
    obtain ⟨row', g1, g2, g3⟩ := f3 i r (by rw [← n2, List.getElem?_map, hi]; rfl)
    rw [hi] at g1
    cases g1
    exact ⟨g2, g3⟩

/-- C174: the requirements counted are those of the mode chosen: `modes` are the modes of the activities 2, 3, …, in order, and the first
and the last activity have mode 1. -/
theorem C174_modes (pb : Problem) (modes : List Nat) (act : Nat) (hact : 1 ≤ act) (r : String) (k : Int) :
    useOf pb (extend modes) act r = .ok k ↔ ∃ mode d md, ((act = 1 ∧ mode = 1) ∨ (2 ≤ act ∧ modes[act - 2]? = some mode) ∨
      (act = modes.length + 2 ∧ mode = 1)) ∧ pb.modes.get? act = some d ∧ Dict.get? d mode = some md ∧ md.needs.get? r = some k := by
  have hget : ∀ {κ α : Type} [DecidableEq κ] (D : Dict κ α) (key : κ) (v : α), D.get key = .ok v ↔ D.get? key = some v := by
    intro κ α _ D key v
    rw [Dict.get]
    cases D.get? key <;> simp
  have hext : ∀ mode, (extend modes)[act - 1]? = some mode ↔ ((act = 1 ∧ mode = 1) ∨ (2 ≤ act ∧ modes[act - 2]? = some mode) ∨
      (act = modes.length + 2 ∧ mode = 1)) := by
    intro mode
    rw [extend]
    obtain ⟨i, rfl⟩ : ∃ i, act = i + 1 := ⟨act - 1, by omega⟩
    rw [Nat.add_sub_cancel]
    cases i with
    | zero => simp [eq_comm]
    | succ j =>
      rw [List.cons_append, List.getElem?_cons_succ]
      have e : j + 1 + 1 - 2 = j := by omega
      rw [e]
      by_cases hj : j < modes.length
      · rw [List.getElem?_append_left hj]
        constructor
        · intro h; exact Or.inr (Or.inl ⟨by omega, h⟩)
        · rintro (h | h | h)
          · omega
          · exact h.2
          · omega
      · rw [List.getElem?_append_right (by omega), List.getElem?_eq_none (l := modes) (by omega)]
        by_cases he : j = modes.length
        · subst he; simp [eq_comm]
        · rw [List.getElem?_eq_none (by simp; omega)]
          constructor
          · intro h; cases h
          · rintro (h | h | h)
            · omega
            · cases h.2
            · omega
  rw [useOf, details]
  constructor
  · intro h
    obtain ⟨md, h1, h2⟩ := bind_eq_ok.1 h
    obtain ⟨d, h5, h4⟩ := bind_eq_ok.1 h1
    obtain ⟨mode, h3, h6⟩ := bind_eq_ok.1 h4
    exact ⟨mode, d, md, (hext mode).1 (pyGet_ok_iff.1 h3), (hget _ _ _).1 h5, (hget _ _ _).1 h6, (hget _ _ _).1 h2⟩
  · rintro ⟨mode, d, md, h1, h2, h3, h4⟩
    rw [(hget _ _ _).2 h2, bind_ok, pyGet_ok_iff.2 ((hext mode).2 h1), bind_ok, (hget _ _ _).2 h3, bind_ok]
    exact (hget _ _ _).2 h4

/-- A project of three activities, one resource. -/
def pb2 : Problem :=
  { resources := [("R", .const 2)], nonRenewable := [],
    modes := [(1, [(1, ⟨0, [("R", 0)]⟩)]), (2, [(1, ⟨3, [("R", 2)]⟩)]), (3, [(1, ⟨0, [("R", 0)]⟩)])],
    successors := [(1, [2]), (2, [3]), (3, [])], horizon := 9, multiplier := 1 }

example : ((∀ q ∈ ([(1, 0, 0), (2, 0, 3), (3, 3, 3)] : Schedule), ∀ r ∈ pb2.resources.keys,
      useOf pb2 (extend [1]) q.1 r = .ok (if q.1 = 2 then 2 else 0)) ∧
    consumption pb2 [(1, 0, 0), (2, 0, 3), (3, 3, 3)] [1] none false = .ok [("R", [2, 2, 2, 0])] ∧
    consumption pb2 [(1, 0, 0), (2, 0, 3), (3, 3, 3)] [1] none true = .ok [("R", [0, 2, 2, 2])]) :=
  ⟨by decide +kernel, by decide +kernel, by decide +kernel⟩

/-- C174: the view on the future at `t + 1` is the view on the past at `t`. -/
theorem C174_shift (pb : Problem) (sch : Schedule) (modes : List Nat) (resources : Option (List String))
    (use : Nat → String → Int) (mk : Nat) (hmk : lastEnd sch = .ok mk)
    (h : ∀ q ∈ sch, ∀ r ∈ resources.getD pb.resources.keys, useOf pb (extend modes) q.1 r = .ok (use q.1 r))
    (past future : List (String × List Int)) (hp : consumption pb sch modes resources false = .ok past)
    (hf : consumption pb sch modes resources true = .ok future) :
    ∀ (i : Nat) r row r' row', past[i]? = some (r, row) → future[i]? = some (r', row') →
      r = r' ∧ ∀ t, t < mk → row'[t + 1]? = row[t]? := by
  obtain ⟨past', p1, p2, p3⟩ := consumption_ok pb sch modes resources false use mk hmk h
  obtain ⟨future', f1, f2, f3⟩ := consumption_ok pb sch modes resources true use mk hmk h
  rw [hp] at p1
  rw [hf] at f1
  cases p1
  cases f1
  intro i r row r' row' hi hi'
  have hlt : i < past.length := by
    apply Classical.byContradiction
    intro hge
    rw [List.getElem?_eq_none (by omega)] at hi
    cases hi
  rw [p2] at hlt
  obtain ⟨row1, a1, a2, a3⟩ := p3 i _ (List.getElem?_eq_getElem hlt)
  obtain ⟨row2, b1, b2, b3⟩ := f3 i _ (List.getElem?_eq_getElem hlt)
  rw [hi] at a1
  rw [hi'] at b1
  simp only [Option.some.injEq, Prod.mk.injEq] at a1 b1
  refine ⟨by rw [a1.1, b1.1], ?_⟩
  intro t ht
  rw [b1.2, a1.2, a3 t (by omega), b3 (t + 1) (by omega)]
  congr 3
  apply List.filter_congr
  intro q _
  simp only [Runs, if_true, Bool.false_eq_true, if_false]
  congr 1
  exact propext ⟨fun h => ⟨by omega, by omega⟩, fun h => ⟨by omega, by omega⟩⟩

/-- C174: an empty schedule raises `ValueError`; a requirement that cannot be looked up raises. -/
theorem C174_errors (pb : Problem) (modes : List Nat) (resources : Option (List String)) (future : Bool) :
    consumption pb [] modes resources future = .error .valueError ∧
    ∀ sch : Schedule, (∃ q ∈ sch, ∃ r ∈ resources.getD pb.resources.keys, ∃ err,
        useOf pb (extend modes) q.1 r = .error err) →
      ∃ err, consumption pb sch modes resources future = .error err := by
  refine ⟨rfl, ?_⟩
  intro sch h
  simp only [consumption]
  cases hl : lastEnd sch with
  | error err => exact ⟨err, rfl⟩
  | ok mk =>
    simp only [bind_ok]
    apply addAll_error
    obtain ⟨q, hq, r, hr, err, he⟩ := h
    refine ⟨q, hq, r, ?_, err, he⟩
    simpa using hr

example : consumption pb2 [(1, 0, 0), (2, 0, 3), (3, 3, 3)] [2] none false = .error .keyError ∧
    consumption pb2 [(1, 0, 0), (2, 0, 3), (3, 3, 3)] [1] (some ["Q"]) false = .error .keyError ∧
    consumption pb2 [(1, 0, 0), (2, 0, 3), (3, 3, 3)] [] none false = .error .indexError :=
  ⟨by decide +kernel, by decide +kernel, by decide +kernel⟩

/-- C174: the check of a schedule adds up the same amounts: at every time the usage that `satisfy` computes for a
resource is the entry of the view on the past. -/
theorem C174_satisfy (pb : Problem) (sch : Schedule) (modes : List Nat) (use : Nat → String → Int) (mk : Nat)
    (hmk : lastEnd sch = .ok mk) (hk : sch.keys.Nodup) (hp : pb.successors.keys.Perm sch.keys)
    (hr : pb.resources.keys.Nodup) (hne : pb.resources ≠ [])
    (h : ∀ q ∈ sch, ∀ r ∈ pb.resources.keys, useOf pb (extend modes) q.1 r = .ok (use q.1 r)) (t : Nat) (ht : t ≤ mk) :
    ∃ u rows, usageLoop pb (extend modes) (asInt sch) t pb.successors.keys
        (pb.resources.map (fun p => (p.1, (0 : Int)))) = .ok u ∧
      consumption pb sch modes none false = .ok rows ∧ ∀ r ∈ pb.resources.keys,
        ∃ row c, (r, row) ∈ rows ∧ row[t]? = some c ∧ u.get? r = some c := by
  obtain ⟨rows, p1, p2, p3⟩ := consumption_ok pb sch modes none false use mk hmk h
  have hl := usageLoop_ok pb (extend modes) sch t use pb.resources.keys (by simpa [Dict.keys] using hne)
    pb.successors.keys (pb.resources.map (fun p => (p.1, (0 : Int)))) (by simp [Dict.keys]) (by
      intro a ha
      have ha' : a ∈ sch.keys := hp.mem_iff.1 ha
      obtain ⟨q, hq, rfl⟩ := List.mem_map.1 ha'
      exact ⟨q.2, Dict.get?_of_mem hk hq, fun r hr => h q hq r hr⟩)
  refine ⟨_, rows, hl, p1, ?_⟩
  intro r hrm
  obtain ⟨i, hi⟩ := List.mem_iff_getElem?.1 hrm
  obtain ⟨row, g1, g2, g3⟩ := p3 i r hi
  refine ⟨row, _, List.mem_iff_getElem?.2 ⟨i, g1⟩, g3 t ht, ?_⟩
  apply Dict.get?_of_mem
  · simpa [Dict.keys, Function.comp_def] using hr
  · rw [List.mem_map]
    obtain ⟨c, hc, rfl⟩ := List.mem_map.1 hrm
    refine ⟨(c.1, 0), List.mem_map.2 ⟨c, hc, rfl⟩, ?_⟩
    simp only [Prod.mk.injEq, true_and, Int.zero_add]
    have hperm := (hp.filter (fun a => ((sch.get? a).map (fun p => Runs false t p)).getD false)).map (fun a => use a c.1)
    rw [hperm.sum_eq]
    show _ = ((sch.filter _).map _).sum
    have hf : sch.keys.filter (fun a => ((sch.get? a).map (fun p => Runs false t p)).getD false) =
        (sch.filter (fun q => Runs false t q.2)).map Prod.fst := by
      unfold Dict.keys
      rw [List.filter_map]
      congr 1
      apply List.filter_congr
      intro q hq
      simp only [Function.comp, Dict.get?_of_mem hk (show (q.1, q.2) ∈ sch from hq), Option.map_some, Option.getD_some]
    rw [hf, List.map_map]
    rfl

example : lastEnd [(1, 0, 0), (2, 0, 3), (3, 3, 3)] = .ok 3 ∧
    pb2.successors.keys.Perm (Dict.keys ([(1, 0, 0), (2, 0, 3), (3, 3, 3)] : Schedule)) ∧
    (usageLoop pb2 (extend [1]) (asInt [(1, 0, 0), (2, 0, 3), (3, 3, 3)]) (1 : Nat) pb2.successors.keys
      (pb2.resources.map (fun p => (p.1, (0 : Int))))) = .ok [("R", 2)] :=
  ⟨by decide +kernel, .refl _, by decide +kernel⟩

/-- C174: the merged curve of a resource has two points per time, `t` twice: first the consumption before `t` (view
on the future), then the one after `t` (view on the past). -/
theorem C174_nice (pb : Problem) (sch : Schedule) (modes : List Nat) (resources : Option (List String))
    (out : List (List Nat × List Int)) (hout : niceConsumption pb sch modes resources = .ok out) :
    ∃ mk past future, lastEnd sch = .ok mk ∧ consumption pb sch modes resources false = .ok past ∧
      consumption pb sch modes resources true = .ok future ∧
      ∀ (i : Nat) r row r' row', past[i]? = some (r, row) → future[i]? = some (r', row') →
        row.length = mk + 1 → row'.length = mk + 1 →
        ∃ times cons, out[i]? = some (times, cons) ∧ times.length = 2 * (mk + 1) ∧ cons.length = 2 * (mk + 1) ∧
          ∀ t, t ≤ mk → times[2 * t]? = some t ∧ times[2 * t + 1]? = some t ∧ cons[2 * t]? = row'[t]? ∧
            cons[2 * t + 1]? = row[t]? := by
  unfold niceConsumption at hout
  cases hf : consumption pb sch modes resources true with
  | error e => rw [hf] at hout; cases hout
  | ok future =>
  rw [hf] at hout
  simp only [bind_ok] at hout
  cases hp : consumption pb sch modes resources false with
  | error e => rw [hp] at hout; cases hout
  | ok past =>
  rw [hp] at hout
  simp only [bind_ok] at hout
  cases hl : lastEnd sch with
  | error e => rw [hl] at hout; cases hout
  | ok mk =>
  rw [hl] at hout
  simp only [bind_ok] at hout
  have hout := Except.ok.inj hout
  refine ⟨mk, past, future, rfl, rfl, rfl, ?_⟩
  intro i r row r' row' hi hi' hrow hrow'
  have pairs : ∀ {β γ : Type} (f g : β → γ) (l : List β),
      (l.flatMap (fun c => [f c, g c])).length = 2 * l.length ∧
      ∀ (t : Nat) c, l[t]? = some c → (l.flatMap (fun c => [f c, g c]))[2 * t]? = some (f c) ∧
        (l.flatMap (fun c => [f c, g c]))[2 * t + 1]? = some (g c) := by
    intro β γ f g l
    induction l with
    | nil => exact ⟨rfl, by simp⟩
    | cons x xs ih =>
      refine ⟨by simp only [List.flatMap_cons, List.length_append, ih.1, List.length_cons, List.length_nil]; omega, ?_⟩
      intro t c htc
      cases t with
      | zero =>
        simp only [List.getElem?_cons_zero, Option.some.injEq] at htc
        subst htc
        exact ⟨rfl, rfl⟩
      | succ t =>
        have := ih.2 t c (by simpa using htc)
        simp only [List.flatMap_cons]
        have h1 : 2 * (t + 1) = (2 * t) + 1 + 1 := by omega
        have h2 : 2 * (t + 1) + 1 = (2 * t + 1) + 1 + 1 := by omega
        rw [h1]
        exact this
  refine ⟨(List.range (mk + 1)).flatMap (fun t => [t, t]), (row'.zip row).flatMap (fun c => [c.1, c.2]), ?_, ?_, ?_, ?_⟩
  · rw [← hout, List.getElem?_map]
    have hz : (future.zip past)[i]? = some ((r', row'), (r, row)) := by
      rw [List.getElem?_zip_eq_some]
      exact ⟨hi', hi⟩
    rw [hz]
    rfl
  · rw [(pairs (fun t => t) (fun t => t) (List.range (mk + 1))).1, List.length_range]
  · rw [(pairs Prod.fst Prod.snd (row'.zip row)).1, List.length_zip, hrow, hrow', Nat.min_self]
  · intro t ht
    have ha := (pairs (fun t => t) (fun t => t) (List.range (mk + 1))).2 t t (by rw [List.getElem?_range (by omega)])
    have h1 : t < row'.length := by omega
    have h2 : t < row.length := by omega
    have hb := (pairs Prod.fst Prod.snd (row'.zip row)).2 t (row'[t], row[t]) (by
      rw [List.getElem?_zip_eq_some]
      exact ⟨List.getElem?_eq_getElem h1, List.getElem?_eq_getElem h2⟩)
    exact ⟨ha.1, ha.2, by rw [hb.1, List.getElem?_eq_getElem h1], by rw [hb.2, List.getElem?_eq_getElem h2]⟩

example : niceConsumption pb2 [(1, 0, 0), (2, 0, 3), (3, 3, 3)] [1] none =
    .ok [([0, 0, 1, 1, 2, 2, 3, 3], [0, 2, 2, 2, 2, 2, 2, 0])] := by decide +kernel

/-- C174 refuted: the rows need not show all consumption.  The time axis ends with the activity of the largest number;
what another activity consumes after that is cut off. -/
theorem C174_complete_refuted :
    ∃ (pb : Problem) (sch : Schedule) (modes : List Nat),
      useOf pb (extend modes) 2 "R" = .ok 2 ∧ sch.get? 2 = some (1, 4) ∧
      consumption pb sch modes none false = .ok [("R", [0, 2])] ∧ lastEnd sch = .ok 1 :=
  ⟨pb2, [(1, 0, 0), (2, 1, 4), (3, 1, 1)], [1], by decide +kernel, by decide +kernel, by decide +kernel,
    by decide +kernel⟩

/-- C174: the differences of starting times: one entry per activity of the first schedule, `KeyError` when the
second lacks one of them; all are zero exactly when the two agree on the activities of the first. -/
theorem C174_diff (sch sch' : Schedule) (hk : sch.keys.Nodup) :
    ((∀ a ∈ sch.keys, a ∈ sch'.keys) → ∃ d, diffStarts sch sch' sch = .ok d ∧ d.keys = sch.keys ∧
      (∀ a s e s' e', sch.get? a = some (s, e) → sch'.get? a = some (s', e') → d.get? a = some ((s : Int) - s')) ∧
      ((∀ a x, d.get? a = some x → x = 0) ↔ ∀ a ∈ sch.keys, (sch.get? a).map Prod.fst = (sch'.get? a).map Prod.fst)) ∧
    ((∃ a ∈ sch.keys, a ∉ sch'.keys) → diffStarts sch sch' sch = .error .keyError) := by
  have key : ∀ l : Schedule, (∀ q ∈ l, sch.get? q.1 = some q.2) →
      ((∀ a ∈ l.keys, a ∈ sch'.keys) → ∃ d, diffStarts sch sch' l = .ok d ∧ d.keys = l.keys ∧
        ∀ a x, (a, x) ∈ d → ∃ s e s' e', sch.get? a = some (s, e) ∧ sch'.get? a = some (s', e') ∧ x = (s : Int) - s') ∧
      ((∃ a ∈ l.keys, a ∉ sch'.keys) → diffStarts sch sch' l = .error .keyError) := by
    intro l
    induction l with
    | nil => exact fun _ => ⟨fun _ => ⟨[], rfl, rfl, by simp⟩, by simp [Dict.keys]⟩
    | cons p ps ih =>
      intro hl
      obtain ⟨a, s, e⟩ := p
      have ha : sch.get? a = some (s, e) := hl _ List.mem_cons_self
      have ih := ih (fun q hq => hl q (List.mem_cons_of_mem _ hq))
      simp only [diffStarts, Dict.get, ha, bind_ok]
      cases hb : sch'.get? a with
      | none =>
        constructor
        · intro h
          have := (Dict.get?_isSome_iff_mem_keys sch' a).2 (h a (by simp [Dict.keys]))
          rw [hb] at this
          cases this
        · intro _
          rfl
      | some q =>
        obtain ⟨s', e'⟩ := q
        simp only [bind_ok]
        constructor
        · intro h
          obtain ⟨d, hd, hdk, hdv⟩ := ih.1 (fun b hb => h b (by
            simp only [Dict.keys, List.map_cons, List.mem_cons] at hb ⊢; exact .inr hb))
          refine ⟨(a, (s : Int) - s') :: d, by simp only [hd, bind_ok], ?_, ?_⟩
          · simp only [Dict.keys, List.map_cons] at hdk ⊢
            rw [hdk]
          · intro b x hbx
            rcases List.mem_cons.1 hbx with heq | hbx
            · simp only [Prod.mk.injEq] at heq
              obtain ⟨rfl, rfl⟩ := heq
              exact ⟨s, e, s', e', ha, hb, rfl⟩
            · exact hdv b x hbx
        · rintro ⟨b, hb1, hb2⟩
          simp only [Dict.keys, List.map_cons, List.mem_cons] at hb1
          rcases hb1 with rfl | hb1
          · exact absurd ((Dict.get?_isSome_iff_mem_keys sch' b).1 (by rw [hb]; rfl)) hb2
          · rw [ih.2 ⟨b, hb1, hb2⟩]
            rfl
  have hself : ∀ q ∈ sch, sch.get? q.1 = some q.2 := fun q hq => Dict.get?_of_mem hk hq
  refine ⟨?_, (key sch hself).2⟩
  intro h
  obtain ⟨d, hd, hdk, hdv⟩ := (key sch hself).1 h
  refine ⟨d, hd, hdk, ?_, ?_⟩
  · intro a s e s' e' ha hb
    have hm : a ∈ d.keys := by rw [hdk]; exact (Dict.get?_isSome_iff_mem_keys sch a).1 (by rw [ha]; rfl)
    cases hg : d.get? a with
    | none =>
      have := (Dict.get?_isSome_iff_mem_keys d a).2 hm
      rw [hg] at this
      cases this
    | some x =>
      obtain ⟨s1, e1, s2, e2, g1, g2, g3⟩ := hdv a x (Dict.mem_of_get? hg)
      rw [ha] at g1
      rw [hb] at g2
      cases g1
      cases g2
      rw [g3]
  · constructor
    · intro hz a ha
      have hm : a ∈ d.keys := by rw [hdk]; exact ha
      cases hg : d.get? a with
      | none =>
        have := (Dict.get?_isSome_iff_mem_keys d a).2 hm
        rw [hg] at this
        cases this
      | some x =>
        obtain ⟨s1, e1, s2, e2, g1, g2, g3⟩ := hdv a x (Dict.mem_of_get? hg)
        have := hz a x hg
        rw [g1, g2]
        simp only [Option.map_some, Option.some.injEq]
        omega
    · intro hz a x hg
      obtain ⟨s1, e1, s2, e2, g1, g2, g3⟩ := hdv a x (Dict.mem_of_get? hg)
      have := hz a ((Dict.get?_isSome_iff_mem_keys sch a).1 (by rw [g1]; rfl))
      rw [g1, g2] at this
      simp only [Option.map_some, Option.some.injEq] at this
      omega

example : diffStarts [(1, 0, 2), (2, 5, 6)] [(2, 3, 4), (1, 0, 1), (7, 0, 0)] [(1, 0, 2), (2, 5, 6)] = .ok [(1, 0), (2, 2)] ∧
    diffStarts [(1, 0, 2), (2, 5, 6)] [(1, 0, 1)] [(1, 0, 2), (2, 5, 6)] = .error .keyError :=
  ⟨by decide +kernel, by decide +kernel⟩

end Verif.Views
