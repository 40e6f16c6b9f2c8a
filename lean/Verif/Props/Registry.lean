import Verif.Model.Registry
import Verif.Lemmas.Milp
/-
C199: the tables of solvers.
-/
namespace Verif.Registry
open Verif.Milp

theorem get?_fillKey (key s : String) : ∀ (l : List (String × Nat)) (m : Dict String (String × Nat)),
    (fillKey key l m).get? s = ((l.reverse.find? (fun q => q.1 = s)).map (fun q => (key, q.2))).or (m.get? s)
  | [], m => by simp [fillKey]
  | (s', p) :: l, m => by
    rw [fillKey, get?_fillKey key s l, Dict.get?_set]
    simp only [List.reverse_cons, List.find?_append, List.find?_cons, List.find?_nil]
    by_cases h : s' = s
    · subst h
      cases l.reverse.find? (fun q => q.1 = s') <;> simp
    · have h' : ¬ s = s' := fun e => h e.symm
      cases l.reverse.find? (fun q => q.1 = s) <;> simp [h, h']

theorem get?_fill (s : String) : ∀ (t : Table) (m : Dict String (String × Nat)),
    (fill t m).get? s = (((t.flatMap (fun q => q.2.map (fun x => (q.1, x)))).reverse.find? (fun q => q.2.1 = s)).map (fun q => (q.1, q.2.2))).or (m.get? s)
  | [], m => by simp [fill]
  | (key, l) :: t, m => by
    rw [fill, get?_fill s t, get?_fillKey]
    simp only [List.flatMap_cons, List.reverse_append, List.find?_append, ← List.map_reverse, List.find?_map]
    cases (t.flatMap (fun q => q.2.map (fun x => (q.1, x)))).reverse.find? (fun q => q.2.1 = s) with
    | some q => simp
    | none =>
      simp only [Option.map_none, Option.none_or, Option.map_map]
      rfl

/-- C199: each solver is noted with the last key and parameters under which it is listed. -/
theorem C199_last (before after : List (String × String × Nat)) (t : Table) (key s : String) (p : Nat)
    (ht : t.flatMap (fun q => q.2.map (fun x => (q.1, x))) = before ++ (key, s, p) :: after) (ha : ∀ q, q ∈ after → q.2.1 ≠ s) :
    (fill t []).get? s = some (key, p) := by
  rw [get?_fill, ht]
  have : after.reverse.find? (fun q => q.2.1 = s) = none := by
    rw [List.find?_eq_none]
    intro q hq
    have := ha q (List.mem_reverse.1 hq)
    simpa using this
  simp [List.find?_append, this]

theorem listed {t : Table} {s : String} : (∃ q, (fill t []).get? s = some q) ↔ ∃ key l p, (key, l) ∈ t ∧ (s, p) ∈ l := by
  rw [get?_fill]
  constructor
  · rintro ⟨q, hq⟩
    simp only [Dict.get?_nil, Option.or_none, Option.map_eq_some_iff] at hq
    obtain ⟨x, hx, _⟩ := hq
    have h1 := List.mem_of_find?_eq_some hx
    have h2 := List.find?_some hx
    simp only [List.mem_reverse, List.mem_flatMap, List.mem_map] at h1
    obtain ⟨⟨k, l⟩, hk, y, hy, rfl⟩ := h1
    simp only [decide_eq_true_eq] at h2
    exact ⟨k, l, y.2, hk, by rw [← h2]; exact hy⟩
  · rintro ⟨key, l, p, h1, h2⟩
    cases h : (t.flatMap (fun q => q.2.map (fun x => (q.1, x)))).reverse.find? (fun q => q.2.1 = s) with
    | some x => exact ⟨(x.1, x.2.2), by simp⟩
    | none =>
      rw [List.find?_eq_none] at h
      exact (h (key, s, p) (List.mem_reverse.2 (List.mem_flatMap.2 ⟨_, h1, List.mem_map.2 ⟨_, h2, rfl⟩⟩)) (by simp)).elim

theorem mem_available {cls s : String} : ∀ {c : Compat}, s ∈ available cls c ↔ ∃ cs, (s, cs) ∈ c ∧ cls ∈ cs
  | [] => by simp [available]
  | (s', cs) :: c => by
    unfold available
    split
    · rename_i h
      rw [List.mem_cons, mem_available]
      constructor
      · rintro (rfl | ⟨cs', h1, h2⟩)
        · exact ⟨cs, by simp, h⟩
        · exact ⟨cs', by simp [h1], h2⟩
      · rintro ⟨cs', h1, h2⟩
        rcases List.mem_cons.1 h1 with h1 | h1
        · cases h1; exact .inl rfl
        · exact .inr ⟨cs', h1, h2⟩
    · rename_i h
      rw [mem_available]
      constructor
      · rintro ⟨cs', h1, h2⟩
        exact ⟨cs', by simp [h1], h2⟩
      · rintro ⟨cs', h1, h2⟩
        rcases List.mem_cons.1 h1 with h1 | h1
        · cases h1; exact (h h2).elim
        · exact ⟨cs', h1, h2⟩

theorem available_sublist (cls : String) : ∀ (c : Compat), (available cls c).Sublist c.keys
  | [] => .slnil
  | (s, cs) :: c => by
    unfold available
    split
    · exact (available_sublist cls c).cons_cons s
    · exact (available_sublist cls c).cons s

/-- C199: `look_for_solver` returns, each once and in the order of the table, the solvers for which the class of the problem is noted,
provided that these are listed. -/
theorem C199_look {t : Table} {c : Compat} (hn : c.keys.Nodup) {cls : String}
    (hl : ∀ s cs, (s, cs) ∈ c → cls ∈ cs → ∃ key l p, (key, l) ∈ t ∧ (s, p) ∈ l) :
    ∃ r, look t c cls = .ok r ∧ r.Nodup ∧ r.Sublist c.keys ∧ ∀ s, s ∈ r ↔ ∃ cs, (s, cs) ∈ c ∧ cls ∈ cs := by
  refine ⟨available cls c, ?_, hn.sublist (available_sublist cls c), available_sublist cls c, fun s => mem_available⟩
  have : mapE (fun s => (fill t []).get s) (available cls c) = .ok ((available cls c).map (fun s => ((fill t []).get? s).getD ("", 0))) := by
    refine Milp.mapE_ok fun s hs => ?_
    obtain ⟨cs, h1, h2⟩ := mem_available.1 hs
    obtain ⟨q, hq⟩ := listed.2 (hl s cs h1 h2)
    simp only [Dict.get, hq, Option.getD_some]
  simp only [look, this, bind_ok]

/-- C199: a solver that is noted for the class but not listed makes `look_for_solver` raise `KeyError`. -/
theorem C199_unlisted_raises {t : Table} {c : Compat} {cls s : String} {cs : List String} (h1 : (s, cs) ∈ c) (h2 : cls ∈ cs)
    (hl : ¬ ∃ key l p, (key, l) ∈ t ∧ (s, p) ∈ l) : look t c cls = .error .keyError := by
  have hg : (fill t []).get? s = none := by
    cases h : (fill t []).get? s with
    | none => rfl
    | some q => exact (hl (listed.1 ⟨q, h⟩)).elim
  have : mapE (fun s => (fill t []).get s) (available cls c) = .error .keyError := by
    refine Milp.mapE_error (fun x e he => ?_) ⟨s, mem_available.2 ⟨cs, h1, h2⟩, by simp only [Dict.get, hg]⟩
    unfold Dict.get at he
    split at he
    · cases he
    · cases he; rfl
  simp only [look, this, bind_error]

/-- C199: in the two tables every solver is listed, so that `look_for_solver` never raises. -/
theorem C199_tables (cls : String) :
    (∃ r, look rcpspTable rcpspCompat cls = .ok r ∧ ∀ s, s ∈ r ↔ ∃ cs, (s, cs) ∈ rcpspCompat ∧ cls ∈ cs) ∧
    ∃ r, look skillTable skillCompat cls = .ok r ∧ ∀ s, s ∈ r ↔ ∃ cs, (s, cs) ∈ skillCompat ∧ cls ∈ cs := by
  constructor
  · have h : rcpspCompat.all (fun q => rcpspTable.any (fun k => k.2.any (fun x => x.1 = q.1))) = true := by decide +kernel
    obtain ⟨r, h1, _, _, h4⟩ := C199_look (t := rcpspTable) (c := rcpspCompat) (cls := cls) (by decide +kernel) (fun s cs hs _ => by
      have := List.all_eq_true.1 h _ hs
      obtain ⟨k, hk, h2⟩ := List.any_eq_true.1 this
      obtain ⟨x, hx, h3⟩ := List.any_eq_true.1 h2
      exact ⟨k.1, k.2, x.2, hk, by
        have h3 : x.1 = s := of_decide_eq_true h3
        rw [← h3]; exact hx⟩)
    exact ⟨r, h1, h4⟩
  · have h : skillCompat.all (fun q => skillTable.any (fun k => k.2.any (fun x => x.1 = q.1))) = true := by decide +kernel
    obtain ⟨r, h1, _, _, h4⟩ := C199_look (t := skillTable) (c := skillCompat) (cls := cls) (by decide +kernel) (fun s cs hs _ => by
      have := List.all_eq_true.1 h _ hs
      obtain ⟨k, hk, h2⟩ := List.any_eq_true.1 this
      obtain ⟨x, hx, h3⟩ := List.any_eq_true.1 h2
      exact ⟨k.1, k.2, x.2, hk, by
        have h3 : x.1 = s := of_decide_eq_true h3
        rw [← h3]; exact hx⟩)
    exact ⟨r, h1, h4⟩

example : look rcpspTable rcpspCompat "RCPSPModelCalendar" = .ok ["LP_MRCPSP", "PileSolverRCPSP_Calendar", "CP_MRCPSP_MZN", "LNS_LP_RCPSP_SOLVER",
    "LNS_CP_RCPSP_SOLVER", "LS_RCPSP_Solver", "SolverWithCalendarIterative"] := by decide +kernel
example : look [("lp", [("A", 0)])] [("A", ["M"]), ("B", ["M", "N"])] "M" = .error .keyError := by decide +kernel

/-- C199 fails: a problem of the general class `RCPSPModel`, or of a class derived from one of those noted, has no solver. -/
theorem C199_class_refuted {cls : String} (h : cls ≠ "SingleModeRCPSPModel" ∧ cls ≠ "MultiModeRCPSPModel" ∧ cls ≠ "RCPSPModelCalendar") :
    look rcpspTable rcpspCompat cls = .ok [] := by
  have : available cls rcpspCompat = [] := by
    simp [rcpspCompat, available, h.1, h.2.1, h.2.2]
  simp only [look, this]
  rfl

/-- C199 fails: a solver listed under two keys is noted under the last only, with the parameters of that place: 20 rounds instead of 500. -/
theorem C199_keys_refuted :
    (∃ l, skillTable.get? "lns" = some l ∧ ("LNS_CP_MS_RCPSP_SOLVER", 500) ∈ l) ∧
    (fill skillTable []).get? "LNS_CP_MS_RCPSP_SOLVER" = some ("lns-cp", 20) ∧
    (∃ l, rcpspTable.get? "lns" = some l ∧ l.map Prod.fst = ["LNS_LP_RCPSP_SOLVER", "LNS_CP_RCPSP_SOLVER"]) ∧
    ∀ s q, (fill rcpspTable []).get? s = some q → q.1 ≠ "lns" := by
  refine ⟨⟨_, rfl, by decide⟩, by decide +kernel, ⟨_, rfl, by decide⟩, ?_⟩
  intro s q h
  have : (fill rcpspTable []).all (fun x => decide (x.2.1 ≠ "lns")) = true := by decide +kernel
  have := List.all_eq_true.1 this _ (Dict.mem_of_get? h)
  exact of_decide_eq_true this

end Verif.Registry
