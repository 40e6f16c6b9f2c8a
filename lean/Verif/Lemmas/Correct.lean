import Verif.Model.Correct
import Verif.Lemmas.Views
import Verif.Lemmas.Helpers

/-! Lemmas for the correction of schedules with helper tasks. -/
namespace Verif.Correct
open Rcpsp Views Helpers

/-- The requirement of a resource at a time. -/
def load (use : Nat → String → Int) (sch : Schedule) (r : String) (t : Nat) : Int :=
  ((sch.filter (fun q => decide (q.2.1 ≤ t ∧ t < q.2.2))).map (fun q => use q.1 r)).sum

theorem load_cons (use : Nat → String → Int) (q : Nat × Nat × Nat) (sch : Schedule) (r : String) (t : Nat) :
    load use (q :: sch) r t = (if q.2.1 ≤ t ∧ t < q.2.2 then use q.1 r else 0) + load use sch r t := by
  unfold load
  by_cases h : q.2.1 ≤ t ∧ t < q.2.2
  · rw [List.filter_cons_of_pos (by simpa using h), if_pos h]; rfl
  · rw [List.filter_cons_of_neg (by simpa using h), if_neg h]; omega

/-- Splitting off one activity. -/
theorem load_erase (use : Nat → String → Int) {sch : Schedule} {h : Nat} {p : Nat × Nat} (hp : sch.get? h = some p)
    (r : String) (t : Nat) :
    load use sch r t = load use (sch.erase h) r t + if p.1 ≤ t ∧ t < p.2 then use h r else 0 := by
  induction sch with
  | nil => cases hp
  | cons q qs ih =>
    obtain ⟨a, v⟩ := q
    simp only [Dict.get?] at hp
    by_cases ha : a = h
    · subst ha
      rw [if_pos rfl] at hp
      cases hp
      rw [load_cons]
      simp only [Dict.erase, if_true]
      exact Int.add_comm _ _
    · rw [if_neg ha] at hp
      rw [load_cons]
      simp only [Dict.erase, ha, if_false]
      rw [load_cons, ih hp]
      dsimp only
      omega

theorem erase_set {sch : Schedule} {h : Nat} {p p' : Nat × Nat} (hp : sch.get? h = some p) :
    Dict.erase (sch.set h p') h = sch.erase h := by
  induction sch with
  | nil => cases hp
  | cons q qs ih =>
    obtain ⟨a, v⟩ := q
    simp only [Dict.get?] at hp
    by_cases ha : a = h
    · subst ha
      simp [Dict.set, Dict.erase]
    · rw [if_neg ha] at hp
      simp only [Dict.set, ha, if_false, Dict.erase]
      rw [ih hp]

theorem keys_set_same {sch : Schedule} {h : Nat} {p p' : Nat × Nat} (hp : sch.get? h = some p) :
    (sch.set h p').keys = sch.keys := by
  rw [Dict.keys_set, if_pos ((Dict.get?_isSome_iff_mem_keys _ _).1 (by rw [hp]; rfl))]

/-- The rows of the resources, as the code keeps them: at `t + 1` the requirement at `t`. -/
structure Rows (pb : Problem) (f : String → Nat → Int) (mk : Nat) (rows : List (String × List Int)) : Prop where
  names : rows.map Prod.fst = pb.resources.keys
  cells : ∀ q ∈ rows, q.2.length = mk + 1 ∧ ∀ t, t < mk → q.2[t + 1]? = some (f q.1 t)

theorem rows_consumption {pb : Problem} {sch : Schedule} {modes : List Nat} {use : Nat → String → Int} {mk : Nat}
    (hmk : lastEnd sch = .ok mk)
    (h : ∀ q ∈ sch, ∀ r ∈ pb.resources.keys, useOf pb (extend modes) q.1 r = .ok (use q.1 r)) :
    ∃ rows, consumption pb sch modes none true = .ok rows ∧ Rows pb (load use sch) mk rows := by
  obtain ⟨rows, e, hl, hr⟩ := consumption_ok pb sch modes none true use mk hmk h
  simp only [Option.getD_none] at hl hr
  refine ⟨rows, e, ?_, ?_⟩
  · apply List.ext_getElem?
    intro i
    rw [List.getElem?_map]
    cases hi : pb.resources.keys[i]? with
    | none =>
      rw [List.getElem?_eq_none_iff] at hi
      rw [List.getElem?_eq_none (by omega)]
      rfl
    | some r =>
      obtain ⟨row, hrow, _⟩ := hr i r hi
      rw [hrow]
      rfl
  · intro q hq
    obtain ⟨i, hi⟩ := List.mem_iff_getElem?.1 hq
    have hlt : i < pb.resources.keys.length := by
      have := (List.getElem?_eq_some_iff.1 hi).1
      omega
    obtain ⟨row, g1, g2, g3⟩ := hr i _ (List.getElem?_eq_getElem hlt)
    rw [hi] at g1
    have g1 := Option.some.inj g1
    subst g1
    refine ⟨g2, ?_⟩
    intro t ht
    dsimp only
    rw [g3 (t + 1) (by omega)]
    unfold load
    congr 3
    apply List.filter_congr
    intro x _
    simp only [Runs, if_true]
    congr 1
    exact propext ⟨fun h => ⟨by omega, by omega⟩, fun h => ⟨by omega, by omega⟩⟩

theorem remove_rows {pb : Problem} {h s e mk : Nat} {f : String → Nat → Int} {n : String → Int} (he : e ≤ mk) :
    ∀ rows : List (String × List Int), (∀ q ∈ rows, need pb h q.1 = .ok (n q.1)) →
    (∀ q ∈ rows, q.2.length = mk + 1 ∧ ∀ t, t < mk → q.2[t + 1]? = some (f q.1 t)) →
    ∃ rows', remove pb h s e rows = .ok rows' ∧ rows'.map Prod.fst = rows.map Prod.fst ∧
      ∀ q ∈ rows', q.2.length = mk + 1 ∧ ∀ t, t < mk →
        q.2[t + 1]? = some (f q.1 t - if s ≤ t ∧ t < e then n q.1 else 0)
  | [], _, _ => ⟨[], rfl, rfl, by simp⟩
  | (r, row) :: rest, hn, hr => by
    obtain ⟨rest', e', m', c'⟩ := remove_rows (s := s) he rest (fun q hq => hn q (List.mem_cons_of_mem _ hq))
      (fun q hq => hr q (List.mem_cons_of_mem _ hq))
    have hrow := hr (r, row) List.mem_cons_self
    dsimp only at hrow
    by_cases hs : s < e
    · refine ⟨(r, addSlice (s + 1) (e + 1) (-n r) row) :: rest', ?_, by simp [m'], ?_⟩
      · have hn' : need pb h r = .ok (n r) := hn (r, row) List.mem_cons_self
        simp only [remove, hs, if_true, hn', bind_ok, e']
        rw [if_neg (by omega), if_neg (by omega)]
      · intro q hq
        rcases List.mem_cons.1 hq with rfl | hq
        · dsimp only
          refine ⟨by rw [length_addSlice]; exact hrow.1, ?_⟩
          intro t ht
          rw [addSlice_get, hrow.2 t ht, Option.map_some]
          by_cases hb : s ≤ t ∧ t < e
          · rw [if_pos (by omega), if_pos hb, Int.sub_eq_add_neg]
          · rw [if_neg (by omega), if_neg hb, Int.sub_zero]
        · exact c' q hq
    · refine ⟨(r, row) :: rest', ?_, by simp [m'], ?_⟩
      · simp only [remove, hs, if_false, bind_ok, e']
      · intro q hq
        rcases List.mem_cons.1 hq with rfl | hq
        · refine ⟨hrow.1, ?_⟩
          intro t ht
          dsimp only
          rw [hrow.2 t ht, if_neg (by omega), Int.sub_zero]
        · exact c' q hq

theorem npGet_nat {row : List Int} {t : Nat} {x : Int} (h : row[t + 1]? = some x) : npGet row ((t : Int) + 1) = .ok x := by
  unfold npGet
  rw [if_pos (by omega), show ((t : Int) + 1).toNat = t + 1 by omega]
  exact pyGet_ok_iff.2 h

theorem fitsAt_ok {pb : Problem} {h mk : Nat} {f : String → Nat → Int} {n cap : String → Int} {t : Nat} (ht : t < mk) :
    ∀ rows : List (String × List Int), (∀ q ∈ rows, need pb h q.1 = .ok (n q.1)) →
    (∀ q ∈ rows, pb.resources.get? q.1 = some (.const (cap q.1))) →
    (∀ q ∈ rows, q.2.length = mk + 1 ∧ ∀ t, t < mk → q.2[t + 1]? = some (f q.1 t)) →
    ∃ b, fitsAt pb h t rows = .ok b ∧ (b = true ↔ ∀ q ∈ rows, f q.1 t + n q.1 ≤ cap q.1)
  | [], _, _, _ => ⟨true, rfl, by simp⟩
  | (r, row) :: rest, hn, hc, hr => by
    obtain ⟨b, e, hb⟩ := fitsAt_ok ht rest (fun q hq => hn q (List.mem_cons_of_mem _ hq))
      (fun q hq => hc q (List.mem_cons_of_mem _ hq)) (fun q hq => hr q (List.mem_cons_of_mem _ hq))
    have h1 := npGet_nat ((hr (r, row) List.mem_cons_self).2 t ht)
    have h2 := hn (r, row) List.mem_cons_self
    have h3 := get_ok (hc (r, row) List.mem_cons_self)
    dsimp only at h1 h2 h3
    by_cases hx : cap r < f r t + n r
    · refine ⟨false, by simp only [fitsAt, h1, h2, h3, bind_ok, hx, if_true], ?_⟩
      constructor
      · intro h; cases h
      · intro h
        have := h (r, row) List.mem_cons_self
        dsimp only at this
        omega
    · refine ⟨b, by simp only [fitsAt, h1, h2, h3, bind_ok, hx, if_false]; exact e, ?_⟩
      rw [hb]
      constructor
      · intro h q hq
        rcases List.mem_cons.1 hq with rfl | hq
        · dsimp only; omega
        · exact h q hq
      · exact fun h q hq => h q (List.mem_cons_of_mem _ hq)

theorem fits_ok {pb : Problem} {h mk : Nat} {f : String → Nat → Int} {n cap : String → Int} {rows : List (String × List Int)}
    (hn : ∀ q ∈ rows, need pb h q.1 = .ok (n q.1))
    (hc : ∀ q ∈ rows, pb.resources.get? q.1 = some (.const (cap q.1)))
    (hr : ∀ q ∈ rows, q.2.length = mk + 1 ∧ ∀ t, t < mk → q.2[t + 1]? = some (f q.1 t)) :
    ∀ (k t : Nat), t + k ≤ mk → ∃ b, fits pb h rows k t = .ok b ∧
      (b = true ↔ ∀ u, t ≤ u → u < t + k → ∀ q ∈ rows, f q.1 u + n q.1 ≤ cap q.1)
  | 0, t, _ => ⟨true, rfl, by
      constructor
      · intro _ u h1 h2; omega
      · intro _; rfl⟩
  | k + 1, t, hk => by
    obtain ⟨a, e1, h1⟩ := fitsAt_ok (t := t) (by omega) rows hn hc hr
    obtain ⟨b, e2, h2⟩ := fits_ok hn hc hr k (t + 1) (by omega)
    refine ⟨a && b, ?_, ?_⟩
    · simp only [fits, e1, bind_ok]
      rw [show (t : Int) + 1 = ((t + 1 : Nat) : Int) by omega, e2]
      rfl
    · rw [Bool.and_eq_true, h1, h2]
      constructor
      · rintro ⟨g1, g2⟩ u hu1 hu2
        by_cases hu : u = t
        · subst hu; exact g1
        · exact g2 u (by omega) (by omega)
      · intro g
        exact ⟨g t (Nat.le_refl _) (by omega), fun u hu1 hu2 => g u (by omega) (by omega)⟩

/-- The search finds the latest start that fits. -/
theorem search_ok {pb : Problem} {h mk len : Nat} {f : String → Nat → Int} {n cap : String → Int}
    {rows : List (String × List Int)} (hn : ∀ q ∈ rows, need pb h q.1 = .ok (n q.1))
    (hc : ∀ q ∈ rows, pb.resources.get? q.1 = some (.const (cap q.1)))
    (hr : ∀ q ∈ rows, q.2.length = mk + 1 ∧ ∀ t, t < mk → q.2[t + 1]? = some (f q.1 t)) (s : Nat)
    (hs : ∀ u, s ≤ u → u < s + len → ∀ q ∈ rows, f q.1 u + n q.1 ≤ cap q.1) :
    ∀ (fuel t : Nat), s ≤ t → t + len ≤ mk → t - s < fuel → ∃ t' : Nat, search pb h rows len fuel t = .ok (t' : Int) ∧
      s ≤ t' ∧ t' ≤ t ∧ (∀ u, t' ≤ u → u < t' + len → ∀ q ∈ rows, f q.1 u + n q.1 ≤ cap q.1) ∧
      ∀ t'', t' < t'' → t'' ≤ t → ∃ u, t'' ≤ u ∧ u < t'' + len ∧ ∃ q ∈ rows, cap q.1 < f q.1 u + n q.1
  | 0, t, _, _, hf => by omega
  | fuel + 1, t, h1, h2, hf => by
    obtain ⟨b, e, hb⟩ := fits_ok hn hc hr len t h2
    by_cases hbt : b = true
    · subst hbt
      refine ⟨t, by simp only [search, e, bind_ok, if_true], h1, Nat.le_refl _, hb.1 rfl, ?_⟩
      intro t'' g1 g2; omega
    · have hne : t ≠ s := by
        rintro rfl
        exact hbt (hb.2 hs)
      obtain ⟨t', e', g1, g2, g3, g4⟩ := search_ok hn hc hr s hs fuel (t - 1) (by omega) (by omega) (by omega)
      refine ⟨t', ?_, g1, by omega, g3, ?_⟩
      · simp only [search, e, bind_ok, hbt, Bool.false_eq_true, if_false]
        rw [show (t : Int) - 1 = ((t - 1 : Nat) : Int) by omega]
        exact e'
      · intro t'' k1 k2
        by_cases ht : t'' = t
        · subst ht
          apply Classical.byContradiction
          intro hcon
          apply hbt
          rw [hb]
          intro u u1 u2 q hq
          apply Classical.byContradiction
          intro hq'
          exact hcon ⟨u, u1, u2, q, hq, by omega⟩
        · exact g4 t'' k1 (by omega)

theorem starts_ok {sch : Schedule} : ∀ ys : List Nat, (∀ y ∈ ys, ∃ q, sch.get? y = some q) →
    ∃ l, starts sch ys = .ok l ∧ ∀ x, x ∈ l ↔ ∃ y ∈ ys, ∃ q, sch.get? y = some q ∧ q.1 = x
  | [], _ => ⟨[], rfl, by simp⟩
  | y :: ys, h => by
    obtain ⟨q, hq⟩ := h y List.mem_cons_self
    obtain ⟨l, e, hl⟩ := starts_ok ys (fun y' hy => h y' (List.mem_cons_of_mem _ hy))
    refine ⟨q.1 :: l, by simp only [starts, get_ok hq, bind_ok, e], ?_⟩
    intro x
    rw [List.mem_cons, hl]
    simp only [List.mem_cons, exists_eq_or_imp, hq, Option.some.injEq, exists_eq_left']
    constructor
    · rintro (h | h)
      · exact .inl h.symm
      · exact .inr h
    · rintro (h | h)
      · exact .inl h.symm
      · exact .inr h

end Verif.Correct
