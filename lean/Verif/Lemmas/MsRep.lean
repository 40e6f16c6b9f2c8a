import Mathlib.Algebra.Order.Ring.Rat
import Mathlib.Algebra.BigOperators.Group.List.Basic
import Mathlib.Tactic.Ring
import Verif.Model.MsRep
import Verif.Lemmas.MultiSkillCheck

/-! Lemmas about the project in which skills are resources. -/

namespace Verif.MultiSkill
open Verif.Rcpsp (Mode Capacity dict_get_ok)

/-- What the rows have of skill `s` at position `i`. -/
def slot (rows : Dict String (List Rat)) (s : String) (i : Nat) : Rat := ((rows.get? s).bind (·[i]?)).getD 0

/-- All rows have length `L`. -/
def Shape (L : Nat) (rows : Dict String (List Rat)) : Prop := ∀ s row, rows.get? s = some row → row.length = L

theorem credit_spec {L j : Nat} (hL : 0 < L) : ∀ (skills : Dict String Rat) (rows : Dict String (List Rat)), skills.keys.Nodup →
    (∀ s ∈ skills.keys, s ∈ rows.keys) → Shape L rows → ∃ rows', credit j skills rows = .ok rows' ∧ rows'.keys = rows.keys ∧ Shape L rows' ∧
      ∀ s i, i < L → slot rows' s i = slot rows s i + if i = min j (L - 1) then (skills.get? s).getD 0 else 0
  | [], rows, _, _, hsh => ⟨rows, rfl, rfl, hsh, by intro s i _; simp [Dict.get?]⟩
  | (s, v) :: rest, rows, hn, hk, hsh => by
    obtain ⟨row, hrow⟩ := Option.isSome_iff_exists.1 ((Dict.get?_isSome_iff_mem_keys rows s).2 (hk s (by simp [Dict.keys])))
    have hlen := hsh s row hrow
    have hn' : s ∉ Dict.keys rest ∧ (Dict.keys rest).Nodup := by simpa [Dict.keys] using hn
    have hmem : s ∈ rows.keys := hk s (by simp [Dict.keys])
    have hkeys : (rows.set s (row.modify (min j (L - 1)) (· + v))).keys = rows.keys := by rw [Dict.keys_set, if_pos hmem]
    obtain ⟨rows', h1, h2, h3, h4⟩ := credit_spec hL rest (rows.set s (row.modify (min j (L - 1)) (· + v))) hn'.2
      (fun t ht => by rw [hkeys]; exact hk t (by simp only [Dict.keys, List.map_cons, List.mem_cons]; exact .inr ht))
      (by
        intro t r hr
        rw [Dict.get?_set] at hr
        split at hr
        · cases hr; rw [List.length_modify, hlen]
        · exact hsh t r hr)
    refine ⟨rows', ?_, by rw [h2, hkeys], h3, ?_⟩
    · unfold credit
      rw [dict_get_ok.2 hrow, bind_ok, if_neg (by cases row with | nil => simp at hlen; omega | cons _ _ => simp), hlen]
      exact h1
    · intro t i hi
      rw [h4 t i hi]
      unfold slot
      rw [Dict.get?_set]
      by_cases ht : t = s
      · subst ht
        have hr : Dict.get? rest t = none := by
          by_contra hc
          exact hn'.1 ((Dict.get?_isSome_iff_mem_keys rest t).1 (Option.isSome_iff_ne_none.2 hc))
        simp only [if_pos rfl, hrow, Option.bind_some, List.getElem?_modify, Dict.get?, hr, Option.getD_none]
        have hi' : i < row.length := by omega
        by_cases hij : min j (L - 1) = i
        · simp [hij, hi']
        · simp [hij, Ne.symm hij, hi']
      · have : ¬ s = t := fun h => ht h.symm
        simp [Dict.get?, this, ht]

/-- How often position `i` gets the level of an employee: once for each day at work that is mapped to it. -/
def days (L : Nat) : List Bool → Nat → Nat → Nat
  | [], _, _ => 0
  | b :: cal, j, i => (if b = true ∧ i = min j (L - 1) then 1 else 0) + days L cal (j + 1) i

theorem creditDays_spec {L : Nat} (hL : 0 < L) {skills : Dict String Rat} (hn : skills.keys.Nodup) : ∀ (cal : List Bool) (j : Nat) (rows : Dict String (List Rat)),
    (∀ s ∈ skills.keys, s ∈ rows.keys) → Shape L rows → ∃ rows', creditDays skills cal j rows = .ok rows' ∧ rows'.keys = rows.keys ∧ Shape L rows' ∧
      ∀ s i, i < L → slot rows' s i = slot rows s i + days L cal j i * (skills.get? s).getD 0
  | [], j, rows, _, hsh => ⟨rows, rfl, rfl, hsh, by intro s i _; simp [days]⟩
  | b :: cal, j, rows, hk, hsh => by
    cases b with
    | false =>
      obtain ⟨rows', h1, h2, h3, h4⟩ := creditDays_spec hL hn cal (j + 1) rows hk hsh
      exact ⟨rows', h1, h2, h3, fun s i hi => by rw [h4 s i hi]; simp [days]⟩
    | true =>
      obtain ⟨r1, g1, g2, g3, g4⟩ := credit_spec (j := j) hL skills rows hn hk hsh
      obtain ⟨rows', h1, h2, h3, h4⟩ := creditDays_spec hL hn cal (j + 1) r1 (by rw [g2]; exact hk) g3
      refine ⟨rows', ?_, by rw [h2, g2], h3, fun s i hi => ?_⟩
      · unfold creditDays
        rw [if_pos rfl, g1, bind_ok, h1]
      · rw [h4 s i hi, g4 s i hi]
        by_cases hij : i = min j (L - 1)
        · simp only [days, if_pos hij, true_and]
          push_cast; ring
        · simp only [days, if_neg hij, true_and]
          push_cast; ring

theorem creditAll_spec {L : Nat} (hL : 0 < L) : ∀ (emps : Dict Nat Employee) (rows : Dict String (List Rat)),
    (∀ p ∈ emps, p.2.skills.keys.Nodup ∧ ∀ s ∈ p.2.skills.keys, s ∈ rows.keys) → Shape L rows →
    ∃ rows', creditAll emps rows = .ok rows' ∧ rows'.keys = rows.keys ∧ Shape L rows' ∧
      ∀ s i, i < L → slot rows' s i = slot rows s i + (emps.map (fun p => (days L p.2.calendar 0 i : Rat) * (p.2.skills.get? s).getD 0)).sum
  | [], rows, _, hsh => ⟨rows, rfl, rfl, hsh, by intro s i _; simp⟩
  | (w, e) :: rest, rows, hk, hsh => by
    have h0 := hk (w, e) (by simp)
    obtain ⟨r1, g1, g2, g3, g4⟩ := creditDays_spec hL h0.1 e.calendar 0 rows h0.2 hsh
    obtain ⟨rows', h1, h2, h3, h4⟩ := creditAll_spec hL rest r1 (fun p hp => by rw [g2]; exact hk p (by simp [hp])) g3
    refine ⟨rows', ?_, by rw [h2, g2], h3, fun s i hi => ?_⟩
    · unfold creditAll
      rw [g1, bind_ok, h1]
    · rw [h4 s i hi, g4 s i hi]
      simp only [List.map_cons, List.sum_cons]
      ring

/-- Before the last position every day counts once, for itself. -/
theorem days_inner {L : Nat} : ∀ (cal : List Bool) (j i : Nat), i < L - 1 → days L cal j i = if j ≤ i ∧ cal[i - j]? = some true then 1 else 0
  | [], j, i, _ => by simp [days]
  | b :: cal, j, i, hi => by
    have ih := days_inner cal (j + 1) i hi
    simp only [days, ih]
    by_cases h1 : j = i
    · subst h1
      have e : j = min j (L - 1) := by omega
      have e2 : ¬ (j + 1 ≤ j) := by omega
      simp only [e2, false_and, if_false, Nat.sub_self, Nat.le_refl, true_and, List.getElem?_cons_zero, Option.some.injEq, Nat.add_zero]
      by_cases hb : b = true
      · rw [if_pos ⟨hb, e⟩, if_pos hb]
      · rw [if_neg (fun h => hb h.1), if_neg hb]
    · have e : ¬ (i = min j (L - 1)) := by omega
      rw [if_neg (fun h => e h.2), Nat.zero_add]
      by_cases h2 : j < i
      · have e3 : i - j = (i - (j + 1)) + 1 := by omega
        rw [e3, List.getElem?_cons_succ]
        have : j + 1 ≤ i ↔ j ≤ i := by omega
        simp only [this]
      · rw [if_neg (by omega), if_neg (by omega)]

/-- Every position gets at least its own day. -/
theorem days_ge {L : Nat} : ∀ (cal : List Bool) (j i : Nat), i < L → j ≤ i → cal[i - j]? = some true → 1 ≤ days L cal j i
  | [], j, i, _, _, h => by simp at h
  | b :: cal, j, i, hi, hj, h => by
    simp only [days]
    by_cases h1 : j = i
    · subst h1
      simp only [Nat.sub_self, List.getElem?_cons_zero, Option.some.injEq] at h
      rw [if_pos ⟨h, by omega⟩]; omega
    · have e3 : i - j = (i - (j + 1)) + 1 := by omega
      rw [e3, List.getElem?_cons_succ] at h
      have := days_ge cal (j + 1) i hi (by omega) h
      omega

/-- With a calendar that is not longer than the row the last position counts its own day only. -/
theorem days_last {L : Nat} (hL : 0 < L) : ∀ (cal : List Bool) (j : Nat), j + cal.length ≤ L → days L cal j (L - 1) = if j ≤ L - 1 ∧ cal[L - 1 - j]? = some true then 1 else 0
  | [], j, _ => by simp [days]
  | b :: cal, j, h => by
    simp only [List.length_cons] at h
    have ih := days_last hL cal (j + 1) (by omega)
    simp only [days, ih]
    by_cases h1 : j = L - 1
    · have e2 : ¬ (j + 1 ≤ L - 1) := by omega
      have e : L - 1 = min j (L - 1) := by omega
      simp only [e2, false_and, if_false]
      rw [h1, Nat.sub_self, List.getElem?_cons_zero]
      by_cases hb : b = true
      · rw [if_pos ⟨hb, by omega⟩, if_pos ⟨Nat.le_refl _, by rw [hb]⟩]
      · rw [if_neg (fun h => hb h.1), if_neg (fun h => hb (by simpa using h.2))]
    · have e : ¬ (L - 1 = min j (L - 1)) := by omega
      have e3 : L - 1 - j = (L - 1 - (j + 1)) + 1 := by omega
      rw [if_neg (fun h => e h.2), Nat.zero_add, e3, List.getElem?_cons_succ]
      have a1 : j + 1 ≤ L - 1 := by omega
      have a2 : j ≤ L - 1 := by omega
      simp only [a1, a2, true_and]

theorem le_trunc {n : Int} {x : Rat} (h0 : 0 ≤ x) (h : (n : Rat) ≤ x) : n ≤ trunc x := by
  unfold trunc
  rw [if_pos h0]
  exact Rat.le_floor_iff.2 h

/-- What requirements become when the missing ones are filled with 0. -/
theorem fill_get? (r : String) : ∀ (names : List String) (needs : Dict String Int),
    (fill names needs).get? r = if r ∈ names then some ((needs.get? r).getD 0) else needs.get? r
  | [], needs => by simp [fill]
  | n :: names, needs => by
    unfold fill
    rw [fill_get? r names]
    by_cases hc : needs.contains n = true
    · rw [if_pos hc]
      by_cases hr : r = n
      · subst hr
        obtain ⟨v, hv⟩ := Option.isSome_iff_exists.1 ((Dict.contains_iff needs r).1 hc)
        simp [hv]
      · simp [hr]
    · rw [if_neg hc, Dict.get?_set]
      by_cases hr : r = n
      · subst hr
        have : needs.get? r = none := by
          by_contra hx
          exact hc ((Dict.contains_iff needs r).2 (Option.isSome_iff_ne_none.2 hx))
        simp [this]
      · simp [hr]

/-- Laying rows over a dictionary. -/
theorem foldl_set_get? {f : List Rat → Capacity} (k : String) : ∀ (rows : Dict String (List Rat)) (d : Dict String Capacity), rows.keys.Nodup →
    Dict.get? (rows.foldl (fun d p => Dict.set d p.1 (f p.2)) d) k = match rows.get? k with
      | some row => some (f row)
      | none => d.get? k
  | [], d, _ => rfl
  | (s, row) :: rest, d, hn => by
    have hn' : s ∉ Dict.keys rest ∧ (Dict.keys rest).Nodup := by simpa [Dict.keys] using hn
    rw [List.foldl_cons, foldl_set_get? k rest _ hn'.2]
    by_cases hk : s = k
    · subst hk
      have hr : Dict.get? rest s = none := by
        by_contra hc
        exact hn'.1 ((Dict.get?_isSome_iff_mem_keys rest s).1 (Option.isSome_iff_ne_none.2 hc))
      simp [hr, Dict.get?, Dict.get?_set_self]
    · simp only [Dict.get?, if_neg hk]
      rcases Dict.get? rest k with _ | r
      · simp only []
        rw [Dict.get?_set_ne]
        exact fun h => hk h.symm
      · rfl

theorem foldl_set_keys {f : List Rat → Capacity} : ∀ (rows : Dict String (List Rat)) (d : Dict String Capacity), d.keys.Nodup →
    (Dict.keys (rows.foldl (fun d p => Dict.set d p.1 (f p.2)) d)).Nodup ∧
    ∀ k, k ∈ Dict.keys (rows.foldl (fun d p => Dict.set d p.1 (f p.2)) d) ↔ k ∈ rows.keys ∨ k ∈ d.keys
  | [], d, h => by simpa [Dict.keys] using h
  | (s, row) :: rest, d, h => by
    obtain ⟨h1, h2⟩ := foldl_set_keys (f := f) rest (d.set s (f row)) (Dict.nodup_keys_set _ _ h)
    refine ⟨h1, fun k => ?_⟩
    rw [List.foldl_cons, h2, Dict.keys_set]
    have hc : k ∈ Dict.keys ((s, row) :: rest) ↔ k = s ∨ k ∈ Dict.keys rest := by simp [Dict.keys]
    rw [hc]
    by_cases hm : s ∈ d.keys
    · rw [if_pos hm]
      constructor
      · rintro (h | h)
        · exact .inl (.inr h)
        · exact .inr h
      · rintro ((rfl | h) | h)
        · exact .inr hm
        · exact .inl h
        · exact .inr h
    · rw [if_neg hm, List.mem_append, List.mem_singleton]
      grind

end Verif.MultiSkill
