import Verif.Model.CalBreaks
/- Helper lemmas about the breaks of a calendar. -/
namespace Verif.CalBreaks
open Rcpsp

theorem get_some {κ α : Type} [DecidableEq κ] {d : Dict κ α} {k : κ} {v : α} (h : d.get k = .ok v) : d.get? k = some v := by
  unfold Dict.get at h
  split at h
  · rename_i w e; rw [e, Except.ok.inj h]
  · cases h

theorem rowAdd_length (row : List Int) (s e : Nat) (x : Int) : (rowAdd row s e x).length = row.length := by simp [rowAdd]

theorem rowAdd_get {row : List Int} {s e : Nat} {x : Int} {t : Nat} (h : t < row.length) :
    (rowAdd row s e x).getD t 0 = row.getD t 0 + if s ≤ t ∧ t < e then x else 0 := by
  simp only [rowAdd, List.getD, List.getElem?_mapIdx, List.getElem?_eq_getElem h, Option.map_some, Option.getD_some]
  split <;> omega

/-- What the requirements in a list add to a resource. -/
def part (se : Nat × Nat) (r : String) (t : Nat) (ps : List (String × Int)) : Int :=
  (ps.map (fun p => if p.1 = r ∧ se.1 ≤ t ∧ t < se.2 then p.2 else 0)).sum

theorem part_nodup {se : Nat × Nat} {r : String} {t : Nat} : ∀ {ps : Dict String Int}, ps.keys.Nodup →
    part se r t ps = if se.1 ≤ t ∧ t < se.2 then (ps.get? r).getD 0 else 0
  | [], _ => by simp [part, Dict.get?]
  | p :: ps, h => by
    have h' : p.1 ∉ Dict.keys ps ∧ (Dict.keys ps).Nodup := List.nodup_cons.1 h
    have ih := part_nodup (se := se) (r := r) (t := t) h'.2
    have e : part se r t (p :: ps) = (if p.1 = r ∧ se.1 ≤ t ∧ t < se.2 then p.2 else 0) + part se r t ps := by simp [part]
    rw [e, ih]
    by_cases hr : p.1 = r
    · have hn : Dict.get? ps r = none := by
        cases hg : Dict.get? ps r with
        | none => rfl
        | some v =>
          rw [← hr] at hg
          exact absurd ((Dict.get?_isSome_iff_mem_keys ps p.1).1 (by rw [hg]; rfl)) h'.1
      rw [hn, Dict.get?, if_pos hr]
      by_cases ht : se.1 ≤ t ∧ t < se.2
      · simp [hr, ht]
      · simp [ht]
    · rw [Dict.get?, if_neg hr, if_neg (fun hh => hr hh.1)]
      omega

theorem addAll_ok {se : Nat × Nat} : ∀ {ps : List (String × Int)} {A A' : Dict String (List Int)}, addAll se A ps = .ok A' →
    ∀ {r : String}, r ≠ "None" → ∀ {row : List Int}, A.get? r = some row →
      ∃ row', A'.get? r = some row' ∧ row'.length = row.length ∧ ∀ t, t < row.length → row'.getD t 0 = row.getD t 0 + part se r t ps
  | [], A, A', h, r, hr, row, hg => by
    obtain rfl := Except.ok.inj h
    exact ⟨row, hg, rfl, fun t _ => by simp [part]⟩
  | p :: ps, A, A', h, r, hr, row, hg => by
    simp only [addAll, bind_eq_ok] at h
    obtain ⟨B, h1, h2⟩ := h
    have e : ∀ t, part se r t (p :: ps) = (if p.1 = r ∧ se.1 ≤ t ∧ t < se.2 then p.2 else 0) + part se r t ps := by intro t; simp [part]
    have hB : ∃ rowB, B.get? r = some rowB ∧ rowB.length = row.length ∧
        ∀ t, t < row.length → rowB.getD t 0 = row.getD t 0 + if p.1 = r ∧ se.1 ≤ t ∧ t < se.2 then p.2 else 0 := by
      unfold addOne at h1
      split at h1
      · rename_i hc
        obtain rfl := Except.ok.inj h1
        refine ⟨row, hg, rfl, fun t _ => ?_⟩
        split
        · rename_i hh
          rcases hc with hc | hc | hc
          · exact absurd (hh.1.symm.trans hc) hr
          · omega
          · omega
        · omega
      · simp only [bind_eq_ok, Except.ok.injEq] at h1
        obtain ⟨rw0, h3, rfl⟩ := h1
        have h3 := get_some h3
        by_cases hpr : p.1 = r
        · rw [hpr] at h3 ⊢
          rw [hg] at h3
          obtain rfl := Option.some.inj h3
          refine ⟨_, Dict.get?_set_self _ _ _, rowAdd_length _ _ _ _, fun t ht => ?_⟩
          rw [rowAdd_get ht]
          simp
        · refine ⟨row, by rw [Dict.get?_set_ne _ _ (Ne.symm hpr)]; exact hg, rfl, fun t _ => ?_⟩
          rw [if_neg (fun hh => hpr hh.1)]; omega
    obtain ⟨rowB, b1, b2, b3⟩ := hB
    obtain ⟨row', c1, c2, c3⟩ := addAll_ok h2 hr b1
    refine ⟨row', c1, by omega, fun t ht => ?_⟩
    rw [c3 t (by omega), b3 t ht, e]
    omega

/-- What an activity requires in mode 1 at a time. -/
def load (pb : Problem) (sched : Sched) (r : String) (t : Nat) (j : Nat) : Int :=
  match first pb j, sched.get? j with
  | .ok m, some se => if se.1 ≤ t ∧ t < se.2 then (m.needs.get? r).getD 0 else 0
  | _, _ => 0

theorem fill_ok {pb : Problem} {sched : Sched} (hnd : ∀ j m, first pb j = .ok m → m.needs.keys.Nodup) : ∀ {js : List Nat} {A A' : Dict String (List Int)},
    fill pb sched A js = .ok A' → ∀ {r : String}, r ≠ "None" → ∀ {row : List Int}, A.get? r = some row →
      ∃ row', A'.get? r = some row' ∧ row'.length = row.length ∧
        ∀ t, t < row.length → row'.getD t 0 = row.getD t 0 + (js.map (load pb sched r t)).sum
  | [], A, A', h, r, hr, row, hg => by
    obtain rfl := Except.ok.inj h
    exact ⟨row, hg, rfl, fun t _ => by simp⟩
  | j :: js, A, A', h, r, hr, row, hg => by
    simp only [fill, bind_eq_ok] at h
    obtain ⟨m, h1, se, h2, B, h3, h4⟩ := h
    obtain ⟨rowB, b1, b2, b3⟩ := addAll_ok h3 hr hg
    obtain ⟨row', c1, c2, c3⟩ := fill_ok hnd h4 hr b1
    refine ⟨row', c1, by omega, fun t ht => ?_⟩
    rw [c3 t (by omega), b3 t ht, part_nodup (hnd j m h1), List.map_cons, List.sum_cons]
    have : load pb sched r t j = if se.1 ≤ t ∧ t < se.2 then (m.needs.get? r).getD 0 else 0 := by
      unfold load; rw [h1, get_some h2]
    rw [this]
    omega

theorem zeros_ok : ∀ {R : Dict String Capacity} {Z : Dict String (List Int)}, zeros R = .ok Z → ∀ {r : String} {c : Capacity}, R.get? r = some c →
    ∃ l, c = .calendar l ∧ Z.get? r = some (List.replicate l.length 0)
  | [], _, _, r, c, hg => by cases hg
  | (r0, c0) :: rest, Z, h, r, c, hg => by
    simp only [zeros, bind_eq_ok, Except.ok.injEq] at h
    obtain ⟨l, h1, z, h2, rfl⟩ := h
    rw [Dict.get?] at hg ⊢
    split at hg
    · rename_i he
      obtain rfl := Option.some.inj hg
      cases c0 with
      | const c => cases h1
      | calendar l0 =>
        obtain rfl := Except.ok.inj h1
        exact ⟨_, rfl, by rw [if_pos he]⟩
    · rename_i he
      obtain ⟨l', e1, e2⟩ := zeros_ok h2 hg
      exact ⟨l', e1, by rw [if_neg he]; exact e2⟩

theorem found_ok {pb : Problem} {sched : Sched} {A : Dict String (List Int)} : ∀ {R : Dict String Capacity} {d : Dict String Found}, found pb sched A R = .ok d →
    (d.keys = R.keys) ∧ ∀ {r : String} {f : Found}, d.get? r = some f → ∃ l row, R.get? r = some (.calendar l) ∧ A.get? r = some row ∧
      f = ⟨indexOf row l, cuts pb sched r l (indexOf row l)⟩
  | [], d, h => by
    obtain rfl := Except.ok.inj h
    exact ⟨rfl, fun hg => by cases hg⟩
  | (r0, c0) :: rest, d, h => by
    simp only [found, bind_eq_ok, Except.ok.injEq] at h
    obtain ⟨cal, h1, row, h2, d', h3, rfl⟩ := h
    obtain ⟨k1, k2⟩ := found_ok h3
    refine ⟨by simp only [Dict.keys, List.map_cons] at k1 ⊢; rw [k1], ?_⟩
    intro r f hg
    rw [Dict.get?] at hg
    split at hg
    · rename_i he
      cases c0 with
      | const c => cases h1
      | calendar l0 =>
        obtain rfl := Except.ok.inj h1
        refine ⟨_, row, by rw [Dict.get?, if_pos he], by rw [← he]; exact get_some h2, ?_⟩
        rw [← he]
        exact (Option.some.inj hg).symm
    · rename_i he
      obtain ⟨l, rw', e1, e2, e3⟩ := k2 hg
      exact ⟨l, rw', by rw [Dict.get?, if_neg he]; exact e1, e2, e3⟩

/-- The first time from `cur` on at which there is enough. -/
theorem future_ok {cal : List Int} {x : Int} {cur s : Nat} (h1 : cur ≤ s) (h2 : s < cal.length) (h3 : x ≤ cal.getD s 0) :
    ∃ f, future cal x cur = some f ∧ f ≤ s := by
  unfold future
  cases hf : (List.range' cur (cal.length - cur)).find? (fun t => decide (x ≤ cal.getD t 0)) with
  | none =>
    rw [List.find?_eq_none] at hf
    exact absurd (decide_eq_true h3) (hf s (List.mem_range'_1.2 ⟨h1, by omega⟩))
  | some f =>
    refine ⟨f, rfl, ?_⟩
    rw [List.find?_range'_eq_some] at hf
    obtain ⟨-, hm, hlt⟩ := hf
    have hm := List.mem_range'_1.1 hm
    by_cases hsf : f ≤ s
    · exact hsf
    · have := hlt s h1 (by omega)
      rw [decide_eq_true h3] at this
      cases this

theorem rev_find {p : Nat → Bool} : ∀ {n s : Nat}, s < n → p s = true → ∃ b, (List.range n).reverse.find? p = some b ∧ s ≤ b
  | 0, s, h, _ => by omega
  | n + 1, s, h, hp => by
    rw [List.range_succ, List.reverse_append, List.reverse_singleton, List.singleton_append, List.find?_cons]
    cases hn : p n with
    | true => exact ⟨n, rfl, by omega⟩
    | false =>
      have hsn : s ≠ n := by intro e; rw [e, hn] at hp; cases hp
      obtain ⟨b, h1, h2⟩ := rev_find (n := n) (s := s) (by omega) hp
      exact ⟨b, h1, h2⟩

/-- The last time up to `cur` at which there is enough. -/
theorem before_ok {cal : List Int} {x : Int} {cur s : Nat} (h1 : s ≤ cur) (h3 : x ≤ cal.getD s 0) : ∃ b, before cal x cur = some b ∧ s ≤ b :=
  rev_find (by omega) (decide_eq_true h3)

theorem before_some {cal : List Int} {x : Int} {cur b : Nat} (h : before cal x cur = some b) : b ≤ cur ∧ x ≤ cal.getD b 0 := by
  unfold before at h
  have h1 := List.find?_some h
  have h2 := List.mem_of_find?_eq_some h
  rw [List.mem_reverse, List.mem_range] at h2
  exact ⟨by omega, of_decide_eq_true h1⟩

theorem future_some {cal : List Int} {x : Int} {cur f : Nat} (h : future cal x cur = some f) : cur ≤ f ∧ f < cal.length ∧ x ≤ cal.getD f 0 := by
  unfold future at h
  have h1 := List.find?_some h
  have h2 := List.mem_range'_1.1 (List.mem_of_find?_eq_some h)
  exact ⟨h2.1, by omega, of_decide_eq_true h1⟩

end Verif.CalBreaks
