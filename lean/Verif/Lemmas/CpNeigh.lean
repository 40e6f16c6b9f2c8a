import Verif.Model.CpNeigh
import Mathlib.Tactic.Linarith
import Mathlib.Tactic.FieldSimp
import Mathlib.Tactic.Positivity
import Mathlib.Algebra.BigOperators.Group.List.Basic
import Mathlib.Algebra.Order.BigOperators.Group.List
/- Helper lemmas about the neighbourhoods of the constraint programs of projects. -/
namespace Verif.CpNeigh

theorem windows_ok {P : Params} {sched : Sched} {m : Int} : ∀ {js : List Nat} {ws : List Con}, windows P sched m js = .ok ws →
    ∀ s : Nat → Int, (∀ c ∈ ws, c.Holds s) ↔ ∀ j ∈ js, ∃ st en, sched.get? j = some (st, en) ∧ max (st - P.minus) 0 ≤ s j ∧ s j ≤ min (st + P.plus) m
  | [], ws, h, s => by
    obtain rfl := Except.ok.inj h
    simp
  | j :: js, ws, h, s => by
    simp only [windows, window, bind_eq_ok, Except.ok.injEq] at h
    obtain ⟨a, ⟨se, h1, rfl⟩, b, h2, rfl⟩ := h
    have hg : sched.get? j = some se := by
      unfold Dict.get at h1
      split at h1
      · rename_i v e; rw [e, Except.ok.inj h1]
      · cases h1
    have ih := windows_ok h2 s
    rw [List.cons_append, List.cons_append, List.nil_append, List.forall_mem_cons, List.forall_mem_cons, List.forall_mem_cons, ih]
    simp only [Con.Holds]
    constructor
    · rintro ⟨x, y, z⟩
      exact ⟨⟨se.1, se.2, hg, y, x⟩, z⟩
    · rintro ⟨⟨st, en, hg', y, x⟩, z⟩
      rw [hg] at hg'
      obtain rfl := Option.some.inj hg'
      exact ⟨x, y, z⟩

theorem windows_get {P : Params} {sched : Sched} {m : Int} : ∀ {js : List Nat} {ws : List Con}, windows P sched m js = .ok ws →
    ∀ {j : Nat}, j ∈ js → ∃ st en, sched.get? j = some (st, en)
  | i :: js, ws, h, j, hj => by
    simp only [windows, window, bind_eq_ok, Except.ok.injEq] at h
    obtain ⟨a, ⟨se, h1, rfl⟩, b, h2, rfl⟩ := h
    rcases List.mem_cons.1 hj with rfl | hj
    · unfold Dict.get at h1
      split at h1
      · rename_i v e; exact ⟨v.1, v.2, e⟩
      · cases h1
    · exact windows_get h2 hj

theorem windows_total {P : Params} {sched : Sched} {m : Int} : ∀ {js : List Nat}, (∀ j ∈ js, (sched.get? j).isSome) → ∃ ws, windows P sched m js = .ok ws
  | [], _ => ⟨[], rfl⟩
  | j :: js, h => by
    obtain ⟨ws, hw⟩ := windows_total (P := P) (m := m) (js := js) (fun i hi => h i (List.mem_cons_of_mem _ hi))
    obtain ⟨se, hse⟩ := Option.isSome_iff_exists.1 (h j (by simp))
    refine ⟨[.le j (min (se.1 + P.plus) m), .ge j (max (se.1 - P.minus) 0)] ++ ws, ?_⟩
    rw [windows, window, Dict.get, hse]
    simp only [bind_ok, hw]

theorem mem_last {P : Params} {sched : Sched} {m : Int} (hnd : sched.keys.Nodup) {j : Nat} {se : Int × Int} (hg : sched.get? j = some se) :
    j ∈ lastJobs P sched m ↔ m - P.delta ≤ se.2 := by
  simp only [lastJobs, List.mem_map, List.mem_filter, decide_eq_true_eq, Prod.exists]
  constructor
  · rintro ⟨a, b, c, ⟨h1, h2⟩, rfl⟩
    have := Dict.get?_of_mem hnd h1
    rw [hg] at this
    rw [Option.some.inj this]
    exact h2
  · intro h
    exact ⟨j, se.1, se.2, ⟨Dict.mem_of_get? hg, h⟩, rfl⟩

theorem mem_interest {sched : Sched} {m : Int} {cut sub : Nat} (hnd : sched.keys.Nodup) {j : Nat} {se : Int × Int} (hg : sched.get? j = some se) :
    j ∈ interest sched m cut sub ↔ (m : Rat) / cut * sub ≤ se.1 ∧ (se.1 : Rat) ≤ (m : Rat) / cut * (sub + 1) := by
  simp only [interest, List.mem_map, List.mem_filter, decide_eq_true_eq, Prod.exists]
  constructor
  · rintro ⟨a, b, c, ⟨h1, h2⟩, rfl⟩
    have := Dict.get?_of_mem hnd h1
    rw [hg] at this
    rw [Option.some.inj this]
    exact h2
  · intro h
    exact ⟨j, se.1, se.2, ⟨Dict.mem_of_get? hg, h⟩, rfl⟩

theorem caps_holds {sched : Sched} {m : Int} (s : Nat → Int) : (∀ c ∈ caps sched m, c.Holds s) ↔ ∀ j ∈ sched.keys, s j ≤ m + 50 := by
  simp only [caps, Dict.keys, List.mem_map, forall_exists_index, and_imp, forall_apply_eq_imp_iff₂, Con.Holds]

theorem maxTime_ok {sched : Sched} {m : Int} (h : maxTime sched = .ok m) :
    (∃ p ∈ sched, p.2.2 = m) ∧ ∀ p ∈ sched, p.2.2 ≤ m := by
  unfold maxTime at h
  split at h
  · rename_i x e
    obtain rfl := Except.ok.inj h
    rw [List.max?_eq_some_iff] at e
    obtain ⟨e1, e2⟩ := e
    obtain ⟨p, hp, he⟩ := List.mem_map.1 e1
    exact ⟨⟨p, hp, he⟩, fun q hq => e2 _ (List.mem_map_of_mem hq)⟩
  · cases h

theorem maxTime_total {sched : Sched} (h : sched ≠ []) : ∃ m, maxTime sched = .ok m := by
  cases sched with
  | nil => exact absurd rfl h
  | cons p t => exact ⟨_, by rw [maxTime, List.map_cons, List.max?_cons']⟩

/-- Dividing positive weights by their sum. -/
theorem normalise_ok {l : List Rat} (hne : l ≠ []) (hp : ∀ x ∈ l, 0 < x) :
    (normalise l).length = l.length ∧ (∀ x ∈ normalise l, 0 < x) ∧ (normalise l).sum = 1 := by
  have hs : 0 < l.sum := by
    apply List.sum_pos _ hp hne
  refine ⟨by simp [normalise], ?_, ?_⟩
  · intro x hx
    obtain ⟨y, hy, rfl⟩ := List.mem_map.1 hx
    exact div_pos (hp y hy) hs
  · unfold normalise
    have : ∀ (c : Rat) (k : List Rat), (k.map (· / c)).sum = k.sum / c := by
      intro c k
      induction k with
      | nil => simp
      | cons a t ih => simp only [List.map_cons, List.sum_cons, ih]; ring
    rw [this, div_self (ne_of_gt hs)]

theorem modify_pos {l : List Rat} {i : Nat} {c : Rat} (hc : 0 < c) (hp : ∀ x ∈ l, 0 < x) : ∀ x ∈ l.modify i (· * c), 0 < x := by
  intro x hx
  obtain ⟨j, hj⟩ := List.mem_iff_getElem?.1 hx
  rw [List.getElem?_modify] at hj
  split at hj
  · cases hg : l[j]? with
    | none => rw [hg] at hj; cases hj
    | some y =>
      rw [hg] at hj
      obtain rfl := Option.some.inj hj
      exact mul_pos (hp y (List.mem_of_getElem? hg)) hc
  · cases hg : l[j]? with
    | none => rw [hg] at hj; cases hj
    | some y =>
      rw [hg] at hj
      obtain rfl := Option.some.inj hj
      exact hp y (List.mem_of_getElem? hg)

theorem modify_sum : ∀ {l : List Nat} {i : Nat}, i < l.length → (l.modify i (· + 1)).sum = l.sum + 1
  | a :: l, 0, _ => by simp; omega
  | a :: l, i + 1, h => by
    rw [List.modify_succ_cons, List.sum_cons, List.sum_cons, modify_sum (by simpa using h)]
    omega

theorem modify_getD (l : List Nat) (i j : Nat) (hi : i < l.length) : (l.modify i (· + 1)).getD j 0 = l.getD j 0 + if i = j then 1 else 0 := by
  rw [List.getD, List.getElem?_modify, List.getD]
  by_cases h : i = j
  · subst h
    simp [List.getElem?_eq_getElem hi]
  · simp only [h, if_false, Nat.add_zero]
    cases l[j]? <;> rfl

theorem getD_le_sum : ∀ (l : List Nat) (i : Nat), l.getD i 0 ≤ l.sum
  | [], _ => by simp
  | a :: l, 0 => by simp
  | a :: l, i + 1 => by
    have := getD_le_sum l i
    rw [List.getD_cons_succ, List.sum_cons]
    omega

/-- A greatest element of a finite list. -/
theorem exists_greatest (f : Nat → Rat) : ∀ n, 0 < n → ∃ i, i < n ∧ ∀ j, j < n → f j ≤ f i
  | 1, _ => ⟨0, by omega, fun j hj => by have : j = 0 := by omega
                                         rw [this]⟩
  | n + 2, _ => by
    obtain ⟨i, h1, h2⟩ := exists_greatest f (n + 1) (by omega)
    by_cases h : f i ≤ f (n + 1)
    · refine ⟨n + 1, by omega, fun j hj => ?_⟩
      by_cases hjn : j = n + 1
      · rw [hjn]
      · exact le_trans (h2 j (by omega)) h
    · refine ⟨i, by omega, fun j hj => ?_⟩
      by_cases hjn : j = n + 1
      · rw [hjn]; exact le_of_lt (lt_of_not_ge h)
      · exact h2 j (by omega)

end Verif.CpNeigh
