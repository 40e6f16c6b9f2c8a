import Verif.Model.CpModes
import Verif.Lemmas.CpMulti
/- Helper lemmas about the program that chooses modes. -/
namespace Verif.CpModes
open Rcpsp Milp CpRcpsp CpMulti

/-- Modes numbered 1, 2, … in this order. -/
def Plain (bs : List (Nat × List Nat)) : Prop := ∀ b ∈ bs, ∃ k, b.2 = List.range' 1 (k + 1)

theorem fold_get (t c : Nat) : ∀ (ks : List Nat) (d : Dict Nat (Nat × Nat)) (m : Nat),
    (ks.foldl (fun d k => d.set (c + k) (t, k)) d).get? m = if c ≤ m ∧ m - c ∈ ks then some (t, m - c) else d.get? m
  | [], d, m => by simp
  | k :: ks, d, m => by
    rw [List.foldl_cons, fold_get t c ks]
    by_cases h1 : c ≤ m ∧ m - c ∈ ks
    · rw [if_pos h1, if_pos ⟨h1.1, List.mem_cons_of_mem _ h1.2⟩]
    · rw [if_neg h1]
      by_cases h2 : m = c + k
      · subst h2
        rw [Dict.get?_set_self, if_pos ⟨by omega, by simp⟩]
        congr 2
        omega
      · rw [Dict.get?_set_ne _ _ (by omega), if_neg]
        rintro ⟨h3, h4⟩
        rcases List.mem_cons.1 h4 with h4 | h4
        · omega
        · exact h1 ⟨h3, h4⟩

theorem numberModes_ok : ∀ (bs : List (Nat × List Nat)) (c : Nat) (d : Dict Nat (Nat × Nat)), Plain bs →
    ∃ D, numberModes c d bs = .ok (modeSets (c + 1) bs, D) ∧
      (∀ m, m ≤ c → D.get? m = d.get? m) ∧ ∀ (i : Nat) (p : Nat × Nat), (flat bs)[i]? = some p → D.get? (c + 1 + i) = some p
  | [], c, d, _ => ⟨d, rfl, fun _ _ => rfl, by intro i p h; simp [flat] at h⟩
  | (t, ks) :: rest, c, d, hp => by
    obtain ⟨k, hk⟩ := hp (t, ks) (by simp)
    simp only at hk
    have hlast : ks.getLast? = some (k + 1) := by
      rw [hk, List.range'_1_concat, List.getLast?_concat]; congr 1; omega
    have hlen : ks.length = k + 1 := by rw [hk]; simp
    obtain ⟨D, h1, h2, h3⟩ := numberModes_ok rest (c + (k + 1)) (ks.foldl (fun d k => d.set (c + k) (t, k)) d)
      (fun b hb => hp b (List.mem_cons_of_mem _ hb))
    refine ⟨D, ?_, ?_, ?_⟩
    · rw [numberModes, hlast]
      simp only [h1, bind_ok]
      rw [modeSets, hlen]
      have e1 : ks.map (c + ·) = List.range' (c + 1) (k + 1) := by
        rw [hk, List.map_add_range']
      have e2 : c + (k + 1) + 1 = c + 1 + (k + 1) := by omega
      rw [e1, e2]
    · intro m hm
      rw [h2 m (by omega), fold_get, if_neg]
      rintro ⟨h4, h5⟩
      rw [hk, List.mem_range'_1] at h5
      omega
    · intro i p hi
      have hf : flat ((t, ks) :: rest) = ks.map (fun k => (t, k)) ++ flat rest := rfl
      rw [hf] at hi
      by_cases hl : i < ks.length
      · rw [List.getElem?_append_left (by simpa using hl), List.getElem?_map, hk, List.getElem?_range' (by omega), Option.map_some] at hi
        obtain rfl := Option.some.inj hi
        rw [h2 _ (by omega), fold_get, if_pos ⟨by omega, by rw [hk, List.mem_range'_1]; omega⟩]
        congr 2
        omega
      · rw [List.getElem?_append_right (by simpa using hl), List.length_map] at hi
        have := h3 _ _ hi
        rw [← this]
        congr 1
        omega

/-- An activity without modes raises. -/
theorem numberModes_none {t : Nat} : ∀ (bs : List (Nat × List Nat)) (c : Nat) (d : Dict Nat (Nat × Nat)), (t, []) ∈ bs → ∀ r, numberModes c d bs ≠ .ok r
  | (t', ks) :: rest, c, d, hm, r, h => by
    rw [numberModes] at h
    split at h
    · cases h
    · rename_i last hl
      simp only [bind_eq_ok] at h
      obtain ⟨q, h1, -⟩ := h
      rcases List.mem_cons.1 hm with h2 | h2
      · have := (Prod.mk.inj h2).2
        rw [← this] at hl
        cases hl
      · exact numberModes_none rest _ _ h2 q h1

/-- Every number belongs to the activity it is mapped to. -/
theorem flat_mem : ∀ (bs : List (Nat × List Nat)) (c i t k : Nat), (flat bs)[i]? = some (t, k) →
    ∃ (b : Nat) (ks S : List Nat), bs[b]? = some (t, ks) ∧ (modeSets c bs)[b]? = some S ∧ c + i ∈ S
  | [], _, _, _, _, h => by simp [flat] at h
  | (t0, ks) :: rest, c, i, t, k, h => by
    have hf : flat ((t0, ks) :: rest) = ks.map (fun k => (t0, k)) ++ flat rest := rfl
    rw [hf] at h
    by_cases hl : i < ks.length
    · rw [List.getElem?_append_left (by simpa using hl), List.getElem?_map, List.getElem?_eq_getElem hl] at h
      have h := Option.some.inj h
      refine ⟨0, ks, _, ?_, rfl, by rw [List.mem_range'_1]; omega⟩
      have := (Prod.mk.inj h).1
      rw [List.getElem?_cons_zero, this]
    · rw [List.getElem?_append_right (by simpa using hl), List.length_map] at h
      obtain ⟨b, ks', S, h1, h2, h3⟩ := flat_mem rest (c + ks.length) _ t k h
      refine ⟨b + 1, ks', S, h1, by rw [modeSets, List.getElem?_cons_succ]; exact h2, ?_⟩
      have e : c + ks.length + (i - ks.length) = c + i := by omega
      rw [e] at h3
      exact h3

theorem modeSets_lt : ∀ (bs : List (Nat × List Nat)) (c : Nat) (S : List Nat), S ∈ modeSets c bs → ∀ m ∈ S, c ≤ m ∧ m < c + (flat bs).length
  | (t, ks) :: rest, c, S, h, m, hm => by
    have hf : flat ((t, ks) :: rest) = ks.map (fun k => (t, k)) ++ flat rest := rfl
    rw [hf, List.length_append, List.length_map]
    rw [modeSets, List.mem_cons] at h
    rcases h with rfl | h
    · rw [List.mem_range'_1] at hm; omega
    · have := modeSets_lt rest _ S h m hm; omega

theorem modeSets_nodup : ∀ (bs : List (Nat × List Nat)) (c : Nat) (S : List Nat), S ∈ modeSets c bs → S.Nodup
  | (t, ks) :: rest, c, S, h => by
    rw [modeSets, List.mem_cons] at h
    rcases h with rfl | h
    · exact List.nodup_range'
    · exact modeSets_nodup rest _ S h

/-- Of several elements only one satisfies a test. -/
theorem countP_one {α : Type} {p : α → Bool} : ∀ {l : List α}, l.countP p = 1 → ∀ {a b : α}, a ∈ l → b ∈ l → p a = true → p b = true → a = b
  | [], h, _, _, _, _, _, _ => by simp at h
  | c :: l, h, a, b, ha, hb, pa, pb => by
    by_cases hc : p c = true
    · rw [List.countP_cons_of_pos hc] at h
      have h0 : l.countP p = 0 := by omega
      rw [List.countP_eq_zero] at h0
      have ea : a = c := by
        rcases List.mem_cons.1 ha with h | h
        · exact h
        · exact absurd pa (h0 a h)
      have eb : b = c := by
        rcases List.mem_cons.1 hb with h | h
        · exact h
        · exact absurd pb (h0 b h)
      rw [ea, eb]
    · rw [List.countP_cons_of_neg hc] at h
      have ha' : a ∈ l := (List.mem_cons.1 ha).resolve_left (by rintro rfl; exact hc pa)
      have hb' : b ∈ l := (List.mem_cons.1 hb).resolve_left (by rintro rfl; exact hc pb)
      exact countP_one h ha' hb' pa pb

/-- The loop that reads off the modes. -/
theorem retrieveLoop_ok (n : Nat) (idx : Dict Nat (Nat × Nat)) (f : Nat → Nat × Nat) (md : Nat → Nat) : ∀ (L : List (Bool × Nat)) (modes : List Nat),
    modes.length = n → (∀ i, (true, i) ∈ L → idx.get? (i + 1) = some (f i) ∧ 1 ≤ (f i).1 ∧ (f i).1 ≤ n ∧ (f i).2 = md (f i).1) →
    ∃ out, retrieveLoop n idx L modes = .ok out ∧ out.length = n ∧ ∀ j, j < n →
      ((j ≠ 0 ∧ j + 1 ≠ n ∧ ∃ i, (true, i) ∈ L ∧ (f i).1 = j + 1) → out[j]? = some (md (j + 1))) ∧
      (¬ (j ≠ 0 ∧ j + 1 ≠ n ∧ ∃ i, (true, i) ∈ L ∧ (f i).1 = j + 1) → out[j]? = modes[j]?)
  | [], modes, hl, _ => ⟨modes, rfl, hl, by intro j _; simp⟩
  | (false, i) :: rest, modes, hl, h => by
    obtain ⟨out, h1, h2, h3⟩ := retrieveLoop_ok n idx f md rest modes hl (fun i hi => h i (List.mem_cons_of_mem _ hi))
    refine ⟨out, by rw [retrieveLoop, if_neg (by decide), h1], h2, ?_⟩
    intro j hj
    have := h3 j hj
    simpa using this
  | (true, i) :: rest, modes, hl, h => by
    obtain ⟨g1, g2, g3, g4⟩ := h i (by simp)
    have hget : idx.get (i + 1) = .ok (f i) := by rw [Dict.get, g1]
    rw [retrieveLoop, if_pos rfl, hget, bind_ok]
    by_cases hin : (f i).1 ≠ 1 ∧ (f i).1 ≠ n
    · rw [if_pos hin]
      have hset : pySet modes ((f i).1 - 1) (f i).2 = .ok (modes.set ((f i).1 - 1) (f i).2) := by
        rw [pySet, if_pos (by omega)]
      rw [hset, bind_ok]
      obtain ⟨out, h1, h2, h3⟩ := retrieveLoop_ok n idx f md rest (modes.set ((f i).1 - 1) (f i).2) (by simpa using hl)
        (fun i hi => h i (List.mem_cons_of_mem _ hi))
      refine ⟨out, h1, h2, ?_⟩
      intro j hj
      obtain ⟨h4, h5⟩ := h3 j hj
      by_cases hr : j ≠ 0 ∧ j + 1 ≠ n ∧ ∃ i, (true, i) ∈ rest ∧ (f i).1 = j + 1
      · refine ⟨fun _ => h4 hr, fun hh => absurd ⟨hr.1, hr.2.1, ?_⟩ hh⟩
        obtain ⟨i', a, b⟩ := hr.2.2
        exact ⟨i', List.mem_cons_of_mem _ a, b⟩
      · have h5 := h5 hr
        rw [List.getElem?_set] at h5
        by_cases he : (f i).1 - 1 = j
        · rw [if_pos he, if_pos (by omega), g4] at h5
          have : (f i).1 = j + 1 := by omega
          rw [this] at h5
          have q1 : j ≠ 0 := by clear hr h4 h3; omega
          have q2 : j + 1 ≠ n := by clear hr h4 h3; omega
          exact ⟨fun _ => h5, fun hh => absurd ⟨q1, q2, i, by simp, this⟩ hh⟩
        · rw [if_neg he] at h5
          refine ⟨?_, fun _ => h5⟩
          rintro ⟨a, b, i', c, d⟩
          rcases List.mem_cons.1 c with c | c
          · have := (Prod.mk.inj c).2; subst this; omega
          · exact absurd ⟨a, b, i', c, d⟩ hr
    · rw [if_neg hin]
      obtain ⟨out, h1, h2, h3⟩ := retrieveLoop_ok n idx f md rest modes hl (fun i hi => h i (List.mem_cons_of_mem _ hi))
      refine ⟨out, h1, h2, ?_⟩
      intro j hj
      obtain ⟨h4, h5⟩ := h3 j hj
      constructor
      · rintro ⟨a, b, i', c, d⟩
        rcases List.mem_cons.1 c with c | c
        · have := (Prod.mk.inj c).2; subst this
          exact absurd ⟨by omega, by omega⟩ hin
        · exact h4 ⟨a, b, i', c, d⟩
      · intro hh
        apply h5
        rintro ⟨a, b, i', c, d⟩
        exact hh ⟨a, b, i', List.mem_cons_of_mem _ c, d⟩

end Verif.CpModes
