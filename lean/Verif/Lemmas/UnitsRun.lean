import Verif.Lemmas.Units
/- The schedules of the units as runs of jobs. -/
namespace Verif.Views
open Rcpsp

theorem get_map {κ α β : Type} [DecidableEq κ] (d : Dict κ α) (f : κ → α → β) (k : κ) :
    Dict.get? (d.map (fun p => (p.1, f p.1 p.2))) k = (d.get? k).map (f k) := by
  induction d with
  | nil => rfl
  | cons p ps ih =>
    simp only [List.map_cons, Dict.get?]
    split
    · rename_i h; subst h; rfl
    · exact ih

theorem assignAll_ok (pb : Problem) (m : Mode) (act x y : Nat) (need : String → Int) (cap : String → Int)
    (st : Dict String Usage)
    (h : ∀ r ∈ st.keys, m.needs.get? r = some (need r) ∧ pb.resources.get? r = some (.const (cap r))) :
    assignAll pb m act x y st = .ok (st.map (fun p =>
      (p.1, assign (List.range (cap p.1).toNat) act x y (need p.1).toNat p.2))) := by
  induction st with
  | nil => rfl
  | cons p ps ih =>
    obtain ⟨r, u⟩ := p
    obtain ⟨h1, h2⟩ := h r (by simp [Dict.keys])
    have := ih (fun r hr => h r (by simp only [Dict.keys, List.map_cons, List.mem_cons] at hr ⊢; exact .inr hr))
    simp only [assignAll, Dict.get, h1, h2, unitsAt, bind_ok, this, List.map_cons]

/-- The jobs of a list of activities for one resource. -/
def jobsOf (use : Nat → String → Int) (r : String) (l : Schedule) : List Job :=
  (l.filter (fun q => q.2.2 != q.2.1)).map (fun q => { act := q.1, x := q.2.1, y := q.2.2, n := (use q.1 r).toNat })

theorem timeIndex_zero {hi t : Nat} (h : t ≤ hi) : timeIndex 0 hi t = .ok t := by
  unfold timeIndex
  rw [if_pos ⟨Nat.zero_le _, h⟩]
  rfl

theorem assignActs_ok (pb : Problem) (ext : List Nat) (sch : Schedule) (hi : Nat) (use : Nat → String → Int)
    (cap : String → Int) (rs : List String) (hrs : rs ≠ []) (l : Schedule) (st : Dict String Usage)
    (hst : ∀ r ∈ st.keys, r ∈ rs)
    (hl : ∀ q ∈ l, sch.get? q.1 = some q.2 ∧ q.2.1 ≤ hi ∧ q.2.2 ≤ hi ∧ ∀ r ∈ rs, useOf pb ext q.1 r = .ok (use q.1 r))
    (hcap : ∀ r ∈ rs, pb.resources.get? r = some (.const (cap r))) :
    assignActs pb ext sch 0 hi (l.map Prod.fst) st = .ok (st.map (fun p =>
      (p.1, runJobs (List.range (cap p.1).toNat) (jobsOf use p.1 l) p.2))) := by
  induction l generalizing st with
  | nil => simp [assignActs, jobsOf, runJobs]
  | cons q qs ih =>
    obtain ⟨a, s, e⟩ := q
    obtain ⟨hg, hs, he, huse⟩ := hl _ List.mem_cons_self
    obtain ⟨r0, hr0⟩ := List.exists_mem_of_ne_nil rs hrs
    obtain ⟨mode, ms, m, g1, g2, g3, g4⟩ := useOf_inv (huse r0 hr0)
    have hmode : pyGet ext (a - 1) = .ok mode := pyGet_ok_iff.2 g1
    simp only at hg hs he huse g1 g2
    have hqs := fun st hst => ih st hst (fun q hq => hl q (List.mem_cons_of_mem _ hq))
    simp only [List.map_cons, assignActs, hmode, Dict.get, hg, bind_ok]
    by_cases hse : e = s
    · rw [if_pos hse, hqs st hst]
      simp only [jobsOf, List.filter_cons, hse, bne_self_eq_false, Bool.false_eq_true, if_false]
    · rw [if_neg hse]
      simp only [g2, g3, bind_ok, timeIndex_zero hs, timeIndex_zero he]
      rw [assignAll_ok pb m a s e (use a) cap st (by
        intro r hr
        obtain ⟨mode', ms', m', k1, k2, k3, k4⟩ := useOf_inv (huse r (hst r hr))
        rw [g1] at k1
        cases k1
        rw [g2] at k2
        cases k2
        rw [g3] at k3
        cases k3
        exact ⟨k4, hcap r (hst r hr)⟩)]
      simp only [bind_ok]
      rw [hqs _ (by
        intro r hr
        apply hst r
        simpa [Dict.keys] using hr), List.map_map]
      congr 1
      apply List.map_congr_left
      intro p _
      have hne : (e != s) = true := by simpa using hse
      simp only [Function.comp, jobsOf, List.filter_cons, hne, if_true, List.map_cons, runJobs]

theorem checkCaps_ok (pb : Problem) (cap : String → Int) (rs : List String)
    (h : ∀ r ∈ rs, pb.resources.get? r = some (.const (cap r)) ∧ 0 ≤ cap r) : checkCaps pb rs = .ok () := by
  induction rs with
  | nil => rfl
  | cons r rs ih =>
    obtain ⟨h1, h2⟩ := h r List.mem_cons_self
    simp only [checkCaps, Dict.get, h1, bind_ok]
    rw [if_neg (by omega)]
    exact ih (fun r hr => h r (List.mem_cons_of_mem _ hr))

theorem noUsage_spec (rs : List String) (d : Dict String Usage) (z : Usage) (hz : ∀ r v, d.get? r = some v → v = z) :
    (∀ r ∈ (rs.foldl (fun d r => d.set r z) d).keys, r ∈ d.keys ∨ r ∈ rs) ∧
    (∀ r ∈ rs, (rs.foldl (fun d r => d.set r z) d).get? r = some z) ∧
    ∀ r v, (rs.foldl (fun d r => d.set r z) d).get? r = some v → v = z := by
  induction rs generalizing d with
  | nil => exact ⟨fun r hr => .inl hr, by simp, hz⟩
  | cons a as ih =>
    have hz' : ∀ r v, (d.set a z).get? r = some v → v = z := by
      intro r v hv
      rw [Dict.get?_set] at hv
      split at hv
      · exact (Option.some.inj hv).symm
      · exact hz r v hv
    obtain ⟨h1, h2, h3⟩ := ih (d.set a z) hz'
    simp only [List.foldl_cons]
    refine ⟨?_, ?_, h3⟩
    · intro r hr
      rcases h1 r hr with h | h
      · rw [← Dict.get?_isSome_iff_mem_keys, Dict.get?_set] at h
        split at h
        · rename_i he
          right
          rw [he]
          exact List.mem_cons_self
        · exact .inl ((Dict.get?_isSome_iff_mem_keys _ _).1 h)
      · exact .inr (List.mem_cons_of_mem _ h)
    · intro r hr
      by_cases hra : r ∈ as
      · exact h2 r hra
      · have hra' : r = a := by
          rcases List.mem_cons.1 hr with h | h
          · exact h
          · exact absurd h hra
        subst hra'
        -- the entry set first is still there
        have : ∀ (l : List String) (d : Dict String Usage), (d.get? r).isSome = true →
            ((l.foldl (fun d r => d.set r z) d).get? r).isSome = true := by
          intro l
          induction l with
          | nil => intro d h; exact h
          | cons b bs ihb =>
            intro d h
            apply ihb
            rw [Dict.get?_set]
            split
            · rfl
            · exact h
        have hs := this as (d.set r z) (by rw [Dict.get?_set_self]; rfl)
        cases hv : (as.foldl (fun d r => d.set r z) (d.set r z)).get? r with
        | none => rw [hv] at hs; cases hs
        | some v => rw [h3 r v hv]

theorem last_max {α : Type} (key : α → Int) (l : List α) (h : l.Pairwise (fun a b => key a ≤ key b)) {q : α}
    (hq : l.getLast? = some q) : ∀ x ∈ l, key x ≤ key q := by
  obtain ⟨init, rfl⟩ : ∃ init, l = init ++ [q] := by
    rw [List.getLast?_eq_some_iff] at hq
    exact hq
  intro x hx
  rcases List.mem_append.1 hx with hx | hx
  · exact (List.pairwise_append.1 h).2.2 x hx q (by simp)
  · simp only [List.mem_singleton] at hx
    rw [hx]

theorem head_min {α : Type} (key : α → Int) (l : List α) (h : l.Pairwise (fun a b => key a ≤ key b)) {q : α}
    (hq : l.head? = some q) : ∀ x ∈ l, key q ≤ key x := by
  cases l with
  | nil => simp at hq
  | cons a as =>
    simp only [List.head?_cons, Option.some.injEq] at hq
    subst hq
    intro x hx
    rcases List.mem_cons.1 hx with rfl | hx
    · exact Int.le_refl _
    · exact (List.pairwise_cons.1 h).1 x hx

end Verif.Views
