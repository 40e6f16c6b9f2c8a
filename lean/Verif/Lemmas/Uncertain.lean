import Verif.Lemmas.Robust
import Mathlib.Algebra.Order.BigOperators.Group.List

/-! Helper lemmas for C179 and C180: laws planted in trees, distributions, quantiles. -/
namespace Verif.Robust
open Rcpsp Milp

/-- `laws[j][k][key]`. -/
def lawOf (t : Laws) (j k : Nat) (key : String) : Option Law :=
  ((t.get? j).bind (fun ms => ms.get? k)).bind (fun l => l.get? key)

theorem lawOf_plant (t : Laws) (j k : Nat) (r : String) (law : Law) (j' k' : Nat) (r' : String) :
    lawOf (plant t j k r law) j' k' r' = if j' = j ∧ k' = k ∧ r' = r then some law else lawOf t j' k' r' := by
  unfold plant lawOf
  dsimp only
  by_cases hj : j' = j
  · subst hj
    rw [Dict.get?_set_self]
    simp only [Option.bind_some]
    by_cases hk : k' = k
    · subst hk
      rw [Dict.get?_set_self]
      simp only [Option.bind_some]
      by_cases hr : r' = r
      · subst hr
        rw [Dict.get?_set_self]; simp
      · rw [Dict.get?_set_ne _ _ hr]
        simp only [hr, and_false, if_false]
        cases t.get? j' with
        | none => simp
        | some ms =>
          simp only [Option.getD_some, Option.bind_some]
          cases ms.get? k' with
          | none => simp
          | some l => rfl
    · rw [Dict.get?_set_ne _ _ hk]
      simp only [hk, false_and, and_false, if_false]
      cases t.get? j' with
      | none => simp
      | some ms => rfl
  · rw [Dict.get?_set_ne _ _ hj]
    simp [hj]

theorem get?_cons {κ α : Type} [DecidableEq κ] (k : κ) (v : α) (d : Dict κ α) (k' : κ) :
    Dict.get? ((k, v) :: d) k' = if k = k' then some v else Dict.get? d k' := rfl

theorem get?_none_of_notMem {κ α : Type} [DecidableEq κ] {d : Dict κ α} {k : κ} (h : k ∉ d.keys) : d.get? k = none := by
  cases hg : d.get? k with
  | none => rfl
  | some v => exact absurd ((Dict.get?_isSome_iff_mem_keys d k).1 (by rw [hg]; rfl)) h

theorem lawOf_inner (j k : Nat) (j' k' : Nat) (r' : String) : ∀ (l : Dict String Law) (t : Laws), l.keys.Nodup →
    lawOf (l.foldl (fun t p => plant t j k p.1 p.2) t) j' k' r' =
      if j' = j ∧ k' = k then (l.get? r').or (lawOf t j' k' r') else lawOf t j' k' r'
  | [], t, _ => by simp [Dict.get?]
  | (r, law) :: l, t, h => by
    have hn : r ∉ Dict.keys l ∧ (Dict.keys l).Nodup := List.nodup_cons.1 h
    rw [List.foldl_cons, lawOf_inner j k j' k' r' l _ hn.2, lawOf_plant]
    dsimp only
    rw [get?_cons]
    by_cases hjk : j' = j ∧ k' = k
    · rw [if_pos hjk, if_pos hjk]
      by_cases hr : r = r'
      · subst hr
        rw [if_pos ⟨hjk.1, hjk.2, rfl⟩, if_pos rfl, get?_none_of_notMem hn.1]; simp
      · rw [if_neg (fun h => hr h.2.2.symm), if_neg hr]
    · rw [if_neg hjk, if_neg hjk, if_neg (fun h => hjk ⟨h.1, h.2.1⟩)]

theorem lawOf_mid (j : Nat) (j' k' : Nat) (r' : String) : ∀ (ms : Dict Nat (Dict String Law)) (t : Laws), ms.keys.Nodup →
    (∀ q ∈ ms, q.2.keys.Nodup) →
    lawOf (ms.foldl (fun t k => k.2.foldl (fun t p => plant t j k.1 p.1 p.2) t) t) j' k' r' =
      if j' = j then ((ms.get? k').bind (fun l => l.get? r')).or (lawOf t j' k' r') else lawOf t j' k' r'
  | [], t, _, _ => by simp [Dict.get?]
  | (k, l) :: ms, t, h, hl => by
    have hn : k ∉ Dict.keys ms ∧ (Dict.keys ms).Nodup := List.nodup_cons.1 h
    rw [List.foldl_cons, lawOf_mid j j' k' r' ms _ hn.2 (fun q hq => hl q (List.mem_cons_of_mem _ hq)),
      lawOf_inner j k j' k' r' l t (hl (k, l) (List.mem_cons_self ..)), get?_cons]
    by_cases hj : j' = j
    · rw [if_pos hj, if_pos hj]
      by_cases hk : k = k'
      · subst hk
        rw [if_pos ⟨hj, rfl⟩, if_pos rfl, get?_none_of_notMem hn.1]; simp
      · rw [if_neg (fun h => hk h.2.symm), if_neg hk]
    · rw [if_neg hj, if_neg hj, if_neg (fun h => hj h.1)]

/-- Planted laws come first. -/
theorem lawOf_plantAll (j' k' : Nat) (r' : String) : ∀ (laws : Laws) (t : Laws), laws.keys.Nodup →
    (∀ q ∈ laws, q.2.keys.Nodup ∧ ∀ p ∈ q.2, p.2.keys.Nodup) →
    lawOf (plantAll t laws) j' k' r' = (lawOf laws j' k' r').or (lawOf t j' k' r')
  | [], t, _, _ => by simp [plantAll, lawOf, Dict.get?]
  | (j, ms) :: laws, t, h, hl => by
    have hn : j ∉ Dict.keys laws ∧ (Dict.keys laws).Nodup := List.nodup_cons.1 h
    have ih := lawOf_plantAll j' k' r' laws
      (ms.foldl (fun t k => k.2.foldl (fun t p => plant t j k.1 p.1 p.2) t) t) hn.2
      (fun q hq => hl q (List.mem_cons_of_mem _ hq))
    have hm := hl (j, ms) (List.mem_cons_self ..)
    have hstep : plantAll t ((j, ms) :: laws) =
      plantAll (ms.foldl (fun t k => k.2.foldl (fun t p => plant t j k.1 p.1 p.2) t) t) laws := rfl
    rw [hstep, ih, lawOf_mid j j' k' r' ms t hm.1 hm.2]
    by_cases hj : j' = j
    · subst hj
      rw [if_pos rfl]
      have : lawOf laws j' k' r' = none := by unfold lawOf; rw [get?_none_of_notMem hn.1]; rfl
      rw [this]
      simp only [lawOf, get?_cons, if_pos, Option.bind_some, Option.none_or]
    · rw [if_neg hj]
      have : lawOf ((j, ms) :: laws) j' k' r' = lawOf laws j' k' r' := by
        unfold lawOf; rw [get?_cons, if_neg (fun h => hj h.symm)]
      rw [this]

/-! ### Distributions -/

theorem sum_map_div (w : Rat) : ∀ l : List Rat, (l.map (fun x => x / w)).sum = l.sum / w
  | [] => by simp
  | a :: l => by simp only [List.map_cons, List.sum_cons, sum_map_div w l]; ring

theorem weight_nonneg {uniform : Bool} {l : Law} {v : Int} (h : uniform = true ∨ 0 ≤ l.mid) : 0 ≤ weight uniform l v := by
  unfold weight
  split
  · norm_num
  · split
    · exact le_refl _
    · rename_i h1 _
      rcases h with h | h
      · exact absurd h h1
      · have : (0 : Rat) ≤ (l.mid : Rat) := by exact_mod_cast h
        exact div_nonneg (pow_nonneg this _) (Nat.cast_nonneg _)

theorem mem_values {l : Law} {v : Int} : v ∈ values l ↔ l.lo ≤ v ∧ v ≤ l.hi := by
  unfold values
  rw [List.mem_map]
  constructor
  · rintro ⟨i, hi, rfl⟩
    have := List.mem_range.1 hi
    omega
  · rintro ⟨h1, h2⟩
    exact ⟨(v - l.lo).toNat, List.mem_range.2 (by omega), by omega⟩

theorem values_length (l : Law) : (values l).length = (l.hi - l.lo + 1).toNat := by
  simp [values]

/-- What a distribution is. -/
theorem dist_spec {uniform : Bool} {l : Law} {d : Dist} (h : dist uniform l = .ok d) :
    d.map Prod.fst = values l ∧ (∀ p ∈ d, 0 ≤ p.2) ∧ (d.map Prod.snd).sum = 1 ∧ l.lo ≤ l.hi := by
  unfold dist at h
  dsimp only at h
  split at h
  · cases h
  · rename_i hw
    have h := (Except.ok.inj h).symm; subst h
    have hw0 := (not_or.1 hw).1
    have hmid : uniform = true ∨ 0 ≤ l.mid := by
      have := (not_or.1 hw).2
      cases uniform with
      | true => left; rfl
      | false => right; simpa using this
    have hnn : 0 ≤ ((values l).map (weight uniform l)).sum :=
      List.sum_nonneg (by
        intro x hx
        obtain ⟨v, -, rfl⟩ := List.mem_map.1 hx
        exact weight_nonneg hmid)
    refine ⟨by rw [List.map_map]; exact List.map_id _, ?_, ?_, ?_⟩
    · intro p hp
      obtain ⟨v, -, rfl⟩ := List.mem_map.1 hp
      exact div_nonneg (weight_nonneg hmid) hnn
    · rw [List.map_map]
      have : (values l).map (Prod.snd ∘ fun v => (v, weight uniform l v / ((values l).map (weight uniform l)).sum)) =
          ((values l).map (weight uniform l)).map (fun x => x / ((values l).map (weight uniform l)).sum) := by
        rw [List.map_map]; rfl
      rw [this, sum_map_div]
      exact div_self hw0
    · refine Classical.byContradiction fun hc => hw0 ?_
      have : values l = [] := List.eq_nil_of_length_eq_zero (by rw [values_length]; omega)
      rw [this]; rfl

/-- Sorted values. -/
theorem values_head {l : Law} (h : l.lo ≤ l.hi) : (values l).head? = some l.lo ∧ (values l).getLast? = some l.hi := by
  obtain ⟨n, hn⟩ : ∃ n, (l.hi - l.lo + 1).toNat = n + 1 := ⟨(l.hi - l.lo).toNat, by omega⟩
  unfold values
  rw [hn]
  constructor
  · rw [List.range_succ_eq_map]; simp
  · rw [List.range_succ]; simp; omega

/-- The first value at which the cumulated probabilities reach `p`. -/
theorem ppf_spec {p : Rat} {v : Int} : ∀ {d : Dist} {acc : Rat}, ppf p acc d = some v →
    ∃ pre q post, d = pre ++ (v, q) :: post ∧ p ≤ acc + (pre.map Prod.snd).sum + q ∧
      (pre = [] ∨ acc + (pre.map Prod.snd).sum < p)
  | [], acc, h => by simp [ppf] at h
  | (w, q) :: d, acc, h => by
    simp only [ppf] at h
    split at h
    · rename_i hp
      have h := Option.some.inj h; subst h
      exact ⟨[], q, d, rfl, by simpa using hp, .inl rfl⟩
    · rename_i hp
      obtain ⟨pre, q', post, e, h1, h2⟩ := ppf_spec h
      refine ⟨(w, q) :: pre, q', post, by rw [e]; rfl, ?_, .inr ?_⟩
      · simp only [List.map_cons, List.sum_cons]; linarith
      · simp only [List.map_cons, List.sum_cons]
        rcases h2 with rfl | h2
        · simp only [List.map_nil, List.sum_nil]; linarith
        · linarith

theorem ppf_total {p : Rat} : ∀ {d : Dist} {acc : Rat}, d ≠ [] → p ≤ acc + (d.map Prod.snd).sum → ∃ v, ppf p acc d = some v
  | [], acc, h, _ => absurd rfl h
  | (w, q) :: d, acc, _, h => by
    simp only [ppf]
    split
    · exact ⟨w, rfl⟩
    · rename_i hp
      simp only [List.map_cons, List.sum_cons] at h
      refine ppf_total ?_ (by linarith)
      rintro rfl
      simp at h
      exact hp h

/-! ### Details of modes -/

/-- `mode_details[j][k][key]` of a mode. -/
def detail (m : Mode) (key : String) : Option Int := if key = "duration" then some (m.duration : Int) else m.needs.get? key

/-- Negative durations are written 0. -/
def cut (key : String) (x : Int) : Int := if key = "duration" then max 0 x else x

theorem detail_set (m : Mode) (key : String) (x : Int) (key' : String) :
    detail (setDetail m key x) key' = if key' = key then some (cut key x) else detail m key' := by
  unfold detail setDetail cut
  by_cases h : key = "duration"
  · subst h
    rw [if_pos rfl]
    by_cases h' : key' = "duration"
    · subst h'; simp only [if_true]; congr 1; omega
    · rw [if_neg h', if_neg h', if_neg h']
  · rw [if_neg h]
    by_cases h' : key' = key
    · subst h'
      rw [if_neg h, if_pos rfl, if_neg h]
      exact Dict.get?_set_self _ _ _
    · rw [if_neg h']
      by_cases h2 : key' = "duration"
      · rw [if_pos h2, if_pos h2]
      · rw [if_neg h2, if_neg h2]
        exact Dict.get?_set_ne _ _ h'

theorem applyDetails_spec {mt : Method} {uniform : Bool} {act mode : Nat} : ∀ {l : Dict String Law} {m m' : Mode}, l.keys.Nodup →
    applyDetails mt uniform act mode l m = .ok m' → ∀ key,
      (l.get? key = none → detail m' key = detail m key) ∧
      ∀ law, l.get? key = some law → ∃ d x, dist uniform law = .ok d ∧ pick mt act mode key d = .ok x ∧
        detail m' key = some (cut key x)
  | [], m, m', _, h => by
    simp only [applyDetails, Except.ok.injEq] at h
    subst h
    exact fun key => ⟨fun _ => rfl, fun law hl => by simp [Dict.get?] at hl⟩
  | (k0, l0) :: l, m, m', hn, h => by
    have hn : k0 ∉ Dict.keys l ∧ (Dict.keys l).Nodup := List.nodup_cons.1 hn
    simp only [applyDetails, bind_eq_ok] at h
    obtain ⟨d, hd, x, hx, h⟩ := h
    have ih := applyDetails_spec hn.2 h
    intro key
    rw [get?_cons]
    by_cases hk : k0 = key
    · subst hk
      rw [if_pos rfl]
      refine ⟨fun h => (by cases h), fun law hl => ?_⟩
      have hl := Option.some.inj hl; subst hl
      refine ⟨d, x, hd, hx, ?_⟩
      rw [(ih k0).1 (get?_none_of_notMem hn.1), detail_set, if_pos rfl]
    · rw [if_neg hk]
      refine ⟨fun h => ?_, (ih key).2⟩
      rw [(ih key).1 h, detail_set, if_neg (Ne.symm hk)]

theorem applyModes_spec {mt : Method} {uniform : Bool} {act : Nat} : ∀ {ls : Dict Nat (Dict String Law)} {ms ms' : Dict Nat Mode},
    ls.keys.Nodup → applyModes mt uniform act ls ms = .ok ms' → ∀ k,
      (ls.get? k = none → ms'.get? k = ms.get? k) ∧
      ∀ l, ls.get? k = some l → ∃ m m', ms.get? k = some m ∧ ms'.get? k = some m' ∧
        applyDetails mt uniform act k l m = .ok m'
  | [], ms, ms', _, h => by
    simp only [applyModes, Except.ok.injEq] at h
    subst h
    exact fun key => ⟨fun _ => rfl, fun law hl => by simp [Dict.get?] at hl⟩
  | (k0, l0) :: ls, ms, ms', hn, h => by
    have hn : k0 ∉ Dict.keys ls ∧ (Dict.keys ls).Nodup := List.nodup_cons.1 hn
    simp only [applyModes, bind_eq_ok] at h
    obtain ⟨m, hm, m', hm', h⟩ := h
    have hm : ms.get? k0 = some m := by
      unfold Dict.get at hm
      split at hm
      · rename_i w hw; rw [hw, Except.ok.inj hm]
      · cases hm
    have ih := applyModes_spec hn.2 h
    intro k
    rw [get?_cons]
    by_cases hk : k0 = k
    · subst hk
      rw [if_pos rfl]
      refine ⟨fun h => (by cases h), fun l hl => ?_⟩
      have hl := Option.some.inj hl; subst hl
      refine ⟨m, m', hm, ?_, hm'⟩
      rw [(ih k0).1 (get?_none_of_notMem hn.1), Dict.get?_set_self]
    · rw [if_neg hk]
      refine ⟨fun h => ?_, fun l hl => ?_⟩
      · rw [(ih k).1 h, Dict.get?_set_ne _ _ (Ne.symm hk)]
      · obtain ⟨a, b, c, e⟩ := (ih k).2 l hl
        rw [Dict.get?_set_ne _ _ (Ne.symm hk)] at c
        exact ⟨a, b, c, e⟩

theorem applyLaws_spec {mt : Method} {uniform : Bool} {sink : Nat} : ∀ {laws : Laws} {modes modes' : Dict Nat (Dict Nat Mode)},
    laws.keys.Nodup → applyLaws mt uniform sink laws modes = .ok modes' →
      (∀ j, (j = sink ∨ j = 1 ∨ laws.get? j = none) → modes'.get? j = modes.get? j) ∧
      (∀ j l, ¬ (j = sink ∨ j = 1) → laws.get? j = some l → ∃ ms ms', modes.get? j = some ms ∧ modes'.get? j = some ms' ∧
        applyModes mt uniform j l ms = .ok ms') ∧ (modes.keys.Nodup → modes'.keys = modes.keys)
  | [], ms, ms', _, h => by
    simp only [applyLaws, Except.ok.injEq] at h
    subst h
    exact ⟨fun _ _ => rfl, fun j law _ hl => by simp [Dict.get?] at hl, fun _ => rfl⟩
  | (j0, l0) :: laws, modes, modes', hn, h => by
    have hn : j0 ∉ Dict.keys laws ∧ (Dict.keys laws).Nodup := List.nodup_cons.1 hn
    simp only [applyLaws] at h
    by_cases hs : j0 = sink ∨ j0 = 1
    · rw [if_pos hs] at h
      obtain ⟨i1, i2, i3⟩ := applyLaws_spec hn.2 h
      refine ⟨fun j hj => ?_, fun j l hj hl => ?_, i3⟩
      · refine i1 j ?_
        rcases hj with hj | hj | hj
        · exact .inl hj
        · exact .inr (.inl hj)
        · rw [get?_cons] at hj
          split at hj
          · cases hj
          · exact .inr (.inr hj)
      · rw [get?_cons, if_neg (by rintro rfl; exact hj hs)] at hl
        exact i2 j l hj hl
    · rw [if_neg hs] at h
      simp only [bind_eq_ok] at h
      obtain ⟨ms, hm, ms', hm', h⟩ := h
      have hm : modes.get? j0 = some ms := by
        unfold Dict.get at hm
        split at hm
        · rename_i w hw; rw [hw, Except.ok.inj hm]
        · cases hm
      obtain ⟨i1, i2, i3⟩ := applyLaws_spec hn.2 h
      have hkeys : modes.keys.Nodup → (modes.set j0 ms').keys = modes.keys := by
        intro hnd
        rw [Dict.keys_set]
        have : j0 ∈ modes.keys := (Dict.get?_isSome_iff_mem_keys _ _).1 (by rw [hm]; rfl)
        simp [this]
      refine ⟨fun j hj => ?_, fun j l hj hl => ?_, fun hnd => ?_⟩
      · have hne : j ≠ j0 := by
          rintro rfl
          rcases hj with hj | hj | hj
          · exact hs (.inl hj)
          · exact hs (.inr hj)
          · rw [get?_cons, if_pos rfl] at hj; cases hj
        rw [i1 j, Dict.get?_set_ne _ _ hne]
        rcases hj with hj | hj | hj
        · exact .inl hj
        · exact .inr (.inl hj)
        · rw [get?_cons, if_neg hne.symm] at hj; exact .inr (.inr hj)
      · rw [get?_cons] at hl
        by_cases he : j0 = j
        · subst he
          rw [if_pos rfl] at hl
          have hl := Option.some.inj hl; subst hl
          refine ⟨ms, ms', hm, ?_, hm'⟩
          rw [i1 j0 (.inr (.inr (get?_none_of_notMem hn.1))), Dict.get?_set_self]
        · rw [if_neg he] at hl
          obtain ⟨a, b, c, e⟩ := i2 j l hj hl
          rw [Dict.get?_set_ne _ _ (Ne.symm he)] at c
          exact ⟨a, b, c, e⟩
      · have h1 := hkeys hnd
        rw [i3 (by rw [h1]; exact hnd), h1]

end Verif.Robust
