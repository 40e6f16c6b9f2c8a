import Verif.Model.Comparator
import Verif.Lemmas.Results
/- Helper lemmas about result comparators. -/
namespace Verif.Comparator
open Results
variable {σ τ : Type}

theorem column_ok {k : Nat} : ∀ {l : List (σ × List Int)} {xs : List Int}, column k l = .ok xs →
    xs.length = l.length ∧ ∀ (j : Nat) (p : σ × List Int), l[j]? = some p → p.2[k]? = xs[j]? ∧ (xs[j]?).isSome
  | [], xs, h => by simp only [column, Except.ok.injEq] at h; subst h; simp
  | p :: l, xs, h => by
    simp only [column, bind_eq_ok, Except.ok.injEq] at h
    obtain ⟨x, hx, ys, hys, rfl⟩ := h
    have hx := pyGet_ok_iff.1 hx
    obtain ⟨h1, h2⟩ := column_ok hys
    refine ⟨by simp [h1], fun j q hq => ?_⟩
    cases j with
    | zero => simp at hq; subst hq; simp [hx]
    | succ j => simpa using h2 j q (by simpa using hq)

theorem column_defined {k : Nat} : ∀ {l : List (σ × List Int)}, (∀ p ∈ l, k < p.2.length) → ∃ xs, column k l = .ok xs
  | [], _ => ⟨[], rfl⟩
  | p :: l, h => by
    obtain ⟨xs, hx⟩ := column_defined (l := l) (fun q hq => h q (by simp [hq]))
    refine ⟨p.2[k]'(h p (by simp)) :: xs, ?_⟩
    simp [column, pyGet_of_lt (h p (by simp)), hx]

theorem indexOf_ok {α : Type} [DecidableEq α] {l : List α} {x : α} {i : Nat} (h : indexOf l x = .ok i) :
    l[i]? = some x ∧ ∀ j : Nat, j < i → l[j]? ≠ some x := by
  unfold indexOf at h
  split at h
  · rename_i hx
    have h := (Except.ok.inj h).symm
    subst h
    have hlt := List.idxOf_lt_length_iff.2 hx
    refine ⟨by rw [List.getElem?_eq_getElem hlt, List.getElem_idxOf], fun j hj he => ?_⟩
    obtain ⟨hj', he⟩ := List.getElem?_eq_some_iff.1 he
    have := List.not_of_lt_findIdx (xs := l) (p := (· == x)) hj
    simp [he] at this
  · exact absurd h (by simp)

theorem indexOf_defined {α : Type} [DecidableEq α] {l : List α} {x : α} (h : x ∈ l) : indexOf l x = .ok (l.idxOf x) := by
  simp [indexOf, h]

theorem bestAt_ok {k : Nat} {s : Storage σ} {p : σ × List Int} (h : bestAt k s = .ok p) :
    ∃ (j : Nat) (x : Int), s.sols[j]? = some p ∧ p.2[k]? = some x ∧ ∀ (j' : Nat) (q : σ × List Int), s.sols[j']? = some q →
      ∃ y, q.2[k]? = some y ∧ (if s.maximize then y ≤ x else x ≤ y) ∧ (j' < j → y ≠ x) := by
  simp only [bestAt, bind_eq_ok] at h
  obtain ⟨fits, hf, b, hb, i, hi, hp⟩ := h
  have hp := pyGet_ok_iff.1 hp
  obtain ⟨hi1, hi2⟩ := indexOf_ok hi
  obtain ⟨hl, hc⟩ := column_ok hf
  refine ⟨i, b, hp, by rw [(hc i p hp).1, hi1], fun j' q hq => ?_⟩
  obtain ⟨h1, h2⟩ := hc j' q hq
  obtain ⟨y, hy⟩ := Option.isSome_iff_exists.1 h2
  refine ⟨y, by rw [h1, hy], ?_, fun hlt he => hi2 j' hlt (he ▸ hy)⟩
  have hm : y ∈ fits := List.mem_of_getElem? hy
  split
  · rename_i hmx
    rw [if_pos hmx] at hb
    exact (pyMaxBy_spec hb).2 y hm
  · rename_i hmx
    rw [if_neg hmx] at hb
    exact (pyMinBy_spec hb).2 y hm

theorem bestAt_defined {k : Nat} {s : Storage σ} (hne : s.sols ≠ []) (hk : ∀ p ∈ s.sols, k < p.2.length) :
    ∃ p, bestAt k s = .ok p := by
  obtain ⟨fits, hf⟩ := column_defined hk
  obtain ⟨hl, hc⟩ := column_ok hf
  have hfn : fits ≠ [] := by
    intro he
    rw [he] at hl
    exact hne (List.length_eq_zero_iff.1 hl.symm)
  have hb : ∃ b, (if s.maximize then pyMaxBy else pyMinBy) (fun x => x) fits = .ok b ∧ b ∈ fits := by
    split
    · obtain ⟨b, hb⟩ := pyMaxBy_defined (fun x => x) hfn
      exact ⟨b, hb, (pyMaxBy_spec hb).1⟩
    · obtain ⟨b, hb⟩ := pyMinBy_defined (fun x => x) hfn
      exact ⟨b, hb, (pyMinBy_spec hb).1⟩
  obtain ⟨b, hb, hbm⟩ := hb
  have hlt : fits.idxOf b < s.sols.length := hl ▸ List.idxOf_lt_length_iff.2 hbm
  refine ⟨s.sols[fits.idxOf b], ?_⟩
  simp [bestAt, hf, hb, indexOf_defined hbm, pyGet_of_lt hlt]

theorem bestLoop_ok {names : List String} {k : Nat} : ∀ {l : List (Storage σ)} {i : Nat} {val r : Dict String (σ × List Int)},
    bestLoop names k l i val = .ok r →
    (∀ n, (∀ j : Nat, j < l.length → names[i + j]? ≠ some n) → r.get? n = val.get? n) ∧
    ∀ (j : Nat) (s : Storage σ) (n : String), l[j]? = some s → names[i + j]? = some n → (∀ j' : Nat, j < j' → j' < l.length → names[i + j']? ≠ some n) →
      ∃ p, bestAt k s = .ok p ∧ r.get? n = some p
  | [], i, val, r, h => by
    simp only [bestLoop, Except.ok.injEq] at h
    subst h
    exact ⟨fun _ _ => rfl, fun j s n hj => by simp at hj⟩
  | s :: l, i, val, r, h => by
    simp only [bestLoop, bind_eq_ok] at h
    obtain ⟨p, hp, name, hn, hr⟩ := h
    have hn := pyGet_ok_iff.1 hn
    obtain ⟨h1, h2⟩ := bestLoop_ok hr
    refine ⟨fun n hno => ?_, fun j s' n hj hnj hlast => ?_⟩
    · rw [h1 n (fun j hj => by
        have := hno (j + 1) (by simp; omega)
        rwa [show i + (j + 1) = i + 1 + j by omega] at this)]
      have h0 := hno 0 (by simp)
      rw [Nat.add_zero, hn] at h0
      exact Dict.get?_set_ne _ _ (fun he => h0 (by rw [he]))
    · cases j with
      | zero =>
        simp at hj
        subst hj
        rw [Nat.add_zero, hn] at hnj
        have hnj := Option.some.inj hnj
        subst hnj
        refine ⟨p, hp, ?_⟩
        rw [h1 name (fun j hj => by
          have := hlast (j + 1) (by omega) (by simp; omega)
          rwa [show i + (j + 1) = i + 1 + j by omega] at this)]
        exact Dict.get?_set_self _ _ _
      | succ j =>
        refine h2 j s' n (by simpa using hj) (by rwa [show i + 1 + j = i + (j + 1) by omega]) (fun j' hlt hl' => ?_)
        have := hlast (j' + 1) (by omega) (by simp; omega)
        rwa [show i + (j' + 1) = i + 1 + j' by omega] at this

theorem bestLoop_defined {names : List String} {k : Nat} : ∀ {l : List (Storage σ)} {i : Nat} {val : Dict String (σ × List Int)},
    (∀ s ∈ l, s.sols ≠ [] ∧ ∀ p ∈ s.sols, k < p.2.length) → i + l.length ≤ names.length →
    ∃ r, bestLoop names k l i val = .ok r
  | [], i, val, _, _ => ⟨val, rfl⟩
  | s :: l, i, val, h, hn => by
    obtain ⟨p, hp⟩ := bestAt_defined (h s (by simp)).1 (h s (by simp)).2
    have hlt : i < names.length := by simp at hn; omega
    obtain ⟨r, hr⟩ := bestLoop_defined (names := names) (k := k) (l := l) (i := i + 1) (val := val.set names[i] p)
      (fun s' hs' => h s' (by simp [hs'])) (by simp at hn; omega)
    exact ⟨r, by simp [bestLoop, hp, pyGet_of_lt hlt, hr]⟩

/-- The fold of `max`/`min` over vectors. -/
def worse (mx : Bool) (p q : List Int) : Bool := if mx then tgt q p else tlt q p

theorem worse_irrefl (mx : Bool) (a : List Int) : worse mx a a = false := by
  unfold worse
  cases mx <;> simp [tgt_eq_tlt, tlt_irrefl]

theorem worse_trans (mx : Bool) {a b c : List Int} (h1 : a.length = b.length) (h2 : b.length = c.length)
    (hab : worse mx a b = true) (hbc : worse mx b c = true) : worse mx a c = true := by
  unfold worse at *
  cases mx
  · simp only [Bool.false_eq_true, if_false] at *
    exact tlt_trans h2.symm h1.symm hbc hab
  · simp only [if_true, tgt_eq_tlt] at *
    exact tlt_trans h1 h2 hab hbc

theorem fold_best (mx : Bool) (n : Nat) : ∀ (l : List (σ × List Int)) (b : σ × List Int), (∀ q ∈ l, q.2.length = n) →
    b.2.length = n →
    (l.foldl (fun b q => if (if mx then tgt q.2 b.2 else tlt q.2 b.2) then q else b) b ∈ b :: l) ∧
    (l.foldl (fun b q => if (if mx then tgt q.2 b.2 else tlt q.2 b.2) then q else b) b = b ∨
      worse mx b.2 (l.foldl (fun b q => if (if mx then tgt q.2 b.2 else tlt q.2 b.2) then q else b) b).2 = true) ∧
    ∀ q ∈ b :: l, worse mx (l.foldl (fun b q => if (if mx then tgt q.2 b.2 else tlt q.2 b.2) then q else b) b).2 q.2 = false
  | [], b, _, _ => by simp [worse_irrefl]
  | q :: l, b, hl, hb => by
    have hq := hl q (by simp)
    have hl' : ∀ q ∈ l, q.2.length = n := fun q hq => hl q (by simp [hq])
    rw [List.foldl_cons]
    by_cases hw : (if mx then tgt q.2 b.2 else tlt q.2 b.2) = true
    · rw [if_pos hw]
      obtain ⟨h1, h2, h3⟩ := fold_best mx n l q hl' hq
      generalize l.foldl (fun b q => if (if mx then tgt q.2 b.2 else tlt q.2 b.2) then q else b) q = r at *
      have hr : r.2.length = n := by
        rcases List.mem_cons.1 h1 with rfl | h
        · exact hq
        · exact hl' r h
      have hbr : worse mx b.2 r.2 = true := by
        rcases h2 with rfl | h2
        · exact hw
        · exact worse_trans mx (hb.trans hq.symm) (hq.trans hr.symm) hw h2
      refine ⟨by simp at h1 ⊢; right; exact h1, .inr hbr, fun q' hq' => ?_⟩
      rcases List.mem_cons.1 hq' with rfl | hq'
      · cases hc : worse mx r.2 q'.2
        · rfl
        · have := worse_trans mx (hb.trans hr.symm) (hr.trans hb.symm) hbr hc
          rw [worse_irrefl] at this
          exact this.symm
      · exact h3 q' hq'
    · rw [if_neg hw]
      obtain ⟨h1, h2, h3⟩ := fold_best mx n l b hl' hb
      generalize l.foldl (fun b q => if (if mx then tgt q.2 b.2 else tlt q.2 b.2) then q else b) b = r at *
      have hr : r.2.length = n := by
        rcases List.mem_cons.1 h1 with rfl | h
        · exact hb
        · exact hl' r h
      refine ⟨by simp at h1 ⊢; rcases h1 with h | h <;> simp [h], h2, fun q' hq' => ?_⟩
      rcases List.mem_cons.1 hq' with rfl | hq'
      · exact h3 q' (by simp)
      · rcases List.mem_cons.1 hq' with rfl | hq'
        · cases hc : worse mx r.2 q'.2
          · rfl
          · exfalso
            apply hw
            rcases h2 with rfl | h2
            · exact hc
            · exact worse_trans mx (hb.trans hr.symm) (hr.trans hq.symm) h2 hc
        · exact h3 q' (by simp [hq'])

/-! ### Duplicates -/

theorem similar_eq : ∀ (x y : List Int), x.length = y.length → similar x y = .ok (decide (x = y))
  | [], [], _ => rfl
  | [], _ :: _, h => by simp at h
  | _ :: _, [], h => by simp at h
  | a :: x, b :: y, h => by
    unfold similar
    by_cases hab : a = b
    · rw [if_pos hab, similar_eq x y (by simpa using h)]
      simp [hab]
    · rw [if_neg hab]
      simp [hab]

theorem duplicatesOf_eq {x : List Int} : ∀ (l : List (Nat × List Int)), (∀ p ∈ l, p.2.length = x.length) →
    duplicatesOf x l = .ok ((l.filter (fun p => decide (x = p.2))).map Prod.fst)
  | [], _ => rfl
  | (j, y) :: l, h => by
    have hy := h (j, y) (by simp)
    simp only [duplicatesOf, similar_eq x y hy.symm, bind_ok,
      duplicatesOf_eq l (fun p hp => h p (by simp [hp]))]
    by_cases he : x = y
    · subst he; simp [List.filter_cons]
    · simp [List.filter_cons, he]

theorem allDuplicates_ok (n : Nat) : ∀ (l : List (Nat × List Int)), (∀ p ∈ l, p.2.length = n) →
    ∃ r, allDuplicates l = .ok r ∧
      ∀ j, j ∈ r ↔ ∃ (a b i : Nat) (x : List Int), a < b ∧ l[a]? = some (i, x) ∧ l[b]? = some (j, x)
  | [], _ => ⟨[], rfl, by simp⟩
  | (i, x) :: l, h => by
    have hx := h (i, x) (by simp)
    have hl : ∀ p ∈ l, p.2.length = n := fun p hp => h p (by simp [hp])
    obtain ⟨r, hr, hm⟩ := allDuplicates_ok n l hl
    refine ⟨(l.filter (fun p => decide (x = p.2))).map Prod.fst ++ r, by simp only [allDuplicates, duplicatesOf_eq l (fun p hp => (hl p hp).trans hx.symm), bind_ok, hr], fun j => ?_⟩
    rw [List.mem_append, hm]
    constructor
    · rintro (hj | ⟨a, b, i', x', hab, ha, hb⟩)
      · obtain ⟨⟨j', y⟩, hp, rfl⟩ := List.mem_map.1 hj
        obtain ⟨hp, he⟩ := List.mem_filter.1 hp
        have he : x = y := by simpa using he
        subst he
        obtain ⟨b, hb⟩ := List.getElem?_of_mem hp
        exact ⟨0, b + 1, i, x, by omega, rfl, by simpa using hb⟩
      · exact ⟨a + 1, b + 1, i', x', by omega, by simpa using ha, by simpa using hb⟩
    · rintro ⟨a, b, i', x', hab, ha, hb⟩
      obtain ⟨b, rfl⟩ : ∃ b', b = b' + 1 := ⟨b - 1, by omega⟩
      rw [List.getElem?_cons_succ] at hb
      cases a with
      | zero =>
        simp at ha
        left
        refine List.mem_map.2 ⟨(j, x'), List.mem_filter.2 ⟨List.mem_of_getElem? hb, by simp [ha.2]⟩, rfl⟩
      | succ a => exact .inr ⟨a, b, i', x', by omega, by simpa using ha, hb⟩

/-- Being the first with its values. -/
def First (var : σ → List Int) (l : List (σ × List Int)) (i : Nat) : Prop :=
  ∃ p, l[i]? = some p ∧ ∀ (j : Nat) (q : σ × List Int), j < i → l[j]? = some q → var q.1 ≠ var p.1

theorem exists_first (var : σ → List Int) (l : List (σ × List Int)) : ∀ (i : Nat) (p : σ × List Int), l[i]? = some p →
    ∃ (j : Nat) (q : σ × List Int), l[j]? = some q ∧ var q.1 = var p.1 ∧ ∀ (j' : Nat) (q' : σ × List Int), j' < j → l[j']? = some q' → var q'.1 ≠ var q.1 := by
  intro i
  induction i using Nat.strongRecOn with
  | _ i ih =>
    intro p hp
    by_cases h : ∃ (j : Nat) (q : σ × List Int), j < i ∧ l[j]? = some q ∧ var q.1 = var p.1
    · obtain ⟨j, q, hj, hq, he⟩ := h
      obtain ⟨j', q', h1, h2, h3⟩ := ih j hj q hq
      exact ⟨j', q', h1, h2.trans he, h3⟩
    · exact ⟨i, p, hp, rfl, fun j q hj hq he => h ⟨j, q, hj, hq, he⟩⟩

theorem removeDuplicates_ok (var : σ → List Int) (n : Nat) (l : List (σ × List Int)) (h : ∀ p ∈ l, (var p.1).length = n) :
    ∃ r, removeDuplicates var l = .ok r ∧ r.Sublist l ∧ r.Pairwise (fun p q => var p.1 ≠ var q.1) ∧
      ∀ (i : Nat) (p : σ × List Int), l[i]? = some p → (∀ (j : Nat) (q : σ × List Int), j < i → l[j]? = some q → var q.1 ≠ var p.1) → p ∈ r := by
  obtain ⟨d, hd, hm⟩ := allDuplicates_ok n ((l.zipIdx).map (fun p => (p.2, var p.1.1))) (by
    intro p hp
    obtain ⟨q, hq, rfl⟩ := List.mem_map.1 hp
    obtain ⟨q, i⟩ := q
    have := List.mem_zipIdx hq
    exact h q (by rw [this.2.2]; exact List.getElem_mem _))
  have hget : ∀ (b j : Nat) (x : List Int), ((l.zipIdx).map (fun p => (p.2, var p.1.1)))[b]? = some (j, x) ↔
      j = b ∧ ∃ p, l[b]? = some p ∧ var p.1 = x := by
    intro b j x
    rw [List.getElem?_map, List.getElem?_zipIdx]
    cases hb : l[b]? with
    | none => simp
    | some p =>
      simp
      intro _
      exact ⟨fun h => h.symm, fun h => h.symm⟩
  have hdm : ∀ j, j ∈ d ↔ ∃ (a : Nat) (p q : σ × List Int), a < j ∧ l[a]? = some p ∧ l[j]? = some q ∧ var p.1 = var q.1 := by
    intro j
    rw [hm]
    constructor
    · rintro ⟨a, b, i, x, hab, ha, hb⟩
      obtain ⟨rfl, p, hp, hpx⟩ := (hget _ _ _).1 ha
      obtain ⟨rfl, q, hq, hqx⟩ := (hget _ _ _).1 hb
      exact ⟨i, p, q, hab, hp, hq, hpx.trans hqx.symm⟩
    · rintro ⟨a, p, q, haj, hp, hq, he⟩
      exact ⟨a, j, a, var q.1, haj, (hget _ _ _).2 ⟨rfl, p, hp, he⟩, (hget _ _ _).2 ⟨rfl, q, hq, rfl⟩⟩
  refine ⟨(l.zipIdx.filter (fun p => p.2 ∉ d)).map Prod.fst, by simp only [removeDuplicates, hd, bind_ok], ?_, ?_, ?_⟩
  · have : (l.zipIdx.map Prod.fst) = l := by simp
    conv => rhs; rw [← this]
    exact List.filter_sublist.map _
  · rw [List.pairwise_map]
    have hz : l.zipIdx.Pairwise (fun p q => p.2 < q.2 ∧ l[p.2]? = some p.1 ∧ l[q.2]? = some q.1) := by
      rw [List.pairwise_iff_getElem]
      intro i j hi hj hij
      simp only [List.getElem_zipIdx, Nat.zero_add]
      have hi' : i < l.length := by simpa using hi
      have hj' : j < l.length := by simpa using hj
      exact ⟨hij, List.getElem?_eq_getElem hi', List.getElem?_eq_getElem hj'⟩
    refine (hz.filter _).imp_of_mem ?_
    rintro ⟨p, i⟩ ⟨q, j⟩ _ hq ⟨hlt, h1, h2⟩ he
    have := (List.mem_filter.1 hq).2
    simp only [decide_eq_true_eq] at this
    exact this ((hdm j).2 ⟨i, p, q, hlt, h1, h2, he⟩)
  · intro i p hp hf
    refine List.mem_map.2 ⟨(p, i), List.mem_filter.2 ⟨?_, ?_⟩, rfl⟩
    · rw [List.mem_iff_getElem?]
      exact ⟨i, by rw [List.getElem?_zipIdx, hp]; simp⟩
    · simp only [decide_eq_true_eq]
      intro hd'
      obtain ⟨a, q, p', ha, hq, hp', he⟩ := (hdm i).1 hd'
      rw [hp] at hp'
      have := Option.some.inj hp'
      subst this
      exact hf a q ha hq he

end Verif.Comparator

namespace Verif.Comparator
open Results
variable {σ τ : Type}

/-! ### Reevaluation -/

theorem fold_set (f : String → List Int) : ∀ (os : List String) (d : Dict String (List Int)) (o : String),
    (os.foldl (fun d o => d.set o (f o)) d).get? o = if o ∈ os then some (f o) else d.get? o
  | [], d, o => by simp
  | a :: os, d, o => by
    rw [List.foldl_cons, fold_set f os (d.set a (f a)) o, Dict.get?_set]
    by_cases h : o ∈ os
    · simp [h]
    · by_cases h' : o = a
      · subst h'; simp
      · simp [h, h']

theorem reevaluateOne_ok {eval : τ → σ → String → Int} {tests : List τ} {objectives : List String} {s : Storage σ} {x : σ}
    (hx : bestSolution s = some x) : ∃ e, reevaluateOne eval tests objectives s = .ok e ∧
      ∀ o, e.get? o = if o ∈ objectives then some (tests.map (fun t => eval t x o)) else none := by
  refine ⟨objectives.foldl (fun d o => d.set o (tests.map (fun t => eval t x o))) [], by simp [reevaluateOne, hx], fun o => ?_⟩
  have := fold_set (fun o => tests.map (fun t => eval t x o)) objectives [] o
  rw [this]
  rfl

theorem reevaluate_ok {eval : τ → σ → String → Int} {tests : List τ} {objectives : List String} {all : List (Storage σ)} :
    ∀ {l : List (Storage σ)} {d r : Dict Nat (Dict String (List Int))},
    reevaluate eval tests objectives all l d = .ok r → ∀ i,
      (∃ s ∈ l, (all.map Storage.id).idxOf s.id = i ∧ ∃ e, reevaluateOne eval tests objectives s = .ok e ∧ r.get? i = some e) ∨
      ((∀ s ∈ l, (all.map Storage.id).idxOf s.id ≠ i) ∧ r.get? i = d.get? i)
  | [], d, r, h, i => by
    simp only [reevaluate, Except.ok.injEq] at h
    subst h
    right
    simp
  | s :: l, d, r, h, i => by
    simp only [reevaluate, bind_eq_ok] at h
    obtain ⟨e, he, k, hk, hr⟩ := h
    have hk' : k = (all.map Storage.id).idxOf s.id := by
      unfold indexOf at hk
      split at hk
      · exact (Except.ok.inj hk).symm
      · exact absurd hk (by simp)
    rcases reevaluate_ok hr i with ⟨s', hs', h1, h2⟩ | ⟨h1, h2⟩
    · exact .inl ⟨s', by simp [hs'], h1, h2⟩
    · by_cases hi : i = k
      · left
        refine ⟨s, by simp, by rw [hi, hk'], e, he, ?_⟩
        rw [h2, hi, Dict.get?_set_self]
      · right
        refine ⟨?_, by rw [h2, Dict.get?_set_ne _ _ hi]⟩
        intro s' hs'
        rcases List.mem_cons.1 hs' with rfl | hs'
        · rw [← hk']; exact fun h => hi h.symm
        · exact h1 s' hs'

theorem reevaluate_defined {eval : τ → σ → String → Int} {tests : List τ} {objectives : List String} {all : List (Storage σ)} :
    ∀ {l : List (Storage σ)} {d : Dict Nat (Dict String (List Int))}, (∀ s ∈ l, s ∈ all) → (∀ s ∈ l, s.sols ≠ []) →
    ∃ r, reevaluate eval tests objectives all l d = .ok r
  | [], d, _, _ => ⟨d, rfl⟩
  | s :: l, d, h1, h2 => by
    have hx : ∃ x, bestSolution s = some x := by
      unfold bestSolution
      have := h2 s (by simp)
      cases hs : s.sols with
      | nil => exact absurd hs this
      | cons p l => exact ⟨_, rfl⟩
    obtain ⟨x, hx⟩ := hx
    obtain ⟨e, he, _⟩ := reevaluateOne_ok (eval := eval) (tests := tests) (objectives := objectives) hx
    obtain ⟨r, hr⟩ := reevaluate_defined (eval := eval) (tests := tests) (objectives := objectives) (all := all) (l := l)
      (d := d.set ((all.map Storage.id).idxOf s.id) e) (fun s' hs' => h1 s' (by simp [hs'])) (fun s' hs' => h2 s' (by simp [hs']))
    refine ⟨r, ?_⟩
    have hm : s.id ∈ all.map Storage.id := List.mem_map.2 ⟨s, h1 s (by simp), rfl⟩
    simp only [reevaluate, he, indexOf_defined hm, bind_ok, hr]

end Verif.Comparator
