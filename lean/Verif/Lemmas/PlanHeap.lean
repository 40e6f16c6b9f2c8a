import Verif.Model.PlanGraph
import Verif.Lemmas.CppHeap

/-! The heap of the library with a comparison that refines that of a score: the heap order for the
score is kept, even while what breaks the ties changes. -/
namespace Verif.PlanGraph
open Verif.CppAStar (Le HeapOk Hole Fits fill down_step heapOk_least)

/-- The comparison agrees with the score wherever scores differ. -/
def Agrees (w : σ → σ → Bool) (k : σ → Option Rat) : Prop := (∀ a b, w a b = true → Le (k b) (k a)) ∧ ∀ a b, w a b = false → Le (k a) (k b)

theorem siftUp_ok {w : σ → σ → Bool} {k : σ → Option Rat} (hw : Agrees w k) (x : σ) (fuel i : Nat) (l : List σ) (hi : i < l.length) (hfuel : i ≤ fuel)
    (hh : Hole k l i) (hf : Fits k l i x) : HeapOk k (siftUp w x fuel i l) := by
  induction fuel generalizing i l with
  | zero =>
    rw [siftUp]
    exact fill hi hh hf (fun h => by omega)
  | succ fuel ih =>
    rw [siftUp]
    split
    · exact fill hi hh hf (fun h => by omega)
    · rename_i h0
      split
      · rename_i hnone
        exact fill hi hh hf (fun _ y hy => by rw [hnone] at hy; cases hy)
      · rename_i par hp
        by_cases hl : w par x = true
        · rw [if_pos hl]
          have hlt : (i - 1) / 2 < l.length := (List.getElem?_eq_some_iff.1 hp).1
          have hne : (i - 1) / 2 ≠ i := by omega
          refine ih _ _ (by simpa using hlt) (by omega) ⟨?_, ?_⟩ ?_
          · intro j a b hj hj1 hj2 ha hb
            have hji : j ≠ i := by rintro rfl; exact hj2 rfl
            rw [List.getElem?_set_ne (Ne.symm hji)] at ha
            by_cases hpi : (j - 1) / 2 = i
            · rw [hpi, List.getElem?_set_self hi] at hb
              obtain rfl := Option.some.inj hb
              exact hh.over j a par hj hpi (by omega) ha hp
            · rw [List.getElem?_set_ne (Ne.symm hpi)] at hb
              exact hh.other j a b hj hji hpi ha hb
          · intro j a b hj hpj hpos ha hb
            rw [List.getElem?_set_ne (by omega)] at hb
            have hpp : Le (k b) (k par) := hh.other ((i - 1) / 2) par b hpos hne (by omega) hp hb
            by_cases hji : j = i
            · subst hji
              rw [List.getElem?_set_self hi] at ha
              obtain rfl := Option.some.inj ha
              exact hpp
            · rw [List.getElem?_set_ne (Ne.symm hji)] at ha
              exact hpp.trans (hh.other j a par hj hji (by omega) ha (by rw [hpj]; exact hp))
          · intro j a hj hpj ha
            by_cases hji : j = i
            · subst hji
              rw [List.getElem?_set_self hi] at ha
              obtain rfl := Option.some.inj ha
              exact hw.1 _ _ hl
            · rw [List.getElem?_set_ne (Ne.symm hji)] at ha
              exact (hw.1 _ _ hl).trans (hh.other j a par hj hji (by omega) ha (by rw [hpj]; exact hp))
        · rw [if_neg hl]
          refine fill hi hh hf (fun _ y hy => ?_)
          rw [hp] at hy
          obtain rfl := Option.some.inj hy
          exact hw.2 _ _ (by simpa using hl)

theorem siftHole_ok {w : σ → σ → Bool} {k : σ → Option Rat} (hw : Agrees w k) (fuel i : Nat) (l : List σ) (hi : i < l.length) (hfuel : l.length ≤ fuel + i)
    (hh : Hole k l i) : Hole k (siftHole w fuel i l).2 (siftHole w fuel i l).1 ∧
      (siftHole w fuel i l).2.length ≤ 2 * (siftHole w fuel i l).1 + 1 ∧
      (siftHole w fuel i l).1 < (siftHole w fuel i l).2.length := by
  induction fuel generalizing i l with
  | zero => omega
  | succ fuel ih =>
    rw [siftHole]
    have hchild : ∀ j, 0 < j → (j - 1) / 2 = i → j = 2 * i + 1 ∨ j = 2 * i + 2 := by omega
    split
    · rename_i a b ha hb
      have h1 := (List.getElem?_eq_some_iff.1 ha).1
      have h2 := (List.getElem?_eq_some_iff.1 hb).1
      by_cases hl : w b a = true
      · rw [if_pos hl]
        refine ih _ _ (by simpa using h1) (by simp; omega) (down_step hi hh (by omega) ha ?_)
        intro j c hj hp hc
        rcases hchild j hj hp with rfl | rfl
        · rw [ha] at hc; obtain rfl := Option.some.inj hc; exact .refl _
        · rw [hb] at hc; obtain rfl := Option.some.inj hc; exact hw.1 _ _ hl
      · rw [if_neg hl]
        refine ih _ _ (by simpa using h2) (by simp; omega) (down_step hi hh (by omega) hb ?_)
        intro j c hj hp hc
        rcases hchild j hj hp with rfl | rfl
        · rw [ha] at hc; obtain rfl := Option.some.inj hc; exact hw.2 _ _ (by simpa using hl)
        · rw [hb] at hc; obtain rfl := Option.some.inj hc; exact .refl _
    · rename_i a ha hb
      have h1 := (List.getElem?_eq_some_iff.1 ha).1
      have h2 := List.getElem?_eq_none_iff.1 hb
      refine ⟨down_step hi hh (by omega) ha ?_, by simp; omega, by simpa using h1⟩
      intro j c hj hp hc
      rcases hchild j hj hp with rfl | rfl
      · rw [ha] at hc; obtain rfl := Option.some.inj hc; exact .refl _
      · rw [hb] at hc; cases hc
    · rename_i ha
      have h1 := List.getElem?_eq_none_iff.1 ha
      exact ⟨hh, h1, hi⟩

theorem push_ok {w : σ → σ → Bool} {k : σ → Option Rat} {l : List σ} (hw : Agrees w k) (hok : HeapOk k l) (x : σ) : HeapOk k ((heap : Queue σ).push w l x) := by
  refine siftUp_ok hw x _ _ _ (by simp) (by omega) ⟨?_, ?_⟩ ?_
  · intro j a b hj hj1 hj2 ha hb
    have hlt : j < l.length := by
      have := (List.getElem?_eq_some_iff.1 ha).1
      simp at this; omega
    rw [List.getElem?_append_left hlt] at ha
    rw [List.getElem?_append_left (by omega)] at hb
    exact hok j a b hj ha hb
  · intro j a b hj hp hpos ha hb
    have := (List.getElem?_eq_some_iff.1 ha).1
    simp at this; omega
  · intro j a hj hp ha
    have := (List.getElem?_eq_some_iff.1 ha).1
    simp at this; omega

theorem pop_ok {w : σ → σ → Bool} {k : σ → Option Rat} {l : List σ} (hw : Agrees w k) (hok : HeapOk k l) {x : σ} {r : List σ}
    (h : (heap : Queue σ).pop w l = some (x, r)) : HeapOk k r ∧ ∀ y ∈ l, Le (k x) (k y) := by
  match l with
  | [] => simp [heap] at h
  | [y] =>
    simp only [heap, Option.some.injEq, Prod.mk.injEq] at h
    obtain ⟨rfl, rfl⟩ := h
    refine ⟨fun i a b _ ha => by simp at ha, heapOk_least hok rfl⟩
  | z :: y :: rest =>
    simp only [heap, Option.some.injEq, Prod.mk.injEq] at h
    obtain ⟨rfl, rfl⟩ := h
    refine ⟨?_, heapOk_least hok rfl⟩
    have hbody : HeapOk k (z :: (y :: rest).dropLast) := by
      have hb : z :: (y :: rest).dropLast = (z :: y :: rest).dropLast := rfl
      rw [hb]
      intro i a b hi ha hb
      have hlt := (List.getElem?_eq_some_iff.1 ha).1
      rw [List.length_dropLast] at hlt
      rw [List.getElem?_dropLast, if_pos hlt] at ha
      rw [List.getElem?_dropLast, if_pos (by omega)] at hb
      exact hok i a b hi ha hb
    have hhole : Hole k (z :: (y :: rest).dropLast) 0 :=
      ⟨fun j a b hj _ _ ha hb => hbody j a b hj ha hb, fun j a b _ _ h0 => by omega⟩
    obtain ⟨h1, h2, h3⟩ := siftHole_ok hw (z :: (y :: rest).dropLast).length 0 _ (by simp) (by omega) hhole
    refine siftUp_ok hw _ _ _ _ h3 (by omega) h1 ?_
    intro j c hj hp hc
    have := (List.getElem?_eq_some_iff.1 hc).1
    omega

end Verif.PlanGraph
