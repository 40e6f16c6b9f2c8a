import Verif.Lemmas.CppAStar

/-! The binary heap of the C++ library: nothing is lost, and while the keys stay the same the
top is always the least. -/
namespace Verif.CppAStar

/-- `a ≤ b` on doubles. -/
def Le (a b : Option Rat) : Prop := less b a = false

theorem Le.refl (a : Option Rat) : Le a a := by cases a <;> simp [Le, less]

theorem Le.trans {a b c : Option Rat} (h1 : Le a b) (h2 : Le b c) : Le a c := by
  cases a <;> cases b <;> cases c <;> simp_all [Le, less]
  exact le_trans h1 h2

theorem Le.of_less {a b : Option Rat} (h : less a b = true) : Le a b := by
  cases a <;> cases b <;> simp_all [Le, less]
  exact le_of_lt h

theorem perm_hole [DecidableEq σ] {l : List σ} {i j : Nat} {x y : σ} (hij : i ≠ j) (hi : i < l.length) (hj : l[j]? = some y) :
    ((l.set i y).set j x).Perm (l.set i x) := by
  obtain ⟨hj', hy⟩ := List.getElem?_eq_some_iff.1 hj
  rw [List.perm_iff_count]
  intro z
  rw [List.count_set (by simpa using hj'), List.count_set hi, List.count_set hi, List.getElem_set_ne hij]
  rw [hy]
  have h1 : (if (l[i] == z) = true then 1 else 0) ≤ l.count z := by
    split
    · rename_i h; exact List.count_pos_iff.2 (by rw [← eq_of_beq h]; exact List.getElem_mem _)
    · exact Nat.zero_le _
  have h2 : 1 ≤ (if (y == z) = true then 1 else 0) + (if (y == z) = true then 0 else 1) := by split <;> simp
  split <;> split <;> omega

theorem siftUp_perm [DecidableEq σ] (k : σ → Option Rat) (x : σ) (fuel i : Nat) (l : List σ) (hi : i < l.length) :
    (siftUp k x fuel i l).Perm (l.set i x) := by
  induction fuel generalizing i l with
  | zero => exact .refl _
  | succ fuel ih =>
    rw [siftUp]
    split
    · exact .refl _
    · split
      · exact .refl _
      · rename_i h0 par hp
        split
        · have hlt : (i - 1) / 2 < l.length := (List.getElem?_eq_some_iff.1 hp).1
          refine (ih _ _ (by simpa using hlt)).trans ?_
          exact perm_hole (by omega) hi hp
        · exact .refl _

theorem siftHole_perm [DecidableEq σ] (k : σ → Option Rat) (x : σ) (fuel i : Nat) (l : List σ) (hi : i < l.length) :
    (siftHole k fuel i l).1 < (siftHole k fuel i l).2.length ∧
      ((siftHole k fuel i l).2.set (siftHole k fuel i l).1 x).Perm (l.set i x) := by
  induction fuel generalizing i l with
  | zero => exact ⟨hi, .refl _⟩
  | succ fuel ih =>
    rw [siftHole]
    split
    · rename_i a b ha hb
      have h1 := (List.getElem?_eq_some_iff.1 ha).1
      have h2 := (List.getElem?_eq_some_iff.1 hb).1
      split
      · obtain ⟨h3, h4⟩ := ih (2 * i + 1) (l.set i a) (by simpa using h1)
        exact ⟨h3, h4.trans (perm_hole (by omega) hi ha)⟩
      · obtain ⟨h3, h4⟩ := ih (2 * i + 2) (l.set i b) (by simpa using h2)
        exact ⟨h3, h4.trans (perm_hole (by omega) hi hb)⟩
    · rename_i a ha _
      have h1 := (List.getElem?_eq_some_iff.1 ha).1
      exact ⟨by simpa using h1, perm_hole (by omega) hi ha⟩
    · exact ⟨hi, .refl _⟩

theorem heap_lawful [DecidableEq σ] : (heap : Queue σ).Lawful := by
  refine ⟨?_, ?_, ?_⟩
  · intro k l x
    refine (siftUp_perm k x _ _ _ (by simp)).trans ?_
    rw [List.set_append_right _ _ (Nat.le_refl _)]
    simp only [Nat.sub_self, List.set_cons_zero]
    exact List.perm_append_comm
  · intro k l h
    match l with
    | [] => rfl
    | [x] => simp [heap] at h
    | x :: y :: rest => simp [heap] at h
  · intro k l x r h
    match l with
    | [] => simp [heap] at h
    | [y] =>
      simp only [heap, Option.some.injEq, Prod.mk.injEq] at h
      obtain ⟨rfl, rfl⟩ := h
      exact .refl _
    | z :: y :: rest =>
      simp only [heap, Option.some.injEq, Prod.mk.injEq] at h
      obtain ⟨rfl, rfl⟩ := h
      refine .cons _ ?_
      have h1 := siftHole_perm k ((y :: rest).getLast (by simp)) (z :: (y :: rest).dropLast).length 0
        (z :: (y :: rest).dropLast) (by simp)
      refine .trans ?_ ((siftUp_perm k _ _ _ _ h1.1).trans h1.2).symm
      rw [List.set_cons_zero]
      have h2 : (y :: rest).dropLast ++ [(y :: rest).getLast (by simp)] = y :: rest := List.dropLast_concat_getLast _
      have h3 : ((y :: rest).dropLast ++ [(y :: rest).getLast (by simp)]).Perm ((y :: rest).getLast (by simp) :: (y :: rest).dropLast) :=
        List.perm_append_comm
      rwa [h2] at h3

/-! ### The heap order -/

/-- No element is smaller than its parent. -/
def HeapOk (k : σ → Option Rat) (l : List σ) : Prop :=
  ∀ i x y, 0 < i → l[i]? = some x → l[(i - 1) / 2]? = some y → Le (k y) (k x)

/-- Heap order but for a hole at `i`, over which the order holds too. -/
structure Hole (k : σ → Option Rat) (l : List σ) (i : Nat) : Prop where
  other : ∀ j x y, 0 < j → j ≠ i → (j - 1) / 2 ≠ i → l[j]? = some x → l[(j - 1) / 2]? = some y → Le (k y) (k x)
  over : ∀ j x y, 0 < j → (j - 1) / 2 = i → 0 < i → l[j]? = some x → l[(i - 1) / 2]? = some y → Le (k y) (k x)

/-- `x` is not larger than the children of the hole. -/
def Fits (k : σ → Option Rat) (l : List σ) (i : Nat) (x : σ) : Prop :=
  ∀ j c, 0 < j → (j - 1) / 2 = i → l[j]? = some c → Le (k x) (k c)

theorem fill {k : σ → Option Rat} {l : List σ} {i : Nat} {x : σ} (hi : i < l.length) (hh : Hole k l i) (hf : Fits k l i x)
    (hp : 0 < i → ∀ y, l[(i - 1) / 2]? = some y → Le (k y) (k x)) : HeapOk k (l.set i x) := by
  intro j a b hj ha hb
  by_cases hji : j = i
  · subst hji
    rw [List.getElem?_set_self hi] at ha
    rw [List.getElem?_set_ne (by omega)] at hb
    obtain rfl := Option.some.inj ha
    exact hp hj b hb
  · rw [List.getElem?_set_ne (Ne.symm hji)] at ha
    by_cases hpi : (j - 1) / 2 = i
    · rw [hpi, List.getElem?_set_self hi] at hb
      obtain rfl := Option.some.inj hb
      exact hf j a hj hpi ha
    · rw [List.getElem?_set_ne (Ne.symm hpi)] at hb
      exact hh.other j a b hj hji hpi ha hb

theorem siftUp_ok (k : σ → Option Rat) (x : σ) (fuel i : Nat) (l : List σ) (hi : i < l.length) (hfuel : i ≤ fuel)
    (hh : Hole k l i) (hf : Fits k l i x) : HeapOk k (siftUp k x fuel i l) := by
  induction fuel generalizing i l with
  | zero =>
    rw [siftUp]
    exact fill hi hh hf (fun h => by omega)
  | succ fuel ih =>
    rw [siftUp]
    split
    · exact fill hi hh hf (fun h => by omega)
    · rename_i h0
      split
      · rename_i hnone
        exact fill hi hh hf (fun _ y hy => by rw [hnone] at hy; cases hy)
      · rename_i par hp
        by_cases hl : less (k x) (k par) = true
        · rw [if_pos hl]
          have hlt : (i - 1) / 2 < l.length := (List.getElem?_eq_some_iff.1 hp).1
          have hne : (i - 1) / 2 ≠ i := by omega
          refine ih _ _ (by simpa using hlt) (by omega) ⟨?_, ?_⟩ ?_
          · intro j a b hj hj1 hj2 ha hb
            have hji : j ≠ i := by rintro rfl; exact hj2 rfl
            rw [List.getElem?_set_ne (Ne.symm hji)] at ha
            by_cases hpi : (j - 1) / 2 = i
            · rw [hpi, List.getElem?_set_self hi] at hb
              obtain rfl := Option.some.inj hb
              exact hh.over j a par hj hpi (by omega) ha hp
            · rw [List.getElem?_set_ne (Ne.symm hpi)] at hb
              exact hh.other j a b hj hji hpi ha hb
          · intro j a b hj hpj hpos ha hb
            rw [List.getElem?_set_ne (by omega)] at hb
            have hpp : Le (k b) (k par) := hh.other ((i - 1) / 2) par b hpos hne (by omega) hp hb
            by_cases hji : j = i
            · subst hji
              rw [List.getElem?_set_self hi] at ha
              obtain rfl := Option.some.inj ha
              exact hpp
            · rw [List.getElem?_set_ne (Ne.symm hji)] at ha
              exact hpp.trans (hh.other j a par hj hji (by omega) ha (by rw [hpj]; exact hp))
          · intro j a hj hpj ha
            by_cases hji : j = i
            · subst hji
              rw [List.getElem?_set_self hi] at ha
              obtain rfl := Option.some.inj ha
              exact .of_less hl
            · rw [List.getElem?_set_ne (Ne.symm hji)] at ha
              exact (Le.of_less hl).trans (hh.other j a par hj hji (by omega) ha (by rw [hpj]; exact hp))
        · rw [if_neg hl]
          refine fill hi hh hf (fun _ y hy => ?_)
          rw [hp] at hy
          obtain rfl := Option.some.inj hy
          simpa [Le] using hl

theorem down_step {k : σ → Option Rat} {l : List σ} {i c : Nat} {a : σ} (hi : i < l.length) (hh : Hole k l i)
    (hc : 0 < c ∧ (c - 1) / 2 = i) (ha : l[c]? = some a)
    (hmin : ∀ j b, 0 < j → (j - 1) / 2 = i → l[j]? = some b → Le (k a) (k b)) : Hole k (l.set i a) c := by
  have hic : i ≠ c := by omega
  constructor
  · intro j x y hj hj1 hj2 hx hy
    by_cases hji : j = i
    · subst hji
      rw [List.getElem?_set_self hi] at hx
      rw [List.getElem?_set_ne (by omega)] at hy
      obtain rfl := Option.some.inj hx
      exact hh.over c a y hc.1 hc.2 hj ha hy
    · rw [List.getElem?_set_ne (Ne.symm hji)] at hx
      by_cases hpi : (j - 1) / 2 = i
      · rw [hpi, List.getElem?_set_self hi] at hy
        obtain rfl := Option.some.inj hy
        exact hmin j x hj hpi hx
      · rw [List.getElem?_set_ne (Ne.symm hpi)] at hy
        exact hh.other j x y hj hji hpi hx hy
  · intro j x y hj hpj _ hx hy
    rw [hc.2, List.getElem?_set_self hi] at hy
    obtain rfl := Option.some.inj hy
    rw [List.getElem?_set_ne (by omega)] at hx
    exact hh.other j x a hj (by omega) (by omega) hx (by rw [hpj]; exact ha)

theorem siftHole_ok (k : σ → Option Rat) (fuel i : Nat) (l : List σ) (hi : i < l.length) (hfuel : l.length ≤ fuel + i)
    (hh : Hole k l i) : Hole k (siftHole k fuel i l).2 (siftHole k fuel i l).1 ∧
      (siftHole k fuel i l).2.length ≤ 2 * (siftHole k fuel i l).1 + 1 ∧
      (siftHole k fuel i l).1 < (siftHole k fuel i l).2.length := by
  induction fuel generalizing i l with
  | zero => omega
  | succ fuel ih =>
    rw [siftHole]
    have hchild : ∀ j, 0 < j → (j - 1) / 2 = i → j = 2 * i + 1 ∨ j = 2 * i + 2 := by omega
    split
    · rename_i a b ha hb
      have h1 := (List.getElem?_eq_some_iff.1 ha).1
      have h2 := (List.getElem?_eq_some_iff.1 hb).1
      by_cases hl : less (k a) (k b) = true
      · rw [if_pos hl]
        refine ih _ _ (by simpa using h1) (by simp; omega) (down_step hi hh (by omega) ha ?_)
        intro j c hj hp hc
        rcases hchild j hj hp with rfl | rfl
        · rw [ha] at hc; obtain rfl := Option.some.inj hc; exact .refl _
        · rw [hb] at hc; obtain rfl := Option.some.inj hc; exact .of_less hl
      · rw [if_neg hl]
        refine ih _ _ (by simpa using h2) (by simp; omega) (down_step hi hh (by omega) hb ?_)
        intro j c hj hp hc
        rcases hchild j hj hp with rfl | rfl
        · rw [ha] at hc; obtain rfl := Option.some.inj hc; simpa [Le] using hl
        · rw [hb] at hc; obtain rfl := Option.some.inj hc; exact .refl _
    · rename_i a ha hb
      have h1 := (List.getElem?_eq_some_iff.1 ha).1
      have h2 := List.getElem?_eq_none_iff.1 hb
      refine ⟨down_step hi hh (by omega) ha ?_, by simp; omega, by simpa using h1⟩
      intro j c hj hp hc
      rcases hchild j hj hp with rfl | rfl
      · rw [ha] at hc; obtain rfl := Option.some.inj hc; exact .refl _
      · rw [hb] at hc; cases hc
    · rename_i ha
      have h1 := List.getElem?_eq_none_iff.1 ha
      exact ⟨hh, h1, hi⟩

theorem heapOk_least {k : σ → Option Rat} {l : List σ} (hok : HeapOk k l) {x : σ} (hx : l[0]? = some x) :
    ∀ y ∈ l, Le (k x) (k y) := by
  have key : ∀ n : Nat, ∀ i : Nat, i ≤ n → ∀ y, l[i]? = some y → Le (k x) (k y) := by
    intro n
    induction n with
    | zero =>
      intro i hi y hy
      obtain rfl : i = 0 := by omega
      rw [hx] at hy; obtain rfl := Option.some.inj hy; exact .refl _
    | succ n ih =>
      intro i hi y hy
      by_cases h0 : i = 0
      · subst h0; rw [hx] at hy; obtain rfl := Option.some.inj hy; exact .refl _
      · have hlt := (List.getElem?_eq_some_iff.1 hy).1
        have hp : l[(i - 1) / 2]? = some (l[(i - 1) / 2]'(by omega)) := List.getElem?_eq_getElem _
        exact (ih _ (by omega) _ hp).trans (hok i y _ (by omega) hy hp)
  intro y hy
  obtain ⟨i, hi⟩ := List.mem_iff_getElem?.1 hy
  exact key i i (Nat.le_refl _) y hi

theorem push_ok {k : σ → Option Rat} {l : List σ} (hok : HeapOk k l) (x : σ) : HeapOk k ((heap : Queue σ).push k l x) := by
  refine siftUp_ok k x _ _ _ (by simp) (by omega) ⟨?_, ?_⟩ ?_
  · intro j a b hj hj1 hj2 ha hb
    have hlt : j < l.length := by
      have := (List.getElem?_eq_some_iff.1 ha).1
      simp at this; omega
    rw [List.getElem?_append_left hlt] at ha
    rw [List.getElem?_append_left (by omega)] at hb
    exact hok j a b hj ha hb
  · intro j a b hj hp hpos ha hb
    have := (List.getElem?_eq_some_iff.1 ha).1
    simp at this; omega
  · intro j a hj hp ha
    have := (List.getElem?_eq_some_iff.1 ha).1
    simp at this; omega

theorem pop_ok {k : σ → Option Rat} {l : List σ} (hok : HeapOk k l) {x : σ} {r : List σ}
    (h : (heap : Queue σ).pop k l = some (x, r)) : HeapOk k r ∧ ∀ y ∈ l, less (k y) (k x) = false := by
  match l with
  | [] => simp [heap] at h
  | [y] =>
    simp only [heap, Option.some.injEq, Prod.mk.injEq] at h
    obtain ⟨rfl, rfl⟩ := h
    refine ⟨fun i a b _ ha => by simp at ha, heapOk_least hok rfl⟩
  | z :: y :: rest =>
    simp only [heap, Option.some.injEq, Prod.mk.injEq] at h
    obtain ⟨rfl, rfl⟩ := h
    refine ⟨?_, heapOk_least hok rfl⟩
    have hbody : HeapOk k (z :: (y :: rest).dropLast) := by
      have hb : z :: (y :: rest).dropLast = (z :: y :: rest).dropLast := rfl
      rw [hb]
      intro i a b hi ha hb
      have hlt := (List.getElem?_eq_some_iff.1 ha).1
      rw [List.length_dropLast] at hlt
      rw [List.getElem?_dropLast, if_pos hlt] at ha
      rw [List.getElem?_dropLast, if_pos (by omega)] at hb
      exact hok i a b hi ha hb
    have hhole : Hole k (z :: (y :: rest).dropLast) 0 :=
      ⟨fun j a b hj _ _ ha hb => hbody j a b hj ha hb, fun j a b _ _ h0 => by omega⟩
    obtain ⟨h1, h2, h3⟩ := siftHole_ok k (z :: (y :: rest).dropLast).length 0 _ (by simp) (by omega) hhole
    refine siftUp_ok k _ _ _ _ h3 (by omega) h1 ?_
    intro j c hj hp hc
    have := (List.getElem?_eq_some_iff.1 hc).1
    omega

theorem heapOk_congr {k k' : σ → Option Rat} {l : List σ} (hk : ∀ x ∈ l, k x = k' x) (hok : HeapOk k l) : HeapOk k' l := by
  intro i x y hi hx hy
  rw [← hk x (List.mem_of_getElem? hx), ← hk y (List.mem_of_getElem? hy)]
  exact hok i x y hi hx hy

end Verif.CppAStar
