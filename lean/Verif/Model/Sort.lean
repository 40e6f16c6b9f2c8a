/- Python's stable `sorted(l, key=key)` with integer keys, as insertion sort. -/
namespace Verif

/-- Insert before the first element whose key is not smaller. -/
def insBy (key : α → Int) (x : α) : List α → List α
  | [] => [x]
  | y :: ys => if key x ≤ key y then x :: y :: ys else y :: insBy key x ys

/-- `sorted(l, key=key)`: stable, ascending. -/
def sortBy (key : α → Int) : List α → List α
  | [] => []
  | x :: xs => insBy key x (sortBy key xs)

theorem insBy_perm (key : α → Int) (x : α) (l : List α) : (insBy key x l).Perm (x :: l) := by
  induction l with
  | nil => exact .refl _
  | cons y ys ih =>
    simp only [insBy]
    split
    · exact .refl _
    · exact (ih.cons y).trans (.swap x y ys)

theorem sortBy_perm (key : α → Int) (l : List α) : (sortBy key l).Perm l := by
  induction l with
  | nil => exact .refl _
  | cons x xs ih => exact (insBy_perm key x _).trans (ih.cons x)

theorem insBy_sorted (key : α → Int) (x : α) (l : List α)
    (h : l.Pairwise (fun a b => key a ≤ key b)) : (insBy key x l).Pairwise (fun a b => key a ≤ key b) := by
  induction l with
  | nil => simp [insBy]
  | cons y ys ih =>
    simp only [List.pairwise_cons] at h
    simp only [insBy]
    split
    · rename_i hxy
      simp only [List.pairwise_cons, List.mem_cons]
      refine ⟨?_, h.1, h.2⟩
      rintro b (rfl | hb)
      · exact hxy
      · have := h.1 b hb; omega
    · rename_i hxy
      simp only [List.pairwise_cons]
      refine ⟨?_, ih h.2⟩
      intro b hb
      rcases List.mem_cons.1 ((insBy_perm key x ys).mem_iff.1 hb) with rfl | hb
      · omega
      · exact h.1 b hb

theorem sortBy_sorted (key : α → Int) (l : List α) :
    (sortBy key l).Pairwise (fun a b => key a ≤ key b) := by
  induction l with
  | nil => simp [sortBy]
  | cons x xs ih => exact insBy_sorted key x _ ih

/-- With keys that tell the elements apart, the order of the input does not matter. -/
theorem sortBy_congr {key : α → Int} {l l' : List α} (h : l.Perm l')
    (hk : ∀ a b, a ∈ l → b ∈ l → key a = key b → a = b) : sortBy key l = sortBy key l' := by
  apply List.Perm.eq_of_pairwise (le := fun a b : α => key a ≤ key b)
  · intro a b ha hb h1 h2
    have h3 := (sortBy_perm key l).mem_iff.1 ha
    have h4 := h.mem_iff.2 ((sortBy_perm key l').mem_iff.1 hb)
    exact hk a b h3 h4 (by omega)
  · exact sortBy_sorted key l
  · exact sortBy_sorted key l'
  · exact (sortBy_perm key l).trans (h.trans (sortBy_perm key l').symm)

theorem mem_sortBy {key : α → Int} {l : List α} {a : α} : a ∈ sortBy key l ↔ a ∈ l :=
  (sortBy_perm key l).mem_iff

end Verif
