/-
Helper lemmas about integer sums over lists, shared by several modules.
-/
namespace Verif

theorem perm_sum {l l' : List Int} (h : l.Perm l') : l.sum = l'.sum := by
  induction h with
  | nil => rfl
  | cons x _ ih => simp [ih]
  | swap x y l => simp; omega
  | trans _ _ ih1 ih2 => exact ih1.trans ih2

theorem sum_append_int (l l' : List Int) : (l ++ l').sum = l.sum + l'.sum := by
  induction l with
  | nil => simp
  | cons x l ih => simp [ih]; omega

theorem sum_zero_int {l : List Int} (h : ∀ x ∈ l, x = 0) : l.sum = 0 := by
  induction l with
  | nil => rfl
  | cons x l ih =>
    simp only [List.sum_cons]
    rw [h x (by simp), ih (fun y hy => h y (by simp [hy]))]
    rfl

theorem sum_nonneg_int {l : List Int} (h : ∀ x ∈ l, 0 ≤ x) : 0 ≤ l.sum := by
  induction l with
  | nil => simp
  | cons x l ih =>
    simp only [List.sum_cons]
    have := h x (by simp)
    have := ih (fun y hy => h y (by simp [hy]))
    omega

theorem sum_le_sum_int {α : Type _} {l : List α} {f g : α → Int} (h : ∀ x ∈ l, f x ≤ g x) :
    (l.map f).sum ≤ (l.map g).sum := by
  induction l with
  | nil => simp
  | cons x l ih =>
    simp only [List.map_cons, List.sum_cons]
    have := h x (by simp)
    have := ih (fun y hy => h y (by simp [hy]))
    omega

theorem sum_map_add_int {α : Type _} (l : List α) (f g : α → Int) :
    (l.map (fun x => f x + g x)).sum = (l.map f).sum + (l.map g).sum := by
  induction l with
  | nil => rfl
  | cons x l ih => simp only [List.map_cons, List.sum_cons, ih]; omega

theorem le_sum_of_mem_int {l : List Int} (h : ∀ x ∈ l, 0 ≤ x) {x : Int} (hx : x ∈ l) :
    x ≤ l.sum := by
  induction l with
  | nil => simp at hx
  | cons y l ih =>
    simp only [List.sum_cons]
    have h0 := h y (by simp)
    have h1 := sum_nonneg_int (fun z hz => h z (List.mem_cons_of_mem y hz))
    rcases List.mem_cons.1 hx with rfl | hx
    · omega
    · have := ih (fun z hz => h z (by simp [hz])) hx; omega

/-- A duplicate-free list of positions below `n` and the remaining positions partition
`range n`. -/
theorem range_split {n : Nat} {D : List Nat} (hD : D.Nodup) (hDn : ∀ d ∈ D, d < n) :
    (List.range n).Perm (D ++ (List.range n).filter (fun i => decide (i ∉ D))) := by
  rw [List.perm_ext_iff_of_nodup List.nodup_range]
  · intro a
    simp only [List.mem_range, List.mem_append, List.mem_filter, decide_eq_true_eq]
    by_cases ha : a ∈ D
    · simp [ha, hDn a ha]
    · simp [ha]
  · rw [List.nodup_append]
    refine ⟨hD, List.nodup_range.filter _, ?_⟩
    intro a ha b hb
    simp only [List.mem_filter, decide_eq_true_eq] at hb
    rintro rfl
    exact hb.2 ha

/-- A sum over `range n` whose terms vanish outside `D` is the sum over `D`. -/
theorem sum_support {n : Nat} {D : List Nat} (hD : D.Nodup) (hDn : ∀ d ∈ D, d < n)
    (g : Nat → Int) (hg : ∀ i, i < n → i ∉ D → g i = 0) :
    ((List.range n).map g).sum = (D.map g).sum := by
  rw [perm_sum ((range_split hD hDn).map g), List.map_append, sum_append_int]
  rw [sum_zero_int (l := ((List.range n).filter _).map g)]
  · omega
  · intro x hx
    obtain ⟨i, hi, rfl⟩ := List.mem_map.1 hx
    simp only [List.mem_filter, List.mem_range, decide_eq_true_eq] at hi
    exact hg i hi.1 hi.2

end Verif
