import Verif.Model.Gphh
import Mathlib.Algebra.Order.Ring.Rat
import Mathlib.Tactic.Linarith
import Mathlib.Data.List.Sort

/-!
Helper lemmas for the evolved heuristics.
-/
namespace Verif.Gphh

/-! ### Sorting -/

theorem insR_perm (key : α → Rat) (x : α) (l : List α) : (insR key x l).Perm (x :: l) := by
  induction l with
  | nil => exact List.Perm.refl _
  | cons y l ih =>
    simp only [insR]
    split
    · exact List.Perm.refl _
    · exact (List.Perm.cons y ih).trans (List.Perm.swap x y l)

theorem sortR_perm (key : α → Rat) (l : List α) : (sortR key l).Perm l := by
  induction l with
  | nil => exact List.Perm.refl _
  | cons x l ih => exact (insR_perm key x _).trans (List.Perm.cons x ih)

/-- Ascending keys, ties in the order `r` of the list. -/
def Asc (key : α → Rat) (r : α → α → Prop) (x y : α) : Prop := key x < key y ∨ (key x = key y ∧ r x y)

theorem insR_asc {key : α → Rat} {r : α → α → Prop} {x : α} {l : List α} (hx : ∀ y ∈ l, r x y) (h : l.Pairwise (Asc key r)) :
    (insR key x l).Pairwise (Asc key r) := by
  induction l with
  | nil => simp [insR]
  | cons y l ih =>
    rw [List.pairwise_cons] at h
    simp only [insR]
    split
    · rename_i hle
      rw [List.pairwise_cons]
      refine ⟨?_, List.pairwise_cons.2 h⟩
      intro z hz
      rcases lt_or_eq_of_le hle with hlt | heq
      · rcases List.mem_cons.1 hz with rfl | hz
        · exact Or.inl hlt
        · rcases h.1 z hz with h1 | h1
          · exact Or.inl (lt_trans hlt h1)
          · exact Or.inl (h1.1 ▸ hlt)
      · rcases List.mem_cons.1 hz with rfl | hz'
        · exact Or.inr ⟨heq, hx _ hz⟩
        · rcases h.1 z hz' with h1 | h1
          · exact Or.inl (heq ▸ h1)
          · exact Or.inr ⟨heq.trans h1.1, hx _ hz⟩
    · rename_i hgt
      rw [List.pairwise_cons]
      refine ⟨?_, ih (fun z hz => hx z (List.mem_cons_of_mem _ hz)) h.2⟩
      intro z hz
      rcases List.mem_cons.1 ((insR_perm key x l).mem_iff.1 hz) with rfl | hz
      · exact Or.inl (lt_of_not_ge hgt)
      · exact h.1 z hz

theorem sortR_asc {key : α → Rat} {r : α → α → Prop} {l : List α} (h : l.Pairwise r) : (sortR key l).Pairwise (Asc key r) := by
  induction l with
  | nil => exact List.Pairwise.nil
  | cons x l ih =>
    rw [List.pairwise_cons] at h
    refine insR_asc ?_ (ih h.2)
    intro y hy
    exact h.1 y ((sortR_perm key l).mem_iff.1 hy)

theorem sortR_sorted (key : α → Rat) (l : List α) : (sortR key l).Pairwise fun x y => key x ≤ key y := by
  have : (sortR key l).Pairwise (Asc key fun _ _ => True) := sortR_asc (List.pairwise_iff_forall_sublist.2 fun _ => trivial)
  refine this.imp ?_
  intro a b h
  rcases h with h | h
  · exact le_of_lt h
  · exact le_of_eq h.1

/-! ### Means -/

theorem sum_le_of_forall {l : List Rat} {c : Rat} (h : ∀ x ∈ l, x ≤ c) : l.sum ≤ l.length * c := by
  induction l with
  | nil => simp
  | cons x l ih =>
    have h1 := h x (List.mem_cons_self ..)
    have h2 := ih fun y hy => h y (List.mem_cons_of_mem _ hy)
    simp only [List.sum_cons, List.length_cons, Nat.cast_add, Nat.cast_one]
    linarith

theorem le_sum_of_forall {l : List Rat} {c : Rat} (h : ∀ x ∈ l, c ≤ x) : l.length * c ≤ l.sum := by
  induction l with
  | nil => simp
  | cons x l ih =>
    have h1 := h x (List.mem_cons_self ..)
    have h2 := ih fun y hy => h y (List.mem_cons_of_mem _ hy)
    simp only [List.sum_cons, List.length_cons, Nat.cast_add, Nat.cast_one]
    linarith

theorem mean_bounds {l : List Rat} {v lo hi : Rat} (h : mean l = some v) (h1 : ∀ x ∈ l, lo ≤ x) (h2 : ∀ x ∈ l, x ≤ hi) : lo ≤ v ∧ v ≤ hi := by
  unfold mean at h
  split at h
  · cases h
  · rename_i hn
    have h := Option.some.inj h
    have hp : (0 : Rat) < (l.length : Rat) := by exact_mod_cast Nat.pos_of_ne_zero hn
    subst h
    constructor
    · rw [le_div_iff₀ hp]; have := le_sum_of_forall h1; linarith
    · rw [div_le_iff₀ hp]; have := sum_le_of_forall h2; linarith

/-! ### Extremes -/

theorem foldl_min_spec (xs : List Rat) : ∀ a : Rat, (xs.foldl (fun a b => if b < a then b else a) a) ∈ a :: xs ∧
    ∀ x ∈ a :: xs, xs.foldl (fun a b => if b < a then b else a) a ≤ x := by
  induction xs with
  | nil => intro a; simp
  | cons y xs ih =>
    intro a
    simp only [List.foldl_cons]
    obtain ⟨h1, h2⟩ := ih (if y < a then y else a)
    constructor
    · rcases List.mem_cons.1 h1 with h1 | h1
      · rw [h1]; split <;> simp
      · exact List.mem_cons_of_mem _ (List.mem_cons_of_mem _ h1)
    · have h0 := h2 _ (List.mem_cons_self ..)
      intro x hx
      rcases List.mem_cons.1 hx with rfl | hx
      · refine le_trans h0 ?_; split <;> linarith
      · rcases List.mem_cons.1 hx with rfl | hx
        · refine le_trans h0 ?_; split <;> linarith
        · exact h2 x (List.mem_cons_of_mem _ hx)

theorem foldl_max_spec (xs : List Rat) : ∀ a : Rat, (xs.foldl (fun a b => if a < b then b else a) a) ∈ a :: xs ∧
    ∀ x ∈ a :: xs, x ≤ xs.foldl (fun a b => if a < b then b else a) a := by
  induction xs with
  | nil => intro a; simp
  | cons y xs ih =>
    intro a
    simp only [List.foldl_cons]
    obtain ⟨h1, h2⟩ := ih (if a < y then y else a)
    constructor
    · rcases List.mem_cons.1 h1 with h1 | h1
      · rw [h1]; split <;> simp
      · exact List.mem_cons_of_mem _ (List.mem_cons_of_mem _ h1)
    · have h0 := h2 _ (List.mem_cons_self ..)
      intro x hx
      rcases List.mem_cons.1 hx with rfl | hx
      · refine le_trans ?_ h0; split <;> linarith
      · rcases List.mem_cons.1 hx with rfl | hx
        · refine le_trans ?_ h0; split <;> linarith
        · exact h2 x (List.mem_cons_of_mem _ hx)

theorem npMin_spec {l : List Rat} {v : Rat} (h : npMin l = .ok v) : v ∈ l ∧ ∀ x ∈ l, v ≤ x := by
  cases l with
  | nil => cases h
  | cons a l => have h := Except.ok.inj h; subst h; exact foldl_min_spec l a

theorem npMax_spec {l : List Rat} {v : Rat} (h : npMax l = .ok v) : v ∈ l ∧ ∀ x ∈ l, x ≤ v := by
  cases l with
  | nil => cases h
  | cons a l => have h := Except.ok.inj h; subst h; exact foldl_max_spec l a

theorem npMin_ok {l : List Rat} (h : l ≠ []) : ∃ v, npMin l = .ok v := by
  cases l with
  | nil => exact absurd rfl h
  | cons a l => exact ⟨_, rfl⟩

theorem npMax_ok {l : List Rat} (h : l ≠ []) : ∃ v, npMax l = .ok v := by
  cases l with
  | nil => exact absurd rfl h
  | cons a l => exact ⟨_, rfl⟩

end Verif.Gphh
