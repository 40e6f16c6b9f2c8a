import Mathlib.Data.List.Forall2
import Verif.Model.Core
/-
Helper lemmas about the model of `core.py` (no property statements here).
-/
namespace Verif.Core

@[simp] theorem emap_ok (f : α → β) (x : α) :
    Except.map f (.ok x : Except PyErr α) = .ok (f x) := rfl

@[simp] theorem emap_error (f : α → β) (e : PyErr) :
    Except.map f (.error e : Except PyErr α) = .error e := rfl

theorem mapE_ok {f : α → Except PyErr β} {xs : List α} {ys : List β} (h : mapE f xs = .ok ys) :
    ys.length = xs.length ∧
      ∀ (i : Nat) (hx : i < xs.length) (hy : i < ys.length), f xs[i] = .ok ys[i] := by
  induction xs generalizing ys with
  | nil => simp [mapE] at h; subst h; simp
  | cons x xs ih =>
    simp only [mapE] at h
    split at h
    · simp at h
    · rename_i y hy
      split at h
      · simp at h
      · rename_i ys' hys
        simp at h; subst h
        obtain ⟨hl, hp⟩ := ih hys
        refine ⟨by simp [hl], ?_⟩
        intro i hx hy'
        cases i with
        | zero => simpa using hy
        | succ i => simpa using hp i (by simpa using hx) (by simpa using hy')

theorem mapE_of_forall {f : α → Except PyErr β} {xs : List α} (P : α → β → Prop)
    (h : ∀ x ∈ xs, ∃ y, f x = .ok y ∧ P x y) :
    ∃ ys, mapE f xs = .ok ys ∧ List.Forall₂ P xs ys := by
  induction xs with
  | nil => exact ⟨[], rfl, .nil⟩
  | cons x xs ih =>
    obtain ⟨y, hy, hp⟩ := h x (by simp)
    obtain ⟨ys, hys, hps⟩ := ih (fun z hz => h z (by simp [hz]))
    exact ⟨y :: ys, by simp [mapE, hy, hys], .cons hp hps⟩

theorem mapE_forall₂ {g : β → Except PyErr α} {xs : List α} {ys : List β}
    (h : List.Forall₂ (fun x y => g y = .ok x) xs ys) : mapE g ys = .ok xs := by
  induction h with
  | nil => rfl
  | cons h _ ih => simp [mapE, h, ih]

theorem chooseAux_mem {l : List (α × Int)} {acc u : Int} {x : α} (h : chooseAux l acc u = some x) :
    ∃ w, (x, w) ∈ l := by
  induction l generalizing acc with
  | nil => simp [chooseAux] at h
  | cons p l ih =>
    obtain ⟨y, w⟩ := p
    cases l with
    | nil => simp [chooseAux] at h; exact ⟨w, by simp [h]⟩
    | cons q l =>
      simp only [chooseAux] at h
      split at h
      · simp at h; exact ⟨w, by simp [h]⟩
      · obtain ⟨w', hw'⟩ := ih h
        exact ⟨w', List.mem_cons_of_mem _ hw'⟩

theorem chooseAux_pos {l : List (α × Int)} {acc u : Int} {x : α}
    (hw : ∀ p ∈ l, 0 ≤ p.2) (hacc : acc ≤ u) (hu : u < acc + (l.map (·.2)).sum)
    (h : chooseAux l acc u = some x) : ∃ w, (x, w) ∈ l ∧ 0 < w := by
  induction l generalizing acc with
  | nil => simp [chooseAux] at h
  | cons p l ih =>
    obtain ⟨y, w⟩ := p
    cases l with
    | nil =>
      simp [chooseAux] at h
      simp at hu
      exact ⟨w, by simp [h], by omega⟩
    | cons q l =>
      simp only [chooseAux] at h
      split at h
      · simp at h
        exact ⟨w, by simp [h], by omega⟩
      · obtain ⟨w', hw', hpos⟩ := ih (fun p hp => hw p (List.mem_cons_of_mem _ hp)) (by omega)
          (by simp only [List.map_cons, List.sum_cons] at hu ⊢; omega) h
        exact ⟨w', List.mem_cons_of_mem _ hw', hpos⟩

theorem chooseAux_isSome {l : List (α × Int)} (hl : l ≠ []) (acc u : Int) :
    ∃ x, chooseAux l acc u = some x := by
  induction l generalizing acc with
  | nil => exact absurd rfl hl
  | cons p l ih =>
    obtain ⟨y, w⟩ := p
    cases l with
    | nil => exact ⟨y, rfl⟩
    | cons q l =>
      simp only [chooseAux]
      split
      · exact ⟨y, rfl⟩
      · exact ih (by simp) _

end Verif.Core
