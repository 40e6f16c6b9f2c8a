import Verif.Model.Riw
import Verif.Lemmas.Iw
import Mathlib.Data.List.Nodup

namespace Verif.Riw
open Verif.Iw (Tuple tuplesOf Holds)

variable {φ : Type}

/-- All the tuples that the novelty of a state looks at. -/
def looked (width : Nat) (fs : List φ) : List (Tuple φ) := (List.range' 1 (min width fs.length)).flatMap (tuplesOf fs)

theorem mem_looked {width : Nat} {fs : List φ} {t : Tuple φ} : t ∈ looked width fs ↔ (1 ≤ t.length ∧ t.length ≤ width) ∧ Holds fs t := by
  unfold looked
  rw [List.mem_flatMap]
  constructor
  · rintro ⟨k, hk, ht⟩
    rw [List.mem_range'_1] at hk
    obtain ⟨rfl, hh⟩ := (Iw.mem_tuplesOf (by omega) t).1 ht
    exact ⟨by omega, hh⟩
  · rintro ⟨⟨h1, h2⟩, hh⟩
    have := hh.length_le
    exact ⟨t.length, by rw [List.mem_range'_1]; omega, (Iw.mem_tuplesOf this t).2 ⟨rfl, hh⟩⟩

theorem nodup_tuplesOf {fs : List φ} {k : Nat} (hk : k ≤ fs.length) : (tuplesOf fs k).Nodup := by
  unfold tuplesOf
  refine List.Nodup.map ?_ (Iw.generateTuples_spec hk).2
  intro x y h
  have := congrArg (List.map (·.1)) h
  simpa [List.map_map, Function.comp_def] using this

theorem nodup_looked (width : Nat) (fs : List φ) : (looked width fs).Nodup := by
  unfold looked
  rw [List.nodup_flatMap]
  refine ⟨fun k hk => ?_, ?_⟩
  · rw [List.mem_range'_1] at hk
    exact nodup_tuplesOf (by omega)
  · refine List.Nodup.pairwise_of_forall_ne List.nodup_range' ?_
    intro a ha b hb hab
    rw [List.mem_range'_1] at ha hb
    rw [Function.onFun, List.disjoint_left]
    intro t h1 h2
    exact hab (((Iw.mem_tuplesOf (by omega) t).1 h1).1.symm.trans ((Iw.mem_tuplesOf (by omega) t).1 h2).1)

variable [DecidableEq φ]

theorem novelty_looked (width : Nat) (table : Table φ) (fs : List φ) (depth : Nat) (nn : Bool) :
    novelty width table fs depth nn = (looked width fs).foldl (fun r t => novStep depth nn t.length r t) (false, fs.length + 1, table) := by
  unfold novelty looked
  rw [List.foldl_flatMap]
  generalize hks : List.range' 1 (min width fs.length) = ks
  have hk : ∀ k ∈ ks, k ≤ fs.length := by
    intro k hk
    rw [← hks, List.mem_range'_1] at hk
    omega
  clear hks
  generalize ((false, fs.length + 1, table) : Bool × Nat × Table φ) = r
  induction ks generalizing r with
  | nil => rfl
  | cons k ks ih =>
    rw [List.foldl_cons, List.foldl_cons, ih (fun x hx => hk x (List.mem_cons_of_mem _ hx))]
    congr 1
    have : ∀ t ∈ tuplesOf fs k, t.length = k := fun t ht => ((Iw.mem_tuplesOf (hk k List.mem_cons_self) t).1 ht).1
    generalize tuplesOf fs k = L at this
    clear ih hk
    induction L generalizing r with
    | nil => rfl
    | cons t L ih =>
      rw [List.foldl_cons, List.foldl_cons, ih _ (fun x hx => this x (List.mem_cons_of_mem _ hx)), this t List.mem_cons_self]

/-- A tuple is new, or reached as `nn` asks for. -/
def fresh (table : Table φ) (depth : Nat) (nn : Bool) (t : Tuple φ) : Prop :=
  table.get? t = none ∨ ∃ e, table.get? t = some e ∧ (if nn then depth < e else e = depth)

theorem novStep_fold (depth : Nat) (nn : Bool) : ∀ (L : List (Tuple φ)) (r : Bool × Nat × Table φ), L.Nodup →
    ((L.foldl (fun r t => novStep depth nn t.length r t) r).1 = true ↔ r.1 = true ∨ ∃ t ∈ L, fresh r.2.2 depth nn t) ∧
    (∀ t, (L.foldl (fun r t => novStep depth nn t.length r t) r).2.2.get? t = if t ∈ L then some (match r.2.2.get? t with
      | none => depth
      | some e => min e depth) else r.2.2.get? t) ∧
    (L.foldl (fun r t => novStep depth nn t.length r t) r).2.1 ≤ r.2.1 ∧
    (∀ t ∈ L, r.2.2.get? t = none → (L.foldl (fun r t => novStep depth nn t.length r t) r).2.1 ≤ t.length) ∧
    ((L.foldl (fun r t => novStep depth nn t.length r t) r).2.1 = r.2.1 ∨ ∃ t ∈ L, r.2.2.get? t = none ∧ (L.foldl (fun r t => novStep depth nn t.length r t) r).2.1 = t.length) := by
  intro L
  induction L with
  | nil => intro r _; simp
  | cons u L ih =>
    intro r hnd
    rw [List.nodup_cons] at hnd
    obtain ⟨i1, i2, i3, i4, i5⟩ := ih (novStep depth nn u.length r u) hnd.2
    rw [List.foldl_cons]
    have htab : ∀ t, (novStep depth nn u.length r u).2.2.get? t = if t = u then some (match r.2.2.get? u with
      | none => depth
      | some e => min e depth) else r.2.2.get? t := by
      intro t
      unfold novStep
      by_cases htu : t = u
      · subst htu
        rw [if_pos rfl]
        cases hg : r.2.2.get? t with
        | none => simp [Dict.get?_set_self]
        | some e => simp [Dict.get?_set_self]
      · rw [if_neg htu]
        cases hg : r.2.2.get? u with
        | none => simp [Dict.get?_set_ne _ _ htu]
        | some e => simp [Dict.get?_set_ne _ _ htu]
    have hother : ∀ t ∈ L, (novStep depth nn u.length r u).2.2.get? t = r.2.2.get? t := by
      intro t ht
      rw [htab, if_neg]
      intro e
      subst e
      exact hnd.1 ht
    have hfirst : (novStep depth nn u.length r u).1 = true ↔ r.1 = true ∨ fresh r.2.2 depth nn u := by
      unfold novStep fresh
      cases hg : r.2.2.get? u with
      | none => simp
      | some e => cases nn <;> simp
    have hnum : (novStep depth nn u.length r u).2.1 = if r.2.2.get? u = none then min r.2.1 u.length else r.2.1 := by
      unfold novStep
      cases hg : r.2.2.get? u with
      | none => simp
      | some e => simp
    have hfr : ∀ t ∈ L, fresh (novStep depth nn u.length r u).2.2 depth nn t ↔ fresh r.2.2 depth nn t := by
      intro t ht
      unfold fresh
      rw [hother t ht]
    refine ⟨?_, ?_, ?_, ?_, ?_⟩
    · rw [i1, hfirst]
      constructor
      · rintro ((h | h) | ⟨t, ht, h⟩)
        · exact Or.inl h
        · exact Or.inr ⟨u, List.mem_cons_self, h⟩
        · exact Or.inr ⟨t, List.mem_cons_of_mem _ ht, (hfr t ht).1 h⟩
      · rintro (h | ⟨t, ht, h⟩)
        · exact Or.inl (Or.inl h)
        · rcases List.mem_cons.1 ht with rfl | ht
          · exact Or.inl (Or.inr h)
          · exact Or.inr ⟨t, ht, (hfr t ht).2 h⟩
    · intro t
      rw [i2 t]
      by_cases htL : t ∈ L
      · rw [if_pos htL, if_pos (List.mem_cons_of_mem _ htL), hother t htL]
      · rw [if_neg htL, htab]
        by_cases htu : t = u
        · subst htu; rw [if_pos rfl, if_pos List.mem_cons_self]
        · rw [if_neg htu, if_neg (by simp [htu, htL])]
    · rw [hnum] at i3
      split at i3 <;> omega
    · intro t ht h0
      rcases List.mem_cons.1 ht with rfl | ht
      · rw [hnum, if_pos h0] at i3; exact Nat.le_trans i3 (Nat.min_le_right _ _)
      · exact i4 t ht (by rw [hother t ht]; exact h0)
    · rcases i5 with h | ⟨t, ht, h0, h⟩
      · rw [h, hnum]
        split
        · rename_i h0
          by_cases hle : r.2.1 ≤ u.length
          · left; omega
          · right; exact ⟨u, List.mem_cons_self, h0, by omega⟩
        · exact Or.inl rfl
      · right
        exact ⟨t, List.mem_cons_of_mem _ ht, by rw [← hother t ht]; exact h0, h⟩

end Verif.Riw
