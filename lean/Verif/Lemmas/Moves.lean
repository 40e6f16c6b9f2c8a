import Verif.Model.Moves
import Verif.Lemmas.Core
/-
Helper lemmas for the local moves.
-/
namespace Verif.Moves
open Verif.Core (mapE)

theorem map_range_get [Inhabited α] (l : List α) :
    (List.range l.length).map (fun i => l[i]!) = l := by
  apply List.ext_getElem
  · simp
  · intro i h1 h2
    simp at h1
    simp [h1]

theorem mapE_pyGet [Inhabited α] (l : List α) (is : List Nat) (h : ∀ i ∈ is, i < l.length) :
    mapE (pyGet l) is = .ok (is.map (fun i => l[i]!)) := by
  induction is with
  | nil => rfl
  | cons i is ih =>
    have hi : i < l.length := h i (by simp)
    rw [mapE, pyGet_of_lt hi, ih (fun j hj => h j (by simp [hj]))]
    simp [hi]

theorem swap1_ok {l l' : List α} {p : Nat × Nat} (h : swap1 l p = .ok l') :
    ∃ (h1 : p.1 < l.length) (h2 : p.2 < l.length), l' = (l.set p.1 l[p.2]).set p.2 l[p.1] := by
  unfold swap1 at h
  simp only [bind_eq_ok, pyGet_ok_iff, pySet_ok_iff] at h
  obtain ⟨v1, h1, v2, h2, l1, ⟨h3, h4⟩, h5, h6⟩ := h
  have hp2 : p.2 < l.length := by
    have := (List.getElem?_eq_some_iff.1 h2).1; exact this
  refine ⟨h3, hp2, ?_⟩
  rw [List.getElem?_eq_getElem h3] at h1
  rw [List.getElem?_eq_getElem hp2] at h2
  simp at h1 h2
  subst h1; subst h2; subst h4; exact h6

theorem swap1_of_lt {l : List α} {p : Nat × Nat} (h1 : p.1 < l.length) (h2 : p.2 < l.length) :
    swap1 l p = .ok ((l.set p.1 l[p.2]).set p.2 l[p.1]) := by
  unfold swap1
  rw [pyGet_of_lt h1, pyGet_of_lt h2]
  simp [pySet, h1, h2]

theorem swap1_perm {l l' : List α} {p : Nat × Nat} (h : swap1 l p = .ok l') : l'.Perm l := by
  obtain ⟨h1, h2, rfl⟩ := swap1_ok h
  exact List.set_set_perm h1 h2

theorem swap1_swap1 {l l' : List α} {p : Nat × Nat} (h : swap1 l p = .ok l') :
    swap1 l' p = .ok l := by
  obtain ⟨h1, h2, rfl⟩ := swap1_ok h
  rw [swap1_of_lt (by simpa using h1) (by simpa using h2)]
  congr 1
  apply List.ext_getElem
  · simp
  · intro i h3 h4
    simp only [List.getElem_set]
    grind

theorem swap1_comm {l l1 l2 : List α} {p q : Nat × Nat}
    (hd : p.1 ≠ q.1 ∧ p.1 ≠ q.2 ∧ p.2 ≠ q.1 ∧ p.2 ≠ q.2)
    (h1 : swap1 l p = .ok l1) (h2 : swap1 l1 q = .ok l2) :
    ∃ l3, swap1 l q = .ok l3 ∧ swap1 l3 p = .ok l2 := by
  obtain ⟨a1, a2, rfl⟩ := swap1_ok h1
  obtain ⟨b1, b2, rfl⟩ := swap1_ok h2
  simp only [List.length_set] at b1 b2
  refine ⟨_, swap1_of_lt b1 b2, ?_⟩
  rw [swap1_of_lt (by simpa using a1) (by simpa using a2)]
  congr 1
  apply List.ext_getElem
  · simp
  · intro i h3 h4
    simp only [List.getElem_set]
    grind

theorem swapsBacktrack_eq (ps : List (Nat × Nat)) (l : List α) :
    swapsBacktrack ps l = swapsApply ps l := by
  induction ps generalizing l with
  | nil => rfl
  | cons p ps ih =>
    simp only [swapsBacktrack, swapsApply, ih]

theorem swapsApply_append (ps qs : List (Nat × Nat)) (l : List α) :
    swapsApply (ps ++ qs) l = swapsApply ps l >>= swapsApply qs := by
  induction ps generalizing l with
  | nil => simp [swapsApply]
  | cons p ps ih =>
    simp only [List.cons_append, swapsApply]
    cases swap1 l p with
    | error e => simp
    | ok l1 => simp [ih]

theorem swapsApply_reverse {ps : List (Nat × Nat)} {l l' : List α}
    (h : swapsApply ps l = .ok l') : swapsApply ps.reverse l' = .ok l := by
  induction ps generalizing l with
  | nil => simp [swapsApply] at h ⊢; exact h.symm
  | cons p ps ih =>
    rw [swapsApply, bind_eq_ok] at h
    obtain ⟨l1, h1, h2⟩ := h
    rw [List.reverse_cons, swapsApply_append, ih h2]
    simp [swapsApply, swap1_swap1 h1]

/-- Moving a swap past a list of swaps that touch other positions. -/
theorem swapsApply_past {ps : List (Nat × Nat)} {p : Nat × Nat} {l l' : List α}
    (hd : ∀ q ∈ ps, p.1 ≠ q.1 ∧ p.1 ≠ q.2 ∧ p.2 ≠ q.1 ∧ p.2 ≠ q.2)
    (h : swapsApply (p :: ps) l = .ok l') : swapsApply (ps ++ [p]) l = .ok l' := by
  induction ps generalizing l with
  | nil => simpa using h
  | cons q ps ih =>
    simp only [swapsApply, bind_eq_ok] at h
    obtain ⟨l1, h1, l2, h2, h3⟩ := h
    obtain ⟨l3, h4, h5⟩ := swap1_comm (hd q (by simp)) h1 h2
    simp only [List.cons_append, swapsApply, h4, bind_ok]
    apply ih (fun r hr => hd r (by simp [hr]))
    simp [swapsApply, h5, h3]

theorem swapsApply_perm {ps : List (Nat × Nat)} {l l' : List α}
    (h : swapsApply ps l = .ok l') : l'.Perm l := by
  induction ps generalizing l with
  | nil => simp [swapsApply] at h; rw [h]
  | cons p ps ih =>
    rw [swapsApply, bind_eq_ok] at h
    obtain ⟨l1, h1, h2⟩ := h
    exact (ih h2).trans (swap1_perm h1)

theorem swapsApply_defined {ps : List (Nat × Nat)} {l : List α}
    (h : ∀ p ∈ ps, p.1 < l.length ∧ p.2 < l.length) : ∃ l', swapsApply ps l = .ok l' := by
  induction ps generalizing l with
  | nil => exact ⟨l, rfl⟩
  | cons p ps ih =>
    have hp := h p (by simp)
    simp only [swapsApply, swap1_of_lt hp.1 hp.2, bind_ok]
    apply ih
    intro q hq
    simpa using h q (by simp [hq])

theorem twoOpt1_perm (l : List α) (p : Nat × Nat) (h : p.1 ≤ p.2 + 1) : (twoOpt1 l p).Perm l := by
  unfold twoOpt1
  have h1 : (l.take p.1 ++ ((l.take (p.2 + 1)).drop p.1)) = l.take (p.2 + 1) := by
    have : l.take p.1 = (l.take (p.2 + 1)).take p.1 := by rw [List.take_take]; congr 1; omega
    rw [this, List.take_append_drop]
  have h2 : (l.take p.1 ++ ((l.take (p.2 + 1)).drop p.1).reverse ++ l.drop (p.2 + 1)).Perm
      (l.take p.1 ++ ((l.take (p.2 + 1)).drop p.1) ++ l.drop (p.2 + 1)) :=
    ((List.reverse_perm _).append_left _).append_right _
  rw [h1, List.take_append_drop] at h2
  exact h2

theorem twoOpt1_twoOpt1 (l : List α) (p : Nat × Nat) (h : p.1 ≤ p.2 + 1) :
    twoOpt1 (twoOpt1 l p) p = l := by
  obtain ⟨i, j⟩ := p
  simp only at h
  apply List.ext_getElem?
  intro k
  have hl : (twoOpt1 l (i, j)).length = l.length := (twoOpt1_perm l (i, j) h).length_eq
  have key : ∀ (m : List α) (k : Nat), m.length = l.length → (twoOpt1 m (i, j))[k]? =
      if k < i then m[k]? else if k < j + 1 ∧ k < l.length then m[i + min (j + 1) l.length - 1 - k]?
        else m[k]? := by
    intro m k hm
    unfold twoOpt1
    simp only [List.getElem?_append, List.length_append, List.length_take, List.length_reverse,
      List.length_drop, List.getElem?_take, List.getElem?_drop, hm]
    by_cases c1 : k < i
    · simp only [c1, if_true]
      by_cases c2 : k < l.length
      · rw [if_pos, if_pos] <;> omega
      · rw [List.getElem?_eq_none (by omega : m.length ≤ k)]
        grind
    · simp only [c1, if_false]
      by_cases c2 : k < j + 1 ∧ k < l.length
      · rw [if_pos c2, if_pos (by omega), if_neg (by omega), List.getElem?_reverse (by
          simp only [List.length_drop, List.length_take, hm]; omega)]
        simp only [List.length_drop, List.length_take, hm, List.getElem?_drop, List.getElem?_take]
        rw [if_pos (by omega)]
        congr 1; omega
      · rw [if_neg c2]
        by_cases c3 : k < l.length
        · rw [if_neg (by omega)]; congr 1; omega
        · rw [List.getElem?_eq_none (by omega : m.length ≤ k)]
          grind
  rw [key _ _ hl]
  by_cases c1 : k < i
  · simp only [c1, if_true]; rw [key _ _ rfl]; simp [c1]
  · simp only [c1, if_false]
    by_cases c2 : k < j + 1 ∧ k < l.length
    · rw [if_pos c2, key _ _ rfl, if_neg (by omega), if_pos (by omega)]
      congr 1; omega
    · rw [if_neg c2, key _ _ rfl, if_neg c1, if_neg c2]

theorem twoOptApply_perm (ms : List (Nat × Nat)) (l : List α) (h : ∀ p ∈ ms, p.1 ≤ p.2 + 1) :
    (twoOptApply ms l).Perm l := by
  unfold twoOptApply
  induction ms generalizing l with
  | nil => exact List.Perm.refl _
  | cons p ms ih =>
    rw [List.foldl_cons]
    exact (ih _ (fun q hq => h q (by simp [hq]))).trans (twoOpt1_perm l p (h p (by simp)))

theorem twoOpt_undo (ms : List (Nat × Nat)) (l : List α) (h : ∀ p ∈ ms, p.1 ≤ p.2 + 1) :
    twoOptBacktrack ms (twoOptApply ms l) = l := by
  unfold twoOptBacktrack twoOptApply
  induction ms generalizing l with
  | nil => rfl
  | cons p ms ih =>
    rw [List.foldl_cons, List.reverse_cons, List.foldl_append,
      ih _ (fun q hq => h q (by simp [hq]))]
    simp [twoOpt1_twoOpt1 l p (h p (by simp))]

/-- Value at a position after `n` flips. -/
def flipN (n : Nat) (x : Int) : Int := if n % 2 = 0 then x else 1 - x

theorem bitFlipApply_ok {is : List Nat} {l l' : List Int} (h : bitFlipApply is l = .ok l') :
    l'.length = l.length ∧ (∀ i ∈ is, i < l.length) ∧
      ∀ k : Nat, l'[k]? = (l[k]?).map (flipN (is.count k)) := by
  induction is generalizing l with
  | nil => simp [bitFlipApply] at h; subst h; simp; intro k; cases l[k]? <;> simp [flipN]
  | cons i is ih =>
    simp only [bitFlipApply, bind_eq_ok, pyGet_ok_iff, pySet_ok_iff] at h
    obtain ⟨v, hv, l1, ⟨hi, rfl⟩, h2⟩ := h
    obtain ⟨a, b, c⟩ := ih h2
    refine ⟨by simpa using a, ?_, ?_⟩
    · intro j hj
      rcases List.mem_cons.1 hj with rfl | hj
      · exact hi
      · simpa using b j hj
    · intro k
      rw [c k, List.getElem?_set]
      by_cases hik : i = k
      · subst hik
        simp only [if_true, hi, hv, Option.map_some, List.count_cons_self, Option.some.injEq]
        unfold flipN
        split <;> split <;> omega
      · simp [hik]

theorem bitFlipApply_defined {is : List Nat} {l : List Int} (h : ∀ i ∈ is, i < l.length) :
    ∃ l', bitFlipApply is l = .ok l' := by
  induction is generalizing l with
  | nil => exact ⟨l, rfl⟩
  | cons i is ih =>
    have hi := h i (by simp)
    simp only [bitFlipApply, pyGet_of_lt hi, bind_ok, pySet, hi, if_true]
    apply ih
    intro j hj
    simpa using h j (by simp [hj])

theorem partialShuffleLoop_spec {prev : List α} {D : List Nat} :
    ∀ {ds rs : List Nat} {new : List α}, ds.length = rs.length → ds.Nodup →
    (∀ d ∈ ds, d < new.length) → (∀ r ∈ rs, r < D.length) → (∀ d ∈ D, d < prev.length) →
    ∃ new', partialShuffleLoop prev D ds rs new = .ok new' ∧ new'.length = new.length ∧
      (∀ i, i ∉ ds → new'[i]? = new[i]?) ∧
      (∀ (k : Nat) (h1 : k < ds.length) (h2 : k < rs.length) (h3 : rs[k] < D.length),
        new'[ds[k]]? = prev[D[rs[k]]]?)
  | [], [], new, _, _, _, _, _ => ⟨new, rfl, rfl, by simp, by simp⟩
  | [], _ :: _, _, h, _, _, _, _ => by simp at h
  | _ :: _, [], _, h, _, _, _, _ => by simp at h
  | d :: ds, r :: rs, new, hl, hn, hds, hrs, hD => by
    have hr : r < D.length := hrs r (by simp)
    have hDr : D[r] < prev.length := hD _ (List.getElem_mem hr)
    have hd : d < new.length := hds d (by simp)
    rw [List.nodup_cons] at hn
    obtain ⟨new', h1, h2, h3, h4⟩ := partialShuffleLoop_spec (prev := prev) (D := D) (ds := ds)
      (rs := rs) (new := new.set d prev[D[r]]) (by simpa using hl) hn.2
      (fun e he => by simpa using hds e (by simp [he])) (fun e he => hrs e (by simp [he])) hD
    refine ⟨new', ?_, by simpa using h2, ?_, ?_⟩
    · simp only [partialShuffleLoop, pyGet_of_lt hr, pyGet_of_lt hDr, bind_ok, pySet, hd, if_true,
        h1]
    · intro i hi
      simp only [List.mem_cons, not_or] at hi
      rw [h3 i hi.2, List.getElem?_set_ne (Ne.symm hi.1)]
    · intro k k1 k2 k3
      cases k with
      | zero =>
        simp only [List.getElem_cons_zero]
        rw [h3 d hn.1, List.getElem?_set_self hd, List.getElem?_eq_getElem hDr]
      | succ k =>
        exact h4 k (by simpa using k1) (by simpa using k2) (by simpa using k3)

theorem perm_of_moved [Inhabited α] {l new : List α} {D R : List Nat} (hlen : new.length = l.length)
    (hD : D.Nodup) (hDl : ∀ d ∈ D, d < l.length) (hR : R.Perm (List.range D.length))
    (hout : ∀ i, i ∉ D → new[i]? = l[i]?)
    (hin : ∀ (k : Nat) (h1 : k < D.length) (h2 : k < R.length) (h3 : R[k] < D.length),
        new[D[k]]? = l[D[R[k]]]?) : new.Perm l := by
  let O := (List.range l.length).filter (fun i => i ∉ D)
  have hRl : R.length = D.length := by simpa using hR.length_eq
  have hRlt : ∀ r ∈ R, r < D.length := fun r hr => by simpa using hR.mem_iff.1 hr
  have hsplit : (List.range l.length).Perm (D ++ O) := by
    rw [List.perm_ext_iff_of_nodup List.nodup_range]
    · intro a
      simp only [List.mem_range, List.mem_append, O, List.mem_filter, decide_eq_true_eq]
      by_cases ha : a ∈ D
      · simp [ha, hDl a ha]
      · simp [ha]
    · rw [List.nodup_append]
      refine ⟨hD, List.nodup_range.filter _, ?_⟩
      intro a ha b hb
      simp only [O, List.mem_filter, decide_eq_true_eq] at hb
      rintro rfl
      exact hb.2 ha
  have hnew : new.Perm ((D ++ O).map (fun i => new[i]!)) := by
    have := map_range_get new
    rw [hlen] at this
    conv => lhs; rw [← this]
    exact hsplit.map _
  have hold : l.Perm ((D ++ O).map (fun i => l[i]!)) := by
    conv => lhs; rw [← map_range_get l]
    exact hsplit.map _
  refine hnew.trans (List.Perm.trans ?_ hold.symm)
  rw [List.map_append, List.map_append]
  have hO : O.map (fun i => new[i]!) = O.map (fun i => l[i]!) := by
    apply List.map_congr_left
    intro i hi
    simp only [O, List.mem_filter, decide_eq_true_eq] at hi
    simp [hout i hi.2]
  rw [hO]
  apply List.Perm.append_right
  have e1 : D.map (fun i => new[i]!) = R.map (fun r => l[D[r]!]!) := by
    apply List.ext_getElem
    · simp [hRl]
    · intro k k1 k2
      simp only [List.length_map] at k1 k2
      have k3 : R[k] < D.length := hRlt _ (List.getElem_mem k2)
      have := hin k k1 k2 k3
      simp only [List.getElem_map, List.getElem!_eq_getElem?_getD, this,
        List.getElem?_eq_getElem k3, Option.getD_some]
  have e2 : D.map (fun i => l[i]!) = (List.range D.length).map (fun r => l[D[r]!]!) := by
    conv => lhs; rw [← map_range_get D]
    rw [List.map_map]; rfl
  rw [e1, e2]
  exact hR.map _

end Verif.Moves
