import Verif.Model.VrpTools
import Verif.Lemmas.Parse
/-
Lemmas about the tools of vehicle routing.
-/
namespace Verif.VrpTools
open Parse

/-- A customer of the list. -/
def cu (customers : List Customer) (i : Nat) : Customer := customers.getD i ⟨0, 0, 0⟩

/-- The length of a path. -/
def pathLen (len : Customer → Customer → Rat) (customers : List Customer) : List Nat → Rat
  | a :: b :: l => len (cu customers a) (cu customers b) + pathLen len customers (b :: l)
  | _ => 0

theorem legs_ok (len : Customer → Customer → Rat) {customers : List Customer} : ∀ (l : List Nat), (∀ x ∈ l, x < customers.length) →
    legs len customers (l.dropLast.zip (l.drop 1)) = .ok (pathLen len customers l)
  | [], _ => rfl
  | [_], _ => rfl
  | a :: b :: l, h => by
    have ha : a < customers.length := h a (by simp)
    have hb : b < customers.length := h b (by simp)
    have := legs_ok len (b :: l) (fun x hx => h x (by simp at hx ⊢; exact Or.inr hx))
    simp only [List.drop_succ_cons, List.drop_zero] at this
    simp only [List.dropLast_cons_cons, List.drop_succ_cons, List.drop_zero, List.zip_cons_cons, legs, pyGet_of_lt ha, pyGet_of_lt hb, bind_ok, this, pathLen]
    simp [cu, ha, hb]

theorem pick_ok {customers : List Customer} : ∀ (l : List Nat), (∀ x ∈ l, x < customers.length) → pick customers l = .ok (l.map (cu customers))
  | [], _ => rfl
  | a :: l, h => by
    have ha : a < customers.length := h a (by simp)
    simp only [pick, pyGet_of_lt ha, bind_ok, pick_ok l (fun x hx => h x (by simp [hx])), List.map_cons]
    simp [cu, ha]

theorem loop_ok (len : Customer → Customer → Rat) {customers : List Customer} (h0 : 0 < customers.length) : ∀ (ps : List (Nat × List Nat)) (tours : List (List Customer)) (obj : Rat),
    (∀ p ∈ ps, p.1 < customers.length ∧ ∀ x ∈ p.2, x < customers.length) →
    recomputeLoop len customers (ps.map (fun p => p.1 :: p.2)) tours obj =
      .ok (tours ++ ps.map (fun p => p.2.map (cu customers)), obj + (ps.map (fun p => pathLen len customers (p.1 :: (p.2 ++ [0])))).sum)
  | [], tours, obj, _ => by simp [recomputeLoop, Rat.add_zero]
  | p :: ps, tours, obj, h => by
    obtain ⟨h1, h2⟩ := h p (by simp)
    have hall : ∀ x ∈ p.1 :: (p.2 ++ [0]), x < customers.length := by
      intro x hx
      simp only [List.mem_cons, List.mem_append, List.not_mem_nil, or_false] at hx
      rcases hx with rfl | hx | rfl
      · exact h1
      · exact h2 x hx
      · exact h0
    have hd : ((p.1 :: (p.2 ++ [0])).drop 1).dropLast = p.2 := by simp
    simp only [List.map_cons, recomputeLoop, List.cons_append, legs_ok len _ hall, bind_ok, hd, pick_ok p.2 h2,
      loop_ok len h0 ps _ _ (fun q hq => h q (by simp [hq])), List.sum_cons, List.append_assoc, List.nil_append, Rat.add_assoc]

theorem get_filterMap {κ : Type} [DecidableEq κ] (g : κ → Rat) (k : κ) : ∀ L : List κ,
    Dict.get? (L.filterMap (fun e => if g e = 0 then none else some (e, g e))) k = if k ∈ L ∧ g k ≠ 0 then some (g k) else none
  | [] => by simp [Dict.get?]
  | e :: L => by
    have ih := get_filterMap g k L
    by_cases he : g e = 0
    · rw [List.filterMap_cons_none (by simp [he]), ih]
      by_cases hk : k = e
      · subst hk; simp [he]
      · simp [hk]
    · rw [List.filterMap_cons_some (b := (e, g e)) (by simp [he])]
      by_cases hk : k = e
      · subst hk; simp [Dict.get?, he]
      · have : ¬ e = k := fun x => hk x.symm
        simp only [Dict.get?, this, if_false, ih, List.mem_cons, hk, false_or]

theorem take_mem {l : List Nat} {k j : Nat} (h : j ∈ l.take k) : ∃ a b, l = a ++ j :: b ∧ a.length < k := by
  obtain ⟨a, b, e⟩ := List.append_of_mem h
  refine ⟨a, b ++ l.drop k, ?_, ?_⟩
  · have := List.take_append_drop k l
    rw [e] at this
    simpa using this.symm
  · have h1 : (l.take k).length ≤ k := by simp; omega
    rw [e] at h1
    simp at h1
    omega

/-! ### Texts -/

theorem str_space {n : Int} : ∀ c ∈ Imopse.str n, isSpace c = false := fun _ h => writeInt_not_space (n := n) h

theorem str_ne (n : Int) : Imopse.str n ≠ [] := writeInt_ne n

theorem spells_last (d : Int) : Spells [Imopse.str d] (' ' :: Imopse.str d) := by
  have := Spells.word [' '] (Imopse.str d) [] [] (by simp; decide) (str_ne d) str_space (Spells.none [] (by simp)) (by simp)
  simpa using this

theorem spells_join (d : Int) : ∀ t : List Int, Spells (t.map Imopse.str ++ [Imopse.str d]) (' ' :: (join (t.map Imopse.str) ++ ' ' :: Imopse.str d))
  | [] => by
    have := Spells.word [' ', ' '] (Imopse.str d) [] [] (by simp; decide) (str_ne d) str_space (Spells.none [] (by simp)) (by simp)
    simpa [join] using this
  | [a] => by
    have := Spells.word [' '] (Imopse.str a) _ _ (by simp; decide) (str_ne a) str_space (spells_last d) (by simp; decide)
    simpa [join] using this
  | a :: b :: t => by
    have := Spells.word [' '] (Imopse.str a) _ _ (by simp; decide) (str_ne a) str_space (spells_join d (b :: t)) (by simp; decide)
    simpa [join] using this

/-- A line without its end. -/
def body (depot : Int) (tour : List Int) : List Char :=
  Imopse.str depot ++ ' ' :: (join (tour.map Imopse.str) ++ ' ' :: Imopse.str depot)

theorem spells_body (d : Int) (t : List Int) : Spells (Imopse.str d :: (t.map Imopse.str ++ [Imopse.str d])) (body d t) := by
  have := Spells.word [] (Imopse.str d) _ _ (by simp) (str_ne d) str_space (spells_join d t) (by simp; decide)
  simpa [body] using this

theorem no_newline {w : List Char} (h : ∀ c ∈ w, isSpace c = false) : '\n' ∉ w := fun hc => by
  have := h _ hc
  revert this
  decide

theorem join_newline : ∀ t : List Int, '\n' ∉ join (t.map Imopse.str)
  | [] => by simp [join]
  | [a] => no_newline str_space
  | a :: b :: t => by
    have := join_newline (b :: t)
    simp only [List.map_cons] at this
    simp only [List.map_cons, join, List.mem_append, List.mem_cons, not_or]
    exact ⟨no_newline str_space, by decide, this⟩

theorem body_newline (d : Int) (t : List Int) : '\n' ∉ body d t := by
  simp only [body, List.mem_append, List.mem_cons, not_or]
  exact ⟨no_newline str_space, by decide, join_newline t, by decide, no_newline str_space⟩

theorem linesFrom_ok (tours : List (List Int)) (d : Int) : ∀ (k v : Nat), v + k ≤ tours.length →
    linesFrom tours d k v = .ok (((tours.drop v).take k).flatMap (fun t => body d t ++ ['\n']))
  | 0, v, _ => by simp [linesFrom]
  | k + 1, v, h => by
    have hv : v < tours.length := by omega
    simp only [linesFrom, pyGet_of_lt hv, bind_ok, linesFrom_ok tours d k (v + 1) (by omega)]
    rw [List.drop_eq_getElem_cons hv, List.take_succ_cons, List.flatMap_cons]
    rfl

theorem linesFrom_error (tours : List (List Int)) (d : Int) : ∀ (k v : Nat), v ≤ tours.length → tours.length < v + k → linesFrom tours d k v = .error .indexError
  | 0, v, h, h' => by omega
  | k + 1, v, h, h' => by
    by_cases hv : v < tours.length
    · simp only [linesFrom, pyGet_of_lt hv, bind_ok, linesFrom_error tours d k (v + 1) (by omega) (by omega), bind_error]
    · have : pyGet tours v = .error .indexError := pyGet_none (by omega)
      simp only [linesFrom, this, bind_error]

theorem text_ends : ∀ (l : List Char) (ls : List (List Char)), l ++ '\n' :: ls.flatMap (fun x => x ++ ['\n']) = text (l :: (ls ++ [[]]))
  | l, [] => by simp [text, List.intercalate]
  | l, x :: ls => by
    have := text_ends x ls
    rw [List.cons_append, text_cons, ← this]
    simp

end Verif.VrpTools
