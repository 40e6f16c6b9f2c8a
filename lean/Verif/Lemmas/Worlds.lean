import Verif.Model.Worlds
import Verif.Lemmas.ListSum
import Mathlib.Data.List.Lattice
import Mathlib.Data.List.Nodup
import Mathlib.Algebra.BigOperators.Group.List.Basic

/-! Lemmas about the small domains and spaces. -/
namespace Verif.Worlds

/-! ### Maze -/

theorem lastIn_spec (c : Char) (y x : Nat) (l : List Char) (acc : Option Cell) (r : Cell)
    (h : lastIn c y x l acc = some r) :
    acc = some r ∨ ∃ i, l[i]? = some c ∧ r = ⟨((x + i : Nat) : Int), y⟩ := by
  induction l generalizing x acc with
  | nil => exact .inl h
  | cons d ds ih =>
    rw [lastIn] at h
    rcases ih _ _ h with h' | ⟨i, h1, h2⟩
    · split at h'
      · rename_i hd
        subst hd
        exact .inr ⟨0, rfl, by cases h'; rfl⟩
      · exact .inl h'
    · refine .inr ⟨i + 1, by simpa using h1, ?_⟩
      rw [h2, Nat.add_right_comm, Nat.add_assoc]

theorem lastAt_spec (c : Char) (y : Nat) (ls : List (List Char)) (acc : Option Cell) (r : Cell)
    (h : lastAt c y ls acc = some r) :
    acc = some r ∨ ∃ (j i : Nat) (l : List Char), ls[j]? = some l ∧ l[i]? = some c ∧ r = ⟨(i : Int), ((y + j : Nat) : Int)⟩ := by
  induction ls generalizing y acc with
  | nil => exact .inl h
  | cons l ls ih =>
    rw [lastAt] at h
    rcases ih _ _ h with h' | ⟨j, i, l', h1, h2, h3⟩
    · rcases lastIn_spec _ _ _ _ _ _ h' with h'' | ⟨i, h1, h2⟩
      · exact .inl h''
      · refine .inr ⟨0, i, l, rfl, h1, ?_⟩
        rw [h2]; simp
    · refine .inr ⟨j + 1, i, l', by simpa using h1, h2, ?_⟩
      rw [h3, Nat.add_right_comm, Nat.add_assoc]

/-! ### Mastermind -/

theorem bullsOf_ok {g s : List Nat} (h : g.length ≤ s.length) :
    bullsOf g s = .ok (List.zipWith (fun a b => decide (a = b)) g s) := by
  induction g generalizing s with
  | nil => simp [bullsOf]
  | cons a g ih =>
    cases s with
    | nil => simp at h
    | cons b s =>
      rw [bullsOf, ih (by simpa using h)]
      rfl

theorem bullsOf_error {g s : List Nat} (h : s.length < g.length) : bullsOf g s = .error .indexError := by
  induction g generalizing s with
  | nil => simp at h
  | cons a g ih =>
    cases s with
    | nil => rfl
    | cons b s =>
      rw [bullsOf, ih (by simpa using h)]
      rfl

/-- The solution colours at positions that are neither bulls nor cows yet. -/
def free : List Nat → List Bool → List Bool → List Nat
  | s :: ss, b :: bs, w :: ws => if b = false ∧ w = false then s :: free ss bs ws else free ss bs ws
  | _, _, _ => []

theorem markCow_spec (c : Nat) (ss : List Nat) (bs ws : List Bool) :
    free ss bs (markCow c ss bs ws) = (free ss bs ws).erase c ∧
    (markCow c ss bs ws).count true = ws.count true + (if c ∈ free ss bs ws then 1 else 0) := by
  induction ss generalizing bs ws with
  | nil => simp [markCow, free]
  | cons s ss ih =>
    cases bs with
    | nil => simp [markCow, free]
    | cons b bs =>
      cases ws with
      | nil => simp [markCow, free]
      | cons w ws =>
        obtain ⟨h1, h2⟩ := ih bs ws
        rw [markCow]
        by_cases hc : c = s ∧ b = false ∧ w = false
        · obtain ⟨rfl, rfl, rfl⟩ := hc
          simp [free]
        · rw [if_neg hc]
          by_cases hf : b = false ∧ w = false
          · obtain ⟨rfl, rfl⟩ := hf
            have hne : ¬ c = s := fun h => hc ⟨h, rfl, rfl⟩
            have hne' : (s == c) = false := by simpa using fun h : s = c => hne h.symm
            simp [free, h1, h2, hne, hne']
          · simp only [free, if_neg hf, h1, List.count_cons, h2]
            exact ⟨trivial, by omega⟩

/-- The entries of the first list that are not matched exactly. -/
def unmatched : List Nat → List Bool → List Nat
  | g :: gs, b :: bs => if b then unmatched gs bs else g :: unmatched gs bs
  | _, _ => []

theorem cowsLoop_count (sol : List Nat) (bulls : List Bool) (gs : List Nat) (bs ws : List Bool) :
    (cowsLoop sol bulls gs bs ws).count true =
      ws.count true + (List.bagInter (unmatched gs bs) (free sol bulls ws)).length := by
  induction gs generalizing bs ws with
  | nil => cases bs <;> simp [cowsLoop, unmatched]
  | cons g gs ih =>
    cases bs with
    | nil => simp [cowsLoop, unmatched]
    | cons b bs =>
      rw [cowsLoop, unmatched, ih]
      cases b with
      | true => simp
      | false =>
        simp only [Bool.false_eq_true, if_false]
        obtain ⟨h1, h2⟩ := markCow_spec g sol bulls ws
        rw [h1, h2]
        by_cases hm : g ∈ free sol bulls ws
        · rw [List.cons_bagInter_of_mem _ hm]
          simp [hm]; omega
        · rw [List.cons_bagInter_of_not_mem _ hm, List.erase_of_not_mem hm]
          simp [hm]

theorem free_init (ss : List Nat) (bs : List Bool) (l : List Nat) (h1 : ss.length = l.length)
    (h2 : bs.length = l.length) : free ss bs (l.map fun _ => false) = unmatched ss bs := by
  induction ss generalizing bs l with
  | nil => simp [free, unmatched]
  | cons s ss ih =>
    cases bs with
    | nil => simp [free, unmatched]
    | cons b bs =>
      cases l with
      | nil => simp at h1
      | cons x l =>
        have := ih bs l (by simpa using h1) (by simpa using h2)
        simp only [List.map_cons, free, unmatched, this]
        cases b <;> simp

theorem count_unmatched (c : Nat) (g s : List Nat) (h : g.length = s.length) :
    (unmatched g (List.zipWith (fun a b => decide (a = b)) g s)).count c +
      (List.zipWith (fun a b => decide (a = b ∧ a = c)) g s).count true = g.count c := by
  induction g generalizing s with
  | nil => simp [unmatched]
  | cons a g ih =>
    cases s with
    | nil => simp at h
    | cons b s =>
      have := ih s (by simpa using h)
      simp only [List.zipWith_cons_cons, unmatched, List.count_cons]
      by_cases hab : a = b
      · subst hab
        by_cases hc : a = c
        · simp only [hc, beq_self_eq_true, decide_true, if_true, and_self]; omega
        · simp only [hc, decide_true, if_true, and_false, decide_false, beq_iff_eq, Bool.false_eq_true,
            if_false]; omega
      · simp only [hab, decide_false, Bool.false_eq_true, if_false, List.count_cons, false_and,
          beq_iff_eq]
        omega

theorem bulls_symm (g s : List Nat) :
    (List.zipWith (fun a b => decide (a = b)) g s) = List.zipWith (fun a b => decide (a = b)) s g := by
  induction g generalizing s with
  | nil => simp
  | cons a g ih =>
    cases s with
    | nil => simp
    | cons b s => simp [ih s, eq_comm]

theorem length_unmatched (g : List Nat) (bs : List Bool) (h : g.length = bs.length) :
    (unmatched g bs).length + bs.count true = g.length := by
  induction g generalizing bs with
  | nil => cases bs <;> simp_all [unmatched]
  | cons a g ih =>
    cases bs with
    | nil => simp at h
    | cons b bs =>
      have := ih bs (by simpa using h)
      cases b <;> simp [unmatched] <;> omega

/-- The length of a list is the sum of its counts over a range covering it. -/
theorem sum_count_range (l : List Nat) (n : Nat) (h : ∀ x ∈ l, x < n) :
    ((List.range n).map fun c => l.count c).sum = l.length := by
  induction l with
  | nil => simp
  | cons a l ih =>
    have ha := h a (by simp)
    have := ih (fun x hx => h x (by simp [hx]))
    rw [List.length_cons, ← this]
    have key : ∀ (r : List Nat), (r.map fun c => (a :: l).count c).sum =
        (r.map fun c => l.count c).sum + r.count a := by
      intro r
      induction r with
      | nil => simp
      | cons c r ihr =>
        rw [List.map_cons, List.sum_cons, ihr, List.map_cons, List.sum_cons, List.count_cons,
          List.count_cons]
        by_cases hc : a = c
        · subst hc; simp only [beq_self_eq_true, if_true]; omega
        · have : ¬ (c = a) := fun h => hc h.symm
          simp only [beq_iff_eq, hc, this, if_false]; omega
    rw [key]
    congr 1
    rw [List.count_range, if_pos ha]

theorem hidden_mem (k n : Nat) (l : List Nat) :
    l ∈ hiddenSolutions k n ↔ l.length = n ∧ ∀ c ∈ l, c < k := by
  induction n generalizing l with
  | zero => simp only [hiddenSolutions, List.mem_singleton, List.length_eq_zero_iff]
            exact ⟨fun h => ⟨h, by simp [h]⟩, fun h => h.1⟩
  | succ n ih =>
    simp only [hiddenSolutions, List.mem_flatMap, List.mem_map, List.mem_range, ih]
    constructor
    · rintro ⟨s, ⟨h1, h2⟩, c, hc, rfl⟩
      refine ⟨by simp [h1], ?_⟩
      intro x hx
      rcases List.mem_append.1 hx with hx | hx
      · exact h2 x hx
      · simp only [List.mem_singleton] at hx; subst hx; exact hc
    · rintro ⟨h1, h2⟩
      have hne : l ≠ [] := by intro h; rw [h] at h1; simp at h1
      refine ⟨l.dropLast, ⟨by simp [h1], fun c hc => h2 c ((List.dropLast_sublist l).subset hc)⟩,
        l.getLast hne, h2 _ (List.getLast_mem hne), List.dropLast_concat_getLast hne⟩

theorem hidden_nodup (k n : Nat) : (hiddenSolutions k n).Nodup := by
  induction n with
  | zero => simp [hiddenSolutions]
  | succ n ih =>
    rw [hiddenSolutions, List.nodup_flatMap]
    refine ⟨fun s _ => ?_, ?_⟩
    · refine List.Nodup.map_on ?_ List.nodup_range
      intro a _ b _ h
      simpa using h
    · refine List.Pairwise.imp ?_ ih
      intro a b hab
      simp only [Function.onFun, List.disjoint_left, List.mem_map, List.mem_range]
      rintro _ ⟨c, _, rfl⟩ ⟨d, _, h⟩
      have := List.append_inj_left' h rfl
      exact hab this.symm

theorem hidden_length (k n : Nat) : (hiddenSolutions k n).length = k ^ n := by
  induction n with
  | zero => rfl
  | succ n ih =>
    rw [hiddenSolutions, List.length_flatMap]
    simp only [List.length_map, List.length_range, List.map_const', List.sum_replicate, ih]
    rw [Nat.pow_succ]
    rfl

end Verif.Worlds
