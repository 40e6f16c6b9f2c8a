import Verif.Model.Iw
import Mathlib.Tactic.Ring

/-! `generate_tuples` of iw.hh lists every combination once. -/
namespace Verif.Iw

/-- Lexicographic order. -/
def LexLe : List Nat → List Nat → Prop
  | x :: l, y :: t => x < y ∨ x = y ∧ LexLe l t
  | _, _ => True

def LexLt : List Nat → List Nat → Prop
  | x :: l, y :: t => x < y ∨ x = y ∧ LexLt l t
  | _, _ => False

theorem lexLe_or {l t : List Nat} (h : l.length = t.length) : LexLe t l ∨ LexLt l t := by
  induction l generalizing t with
  | nil => exact .inl (by cases t <;> trivial)
  | cons x l ih =>
    cases t with
    | nil => simp at h
    | cons y t =>
      rcases Nat.lt_trichotomy x y with h1 | h1 | h1
      · exact .inr (.inl h1)
      · rcases ih (by simpa using h) with h2 | h2
        · exact .inl (.inr ⟨h1.symm, h2⟩)
        · exact .inr (.inr ⟨h1, h2⟩)
      · exact .inl (.inl h1)

theorem lexLt_asymm {l t : List Nat} (h : LexLt l t) (h' : LexLe t l) : False := by
  induction l generalizing t with
  | nil => exact h
  | cons x l ih =>
    cases t with
    | nil => exact h
    | cons y t =>
      rcases h with h | ⟨h, h2⟩ <;> rcases h' with h' | ⟨h', h3⟩
      · omega
      · omega
      · omega
      · exact ih h2 h3

theorem lexLe_refl (l : List Nat) : LexLe l l := by
  induction l with
  | nil => trivial
  | cons x l ih => exact .inr ⟨rfl, ih⟩

theorem lexLe_antisymm {l t : List Nat} (hlen : l.length = t.length) (h : LexLe l t) (h' : LexLe t l) : l = t := by
  induction l generalizing t with
  | nil => cases t with
    | nil => rfl
    | cons => simp at hlen
  | cons x l ih =>
    cases t with
    | nil => simp at hlen
    | cons y t =>
      rcases h with h | ⟨h, h2⟩ <;> rcases h' with h' | ⟨h', h3⟩
      · omega
      · omega
      · omega
      · rw [h, ih (by simpa using hlen) h2 h3]

/-- The rank of a list read as a number to the base `n`. -/
def rank (n : Nat) : List Nat → Nat
  | [] => 0
  | x :: l => x * n ^ l.length + rank n l

theorem rank_lt {n : Nat} {l : List Nat} (h : ∀ x ∈ l, x < n) : rank n l < n ^ l.length := by
  induction l with
  | nil => simp [rank]
  | cons x l ih =>
    have h1 := ih (fun y hy => h y (by simp [hy]))
    have h2 := h x (by simp)
    have h3 : (x + 1) * n ^ l.length ≤ n * n ^ l.length := Nat.mul_le_mul_right _ h2
    simp only [rank, List.length_cons, Nat.pow_succ]
    have h4 : (x + 1) * n ^ l.length = x * n ^ l.length + n ^ l.length := by ring
    rw [Nat.mul_comm n] at h3
    omega

theorem rank_mono {n : Nat} {l t : List Nat} (hlen : l.length = t.length) (hl : ∀ x ∈ l, x < n) (h : LexLt l t) : rank n l < rank n t := by
  induction l generalizing t with
  | nil => exact h.elim
  | cons x l ih =>
    cases t with
    | nil => exact h.elim
    | cons y t =>
      have hlen' : l.length = t.length := by simpa using hlen
      simp only [rank]
      rcases h with h | ⟨rfl, h⟩
      · have h1 := rank_lt (n := n) (l := l) (fun z hz => hl z (by simp [hz]))
        have h3 : (x + 1) * n ^ l.length ≤ y * n ^ l.length := Nat.mul_le_mul_right _ h
        have h4 : (x + 1) * n ^ l.length = x * n ^ l.length + n ^ l.length := by ring
        rw [← hlen']
        omega
      · have := ih hlen' (fun z hz => hl z (by simp [hz])) h
        rw [← hlen']
        omega

/-- A combination: strictly increasing indices below `n`. -/
def Comb (n : Nat) (l : List Nat) : Prop := l.Pairwise (· < ·) ∧ ∀ x ∈ l, x < n

theorem Comb.tail {n x : Nat} {l : List Nat} (h : Comb n (x :: l)) : Comb n l :=
  ⟨(List.pairwise_cons.1 h.1).2, fun y hy => h.2 y (by simp [hy])⟩

theorem Comb.head {n x : Nat} {l : List Nat} (h : Comb n (x :: l)) : x + (l.length + 1) ≤ n := by
  induction l generalizing x with
  | nil => exact h.2 x (by simp)
  | cons y l ih =>
    have := ih h.tail
    have h1 := (List.pairwise_cons.1 h.1).1 y (by simp)
    simp only [List.length_cons] at *
    omega

/-- The next combination, found from the end. -/
def nextR (n : Nat) : List Nat → Option (List Nat)
  | [] => none
  | x :: l => match nextR n l with
    | some l' => some (x :: l')
    | none => if x < n - (l.length + 1) then some (List.range' (x + 1) (l.length + 1)) else none

theorem nextFrom_eq {n k : Nat} {cv : List Nat} (hlen : cv.length = k) (hk : k ≤ n) (m : Nat) :
    ∀ j, j + m = k → nextFrom n k cv k = match nextR n (cv.drop j) with
      | none => nextFrom n k cv j
      | some r => some (cv.take j ++ r) := by
  induction m with
  | zero =>
    intro j hj
    rw [List.drop_eq_nil_of_le (by omega)]
    have : j = k := by omega
    subst this; rfl
  | succ m ih =>
    intro j hj
    have h1 := ih (j + 1) (by omega)
    have hjl : j < cv.length := by omega
    rw [h1, List.drop_eq_getElem_cons hjl]
    have hd : (cv.drop (j + 1)).length + 1 = k - j := by rw [List.length_drop]; omega
    rw [nextR]
    cases hn : nextR n (cv.drop (j + 1)) with
    | some r =>
      simp only [List.take_succ_eq_append_getElem hjl, List.append_assoc, List.cons_append, List.nil_append]
    | none =>
      simp only [hd]
      rw [nextFrom, List.getElem?_eq_getElem hjl]
      simp only
      have e : n - k + j = n - (k - j) := by omega
      rw [e]
      by_cases hc : cv[j] < n - (k - j)
      · rw [if_pos hc, if_pos hc]
      · rw [if_neg hc, if_neg hc]

theorem nextFrom_nextR {n k : Nat} {cv : List Nat} (hlen : cv.length = k) (hk : k ≤ n) : nextFrom n k cv k = nextR n cv := by
  rw [nextFrom_eq hlen hk k 0 (by omega), List.drop_zero]
  cases nextR n cv with
  | none => rfl
  | some r => simp

theorem lexLe_range' {a n : Nat} {t : List Nat} (ht : Comb n t) (h : ∀ x ∈ t, a ≤ x) : LexLe (List.range' a t.length) t := by
  induction t generalizing a with
  | nil => trivial
  | cons y t ih =>
    simp only [List.length_cons, List.range'_succ]
    rcases Nat.lt_or_eq_of_le (h y (by simp)) with h1 | h1
    · exact .inl h1
    · refine .inr ⟨h1, ih ht.tail fun x hx => ?_⟩
      have := (List.pairwise_cons.1 ht.1).1 x hx
      omega

theorem comb_range' {n a m : Nat} (h : a + m ≤ n) : Comb n (List.range' a m) := by
  refine ⟨List.pairwise_lt_range', fun x hx => ?_⟩
  have := List.mem_range'_1.1 hx
  omega

theorem nextR_none {n : Nat} {l : List Nat} (hl : Comb n l) (h : nextR n l = none) {t : List Nat} (ht : Comb n t) (hlen : t.length = l.length) :
    LexLe t l := by
  induction l generalizing t with
  | nil => cases t <;> trivial
  | cons x l ih =>
    cases t with
    | nil => trivial
    | cons y t =>
      rw [nextR] at h
      cases hn : nextR n l with
      | some r => rw [hn] at h; cases h
      | none =>
        rw [hn] at h
        simp only at h
        split at h
        · cases h
        · have h1 := ht.head
          have hlen' : t.length = l.length := by simpa using hlen
          rcases Nat.lt_or_ge y x with h2 | h2
          · exact .inl h2
          · exact .inr ⟨by omega, ih hl.tail hn ht.tail hlen'⟩

theorem nextR_some {n : Nat} {l l' : List Nat} (hl : Comb n l) (h : nextR n l = some l') :
    l'.length = l.length ∧ Comb n l' ∧ LexLt l l' ∧ ∀ t, Comb n t → t.length = l.length → LexLt l t → LexLe l' t := by
  induction l generalizing l' with
  | nil => cases h
  | cons x l ih =>
    rw [nextR] at h
    cases hn : nextR n l with
    | some r =>
      rw [hn] at h
      simp only [Option.some.injEq] at h
      subst h
      obtain ⟨h1, h2, h3, h4⟩ := ih hl.tail hn
      refine ⟨by simp [h1], ⟨List.pairwise_cons.2 ⟨?_, h2.1⟩, ?_⟩, .inr ⟨rfl, h3⟩, ?_⟩
      · intro y hy
        cases l with
        | nil => cases hn
        | cons z l =>
          cases r with
          | nil => cases hy
          | cons w r =>
            have hz := (List.pairwise_cons.1 hl.1).1 z (by simp)
            have hw : z ≤ w := by
              rcases h3 with h3 | h3
              · omega
              · omega
            rcases List.mem_cons.1 hy with rfl | hy
            · omega
            · have := (List.pairwise_cons.1 h2.1).1 y hy
              omega
      · intro y hy
        rcases List.mem_cons.1 hy with rfl | hy
        · exact hl.2 _ (by simp)
        · exact h2.2 y hy
      · intro t ht hlen hlt
        cases t with
        | nil => trivial
        | cons y t =>
          rcases hlt with hlt | ⟨rfl, hlt⟩
          · exact .inl hlt
          · exact .inr ⟨rfl, h4 t ht.tail (by simpa using hlen) hlt⟩
    | none =>
      rw [hn] at h
      simp only at h
      split at h
      · rename_i hx
        simp only [Option.some.injEq] at h
        subst h
        refine ⟨by simp, comb_range' (by omega), ?_, ?_⟩
        · rw [List.range'_succ]; exact .inl (by omega)
        · intro t ht hlen hlt
          cases t with
          | nil => trivial
          | cons y t =>
            rcases hlt with hlt | ⟨rfl, hlt⟩
            · have := lexLe_range' (a := x + 1) ht (fun z hz => by
                rcases List.mem_cons.1 hz with rfl | hz
                · exact hlt
                · have := (List.pairwise_cons.1 ht.1).1 z hz; omega)
              rw [hlen] at this
              exact this
            · exact (lexLt_asymm hlt (nextR_none hl.tail hn ht.tail (by simpa using hlen))).elim
      · cases h

theorem run_spec {n k : Nat} (hk : k ≤ n) (fuel : Nat) (cv : List Nat) (hlen : cv.length = k) (hcv : Comb n cv)
    (hf : n ^ k ≤ fuel + 1 + rank n cv) :
    (∀ t, t ∈ run n k fuel cv ↔ t.length = k ∧ Comb n t ∧ LexLe cv t) ∧ (run n k fuel cv).Nodup := by
  have hsplit : ∀ t, Comb n t → t.length = k → LexLe cv t → t = cv ∨ LexLt cv t := by
    intro t ht h1 h2
    rcases lexLe_or (l := cv) (t := t) (by omega) with h | h
    · exact .inl (lexLe_antisymm (by omega) h h2)
    · exact .inr h
  have hlast : ∀ t, t = cv → t.length = k ∧ Comb n t ∧ LexLe cv t := by
    rintro t rfl; exact ⟨hlen, hcv, lexLe_refl _⟩
  induction fuel generalizing cv with
  | zero =>
    rw [run]
    refine ⟨fun t => ?_, by simp⟩
    rw [List.mem_singleton]
    refine ⟨hlast t, fun ⟨h1, h2, h3⟩ => ?_⟩
    rcases hsplit t h2 h1 h3 with h | h
    · exact h
    · have := rank_mono (by omega) hcv.2 h
      have h4 := rank_lt h2.2
      rw [h1] at h4
      omega
  | succ fuel ih =>
    rw [run, nextFrom_nextR hlen hk]
    cases hn : nextR n cv with
    | none =>
      refine ⟨fun t => ?_, by simp⟩
      simp only [List.mem_singleton]
      refine ⟨hlast t, fun ⟨h1, h2, h3⟩ => ?_⟩
      exact lexLe_antisymm (by omega) (nextR_none hcv hn h2 (by omega)) h3
    | some cv' =>
      obtain ⟨h1, h2, h3, h4⟩ := nextR_some hcv hn
      have hr := rank_mono h1.symm hcv.2 h3
      have hsplit' : ∀ t, Comb n t → t.length = k → LexLe cv' t → t = cv' ∨ LexLt cv' t := by
        intro t ht h1 h2
        rcases lexLe_or (l := cv') (t := t) (by omega) with h | h
        · exact .inl (lexLe_antisymm (by omega) h h2)
        · exact .inr h
      have := ih cv' (by omega) h2 (by omega) hsplit' (by rintro t rfl; exact ⟨by omega, h2, lexLe_refl _⟩)
      have hle : ∀ t, t.length = k → LexLe cv' t → LexLt cv t := by
        intro t ht h
        rcases lexLe_or (l := cv) (t := t) (by omega) with h' | h'
        · exfalso
          refine lexLt_asymm h3 ?_
          clear this ih hsplit hsplit' hlast h4 hn hf hr hcv h2
          induction cv' generalizing cv t k with
          | nil => cases cv <;> trivial
          | cons x l' ihh =>
            cases cv with
            | nil => trivial
            | cons y l =>
              cases t with
              | nil => simp at hlen ht; omega
              | cons z t =>
                rcases h with h | ⟨rfl, h⟩
                · rcases h' with h' | ⟨rfl, h'⟩
                  · exact .inl (by omega)
                  · exact .inl h
                · rcases h' with h' | ⟨rfl, h'⟩
                  · exact .inl h'
                  · rcases h3 with h3 | ⟨_, h3⟩
                    · omega
                    · exact .inr ⟨rfl, ihh (k := l.length) (by simp at hlen; omega) l rfl (by simpa using h1) h3 t (by simp at hlen ht; omega) h h'⟩
        · exact h'
      refine ⟨fun t => ?_, List.nodup_cons.2 ⟨?_, this.2⟩⟩
      · rw [List.mem_cons, this.1]
        constructor
        · rintro (h | ⟨h, h', h''⟩)
          · exact hlast t h
          · refine ⟨h, h', ?_⟩
            rcases lexLe_or (l := t) (t := cv) (by omega) with h5 | h5
            · exact h5
            · exfalso
              have h6 := hle t h h''
              have := rank_mono (by omega) hcv.2 h6
              have := rank_mono (by omega) h'.2 h5
              omega
        · rintro ⟨h, h', h''⟩
          rcases hsplit t h' h h'' with h5 | h5
          · exact .inl h5
          · exact .inr ⟨h, h', h4 t h' (by omega) h5⟩
      · rw [this.1]
        rintro ⟨_, _, h⟩
        exact lexLt_asymm h3 h

/-- The tuples listed are the strictly increasing ones, each once. -/
theorem generateTuples_spec {k n : Nat} (hk : k ≤ n) :
    (∀ t, t ∈ generateTuples k n ↔ t.length = k ∧ Comb n t) ∧ (generateTuples k n).Nodup := by
  have hr : List.range k = List.range' 0 k := List.range_eq_range'
  have h := run_spec hk (n ^ k) (List.range k) (by simp) (by rw [hr]; exact comb_range' (by omega)) (by omega)
  refine ⟨fun t => ?_, h.2⟩
  rw [generateTuples, h.1]
  constructor
  · rintro ⟨h1, h2, _⟩; exact ⟨h1, h2⟩
  · rintro ⟨h1, h2⟩
    refine ⟨h1, h2, ?_⟩
    have := lexLe_range' (a := 0) h2 (fun _ _ => Nat.zero_le _)
    rw [h1, ← hr] at this
    exact this

end Verif.Iw
