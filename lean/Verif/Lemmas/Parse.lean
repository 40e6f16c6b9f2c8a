import Verif.Model.Parse
import Verif.Lemmas.Milp
import Mathlib.Data.List.Forall2
/-
Lemmas about lines, words and numbers of instance files.
-/
namespace Verif.Parse
open Verif

/-! ### Vocabulary of the statements -/

/-- A line spells the words `ws`: words without white space, separated by white space, with any
white space before the first and after the last. -/
inductive Spells : List (List Char) → List Char → Prop
  | none (s : List Char) : (∀ c ∈ s, isSpace c = true) → Spells [] s
  | word (s w rest : List Char) (ws : List (List Char)) :
      (∀ c ∈ s, isSpace c = true) → w ≠ [] → (∀ c ∈ w, isSpace c = false) → Spells ws rest →
      (∀ c, rest.head? = some c → isSpace c = true) → Spells (w :: ws) (s ++ w ++ rest)

/-- A line that spells at least the words `ws`, with whatever after them. -/
def Begins (ws : List (List Char)) (l : List Char) : Prop :=
  '\n' ∉ l ∧ ∃ more, Spells (ws ++ more) l

/-- An integer in decimal notation. -/
def writeInt (n : Int) : List Char :=
  if n < 0 then '-' :: Nat.toDigits 10 n.natAbs else Nat.toDigits 10 n.natAbs

/-- The last `k` decimal digits of `n`. -/
def lastDigits : Nat → Nat → List Char
  | 0, _ => []
  | k + 1, n => lastDigits k (n / 10) ++ [Nat.digitChar (n % 10)]

/-- The number `± n / 10 ^ k` in decimal notation: with `k` digits after the point, without
point when `k` is zero. -/
def writeDec (neg : Bool) (n k : Nat) : List Char :=
  (if neg then ['-'] else []) ++
    (if k = 0 then Nat.toDigits 10 n else Nat.toDigits 10 (n / 10 ^ k) ++ '.' :: lastDigits k n)

/-- A text writes a rational number in decimal notation. -/
def Writes (w : List Char) (q : Rat) : Prop :=
  ∃ neg n k, w = writeDec neg n k ∧ q = (if neg then -1 else 1) * ((n : Rat) / 10 ^ k)

/-- The text with these lines. -/
def text (ls : List (List Char)) : List Char := ['\n'].intercalate ls

/-! ### Lines -/

theorem linesGo_line {l : List Char} (h : '\n' ∉ l) (cur rest : List Char) :
    linesGo cur (l ++ '\n' :: rest) = (cur ++ l) :: linesGo [] rest := by
  induction l generalizing cur with
  | nil => simp [linesGo]
  | cons c l ih =>
    have hc : c ≠ '\n' := fun e => h (by simp [e])
    have hl : '\n' ∉ l := fun e => h (by simp [e])
    rw [List.cons_append, linesGo, if_neg hc, ih hl]
    simp

theorem linesGo_last {l : List Char} (h : '\n' ∉ l) (cur : List Char) :
    linesGo cur l = [cur ++ l] := by
  induction l generalizing cur with
  | nil => simp [linesGo]
  | cons c l ih =>
    have hc : c ≠ '\n' := fun e => h (by simp [e])
    have hl : '\n' ∉ l := fun e => h (by simp [e])
    rw [linesGo, if_neg hc, ih hl]
    simp

theorem text_cons (l l' : List Char) (ls : List (List Char)) :
    text (l :: l' :: ls) = l ++ '\n' :: text (l' :: ls) := by
  simp [text, List.intercalate, List.intersperse]

theorem pyLines_text {ls : List (List Char)} (hne : ls ≠ []) (h : ∀ l ∈ ls, '\n' ∉ l) :
    pyLines (text ls) = ls := by
  unfold pyLines
  induction ls with
  | nil => exact absurd rfl hne
  | cons l ls ih =>
    cases ls with
    | nil =>
      have : text [l] = l := by simp [text, List.intercalate]
      rw [this, linesGo_last (h l (by simp))]; rfl
    | cons l' ls =>
      rw [text_cons, linesGo_line (h l (by simp)), ih (by simp) (fun x hx => h x (by simp [hx]))]
      rfl

theorem linesGo_ne (cur t : List Char) : linesGo cur t ≠ [] := by
  induction t generalizing cur with
  | nil => simp [linesGo]
  | cons c t ih =>
    unfold linesGo
    split
    · simp
    · exact ih _

/-! ### Words -/

theorem wordsGo_space {s : List Char} (h : ∀ c ∈ s, isSpace c = true) (rest : List Char) :
    wordsGo [] (s ++ rest) = wordsGo [] rest := by
  induction s with
  | nil => rfl
  | cons c s ih =>
    rw [List.cons_append, wordsGo, if_pos (h c (by simp)), if_pos rfl]
    exact ih fun c hc => h c (by simp [hc])

theorem wordsGo_word {w : List Char} (h : ∀ c ∈ w, isSpace c = false) (cur rest : List Char) :
    wordsGo cur (w ++ rest) = wordsGo (cur ++ w) rest := by
  induction w generalizing cur with
  | nil => simp
  | cons c w ih =>
    rw [List.cons_append, wordsGo, if_neg (by simp [h c (by simp)]), ih (fun c hc => h c (by simp [hc]))]
    simp

theorem wordsGo_end {cur : List Char} (hc : cur ≠ []) {rest : List Char}
    (h : ∀ c, rest.head? = some c → isSpace c = true) :
    wordsGo cur rest = cur :: wordsGo [] rest := by
  cases rest with
  | nil => simp [wordsGo, hc]
  | cons c rest =>
    have := h c rfl
    rw [wordsGo, if_pos this, if_neg hc]
    conv => rhs; rw [wordsGo, if_pos this, if_pos rfl]

theorem pyWords_spells {ws : List (List Char)} {l : List Char} (h : Spells ws l) : pyWords l = ws := by
  unfold pyWords
  induction h with
  | none s h =>
    have := wordsGo_space h []
    rw [List.append_nil] at this
    rw [this]; rfl
  | word s w rest ws h1 h2 h3 h4 h5 ih =>
    rw [List.append_assoc, wordsGo_space h1, wordsGo_word h3, List.nil_append, wordsGo_end h2 h5, ih]

theorem spells_space {ws : List (List Char)} {l : List Char} {s : List Char}
    (hs : ∀ c ∈ s, isSpace c = true) (h : Spells ws l) : Spells ws (s ++ l) := by
  cases h with
  | none l h =>
    exact Spells.none _ fun c hc => by
      rcases List.mem_append.1 hc with hc | hc
      · exact hs c hc
      · exact h c hc
  | word s' w rest ws h1 h2 h3 h4 h5 =>
    rw [List.append_assoc, ← List.append_assoc s, ← List.append_assoc]
    exact Spells.word _ _ _ _ (fun c hc => by
      rcases List.mem_append.1 hc with hc | hc
      · exact hs c hc
      · exact h1 c hc) h2 h3 h4 h5

/-- Every line spells its words. -/
theorem spells_pyWords (l : List Char) : Spells (pyWords l) l := by
  have key : ∀ l cur : List Char, (∀ c ∈ cur, isSpace c = false) →
      Spells (wordsGo cur l) (cur ++ l) := by
    intro l
    induction l with
    | nil =>
      intro cur hcur
      unfold wordsGo
      split
      · rename_i h; subst h; exact Spells.none _ (by simp)
      · rename_i h
        have := Spells.word [] cur [] [] (by simp) h hcur (Spells.none _ (by simp)) (by simp)
        simpa using this
    | cons c l ih =>
      intro cur hcur
      unfold wordsGo
      by_cases hc : isSpace c = true
      · rw [if_pos hc]
        have hrest : Spells (wordsGo [] l) (c :: l) := by
          have := spells_space (s := [c]) (by simpa using hc) (ih [] (by simp))
          simpa using this
        split
        · rename_i h; subst h; simpa using hrest
        · rename_i h
          have := Spells.word [] cur (c :: l) _ (by simp) h hcur hrest (by
            intro d hd
            simp only [List.head?_cons, Option.some.injEq] at hd
            exact hd ▸ hc)
          simpa using this
      · rw [if_neg hc]
        have := ih (cur ++ [c]) (by
          intro d hd
          rcases List.mem_append.1 hd with hd | hd
          · exact hcur d hd
          · simp only [List.mem_singleton] at hd; subst hd; simpa using hc)
        simpa using this
  simpa [pyWords] using key l [] (by simp)

/-! ### Numbers -/

theorem digit_not_space {c : Char} (h : c.isDigit = true) : isSpace c = false := by
  unfold isSpace
  simp only [Char.isDigit, Bool.and_eq_true, decide_eq_true_eq] at h
  simp only [Bool.or_eq_false_iff, decide_eq_false_iff_not]
  refine ⟨⟨⟨⟨⟨⟨⟨⟨⟨?_, ?_⟩, ?_⟩, ?_⟩, ?_⟩, ?_⟩, ?_⟩, ?_⟩, ?_⟩, ?_⟩ <;>
    (intro e; subst e; revert h; decide)

theorem digits_isDigit {n : Nat} {c : Char} (h : c ∈ Nat.toDigits 10 n) : c.isDigit = true :=
  Nat.isDigit_of_mem_toDigits (by decide) (by decide) h

theorem writeInt_ne (n : Int) : writeInt n ≠ [] := by
  unfold writeInt
  split
  · simp
  · exact Nat.toDigits_ne_nil

theorem writeInt_not_space {n : Int} {c : Char} (h : c ∈ writeInt n) : isSpace c = false := by
  unfold writeInt at h
  split at h
  · rcases List.mem_cons.1 h with h | h
    · subst h; decide
    · exact digit_not_space (digits_isDigit h)
  · exact digit_not_space (digits_isDigit h)

theorem dropWhile_none {s : List Char} (h : ∀ c ∈ s, isSpace c = false) : s.dropWhile isSpace = s := by
  cases s with
  | nil => rfl
  | cons c s => rw [List.dropWhile_cons_of_neg]; simp [h c (by simp)]

theorem strip_none {s : List Char} (h : ∀ c ∈ s, isSpace c = false) : strip s = s := by
  unfold strip
  rw [dropWhile_none h, dropWhile_none (fun c hc => h c (List.mem_reverse.1 hc)), List.reverse_reverse]

theorem dropWhile_space {s t : List Char} (h : ∀ c ∈ s, isSpace c = true) :
    (s ++ t).dropWhile isSpace = t.dropWhile isSpace := by
  induction s with
  | nil => rfl
  | cons c s ih =>
    rw [List.cons_append, List.dropWhile_cons_of_pos (h c (by simp))]
    exact ih fun c hc => h c (by simp [hc])

/-- A line with one word is stripped to this word. -/
theorem strip_spells {w l : List Char} (h : Spells [w] l) : strip l = w := by
  cases h with
  | word s w rest ws h1 h2 h3 h4 h5 =>
    cases h4 with
    | none _ h4 =>
      unfold strip
      rw [List.append_assoc, dropWhile_space h1]
      have e1 : (w ++ rest).dropWhile isSpace = w ++ rest := by
        cases w with
        | nil => exact absurd rfl h2
        | cons c w => rw [List.cons_append, List.dropWhile_cons_of_neg]; simp [h3 c (by simp)]
      rw [e1, List.reverse_append, dropWhile_space (fun c hc => h4 c (List.mem_reverse.1 hc)),
        dropWhile_none (fun c hc => h3 c (List.mem_reverse.1 hc)), List.reverse_reverse]

theorem signed_digits {s : List Char} (h : ∀ c, s.head? = some c → c.isDigit = true) :
    signed s = (false, s) := by
  unfold signed
  split
  · exact absurd (h _ rfl) (by decide)
  · exact absurd (h _ rfl) (by decide)
  · rfl

theorem pyNat_digits (n : Nat) : pyNat (Nat.toDigits 10 n) = .ok n := by
  unfold pyNat
  rw [if_neg Nat.toDigits_ne_nil, if_pos, Nat.ofDigitChars_ten_toDigits]
  rw [List.all_eq_true]
  exact fun c hc => digits_isDigit hc

theorem head_digits (n : Nat) (c : Char) (h : (Nat.toDigits 10 n).head? = some c) : c.isDigit = true :=
  digits_isDigit (List.mem_of_mem_head? h)

theorem pyInt_write (n : Int) : pyInt (writeInt n) = .ok n := by
  unfold pyInt
  rw [strip_none fun c => writeInt_not_space]
  unfold writeInt
  by_cases h : n < 0
  · simp only [if_pos h, signed, pyNat_digits, bind_ok, if_true]
    congr 1; omega
  · simp only [if_neg h, signed_digits (head_digits _), pyNat_digits, bind_ok]
    simp only [Bool.false_eq_true, if_false]
    congr 1; omega

theorem pyInt_line {n : Int} {l : List Char} (h : Spells [writeInt n] l) : pyInt l = .ok n := by
  have := pyInt_write n
  unfold pyInt at this ⊢
  rwa [strip_spells h, ← strip_none (s := writeInt n) fun c => writeInt_not_space]

theorem lastDigits_length (k n : Nat) : (lastDigits k n).length = k := by
  induction k generalizing n with
  | zero => rfl
  | succ k ih => simp [lastDigits, ih]

theorem digitChar_isDigit {n : Nat} (h : n < 10) : (Nat.digitChar n).isDigit = true := by
  have : ∀ n, n < 10 → (Nat.digitChar n).isDigit = true := by decide
  exact this n h

theorem lastDigits_isDigit {k n : Nat} {c : Char} (h : c ∈ lastDigits k n) : c.isDigit = true := by
  induction k generalizing n with
  | zero => cases h
  | succ k ih =>
    rcases List.mem_append.1 h with h | h
    · exact ih h
    · simp only [List.mem_singleton] at h; subst h
      exact digitChar_isDigit (Nat.mod_lt _ (by decide))

theorem ofDigitChars_snoc (l : List Char) (c : Char) (a : Nat) :
    Nat.ofDigitChars 10 (l ++ [c]) a = 10 * Nat.ofDigitChars 10 l a + (c.toNat - '0'.toNat) := by
  induction l generalizing a with
  | nil => simp [Nat.ofDigitChars]
  | cons d l ih => simp [Nat.ofDigitChars]

theorem digitChar_value {n : Nat} (h : n < 10) : (Nat.digitChar n).toNat - '0'.toNat = n := by
  have : ∀ n, n < 10 → (Nat.digitChar n).toNat - '0'.toNat = n := by decide
  exact this n h

theorem value_digits (k n : Nat) :
    Nat.ofDigitChars 10 (Nat.toDigits 10 (n / 10 ^ k) ++ lastDigits k n) 0 = n := by
  induction k generalizing n with
  | zero => simp [lastDigits, Nat.ofDigitChars_ten_toDigits]
  | succ k ih =>
    rw [lastDigits, ← List.append_assoc, ofDigitChars_snoc,
      digitChar_value (Nat.mod_lt _ (by decide))]
    have : n / 10 ^ (k + 1) = (n / 10) / 10 ^ k := by
      rw [Nat.pow_succ', ← Nat.div_div_eq_div_mul]
    rw [this, ih]
    omega

theorem dot_not_digit {c : Char} (h : c.isDigit = true) : c ≠ '.' := by
  intro e; subst e; revert h; decide

theorem span_dot {w f : List Char} (h : ∀ c ∈ w, c.isDigit = true) :
    (w ++ '.' :: f).takeWhile (· ≠ '.') = w ∧ (w ++ '.' :: f).dropWhile (· ≠ '.') = '.' :: f := by
  have h' : ∀ c ∈ w, decide (c ≠ '.') = true := fun c hc => by simpa using dot_not_digit (h c hc)
  constructor
  · rw [List.takeWhile_append_of_pos h']; simp
  · rw [List.dropWhile_append_of_pos h']; simp

theorem span_nodot {w : List Char} (h : ∀ c ∈ w, c.isDigit = true) :
    w.takeWhile (· ≠ '.') = w ∧ w.dropWhile (· ≠ '.') = [] := by
  have h' : ∀ c ∈ w, decide (c ≠ '.') = true := fun c hc => by simpa using dot_not_digit (h c hc)
  constructor
  · have := List.takeWhile_append_of_pos (l₂ := []) h'; simpa using this
  · have := List.dropWhile_append_of_pos (l₂ := []) h'; simpa using this

theorem pyDecimal_write (n k : Nat) :
    pyDecimal (if k = 0 then Nat.toDigits 10 n else Nat.toDigits 10 (n / 10 ^ k) ++ '.' :: lastDigits k n)
      = .ok ((n : Rat) / 10 ^ k) := by
  unfold pyDecimal
  by_cases hk : k = 0
  · subst hk
    obtain ⟨e1, e2⟩ := span_nodot (w := Nat.toDigits 10 n) (fun c => digits_isDigit)
    simp only [if_pos, e1, e2, pyNat_digits, bind_ok]
    rw [Rat.div_def, Rat.pow_zero]
    rw [show (1 : Rat)⁻¹ = 1 by decide +kernel, Rat.mul_one]
  · obtain ⟨e1, e2⟩ := span_dot (w := Nat.toDigits 10 (n / 10 ^ k)) (f := lastDigits k n) (fun c => digits_isDigit)
    have : pyNat (Nat.toDigits 10 (n / 10 ^ k) ++ lastDigits k n) = .ok n := by
      unfold pyNat
      rw [if_neg (by simp [Nat.toDigits_ne_nil]), if_pos, value_digits]
      rw [List.all_eq_true]
      intro c hc
      rcases List.mem_append.1 hc with hc | hc
      · exact digits_isDigit hc
      · exact lastDigits_isDigit hc
    simp only [if_neg hk, e1, e2, this, bind_ok, lastDigits_length]

theorem writeDec_body (n k : Nat) (c : Char)
    (h : c ∈ (if k = 0 then Nat.toDigits 10 n else Nat.toDigits 10 (n / 10 ^ k) ++ '.' :: lastDigits k n)) :
    isSpace c = false := by
  split at h
  · exact digit_not_space (digits_isDigit h)
  · rcases List.mem_append.1 h with h | h
    · exact digit_not_space (digits_isDigit h)
    · rcases List.mem_cons.1 h with h | h
      · subst h; decide
      · exact digit_not_space (lastDigits_isDigit h)

theorem writeDec_head (n k : Nat) (c : Char)
    (h : (if k = 0 then Nat.toDigits 10 n else Nat.toDigits 10 (n / 10 ^ k) ++ '.' :: lastDigits k n).head? = some c) :
    c.isDigit = true := by
  split at h
  · exact head_digits _ _ h
  · have hne : Nat.toDigits 10 (n / 10 ^ k) ≠ [] := Nat.toDigits_ne_nil
    cases hd : Nat.toDigits 10 (n / 10 ^ k) with
    | nil => exact absurd hd hne
    | cons d ds =>
      rw [hd, List.cons_append, List.head?_cons] at h
      exact head_digits (n / 10 ^ k) c (by rw [hd]; exact h)

theorem pyFloat_writes {w : List Char} {q : Rat} (h : Writes w q) : pyFloat w = .ok q := by
  obtain ⟨neg, n, k, rfl, rfl⟩ := h
  unfold pyFloat
  have hsp : ∀ c ∈ writeDec neg n k, isSpace c = false := by
    intro c hc
    unfold writeDec at hc
    rcases List.mem_append.1 hc with hc | hc
    · split at hc
      · simp only [List.mem_singleton] at hc; subst hc; decide
      · cases hc
    · exact writeDec_body n k c hc
  rw [strip_none hsp]
  unfold writeDec
  cases neg with
  | true =>
    simp only [if_true, List.singleton_append, signed, pyDecimal_write, bind_ok]
    congr 1; rw [Rat.neg_mul, Rat.one_mul]
  | false =>
    simp only [Bool.false_eq_true, if_false, List.nil_append, signed_digits (writeDec_head n k),
      pyDecimal_write, bind_ok, Rat.one_mul]

/-! ### Reading a line -/

theorem begins_words {ws : List (List Char)} {l : List Char} (h : Begins ws l) :
    ∃ more, pyWords l = ws ++ more := by
  obtain ⟨_, more, h⟩ := h
  exact ⟨more, pyWords_spells h⟩

theorem pyAt_nat {α : Type} (l : List α) (n : Nat) : pyAt l (n : Int) = pyGet l n := by
  unfold pyAt; rw [if_pos (by omega)]; simp

theorem pyGet_some {α : Type} {l : List α} {n : Nat} {x : α} (h : l[n]? = some x) : pyGet l n = .ok x := by
  unfold pyGet; rw [h]

theorem pyGet_none {α : Type} {l : List α} {n : Nat} (h : l.length ≤ n) : pyGet l n = .error .indexError := by
  unfold pyGet; rw [List.getElem?_eq_none h]

theorem wordsAt_nat {lines : List (List Char)} {n : Nat} {l : List Char} (h : lines[n]? = some l) :
    wordsAt lines (n : Int) = .ok (pyWords l) := by
  unfold wordsAt; rw [pyAt_nat, pyGet_some h, bind_ok]

theorem wordsAt_none {lines : List (List Char)} {n : Nat} (h : lines.length ≤ n) :
    wordsAt lines (n : Int) = .error .indexError := by
  unfold wordsAt; rw [pyAt_nat, pyGet_none h, bind_error]

theorem intAt_write {ws : List (List Char)} {k : Nat} {n : Int} (h : ws[k]? = some (writeInt n)) :
    intAt ws k = .ok n := by
  unfold intAt; rw [pyGet_some h, bind_ok, pyInt_write]

theorem floatAt_writes {ws : List (List Char)} {k : Nat} {w : List Char} {q : Rat}
    (h : ws[k]? = some w) (hw : Writes w q) : floatAt ws k = .ok q := by
  unfold floatAt; rw [pyGet_some h, bind_ok, pyFloat_writes hw]

theorem pyRange_nat (a n : Nat) :
    pyRange (a : Int) ((a : Int) + (n : Int)) = (List.range n).map (fun (k : Nat) => ((a + k : Nat) : Int)) := by
  unfold pyRange
  have : ((a : Int) + (n : Int) - (a : Int)).toNat = n := by omega
  rw [this]
  apply List.map_congr_left
  intro k _
  omega

theorem pyRange_one (n : Nat) :
    pyRange 1 ((n : Int) + 1) = pyRange ((1 : Nat) : Int) (((1 : Nat) : Int) + (n : Int)) := by
  congr 1; omega

theorem mapE_map {α β γ : Type} (f : β → Except PyErr γ) (g : α → β) (l : List α) :
    Milp.mapE f (l.map g) = Milp.mapE (fun x => f (g x)) l := by
  induction l with
  | nil => rfl
  | cons x l ih => simp only [List.map_cons, Milp.mapE, ih]

/-- A loop over numbers that returns the elements of a list one after the other. -/
theorem mapE_range {α : Type} {f : Nat → Except PyErr α} {ys : List α}
    (h : ∀ k y, ys[k]? = some y → f k = .ok y) :
    Milp.mapE f (List.range ys.length) = .ok ys := by
  induction ys generalizing f with
  | nil => rfl
  | cons y ys ih =>
    rw [List.length_cons, List.range_succ_eq_map]
    have h0 := h 0 y rfl
    have h1 := ih (f := fun k => f (k + 1)) fun k z hz => h (k + 1) z (by simpa using hz)
    simp only [Milp.mapE, h0, bind_ok]
    rw [mapE_map, h1, bind_ok]

theorem forall₂_at {α β : Type} {R : α → β → Prop} {xs : List α} {ys : List β} (h : List.Forall₂ R xs ys) :
    ∀ (k : Nat) x, xs[k]? = some x → ∃ y, ys[k]? = some y ∧ R x y := by
  induction h with
  | nil => intro k x hx; simp at hx
  | cons hr _ ih =>
    intro k x hx
    cases k with
    | zero => simp only [List.getElem?_cons_zero, Option.some.injEq] at hx; subst hx; exact ⟨_, rfl, hr⟩
    | succ k => exact ih k x (by simpa using hx)

/-- A loop over numbers that fails at one of them. -/
theorem mapE_range_error {α : Type} {f : Nat → Except PyErr α} {e : PyErr} {m n : Nat} (hm : m < n)
    (h : ∀ k, k < m → ∃ y, f k = .ok y) (he : f m = .error e) :
    Milp.mapE f (List.range n) = .error e := by
  induction n generalizing f m with
  | zero => omega
  | succ n ih =>
    rw [List.range_succ_eq_map]
    cases m with
    | zero => simp only [Milp.mapE, he, bind_error]
    | succ m =>
      obtain ⟨y, hy⟩ := h 0 (by omega)
      simp only [Milp.mapE, hy, bind_ok]
      rw [mapE_map, ih (m := m) (by omega) (fun k hk => h (k + 1) (by omega)) he, bind_error]

/-- The lines of a text that begins with known lines. -/
theorem lines_of {head : List Char} {body rest : List (List Char)}
    (h1 : '\n' ∉ head) (h2 : ∀ l ∈ body, '\n' ∉ l) (h3 : ∀ l ∈ rest, '\n' ∉ l) :
    pyLines (text (head :: (body ++ rest))) = head :: (body ++ rest) := by
  apply pyLines_text (by simp)
  intro l hl
  rcases List.mem_cons.1 hl with rfl | hl
  · exact h1
  · rcases List.mem_append.1 hl with hl | hl
    · exact h2 l hl
    · exact h3 l hl

theorem forall₂_right {α β : Type} {R : α → β → Prop} {xs : List α} {ys : List β} (h : List.Forall₂ R xs ys) :
    ∀ y ∈ ys, ∃ x ∈ xs, R x y := by
  induction h with
  | nil => simp
  | cons hr _ ih =>
    intro y hy
    rcases List.mem_cons.1 hy with rfl | hy
    · exact ⟨_, by simp, hr⟩
    · obtain ⟨x, hx, hxy⟩ := ih y hy; exact ⟨x, by simp [hx], hxy⟩

theorem at_body {head : List Char} {body rest : List (List Char)} {k : Nat} {l : List Char}
    (h : body[k]? = some l) : (head :: (body ++ rest))[1 + k]? = some l := by
  have hk := (List.getElem?_eq_some_iff.1 h).1
  rw [show 1 + k = k + 1 by omega, List.getElem?_cons_succ, List.getElem?_append_left hk, h]

/-- A loop over lines that reads one element from each. -/
theorem loop_ok {β : Type} {lines : List (List Char)} {a : Nat} {ys : List β}
    {g : Int → List (List Char) → Except PyErr β}
    (h : ∀ k y, ys[k]? = some y → ∃ l, lines[a + k]? = some l ∧ g ((a + k : Nat) : Int) (pyWords l) = .ok y) :
    Milp.mapE (fun i => wordsAt lines i >>= g i) (pyRange (a : Int) ((a : Int) + (ys.length : Int))) = .ok ys := by
  rw [pyRange_nat, mapE_map]
  apply mapE_range
  intro k y hy
  obtain ⟨l, hl, hg⟩ := h k y hy
  rw [wordsAt_nat hl, bind_ok, hg]

/-- A loop over lines that fails at one of them. -/
theorem loop_error {β : Type} {lines : List (List Char)} {a m n : Nat} {e : PyErr}
    {g : Int → List (List Char) → Except PyErr β} (hm : m < n)
    (h : ∀ k, k < m → ∃ y l, lines[a + k]? = some l ∧ g ((a + k : Nat) : Int) (pyWords l) = .ok y)
    (he : (wordsAt lines ((a + m : Nat) : Int) >>= g ((a + m : Nat) : Int)) = .error e) :
    Milp.mapE (fun i => wordsAt lines i >>= g i) (pyRange (a : Int) ((a : Int) + (n : Int))) = .error e := by
  rw [pyRange_nat, mapE_map]
  refine mapE_range_error hm ?_ he
  intro k hk
  obtain ⟨y, l, hl, hg⟩ := h k hk
  exact ⟨y, by rw [wordsAt_nat hl, bind_ok, hg]⟩

end Verif.Parse
