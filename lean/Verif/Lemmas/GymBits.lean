import Verif.Lemmas.Gym
import Mathlib.Data.List.Nodup

/-! Helper lemmas about the bit vectors, the proxies and the discrete actions of Gym domains. -/
namespace Verif.Gym

/-! ### Binary digits -/

/-- The number that a list of binary digits stands for. -/
def value (l : List Bool) : Nat := l.foldl (fun a b => 2 * a + b.toNat) 0

theorem foldl_false (k : Nat) (l : List Bool) : value (List.replicate k false ++ l) = value l := by
  unfold value
  rw [List.foldl_append]
  congr 1
  induction k with
  | zero => rfl
  | succ k ih => rw [List.replicate_succ, List.foldl_cons]; exact ih

theorem digits_value (l : List Nat) (h : ∀ d ∈ l, d < 2) :
    (l.map (· == 1)).foldr (fun b a => 2 * a + b.toNat) 0 = Nat.ofDigits 2 l := by
  induction l with
  | nil => rfl
  | cons d l ih =>
    rw [List.map_cons, List.foldr_cons, ih (fun d hd => h d (List.mem_cons_of_mem _ hd)), Nat.ofDigits_cons]
    have := h d List.mem_cons_self
    rcases (by omega : d = 0 ∨ d = 1) with rfl | rfl <;> simp <;> omega

theorem value_bits (n : Nat) : value (bits n) = n := by
  unfold bits
  split
  · next h => subst h; rfl
  · unfold value
    rw [List.foldl_reverse, digits_value _ (fun d hd => Nat.digits_lt_base (by omega) hd), Nat.ofDigits_digits]

theorem value_pad (len n : Nat) : value (pad len (bits n)) = n := by
  rw [pad, foldl_false, value_bits]

theorem bits_length_pos (n : Nat) : 0 < (bits n).length := by
  unfold bits
  split
  · simp
  · next h => simpa using List.length_pos_iff.mpr (Nat.digits_ne_nil_iff_ne_zero.mpr h)

theorem bits_length_mono {n m : Nat} (h : n ≤ m) : (bits n).length ≤ (bits m).length := by
  by_cases hn : n = 0
  · subst hn
    exact bits_length_pos m
  · have hm : m ≠ 0 := by omega
    simp only [bits, hn, hm, if_false, List.length_reverse, List.length_map]
    exact Nat.le_length_digits_le 2 n m h

theorem pad_length {len : Nat} {l : List Bool} (h : l.length ≤ len) : (pad len l).length = len := by
  simp [pad]
  omega

theorem intBits_length {n : Nat} {e : Int} (h0 : 0 ≤ e) (h : e < n) : (intBits n e).length = (bits (n - 1)).length :=
  pad_length (bits_length_mono (by omega))

theorem intBits_inj {n : Nat} {e e' : Int} (h0 : 0 ≤ e) (h0' : 0 ≤ e') (h : intBits n e = intBits n e') : e = e' := by
  have := congrArg value h
  rw [intBits, intBits, value_pad, value_pad] at this
  omega

/-! ### Cells of boxes -/

theorem inf_length : (bits 0x7f800000).length = 31 := by decide +kernel

/-- All patterns but that of negative zero. -/
def Plain (u : Nat) : Prop := u < 2 ^ 32 ∧ u ≠ 2 ^ 31

theorem bits_length_lt {n : Nat} (h : n < 2 ^ 31) : (bits n).length ≤ 31 := by
  have h1 : (bits n).length ≤ (bits (2 ^ 31 - 1)).length := bits_length_mono (by omega)
  have h2 : (bits (2 ^ 31 - 1)).length = 31 := by decide +kernel
  omega

theorem signed_natAbs {u : Nat} (h : Plain u) : (signed u).natAbs < 2 ^ 31 := by
  obtain ⟨h1, h2⟩ := h
  unfold signed
  split <;> omega

theorem cellBits_length {u : Nat} (h : Plain u) : (cellBits u).length = 32 := by
  unfold cellBits
  rw [inf_length, List.length_cons, pad_length (bits_length_lt (signed_natAbs h))]

theorem cellBits_inj {u v : Nat} (hu : u < 2 ^ 32) (hv : v < 2 ^ 32) (h : cellBits u = cellBits v) : u = v := by
  unfold cellBits at h
  simp only [List.cons.injEq] at h
  obtain ⟨hs, hp⟩ := h
  have ha := congrArg value hp
  rw [value_pad, value_pad] at ha
  have hs' : signed u < 0 ↔ signed v < 0 := by
    constructor
    · intro h; have := hs ▸ decide_eq_true h; exact of_decide_eq_true this
    · intro h; have := hs ▸ decide_eq_true h; exact of_decide_eq_true this
  have he : signed u = signed v := by omega
  unfold signed at he
  split at he <;> split at he <;> omega

theorem flatMap_length {l : List Nat} (h : ∀ c ∈ l, Plain c) : (l.flatMap cellBits).length = 32 * l.length := by
  induction l with
  | nil => rfl
  | cons c l ih =>
    rw [List.flatMap_cons, List.length_append, cellBits_length (h c List.mem_cons_self),
      ih (fun c hc => h c (List.mem_cons_of_mem _ hc)), List.length_cons]
    omega

theorem flatMap_inj {l m : List Nat} (hl : ∀ c ∈ l, Plain c) (hm : ∀ c ∈ m, Plain c) (hlen : l.length = m.length)
    (h : l.flatMap cellBits = m.flatMap cellBits) : l = m := by
  induction l generalizing m with
  | nil => exact (List.length_eq_zero_iff.mp hlen.symm).symm
  | cons c l ih =>
    cases m with
    | nil => simp at hlen
    | cons d m =>
      rw [List.flatMap_cons, List.flatMap_cons] at h
      obtain ⟨h1, h2⟩ := List.append_inj h (by
        rw [cellBits_length (hl c List.mem_cons_self), cellBits_length (hm d List.mem_cons_self)])
      rw [cellBits_inj (hl c List.mem_cons_self).1 (hm d List.mem_cons_self).1 h1,
        ih (fun c hc => hl c (List.mem_cons_of_mem _ hc)) (fun c hc => hm c (List.mem_cons_of_mem _ hc)) (by simpa using hlen) h2]

theorem intsBits_ok {nv : List Nat} {l : List Int} (h : List.Forall₂ (fun (n : Nat) (e : Int) => 0 ≤ e ∧ e < n) nv l) :
    ∃ fs, intsBits nv l = .ok fs ∧ fs.length = (nv.map (fun n => (bits (n - 1)).length)).sum := by
  induction h with
  | nil => exact ⟨[], rfl, rfl⟩
  | @cons n e nv l h1 _ ih =>
    obtain ⟨fs, e', hl⟩ := ih
    refine ⟨intBits n e ++ fs, by simp only [intsBits, e'], ?_⟩
    rw [List.length_append, intBits_length h1.1 h1.2, hl]
    simp

theorem intsBits_inj {nv : List Nat} {l m : List Int} (hl : List.Forall₂ (fun (n : Nat) (e : Int) => 0 ≤ e ∧ e < n) nv l)
    (hm : List.Forall₂ (fun (n : Nat) (e : Int) => 0 ≤ e ∧ e < n) nv m) (h : intsBits nv l = intsBits nv m) : l = m := by
  induction hl generalizing m with
  | nil => cases hm; rfl
  | @cons n e nv l h1 hr ih =>
    cases hm with
    | @cons _ e' _ m h1' hr' =>
      obtain ⟨f1, e1, -⟩ := intsBits_ok hr
      obtain ⟨f2, e2, -⟩ := intsBits_ok hr'
      simp only [intsBits, e1, e2, Except.ok.injEq] at h
      obtain ⟨a, b⟩ := List.append_inj h (by rw [intBits_length h1.1 h1.2, intBits_length h1'.1 h1'.2])
      rw [intBits_inj h1.1 h1'.1 a, ih hr' (by rw [e1, e2, b])]

mutual
/-- The number of bits of the elements of a space. -/
def width : Space → Nat
  | .box _ b => 32 * b.length
  | .discrete n => (bits (n - 1)).length
  | .multiDiscrete nv => (nv.map (fun n => (bits (n - 1)).length)).sum
  | .multiBinary n => n
  | .tuple sp => widthL sp
  | .dict _ sp => widthL sp
/-- Summed up. -/
def widthL : List Space → Nat
  | [] => 0
  | s :: sp => width s + widthL sp
end

mutual
/-- No dictionaries with keys and no boxes without cells. -/
def encodable : Space → Bool
  | .box _ b => decide (0 < b.length)
  | .tuple sp => encodableL sp
  | .dict ks _ => ks.isEmpty
  | _ => true
/-- All of them. -/
def encodableL : List Space → Bool
  | [] => true
  | s :: sp => encodable s && encodableL sp
end

mutual
theorem binary_ok : (s : Space) → (e : Elem Nat) → Fits Plain s e → encodable s = true →
    ∃ fs, binary s e = .ok fs ∧ fs.length = width s
  | .box _ b, .array l, hf, ho => by
    simp only [Fits] at hf
    simp only [encodable, decide_eq_true_eq] at ho
    refine ⟨l.flatMap cellBits, by simp only [binary]; rw [if_neg (by omega)], ?_⟩
    rw [flatMap_length hf.2, hf.1, width]
  | .discrete n, .int e, hf, _ => by
    simp only [Fits] at hf
    exact ⟨intBits n e, rfl, by rw [intBits_length hf.1 hf.2, width]⟩
  | .multiDiscrete nv, .ints l, hf, _ => by
    simp only [Fits] at hf
    simpa only [binary, width] using intsBits_ok hf
  | .multiBinary n, .ints l, hf, _ => by
    simp only [Fits] at hf
    exact ⟨l.map (fun b => decide (b ≠ 0)), rfl, by rw [List.length_map, hf.1, width]⟩
  | .tuple sp, .tuple l, hf, ho => by
    simpa only [binary, width] using binaryL_ok sp l (by simpa only [Fits] using hf) (by simpa only [encodable] using ho)
  | .dict ks sp, .dict ks' l, hf, ho => by
    simp only [encodable, List.isEmpty_iff] at ho
    simp only [Fits] at hf
    subst ho
    obtain rfl : sp = [] := by simpa using hf.2.1.symm
    exact ⟨[], rfl, by simp [width, widthL]⟩
  | .box _ _, .int _, hf, _ => by simp [Fits] at hf
  | .box _ _, .ints _, hf, _ => by simp [Fits] at hf
  | .box _ _, .tuple _, hf, _ => by simp [Fits] at hf
  | .box _ _, .dict _ _, hf, _ => by simp [Fits] at hf
  | .discrete _, .array _, hf, _ => by simp [Fits] at hf
  | .discrete _, .ints _, hf, _ => by simp [Fits] at hf
  | .discrete _, .tuple _, hf, _ => by simp [Fits] at hf
  | .discrete _, .dict _ _, hf, _ => by simp [Fits] at hf
  | .multiDiscrete _, .array _, hf, _ => by simp [Fits] at hf
  | .multiDiscrete _, .int _, hf, _ => by simp [Fits] at hf
  | .multiDiscrete _, .tuple _, hf, _ => by simp [Fits] at hf
  | .multiDiscrete _, .dict _ _, hf, _ => by simp [Fits] at hf
  | .multiBinary _, .array _, hf, _ => by simp [Fits] at hf
  | .multiBinary _, .int _, hf, _ => by simp [Fits] at hf
  | .multiBinary _, .tuple _, hf, _ => by simp [Fits] at hf
  | .multiBinary _, .dict _ _, hf, _ => by simp [Fits] at hf
  | .tuple _, .array _, hf, _ => by simp [Fits] at hf
  | .tuple _, .int _, hf, _ => by simp [Fits] at hf
  | .tuple _, .ints _, hf, _ => by simp [Fits] at hf
  | .tuple _, .dict _ _, hf, _ => by simp [Fits] at hf
  | .dict _ _, .array _, hf, _ => by simp [Fits] at hf
  | .dict _ _, .int _, hf, _ => by simp [Fits] at hf
  | .dict _ _, .ints _, hf, _ => by simp [Fits] at hf
  | .dict _ _, .tuple _, hf, _ => by simp [Fits] at hf
theorem binaryL_ok : (sp : List Space) → (l : List (Elem Nat)) → FitsL Plain sp l → encodableL sp = true →
    ∃ fs, binaryL sp l = .ok fs ∧ fs.length = widthL sp
  | [], _, _, _ => ⟨[], by simp only [binaryL], by simp [widthL]⟩
  | _ :: _, [], hf, _ => by simp [FitsL] at hf
  | s :: sp, e :: l, hf, ho => by
    simp only [FitsL] at hf
    simp only [encodableL, Bool.and_eq_true] at ho
    obtain ⟨f1, e1, l1⟩ := binary_ok s e hf.1 ho.1
    obtain ⟨f2, e2, l2⟩ := binaryL_ok sp l hf.2 ho.2
    exact ⟨f1 ++ f2, by simp only [binaryL, e1, e2], by simp only [widthL, List.length_append, l1, l2]⟩
end

theorem bools_inj {l m : List Int} (hl : ∀ e ∈ l, e = 0 ∨ e = 1) (hm : ∀ e ∈ m, e = 0 ∨ e = 1)
    (h : l.map (fun b => decide (b ≠ 0)) = m.map (fun b => decide (b ≠ 0))) : l = m := by
  induction l generalizing m with
  | nil => simpa using h.symm
  | cons a l ih =>
    cases m with
    | nil => simp at h
    | cons b m =>
      simp only [List.map_cons, List.cons.injEq] at h
      rw [ih (fun e he => hl e (List.mem_cons_of_mem _ he)) (fun e he => hm e (List.mem_cons_of_mem _ he)) h.2]
      congr 1
      rcases hl a List.mem_cons_self with rfl | rfl <;> rcases hm b List.mem_cons_self with rfl | rfl <;> simp at h ⊢

mutual
theorem binary_inj : (s : Space) → (e e' : Elem Nat) → Fits Plain s e → Fits Plain s e' → encodable s = true →
    binary s e = binary s e' → e = e'
  | .box _ b, .array l, .array m, hf, hf', ho, h => by
    simp only [Fits] at hf hf'
    simp only [encodable, decide_eq_true_eq] at ho
    simp only [binary] at h
    rw [if_neg (by omega), if_neg (by omega)] at h
    rw [flatMap_inj hf.2 hf'.2 (hf.1.trans hf'.1.symm) (by simpa using h)]
  | .discrete n, .int e, .int e', hf, hf', _, h => by
    simp only [Fits] at hf hf'
    simp only [binary, Except.ok.injEq] at h
    rw [intBits_inj hf.1 hf'.1 h]
  | .multiDiscrete nv, .ints l, .ints m, hf, hf', _, h => by
    simp only [Fits] at hf hf'
    simp only [binary] at h
    rw [intsBits_inj hf hf' h]
  | .multiBinary n, .ints l, .ints m, hf, hf', _, h => by
    simp only [Fits] at hf hf'
    simp only [binary, Except.ok.injEq] at h
    congr 1
    exact bools_inj hf.2 hf'.2 h
  | .tuple sp, .tuple l, .tuple m, hf, hf', ho, h => by
    simp only [Fits] at hf hf'
    simp only [encodable] at ho
    simp only [binary] at h
    rw [binaryL_inj sp l m hf hf' ho h]
  | .dict ks sp, .dict k1 l, .dict k2 m, hf, hf', ho, h => by
    simp only [encodable, List.isEmpty_iff] at ho
    simp only [Fits] at hf hf'
    obtain rfl : sp = [] := by simpa [ho] using hf.2.1.symm
    rw [hf.1, hf'.1]
    cases l with
    | cons _ _ => simp [FitsL] at hf
    | nil =>
      cases m with
      | cons _ _ => simp [FitsL] at hf'
      | nil => rfl
  | .box _ _, .int _, _, hf, _, _, _ => by simp [Fits] at hf
  | .box _ _, .ints _, _, hf, _, _, _ => by simp [Fits] at hf
  | .box _ _, .tuple _, _, hf, _, _, _ => by simp [Fits] at hf
  | .box _ _, .dict _ _, _, hf, _, _, _ => by simp [Fits] at hf
  | .box _ _, .array _, .int _, _, hf, _, _ => by simp [Fits] at hf
  | .box _ _, .array _, .ints _, _, hf, _, _ => by simp [Fits] at hf
  | .box _ _, .array _, .tuple _, _, hf, _, _ => by simp [Fits] at hf
  | .box _ _, .array _, .dict _ _, _, hf, _, _ => by simp [Fits] at hf
  | .discrete _, .array _, _, hf, _, _, _ => by simp [Fits] at hf
  | .discrete _, .ints _, _, hf, _, _, _ => by simp [Fits] at hf
  | .discrete _, .tuple _, _, hf, _, _, _ => by simp [Fits] at hf
  | .discrete _, .dict _ _, _, hf, _, _, _ => by simp [Fits] at hf
  | .discrete _, .int _, .array _, _, hf, _, _ => by simp [Fits] at hf
  | .discrete _, .int _, .ints _, _, hf, _, _ => by simp [Fits] at hf
  | .discrete _, .int _, .tuple _, _, hf, _, _ => by simp [Fits] at hf
  | .discrete _, .int _, .dict _ _, _, hf, _, _ => by simp [Fits] at hf
  | .multiDiscrete _, .array _, _, hf, _, _, _ => by simp [Fits] at hf
  | .multiDiscrete _, .int _, _, hf, _, _, _ => by simp [Fits] at hf
  | .multiDiscrete _, .tuple _, _, hf, _, _, _ => by simp [Fits] at hf
  | .multiDiscrete _, .dict _ _, _, hf, _, _, _ => by simp [Fits] at hf
  | .multiDiscrete _, .ints _, .array _, _, hf, _, _ => by simp [Fits] at hf
  | .multiDiscrete _, .ints _, .int _, _, hf, _, _ => by simp [Fits] at hf
  | .multiDiscrete _, .ints _, .tuple _, _, hf, _, _ => by simp [Fits] at hf
  | .multiDiscrete _, .ints _, .dict _ _, _, hf, _, _ => by simp [Fits] at hf
  | .multiBinary _, .array _, _, hf, _, _, _ => by simp [Fits] at hf
  | .multiBinary _, .int _, _, hf, _, _, _ => by simp [Fits] at hf
  | .multiBinary _, .tuple _, _, hf, _, _, _ => by simp [Fits] at hf
  | .multiBinary _, .dict _ _, _, hf, _, _, _ => by simp [Fits] at hf
  | .multiBinary _, .ints _, .array _, _, hf, _, _ => by simp [Fits] at hf
  | .multiBinary _, .ints _, .int _, _, hf, _, _ => by simp [Fits] at hf
  | .multiBinary _, .ints _, .tuple _, _, hf, _, _ => by simp [Fits] at hf
  | .multiBinary _, .ints _, .dict _ _, _, hf, _, _ => by simp [Fits] at hf
  | .tuple _, .array _, _, hf, _, _, _ => by simp [Fits] at hf
  | .tuple _, .int _, _, hf, _, _, _ => by simp [Fits] at hf
  | .tuple _, .ints _, _, hf, _, _, _ => by simp [Fits] at hf
  | .tuple _, .dict _ _, _, hf, _, _, _ => by simp [Fits] at hf
  | .tuple _, .tuple _, .array _, _, hf, _, _ => by simp [Fits] at hf
  | .tuple _, .tuple _, .int _, _, hf, _, _ => by simp [Fits] at hf
  | .tuple _, .tuple _, .ints _, _, hf, _, _ => by simp [Fits] at hf
  | .tuple _, .tuple _, .dict _ _, _, hf, _, _ => by simp [Fits] at hf
  | .dict _ _, .array _, _, hf, _, _, _ => by simp [Fits] at hf
  | .dict _ _, .int _, _, hf, _, _, _ => by simp [Fits] at hf
  | .dict _ _, .ints _, _, hf, _, _, _ => by simp [Fits] at hf
  | .dict _ _, .tuple _, _, hf, _, _, _ => by simp [Fits] at hf
  | .dict _ _, .dict _ _, .array _, _, hf, _, _ => by simp [Fits] at hf
  | .dict _ _, .dict _ _, .int _, _, hf, _, _ => by simp [Fits] at hf
  | .dict _ _, .dict _ _, .ints _, _, hf, _, _ => by simp [Fits] at hf
  | .dict _ _, .dict _ _, .tuple _, _, hf, _, _ => by simp [Fits] at hf
theorem binaryL_inj : (sp : List Space) → (l m : List (Elem Nat)) → FitsL Plain sp l → FitsL Plain sp m → encodableL sp = true →
    binaryL sp l = binaryL sp m → l = m
  | [], [], [], _, _, _, _ => rfl
  | [], _ :: _, _, hf, _, _, _ => by simp [FitsL] at hf
  | [], [], _ :: _, _, hf, _, _ => by simp [FitsL] at hf
  | _ :: _, [], _, hf, _, _, _ => by simp [FitsL] at hf
  | _ :: _, _ :: _, [], _, hf, _, _ => by simp [FitsL] at hf
  | s :: sp, e :: l, e' :: m, hf, hf', ho, h => by
    simp only [FitsL] at hf hf'
    simp only [encodableL, Bool.and_eq_true] at ho
    obtain ⟨f1, e1, l1⟩ := binary_ok s e hf.1 ho.1
    obtain ⟨f2, e2, l2⟩ := binaryL_ok sp l hf.2 ho.2
    obtain ⟨g1, d1, k1⟩ := binary_ok s e' hf'.1 ho.1
    obtain ⟨g2, d2, k2⟩ := binaryL_ok sp m hf'.2 ho.2
    simp only [binaryL, e1, e2, d1, d2, Except.ok.injEq] at h
    obtain ⟨a, b⟩ := List.append_inj h (by rw [l1, k1])
    rw [binary_inj s e e' hf.1 hf'.1 ho.1 (by rw [e1, d1, a]), binaryL_inj sp l m hf.2 hf'.2 ho.2 (by rw [e2, d2, b])]
end

/-! ### Proxies -/

mutual
/-- The number of items of the elements of a space. -/
def items : Space → Nat
  | .box _ b => b.length
  | .discrete _ => 1
  | .multiDiscrete nv => nv.length
  | .multiBinary n => n
  | .tuple sp => itemsL sp
  | .dict _ sp => itemsL sp
/-- Summed up. -/
def itemsL : List Space → Nat
  | [] => 0
  | s :: sp => items s + itemsL sp
end

mutual
theorem flatten_length : (s : Space) → (e : Elem Rat) → Fits (fun _ => True) s e → (flatten e).length = items s
  | .box _ b, .array l, hf => by
    simp only [Fits] at hf
    simp [flatten, items, hf.1]
  | .discrete n, .int e, _ => by simp [flatten, items]
  | .multiDiscrete nv, .ints l, hf => by
    simp only [Fits] at hf
    simp [flatten, items, hf.length_eq]
  | .multiBinary n, .ints l, hf => by
    simp only [Fits] at hf
    simp [flatten, items, hf.1]
  | .tuple sp, .tuple l, hf => by
    simp only [Fits] at hf
    simpa only [flatten, items] using flattenL_length sp l hf
  | .dict ks sp, .dict ks' l, hf => by
    simp only [Fits] at hf
    simpa only [flatten, items] using flattenL_length sp l hf.2.2
  | .box _ _, .int _, hf => by simp [Fits] at hf
  | .box _ _, .ints _, hf => by simp [Fits] at hf
  | .box _ _, .tuple _, hf => by simp [Fits] at hf
  | .box _ _, .dict _ _, hf => by simp [Fits] at hf
  | .discrete _, .array _, hf => by simp [Fits] at hf
  | .discrete _, .ints _, hf => by simp [Fits] at hf
  | .discrete _, .tuple _, hf => by simp [Fits] at hf
  | .discrete _, .dict _ _, hf => by simp [Fits] at hf
  | .multiDiscrete _, .array _, hf => by simp [Fits] at hf
  | .multiDiscrete _, .int _, hf => by simp [Fits] at hf
  | .multiDiscrete _, .tuple _, hf => by simp [Fits] at hf
  | .multiDiscrete _, .dict _ _, hf => by simp [Fits] at hf
  | .multiBinary _, .array _, hf => by simp [Fits] at hf
  | .multiBinary _, .int _, hf => by simp [Fits] at hf
  | .multiBinary _, .tuple _, hf => by simp [Fits] at hf
  | .multiBinary _, .dict _ _, hf => by simp [Fits] at hf
  | .tuple _, .array _, hf => by simp [Fits] at hf
  | .tuple _, .int _, hf => by simp [Fits] at hf
  | .tuple _, .ints _, hf => by simp [Fits] at hf
  | .tuple _, .dict _ _, hf => by simp [Fits] at hf
  | .dict _ _, .array _, hf => by simp [Fits] at hf
  | .dict _ _, .int _, hf => by simp [Fits] at hf
  | .dict _ _, .ints _, hf => by simp [Fits] at hf
  | .dict _ _, .tuple _, hf => by simp [Fits] at hf
theorem flattenL_length : (sp : List Space) → (l : List (Elem Rat)) → FitsL (fun _ => True) sp l → (flattenL l).length = itemsL sp
  | [], [], _ => by simp [flattenL, itemsL]
  | [], _ :: _, hf => by simp [FitsL] at hf
  | _ :: _, [], hf => by simp [FitsL] at hf
  | s :: sp, e :: l, hf => by
    simp only [FitsL] at hf
    simp only [flattenL, itemsL, List.length_append, flatten_length s e hf.1, flattenL_length sp l hf.2]
end

theorem castList_inj {l m : List Int} (h : l.map (fun n : Int => (n : Rat)) = m.map (fun n : Int => (n : Rat))) : l = m := by
  refine List.map_injective_iff.mpr ?_ h
  intro a b hab
  exact Int.cast_injective (α := Rat) hab

mutual
theorem flatten_inj : (s : Space) → (e e' : Elem Rat) → Fits (fun _ => True) s e → Fits (fun _ => True) s e' →
    flatten e = flatten e' → e = e'
  | .box _ b, .array l, .array m, _, _, h => by
    simp only [flatten] at h
    rw [h]
  | .discrete n, .int e, .int e', _, _, h => by
    simp only [flatten, List.cons.injEq, and_true] at h
    rw [Int.cast_injective (α := Rat) h]
  | .multiDiscrete nv, .ints l, .ints m, _, _, h => by
    simp only [flatten] at h
    rw [castList_inj h]
  | .multiBinary n, .ints l, .ints m, _, _, h => by
    simp only [flatten] at h
    rw [castList_inj h]
  | .tuple sp, .tuple l, .tuple m, hf, hf', h => by
    simp only [Fits] at hf hf'
    simp only [flatten] at h
    rw [flattenL_inj sp l m hf hf' h]
  | .dict ks sp, .dict k1 l, .dict k2 m, hf, hf', h => by
    simp only [Fits] at hf hf'
    simp only [flatten] at h
    rw [hf.1, hf'.1, flattenL_inj sp l m hf.2.2 hf'.2.2 h]
  | .box _ _, .int _, _, hf, _, _ => by simp [Fits] at hf
  | .box _ _, .ints _, _, hf, _, _ => by simp [Fits] at hf
  | .box _ _, .tuple _, _, hf, _, _ => by simp [Fits] at hf
  | .box _ _, .dict _ _, _, hf, _, _ => by simp [Fits] at hf
  | .box _ _, .array _, .int _, _, hf, _ => by simp [Fits] at hf
  | .box _ _, .array _, .ints _, _, hf, _ => by simp [Fits] at hf
  | .box _ _, .array _, .tuple _, _, hf, _ => by simp [Fits] at hf
  | .box _ _, .array _, .dict _ _, _, hf, _ => by simp [Fits] at hf
  | .discrete _, .array _, _, hf, _, _ => by simp [Fits] at hf
  | .discrete _, .ints _, _, hf, _, _ => by simp [Fits] at hf
  | .discrete _, .tuple _, _, hf, _, _ => by simp [Fits] at hf
  | .discrete _, .dict _ _, _, hf, _, _ => by simp [Fits] at hf
  | .discrete _, .int _, .array _, _, hf, _ => by simp [Fits] at hf
  | .discrete _, .int _, .ints _, _, hf, _ => by simp [Fits] at hf
  | .discrete _, .int _, .tuple _, _, hf, _ => by simp [Fits] at hf
  | .discrete _, .int _, .dict _ _, _, hf, _ => by simp [Fits] at hf
  | .multiDiscrete _, .array _, _, hf, _, _ => by simp [Fits] at hf
  | .multiDiscrete _, .int _, _, hf, _, _ => by simp [Fits] at hf
  | .multiDiscrete _, .tuple _, _, hf, _, _ => by simp [Fits] at hf
  | .multiDiscrete _, .dict _ _, _, hf, _, _ => by simp [Fits] at hf
  | .multiDiscrete _, .ints _, .array _, _, hf, _ => by simp [Fits] at hf
  | .multiDiscrete _, .ints _, .int _, _, hf, _ => by simp [Fits] at hf
  | .multiDiscrete _, .ints _, .tuple _, _, hf, _ => by simp [Fits] at hf
  | .multiDiscrete _, .ints _, .dict _ _, _, hf, _ => by simp [Fits] at hf
  | .multiBinary _, .array _, _, hf, _, _ => by simp [Fits] at hf
  | .multiBinary _, .int _, _, hf, _, _ => by simp [Fits] at hf
  | .multiBinary _, .tuple _, _, hf, _, _ => by simp [Fits] at hf
  | .multiBinary _, .dict _ _, _, hf, _, _ => by simp [Fits] at hf
  | .multiBinary _, .ints _, .array _, _, hf, _ => by simp [Fits] at hf
  | .multiBinary _, .ints _, .int _, _, hf, _ => by simp [Fits] at hf
  | .multiBinary _, .ints _, .tuple _, _, hf, _ => by simp [Fits] at hf
  | .multiBinary _, .ints _, .dict _ _, _, hf, _ => by simp [Fits] at hf
  | .tuple _, .array _, _, hf, _, _ => by simp [Fits] at hf
  | .tuple _, .int _, _, hf, _, _ => by simp [Fits] at hf
  | .tuple _, .ints _, _, hf, _, _ => by simp [Fits] at hf
  | .tuple _, .dict _ _, _, hf, _, _ => by simp [Fits] at hf
  | .tuple _, .tuple _, .array _, _, hf, _ => by simp [Fits] at hf
  | .tuple _, .tuple _, .int _, _, hf, _ => by simp [Fits] at hf
  | .tuple _, .tuple _, .ints _, _, hf, _ => by simp [Fits] at hf
  | .tuple _, .tuple _, .dict _ _, _, hf, _ => by simp [Fits] at hf
  | .dict _ _, .array _, _, hf, _, _ => by simp [Fits] at hf
  | .dict _ _, .int _, _, hf, _, _ => by simp [Fits] at hf
  | .dict _ _, .ints _, _, hf, _, _ => by simp [Fits] at hf
  | .dict _ _, .tuple _, _, hf, _, _ => by simp [Fits] at hf
  | .dict _ _, .dict _ _, .array _, _, hf, _ => by simp [Fits] at hf
  | .dict _ _, .dict _ _, .int _, _, hf, _ => by simp [Fits] at hf
  | .dict _ _, .dict _ _, .ints _, _, hf, _ => by simp [Fits] at hf
  | .dict _ _, .dict _ _, .tuple _, _, hf, _ => by simp [Fits] at hf
theorem flattenL_inj : (sp : List Space) → (l m : List (Elem Rat)) → FitsL (fun _ => True) sp l → FitsL (fun _ => True) sp m →
    flattenL l = flattenL m → l = m
  | [], [], [], _, _, _ => rfl
  | [], _ :: _, _, hf, _, _ => by simp [FitsL] at hf
  | [], [], _ :: _, _, hf, _ => by simp [FitsL] at hf
  | _ :: _, [], _, hf, _, _ => by simp [FitsL] at hf
  | _ :: _, _ :: _, [], _, hf, _ => by simp [FitsL] at hf
  | s :: sp, e :: l, e' :: m, hf, hf', h => by
    simp only [FitsL] at hf hf'
    simp only [flattenL] at h
    obtain ⟨a, b⟩ := List.append_inj h (by rw [flatten_length s e hf.1, flatten_length s e' hf'.1])
    rw [flatten_inj s e e' hf.1 hf'.1 a, flattenL_inj sp l m hf.2 hf'.2 b]
end

/-! ### Discrete actions -/

theorem mem_combinations {α : Type} {ls : List (List α)} {c : List α} :
    c ∈ combinations ls ↔ List.Forall₂ (fun v l => v ∈ l) c ls := by
  induction ls generalizing c with
  | nil => simp [combinations]
  | cons vs rest ih =>
    simp only [combinations, List.mem_flatMap, List.mem_map]
    constructor
    · rintro ⟨v, hv, d, hd, rfl⟩
      exact .cons hv (ih.mp hd)
    · intro h
      cases h with
      | @cons v _ d _ hv hd => exact ⟨v, hv, d, ih.mpr hd, rfl⟩

theorem nodup_combinations {α : Type} {ls : List (List α)} (h : ∀ l ∈ ls, l.Nodup) : (combinations ls).Nodup := by
  induction ls with
  | nil => simp [combinations]
  | cons vs rest ih =>
    have hr := ih (fun l hl => h l (List.mem_cons_of_mem _ hl))
    simp only [combinations]
    rw [List.nodup_flatMap]
    refine ⟨fun v _ => hr.map (fun a b hab => by simpa using hab), ?_⟩
    refine (h vs List.mem_cons_self).imp ?_
    intro a b hab
    simp only [Function.onFun, List.Disjoint, List.mem_map]
    rintro x ⟨d, _, rfl⟩ ⟨d', _, hd⟩
    simp only [List.cons.injEq] at hd
    exact hab hd.1.symm

theorem length_combinations {α : Type} (ls : List (List α)) : (combinations ls).length = (ls.map List.length).prod := by
  induction ls with
  | nil => rfl
  | cons vs rest ih =>
    simp only [combinations, List.map_cons, List.prod_cons, ← ih]
    induction vs with
    | nil => simp
    | cons v vs ihv =>
      rw [List.flatMap_cons, List.length_append, ihv, List.length_map, List.length_cons]
      ring

end Verif.Gym
