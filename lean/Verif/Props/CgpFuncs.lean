import Verif.Model.CgpFuncs
import Verif.Props.Cgp
/-
C202: the default functions of Cartesian genetic programming.
-/
namespace Verif.Cgp
open Real

/-- The range of values. -/
def In (x : ℝ) : Prop := -1 ≤ x ∧ x ≤ 1

theorem in_of_abs {x : ℝ} (h : |x| ≤ 1) : In x := abs_le.1 h
theorem In.abs {x : ℝ} (h : In x) : |x| ≤ 1 := abs_le.2 h
theorem in_of_unit {x : ℝ} (h : 0 ≤ x) (h' : x ≤ 1) : In x := ⟨by linarith, h'⟩

theorem floor_in {x : ℝ} (h : In x) : In (⌊x⌋ : ℝ) := by
  refine ⟨?_, le_trans (Int.floor_le x) h.2⟩
  have : (-1 : ℤ) ≤ ⌊x⌋ := Int.le_floor.2 (by simpa using h.1)
  exact_mod_cast this

theorem ceil_in {x : ℝ} (h : In x) : In (⌈x⌉ : ℝ) := by
  refine ⟨le_trans h.1 (Int.le_ceil x), ?_⟩
  have : ⌈x⌉ ≤ (1 : ℤ) := Int.ceil_le.2 (by simpa using h.2)
  exact_mod_cast this

theorem round_in {x : ℝ} (h : In x) : In (pyRound x : ℝ) := by
  have hf := floor_in h
  have hup : 1 / 2 ≤ x - ⌊x⌋ → In ((⌊x⌋ + 1 : ℤ) : ℝ) := by
    intro hd
    push_cast
    refine ⟨by have := hf.1; linarith, ?_⟩
    have h2 : (⌊x⌋ : ℝ) < 1 := by have := h.2; linarith
    have h3 : ⌊x⌋ < 1 := by exact_mod_cast h2
    have h4 : ⌊x⌋ + 1 ≤ 1 := by omega
    exact_mod_cast h4
  unfold pyRound
  split
  · exact hf
  · split
    · next h1 => exact hup (le_of_lt h1)
    · split
      · exact hf
      · next h1 _ _ => exact hup (not_lt.1 h1)

theorem two_args {l : List ℝ} (h : 2 ≤ l.length) : ∃ x y r, l = x :: y :: r := by
  match l, h with
  | x :: y :: r, _ => exact ⟨x, y, r, rfl⟩

theorem foldl_in {f : ℝ → ℝ → ℝ} (hf : ∀ x y, In x → In y → In (f x y)) : ∀ (l : List ℝ) (x : ℝ), In x → (∀ y, y ∈ l → In y) → In (l.foldl f x) := by
  intro l
  induction l with
  | nil => intro x hx _; exact hx
  | cons y l ih => intro x hx hl; exact ih _ (hf x y hx (hl y (by simp))) (fun z hz => hl z (List.mem_cons_of_mem _ hz))

/-- C202: every default function, given two arguments (the length of `args`) from -1 to 1, returns a number from -1 to 1. -/
theorem C202_range {f : List ℝ → Except PyErr ℝ} {n : Nat} (hf : (f, n) ∈ defaultLib) {l : List ℝ} (hl : 2 ≤ l.length)
    (h : ∀ x, x ∈ l → -1 ≤ x ∧ x ≤ 1) : ∃ v, f l = .ok v ∧ -1 ≤ v ∧ v ≤ 1 := by
  obtain ⟨x, y, r, rfl⟩ := two_args hl
  have hx : In x := h x (by simp)
  have hy : In y := h y (by simp)
  have hall : ∀ z, z ∈ y :: r → In z := fun z hz => h z (List.mem_cons_of_mem _ hz)
  have hxa := hx.abs
  have hya := hy.abs
  have hx0 := abs_nonneg x
  have hy0 := abs_nonneg y
  have hpi := Real.pi_pos
  simp only [defaultLib, List.mem_cons, List.not_mem_nil, or_false, Prod.mk.injEq] at hf
  rcases hf with ⟨rfl, _⟩ | ⟨rfl, _⟩ | ⟨rfl, _⟩ | ⟨rfl, _⟩ | ⟨rfl, _⟩ | ⟨rfl, _⟩ | ⟨rfl, _⟩ | ⟨rfl, _⟩ | ⟨rfl, _⟩ | ⟨rfl, _⟩ | ⟨rfl, _⟩ | ⟨rfl, _⟩ |
    ⟨rfl, _⟩ | ⟨rfl, _⟩ | ⟨rfl, _⟩ | ⟨rfl, _⟩ | ⟨rfl, _⟩ | ⟨rfl, _⟩ | ⟨rfl, _⟩ | ⟨rfl, _⟩ | ⟨rfl, _⟩
  · refine ⟨_, rfl, ?_, ?_⟩ <;> norm_num <;> have := hx.1 <;> have := hx.2 <;> have := hy.1 <;> have := hy.2 <;> linarith
  · refine ⟨_, rfl, in_of_unit (by positivity) ?_⟩
    have : |x - y| ≤ 2 := abs_le.2 ⟨by have := hx.1; have := hy.2; linarith, by have := hx.2; have := hy.1; linarith⟩
    norm_num; linarith
  · refine ⟨_, rfl, in_of_abs ?_⟩
    rw [abs_mul]; exact mul_le_one₀ hxa hy0 hya
  · have h1 : 1 < exp 1 := Real.one_lt_exp_iff.2 one_pos
    have h2 : exp x ≤ exp 1 := Real.exp_le_exp.2 hx.2
    have h3 : 0 < exp x := Real.exp_pos x
    have h4 : 2 ≤ exp 1 := by have := Real.add_one_le_exp (1 : ℝ); linarith
    refine ⟨_, rfl, ?_, ?_⟩
    · rw [le_div_iff₀ (by linarith)]; linarith
    · rw [div_le_one (by linarith)]; linarith
  · exact ⟨_, rfl, in_of_unit hx0 hxa⟩
  · exact ⟨_, rfl, in_of_unit (Real.sqrt_nonneg _) (Real.sqrt_le_one.2 hxa)⟩
  · refine ⟨_, rfl, in_of_unit (by positivity) ?_⟩
    rw [div_le_one (by positivity)]
    refine Real.sqrt_le_sqrt ?_
    have h1 : x * x ≤ 1 := by have := abs_mul_abs_self x; nlinarith
    have h2 : y * y ≤ 1 := by have := abs_mul_abs_self y; nlinarith
    linarith
  · refine ⟨_, rfl, in_of_unit (mul_self_nonneg x) ?_⟩
    have := abs_mul_abs_self x; nlinarith
  · exact ⟨_, rfl, in_of_unit (Real.rpow_nonneg hx0 _) (Real.rpow_le_one hx0 hxa hy0)⟩
  · exact ⟨_, rfl, by norm_num, by norm_num⟩
  · exact ⟨_, rfl, by norm_num, by norm_num⟩
  · refine ⟨_, rfl, in_of_abs ?_⟩
    split
    · next h0 => rw [abs_div, abs_abs, div_self (abs_ne_zero.2 h0)]
    · simp
  · refine ⟨if x > y then 1 else 0, rfl, ?_⟩
    split <;> norm_num
  · refine ⟨2 * arcsin x / π, by simp only [fAsin, un]; exact if_pos hx, ?_, ?_⟩
    · rw [le_div_iff₀ hpi]; have := Real.neg_pi_div_two_le_arcsin x; linarith
    · rw [div_le_one hpi]; have := Real.arcsin_le_pi_div_two x; linarith
  · refine ⟨arccos x / π, by simp only [fAcos, un]; exact if_pos hx, in_of_unit (div_nonneg (Real.arccos_nonneg x) hpi.le) ?_⟩
    rw [div_le_one hpi]; exact Real.arccos_le_pi x
  · refine ⟨_, rfl, ?_, ?_⟩
    · rw [le_div_iff₀ hpi]
      have h1 := Real.arctan_strictMono.monotone hx.1
      rw [Real.arctan_neg, Real.arctan_one] at h1
      linarith
    · rw [div_le_one hpi]
      have h1 := Real.arctan_strictMono.monotone hx.2
      rw [Real.arctan_one] at h1
      linarith
  · exact ⟨_, rfl, foldl_in (fun a b ha hb => ⟨le_min ha.1 hb.1, le_trans (min_le_left _ _) ha.2⟩) _ _ hx hall⟩
  · exact ⟨_, rfl, foldl_in (fun a b ha hb => ⟨le_trans ha.1 (le_max_left _ _), max_le ha.2 hb.2⟩) _ _ hx hall⟩
  · exact ⟨_, rfl, round_in hx⟩
  · exact ⟨_, rfl, floor_in hx⟩
  · exact ⟨_, rfl, ceil_in hx⟩

/-- C202: outside the range arcus sine and arcus cosine raise `ValueError`. -/
theorem C202_outside_raises {x : ℝ} {l : List ℝ} (h : x < -1 ∨ 1 < x) : fAsin (x :: l) = .error .valueError ∧ fAcos (x :: l) = .error .valueError := by
  have hn : ¬ (-1 ≤ x ∧ x ≤ 1) := by
    rintro ⟨h1, h2⟩
    rcases h with h | h <;> linarith
  exact ⟨by simp only [fAsin, un]; exact if_neg hn, by simp only [fAcos, un]; exact if_neg hn⟩

/-- C202, refuted: `inv` is the sign of its argument and its inverse only for 1 and -1. -/
theorem C202_inverse_refuted {x : ℝ} (hx : x ≠ 0) (l : List ℝ) :
    (fInv (x :: l) = .ok (x⁻¹) ↔ x = 1 ∨ x = -1) ∧ fInv (x :: l) = .ok (if 0 < x then 1 else -1) := by
  have h1 : fInv (x :: l) = .ok (if 0 < x then 1 else -1) := by
    simp only [fInv, un, ne_eq, hx, not_false_eq_true, if_true]
    congr 1
    rcases lt_or_gt_of_ne hx with h | h
    · rw [if_neg (not_lt.2 h.le), abs_of_neg h, div_neg, div_self hx]
    · rw [if_pos h, abs_of_pos h, div_self hx]
  refine ⟨?_, h1⟩
  rw [h1]
  simp only [Except.ok.injEq]
  split
  · next h => constructor
              · intro he; left; exact inv_eq_one.1 he.symm
              · rintro (rfl | rfl)
                · simp
                · norm_num at h
  · next h => constructor
              · intro he
                right
                have := congrArg (·⁻¹) he
                simp only [inv_inv] at this
                rw [← this]; norm_num
              · rintro (rfl | rfl)
                · norm_num at h
                · norm_num

/-- C202: `round` returns a nearest whole number, and an even one if two are equally near. -/
theorem C202_round (x : ℝ) (l : List ℝ) : ∃ k : ℤ, fRound (x :: l) = .ok (k : ℝ) ∧ |x - k| ≤ 1 / 2 ∧ (|x - k| = 1 / 2 → k % 2 = 0) := by
  refine ⟨pyRound x, rfl, ?_⟩
  have h1 := Int.floor_le x
  have h2 := Int.lt_floor_add_one x
  unfold pyRound
  split
  · next h =>
    rw [abs_of_nonneg (by linarith)]
    exact ⟨h.le, fun he => absurd he (ne_of_lt h)⟩
  · next h =>
    have hup : |x - ((⌊x⌋ + 1 : ℤ) : ℝ)| = 1 - (x - ⌊x⌋) := by
      push_cast
      rw [abs_of_nonpos (by linarith)]
      linarith
    split
    · next h' =>
      rw [hup]
      exact ⟨by linarith, fun he => by linarith⟩
    · next h' =>
      have he : x - ⌊x⌋ = 1 / 2 := le_antisymm (not_lt.1 h') (not_lt.1 h)
      split
      · next hev => rw [he]; exact ⟨by norm_num, fun _ => hev⟩
      · next hod => rw [hup, he]; exact ⟨by norm_num, fun _ => by omega⟩

/-- C202: `min` and `max` return a least and a greatest argument; without arguments they raise `ValueError`. -/
theorem C202_extremes (l : List ℝ) :
    (l = [] → fMin l = .error .valueError ∧ fMax l = .error .valueError) ∧
    (l ≠ [] → (∃ v, fMin l = .ok v ∧ v ∈ l ∧ ∀ x, x ∈ l → v ≤ x) ∧ ∃ v, fMax l = .ok v ∧ v ∈ l ∧ ∀ x, x ∈ l → x ≤ v) := by
  refine ⟨by rintro rfl; exact ⟨rfl, rfl⟩, ?_⟩
  intro hne
  cases l with
  | nil => exact absurd rfl hne
  | cons x l =>
    have hmin : ∀ (l : List ℝ) (x : ℝ), l.foldl min x ∈ x :: l ∧ ∀ y, y ∈ x :: l → l.foldl min x ≤ y := by
      intro l
      induction l with
      | nil => intro x; simp
      | cons z l ih =>
        intro x
        obtain ⟨h1, h2⟩ := ih (min x z)
        rw [List.foldl_cons]
        constructor
        · rcases List.mem_cons.1 h1 with h | h
          · rw [h]; rcases min_choice x z with h | h <;> rw [h] <;> simp
          · simp [h]
        · intro y hy
          have h3 := h2 (min x z) (by simp)
          rcases List.mem_cons.1 hy with rfl | hy
          · exact le_trans h3 (min_le_left _ _)
          · rcases List.mem_cons.1 hy with rfl | hy
            · exact le_trans h3 (min_le_right _ _)
            · exact h2 y (List.mem_cons_of_mem _ hy)
    have hmax : ∀ (l : List ℝ) (x : ℝ), l.foldl max x ∈ x :: l ∧ ∀ y, y ∈ x :: l → y ≤ l.foldl max x := by
      intro l
      induction l with
      | nil => intro x; simp
      | cons z l ih =>
        intro x
        obtain ⟨h1, h2⟩ := ih (max x z)
        rw [List.foldl_cons]
        constructor
        · rcases List.mem_cons.1 h1 with h | h
          · rw [h]; rcases max_choice x z with h | h <;> rw [h] <;> simp
          · simp [h]
        · intro y hy
          have h3 := h2 (max x z) (by simp)
          rcases List.mem_cons.1 hy with rfl | hy
          · exact le_trans (le_max_left _ _) h3
          · rcases List.mem_cons.1 hy with rfl | hy
            · exact le_trans (le_max_right _ _) h3
            · exact h2 y (List.mem_cons_of_mem _ hy)
    exact ⟨⟨_, rfl, hmin l x⟩, ⟨_, rfl, hmax l x⟩⟩

/-- C202: the range is used: these functions reach both 0 and 1, at the ends of the range. -/
theorem C202_ends : fExp [0] = .ok 0 ∧ fExp [1] = .ok 1 ∧ fSqrtxy [0, 0] = .ok 0 ∧ fSqrtxy [1, 1] = .ok 1 ∧ fAcos [1] = .ok 0 ∧ fAcos [-1] = .ok 1 ∧
    fAsin [-1] = .ok (-1) ∧ fAsin [1] = .ok 1 ∧ fAtan [-1] = .ok (-1) ∧ fAtan [1] = .ok 1 ∧ fSum [1, 1] = .ok 1 ∧ fAminus [-1, 1] = .ok 1 ∧
    fPow [0, 0] = .ok 1 ∧ fPow [0, 1] = .ok 0 := by
  have hpi := Real.pi_pos
  have h1 : exp 1 - 1 ≠ 0 := by have := Real.one_lt_exp_iff.2 (one_pos : (0 : ℝ) < 1); linarith
  refine ⟨?_, ?_, ?_, ?_, ?_, ?_, ?_, ?_, ?_, ?_, ?_, ?_, ?_, ?_⟩
  · simp [fExp, un]
  · simp [fExp, un, div_self h1]
  · simp [fSqrtxy, bin]
  · have : (1 : ℝ) + 1 = 2 := by norm_num
    simp [fSqrtxy, bin, this]
  · simp [fAcos, un]
  · have : arccos (-1) / π = 1 := by rw [Real.arccos_neg_one, div_self hpi.ne']
    simp only [fAcos, un]
    rw [if_pos (by norm_num), this]
  · have : 2 * arcsin (-1) / π = -1 := by rw [Real.arcsin_neg_one]; field_simp
    simp only [fAsin, un]
    rw [if_pos (by norm_num), this]
  · have : 2 * arcsin 1 / π = 1 := by rw [Real.arcsin_one]; field_simp
    simp only [fAsin, un]
    rw [if_pos (by norm_num), this]
  · have : 4 * arctan (-1) / π = -1 := by rw [Real.arctan_neg, Real.arctan_one]; field_simp
    simp only [fAtan, un, this]
  · have : 4 * arctan 1 / π = 1 := by rw [Real.arctan_one]; field_simp
    simp only [fAtan, un, this]
  · simp only [fSum, bin]; norm_num
  · simp only [fAminus, bin]; norm_num
  · simp [fPow, bin]
  · simp [fPow, bin]

/-! ### Programs -/

theorem gather_all {V : Type} {P : V → Prop} {values : List V} (hv : ∀ v, v ∈ values → P v) :
    ∀ {l : List Nat} {xs : List V}, gather values l = .ok xs → xs.length = l.length ∧ ∀ x, x ∈ xs → P x := by
  intro l
  induction l with
  | nil => intro xs h; simp only [gather, Except.ok.injEq] at h; subst h; simp
  | cons i l ih =>
    intro xs h
    simp only [gather] at h
    split at h
    · cases h
    · next v hi =>
      split at h
      · cases h
      · next vs hg =>
        simp only [Except.ok.injEq] at h
        subst h
        obtain ⟨h1, h2⟩ := ih hg
        refine ⟨by simp [h1], ?_⟩
        intro x hx
        rcases List.mem_cons.1 hx with rfl | hx
        · exact hv _ (List.mem_of_getElem? hi)
        · exact h2 x hx

theorem set_all {V : Type} {P : V → Prop} {l : List V} {i : Nat} {v : V} (hl : ∀ x, x ∈ l → P x) (hv : P v) : ∀ x, x ∈ l.set i v → P x := by
  intro x hx
  rcases List.mem_or_eq_of_mem_set hx with h | rfl
  · exact hl x h
  · exact hv

theorem load_all {V : Type} {P : V → Prop} {x : List V} (hx : ∀ v, v ∈ x → P v) :
    ∀ (n : Nat) (out out' : List V), (∀ v, v ∈ out → P v) → load n x out = .ok out' → ∀ v, v ∈ out' → P v := by
  intro n
  induction n with
  | zero => intro out out' ho h; simp only [load, Except.ok.injEq] at h; subst h; exact ho
  | succ p ih =>
    intro out out' ho h
    simp only [load] at h
    split at h
    · cases h
    · next v hv =>
      split at h
      · exact ih _ _ (set_all ho (hx v (List.mem_of_getElem? hv))) h
      · cases h

theorem eval_all {V : Type} {P : V → Prop} {c : Config V} {nodes : List Node} {m : Nat} (hn : ∀ nd, nd ∈ nodes → nd.args.length = m)
    (hf : ∀ f, f ∈ c.library → ∀ xs : List V, xs.length = m → (∀ x, x ∈ xs → P x) → P (f.apply xs)) {old : List V} (ho : ∀ v, v ∈ old → P v) :
    ∀ (l : List Nat) (out out' : List V), (∀ v, v ∈ out → P v) → evalNodes c nodes old l out = .ok out' → ∀ v, v ∈ out' → P v := by
  intro l
  induction l with
  | nil => intro out out' h1 h; simp only [evalNodes, Except.ok.injEq] at h; subst h; exact h1
  | cons p l ih =>
    intro out out' h1 h
    simp only [evalNodes] at h
    split at h
    · cases h
    · next nd hnd =>
      split at h
      · cases h
      · next xs hg =>
        split at h
        · cases h
        · next f hl =>
          obtain ⟨g1, g2⟩ := gather_all ho hg
          exact ih _ _ (set_all h1 (hf f (List.mem_of_getElem? hl) xs (by rw [g1, hn nd (List.mem_of_getElem? hnd)]) g2)) h

theorem nodes_args {genome : List Nat} {arity stop : Nat} : ∀ (fuel i : Nat) (nodes : List Node), nodesFrom genome arity stop fuel i = .ok nodes →
    ∀ nd, nd ∈ nodes → nd.args.length = arity := by
  intro fuel
  induction fuel with
  | zero => intro i nodes h; simp only [nodesFrom, Except.ok.injEq] at h; subst h; simp
  | succ fuel ih =>
    intro i nodes h
    simp only [nodesFrom] at h
    split at h
    · split at h
      · cases h
      · split at h
        · cases h
        · next hlen =>
          split at h
          · cases h
          · next rest hr =>
            simp only [Except.ok.injEq] at h
            subst h
            intro nd hnd
            rcases List.mem_cons.1 hnd with rfl | hnd
            · simp only [List.length_take, List.length_drop]; omega
            · exact ih _ _ hr nd hnd
    · simp only [Except.ok.injEq] at h; subst h; simp

/-- What holds for the graph of an individual that has only seen inputs with the property. -/
def Tame {V : Type} (P : V → Prop) (c : Config V) (ind : Ind V) : Prop :=
  ∀ g, ind.graph = some g → (∀ nd, nd ∈ g.nodes → nd.args.length = c.arity) ∧ ∀ v, v ∈ g.output → P v

theorem run_tame {V : Type} {P : V → Prop} {c : Config V} (hz : P c.zero)
    (hf : ∀ f, f ∈ c.library → ∀ xs : List V, xs.length = c.arity → (∀ x, x ∈ xs → P x) → P (f.apply xs)) {ind ind' : Ind V} {x ys : List V}
    (ht : Tame P c ind) (hx : ∀ v, v ∈ x → P v) (h : run c ind x = .ok (ys, ind')) : Tame P c ind' ∧ ∀ y, y ∈ ys → P y := by
  have hg : ∀ g, graphOf c ind = .ok g → (∀ nd, nd ∈ g.nodes → nd.args.length = c.arity) ∧ ∀ v, v ∈ g.output → P v := by
    intro g hg
    unfold graphOf at hg
    split at hg
    · next g' hs => cases hg; exact ht _ hs
    · unfold create at hg
      split at hg
      · cases hg
      · split at hg
        · cases hg
        · next nodes hn =>
          simp only at hg
          split at hg
          · cases hg
          · split at hg
            · cases hg
            · cases hg
              refine ⟨nodes_args _ _ _ hn, ?_⟩
              intro v hv
              rw [(List.mem_replicate.1 hv).2]
              exact hz
  unfold run at h
  split at h
  · cases h
  · next g hgo =>
    obtain ⟨g1, g2⟩ := hg g hgo
    split at h
    · cases h
    · next ys' g' hr =>
      simp only [Except.ok.injEq, Prod.mk.injEq] at h
      obtain ⟨rfl, rfl⟩ := h
      unfold runGraph at hr
      split at hr
      · cases hr
      · next loaded hl =>
        have l1 := load_all hx _ _ _ g2 hl
        split at hr
        · cases hr
        · next out he =>
          have e1 := eval_all g1 hf l1 _ _ _ l1 he
          split at hr
          · cases hr
          · next zs hgat =>
            simp only [Except.ok.injEq, Prod.mk.injEq] at hr
            obtain ⟨rfl, rfl⟩ := hr
            refine ⟨?_, (gather_all e1 hgat).2⟩
            intro g0 h0
            simp only [Option.some.injEq] at h0
            subst h0
            exact ⟨g1, e1⟩

/-- The states of an individual that has been run on inputs from -1 to 1 only. -/
inductive RanIn (c : Config ℝ) (g : List Nat) : Ind ℝ → Prop
  | new {r : Rat} : RanIn c g { genome := g, recurrency := r }
  | run {ind ind' : Ind ℝ} {x ys : List ℝ} : RanIn c g ind → (∀ v, v ∈ x → -1 ≤ v ∧ v ≤ 1) → run c ind x = .ok (ys, ind') → RanIn c g ind'

theorem default_arity (inputs outputs cols rows : Nat) : (defaultConfig inputs outputs cols rows).arity = 2 := by
  simp [Config.arity, defaultConfig, defaultLib]

theorem default_keeps {inputs outputs cols rows : Nat} {f : Func ℝ} (hm : f ∈ (defaultConfig inputs outputs cols rows).library) {xs : List ℝ}
    (hl : xs.length = (defaultConfig inputs outputs cols rows).arity) (hi : ∀ x, x ∈ xs → In x) : In (f.apply xs) := by
  obtain ⟨⟨f0, n⟩, h1, rfl⟩ := List.mem_map.1 hm
  obtain ⟨v, h2, h3⟩ := C202_range h1 (by rw [hl, default_arity]) hi
  show In (valueOr f0 xs)
  unfold valueOr
  rw [h2]
  exact h3

theorem default_zero (inputs outputs cols rows : Nat) : In (defaultConfig inputs outputs cols rows).zero := ⟨by simp [defaultConfig], by simp [defaultConfig]⟩

theorem RanIn.tame {inputs outputs cols rows : Nat} {g : List Nat} {ind : Ind ℝ} (hr : RanIn (defaultConfig inputs outputs cols rows) g ind) :
    Tame In (defaultConfig inputs outputs cols rows) ind := by
  induction hr with
  | new => intro g h; cases h
  | run _ hx h ih => exact (run_tame (default_zero _ _ _ _) (fun _ hm _ hl hi => default_keeps hm hl hi) ih hx h).1

/-- C202: any program with the default functions, run any number of times on inputs from -1 to 1, gives outputs from -1 to 1. -/
theorem C202_program {inputs outputs cols rows : Nat} {g : List Nat} {ind ind' : Ind ℝ} (hr : RanIn (defaultConfig inputs outputs cols rows) g ind)
    {x ys : List ℝ} (hx : ∀ v, v ∈ x → -1 ≤ v ∧ v ≤ 1) (h : run (defaultConfig inputs outputs cols rows) ind x = .ok (ys, ind')) :
    ∀ y, y ∈ ys → -1 ≤ y ∧ y ≤ 1 := by
  exact (run_tame (default_zero _ _ _ _) (fun _ hm _ hl hi => default_keeps hm hl hi) hr.tame hx h).2

/-- Values of functions. -/
example : (fSum, 2) ∈ defaultLib ∧ fSum [1, 0] = .ok 0.5 ∧ fAtan [1, 0] = .ok 1 ∧ fRound [1 / 2, 0] = .ok 0 ∧ fGt [1, 0] = .ok 1 := by
  refine ⟨by simp [defaultLib], ?_, ?_, ?_, ?_⟩
  · simp [fSum, bin]
  · simp only [fAtan, un, Real.arctan_one]
    congr 1
    have := Real.pi_pos
    field_simp
  · have : pyRound (1 / 2) = 0 := by
      have hfl : ⌊(1 / 2 : ℝ)⌋ = 0 := by norm_num
      unfold pyRound
      rw [hfl]
      norm_num
    simp only [fRound, un, this, Int.cast_zero]
  · simp [fGt, bin]

/-- The program that halves the sum of its input with itself and takes the arcus tangent: it runs on 1. -/
example : ∃ ys ind', run (defaultConfig 1 1 2 1) { genome := [0, 0, 0, 15, 1, 1, 2] } [1] = .ok (ys, ind') ∧
    RanIn (defaultConfig 1 1 2 1) [0, 0, 0, 15, 1, 1, 2] { genome := [0, 0, 0, 15, 1, 1, 2] } := by
  have hfit : Fits (defaultConfig 1 1 2 1) (anywhere (defaultConfig 1 1 2 1)) [0, 0, 0, 15, 1, 1, 2] := by
    refine ⟨by rw [default_arity]; rfl, ?_⟩
    intro i g h
    have hi : i < 7 := (List.getElem?_eq_some_iff.mp h).1
    have hlib : (defaultConfig 1 1 2 1).library.length = 21 := by simp [defaultConfig, defaultLib]
    have hsize : (defaultConfig 1 1 2 1).size = 2 := rfl
    have hin : (defaultConfig 1 1 2 1).inputs = 1 := rfl
    interval_cases i <;> (cases h; simp [limit, default_arity, hlib, hsize, hin, anywhere])
  obtain ⟨ys, ind', h, _⟩ := C140_total _ _ hfit { genome := [0, 0, 0, 15, 1, 1, 2] } .new [1] (by simp [defaultConfig])
  exact ⟨ys, ind', h, .new⟩

end Verif.Cgp
