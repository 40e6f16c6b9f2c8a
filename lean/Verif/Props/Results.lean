import Verif.Lemmas.Results
/-
Properties C22, C23, C24, C47: result stores, Pareto fronts, fitness vectors.
-/
namespace Verif.Results

variable {σ : Type}

/-! ## C24: comparison of fitness vectors -/

/-- Pareto dominance, stated on coordinates: `a` is at least as large as `b` everywhere
and larger somewhere. -/
def Dominates (a b : List Int) : Prop :=
  (∀ (i : Nat) (h1 : i < a.length) (h2 : i < b.length), b[i] ≤ a[i]) ∧
  (∃ (i : Nat) (h1 : i < a.length) (h2 : i < b.length), b[i] < a[i])

/-- C24: `>` is dominance, `<` is the converse, and the two non-strict comparisons hold
exactly when the vector is not dominated (resp. does not dominate). -/
theorem C24_comparisons (a b : List Int) (h : a.length = b.length) :
    (tgt a b = true ↔ Dominates a b) ∧ (tlt a b = true ↔ Dominates b a) ∧
    (tge a b = true ↔ ¬ Dominates b a) ∧ (tle a b = true ↔ ¬ Dominates a b) ∧
    (teq a b = true ↔ ¬ Dominates a b ∧ ¬ Dominates b a) := by
  have hlt : tlt a b = true ↔ Dominates b a := by
    rw [tlt_iff a b h]
    constructor
    · rintro ⟨h1, i, i1, i2, h2⟩
      exact ⟨fun j j1 j2 => h1 j j2 j1, i, i2, i1, h2⟩
    · rintro ⟨h1, i, i1, i2, h2⟩
      exact ⟨fun j j1 j2 => h1 j j2 j1, i, i2, i1, h2⟩
  have hgt : tgt a b = true ↔ Dominates a b := by
    rw [tgt_eq_tlt, tlt_iff b a h.symm]
    constructor
    · rintro ⟨h1, i, i1, i2, h2⟩
      exact ⟨fun j j1 j2 => h1 j j2 j1, i, i2, i1, h2⟩
    · rintro ⟨h1, i, i1, i2, h2⟩
      exact ⟨fun j j1 j2 => h1 j j2 j1, i, i2, i1, h2⟩
  refine ⟨hgt, hlt, ?_, ?_, ?_⟩
  · rw [tge_iff a b h, ← hlt]; simp
  · rw [tle_iff a b h, ← hgt, tgt_eq_tlt]; simp
  · rw [← hlt, ← hgt]; unfold teq; simp [and_comm]

/-- C24: strict comparison is irreflexive, asymmetric and transitive. -/
theorem C24_strict_order (a b c : List Int) (hab : a.length = b.length) (hbc : b.length = c.length) :
    tgt a a = false ∧ (tgt a b = true → tgt b a = false) ∧
    (tgt a b = true → tgt b c = true → tgt a c = true) := by
  simp only [tgt_eq_tlt]
  exact ⟨tlt_irrefl a, fun h => tlt_asymm hab.symm h,
    fun h1 h2 => tlt_trans hbc.symm hab.symm h2 h1⟩

/-- Multiplying by a positive number keeps the comparison, by a negative one reverses it. -/
theorem C24_scaling (k : Int) (a b : List Int) (h : a.length = b.length) :
    (0 < k → tgt (tmul k a) (tmul k b) = tgt a b) ∧
    (k < 0 → tgt (tmul k a) (tmul k b) = tgt b a) := by
  have hl : ∀ x y : List Int, x.length = y.length → (tmul k y).length = (tmul k x).length := by
    intro x y h; simp [tmul, h]
  constructor
  · intro hk
    rw [tgt_eq_tlt, tgt_eq_tlt, Bool.eq_iff_iff, tlt_iff _ _ (hl a b h), tlt_iff _ _ h.symm]
    simp only [tmul, List.length_map, List.getElem_map]
    constructor
    · rintro ⟨h1, i, i1, i2, h2⟩
      exact ⟨fun j j1 j2 => Int.le_of_mul_le_mul_left (h1 j j1 j2) hk, i, i1, i2,
        Int.lt_of_mul_lt_mul_left h2 (by omega)⟩
    · rintro ⟨h1, i, i1, i2, h2⟩
      exact ⟨fun j j1 j2 => Int.mul_le_mul_of_nonneg_left (h1 j j1 j2) (by omega), i, i1, i2,
        Int.mul_lt_mul_of_pos_left h2 hk⟩
  · intro hk
    rw [tgt_eq_tlt, tgt_eq_tlt, Bool.eq_iff_iff, tlt_iff _ _ (hl a b h), tlt_iff _ _ h]
    simp only [tmul, List.length_map, List.getElem_map]
    have hk' : 0 < -k := by omega
    constructor
    · rintro ⟨h1, i, i1, i2, h2⟩
      refine ⟨fun j j1 j2 => ?_, i, i2, i1, ?_⟩
      · have := h1 j j2 j1
        exact Int.le_of_mul_le_mul_left (a := -k) (by simp only [Int.neg_mul]; omega) hk'
      · exact Int.lt_of_mul_lt_mul_left (a := -k) (by simp only [Int.neg_mul]; omega) (by omega)
    · rintro ⟨h1, i, i1, i2, h2⟩
      refine ⟨fun j j1 j2 => ?_, i, i2, i1, ?_⟩
      · have := Int.mul_le_mul_of_nonneg_left (c := -k) (h1 j j2 j1) (by omega)
        simp only [Int.neg_mul] at this; omega
      · have := Int.mul_lt_mul_of_pos_left (c := -k) h2 hk'
        simp only [Int.neg_mul] at this; omega

/-- The `==` of fitness vectors is not transitive, so it is not an equality. -/
theorem C24_eq_not_transitive :
    ∃ a b c : List Int, a.length = b.length ∧ b.length = c.length ∧
      teq a b = true ∧ teq b c = true ∧ teq a c = false :=
  ⟨[0, 0], [2, -1], [1, 1], rfl, rfl, by decide, by decide, by decide⟩

example : tgt [2, 3] [2, 1] = true ∧ tgt [2, 1] [1, 3] = false ∧ tge [2, 1] [1, 3] = true := by
  decide

/-! ## C23: Pareto front -/

/-- `p` beats `q` in the chosen direction. -/
def Beats (maximize : Bool) (p q : List Int) : Prop :=
  if maximize then Dominates p q else Dominates q p

def domB (maximize : Bool) (p q : σ × List Int) : Bool :=
  if maximize then tlt q.2 p.2 else tlt p.2 q.2

theorem addPoint_eq (maximize : Bool) (n : Nat) (fr : List (σ × List Int)) (p : σ × List Int)
    (hn : ∀ q ∈ fr, q.2.length = n) (hp : p.2.length = n) :
    addPoint maximize fr p =
      if fr.all (fun t => !domB maximize t p) then
        (fr ++ [p]).filter (fun q => !domB maximize p q) else fr := by
  unfold addPoint domB
  cases maximize with
  | true =>
    simp only [if_true]
    have : fr.all (fun t => tge p.2 t.2) = fr.all (fun t => !tlt p.2 t.2) := by
      apply Bool.eq_iff_iff.2
      simp only [List.all_eq_true]
      constructor
      · intro h t ht
        have := h t ht
        rwa [tge_iff _ _ (by rw [hp, hn t ht])] at this
      · intro h t ht
        rw [tge_iff _ _ (by rw [hp, hn t ht])]; exact h t ht
    rw [this]
  | false =>
    simp only [Bool.false_eq_true, if_false]
    have : fr.all (fun t => tle p.2 t.2) = fr.all (fun t => !tlt t.2 p.2) := by
      apply Bool.eq_iff_iff.2
      simp only [List.all_eq_true]
      constructor
      · intro h t ht
        have := h t ht
        rwa [tle_iff _ _ (by rw [hp, hn t ht])] at this
      · intro h t ht
        rw [tle_iff _ _ (by rw [hp, hn t ht])]; exact h t ht
    rw [this]
    simp only [tgt_eq_tlt]

theorem domB_irrefl (maximize : Bool) (p : σ × List Int) : domB maximize p p = false := by
  unfold domB; split <;> exact tlt_irrefl _

theorem domB_trans (maximize : Bool) {n : Nat} {p q r : σ × List Int} (hp : p.2.length = n)
    (hq : q.2.length = n) (hr : r.2.length = n) (h1 : domB maximize p q = true)
    (h2 : domB maximize q r = true) : domB maximize p r = true := by
  unfold domB at *
  cases maximize with
  | true => exact tlt_trans (by rw [hr, hq]) (by rw [hq, hp]) h2 h1
  | false => exact tlt_trans (by rw [hp, hq]) (by rw [hq, hr]) h1 h2

theorem finalize_eq_front (maximize : Bool) (n : Nat) (l : List (σ × List Int))
    (hn : ∀ p ∈ l, p.2.length = n) : finalizePareto maximize l = front (domB maximize) l := by
  have key : ∀ (l pre : List (σ × List Int)), (∀ p ∈ pre ++ l, p.2.length = n) →
      l.foldl (addPoint maximize) (front (domB maximize) pre) = front (domB maximize) (pre ++ l) := by
    intro l
    induction l with
    | nil => intro pre _; simp
    | cons p l ih =>
      intro pre h
      rw [List.foldl_cons]
      have h' : ∀ q ∈ pre ++ [p], q.2.length = n := fun q hq => h q (by
        rcases List.mem_append.1 hq with hq | hq
        · simp [hq]
        · simp only [List.mem_singleton] at hq; simp [hq])
      have hstep : addPoint maximize (front (domB maximize) pre) p
          = front (domB maximize) (pre ++ [p]) := by
        rw [addPoint_eq maximize n _ _
          (fun q hq => h q (by simp [(List.mem_filter.1 hq).1])) (h p (by simp)),
          front_append_one (domB maximize) (fun x _ => domB_irrefl _ _)
          (fun x hx y hy z hz => domB_trans maximize (h' x hx) (h' y hy) (h' z hz))]
      rw [hstep, ih (pre ++ [p]) (by simpa using h)]
      simp
  simpa [finalizePareto, front] using key l [] (by simpa using hn)

theorem domB_iff (maximize : Bool) {p q : σ × List Int} (h : p.2.length = q.2.length) :
    domB maximize p q = true ↔ Beats maximize p.2 q.2 := by
  unfold domB Beats
  cases maximize with
  | true => simp only [if_true]; exact (C24_comparisons q.2 p.2 h.symm).2.1
  | false =>
    simp only [Bool.false_eq_true, if_false]
    rw [(C24_comparisons p.2 q.2 h).2.1]

/-- C23: the finalised front contains exactly the added points that no added point beats,
with the multiplicity and in the order they were added. -/
theorem C23_front_exact (maximize : Bool) (n : Nat) (l : List (σ × List Int))
    (hn : ∀ p ∈ l, p.2.length = n) :
    (∀ p, p ∈ finalizePareto maximize l ↔ p ∈ l ∧ ∀ q ∈ l, ¬ Beats maximize q.2 p.2) ∧
    (finalizePareto maximize l).Sublist l ∧
    ∀ p ∈ finalizePareto maximize l, ∀ [DecidableEq (σ × List Int)],
      (finalizePareto maximize l).count p = l.count p := by
  rw [finalize_eq_front maximize n l hn]
  refine ⟨?_, List.filter_sublist, ?_⟩
  · intro p
    unfold front
    rw [List.mem_filter]
    constructor
    · rintro ⟨h1, h2⟩
      refine ⟨h1, fun q hq hb => ?_⟩
      simp only [Bool.not_eq_true', List.any_eq_false] at h2
      exact h2 q hq ((domB_iff maximize (by rw [hn q hq, hn p h1])).2 hb)
    · rintro ⟨h1, h2⟩
      refine ⟨h1, ?_⟩
      simp only [Bool.not_eq_true', List.any_eq_false]
      intro q hq hb
      exact h2 q hq ((domB_iff maximize (by rw [hn q hq, hn p h1])).1 hb)
  · intro p hp _
    unfold front at hp ⊢
    rw [List.mem_filter] at hp
    exact List.count_filter (p := fun p => !l.any fun q => domB maximize q p) hp.2

/-- C23: the front does not depend on the insertion order, up to order. -/
theorem C23_order_independent (maximize : Bool) (n : Nat) (l l' : List (σ × List Int))
    (hn : ∀ p ∈ l, p.2.length = n) (h : l.Perm l') :
    (finalizePareto maximize l).Perm (finalizePareto maximize l') := by
  rw [finalize_eq_front maximize n l hn,
    finalize_eq_front maximize n l' (fun p hp => hn p (h.mem_iff.2 hp))]
  unfold front
  have : ∀ p, (!l.any (fun q => domB maximize q p)) = (!l'.any (fun q => domB maximize q p)) := by
    intro p
    congr 1
    rw [Bool.eq_iff_iff, List.any_eq_true, List.any_eq_true]
    exact ⟨fun ⟨q, hq, hb⟩ => ⟨q, h.mem_iff.1 hq, hb⟩, fun ⟨q, hq, hb⟩ => ⟨q, h.mem_iff.2 hq, hb⟩⟩
  simp only [this]
  exact h.filter _

/-- C23: every added point is in the front or beaten by a point of the front. -/
theorem C23_front_covers (maximize : Bool) (n : Nat) (l : List (σ × List Int))
    (hn : ∀ p ∈ l, p.2.length = n) (p : σ × List Int) (hp : p ∈ l) :
    ∃ q ∈ finalizePareto maximize l, q = p ∨ Beats maximize q.2 p.2 := by
  rw [finalize_eq_front maximize n l hn]
  obtain ⟨q, hq, h⟩ := exists_front (domB maximize) (fun x _ => domB_irrefl _ _)
    (fun x hx y hy z hz => domB_trans maximize (hn x hx) (hn y hy) (hn z hz)) _ p hp (Nat.le_refl _)
  refine ⟨q, hq, ?_⟩
  rcases h with h | h
  · exact .inl h
  · exact .inr ((domB_iff maximize (by rw [hn p hp, hn q (List.mem_filter.1 hq).1])).1 h)

/-- C23: the extreme point reported for coordinate `i` has the best `i`-th coordinate among
all added points, not only among the front. -/
theorem C23_extreme_points (maximize : Bool) (n : Nat) (l : List (σ × List Int))
    (hn : ∀ p ∈ l, p.2.length = n) (hl : l ≠ []) (i : Nat) (hi : i < n) :
    ∃ e, extremePoint maximize (finalizePareto maximize l) i = .ok e ∧
      e ∈ finalizePareto maximize l ∧ ∀ p ∈ l, ∃ x y, e.2[i]? = some x ∧ p.2[i]? = some y ∧
        (if maximize then y ≤ x else x ≤ y) := by
  have hcov := C23_front_covers maximize n l hn
  have hmem := (C23_front_exact maximize n l hn).1
  have hne : finalizePareto maximize l ≠ [] := by
    intro h
    cases l with
    | nil => exact hl rfl
    | cons p l =>
      obtain ⟨q, hq, _⟩ := hcov p (by simp)
      rw [h] at hq; simp at hq
  have hget : ∀ p ∈ l, p.2[i]? = some (p.2.getD i 0) := by
    intro p hp
    rw [List.getD_eq_getElem?_getD, List.getElem?_eq_getElem (by rw [hn p hp]; exact hi)]
    rfl
  unfold extremePoint
  cases maximize with
  | true =>
    simp only [if_true]
    obtain ⟨e, he⟩ := pyMaxBy_defined (fun p : σ × List Int => p.2.getD i 0) hne
    obtain ⟨h1, h2⟩ := pyMaxBy_spec he
    refine ⟨e, he, h1, fun p hp => ⟨_, _, hget e ((hmem e).1 h1).1, hget p hp, ?_⟩⟩
    obtain ⟨q, hq, h⟩ := hcov p hp
    have hqe := h2 q hq
    rcases h with rfl | h
    · exact hqe
    · have hql := ((hmem q).1 hq).1
      have := h.1 i (by rw [hn q hql]; exact hi) (by rw [hn p hp]; exact hi)
      have e1 := hget q hql
      have e2 := hget p hp
      rw [List.getElem?_eq_getElem (by rw [hn q hql]; exact hi)] at e1
      rw [List.getElem?_eq_getElem (by rw [hn p hp]; exact hi)] at e2
      simp only [Option.some.injEq] at e1 e2
      omega
  | false =>
    simp only [Bool.false_eq_true, if_false]
    obtain ⟨e, he⟩ := pyMinBy_defined (fun p : σ × List Int => p.2.getD i 0) hne
    obtain ⟨h1, h2⟩ := pyMinBy_spec he
    refine ⟨e, he, h1, fun p hp => ⟨_, _, hget e ((hmem e).1 h1).1, hget p hp, ?_⟩⟩
    obtain ⟨q, hq, h⟩ := hcov p hp
    have hqe := h2 q hq
    rcases h with rfl | h
    · exact hqe
    · have hql := ((hmem q).1 hq).1
      have := h.1 i (by rw [hn p hp]; exact hi) (by rw [hn q hql]; exact hi)
      have e1 := hget q hql
      have e2 := hget p hp
      rw [List.getElem?_eq_getElem (by rw [hn q hql]; exact hi)] at e1
      rw [List.getElem?_eq_getElem (by rw [hn p hp]; exact hi)] at e2
      simp only [Option.some.injEq] at e1 e2
      omega

example : finalizePareto true [("a", [1, 5]), ("b", [1, 4]), ("c", [3, 3]), ("d", [4, 3]), ("e", [1, 5])]
    = [("a", [1, 5]), ("d", [4, 3]), ("e", [1, 5])] := by decide

example : finalizePareto false [("a", [1, 5]), ("b", [1, 4]), ("c", [3, 3])]
    = [("b", [1, 4]), ("c", [3, 3])] := by decide

/-! ## C22: the best solution of a store -/

/-- C22 (partial: store constructed with at least one solution and no explicit best).  When
equal solutions have equal fitness, any sequence of additions succeeds; the `best_solution`
attribute and `get_best_solution_fit` both give a solution that was added with a fitness at
least as good as every other, for both directions and every size limit. -/
theorem C22_best_partial [DecidableEq σ] (l adds : List (σ × Int)) (mx lim : Bool) (nb : Nat)
    (hl : l ≠ []) (hnb : lim = true → 1 ≤ nb) (hc : Consistent (l ++ adds)) :
    ∃ st, (Store.init l none mx lim nb).addAll adds = .ok st ∧
      (∃ s f, st.best = some s ∧ (s, f) ∈ l ++ adds ∧ ∀ p ∈ l ++ adds, Better mx f p.2) ∧
      (∃ s f, st.getBestFit = .ok (s, f) ∧ st.getBest = some s ∧ (s, f) ∈ l ++ adds ∧
        ∀ p ∈ l ++ adds, Better mx f p.2) := by
  obtain ⟨hi, hm⟩ := init_inv l hl mx lim nb hnb
    (fun p hp q hq => hc p (by simp [hp]) q (by simp [hq]))
  obtain ⟨st, h1, h2, h3, h4⟩ := addAll_inv hi adds
  rw [hm] at h3
  refine ⟨st, h1, ?_, ?_⟩
  · obtain ⟨mn, mx', _, _, s, hb, hmem, hbest⟩ := h2.mm
    rw [h3] at hmem hbest
    exact ⟨s, _, hb, hmem, hbest⟩
  · have hne : st.sols ≠ [] := by
      intro hn
      cases l with
      | nil => exact hl rfl
      | cons p l =>
        obtain ⟨q, hq, _⟩ := h2.seen_all p (by simp)
        have := h2.seen_sub q hq
        rw [hn] at this; simp at this
    obtain ⟨b, hb⟩ := bestOf_defined mx hne
    obtain ⟨b1, b2⟩ := bestOf_spec hb
    refine ⟨b.1, b.2, ?_, ?_, h2.sols_sub b b1, ?_⟩
    · unfold Store.getBestFit; rw [h3, hb]
    · unfold Store.getBest; rw [h3, hb]
    · intro p hp
      obtain ⟨q, hq, hqp⟩ := h2.seen_all p hp
      have hqs := h2.seen_sub q hq
      rw [← hc q (h2.sols_sub q hqs) p hp hqp]
      exact b2 q hqs

example : ∃ st, (Store.init [("a", 5)] none false true 1).addAll [("b", 3), ("c", 9), ("b", 3)] = .ok st
    ∧ st.best = some "b" ∧ st.getBestFit = .ok ("b", 3) := ⟨_, rfl, by decide, by decide⟩

/-- A store constructed empty raises on the first addition, so C22 cannot hold there. -/
theorem C22_empty_store_raises [DecidableEq σ] (best : Option σ) (mx lim : Bool) (nb : Nat)
    (s : σ) (f : Int) : (Store.init [] best mx lim nb).add s f = .error .attributeError := by
  have h1 : ∀ n, nlargest n [] = [] := by intro n; simp [nlargest, sortAsc]
  have h2 : ∀ n, nsmallest n [] = [] := by intro n; simp [nsmallest, sortAsc]
  simp [Store.init, Store.add, dedup, h1, h2, minMax]

/-- An explicitly given initial best is kept even when a stored solution is better. -/
theorem C22_explicit_best_kept : ∃ st : Store String,
    st = Store.init [("a", 1), ("b", 7)] (some "a") true true 10 ∧
    st.best = some "a" ∧ st.getBestFit = .ok ("b", 7) := ⟨_, rfl, by decide, by decide⟩

/-- C22: `get_last_best_solution` also has the best fitness among the stored solutions, and it
is the last such. -/
theorem C22_last_best (st : Store σ) (b : σ × Int) (h : st.getLastBest = .ok b) :
    b ∈ st.sols ∧ (∀ p ∈ st.sols, Better st.maximize b.2 p.2) ∧
    ∃ pre post, st.sols = pre ++ b :: post ∧ ∀ p ∈ post, p.2 ≠ b.2 := by
  unfold Store.getLastBest at h
  rw [bind_eq_ok] at h
  obtain ⟨c, hc, h⟩ := h
  obtain ⟨c1, c2⟩ := bestOf_spec hc
  split at h
  · rename_i p hp
    cases h
    have hm := List.mem_of_getLast? hp
    rw [List.mem_filter] at hm
    have hbc : b.2 = c.2 := by simpa using hm.2
    refine ⟨hm.1, by rw [hbc]; exact c2, ?_⟩
    have key : ∀ (l : List (σ × Int)),
        (l.filter (fun p => decide (p.2 = c.2))).getLast? = some b →
        ∃ pre post, l = pre ++ b :: post ∧ ∀ p ∈ post, p.2 ≠ b.2 := by
      intro l
      induction l with
      | nil => intro h; simp at h
      | cons x l ih =>
        intro h
        cases hf : l.filter (fun p => decide (p.2 = c.2)) with
        | nil =>
          rw [List.filter_cons] at h
          split at h
          · rw [hf] at h
            simp at h
            subst h
            refine ⟨[], l, rfl, ?_⟩
            intro p hp hpb
            have : p ∈ l.filter (fun p => decide (p.2 = c.2)) :=
              List.mem_filter.2 ⟨hp, by simp [hpb, hbc]⟩
            rw [hf] at this; simp at this
          · rw [hf] at h; simp at h
        | cons y ys =>
          have : (l.filter (fun p => decide (p.2 = c.2))).getLast? = some b := by
            rw [List.filter_cons] at h
            split at h
            · rw [hf] at h ⊢; simpa using h
            · exact h
          obtain ⟨pre, post, h1, h2⟩ := ih this
          exact ⟨x :: pre, post, by simp [h1], h2⟩
    exact key _ hp
  · simp at h

/-! ## C47: the sorted heap of a store -/

/-- C47 (partial: maximisation): after any additions to a non-empty store, the finalised heap
starts with the best fitness ever given. -/
theorem C47_heap_head_partial [DecidableEq σ] (l adds : List (σ × Int)) (mx lim : Bool) (nb : Nat)
    (hl : l ≠ []) (hnb : lim = true → 1 ≤ nb) (hc : Consistent (l ++ adds))
    (hdir : mx = true ∨ lim = false) :
    ∃ st f rest, (Store.init l none mx lim nb).addAll adds = .ok st ∧ st.finalHeap = f :: rest ∧
      (∃ s, (s, f) ∈ l ++ adds) ∧ ∀ p ∈ l ++ adds, Better mx f p.2 := by
  obtain ⟨hi, hm⟩ := init_inv l hl mx lim nb hnb
    (fun p hp q hq => hc p (by simp [hp]) q (by simp [hq]))
  have hlim : (Store.init l none mx lim nb).limit = lim := rfl
  obtain ⟨st, h1, h2, h3, h4⟩ := addAll_inv hi adds
  rw [hm] at h3
  rw [hlim] at h4
  obtain ⟨mn, mx', hmm, _, s, hb, hmem, hbest⟩ := h2.mm
  rw [h3] at hmem hbest
  cases mx with
  | true =>
    obtain ⟨q1, q2⟩ := h2.heap_mx h3 mn mx' hmm
    have hs := reverse_sorted (sortAsc_sorted st.heap)
    have hq : ∀ x, x ∈ (sortAsc st.heap).reverse ↔ x ∈ st.heap := fun x => by
      rw [List.mem_reverse, mem_sortAsc]
    cases hr : (sortAsc st.heap).reverse with
    | nil => rw [← hq, hr] at q1; simp at q1
    | cons f rest =>
      rw [hr] at hs
      have hf : f = mx' := by
        have a1 := q2 f ((hq f).1 (by rw [hr]; simp))
        have a2 := (hq mx').2 q1
        rw [hr] at a2
        rcases List.mem_cons.1 a2 with a2 | a2
        · exact a2.symm
        · have := (List.pairwise_cons.1 hs).1 _ a2; omega
      refine ⟨st, f, rest, h1, by simp [Store.finalHeap, h3, hr], ?_, ?_⟩
      · exact ⟨s, by simpa [hf] using hmem⟩
      · simpa [hf] using hbest
  | false =>
    have hlf : lim = false := by simpa using hdir
    obtain ⟨q1, q2⟩ := h2.heap_mn h3 (by rw [h4, hlf]) mn mx' hmm
    have hs := sortAsc_sorted st.heap
    cases hr : sortAsc st.heap with
    | nil => rw [← mem_sortAsc, hr] at q1; simp at q1
    | cons f rest =>
      rw [hr] at hs
      have hf : f = mn := by
        have a1 := q2 f (mem_sortAsc.1 (by rw [hr]; simp))
        have a2 := mem_sortAsc.2 q1
        rw [hr] at a2
        rcases List.mem_cons.1 a2 with a2 | a2
        · exact a2.symm
        · have := (List.pairwise_cons.1 hs).1 _ a2; omega
      refine ⟨st, f, rest, h1, by simp [Store.finalHeap, h3, hr], ?_, ?_⟩
      · exact ⟨s, by simpa [hf] using hmem⟩
      · simpa [hf] using hbest

example : ∃ st, (Store.init [("a", 5)] none true true 2).addAll [("b", 7), ("c", 6), ("d", 9)] = .ok st
    ∧ st.finalHeap = [9, 7] := ⟨_, rfl, by decide⟩

/-- When minimising with a size limit, a new best value is dropped from the heap: after
adding 3 to a full one-element store holding 5, the heap still holds 5. -/
theorem C47_minimisation_heap_loses_best : ∃ st : Store String,
    (Store.init [("a", 5)] none false true 1).addAll [("b", 3)] = .ok st ∧
    st.finalHeap = [5] ∧ st.best = some "b" := ⟨_, rfl, by decide, by decide⟩

/-- When maximising, a value below the first one is not kept even though there is room. -/
theorem C47_maximisation_heap_misses_value : ∃ st : Store String,
    (Store.init [("a", 5)] none true true 1000).addAll [("b", 3)] = .ok st ∧
    st.finalHeap = [5] ∧ st.sols = [("a", 5), ("b", 3)] := ⟨_, rfl, by decide, by decide⟩

end Verif.Results
