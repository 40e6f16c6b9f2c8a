import Verif.Model.Results
/-
Helper lemmas for fitness vectors, Pareto fronts and result stores.
-/
namespace Verif.Results

/-! ### Dominance -/

theorem zip_all (r : Int → Int → Bool) : ∀ (a b : List Int), a.length = b.length →
    ((List.zipWith r a b).all id = true ↔
      ∀ (i : Nat) (h1 : i < a.length) (h2 : i < b.length), r a[i] b[i] = true)
  | [], [], _ => by simp
  | [], _ :: _, h => by simp at h
  | _ :: _, [], h => by simp at h
  | x :: a, y :: b, h => by
    have ih := zip_all r a b (by simpa using h)
    simp only [List.zipWith_cons_cons, List.all_cons, id, Bool.and_eq_true, ih]
    constructor
    · rintro ⟨h0, h1⟩ i k1 k2
      cases i with
      | zero => exact h0
      | succ i => exact h1 i (by simpa using k1) (by simpa using k2)
    · intro h1
      refine ⟨h1 0 (by simp) (by simp), fun i k1 k2 => ?_⟩
      exact h1 (i + 1) (by simpa using k1) (by simpa using k2)

theorem zip_any (r : Int → Int → Bool) : ∀ (a b : List Int), a.length = b.length →
    ((List.zipWith r a b).any id = true ↔
      ∃ (i : Nat) (h1 : i < a.length) (h2 : i < b.length), r a[i] b[i] = true)
  | [], [], _ => by simp
  | [], _ :: _, h => by simp at h
  | _ :: _, [], h => by simp at h
  | x :: a, y :: b, h => by
    have ih := zip_any r a b (by simpa using h)
    simp only [List.zipWith_cons_cons, List.any_cons, id, Bool.or_eq_true, ih]
    constructor
    · rintro (h0 | ⟨i, k1, k2, h1⟩)
      · exact ⟨0, by simp, by simp, h0⟩
      · exact ⟨i + 1, by simpa using k1, by simpa using k2, by simpa using h1⟩
    · rintro ⟨i, k1, k2, h1⟩
      cases i with
      | zero => exact .inl h1
      | succ i => exact .inr ⟨i, by simpa using k1, by simpa using k2, by simpa using h1⟩

theorem zipWith_flip (r : Int → Int → Bool) (a b : List Int) :
    List.zipWith r a b = List.zipWith (fun x y => r y x) b a := by
  induction a generalizing b with
  | nil => cases b <;> rfl
  | cons x a ih => cases b with
    | nil => rfl
    | cons y b => simp [ih]

theorem tgt_eq_tlt (a b : List Int) : tgt a b = tlt b a := by
  unfold tgt tlt
  rw [zipWith_flip (fun x y => decide (x ≥ y)), zipWith_flip (fun x y => decide (x > y))]

theorem tlt_iff (a b : List Int) (h : a.length = b.length) :
    tlt a b = true ↔
      (∀ (i : Nat) (h1 : i < a.length) (h2 : i < b.length), a[i] ≤ b[i]) ∧
      (∃ (i : Nat) (h1 : i < a.length) (h2 : i < b.length), a[i] < b[i]) := by
  unfold tlt
  rw [Bool.and_eq_true, zip_all _ _ _ h, zip_any _ _ _ h]
  simp

theorem tlt_irrefl (a : List Int) : tlt a a = false := by
  rw [Bool.eq_false_iff]
  intro h
  rw [tlt_iff _ _ rfl] at h
  obtain ⟨_, i, h1, h2, h3⟩ := h
  omega

theorem tlt_trans {a b c : List Int} (hab : a.length = b.length) (hbc : b.length = c.length)
    (h1 : tlt a b = true) (h2 : tlt b c = true) : tlt a c = true := by
  rw [tlt_iff _ _ hab] at h1
  rw [tlt_iff _ _ hbc] at h2
  rw [tlt_iff _ _ (hab.trans hbc)]
  obtain ⟨p1, i, i1, i2, p2⟩ := h1
  obtain ⟨q1, -⟩ := h2
  refine ⟨fun j j1 j2 => ?_, i, i1, by omega, ?_⟩
  · have := p1 j j1 (by omega); have := q1 j (by omega) j2; omega
  · have := q1 i i2 (by omega); omega

theorem tlt_asymm {a b : List Int} (hab : a.length = b.length) (h1 : tlt a b = true) :
    tlt b a = false := by
  rw [Bool.eq_false_iff]
  intro h2
  have := tlt_trans hab hab.symm h1 h2
  rw [tlt_irrefl] at this
  exact Bool.noConfusion this

theorem tge_iff (a b : List Int) (h : a.length = b.length) : tge a b = !tlt a b := by
  unfold tge teq
  rw [tgt_eq_tlt]
  cases h1 : tlt b a
  · cases tlt a b <;> rfl
  · rw [tlt_asymm h.symm h1]; rfl

theorem tle_iff (a b : List Int) (h : a.length = b.length) : tle a b = !tlt b a := by
  unfold tle teq
  rw [tgt_eq_tlt]
  cases h1 : tlt a b
  · cases tlt b a <;> rfl
  · rw [tlt_asymm h h1]; rfl

/-! ### Non-dominated points, for an abstract strict order -/

section Front
variable {π : Type} (dom : π → π → Bool)

def front (l : List π) : List π := l.filter (fun p => !l.any (fun q => dom q p))

theorem countP_lt {p q : π → Bool} {l : List π} (h : ∀ x ∈ l, p x = true → q x = true)
    {x : π} (hx : x ∈ l) (hq : q x = true) (hp : p x = false) : l.countP p < l.countP q := by
  induction l with
  | nil => simp at hx
  | cons y l ih =>
    have hmono : l.countP p ≤ l.countP q :=
      List.countP_mono_left (fun z hz => h z (by simp [hz]))
    rcases List.mem_cons.1 hx with rfl | hx
    · rw [List.countP_cons_of_neg (by simp [hp]), List.countP_cons_of_pos hq]; omega
    · have := ih (fun z hz => h z (by simp [hz])) hx
      by_cases hy : p y = true
      · rw [List.countP_cons_of_pos hy, List.countP_cons_of_pos (h y (by simp) hy)]; omega
      · rw [List.countP_cons_of_neg hy]
        by_cases hy' : q y = true
        · rw [List.countP_cons_of_pos hy']; omega
        · rw [List.countP_cons_of_neg hy']; omega

theorem exists_front {l : List π}
    (irr : ∀ x ∈ l, dom x x = false)
    (tr : ∀ x ∈ l, ∀ y ∈ l, ∀ z ∈ l, dom x y = true → dom y z = true → dom x z = true) :
    ∀ (n : Nat) (p : π), p ∈ l → l.countP (fun q => dom q p) ≤ n →
      ∃ q ∈ front dom l, q = p ∨ dom q p = true := by
  intro n
  induction n with
  | zero =>
    intro p hp hc
    refine ⟨p, ?_, .inl rfl⟩
    unfold front
    rw [List.mem_filter]
    refine ⟨hp, ?_⟩
    have : l.countP (fun q => dom q p) = 0 := by omega
    rw [List.countP_eq_zero] at this
    simpa using this
  | succ n ih =>
    intro p hp hc
    by_cases hd : ∃ q ∈ l, dom q p = true
    · obtain ⟨q, hq, hqp⟩ := hd
      have hlt : l.countP (fun r => dom r q) < l.countP (fun r => dom r p) :=
        countP_lt (fun x hx h => tr x hx q hq p hp h hqp) hq hqp (irr q hq)
      obtain ⟨r, hr, h⟩ := ih q hq (by omega)
      refine ⟨r, hr, .inr ?_⟩
      rcases h with rfl | h
      · exact hqp
      · exact tr r ((List.mem_filter.1 hr).1) q hq p hp h hqp
    · refine ⟨p, ?_, .inl rfl⟩
      unfold front
      rw [List.mem_filter]
      refine ⟨hp, ?_⟩
      simp only [Bool.not_eq_true', List.any_eq_false]
      intro q hq h
      exact hd ⟨q, hq, h⟩

theorem front_append_one {l : List π} {p : π}
    (irr : ∀ x ∈ l ++ [p], dom x x = false)
    (tr : ∀ x ∈ l ++ [p], ∀ y ∈ l ++ [p], ∀ z ∈ l ++ [p],
      dom x y = true → dom y z = true → dom x z = true) :
    front dom (l ++ [p]) =
      if (front dom l).all (fun t => !dom t p) then
        (front dom l ++ [p]).filter (fun q => !dom p q)
      else front dom l := by
  have irr' : ∀ x ∈ l, dom x x = false := fun x hx => irr x (by simp [hx])
  have tr' : ∀ x ∈ l, ∀ y ∈ l, ∀ z ∈ l, dom x y = true → dom y z = true → dom x z = true :=
    fun x hx y hy z hz => tr x (by simp [hx]) y (by simp [hy]) z (by simp [hz])
  have hpp : dom p p = false := irr p (by simp)
  split
  · rename_i hall
    simp only [List.all_eq_true, Bool.not_eq_true'] at hall
    have hnd : ∀ q ∈ l, dom q p = false := by
      intro q hq
      rw [Bool.eq_false_iff]
      intro hqp
      obtain ⟨r, hr, h⟩ := exists_front dom irr' tr' _ q hq (Nat.le_refl _)
      have : dom r p = true := by
        rcases h with rfl | h
        · exact hqp
        · exact tr r (by simp [(List.mem_filter.1 hr).1]) q (by simp [hq]) p (by simp) h hqp
      rw [hall r hr] at this; exact Bool.noConfusion this
    unfold front
    rw [List.filter_append, List.filter_append, List.filter_filter]
    congr 1
    · apply List.filter_congr
      intro x hx
      simp [List.any_append, Bool.and_comm]
    · have : l.any (fun q => dom q p) = false := by
        simp only [List.any_eq_false]; intro q hq; simp [hnd q hq]
      simp only [List.any_append, List.any_cons, List.any_nil, hpp, this, List.filter_cons,
        List.filter_nil]
      rfl
  · rename_i hall
    obtain ⟨t, ht, htp⟩ : ∃ t ∈ front dom l, dom t p = true := by simpa using hall
    have htl := (List.mem_filter.1 ht).1
    unfold front
    rw [List.filter_append]
    have h1 : l.any (fun q => dom q p) = true := by
      rw [List.any_eq_true]; exact ⟨t, htl, htp⟩
    have h2 : [p].filter (fun p_1 => !(l ++ [p]).any (fun q => dom q p_1)) = [] := by
      simp only [List.any_append, List.any_cons, List.any_nil, Bool.or_false, List.filter_cons,
        h1, Bool.true_or, Bool.not_true, List.filter_nil]
      rfl
    rw [h2, List.append_nil]
    apply List.filter_congr
    intro x hx
    simp only [List.any_append, List.any_cons, List.any_nil, Bool.or_false, Bool.not_or]
    by_cases hpx : dom p x = true
    · have htx : dom t x = true := tr t (by simp [htl]) p (by simp) x (by simp [hx]) htp hpx
      have : l.any (fun q => dom q x) = true := by
        rw [List.any_eq_true]; exact ⟨t, htl, htx⟩
      simp [this]
    · simp [hpx]

end Front

/-! ### Python `max`/`min` with a key -/

theorem foldMax_spec (key : α → Int) (x : α) (xs : List α) :
    let b := xs.foldl (fun best y => if key y > key best then y else best) x
    (b = x ∨ b ∈ xs) ∧ key x ≤ key b ∧ ∀ y ∈ xs, key y ≤ key b := by
  induction xs generalizing x with
  | nil => simp
  | cons y ys ih =>
    simp only [List.foldl_cons, List.mem_cons]
    split
    · rename_i h
      obtain ⟨h1, h2, h3⟩ := ih y
      refine ⟨?_, by omega, ?_⟩
      · rcases h1 with h1 | h1 <;> simp [h1]
      · rintro z (rfl | hz)
        · exact h2
        · exact h3 z hz
    · rename_i h
      obtain ⟨h1, h2, h3⟩ := ih x
      refine ⟨?_, h2, ?_⟩
      · rcases h1 with h1 | h1 <;> simp [h1]
      · rintro z (rfl | hz)
        · omega
        · exact h3 z hz

theorem pyMaxBy_spec {key : α → Int} {l : List α} {b : α} (h : pyMaxBy key l = .ok b) :
    b ∈ l ∧ ∀ y ∈ l, key y ≤ key b := by
  cases l with
  | nil => simp [pyMaxBy] at h
  | cons x xs =>
    simp only [pyMaxBy, Except.ok.injEq] at h
    have := foldMax_spec key x xs
    simp only [h] at this
    obtain ⟨h1, h2, h3⟩ := this
    refine ⟨by rcases h1 with h1 | h1 <;> simp [h1], ?_⟩
    intro y hy
    rcases List.mem_cons.1 hy with rfl | hy
    · exact h2
    · exact h3 y hy

theorem pyMinBy_eq (key : α → Int) (l : List α) : pyMinBy key l = pyMaxBy (fun x => - key x) l := by
  cases l with
  | nil => rfl
  | cons x xs =>
    simp only [pyMinBy, pyMaxBy]
    congr 2
    funext b y
    simp

theorem pyMinBy_spec {key : α → Int} {l : List α} {b : α} (h : pyMinBy key l = .ok b) :
    b ∈ l ∧ ∀ y ∈ l, key b ≤ key y := by
  rw [pyMinBy_eq] at h
  obtain ⟨h1, h2⟩ := pyMaxBy_spec h
  exact ⟨h1, fun y hy => by have := h2 y hy; omega⟩

theorem pyMaxBy_defined (key : α → Int) {l : List α} (h : l ≠ []) : ∃ b, pyMaxBy key l = .ok b := by
  cases l with
  | nil => exact absurd rfl h
  | cons x xs => exact ⟨_, rfl⟩

theorem pyMinBy_defined (key : α → Int) {l : List α} (h : l ≠ []) : ∃ b, pyMinBy key l = .ok b := by
  cases l with
  | nil => exact absurd rfl h
  | cons x xs => exact ⟨_, rfl⟩

/-! ### Sorting -/

theorem mem_insAsc {x y : Int} {l : List Int} : y ∈ insAsc x l ↔ y = x ∨ y ∈ l := by
  induction l with
  | nil => simp [insAsc]
  | cons z l ih =>
    simp only [insAsc]
    split
    · simp
    · simp only [List.mem_cons, ih]; grind

theorem length_insAsc (x : Int) (l : List Int) : (insAsc x l).length = l.length + 1 := by
  induction l with
  | nil => rfl
  | cons z l ih => simp only [insAsc]; split <;> simp [ih]

theorem insAsc_sorted {x : Int} {l : List Int} (h : l.Pairwise (· ≤ ·)) :
    (insAsc x l).Pairwise (· ≤ ·) := by
  induction l with
  | nil => simp [insAsc]
  | cons z l ih =>
    simp only [insAsc]
    rw [List.pairwise_cons] at h
    split
    · rename_i hx
      rw [List.pairwise_cons, List.pairwise_cons]
      refine ⟨?_, h⟩
      intro y hy
      rcases List.mem_cons.1 hy with rfl | hy
      · exact hx
      · have := h.1 y hy; omega
    · rename_i hx
      rw [List.pairwise_cons]
      refine ⟨?_, ih h.2⟩
      intro y hy
      rcases mem_insAsc.1 hy with rfl | hy
      · omega
      · exact h.1 y hy

theorem sortAsc_sorted (l : List Int) : (sortAsc l).Pairwise (· ≤ ·) := by
  induction l with
  | nil => simp [sortAsc]
  | cons x l ih => exact insAsc_sorted ih

theorem mem_sortAsc {x : Int} {l : List Int} : x ∈ sortAsc l ↔ x ∈ l := by
  induction l with
  | nil => simp [sortAsc]
  | cons y l ih => simp [sortAsc, mem_insAsc, ih]

theorem length_sortAsc (l : List Int) : (sortAsc l).length = l.length := by
  induction l with
  | nil => rfl
  | cons x l ih => simp [sortAsc, length_insAsc, ih]

theorem minMax_spec {l : List Int} {mn mx : Int} (h : minMax l = some (mn, mx)) :
    mn ∈ l ∧ mx ∈ l ∧ ∀ x ∈ l, mn ≤ x ∧ x ≤ mx := by
  cases l with
  | nil => simp [minMax] at h
  | cons x xs =>
    simp only [minMax, Option.some.injEq, Prod.mk.injEq] at h
    obtain ⟨h1, h2⟩ := h
    have key1 : ∀ (xs : List Int) (x : Int), (xs.foldl min x = x ∨ xs.foldl min x ∈ xs) ∧
        xs.foldl min x ≤ x ∧ ∀ y ∈ xs, xs.foldl min x ≤ y := by
      intro xs
      induction xs with
      | nil => simp
      | cons y ys ih =>
        intro x
        obtain ⟨a, b, c⟩ := ih (min x y)
        simp only [List.foldl_cons, List.mem_cons]
        refine ⟨?_, by omega, ?_⟩
        · rcases a with a | a
          · rw [a]; omega
          · exact .inr (.inr a)
        · rintro z (rfl | hz)
          · omega
          · exact c z hz
    have key2 : ∀ (xs : List Int) (x : Int), (xs.foldl max x = x ∨ xs.foldl max x ∈ xs) ∧
        x ≤ xs.foldl max x ∧ ∀ y ∈ xs, y ≤ xs.foldl max x := by
      intro xs
      induction xs with
      | nil => simp
      | cons y ys ih =>
        intro x
        obtain ⟨a, b, c⟩ := ih (max x y)
        simp only [List.foldl_cons, List.mem_cons]
        refine ⟨?_, by omega, ?_⟩
        · rcases a with a | a
          · rw [a]; omega
          · exact .inr (.inr a)
        · rintro z (rfl | hz)
          · omega
          · exact c z hz
    obtain ⟨a1, b1, c1⟩ := key1 xs x
    obtain ⟨a2, b2, c2⟩ := key2 xs x
    rw [h1] at a1 b1 c1
    rw [h2] at a2 b2 c2
    refine ⟨by simp [a1], by simp [a2], ?_⟩
    intro y hy
    rcases List.mem_cons.1 hy with rfl | hy
    · exact ⟨b1, b2⟩
    · exact ⟨c1 y hy, c2 y hy⟩

/-! ### Deduplication -/

theorem dedup_spec [DecidableEq σ] (l acc : List (σ × Int)) :
    (∀ p ∈ acc, p ∈ dedup l acc) ∧ (∀ p ∈ dedup l acc, p ∈ acc ∨ p ∈ l) ∧
    (∀ p ∈ l, ∃ q ∈ dedup l acc, q.1 = p.1) := by
  induction l generalizing acc with
  | nil => simp [dedup]
  | cons p l ih =>
    obtain ⟨s, f⟩ := p
    simp only [dedup]
    split
    · rename_i hc
      obtain ⟨h1, h2, h3⟩ := ih acc
      refine ⟨h1, fun p hp => ?_, fun p hp => ?_⟩
      · rcases h2 p hp with h | h <;> simp [h]
      · rcases List.mem_cons.1 hp with rfl | hp
        · simp only [List.contains_iff_mem, List.mem_map] at hc
          obtain ⟨q, hq, hqs⟩ := hc
          exact ⟨q, h1 q hq, hqs⟩
        · exact h3 p hp
    · obtain ⟨h1, h2, h3⟩ := ih (acc ++ [(s, f)])
      refine ⟨fun p hp => h1 p (by simp [hp]), fun p hp => ?_, fun p hp => ?_⟩
      · rcases h2 p hp with h | h
        · rcases List.mem_append.1 h with h | h
          · exact .inl h
          · simp only [List.mem_singleton] at h; simp [h]
        · simp [h]
      · rcases List.mem_cons.1 hp with rfl | hp
        · exact ⟨(s, f), h1 _ (by simp), rfl⟩
        · exact h3 p hp

theorem dedup_ne_nil [DecidableEq σ] {l : List (σ × Int)} (h : l ≠ []) : dedup l [] ≠ [] := by
  cases l with
  | nil => exact absurd rfl h
  | cons p l =>
    obtain ⟨q, hq, _⟩ := (dedup_spec (p :: l) []).2.2 p (by simp)
    intro hn
    rw [hn] at hq; simp at hq

end Verif.Results

namespace Verif.Results

theorem nsmallest_spec {n : Nat} {l : List Int} (hn : 1 ≤ n) :
    (∀ x ∈ nsmallest n l, x ∈ l) ∧ ∀ x ∈ l, ∃ y ∈ nsmallest n l, y ≤ x := by
  unfold nsmallest
  refine ⟨fun x hx => mem_sortAsc.1 (List.mem_of_mem_take hx), ?_⟩
  intro x hx
  have hx := mem_sortAsc.2 hx
  have hs := sortAsc_sorted l
  cases h : sortAsc l with
  | nil => rw [h] at hx; simp at hx
  | cons m rest =>
    rw [h] at hx hs
    obtain ⟨n, rfl⟩ : ∃ k, n = k + 1 := ⟨n - 1, by omega⟩
    refine ⟨m, by simp, ?_⟩
    rcases List.mem_cons.1 hx with rfl | hx
    · omega
    · exact (List.pairwise_cons.1 hs).1 x hx

theorem reverse_sorted {l : List Int} (h : l.Pairwise (· ≤ ·)) : l.reverse.Pairwise (· ≥ ·) := by
  rw [List.pairwise_reverse]; exact h

theorem nlargest_spec {n : Nat} {l : List Int} (hn : 1 ≤ n) :
    (∀ x ∈ nlargest n l, x ∈ l) ∧ ∀ x ∈ l, ∃ y ∈ nlargest n l, x ≤ y := by
  unfold nlargest
  refine ⟨fun x hx => mem_sortAsc.1 (List.mem_reverse.1 (List.mem_of_mem_take hx)), ?_⟩
  intro x hx
  have hx := List.mem_reverse.2 (mem_sortAsc.2 hx)
  have hs := reverse_sorted (sortAsc_sorted l)
  cases h : (sortAsc l).reverse with
  | nil => rw [h] at hx; simp at hx
  | cons m rest =>
    rw [h] at hx hs
    obtain ⟨n, rfl⟩ : ∃ k, n = k + 1 := ⟨n - 1, by omega⟩
    refine ⟨m, by simp, ?_⟩
    rcases List.mem_cons.1 hx with rfl | hx
    · omega
    · exact (List.pairwise_cons.1 hs).1 x hx

/-- `a` is at least as good as `b` in the given direction. -/
def Better (maximize : Bool) (a b : Int) : Prop := if maximize then b ≤ a else a ≤ b

theorem bestOf_spec {mx : Bool} {l : List (σ × Int)} {b : σ × Int} (h : bestOf mx l = .ok b) :
    b ∈ l ∧ ∀ p ∈ l, Better mx b.2 p.2 := by
  unfold bestOf at h
  cases mx with
  | true => obtain ⟨h1, h2⟩ := pyMaxBy_spec h; exact ⟨h1, by simpa [Better] using h2⟩
  | false => obtain ⟨h1, h2⟩ := pyMinBy_spec h; exact ⟨h1, by simpa [Better] using h2⟩

theorem bestOf_defined (mx : Bool) {l : List (σ × Int)} (h : l ≠ []) : ∃ b, bestOf mx l = .ok b := by
  unfold bestOf
  cases mx
  · exact pyMinBy_defined _ h
  · exact pyMaxBy_defined _ h

/-- State of a store with respect to everything it was given. -/
structure StoreInv [DecidableEq σ] (st : Store σ) (given : List (σ × Int)) : Prop where
  mm : ∃ mn mx, st.minmax = some (mn, mx) ∧ mn ≤ mx ∧
    ∃ s, st.best = some s ∧ (s, if st.maximize then mx else mn) ∈ given ∧
      ∀ p ∈ given, Better st.maximize (if st.maximize then mx else mn) p.2
  seen_sub : ∀ p ∈ st.seen, p ∈ st.sols
  sols_sub : ∀ p ∈ st.sols, p ∈ given
  seen_all : ∀ p ∈ given, ∃ q ∈ st.seen, q.1 = p.1
  heap_mx : st.maximize = true → ∀ mn mx, st.minmax = some (mn, mx) →
    mx ∈ st.heap ∧ ∀ x ∈ st.heap, x ≤ mx
  heap_mn : st.maximize = false → st.limit = false → ∀ mn mx, st.minmax = some (mn, mx) →
    mn ∈ st.heap ∧ ∀ x ∈ st.heap, mn ≤ x

/-- Equal solutions have equal fitness. -/
def Consistent (given : List (σ × Int)) : Prop :=
  ∀ p ∈ given, ∀ q ∈ given, p.1 = q.1 → p.2 = q.2

theorem init_inv [DecidableEq σ] (l : List (σ × Int)) (hl : l ≠ []) (mxz lim : Bool) (nb : Nat)
    (hnb : lim = true → 1 ≤ nb) (hc : Consistent l) :
    StoreInv (Store.init l none mxz lim nb) l ∧ (Store.init l none mxz lim nb).maximize = mxz := by
  obtain ⟨d1, d2, d3⟩ := dedup_spec l []
  have hd2 : ∀ p ∈ dedup l [], p ∈ l := fun p hp => by simpa using d2 p hp
  let heap0 := (dedup l []).map Prod.snd
  have hh0 : heap0 ≠ [] := by simp [heap0, dedup_ne_nil hl]
  have hall0 : ∀ p ∈ l, p.2 ∈ heap0 := by
    intro p hp
    obtain ⟨q, hq, hqp⟩ := d3 p hp
    rw [hc p hp q (hd2 q hq) hqp.symm]
    exact List.mem_map.2 ⟨q, hq, rfl⟩
  have hsub0 : ∀ x ∈ heap0, ∃ p ∈ l, p.2 = x := by
    intro x hx
    obtain ⟨q, hq, rfl⟩ := List.mem_map.1 hx
    exact ⟨q, hd2 q hq, rfl⟩
  let heap := if heap0.length ≥ nb ∧ lim = true then
      (if mxz then nlargest nb heap0 else nsmallest nb heap0) else heap0
  have hsub : ∀ x ∈ heap, x ∈ heap0 := by
    intro x hx
    simp only [heap] at hx
    split at hx
    · rename_i h
      split at hx
      · exact (nlargest_spec (hnb h.2)).1 x hx
      · exact (nsmallest_spec (hnb h.2)).1 x hx
    · exact hx
  have hext : ∀ x ∈ heap0, ∃ y ∈ heap, Better mxz y x := by
    intro x hx
    simp only [heap]
    split
    · rename_i h
      cases mxz with
      | true => simpa [Better] using (nlargest_spec (l := heap0) (hnb h.2)).2 x hx
      | false => simpa [Better] using (nsmallest_spec (l := heap0) (hnb h.2)).2 x hx
    · exact ⟨x, hx, by unfold Better; split <;> omega⟩
  have hne : heap ≠ [] := by
    intro hn
    cases h0 : heap0 with
    | nil => exact hh0 h0
    | cons x xs =>
      obtain ⟨y, hy, _⟩ := hext x (by simp [h0])
      rw [hn] at hy; simp at hy
  obtain ⟨mn, mx, hmm⟩ : ∃ mn mx, minMax heap = some (mn, mx) := by
    cases h : heap with
    | nil => exact absurd h hne
    | cons x xs => exact ⟨_, _, rfl⟩
  obtain ⟨m1, m2, m3⟩ := minMax_spec hmm
  obtain ⟨b, hb⟩ := bestOf_defined mxz hl
  obtain ⟨b1, b2⟩ := bestOf_spec hb
  have hinit : Store.init l none mxz lim nb = ⟨l, some b.1, mxz, lim, nb, heap, some (mn, mx), dedup l []⟩ := by
    have : minMax (if heap0.length ≥ nb ∧ lim = true then
      (if mxz then nlargest nb heap0 else nsmallest nb heap0) else heap0) = some (mn, mx) := hmm
    unfold Store.init
    simp only [heap0] at this
    simp only [this, hb]
    rfl
  rw [hinit]
  refine ⟨⟨?_, ?_, ?_, ?_, ?_, ?_⟩, rfl⟩
  · refine ⟨mn, mx, rfl, (m3 mn m1).2, b.1, rfl, ?_, ?_⟩
    · have : b.2 = if mxz then mx else mn := by
        obtain ⟨y, hy, hyb⟩ := hext _ (hall0 b b1)
        have hy3 := m3 y hy
        cases mxz with
        | true =>
          obtain ⟨p, hp, hpx⟩ := hsub0 mx (hsub mx m2)
          have := b2 p hp
          simp only [Better, if_true] at this hyb ⊢
          omega
        | false =>
          obtain ⟨p, hp, hpx⟩ := hsub0 mn (hsub mn m1)
          have := b2 p hp
          simp only [Better] at this hyb ⊢
          simp at this hyb ⊢
          omega
      simp only [← this]; exact b1
    · intro p hp
      obtain ⟨y, hy, hyb⟩ := hext _ (hall0 p hp)
      have hy3 := m3 y hy
      cases mxz with
      | true => simp only [Better, if_true] at hyb ⊢; omega
      | false => simp [Better] at hyb ⊢; omega
  · exact hd2
  · exact fun p hp => hp
  · exact d3
  · intro _ mn' mx' h
    cases h
    exact ⟨m2, fun x hx => (m3 x hx).2⟩
  · intro _ _ mn' mx' h
    cases h
    exact ⟨m1, fun x hx => (m3 x hx).1⟩

theorem heappushpop_max {heap : List Int} {mx x : Int} (h1 : mx ∈ heap) (h2 : ∀ y ∈ heap, y ≤ mx) :
    max x mx ∈ heappushpop heap x ∧ ∀ y ∈ heappushpop heap x, y ≤ max x mx := by
  unfold heappushpop
  have hs := sortAsc_sorted heap
  cases h : sortAsc heap with
  | nil => rw [← mem_sortAsc, h] at h1; simp at h1
  | cons m rest =>
    have hm : ∀ y, y ∈ m :: rest ↔ y ∈ heap := fun y => by rw [← h]; exact mem_sortAsc
    rw [h] at hs
    have hs := List.pairwise_cons.1 hs
    have hmx := (hm mx).2 h1
    have hmm := h2 m ((hm m).1 (by simp))
    simp only
    split
    · rename_i hlt
      constructor
      · rw [mem_insAsc]
        by_cases hx : mx ≤ x
        · left; omega
        · right
          have e : max x mx = mx := by omega
          rw [e]
          rcases List.mem_cons.1 hmx with rfl | hmx
          · omega
          · exact hmx
      · intro y hy
        rcases mem_insAsc.1 hy with rfl | hy
        · omega
        · have := h2 y ((hm y).1 (by simp [hy])); omega
    · rename_i hlt
      have e : max x mx = mx := by omega
      rw [e]
      exact ⟨hmx, fun y hy => h2 y ((hm y).1 hy)⟩

theorem add_inv [DecidableEq σ] {st : Store σ} {given : List (σ × Int)} (hi : StoreInv st given)
    (s : σ) (f : Int) :
    ∃ st', st.add s f = .ok st' ∧ StoreInv st' (given ++ [(s, f)]) ∧ st'.maximize = st.maximize ∧
      st'.limit = st.limit := by
  obtain ⟨⟨mn, mx, hmm, hle, s0, hb, hmem, hbest⟩, hss, hsg, hsa, hhx, hhn⟩ := hi
  obtain ⟨hx1, hx2⟩ : (st.maximize = true → mx ∈ st.heap) ∧
      (st.maximize = true → ∀ x ∈ st.heap, x ≤ mx) :=
    ⟨fun h => (hhx h mn mx hmm).1, fun h => (hhx h mn mx hmm).2⟩
  have hn1 : st.maximize = false → st.limit = false → mn ∈ st.heap ∧ ∀ x ∈ st.heap, mn ≤ x :=
    fun h h' => hhn h h' mn mx hmm
  -- seen / sols part
  let isNew := !(st.seen.map Prod.fst).contains s
  let sols := if isNew then st.sols ++ [(s, f)] else st.sols
  let seen := if isNew then st.seen ++ [(s, f)] else st.seen
  have p1 : ∀ p ∈ seen, p ∈ sols := by
    intro p hp
    simp only [seen, sols] at hp ⊢
    split at hp
    · rename_i h
      rw [if_pos h]
      rcases List.mem_append.1 hp with hp | hp
      · simp [hss p hp]
      · exact List.mem_append.2 (.inr hp)
    · rename_i h
      rw [if_neg h]; exact hss p hp
  have p2 : ∀ p ∈ sols, p ∈ given ++ [(s, f)] := by
    intro p hp
    simp only [sols] at hp
    split at hp
    · rcases List.mem_append.1 hp with hp | hp
      · simp [hsg p hp]
      · exact List.mem_append.2 (.inr hp)
    · simp [hsg p hp]
  have p3 : ∀ p ∈ given ++ [(s, f)], ∃ q ∈ seen, q.1 = p.1 := by
    intro p hp
    simp only [seen]
    rcases List.mem_append.1 hp with hp | hp
    · obtain ⟨q, hq, h⟩ := hsa p hp
      refine ⟨q, ?_, h⟩
      split
      · simp [hq]
      · exact hq
    · simp only [List.mem_singleton] at hp
      subst hp
      split
      · exact ⟨(s, f), by simp, rfl⟩
      · rename_i h
        simp only [isNew, Bool.not_eq_true', Bool.not_eq_false, List.contains_iff_mem,
          List.mem_map] at h
        obtain ⟨q, hq, h⟩ := h
        exact ⟨q, hq, h⟩
  let best := if (st.maximize = true ∧ f > mx) ∨ (st.maximize = false ∧ f < mn)
      then some s else st.best
  unfold Store.add
  simp only [hmm]
  split
  · rename_i hpush
    refine ⟨_, rfl, ⟨⟨min f mn, max f mx, rfl, by omega, ?_⟩, p1, p2, p3, ?_, ?_⟩, rfl, rfl⟩
    · cases hM : st.maximize with
      | true =>
        simp only [hM, true_and, Bool.true_eq_false, false_and, or_false, if_true, Better] at hmem hbest hpush ⊢
        by_cases hf : f > mx
        · refine ⟨s, by simp [hf], ?_, ?_⟩
          · have : max f mx = f := by omega
            rw [this]; simp
          · intro p hp
            rcases List.mem_append.1 hp with hp | hp
            · have := hbest p hp; omega
            · simp only [List.mem_singleton] at hp; subst hp; omega
        · refine ⟨s0, by simp [hf, hb], ?_, ?_⟩
          · have : max f mx = mx := by omega
            rw [this]; simp [hmem]
          · intro p hp
            rcases List.mem_append.1 hp with hp | hp
            · have := hbest p hp; omega
            · simp only [List.mem_singleton] at hp; subst hp; omega
      | false =>
        simp only [hM, true_and, Bool.false_eq_true, false_and, false_or, if_false, Better] at hmem hbest hpush ⊢
        by_cases hf : f < mn
        · refine ⟨s, by simp [hf], ?_, ?_⟩
          · have : min f mn = f := by omega
            rw [this]; simp
          · intro p hp
            rcases List.mem_append.1 hp with hp | hp
            · have := hbest p hp; omega
            · simp only [List.mem_singleton] at hp; subst hp; simp only; omega
        · refine ⟨s0, by simp [hf, hb], ?_, ?_⟩
          · have : min f mn = mn := by omega
            rw [this]; simp [hmem]
          · intro p hp
            rcases List.mem_append.1 hp with hp | hp
            · have := hbest p hp; omega
            · simp only [List.mem_singleton] at hp; subst hp; simp only; omega
    · intro hM mn' mx' h
      cases h
      simp only
      split
      · exact heappushpop_max (hx1 hM) (hx2 hM)
      · refine ⟨?_, ?_⟩
        · by_cases hf : f > mx
          · have : max f mx = f := by omega
            rw [this]; simp
          · have : max f mx = mx := by omega
            rw [this]; simp [hx1 hM]
        · intro y hy
          rcases List.mem_cons.1 hy with rfl | hy
          · omega
          · have := hx2 hM y hy; omega
    · intro hM hL mn' mx' h
      cases h
      simp only at hM hL ⊢
      obtain ⟨q1, q2⟩ := hn1 hM hL
      rw [if_neg (by simp [hL])]
      refine ⟨?_, ?_⟩
      · by_cases hf : f < mn
        · have : min f mn = f := by omega
          rw [this]; simp
        · have : min f mn = mn := by omega
          rw [this]; simp [q1]
      · intro y hy
        rcases List.mem_cons.1 hy with rfl | hy
        · omega
        · have := q2 y hy; omega
  · rename_i hpush
    refine ⟨_, rfl, ⟨⟨mn, mx, rfl, hle, ?_⟩, p1, p2, p3, ?_, ?_⟩, rfl, rfl⟩
    · refine ⟨s0, ?_, ?_, ?_⟩
      · simp only
        rw [if_neg, hb]
        rintro (⟨hM, h⟩ | ⟨hM, h⟩)
        · exact hpush (.inl ⟨hM, by omega⟩)
        · exact hpush (.inr ⟨hM, by omega⟩)
      · exact List.mem_append.2 (.inl hmem)
      · intro p hp
        rcases List.mem_append.1 hp with hp | hp
        · exact hbest p hp
        · simp only [List.mem_singleton] at hp
          subst hp
          cases hM : st.maximize with
          | true =>
            simp only [Better, if_true]
            have : ¬ (f ≥ mn) := fun h => hpush (.inl ⟨hM, h⟩)
            omega
          | false =>
            have : ¬ (f ≤ mx) := fun h => hpush (.inr ⟨hM, h⟩)
            simp [Better]
            omega
    · intro hM mn' mx' h
      exact hhx hM mn' mx' (hmm.trans h)
    · intro hM hL mn' mx' h
      exact hhn hM hL mn' mx' (hmm.trans h)

theorem addAll_inv [DecidableEq σ] {st : Store σ} {given : List (σ × Int)} (hi : StoreInv st given)
    (l : List (σ × Int)) :
    ∃ st', st.addAll l = .ok st' ∧ StoreInv st' (given ++ l) ∧ st'.maximize = st.maximize ∧
      st'.limit = st.limit := by
  induction l generalizing st given with
  | nil => exact ⟨st, rfl, by simpa using hi, rfl, rfl⟩
  | cons p l ih =>
    obtain ⟨s, f⟩ := p
    obtain ⟨st1, h1, h2, h3, h4⟩ := add_inv hi s f
    obtain ⟨st2, h5, h6, h7, h8⟩ := ih h2
    refine ⟨st2, ?_, by simpa using h6, h7.trans h3, h8.trans h4⟩
    simp only [Store.addAll, h1, bind_ok, h5]

end Verif.Results
