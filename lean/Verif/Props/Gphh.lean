import Verif.Lemmas.Gphh
import Mathlib.Tactic.Ring
import Mathlib.Tactic.Set
import Mathlib.Data.List.Pairwise
import Mathlib.Data.List.Perm.Subperm
import Mathlib.Algebra.Order.Group.Abs
import Mathlib.Tactic.FieldSimp

/-!
C150 to C153: rankings, pools, features and fitness of the evolved heuristics.
-/
namespace Verif.Gphh

/-! ### Rankings -/

/-- Position `x` (from 1) is before position `y`: smaller value, or the same value and the smaller position. -/
def Before (raw : List Rat) (x y : Nat) : Prop :=
  ∃ u v, raw[x - 1]? = some u ∧ raw[y - 1]? = some v ∧ (u < v ∨ (u = v ∧ x < y))

theorem rank_perm (raw : List Rat) : (rank raw).Perm (List.range' 1 raw.length) := by
  have h := (sortR_perm (fun k => (raw[k]?).getD 0) (List.range raw.length)).map (· + 1)
  have e : (List.range raw.length).map (· + 1) = List.range' 1 raw.length := by
    rw [List.range_eq_range', ← List.map_add_range' (a := 1) (s := 0)]
    exact List.map_congr_left fun a _ => Nat.add_comm a 1
  rw [e] at h
  exact h

theorem rank_before (raw : List Rat) : (rank raw).Pairwise (Before raw) := by
  unfold rank
  rw [List.pairwise_map]
  have h : (sortR (fun k => (raw[k]?).getD 0) (List.range raw.length)).Pairwise (Asc (fun k => (raw[k]?).getD 0) (· < ·)) :=
    sortR_asc List.pairwise_lt_range
  refine (List.Pairwise.and_mem.1 h).imp ?_
  rintro a b ⟨ha, hb, h⟩
  have ha := List.mem_range.1 ((sortR_perm _ _).mem_iff.1 ha)
  have hb := List.mem_range.1 ((sortR_perm _ _).mem_iff.1 hb)
  refine ⟨raw[a], raw[b], by simp [ha], by simp [hb], ?_⟩
  simp only [Asc, List.getElem?_eq_getElem ha, List.getElem?_eq_getElem hb, Option.getD_some] at h
  rcases h with h | h
  · exact Or.inl h
  · exact Or.inr ⟨h.1, by omega⟩

/-- The ranking is the list of all positions, from 1, by ascending value and equal values by position, and the only such list. -/
theorem C150_rank (raw : List Rat) (l : List Nat) :
    (l.Perm (List.range' 1 raw.length) ∧ l.Pairwise (Before raw)) ↔ l = rank raw := by
  constructor
  · rintro ⟨h1, h2⟩
    refine List.Perm.eq_of_pairwise ?_ h2 (rank_before raw) (h1.trans (rank_perm raw).symm)
    rintro a b _ _ ⟨u, v, e1, e2, e3⟩ ⟨u', v', f1, f2, f3⟩
    rw [e1] at f2; rw [e2] at f1
    cases f1; cases f2
    rcases e3 with e3 | e3 <;> rcases f3 with f3 | f3
    · linarith
    · linarith [f3.1]
    · linarith [e3.1]
    · omega
  · rintro rfl
    exact ⟨rank_perm raw, rank_before raw⟩

/-- Only the comparisons between values count: heuristics that compare all tasks alike give the same ranking. -/
theorem C150_order_only (raw raw' : List Rat) (hl : raw.length = raw'.length)
    (h : ∀ (i j : Nat) (u v u' v' : Rat), raw[i]? = some u → raw[j]? = some v → raw'[i]? = some u' → raw'[j]? = some v' →
      (u < v ↔ u' < v')) : rank raw = rank raw' := by
  rw [← C150_rank raw' (rank raw)]
  refine ⟨hl ▸ rank_perm raw, (List.Pairwise.and_mem.1 (rank_before raw)).imp ?_⟩
  rintro a b ⟨_, _, u, v, e1, e2, e3⟩
  have ha : a - 1 < raw'.length := hl ▸ (List.getElem?_eq_some_iff.1 e1).1
  have hb : b - 1 < raw'.length := hl ▸ (List.getElem?_eq_some_iff.1 e2).1
  have f1 := List.getElem?_eq_getElem ha
  have f2 := List.getElem?_eq_getElem hb
  refine ⟨_, _, f1, f2, ?_⟩
  have h1 := h _ _ _ _ _ _ e1 e2 f1 f2
  have h2 := h _ _ _ _ _ _ e2 e1 f2 f1
  rcases e3 with e3 | ⟨e3, e4⟩
  · exact Or.inl (h1.1 e3)
  · subst e3
    simp only [lt_irrefl, false_iff, not_lt] at h1 h2
    exact Or.inr ⟨le_antisymm h2 h1, e4⟩

/-- The permutation for the discrete optimisation model holds every inner task once, numbered from 0, in the order of the ranking. -/
theorem C150_inner (raw : List Rat) (hn : 2 ≤ raw.length) :
    (forDo (rank raw)).Perm ((List.range (raw.length - 2)).map Int.ofNat) ∧
    (forDo (rank raw)).map (· + 2) = ((rank raw).filter fun x => decide (x ≠ 1 ∧ x ≠ raw.length)).map Int.ofNat := by
  have hl : (rank raw).length = raw.length := by rw [(rank_perm raw).length_eq]; simp
  constructor
  · unfold forDo
    rw [hl]
    have h := ((rank_perm raw).filter fun x => decide (x ≠ 1 ∧ x ≠ raw.length)).map fun (x : Nat) => (x : Int) - 2
    refine h.trans (List.Perm.of_eq ?_)
    obtain ⟨n, hn'⟩ : ∃ n, raw.length = n + 2 := ⟨raw.length - 2, by omega⟩
    rw [hn']
    have e : List.range' 1 (n + 2) = [1] ++ List.range' 2 n ++ [n + 2] := by
      rw [List.range'_succ, List.range'_concat]
      simp [Nat.add_comm]
    rw [e]
    have e2 : (List.range' 2 n).filter (fun x => decide (x ≠ 1 ∧ x ≠ n + 2)) = List.range' 2 n := by
      rw [List.filter_eq_self]
      intro a ha
      rw [List.mem_range'_1] at ha
      have h1 : a ≠ 1 := by omega
      have h2 : a ≠ n + 2 := by omega
      simp [h1, h2]
    simp only [List.filter_append, e2]
    simp only [List.filter_cons, List.filter_nil, ne_eq, not_true_eq_false, false_and, and_false, decide_false,
      Bool.false_eq_true, if_false, List.nil_append, List.append_nil, Nat.add_sub_cancel]
    rw [List.range_eq_range', ← List.map_add_range' (a := 2) (s := 0)]
    rw [List.map_map]
    apply List.map_congr_left
    intro a _
    simp only [Function.comp]
    show ((2 + a : Nat) : Int) - 2 = _
    simp
  · unfold forDo
    rw [hl, List.map_map]
    apply List.map_congr_left
    intro a _
    simp

example : rank [3, 1, 2, 1] = [2, 4, 3, 1] ∧ forDo (rank [3, 1, 2, 1]) = [0, 1] ∧ rank [3, 1, 2, 1] = rank [0, -5, -1 / 2, -5] := by
  decide +kernel

/-- The raw values of a tree on the features of the tasks. -/
def valuesOf (e : Expr) (feats : List (List Rat)) : List Rat := feats.map fun f => e.eval f

/-- Negating a heuristic that gives no value twice turns its ranking round. -/
theorem C150_negated (e : Expr) (feats : List (List Rat)) (hn : (valuesOf e feats).Nodup) :
    rank (valuesOf (.neg e) feats) = (rank (valuesOf e feats)).reverse := by
  symm
  rw [← C150_rank]
  have hl : (valuesOf (.neg e) feats).length = (valuesOf e feats).length := by simp [valuesOf]
  refine ⟨?_, ?_⟩
  · rw [hl]
    exact (List.reverse_perm _).trans (rank_perm _)
  · rw [List.pairwise_reverse]
    have hnd : (rank (valuesOf e feats)).Nodup := (rank_perm _).nodup_iff.2 List.nodup_range'
    refine ((List.Pairwise.and_mem.1 (rank_before _)).and hnd).imp ?_
    rintro a b ⟨⟨ha, hb, u, v, e1, e2, e3⟩, hab⟩
    have hneg : ∀ (k : Nat) (w : Rat), (valuesOf e feats)[k]? = some w → (valuesOf (.neg e) feats)[k]? = some (-w) := by
      intro k w hw
      simp only [valuesOf, List.getElem?_map] at hw ⊢
      cases hf : feats[k]? with
      | none => rw [hf] at hw; cases hw
      | some f => rw [hf] at hw; cases hw; rfl
    refine ⟨-v, -u, hneg _ _ e2, hneg _ _ e1, ?_⟩
    rcases e3 with e3 | ⟨e3, e4⟩
    · left; linarith
    · exfalso
      subst e3
      have ha := List.mem_range'_1.1 ((rank_perm _).mem_iff.1 ha)
      have hb := List.mem_range'_1.1 ((rank_perm _).mem_iff.1 hb)
      have := hn.getElem_inj_iff (i := a - 1) (j := b - 1) (hi := (List.getElem?_eq_some_iff.1 e1).1) (hj := (List.getElem?_eq_some_iff.1 e2).1)
      rw [(List.getElem?_eq_some_iff.1 e1).2, (List.getElem?_eq_some_iff.1 e2).2] at this
      have := this.1 rfl
      omega

/-- The greatest of two expressions is one of them and not below either; the least likewise. -/
theorem C150_extremes (a b : Expr) (xs : List Rat) :
    (Expr.max a b).eval xs ∈ [a.eval xs, b.eval xs] ∧ a.eval xs ≤ (Expr.max a b).eval xs ∧ b.eval xs ≤ (Expr.max a b).eval xs ∧
    (Expr.min a b).eval xs ∈ [a.eval xs, b.eval xs] ∧ (Expr.min a b).eval xs ≤ a.eval xs ∧ (Expr.min a b).eval xs ≤ b.eval xs := by
  simp only [Expr.eval]
  refine ⟨by split <;> simp, ?_, ?_, by split <;> simp, ?_, ?_⟩ <;> split <;> grind

example : (Expr.max (.arg 0) (.arg 1)).eval [2, 5] = 5 ∧ (Expr.min (.arg 0) (.arg 1)).eval [2, 5] = 2 := by decide +kernel

/-- Division never fails: where the divisor is zero the quotient is 1, so a tree divided by `x - x` gives every task the same value and
the ranking is the order of the tasks; elsewhere it is the quotient. -/
theorem C150_division (e a b : Expr) (feats : List (List Rat)) :
    rank (valuesOf (.div e (.sub a a)) feats) = List.range' 1 feats.length ∧
    ∀ f : List Rat, b.eval f ≠ 0 → (Expr.div e b).eval f * b.eval f = e.eval f := by
  constructor
  · symm
    rw [← C150_rank]
    refine ⟨by simp [valuesOf], ?_⟩
    refine (List.Pairwise.and_mem.1 List.pairwise_lt_range').imp ?_
    rintro x y ⟨hx, hy, h⟩
    have hx := List.mem_range'_1.1 hx
    have hy := List.mem_range'_1.1 hy
    have hone : ∀ k : Nat, k < feats.length → (valuesOf (.div e (.sub a a)) feats)[k]? = some 1 := by
      intro k hk
      simp [valuesOf, Expr.eval, protectedDiv, List.getElem?_replicate, hk]
    exact ⟨1, 1, hone _ (by omega), hone _ (by omega), Or.inr ⟨rfl, h⟩⟩
  · intro f hb
    simp only [Expr.eval, protectedDiv, if_pos hb]
    exact div_mul_cancel₀ _ hb

example : valuesOf (.max (.arg 0) (.mul (.arg 1) (.min (.arg 0) (.arg 1)))) [[1, 2], [3, 1], [-1, 5]] = [2, 3, -1] := by decide +kernel

/-! ### Pools -/

theorem absR_eq (x : Rat) : absR x = |x| := by
  unfold absR
  split
  · rename_i h; rw [abs_of_neg h]
  · rename_i h; rw [abs_of_nonneg (not_lt.1 h)]

theorem sorted_eq {l s : List Rat} (hp : s.Perm l) (hs : s.Pairwise (· ≤ ·)) : s = sortR id l := by
  refine List.Perm.eq_of_pairwise ?_ hs (sortR_sorted id l) (hp.trans (sortR_perm id l).symm)
  intro a b _ _ h1 h2
  exact le_antisymm h1 h2

/-- The median is the middle of the two middle values (which coincide for odd lengths) of the values in ascending order. -/
theorem C151_median (l s : List Rat) (hp : s.Perm l) (hs : s.Pairwise (· ≤ ·)) (hne : l ≠ []) :
    ∃ a b, s[(l.length - 1) / 2]? = some a ∧ s[l.length / 2]? = some b ∧ median l = some ((a + b) / 2) := by
  have e := sorted_eq hp hs
  have hl : s.length = l.length := hp.length_eq
  have hn : l.length ≠ 0 := fun h => hne (List.length_eq_zero_iff.1 h)
  have h1 : (l.length - 1) / 2 < s.length := by omega
  have h2 : l.length / 2 < s.length := by omega
  refine ⟨s[(l.length - 1) / 2], s[l.length / 2], List.getElem?_eq_getElem h1, List.getElem?_eq_getElem h2, ?_⟩
  simp only [median, ← e, hn, if_false]
  split
  · rename_i hodd
    have : (l.length - 1) / 2 = l.length / 2 := by omega
    simp only [this, List.getElem?_eq_getElem h2, add_self_div_two]
  · rename_i hev
    have : l.length / 2 - 1 = (l.length - 1) / 2 := by omega
    rw [this, List.getElem?_eq_getElem h1, List.getElem?_eq_getElem h2]
    rfl

theorem median_mem_bounds {l : List Rat} {v lo hi : Rat} (h : median l = some v) (h1 : ∀ x ∈ l, lo ≤ x) (h2 : ∀ x ∈ l, x ≤ hi) :
    lo ≤ v ∧ v ≤ hi := by
  have hne : l ≠ [] := by rintro rfl; cases h
  obtain ⟨a, b, e1, e2, e3⟩ := C151_median l (sortR id l) (sortR_perm id l) (sortR_sorted id l) hne
  rw [h] at e3
  have e3 := Option.some.inj e3
  have ha := (sortR_perm id l).mem_iff.1 (List.mem_of_getElem? e1)
  have hb := (sortR_perm id l).mem_iff.1 (List.mem_of_getElem? e2)
  have := h1 a ha; have := h1 b hb; have := h2 a ha; have := h2 b hb
  constructor <;> linarith

theorem median_ok {l : List Rat} (hne : l ≠ []) : ∃ v, median l = some v := by
  obtain ⟨a, b, _, _, e⟩ := C151_median l (sortR id l) (sortR_perm id l) (sortR_sorted id l) hne
  exact ⟨_, e⟩

theorem mean_ok {l : List Rat} (hne : l ≠ []) : ∃ v, mean l = some v :=
  ⟨_, if_neg fun h => hne (List.length_eq_zero_iff.1 h)⟩

/-- Removing the `k` extreme values: the removed ones are `k` different positions, each farther from the median than every kept one or
equally far and before it; the others stay in order. -/
theorem C151_trim (k : Nat) (l : List Rat) (hk : k ≤ l.length) (m : Rat) (hm : median l = some m) :
    ∃ rem : List Nat, rem.Nodup ∧ rem.length = k ∧ (∀ j ∈ rem, j < l.length) ∧
      trim k l = .ok (((List.range l.length).filter fun i => decide (i ∉ rem)).filterMap fun i => l[i]?) ∧
      ∀ (i j : Nat) (u v : Rat), i ∉ rem → j ∈ rem → l[i]? = some u → l[j]? = some v →
        |u - m| < |v - m| ∨ (|u - m| = |v - m| ∧ j < i) := by
  have hgen : ∀ q : List Nat, (∀ i ∈ q, i < l.length) → q.map (fun i => (l[i]?).getD 0) = q.filterMap fun i => l[i]? := by
    intro q
    induction q with
    | nil => intro _; rfl
    | cons i q ih =>
      intro h
      have hi := h i (List.mem_cons_self ..)
      rw [List.map_cons, List.filterMap_cons, ih fun j hj => h j (List.mem_cons_of_mem _ hj)]
      simp [List.getElem?_eq_getElem hi]
  by_cases hk0 : k = 0
  · subst hk0
    refine ⟨[], List.nodup_nil, rfl, by simp, ?_, by simp⟩
    simp only [trim, if_true]
    congr 1
    have : (List.range l.length).filter (fun i => decide (i ∉ ([] : List Nat))) = List.range l.length := by simp
    rw [this]
    rw [← hgen _ fun i hi => List.mem_range.1 hi]
    apply List.ext_getElem
    · simp
    · intro i h1 h2; simp [List.getElem?_eq_getElem h1]
  · set key : Nat → Rat := fun i => - absR (((l[i]?).getD 0) - m) with hkey
    have hperm := sortR_perm key (List.range l.length)
    have hasc : (sortR key (List.range l.length)).Pairwise (Asc key (· < ·)) := sortR_asc List.pairwise_lt_range
    have hnd : (sortR key (List.range l.length)).Nodup := hperm.nodup_iff.2 List.nodup_range
    refine ⟨(sortR key (List.range l.length)).take k, hnd.sublist (List.take_sublist ..), ?_, ?_, ?_, ?_⟩
    · rw [List.length_take, hperm.length_eq, List.length_range]; omega
    · intro j hj
      exact List.mem_range.1 (hperm.mem_iff.1 (List.mem_of_mem_take hj))
    · simp only [trim, hk0, if_false, hm, Option.getD_some, not_lt.2 hk]
      rw [hgen]
      intro i hi
      exact List.mem_range.1 (List.mem_filter.1 hi).1
    · intro i j u v hi hj hu hv
      have hi' : i ∈ sortR key (List.range l.length) := hperm.mem_iff.2 (List.mem_range.2 (List.getElem?_eq_some_iff.1 hu).1)
      rw [← List.take_append_drop k (sortR key (List.range l.length))] at hi' hasc
      rcases List.mem_append.1 hi' with h | h
      · exact absurd h hi
      · have := (List.pairwise_append.1 hasc).2.2 j hj i h
        simp only [Asc, hkey, hu, hv, Option.getD_some, absR_eq] at this
        rcases this with h | h
        · left; linarith
        · right; exact ⟨by linarith [h.1], h.2⟩

theorem trim_kept {k : Nat} {l l' : List Rat} (hk : k < l.length) (h : trim k l = .ok l') :
    l' ≠ [] ∧ ∀ x ∈ l', x ∈ l := by
  have hne : l ≠ [] := by rintro rfl; simp at hk
  obtain ⟨m, hm⟩ := median_ok hne
  obtain ⟨rem, h1, h2, h3, h4, _⟩ := C151_trim k l (by omega) m hm
  rw [h4] at h
  have h := Except.ok.inj h
  subst h
  constructor
  · intro h0
    have : ∃ i, i < l.length ∧ i ∉ rem := by
      by_contra hc
      push Not at hc
      have hsub : List.range l.length ⊆ rem := fun i hi => hc i (List.mem_range.1 hi)
      have := (List.nodup_range.subperm hsub).length_le
      rw [List.length_range] at this
      omega
    obtain ⟨i, hi, hr⟩ := this
    have hmem : l[i] ∈ ((List.range l.length).filter fun i => decide (i ∉ rem)).filterMap fun i => l[i]? :=
      List.mem_filterMap.2 ⟨i, List.mem_filter.2 ⟨List.mem_range.2 hi, by simpa using hr⟩, by simp [hi]⟩
    rw [h0] at hmem
    cases hmem
  · intro x hx
    obtain ⟨i, _, hi⟩ := List.mem_filterMap.1 hx
    exact List.mem_of_getElem? hi

/-- When fewer values are removed than there are heuristics, the mean and the median pool give a value between the least and the
greatest value of the heuristics. -/
theorem C151_bounds (pool : Pool) (hp : pool ≠ .random) (k : Nat) (l : List Rat) (hk : k < l.length) (lo hi : Rat)
    (h1 : ∀ x ∈ l, lo ≤ x) (h2 : ∀ x ∈ l, x ≤ hi) : ∃ v, aggregate pool k l = .ok (some v) ∧ lo ≤ v ∧ v ≤ hi := by
  have hne : l ≠ [] := by rintro rfl; simp at hk
  obtain ⟨m, hm⟩ := median_ok hne
  obtain ⟨rem, _, _, _, h4, _⟩ := C151_trim k l (by omega) m hm
  obtain ⟨k1, k2⟩ := trim_kept hk h4
  simp only [aggregate, h4, bind_ok]
  have b1 := fun x hx => h1 x (k2 x hx)
  have b2 := fun x hx => h2 x (k2 x hx)
  cases pool with
  | random => exact absurd rfl hp
  | mean =>
    obtain ⟨v, hv⟩ := mean_ok k1
    exact ⟨v, by simp only [hv]; rfl, mean_bounds hv b1 b2⟩
  | median =>
    obtain ⟨v, hv⟩ := median_ok k1
    exact ⟨v, by simp only [hv]; rfl, median_mem_bounds hv b1 b2⟩

/-- A pool of one heuristic has the values of that heuristic. -/
theorem C151_single (pool : Pool) (hp : pool ≠ .random) (v : Rat) : aggregate pool 0 [v] = .ok (some v) := by
  obtain ⟨w, h1, h2, h3⟩ := C151_bounds pool hp 0 [v] (by simp) v v (by simp) (by simp)
  rw [h1, le_antisymm h3 h2]

/-- The pool that picks a random heuristic never gives a value: it raises `TypeError`, or `IndexError` before. -/
theorem C151_random_refuted (k : Nat) (l : List Rat) :
    aggregate .random k l = .error .typeError ∨ aggregate .random k l = .error .indexError := by
  simp only [aggregate, trim]
  split
  · left; rfl
  · split
    · right; rfl
    · left; rfl

/-- Removing all values leaves nothing to average (not a number, with which the ranking is arbitrary), and removing more raises
`IndexError`. -/
theorem C151_extremes_refuted (pool : Pool) (hp : pool ≠ .random) (k : Nat) (l : List Rat) :
    (k = l.length → aggregate pool k l = .ok none) ∧ (l.length < k → aggregate pool k l = .error .indexError) := by
  constructor
  · intro hk
    have h : trim k l = .ok [] := by
      by_cases hne : l = []
      · subst hne; subst hk; rfl
      · obtain ⟨m, hm⟩ := median_ok hne
        obtain ⟨rem, h1, h2, h3, h4, _⟩ := C151_trim k l (by omega) m hm
        rw [h4]
        congr 1
        have : (List.range l.length).filter (fun i => decide (i ∉ rem)) = [] := by
          rw [List.filter_eq_nil_iff]
          intro i hi
          have hsub : rem ⊆ List.range l.length := fun j hj => List.mem_range.2 (h3 j hj)
          have hsp := (h1.subperm hsub).perm_of_length_le (by rw [List.length_range]; omega)
          simpa using hsp.mem_iff.2 hi
        rw [this]; rfl
    simp only [aggregate, h, bind_ok]
    cases pool with
    | random => exact absurd rfl hp
    | mean => rfl
    | median => rfl
  · intro hk
    have h0 : k ≠ 0 := by omega
    simp only [aggregate, trim, h0, if_false, hk, if_true]
    rfl

/-- Five heuristics: the two farthest from the median 3 are 10 and the first of the equally far 1 and 5. -/
example : trim 2 [1, 3, 5, 10, 3] = .ok [3, 5, 3] ∧ aggregate .mean 2 [1, 3, 5, 10, 3] = .ok (some (11 / 3)) ∧
    aggregate .median 0 [1, 4, 2, 10] = .ok (some 3) := by decide +kernel

/-! ### Features of the resources -/

theorem overTime_ok (need total : Nat → Int) (d : Nat) (h : ∀ t, t < d → total t ≠ 0) :
    overTime need total d = .ok ((List.range d).map fun t => (need t : Rat) / total t).sum := by
  induction d with
  | zero => rfl
  | succ d ih =>
    simp only [overTime, ih fun t ht => h t (by omega), bind_ok, if_neg (h d (by omega)), List.range_succ, List.map_append,
      List.sum_append, List.map_cons, List.map_nil, List.sum_cons, List.sum_nil, add_zero]
    rfl

/-- A task that takes time has, for each resource its mode names, the mean over its duration of need divided by capacity. -/
theorem C152_mean_share (d : Nat) (hd : 0 < d) (res : List ((Nat → Int) × (Nat → Int)))
    (h : ∀ r ∈ res, ∀ t, t < d → r.2 t ≠ 0) :
    requirements d res = .ok (res.map fun r => ((List.range d).map fun t => (r.1 t : Rat) / r.2 t).sum / d) := by
  simp only [requirements, if_neg (Nat.pos_iff_ne_zero.1 hd)]
  induction res with
  | nil => rfl
  | cons r res ih =>
    rw [List.mapM_cons, overTime_ok _ _ _ (h r (List.mem_cons_self ..)), ih fun q hq => h q (List.mem_cons_of_mem _ hq)]
    rfl

/-- When needs never exceed capacities all shares lie between 0 and 1, and there is one for each resource named (a single zero for a
task that takes no time). -/
theorem C152_shares (d : Nat) (res : List ((Nat → Int) × (Nat → Int)))
    (h : ∀ r ∈ res, ∀ t, t < d → 0 < r.2 t ∧ 0 ≤ r.1 t ∧ r.1 t ≤ r.2 t) :
    ∃ vs, requirements d res = .ok vs ∧ vs.length = (if d = 0 then 1 else res.length) ∧ ∀ v ∈ vs, 0 ≤ v ∧ v ≤ 1 := by
  by_cases hd : d = 0
  · subst hd
    exact ⟨[0], rfl, rfl, by simp⟩
  · refine ⟨_, C152_mean_share d (by omega) res (fun r hr t ht => by have := h r hr t ht; omega), by simp [hd], ?_⟩
    intro v hv
    obtain ⟨r, hr, rfl⟩ := List.mem_map.1 hv
    have hp : (0 : Rat) < (d : Rat) := by exact_mod_cast Nat.pos_of_ne_zero hd
    have hq : ∀ x ∈ (List.range d).map fun t => (r.1 t : Rat) / r.2 t, 0 ≤ x ∧ x ≤ 1 := by
      intro x hx
      obtain ⟨t, ht, rfl⟩ := List.mem_map.1 hx
      obtain ⟨h1, h2, h3⟩ := h r hr t (List.mem_range.1 ht)
      have h1 : (0 : Rat) < (r.2 t : Rat) := by exact_mod_cast h1
      have h2 : (0 : Rat) ≤ (r.1 t : Rat) := by exact_mod_cast h2
      have h3 : (r.1 t : Rat) ≤ (r.2 t : Rat) := by exact_mod_cast h3
      exact ⟨div_nonneg h2 (le_of_lt h1), by rw [div_le_one₀ h1]; exact h3⟩
    have e1 := le_sum_of_forall fun x hx => (hq x hx).1
    have e2 := sum_le_of_forall fun x hx => (hq x hx).2
    rw [List.length_map, List.length_range] at e1 e2
    constructor
    · exact div_nonneg (by linarith) (le_of_lt hp)
    · rw [div_le_one₀ hp]; linarith

theorem exists_pos_of_sum {vs : List Rat} (h : 0 < vs.sum) : ∃ x ∈ vs, 0 < x := by
  by_contra hc
  push Not at hc
  have := sum_le_of_forall hc
  linarith

theorem sum_pos_of_exists {vs : List Rat} (h0 : ∀ v ∈ vs, 0 ≤ v) {x : Rat} (hx : x ∈ vs) (hp : 0 < x) : 0 < vs.sum := by
  induction vs with
  | nil => cases hx
  | cons y vs ih =>
    have hy := h0 y (List.mem_cons_self ..)
    have hr : 0 ≤ vs.sum := by
      have := le_sum_of_forall (l := vs) (c := 0) fun v hv => h0 v (List.mem_cons_of_mem _ hv)
      linarith
    rw [List.sum_cons]
    rcases List.mem_cons.1 hx with rfl | hx
    · linarith
    · have := ih (fun v hv => h0 v (List.mem_cons_of_mem _ hv)) hx
      linarith

/-- The features of a list of shares that are not negative: the least, the greatest, their mean between them, the least that is not zero
(zero if all are), and the part of them that is not zero. -/
theorem C152_features (vs : List Rat) (hne : vs ≠ []) (h0 : ∀ v ∈ vs, 0 ≤ v) :
    ∃ mn mx av nz fr, featureMin vs = .ok mn ∧ featureMax vs = .ok mx ∧ featureAvg vs = some av ∧ featureNzMin vs = .ok nz ∧
      featureRequ vs = .ok fr ∧ mn ∈ vs ∧ (∀ v ∈ vs, mn ≤ v) ∧ mx ∈ vs ∧ (∀ v ∈ vs, v ≤ mx) ∧ av * vs.length = vs.sum ∧
      mn ≤ av ∧ av ≤ mx ∧ nz ∈ vs ∧ ((∃ v ∈ vs, 0 < v) → 0 < nz ∧ ∀ v ∈ vs, 0 < v → nz ≤ v) ∧ ((∀ v ∈ vs, v = 0) → nz = 0) ∧
      fr * vs.length = vs.countP (fun v => decide (0 < v)) := by
  obtain ⟨mn, h1⟩ := npMin_ok hne
  obtain ⟨mx, h2⟩ := npMax_ok hne
  obtain ⟨av, h3⟩ := mean_ok hne
  have hl : vs.length ≠ 0 := fun h => hne (List.length_eq_zero_iff.1 h)
  have hl' : (vs.length : Rat) ≠ 0 := by exact_mod_cast hl
  have a1 := npMin_spec h1
  have a2 := npMax_spec h2
  have a3 := mean_bounds h3 a1.2 a2.2
  have hav : av * vs.length = vs.sum := by
    simp only [mean, if_neg hl] at h3
    have h3 := Option.some.inj h3
    rw [← h3]; field_simp
  have hnz : ∃ nz, featureNzMin vs = .ok nz ∧ nz ∈ vs ∧ ((∃ v ∈ vs, 0 < v) → 0 < nz ∧ ∀ v ∈ vs, 0 < v → nz ≤ v) ∧ ((∀ v ∈ vs, v = 0) → nz = 0) := by
    unfold featureNzMin
    by_cases hs : 0 < vs.sum
    · obtain ⟨x, hx, hp⟩ := exists_pos_of_sum hs
      have hxf : x ∈ vs.filter fun x => decide (0 < x) := List.mem_filter.2 ⟨hx, by simpa using hp⟩
      obtain ⟨nz, hn⟩ := npMin_ok (List.ne_nil_of_mem hxf)
      obtain ⟨c1, c2⟩ := npMin_spec hn
      have c1 := List.mem_filter.1 c1
      refine ⟨nz, by rw [if_pos hs]; exact hn, c1.1, fun _ => ⟨by simpa using c1.2, fun v hv hvp => ?_⟩, fun ha => ha nz c1.1⟩
      exact c2 v (List.mem_filter.2 ⟨hv, by simpa using hvp⟩)
    · refine ⟨mn, by rw [if_neg hs]; exact h1, a1.1, ?_, fun ha => ha mn a1.1⟩
      rintro ⟨v, hv, hp⟩
      exact absurd (sum_pos_of_exists h0 hv hp) hs
  obtain ⟨nz, b1, b2, b3, b4⟩ := hnz
  refine ⟨mn, mx, av, nz, _, h1, h2, h3, b1, if_neg hl, a1.1, a1.2, a2.1, a2.2, hav, a3.1, a3.2, b2, b3, b4, ?_⟩
  rw [List.countP_eq_length_filter]
  field_simp

/-- A resource that is sometimes out of service (capacity 0) within the duration makes all these features raise
`ZeroDivisionError`, even if the task does not need the resource then. -/
theorem C152_zero_capacity_refuted (d : Nat) (res : List ((Nat → Int) × (Nat → Int))) (r : (Nat → Int) × (Nat → Int)) (hr : r ∈ res)
    (t : Nat) (ht : t < d) (h0 : r.2 t = 0) : requirements d res = .error .zeroDivisionError := by
  have hov : ∀ (need total : Nat → Int) (d : Nat), (∃ t, t < d ∧ total t = 0) → overTime need total d = .error .zeroDivisionError := by
    intro need total d
    induction d with
    | zero => rintro ⟨t, ht, _⟩; omega
    | succ d ih =>
      rintro ⟨t, ht, h⟩
      by_cases hex : ∃ t, t < d ∧ total t = 0
      · simp only [overTime, ih hex]; rfl
      · push Not at hex
        have : t = d := by
          by_contra hc
          exact hex t (by omega) h
        subst this
        simp only [overTime, overTime_ok need total t hex, bind_ok, if_pos h]
  simp only [requirements, if_neg (show d ≠ 0 by omega)]
  induction res with
  | nil => cases hr
  | cons q res ih =>
    rw [List.mapM_cons]
    by_cases hq : ∃ t, t < d ∧ q.2 t = 0
    · rw [hov q.1 q.2 d hq]; rfl
    · push Not at hq
      rw [overTime_ok q.1 q.2 d hq]
      rcases List.mem_cons.1 hr with rfl | hr
      · exact absurd h0 (hq t ht)
      · rw [ih hr]; rfl

/-- A task that takes time but whose mode names no resource has no features of this kind: not a number for the mean, exceptions for the
others. -/
theorem C152_no_resource_refuted (d : Nat) (hd : 0 < d) :
    requirements d [] = .ok [] ∧ featureAvg [] = none ∧ featureMin [] = .error .valueError ∧ featureNzMin [] = .error .valueError ∧
      featureMax [] = .error .valueError ∧ featureRequ [] = .error .zeroDivisionError := by
  refine ⟨?_, rfl, rfl, rfl, rfl, rfl⟩
  simp only [requirements, if_neg (show d ≠ 0 by omega)]
  rfl

/-- Two resources over two units of time. -/
example : requirements 2 [(fun t => if t = 0 then 1 else 2, fun _ => 4), (fun _ => 0, fun _ => 3)] = .ok [3 / 8, 0] ∧
    featureNzMin [3 / 8, 0] = .ok (3 / 8) ∧ featureRequ [3 / 8, 0] = .ok (1 / 2) := by decide +kernel

/-! ### Fitness -/

theorem sign_le (a b : Nat × Nat) : sign a b ≤ 1 := by
  unfold sign; split
  · simp
  · split <;> simp

theorem sum_sign_le (a : Nat × Nat) (l : List (Nat × Nat)) :
    (l.map (sign a)).sum ≤ l.length ∧ ((l.map (sign a)).sum = l.length ↔ ∀ b ∈ l, sign a b = 1) := by
  induction l with
  | nil => simp
  | cons b l ih =>
    have := sign_le a b
    simp only [List.map_cons, List.sum_cons, List.length_cons, Nat.cast_add, Nat.cast_one, List.forall_mem_cons]
    refine ⟨by omega, ?_⟩
    rw [← ih.2]
    omega

theorem balance_le (l : List (Nat × Nat)) :
    2 * balance l ≤ l.length * ((l.length : Int) - 1) ∧
    (2 * balance l = l.length * ((l.length : Int) - 1) ↔ l.Pairwise fun a b => sign a b = 1) := by
  induction l with
  | nil => simp [balance]
  | cons a l ih =>
    obtain ⟨h1, h2⟩ := sum_sign_le a l
    have e : (((a :: l).length : Nat) : Int) * ((((a :: l).length : Nat) : Int) - 1) = l.length * ((l.length : Int) - 1) + 2 * l.length := by
      simp only [List.length_cons, Nat.cast_add, Nat.cast_one]; ring
    rw [e, List.pairwise_cons, ← h2, ← ih.2]
    simp only [balance]
    obtain ⟨ih1, _⟩ := ih
    generalize (l.length : Int) * ((l.length : Int) - 1) = q at *
    refine ⟨by omega, by omega⟩

theorem sign_one {a b : Nat × Nat} (h : sign a b = 1) : (a.1 < b.1 ↔ a.2 < b.2) ∧ (b.1 < a.1 ↔ b.2 < a.2) := by
  unfold sign at h
  split at h
  · omega
  · split at h <;> omega

theorem eq_of_concordant {n : Nat} {z : List (Nat × Nat)} (h1 : (z.map Prod.fst).Perm (List.range' 1 n))
    (h2 : (z.map Prod.snd).Perm (List.range' 1 n)) (h : z.Pairwise fun a b => sign a b = 1) : ∀ a ∈ z, a.1 = a.2 := by
  have hall : ∀ a ∈ z, ∀ b ∈ z, (b.1 < a.1 ↔ b.2 < a.2) := by
    have hpw := h.imp (S := fun a b => (b.1 < a.1 ↔ b.2 < a.2) ∧ (a.1 < b.1 ↔ a.2 < b.2)) fun {a b} hh => (sign_one hh).symm
    have : Std.Symm fun a b : Nat × Nat => (b.1 < a.1 ↔ b.2 < a.2) ∧ (a.1 < b.1 ↔ a.2 < b.2) := ⟨fun _ _ hh => And.symm hh⟩
    have := List.Pairwise.forall_of_forall (R := fun a b : Nat × Nat => (b.1 < a.1 ↔ b.2 < a.2) ∧ (a.1 < b.1 ↔ a.2 < b.2))
      (fun a _ => by simp only [lt_irrefl, and_self]) hpw
    intro a ha b hb
    exact (this ha hb).1
  have hc : ∀ v, 1 ≤ v → v ≤ n → (List.range' 1 n).countP (fun y => decide (y < v)) = v - 1 := by
    intro v hv1 hv2
    have e : List.range' 1 n = List.range' 1 (v - 1) ++ List.range' v (n - (v - 1)) := by
      have := List.range'_append_1 (s := 1) (m := v - 1) (n := n - (v - 1))
      rw [show 1 + (v - 1) = v by omega, show v - 1 + (n - (v - 1)) = n by omega] at this
      exact this.symm
    rw [e, List.countP_append]
    have c1 : (List.range' 1 (v - 1)).countP (fun y => decide (y < v)) = v - 1 := by
      rw [List.countP_eq_length.2, List.length_range']
      intro a ha
      rw [List.mem_range'_1] at ha
      simp; omega
    have c2 : (List.range' v (n - (v - 1))).countP (fun y => decide (y < v)) = 0 := by
      rw [List.countP_eq_zero]
      intro a ha
      rw [List.mem_range'_1] at ha
      simp; omega
    omega
  intro a ha
  have m1 := List.mem_range'_1.1 (h1.mem_iff.1 (List.mem_map.2 ⟨a, ha, rfl⟩))
  have m2 := List.mem_range'_1.1 (h2.mem_iff.1 (List.mem_map.2 ⟨a, ha, rfl⟩))
  have c1 := h1.countP_eq (fun y => decide (y < a.1))
  have c2 := h2.countP_eq (fun y => decide (y < a.2))
  rw [hc _ (by omega) (by omega), List.countP_map] at c1 c2
  have : z.countP ((fun y => decide (y < a.1)) ∘ Prod.fst) = z.countP ((fun y => decide (y < a.2)) ∘ Prod.snd) := by
    apply List.countP_congr
    intro b hb
    simpa using hall a ha b hb
  omega

/-- For two permutations of at least two tasks, Kendall's coefficient is at most 1, and 1 only for equal permutations. -/
theorem C153_tau (n : Nat) (hn : 2 ≤ n) (p q : List Nat) (hp : p.Perm (List.range' 1 n)) (hq : q.Perm (List.range' 1 n)) :
    tau p q ≤ 1 ∧ (tau p q = 1 ↔ p = q) := by
  have lp : p.length = n := by rw [hp.length_eq]; simp
  have lq : q.length = n := by rw [hq.length_eq]; simp
  have lz : (p.zip q).length = n := by simp [lp, lq]
  have f1 : (p.zip q).map Prod.fst = p := by rw [List.map_fst_zip]; omega
  have f2 : (p.zip q).map Prod.snd = q := by rw [List.map_snd_zip]; omega
  obtain ⟨b1, b2⟩ := balance_le (p.zip q)
  rw [lz] at b1 b2
  have b1' : 2 * (balance (p.zip q) : Rat) ≤ n * ((n : Rat) - 1) := by exact_mod_cast b1
  have hn' : (2 : Rat) ≤ n := by exact_mod_cast hn
  have hpos : (0 : Rat) < n * ((n : Rat) - 1) / 2 := by
    have : (0 : Rat) < n * ((n : Rat) - 1) := mul_pos (by linarith) (by linarith)
    linarith
  unfold tau
  rw [lp]
  refine ⟨by rw [div_le_one₀ hpos]; linarith, ?_⟩
  rw [div_eq_one_iff_eq (ne_of_gt hpos)]
  constructor
  · intro h
    have h' : 2 * balance (p.zip q) = n * ((n : Int) - 1) := by
      have : 2 * (balance (p.zip q) : Rat) = n * ((n : Rat) - 1) := by linarith
      exact_mod_cast this
    have := eq_of_concordant (n := n) (by rw [f1]; exact hp) (by rw [f2]; exact hq) (b2.1 h')
    exact f1.symm.trans ((List.map_congr_left this).trans f2)
  · rintro rfl
    have : (p.zip p).Pairwise fun a b => sign a b = 1 := by
      have hnd : p.Nodup := hp.nodup_iff.2 List.nodup_range'
      have e : p.zip p = p.map fun x => (x, x) := by
        clear * -
        induction p with
        | nil => rfl
        | cons x p ih => simp [ih]
      rw [e, List.pairwise_map]
      refine hnd.imp ?_
      intro a b hab
      unfold sign
      simp only
      rw [if_pos (by omega)]
    have h' := b2.2 this
    have : 2 * (balance (p.zip p) : Rat) = n * ((n : Rat) - 1) := by exact_mod_cast h'
    linarith

/-- The Hamming distance is not negative, and zero only for equal permutations. -/
theorem C153_hamming (n : Nat) (hn : 0 < n) (p q : List Nat) (hp : p.length = n) (hq : q.length = n) :
    0 ≤ hamming p q ∧ (hamming p q = 0 ↔ p = q) := by
  have hpos : (0 : Rat) < (p.length : Rat) := by rw [hp]; exact_mod_cast hn
  unfold hamming
  refine ⟨div_nonneg (by exact_mod_cast Nat.zero_le _) (le_of_lt hpos), ?_⟩
  rw [div_eq_zero_iff]
  constructor
  · rintro (h | h)
    · have h : ((p.zip q).filter fun x => decide (x.1 ≠ x.2)).length = 0 := by exact_mod_cast h
      have h := List.filter_eq_nil_iff.1 (List.length_eq_zero_iff.1 h)
      have f1 : (p.zip q).map Prod.fst = p := by rw [List.map_fst_zip]; omega
      have f2 : (p.zip q).map Prod.snd = q := by rw [List.map_snd_zip]; omega
      exact f1.symm.trans ((List.map_congr_left fun a ha => by simpa using h a ha).trans f2)
    · linarith
  · rintro rfl
    left
    have : (p.zip p).filter (fun x => decide (x.1 ≠ x.2)) = [] := by
      rw [List.filter_eq_nil_iff]
      intro a ha
      have : ∀ (p : List Nat), ∀ a ∈ p.zip p, a.1 = a.2 := by
        intro p
        induction p with
        | nil => intro a ha; simp at ha
        | cons x p ih =>
          intro a ha
          rw [List.zip_cons_cons] at ha
          rcases List.mem_cons.1 ha with rfl | ha
          · rfl
          · exact ih a ha
      simpa using this p a ha
    rw [this]; simp

theorem foldl_count_spec (raw : List Rat) : ∀ (l : List Rat) (m : Nat),
    m ≤ l.foldl (fun m x => if m < raw.count x then raw.count x else m) m ∧
    (∀ x ∈ l, raw.count x ≤ l.foldl (fun m x => if m < raw.count x then raw.count x else m) m) ∧
    (l.foldl (fun m x => if m < raw.count x then raw.count x else m) m = m ∨
      ∃ x ∈ l, l.foldl (fun m x => if m < raw.count x then raw.count x else m) m = raw.count x) := by
  intro l
  induction l with
  | nil => intro m; simp
  | cons y l ih =>
    intro m
    simp only [List.foldl_cons]
    obtain ⟨h1, h2, h3⟩ := ih (if m < raw.count y then raw.count y else m)
    refine ⟨?_, ?_, ?_⟩
    · refine le_trans ?_ h1
      split <;> omega
    · intro x hx
      rcases List.mem_cons.1 hx with rfl | hx
      · refine le_trans ?_ h1
        split <;> omega
      · exact h2 x hx
    · rcases h3 with h3 | ⟨x, hx, h3⟩
      · rw [h3]
        split
        · exact Or.inr ⟨y, List.mem_cons_self .., rfl⟩
        · exact Or.inl rfl
      · exact Or.inr ⟨x, List.mem_cons_of_mem _ hx, h3⟩

/-- The penalty counts how often the commonest value occurs. -/
theorem C153_penalty (raw : List Rat) (hne : raw ≠ []) :
    (∀ x ∈ raw, raw.count x ≤ mostCommon raw) ∧ (∃ x ∈ raw, mostCommon raw = raw.count x) ∧ (mostCommon raw = 1 ↔ raw.Nodup) := by
  obtain ⟨h1, h2, h3⟩ := foldl_count_spec raw raw 0
  change (∀ x ∈ raw, raw.count x ≤ mostCommon raw) at h2
  change mostCommon raw = 0 ∨ ∃ x ∈ raw, mostCommon raw = raw.count x at h3
  obtain ⟨y, hy⟩ := List.exists_mem_of_ne_nil _ hne
  have hy0 := h2 y hy
  have hyp := List.count_pos_iff.2 hy
  have h3' : ∃ x ∈ raw, mostCommon raw = raw.count x := by
    rcases h3 with h3 | h3
    · omega
    · exact h3
  refine ⟨h2, h3', ?_⟩
  constructor
  · intro h
    rw [List.nodup_iff_count_le_one]
    intro x
    by_cases hx : x ∈ raw
    · have := h2 x hx; omega
    · rw [List.count_eq_zero_of_not_mem hx]; omega
  · intro h
    obtain ⟨x, hx, e⟩ := h3'
    rw [e]
    exact List.count_eq_one_of_mem h hx

/-- The best value a heuristic can reach against a reference permutation: one over the number of tasks, minus one where Kendall's
coefficient counts.  It is reached exactly by the heuristics that give no value twice and whose ranking is the reference. -/
theorem C153_best (d : Distance) (raw : List Rat) (hn : 2 ≤ raw.length) (ref : List Nat) (href : ref.Perm (List.range' 1 raw.length)) :
    (if d = .hamming then 0 else -1) + 1 / (raw.length : Rat) ≤ penalized d raw ref ∧
    (penalized d raw ref = (if d = .hamming then 0 else -1) + 1 / (raw.length : Rat) ↔ raw.Nodup ∧ rank raw = ref) := by
  have hne : raw ≠ [] := by rintro rfl; simp at hn
  obtain ⟨hc, ⟨x, hx, he⟩, hnd⟩ := C153_penalty raw hne
  have hx1 : 1 ≤ mostCommon raw := by rw [he]; exact List.count_pos_iff.2 hx
  have hpos : (0 : Rat) < (raw.length : Rat) := by exact_mod_cast (show 0 < raw.length by omega)
  have hx1' : (1 : Rat) ≤ (mostCommon raw : Rat) := by exact_mod_cast hx1
  have hpen : 1 / (raw.length : Rat) ≤ (mostCommon raw : Rat) / raw.length := by
    rw [div_le_div_iff_of_pos_right hpos]; exact hx1'
  have hpe : (mostCommon raw : Rat) / raw.length = 1 / (raw.length : Rat) ↔ raw.Nodup := by
    rw [← hnd, div_left_inj' (ne_of_gt hpos)]
    exact_mod_cast Iff.rfl
  obtain ⟨t1, t2⟩ := C153_tau raw.length hn (rank raw) ref (rank_perm raw) href
  have l1 : (rank raw).length = raw.length := by rw [(rank_perm raw).length_eq]; simp
  have l2 : ref.length = raw.length := by rw [href.length_eq]; simp
  obtain ⟨m1, m2⟩ := C153_hamming raw.length (by omega) (rank raw) ref l1 l2
  rw [← hpe]
  unfold penalized dist
  cases d with
  | ktd =>
    simp only [reduceCtorEq, if_false]
    rw [← t2]
    refine ⟨by linarith, ⟨fun h => ⟨by linarith, by linarith⟩, fun h => by rw [h.1, h.2]⟩⟩
  | hamming =>
    simp only [if_true]
    rw [← m2]
    refine ⟨by linarith, ⟨fun h => ⟨by linarith, by linarith⟩, fun h => by rw [h.1, h.2]⟩⟩
  | ktdHamming =>
    simp only [reduceCtorEq, if_false]
    refine ⟨by linarith, ⟨fun h => ⟨by linarith, t2.1 (by linarith)⟩, fun h => ?_⟩⟩
    rw [h.1, t2.2 h.2, m2.2 h.2]; ring

/-- The positions of the tasks 1 to `n` in a permutation. -/
def places (p : List Nat) : List Nat := (List.range' 1 p.length).map fun x => p.idxOf x + 1

/-- Kendall's coefficient is taken of the permutations read as sequences of task numbers, not of the places of the tasks: against the
reference order 2, 1, 3 a heuristic that exchanges the last two tasks gets the worst value of all, while one that turns the order round
gets a better one.  By the places of the tasks it is the other way round. -/
theorem C153_order_distance_refuted :
    dist .ktd [2, 3, 1] [2, 1, 3] = 1 ∧ dist .ktd [3, 1, 2] [2, 1, 3] = -1 / 3 ∧
    dist .ktd (places [2, 3, 1]) (places [2, 1, 3]) = -1 / 3 ∧ dist .ktd (places [3, 1, 2]) (places [2, 1, 3]) = 1 := by
  decide +kernel

example : rank [5, 0, 7] = [2, 1, 3] ∧ penalized .ktd [5, 0, 7] [2, 1, 3] = -1 + 1 / 3 ∧
    penalized .ktdHamming [0, 0, 7] [2, 1, 3] = 1 := by decide +kernel

end Verif.Gphh
