import Verif.Model.Ars
import Verif.Lemmas.CgpSpace
import Mathlib.Data.List.Induction
import Mathlib.Algebra.BigOperators.Group.List.Basic
import Mathlib.Algebra.Order.BigOperators.Group.List

/-! Lemmas on augmented random search. -/
namespace Verif.Ars
open Verif.Cgp (Kind Given Result Item normFlat normCells denorm denormAll Wide Sound cells Member)

/-! ### Running statistics -/

/-- The values of component `j`. -/
def column (rows : List (List Rat)) (j : Nat) : List Rat := rows.map (fun r => r.getD j 0)

theorem cell_inv (xs : List Rat) : let c := xs.foldl Cell.observe {}
    c.n = xs.length ∧ c.mean * xs.length = xs.sum ∧ c.diff = (xs.map (fun x => x * x)).sum - xs.length * (c.mean * c.mean) := by
  induction xs using List.reverseRecOn with
  | nil => simp
  | append_singleton xs x ih =>
    simp only [List.foldl_append, List.foldl_cons, List.foldl_nil, List.length_append, List.length_cons, List.length_nil,
      List.sum_append, List.map_append, List.map_cons, List.map_nil, List.sum_cons, List.sum_nil]
    simp only at ih
    generalize xs.foldl Cell.observe {} = c at ih ⊢
    obtain ⟨h1, h2, h3⟩ := ih
    have hn : (0 : Rat) ≤ xs.length := Nat.cast_nonneg _
    push_cast
    generalize (xs.length : Rat) = n at h1 h2 h3 hn ⊢
    have hp : c.n + 1 ≠ 0 := by rw [h1]; linarith
    have hm : (c.mean + (x - c.mean) / (c.n + 1)) * (c.n + 1) = xs.sum + x := by
      rw [← h2, add_mul, div_mul_cancel₀ _ hp, h1]; ring
    simp only [Cell.observe]
    generalize c.mean + (x - c.mean) / (c.n + 1) = m' at hm
    refine ⟨by rw [h1], by rw [← h1]; linarith, ?_⟩
    have hx : x = m' * (n + 1) - c.mean * n := by rw [h2, ← h1, hm]; ring
    rw [h3, hx]
    ring

theorem cell_stats (xs : List Rat) (hx : xs ≠ []) : let c := xs.foldl Cell.observe {}
    c.n = xs.length ∧ c.mean = xs.sum / xs.length ∧
    c.diff = (xs.map (fun x => (x - xs.sum / xs.length) * (x - xs.sum / xs.length))).sum ∧
    c.var = max (c.diff / xs.length) (1 / 100) := by
  have hv : (xs.foldl Cell.observe {}).var = max ((xs.foldl Cell.observe {}).diff / (xs.foldl Cell.observe {}).n) (1 / 100) := by
    induction xs using List.reverseRecOn with
    | nil => exact absurd rfl hx
    | append_singleton xs x _ => simp only [List.foldl_append, List.foldl_cons, List.foldl_nil, Cell.observe]
  obtain ⟨h1, h2, h3⟩ := cell_inv xs
  simp only
  generalize xs.foldl Cell.observe {} = c at hv h1 h2 h3
  have hl : (xs.length : Rat) ≠ 0 := by
    have : xs.length ≠ 0 := by simpa using hx
    exact_mod_cast this
  have hm : c.mean = xs.sum / xs.length := by rw [← h2, mul_div_cancel_right₀ _ hl]
  refine ⟨h1, hm, ?_, by rw [hv, h1]⟩
  have key : ∀ (m : Rat) (l : List Rat), (l.map (fun x => (x - m) * (x - m))).sum = (l.map (fun x => x * x)).sum - 2 * m * l.sum + l.length * (m * m) := by
    intro m l
    induction l with
    | nil => simp
    | cons a l ih => simp only [List.map_cons, List.sum_cons, List.length_cons, ih]; push_cast; ring
  rw [h3, key, ← hm]
  rw [← h2]
  ring

theorem observeAll_ok (k : Nat) : ∀ (rows : List (List Rat)) (s : List Cell), s.length = k → (∀ r ∈ rows, r.length = k) →
    ∃ s', observeAll s rows = .ok s' ∧ s'.length = k ∧ ∀ j c, s[j]? = some c → s'[j]? = some ((column rows j).foldl Cell.observe c) := by
  intro rows
  induction rows with
  | nil => intro s hs _; exact ⟨s, rfl, hs, fun j c h => h⟩
  | cons r rows ih =>
    intro s hs hr
    have h1 := hr r List.mem_cons_self
    have h2 : (List.zipWith Cell.observe s r).length = k := by rw [List.length_zipWith]; omega
    obtain ⟨s', e1, e2, e3⟩ := ih _ h2 (fun r' h => hr r' (List.mem_cons_of_mem _ h))
    refine ⟨s', by simp only [observeAll, observe, h1, hs, if_pos, e1], e2, ?_⟩
    intro j c hj
    have hlt := (List.getElem?_eq_some_iff.mp hj).1
    have hrj : r[j]? = some (r.getD j 0) := by
      rw [List.getD_eq_getElem?_getD, List.getElem?_eq_getElem (by omega)]; rfl
    rw [e3 j (c.observe (r.getD j 0)) (by rw [List.getElem?_zipWith, hj, hrj])]
    simp [column]

theorem start_get (k j : Nat) (h : j < k) : (start k)[j]? = some {} := by
  simp [start, h]

/-! ### Matrices -/

/-- A matrix with so many rows and columns. -/
def Shape (rows cols : Nat) (m : Mat) : Prop := m.length = rows ∧ ∀ r ∈ m, r.length = cols

/-- An entry of a matrix. -/
def entry (m : Mat) (i j : Nat) : Rat := (m.getD i []).getD j 0

theorem Shape.axpy {rows cols : Nat} {a b : Mat} (ha : Shape rows cols a) (hb : Shape rows cols b) (f : Rat) : Shape rows cols (axpy a f b) := by
  refine ⟨by rw [Ars.axpy, List.length_zipWith, ha.1, hb.1, Nat.min_self], ?_⟩
  intro r hr
  obtain ⟨i, hi, rfl⟩ := List.getElem_of_mem hr
  simp only [Ars.axpy, List.length_zipWith] at hi
  simp only [Ars.axpy, List.getElem_zipWith, List.length_zipWith]
  rw [ha.2 _ (List.getElem_mem _), hb.2 _ (List.getElem_mem _), Nat.min_self]

theorem shape_zeros (rows cols : Nat) : Shape rows cols (zeros rows cols) := by
  refine ⟨by simp [zeros], ?_⟩
  intro r hr
  rw [(List.mem_replicate.mp hr).2, List.length_replicate]

theorem entry_zeros (rows cols i j : Nat) : entry (zeros rows cols) i j = 0 := by
  simp only [entry, zeros, List.getD_eq_getElem?_getD, List.getElem?_replicate]
  split
  · simp only [Option.getD_some, List.getElem?_replicate]; split <;> rfl
  · simp

theorem entry_axpy {rows cols : Nat} {a b : Mat} (ha : Shape rows cols a) (hb : Shape rows cols b) (f : Rat) {i j : Nat} (hi : i < rows) (hj : j < cols) :
    entry (axpy a f b) i j = entry a i j + f * entry b i j := by
  have h1 : i < a.length := by rw [ha.1]; exact hi
  have h2 : i < b.length := by rw [hb.1]; exact hi
  have h3 : j < (a[i]).length := by rw [ha.2 _ (List.getElem_mem _)]; exact hj
  have h4 : j < (b[i]).length := by rw [hb.2 _ (List.getElem_mem _)]; exact hj
  simp only [entry, axpy, List.getD_eq_getElem?_getD, List.getElem?_zipWith, List.getElem?_eq_getElem h1, List.getElem?_eq_getElem h2,
    List.getElem?_eq_getElem h3, List.getElem?_eq_getElem h4, Option.getD_some]

theorem Shape.ext {rows cols : Nat} {a b : Mat} (ha : Shape rows cols a) (hb : Shape rows cols b)
    (h : ∀ i < rows, ∀ j < cols, entry a i j = entry b i j) : a = b := by
  refine List.ext_getElem (by rw [ha.1, hb.1]) ?_
  intro i h1 h2
  refine List.ext_getElem (by rw [ha.2 _ (List.getElem_mem _), hb.2 _ (List.getElem_mem _)]) ?_
  intro j h3 h4
  have := h i (by rw [← ha.1]; exact h1) j (by rw [← ha.2 _ (List.getElem_mem h1)]; exact h3)
  simpa only [entry, List.getD_eq_getElem?_getD, List.getElem?_eq_getElem h1, List.getElem?_eq_getElem h2, Option.getD_some,
    List.getElem?_eq_getElem h3, List.getElem?_eq_getElem h4] using this

theorem steps_shape {rows cols : Nat} : ∀ (l : List (Rat × Rat × Mat)) (s : Mat), Shape rows cols s → (∀ r ∈ l, Shape rows cols r.2.2) →
    Shape rows cols (l.foldl (fun s r => axpy s (r.1 - r.2.1) r.2.2) s) ∧
    ∀ i < rows, ∀ j < cols, entry (l.foldl (fun s r => axpy s (r.1 - r.2.1) r.2.2) s) i j =
      entry s i j + (l.map (fun r => (r.1 - r.2.1) * entry r.2.2 i j)).sum := by
  intro l
  induction l with
  | nil => intro s hs _; exact ⟨hs, fun i _ j _ => by simp⟩
  | cons r l ih =>
    intro s hs hl
    have hr := hl r List.mem_cons_self
    obtain ⟨h1, h2⟩ := ih _ (hs.axpy hr (r.1 - r.2.1)) (fun x hx => hl x (List.mem_cons_of_mem _ hx))
    refine ⟨h1, fun i hi j hj => ?_⟩
    rw [List.foldl_cons, h2 i hi j hj, entry_axpy hs hr _ hi hj, List.map_cons, List.sum_cons]
    ring

theorem update_shape {rows cols : Nat} (c : Config) {policy : Mat} (hp : Shape rows cols policy) (l : List (Rat × Rat × Mat)) (hl : ∀ r ∈ l, Shape rows cols r.2.2) (sigma : Rat) :
    Shape rows cols (update c policy rows cols l sigma) := by
  simp only [update]
  split
  · exact hp
  · exact hp.axpy (steps_shape l _ (shape_zeros _ _) hl).1 _

theorem update_entry {rows cols : Nat} (c : Config) {policy : Mat} (hp : Shape rows cols policy) (l : List (Rat × Rat × Mat)) (hl : ∀ r ∈ l, Shape rows cols r.2.2) (hlen : l.length = c.top) (sigma : Rat)
    {i j : Nat} (hi : i < rows) (hj : j < cols) :
    entry (update c policy rows cols l sigma) i j =
      entry policy i j + (if sigma = 0 then 0 else c.rate / ((c.top : Rat) * sigma) * (l.map (fun r => (r.1 - r.2.1) * entry r.2.2 i j)).sum) := by
  simp only [update]
  obtain ⟨h1, h2⟩ := steps_shape l _ (shape_zeros rows cols) hl
  by_cases hs : sigma = 0
  · rw [if_pos (Or.inr hs), if_pos hs, add_zero]
  · by_cases ht : c.top = 0
    · rw [if_pos (Or.inl ht), if_neg hs]
      have : l = [] := List.length_eq_zero_iff.mp (by omega)
      subst this
      simp
    · rw [if_neg (by rintro (h | h) <;> contradiction), if_neg hs, entry_axpy hp h1 _ hi hj, h2 i hi j hj, entry_zeros, zero_add]

/-! ### Sorting -/

theorem insertBy_perm (b : Rat → Rat → Bool) (score : Nat → Rat) (k : Nat) (l : List Nat) : (insertBy b score k l).Perm (k :: l) := by
  induction l with
  | nil => exact .refl _
  | cons y ys ih =>
    simp only [insertBy]
    split
    · exact .refl _
    · exact (ih.cons y).trans (.swap k y ys)

theorem sortScores_perm (m : Bool) (score : Nat → Rat) (l : List Nat) : (sortScores m score l).Perm l := by
  induction l with
  | nil => exact .refl _
  | cons x xs ih => exact (insertBy_perm _ score x _).trans (ih.cons x)

/-- The better score first. -/
def Better (m : Bool) (a b : Rat) : Prop := if m then b ≤ a else a ≤ b

theorem Better.total (m : Bool) (a b : Rat) : Better m a b ∨ Better m b a := by
  cases m <;> simp only [Better] <;> exact le_total _ _

theorem Better.trans {m : Bool} {a b c : Rat} (h1 : Better m a b) (h2 : Better m b c) : Better m a c := by
  cases m
  · exact le_trans (show a ≤ b from h1) (show b ≤ c from h2)
  · exact le_trans (show c ≤ b from h2) (show b ≤ a from h1)

theorem sortScores_sorted (m : Bool) (score : Nat → Rat) (l : List Nat) : (sortScores m score l).Pairwise (fun a b => Better m (score a) (score b)) := by
  induction l with
  | nil => exact List.Pairwise.nil
  | cons x xs ih =>
    have hb : ∀ a b : Rat, ((fun a b : Rat => if m then decide (b ≤ a) else decide (a ≤ b)) a b = true) ↔ Better m a b := by
      intro a b; cases m <;> simp [Better]
    change (insertBy _ score x (sortScores m score xs)).Pairwise _
    generalize (fun a b : Rat => if m then decide (b ≤ a) else decide (a ≤ b)) = before at hb ⊢
    generalize sortScores m score xs = l at ih ⊢
    induction l with
    | nil => simp [insertBy]
    | cons y ys ihl =>
      simp only [List.pairwise_cons] at ih
      simp only [insertBy]
      split
      · rename_i hxy
        have hxy := (hb _ _).mp hxy
        simp only [List.pairwise_cons, List.mem_cons]
        refine ⟨?_, ih.1, ih.2⟩
        rintro b (rfl | hb')
        · exact hxy
        · exact hxy.trans (ih.1 b hb')
      · rename_i hxy
        have hxy : ¬ Better m (score x) (score y) := fun h => hxy ((hb _ _).mpr h)
        simp only [List.pairwise_cons]
        refine ⟨?_, ihl ih.2⟩
        intro b hb'
        rcases List.mem_cons.1 ((insertBy_perm _ score x ys).mem_iff.1 hb') with rfl | hb'
        · exact (Better.total m _ _).resolve_left hxy
        · exact ih.1 b hb'

theorem top_best (m : Bool) (score : Nat → Rat) (n t : Nat) (ht : t ≤ n) :
    ∃ order, order = (sortScores m score (List.range n)).take t ∧ order.Nodup ∧ order.length = t ∧ (∀ k ∈ order, k < n) ∧
      ∀ k ∈ order, ∀ j < n, j ∉ order → Better m (score k) (score j) := by
  refine ⟨_, rfl, ?_, ?_, ?_, ?_⟩
  · exact ((sortScores_perm m score (List.range n)).nodup_iff.mpr List.nodup_range).sublist (List.take_sublist _ _)
  · rw [List.length_take, (sortScores_perm m score _).length_eq, List.length_range]; omega
  · intro k hk
    exact List.mem_range.mp ((sortScores_perm m score _).mem_iff.mp (List.mem_of_mem_take hk))
  · intro k hk j hj hn
    have hs := sortScores_sorted m score (List.range n)
    have hj' : j ∈ sortScores m score (List.range n) := (sortScores_perm m score _).mem_iff.mpr (List.mem_range.mpr hj)
    rw [← List.take_append_drop t (sortScores m score (List.range n))] at hs hj'
    exact (List.pairwise_append.mp hs).2.2 k hk j ((List.mem_append.mp hj').resolve_left hn)

/-! ### Episodes -/

variable {E : Type}

theorem addReward_near (acc : Rat) (r : Option Rat) : acc - 1 ≤ addReward acc r ∧ addReward acc r ≤ acc + 1 := by
  cases r with
  | none => simp only [addReward]; constructor <;> linarith
  | some r =>
    simp only [addReward]
    have h1 : -1 ≤ max (min r 1) (-1) := le_max_right _ _
    have h2 : max (min r 1) (-1) ≤ 1 := max_le (min_le_right _ _) (by norm_num)
    constructor <;> linarith

theorem play_bounds (env : Env E) (cols : Nat) (m : Mat) : ∀ (k : Nat) (e : E) (obs : List Rat) (acc r : Rat) (e' : E),
    play env cols m k e obs acc = .ok (r, e') → acc - k ≤ r ∧ r ≤ acc + k := by
  intro k
  induction k with
  | zero => intro e obs acc r e' h; simp only [play, Except.ok.injEq, Prod.mk.injEq] at h; simp [h.1]
  | succ k ih =>
    intro e obs acc r e' h
    simp only [play] at h
    split at h
    · cases h
    · rename_i a _
      rcases hout : env.step e a with ⟨e1, o1, r1, d⟩
      simp only [hout] at h
      obtain ⟨n1, n2⟩ := addReward_near acc r1
      have hk : (0 : Rat) ≤ k := Nat.cast_nonneg _
      cases d with
      | true =>
        simp only [if_true, Except.ok.injEq, Prod.mk.injEq] at h
        rw [← h.1]; push_cast; constructor <;> linarith
      | false =>
        obtain ⟨h1, h2⟩ := ih _ _ _ _ _ h
        push_cast; constructor <;> linarith

theorem explore_bounds {env : Env E} {steps cols : Nat} {m : Mat} {e e' : E} {r : Rat} (h : explore env steps cols m e = .ok (r, e')) :
    -(steps : Rat) ≤ r ∧ r ≤ steps := by
  have := play_bounds env cols m steps _ _ _ _ _ h
  constructor <;> linarith [this.1, this.2]

theorem explores_length {env : Env E} {steps cols : Nat} : ∀ {ms : List Mat} {e e' : E} {rs : List Rat}, explores env steps cols ms e = .ok (rs, e') → rs.length = ms.length := by
  intro ms
  induction ms with
  | nil => intro e e' rs h; simp only [explores, Except.ok.injEq, Prod.mk.injEq] at h; rw [← h.1]; rfl
  | cons m ms ih =>
    intro e e' rs h
    simp only [explores] at h
    split at h
    · cases h
    · split at h
      · cases h
      · rename_i h2
        simp only [Except.ok.injEq, Prod.mk.injEq] at h
        rw [← h.1, List.length_cons, List.length_cons, ih h2]

/-! ### Spaces -/

/-- Boxes have one dimension. -/
def Flat : Part → Prop
  | .box shape bounds => shape = [bounds.length]
  | .discrete _ => True

/-- The parts of a space. -/
def Space.parts : Space → List Part
  | .single p => [p]
  | .tuple ps => ps

theorem given_kinds (s : Space) : s.given.kinds = s.parts.map Part.kind := by
  cases s <;> rfl

theorem part_dim {p : Part} (h : Flat p) : p.dim = .ok (cells [p.kind]) := by
  cases p with
  | box shape bounds => simp only [Flat] at h; subst h; rfl
  | discrete n => rfl

theorem cells_cons (k : Kind) (ks : List Kind) : cells (k :: ks) = cells [k] + cells ks := by
  cases k <;> simp [cells]

theorem dims_flat : ∀ (ps : List Part), (∀ p ∈ ps, Flat p) → dims ps = .ok (cells (ps.map Part.kind)) := by
  intro ps
  induction ps with
  | nil => intro _; rfl
  | cons p ps ih =>
    intro h
    simp only [dims, part_dim (h p List.mem_cons_self), ih (fun q hq => h q (List.mem_cons_of_mem _ hq)), List.map_cons, cells_cons p.kind (ps.map Part.kind)]

theorem space_dim (s : Space) (h : ∀ p ∈ s.parts, Flat p) : s.dim = .ok (cells s.given.kinds) := by
  cases s with
  | single p => exact part_dim (h p (by simp [Space.parts]))
  | tuple ps => exact dims_flat ps h

theorem normCells_ok : ∀ (bs : List (Option Rat × Option Rat)) (vals : List Rat), (∀ b ∈ bs, ∃ l h, b = (some l, some h) ∧ l < h) → bs.length ≤ vals.length →
    ∃ ys, normCells bs vals = .ok (ys, vals.drop bs.length) ∧ ys.length = bs.length ∧ ∀ y ∈ ys, -1 ≤ y ∧ y ≤ 1 := by
  intro bs
  induction bs with
  | nil => intro vals _ _; exact ⟨[], rfl, rfl, by simp⟩
  | cons b bs ih =>
    intro vals hb hl
    cases vals with
    | nil => simp at hl
    | cons v vals =>
      obtain ⟨lo, hi, rfl, hlt⟩ := hb b List.mem_cons_self
      obtain ⟨ys, e1, e2, e3⟩ := ih vals (fun b hb' => hb b (List.mem_cons_of_mem _ hb')) (by simp at hl; omega)
      obtain ⟨y, y1, y2, y3⟩ := Cgp.change_range (x := v) hlt (show (-1 : Rat) ≤ 1 by norm_num)
      refine ⟨y :: ys, by simp only [normCells, y1, e1, List.length_cons, List.drop_succ_cons], by simp [e2], ?_⟩
      intro z hz
      rcases List.mem_cons.mp hz with rfl | hz
      · exact ⟨y2, y3⟩
      · exact e3 z hz

theorem normFlat_ok : ∀ (ks : List Kind) (vals : List Rat), Wide ks → vals.length = cells ks →
    ∃ ys, normFlat ks vals = .ok ys ∧ ys.length = cells ks ∧ ∀ y ∈ ys, -1 ≤ y ∧ y ≤ 1 := by
  intro ks
  induction ks with
  | nil => intro vals _ h; exact ⟨vals, rfl, h, by rw [List.length_eq_zero_iff.mp h]; simp⟩
  | cons k ks ih =>
    intro vals hw hl
    cases k with
    | box bs =>
      simp only [Wide] at hw
      simp only [cells] at hl
      obtain ⟨ys, e1, e2, e3⟩ := normCells_ok bs vals hw.1 (by omega)
      obtain ⟨zs, f1, f2, f3⟩ := ih (vals.drop bs.length) hw.2 (by rw [List.length_drop]; omega)
      refine ⟨ys ++ zs, by simp only [normFlat, e1, f1], by simp [cells, e2, f2], ?_⟩
      intro y hy
      rcases List.mem_append.mp hy with hy | hy
      · exact e3 y hy
      · exact f3 y hy
    | discrete n =>
      simp only [Wide] at hw
      simp only [cells] at hl
      cases vals with
      | nil => simp at hl; omega
      | cons v vals =>
        have hn : (0 : Rat) < (n : Rat) - 1 := by
          have : ((2 : Nat) : Rat) ≤ n := by exact_mod_cast hw.1
          push_cast at this; linarith
        obtain ⟨y, y1, y2, y3⟩ := Cgp.change_range (x := v) hn (show (-1 : Rat) ≤ 1 by norm_num)
        obtain ⟨zs, f1, f2, f3⟩ := ih vals hw.2 (by simp at hl; omega)
        refine ⟨y :: zs, by simp only [normFlat, y1, f1], by simp [cells, f2]; omega, ?_⟩
        intro z hz
        rcases List.mem_cons.mp hz with rfl | hz
        · exact ⟨y2, y3⟩
        · exact f3 z hz
    | nested => exact hw.elim
    | other => exact hw.elim

theorem denorm_ok (g : Given) (vals : List Rat) (hs : Sound g.kinds) (hc : cells g.kinds ≤ vals.length) :
    ∃ r, denorm vals g = .ok r ∧ ∃ items, Member g.kinds items ∧ (r = .many items ∨ ∃ x, r = .one x ∧ items = [x]) := by
  obtain ⟨items, h1, h2⟩ := Cgp.denormAll_ok _ vals hs hc
  simp only [denorm, h1]
  generalize g.kinds = ks at hs hc h1 h2 ⊢
  match ks, hs, h2 with
  | [.box _], _, h2 => exact ⟨_, rfl, items, h2, Or.inl rfl⟩
  | [.discrete n], _, h2 =>
    match items, h2 with
    | [], h2 => simp [Member] at h2
    | .int k :: l, h2 =>
      simp only [Member] at h2
      refine ⟨.one (.int k), rfl, [.int k], ⟨h2.1, h2.2.1, rfl⟩, Or.inr ⟨_, rfl, rfl⟩⟩
    | .real _ :: _, h2 => simp [Member] at h2
  | [.nested], hs, _ => exact hs.elim
  | [.other], hs, _ => exact hs.elim
  | [], _, h2 => exact ⟨_, rfl, items, h2, Or.inl rfl⟩
  | .box _ :: _ :: _, _, h2 => exact ⟨_, rfl, items, h2, Or.inl rfl⟩
  | .discrete _ :: _ :: _, _, h2 => exact ⟨_, rfl, items, h2, Or.inl rfl⟩
  | .nested :: _ :: _, hs, _ => exact hs.elim
  | .other :: _ :: _, hs, _ => exact hs.elim

/-- A domain whose spaces the solver supports, with observations of the right length. -/
structure Fits (env : Env E) : Prop where
  flatObs : ∀ p ∈ env.obs.parts, Flat p
  flatAct : ∀ p ∈ env.act.parts, Flat p
  wide : Wide env.obs.given.kinds
  sound : Sound env.act.given.kinds
  resets : ∀ e, (env.reset e).2.length = cells env.obs.given.kinds
  steps : ∀ e a, (env.step e a).2.1.length = cells env.obs.given.kinds

theorem action_ok {env : Env E} (h : Fits env) {m : Mat} (hm : Shape (cells env.act.given.kinds) (cells env.obs.given.kinds) m) (obs : List Rat)
    (ho : obs.length = cells env.obs.given.kinds) :
    ∃ r, action env (cells env.obs.given.kinds) m obs = .ok r ∧ ∃ items, Member env.act.given.kinds items ∧ (r = .many items ∨ ∃ x, r = .one x ∧ items = [x]) := by
  obtain ⟨x, h1, h2, _⟩ := normFlat_ok _ obs h.wide ho
  simp only [action, h1, dot, h2, if_true]
  exact denorm_ok _ _ h.sound (by rw [List.length_map, hm.1])

theorem play_ok {env : Env E} (h : Fits env) {m : Mat} (hm : Shape (cells env.act.given.kinds) (cells env.obs.given.kinds) m) :
    ∀ (k : Nat) (e : E) (obs : List Rat) (acc : Rat), obs.length = cells env.obs.given.kinds →
      ∃ r e', play env (cells env.obs.given.kinds) m k e obs acc = .ok (r, e') := by
  intro k
  induction k with
  | zero => intro e obs acc _; exact ⟨_, _, rfl⟩
  | succ k ih =>
    intro e obs acc ho
    obtain ⟨a, h1, _⟩ := action_ok h hm obs ho
    simp only [play, h1]
    have hs := h.steps e a
    rcases hout : env.step e a with ⟨e1, o1, r1, d⟩
    rw [hout] at hs
    simp only [hout]
    cases d with
    | true => exact ⟨_, _, rfl⟩
    | false => exact ih _ _ _ hs

theorem explore_ok {env : Env E} (h : Fits env) {m : Mat} (hm : Shape (cells env.act.given.kinds) (cells env.obs.given.kinds) m) (k : Nat) (e : E) :
    ∃ r e', explore env k (cells env.obs.given.kinds) m e = .ok (r, e') :=
  play_ok h hm k _ _ _ (h.resets e)

theorem explores_ok {env : Env E} (h : Fits env) (k : Nat) : ∀ (ms : List Mat) (e : E), (∀ m ∈ ms, Shape (cells env.act.given.kinds) (cells env.obs.given.kinds) m) →
    ∃ rs e', explores env k (cells env.obs.given.kinds) ms e = .ok (rs, e') := by
  intro ms
  induction ms with
  | nil => intro e _; exact ⟨_, _, rfl⟩
  | cons m ms ih =>
    intro e hm
    obtain ⟨r, e1, h1⟩ := explore_ok h (hm m List.mem_cons_self) k e
    obtain ⟨rs, e2, h2⟩ := ih e1 (fun x hx => hm x (List.mem_cons_of_mem _ hx))
    exact ⟨r :: rs, e2, by simp only [explores, h1, h2]⟩

theorem chosen_shape {rows cols : Nat} (c : Config) (pos neg : List Rat) {deltas : List Mat} (hl : deltas.length = c.directions) (hd : ∀ d ∈ deltas, Shape rows cols d) :
    ∀ r ∈ chosen c pos neg deltas, Shape rows cols r.2.2 := by
  intro r hr
  simp only [chosen, List.mem_map] at hr
  obtain ⟨k, hk, rfl⟩ := hr
  have : k < deltas.length := by
    rw [hl]
    exact List.mem_range.mp ((sortScores_perm _ _ _).mem_iff.mp (List.mem_of_mem_take hk))
  simp only [List.getD_eq_getElem?_getD, List.getElem?_eq_getElem this, Option.getD_some]
  exact hd _ (List.getElem_mem _)

end Verif.Ars
