import Verif.Model.CpVrp
import Mathlib.Data.List.Perm.Subperm
import Mathlib.Data.List.Perm.Basic
/- Lemmas on the constraint program for vehicle routing. -/
namespace Verif.CpVrp

/-- The routes one after another, each closed by a copy of the depot. -/
def enc (D : Data) : Nat → List (List Nat) → List Nat
  | _, [] => []
  | k, r :: rs => r ++ (D.customers + k + 2) :: enc D (k + 1) rs

/-- The positions of the copies that close the routes, after `s` entries. -/
def endsOf : Nat → List (List Nat) → List Nat
  | _, [] => []
  | s, r :: rs => (s + r.length + 1) :: endsOf (s + r.length + 1) rs

/-- What lies between the copies. -/
def slices (cs : List Nat) : Nat → List Nat → List (List Nat)
  | _, [] => []
  | s, e :: es => (cs.drop s).take (e - 1 - s) :: slices cs e es

theorem endsOf_length : ∀ (rs : List (List Nat)) (s : Nat), (endsOf s rs).length = rs.length
  | [], _ => rfl
  | _ :: rs, _ => by simp [endsOf, endsOf_length rs]

theorem enc_length (D : Data) : ∀ (rs : List (List Nat)) (k : Nat), (enc D k rs).length = rs.flatten.length + rs.length
  | [], _ => rfl
  | r :: rs, k => by
    simp only [enc, List.length_append, List.length_cons, enc_length D rs, List.flatten_cons]
    omega

theorem enc_perm (D : Data) : ∀ (rs : List (List Nat)) (k : Nat),
    (enc D k rs).Perm (rs.flatten ++ List.range' (D.customers + k + 2) rs.length)
  | [], _ => by simp [enc]
  | r :: rs, k => by
    simp only [enc, List.flatten_cons, List.length_cons, List.append_assoc]
    apply List.Perm.append_left
    rw [List.range'_succ]
    refine ((enc_perm D rs (k + 1)).cons _).trans ?_
    rw [show D.customers + (k + 1) + 2 = D.customers + k + 2 + 1 by omega]
    exact List.perm_middle.symm

/-- The route that ends at a position: what it needs, and the copy that closes it. -/
theorem seg (D : Data) : ∀ (rs : List (List Nat)) (pre : List Nat) (x k : Nat), demandOf D x = 0 →
    ∀ (i b : Nat), (endsOf (pre.length + 1) rs)[i]? = some b →
      ∃ r a, rs[i]? = some r ∧ ((pre.length + 1) :: endsOf (pre.length + 1) rs)[i]? = some a ∧ b = a + r.length + 1 ∧ pre.length + 1 ≤ a ∧
        demandSum D (pre ++ x :: enc D k rs) a b = (r.map (demandOf D)).sum ∧
        (pre ++ x :: enc D k rs)[b - 1]? = some (D.customers + k + i + 2)
  | [], pre, x, k, _, i, b, h => by simp [endsOf] at h
  | r :: rs, pre, x, k, hx, 0, b, h => by
    simp only [endsOf, List.getElem?_cons_zero, Option.some.injEq] at h
    subst h
    refine ⟨r, pre.length + 1, rfl, rfl, rfl, Nat.le_refl _, ?_, ?_⟩
    · unfold demandSum
      have e1 : (pre ++ x :: enc D k (r :: rs)).drop (pre.length + 1 - 1) = x :: enc D k (r :: rs) := by
        rw [Nat.add_sub_cancel]; simp
      rw [e1, show pre.length + 1 + r.length + 1 + 1 - (pre.length + 1) = r.length + 1 + 1 by omega]
      simp only [List.take_succ_cons, enc]
      rw [List.take_append, List.take_of_length_le (by omega), show r.length + 1 - r.length = 1 by omega]
      simp only [List.take_succ_cons, List.take_zero, List.map_cons, List.map_append, List.map_nil, List.sum_cons, List.sum_append,
        List.sum_nil, hx]
      have : demandOf D (D.customers + k + 2) = 0 := by unfold demandOf; rw [if_neg (by omega)]
      rw [this]
      omega
    · rw [List.getElem?_append_right (by omega), show pre.length + 1 + r.length + 1 - 1 - pre.length = r.length + 1 by omega]
      simp [enc]
  | r :: rs, pre, x, k, hx, i + 1, b, h => by
    simp only [endsOf, List.getElem?_cons_succ] at h
    have e : (pre ++ x :: r).length + 1 = pre.length + 1 + r.length + 1 := by simp; omega
    have hz : demandOf D (D.customers + k + 2) = 0 := by unfold demandOf; rw [if_neg (by omega)]
    rw [← e] at h
    obtain ⟨r', a, h1, h2, h3, h4, h5, h6⟩ := seg D rs (pre ++ x :: r) (D.customers + k + 2) (k + 1) hz i b h
    have e2 : pre ++ x :: r ++ (D.customers + k + 2) :: enc D (k + 1) rs = pre ++ x :: enc D k (r :: rs) := by simp [enc]
    rw [e2] at h5 h6
    refine ⟨r', a, by simpa using h1, ?_, h3, by rw [e] at h4; omega, h5, ?_⟩
    · rw [e] at h2
      simpa [endsOf] using h2
    · rw [h6]; congr 1; omega

/-- Positions grow. -/
theorem endsOf_bounds : ∀ (rs : List (List Nat)) (s : Nat),
    (endsOf s rs).Pairwise (· ≤ ·) ∧ ∀ e ∈ endsOf s rs, s < e ∧ e ≤ s + rs.flatten.length + rs.length
  | [], s => by simp [endsOf]
  | r :: rs, s => by
    obtain ⟨h1, h2⟩ := endsOf_bounds rs (s + r.length + 1)
    simp only [endsOf]
    constructor
    · rw [List.pairwise_cons]
      exact ⟨fun e he => by have := (h2 e he).1; omega, h1⟩
    · intro e he
      simp only [List.flatten_cons, List.length_append, List.length_cons]
      rcases List.mem_cons.1 he with rfl | he
      · omega
      · have := h2 e he; omega

/-- The lengths of the legs along a list. -/
def legs (f : Nat → Nat → Int) (l : List Nat) : Int := ((l.zip l.tail).map (fun p => f p.1 p.2)).sum

theorem legs_cons (f : Nat → Nat → Int) (a b : Nat) (l : List Nat) : legs f (a :: b :: l) = f a b + legs f (b :: l) := by
  simp [legs]

theorem legs_append (f : Nat → Nat → Int) (y : Nat) (m : List Nat) : ∀ (l : List Nat) (x : Nat),
    legs f (x :: l ++ y :: m) = legs f (x :: l ++ [y]) + legs f (y :: m)
  | [], x => by
    simp only [List.cons_append, List.nil_append, legs_cons]
    simp [legs]
  | z :: l, x => by
    have := legs_append f y m l z
    simp only [List.cons_append, legs_cons] at this ⊢
    omega

/-- A route seen from copies of the depot costs what it costs from the depot. -/
theorem legs_route (D : Data) {x y : Nat} (hx : D.customers < x) (hy : D.customers < y) : ∀ (r : List Nat), (∀ c ∈ r, c ≤ D.customers) →
    legs (distOf D) (x :: r ++ [y]) = legs (units D) (0 :: r ++ [0]) := by
  have tail : ∀ (r : List Nat) (c : Nat), c ≤ D.customers → (∀ c ∈ r, c ≤ D.customers) →
      legs (distOf D) (c :: r ++ [y]) = legs (units D) (c :: r ++ [0]) := by
    intro r
    induction r with
    | nil =>
      intro c hc _
      simp only [List.cons_append, List.nil_append, legs_cons]
      have : distOf D c y = units D c 0 := by unfold distOf; rw [if_pos hc, if_neg (by omega)]
      rw [this]
      simp [legs]
    | cons d r ih =>
      intro c hc hr
      have hd := hr d (by simp)
      have := ih d hd (fun e he => hr e (List.mem_cons_of_mem _ he))
      simp only [List.cons_append, legs_cons] at this ⊢
      rw [this]
      have : distOf D c d = units D c d := by unfold distOf; rw [if_pos hc, if_pos hd]
      rw [this]
  intro r hr
  cases r with
  | nil =>
    simp only [List.cons_append, List.nil_append, legs_cons]
    have h1 : distOf D x y = 0 := by unfold distOf; rw [if_neg (by omega), if_neg (by omega)]
    have h2 : units D 0 0 = 0 := by simp [units]
    rw [h1, h2]
    simp [legs]
  | cons c r =>
    have hc := hr c (by simp)
    have := tail r c hc (fun e he => hr e (List.mem_cons_of_mem _ he))
    simp only [List.cons_append, legs_cons] at this ⊢
    rw [this]
    have : distOf D x c = units D 0 c := by unfold distOf; rw [if_neg (by omega), if_pos hc]
    rw [this]

theorem legs_enc (D : Data) : ∀ (rs : List (List Nat)) (x k : Nat), D.customers < x → (∀ r ∈ rs, ∀ c ∈ r, c ≤ D.customers) →
    legs (distOf D) (x :: enc D k rs) = (rs.map (fun r => legs (units D) (0 :: r ++ [0]))).sum
  | [], x, k, _, _ => by simp [enc, legs]
  | r :: rs, x, k, hx, h => by
    have h1 := legs_append (distOf D) (D.customers + k + 2) (enc D (k + 1) rs) r x
    rw [legs_route D hx (by omega) r (h r (by simp)),
      legs_enc D rs (D.customers + k + 2) (k + 1) (by omega) (fun r' hr' => h r' (List.mem_cons_of_mem _ hr'))] at h1
    simp only [enc, List.map_cons, List.sum_cons]
    exact h1

/-- Cutting at the copies of the depot and putting together again. -/
theorem slices_enc (D : Data) (cs : List Nat) : ∀ (es : List Nat) (s k : Nat), (s :: es).Pairwise (· < ·) →
    (∀ (v e : Nat), es[v]? = some e → cs[e - 1]? = some (D.customers + k + v + 2)) → (s :: es).getLast? = some cs.length →
    cs.drop s = enc D k (slices cs s es) ∧ endsOf s (slices cs s es) = es
  | [], s, k, _, _, hl => by
    simp only [List.getLast?_singleton, Option.some.injEq] at hl
    simp [slices, enc, endsOf, hl]
  | e :: es, s, k, hp, hc, hl => by
    rw [List.pairwise_cons] at hp
    have hse := hp.1 e (by simp)
    have h0 := hc 0 e rfl
    have hel := (List.getElem?_eq_some_iff.1 h0).1
    obtain ⟨h1, h2⟩ := slices_enc D cs es e (k + 1) hp.2 (fun v e' h => by
      have := hc (v + 1) e' (by simpa using h)
      rw [this]; congr 1; omega) (by simpa [List.getLast?_cons_cons] using hl)
    have hlen : ((cs.drop s).take (e - 1 - s)).length = e - 1 - s := by rw [List.length_take, List.length_drop]; omega
    constructor
    · simp only [slices, enc]
      rw [← h1]
      have e1 : cs.drop s = (cs.drop s).take (e - 1 - s) ++ (cs.drop s).drop (e - 1 - s) := (List.take_append_drop _ _).symm
      conv => lhs; rw [e1]
      congr 1
      rw [List.drop_drop, show s + (e - 1 - s) = e - 1 by omega, List.drop_eq_getElem_cons hel,
        show e - 1 + 1 = e by omega]
      congr 1
      have := (List.getElem?_eq_some_iff.1 h0).2
      rw [this]
    · simp only [slices, endsOf, hlen]
      rw [show s + (e - 1 - s) + 1 = e by omega, h2]

end Verif.CpVrp
