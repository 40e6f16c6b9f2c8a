import Verif.Model.TspTools
import Mathlib.Data.List.Perm.Subperm
/-
Lemmas about the tools of tours.
-/
namespace Verif.TspTools

/-- A point of the list. -/
def pt (points : List Point) (i : Nat) : Point := points.getD i (0, 0)

/-- The distance that the rows are sorted by. -/
def dist (points : List Point) (i j : Nat) : Nat := gap (pt points i) (pt points j)

/-- The length of a path. -/
def pathLen (len : Point → Point → Rat) (points : List Point) : List Nat → Rat
  | a :: b :: l => len (pt points a) (pt points b) + pathLen len points (b :: l)
  | _ => 0

/-- Every node is followed by a nearest one of those that come later. -/
def Nearest (points : List Point) : List Nat → Prop
  | a :: b :: l => (∀ m ∈ l, dist points a b ≤ dist points a m) ∧ Nearest points (b :: l)
  | _ => True

/-- The rows of `argsort`: all nodes, by distance. -/
def IsOrder (points : List Point) (n : Nat) (order : Nat → List Nat) : Prop :=
  ∀ i < n, (order i).Perm (List.range n) ∧ (order i).Pairwise (fun a b => dist points i a ≤ dist points i b)

/-- No two points coincide when their coordinates are cut off. -/
def Separate (points : List Point) (n : Nat) : Prop := ∀ i j, i < n → j < n → dist points i j = 0 → i = j

/-- Of equal distances, the node with the smaller number comes first. -/
def Stable (points : List Point) (n : Nat) (order : Nat → List Nat) : Prop :=
  ∀ i < n, (order i).Pairwise (fun a b => dist points i a = dist points i b → a < b)

theorem leg_ok (len : Point → Point → Rat) {points : List Point} {i j : Nat} (hi : i < points.length) (hj : j < points.length) :
    leg len points i j = .ok (len (pt points i) (pt points j)) := by
  unfold leg pt
  rw [pyGet_of_lt hi, bind_ok, pyGet_of_lt hj, bind_ok]
  simp [hi, hj]

theorem dist_zero {points : List Point} {i j : Nat} (h : dist points i j = 0) (k : Nat) : dist points k i = dist points k j := by
  unfold dist gap at *
  omega

theorem dist_self (points : List Point) (i : Nat) : dist points i i = 0 := by
  unfold dist gap
  omega

theorem dist_comm (points : List Point) (i j : Nat) : dist points i j = dist points j i := by
  unfold dist gap
  omega

theorem find_first {l : List Nat} {sol : List Nat} {m : Nat} (h : l.find? (fun p => decide (p ∉ sol)) = some m) :
    ∃ a b, l = a ++ m :: b ∧ m ∉ sol ∧ ∀ x ∈ a, x ∈ sol := by
  obtain ⟨h1, a, b, h2, h3⟩ := List.find?_eq_some_iff_append.1 h
  refine ⟨a, b, h2, of_decide_eq_true h1, fun x hx => ?_⟩
  have := h3 x hx
  simpa using this

theorem walk_ok (len : Point → Point → Rat) {points : List Point} {n : Nat} (hn : n ≤ points.length) {order : Nat → List Nat} (ho : IsOrder points n order)
    (hs : Separate points n ∨ Stable points n order) : ∀ (k cur : Nat) (sol : List Nat) (total : Rat), cur ∈ sol → sol.Nodup → (∀ x ∈ sol, x < n) →
    sol.length + k = n → (∀ v ∈ sol, ∀ u, u < v → dist points u v = 0 → u ∈ sol) →
    ∃ ext last, walk len points (fun i => (order i).drop 1) k cur sol total = .ok (sol ++ ext, last, total + pathLen len points (cur :: ext)) ∧
      (sol ++ ext).Nodup ∧ (∀ x ∈ ext, x < n) ∧ ext.length = k ∧ (cur :: ext).getLast? = some last ∧ Nearest points (cur :: ext)
  | 0, cur, sol, total, hc, hnd, hlt, hl, hinv => ⟨[], cur, by simp [walk, pathLen, Rat.add_zero], by simpa using hnd, by simp, rfl, rfl, trivial⟩
  | k + 1, cur, sol, total, hc, hnd, hlt, hl, hinv => by
    have hcn : cur < n := hlt cur hc
    obtain ⟨hperm, hsort⟩ := ho cur hcn
    cases hrow : order cur with
    | nil =>
      rw [hrow] at hperm
      have := hperm.length_eq
      simp at this
      omega
    | cons c0 rest =>
      rw [hrow] at hperm hsort
      have hc0n : c0 < n := List.mem_range.1 (hperm.mem_iff.1 (by simp))
      have hzero : dist points cur c0 = 0 := by
        rcases List.mem_cons.1 (hperm.mem_iff.2 (List.mem_range.2 hcn)) with e | hmem
        · rw [← e]; exact dist_self _ _
        · have := (List.pairwise_cons.1 hsort).1 cur hmem
          rw [dist_self] at this
          omega
      have hc0 : c0 ∈ sol := by
        by_cases e : c0 = cur
        · rw [e]; exact hc
        · rcases hs with hs | hs
          · exact absurd (hs cur c0 hcn hc0n hzero).symm e
          · have hst := hs cur hcn
            rw [hrow, List.pairwise_cons] at hst
            have hmem : cur ∈ rest := (List.mem_cons.1 (hperm.mem_iff.2 (List.mem_range.2 hcn))).resolve_left (fun h => e h.symm)
            have hlt' := hst.1 cur hmem (by rw [hzero, dist_self])
            exact hinv cur hc c0 hlt' (by rw [dist_comm]; exact hzero)
      -- a node is left
      obtain ⟨f, hf, hfs⟩ : ∃ f, f < n ∧ f ∉ sol := by
        apply Classical.byContradiction
        intro hno
        have hsub : ∀ x ∈ List.range n, x ∈ sol := fun x hx => Classical.byContradiction (fun h => hno ⟨x, List.mem_range.1 hx, h⟩)
        have := (List.Nodup.subperm List.nodup_range hsub).length_le
        simp at this
        omega
      have hfr : f ∈ rest := (List.mem_cons.1 (hperm.mem_iff.2 (List.mem_range.2 hf))).resolve_left (fun h => hfs (h ▸ hc0))
      cases hfind : rest.find? (fun p => decide (p ∉ sol)) with
      | none =>
        rw [List.find?_eq_none] at hfind
        exact absurd (hfind f hfr) (by simpa using hfs)
      | some m =>
        obtain ⟨a, b, hab, hm, ha⟩ := find_first hfind
        have hmr : m ∈ rest := by rw [hab]; simp
        have hmn : m < n := List.mem_range.1 (hperm.mem_iff.1 (List.mem_cons_of_mem _ hmr))
        have hnear : ∀ x < n, x ∉ sol → x ≠ m → x ∈ b := by
          intro x hx hxs hxm
          have hxr : x ∈ rest := (List.mem_cons.1 (hperm.mem_iff.2 (List.mem_range.2 hx))).resolve_left (fun h => hxs (h ▸ hc0))
          rw [hab, List.mem_append, List.mem_cons] at hxr
          rcases hxr with h | h | h
          · exact absurd (ha x h) hxs
          · exact absurd h hxm
          · exact h
        have hsortb : ∀ x ∈ b, dist points cur m ≤ dist points cur x := by
          have h2 := (List.pairwise_cons.1 hsort).2
          rw [hab, List.pairwise_append] at h2
          exact (List.pairwise_cons.1 h2.2.1).1
        have hinv' : ∀ v ∈ sol ++ [m], ∀ u, u < v → dist points u v = 0 → u ∈ sol ++ [m] := by
          intro v hv u huv hd
          rw [List.mem_append, List.mem_singleton] at hv ⊢
          rcases hv with hv | rfl
          · exact Or.inl (hinv v hv u huv hd)
          · refine Or.inl (Classical.byContradiction (fun hu => ?_))
            have hun : u < n := by omega
            rcases hs with hs | hs
            · have := hs u v hun hmn hd; omega
            · have hub := hnear u hun hu (by omega)
              have hst := hs cur hcn
              rw [hrow, hab, List.pairwise_cons] at hst
              have h2 := hst.2
              rw [List.pairwise_append] at h2
              have := (List.pairwise_cons.1 h2.2.1).1 u hub (dist_zero hd cur).symm
              omega
        obtain ⟨ext, last, e1, e2, e3, e4, e5, e6⟩ := walk_ok len hn ho hs k m (sol ++ [m]) (total + len (pt points cur) (pt points m)) (by simp)
          (by rw [List.nodup_append]; exact ⟨hnd, by simp, fun x hx y hy e => hm (by rw [List.mem_singleton] at hy; subst hy; subst e; exact hx)⟩)
          (by intro x hx; rw [List.mem_append, List.mem_singleton] at hx; exact hx.elim (hlt x) (fun e => e ▸ hmn))
          (by simp; omega) hinv'
        refine ⟨m :: ext, last, ?_, by simpa using e2, ?_, by simp [e4], ?_, ?_, e6⟩
        · simp only [walk, hrow, List.drop_succ_cons, List.drop_zero, hfind, leg_ok len (show cur < points.length by omega) (show m < points.length by omega), bind_ok, e1]
          simp only [List.append_assoc, List.cons_append, List.nil_append, pathLen, Rat.add_assoc]
        · intro x hx
          rcases List.mem_cons.1 hx with rfl | hx
          · exact hmn
          · exact e3 x hx
        · rw [List.getLast?_cons_cons]; exact e5
        · intro x hx
          have hx' : x ∉ sol ∧ x ≠ m := by
            rw [List.nodup_append] at e2
            have h1 := e2.2.2
            exact ⟨fun h => h1 x (by simp [h]) x hx rfl, fun h => h1 m (by simp) x hx h.symm⟩
          exact hsortb x (hnear x (e3 x hx) hx'.1 hx'.2)

theorem legs_ok (len : Point → Point → Rat) {points : List Point} {sol : List Nat} (hlt : ∀ x ∈ sol, x < points.length) : ∀ (k i : Nat), i + k < sol.length →
    legs len points sol k i = .ok (((sol.drop i).take k).zipWith (fun a b => len (pt points a) (pt points b)) ((sol.drop (i + 1)).take k))
  | 0, i, _ => by simp [legs]
  | k + 1, i, h => by
    have h1 : i < sol.length := by omega
    have h2 : i + 1 < sol.length := by omega
    simp only [legs, pyGet_of_lt h1, pyGet_of_lt h2, bind_ok, leg_ok len (hlt _ (List.getElem_mem h1)) (hlt _ (List.getElem_mem h2)), legs_ok len hlt k (i + 1) (by omega)]
    rw [List.drop_eq_getElem_cons h1, List.take_succ_cons, List.drop_eq_getElem_cons h2, List.take_succ_cons, List.zipWith_cons_cons,
      ← List.drop_eq_getElem_cons h2]

theorem zip_sum (len : Point → Point → Rat) (points : List Point) : ∀ l : List Nat,
    (l.dropLast.zipWith (fun a b => len (pt points a) (pt points b)) l.tail).sum = pathLen len points l
  | [] => rfl
  | [_] => rfl
  | a :: b :: l => by
    have := zip_sum len points (b :: l)
    simp only [List.tail_cons] at this
    simp only [List.dropLast_cons₂, List.tail_cons, List.zipWith_cons_cons, List.sum_cons, pathLen, this]

theorem legs_error (len : Point → Point → Rat) {points : List Point} {sol : List Nat} (hlt : ∀ x ∈ sol, x < points.length) : ∀ (k i : Nat), i < sol.length → sol.length ≤ i + k →
    legs len points sol k i = .error .indexError
  | 0, i, h, h' => by omega
  | k + 1, i, h, h' => by
    by_cases h2 : i + 1 < sol.length
    · simp only [legs, pyGet_of_lt h, pyGet_of_lt h2, bind_ok, leg_ok len (hlt _ (List.getElem_mem h)) (hlt _ (List.getElem_mem h2)), legs_error len hlt k (i + 1) h2 (by omega), bind_error]
    · have : pyGet sol (i + 1) = .error .indexError := by
        unfold pyGet
        rw [List.getElem?_eq_none (by omega)]
      simp only [legs, pyGet_of_lt h, bind_ok, this, bind_error]

end Verif.TspTools
