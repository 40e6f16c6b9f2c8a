import Verif.Lemmas.TspTools
/-
C195: the tools of tours.
-/
namespace Verif.TspTools

/-- C195: the greedy tour begins at node 0, visits every node once, goes on from every node to a nearest one of those left, by the
coordinates cut off, and its length is that of the closed tour; if no two points coincide when cut off, or equal distances are sorted by
number. -/
theorem C195_greedy (len : Point → Point → Rat) {points : List Point} {n : Nat} (h0 : 0 < n) (hn : n ≤ points.length) {order : Nat → List Nat}
    (ho : IsOrder points n order) (hs : Separate points n ∨ Stable points n order) :
    ∃ rest, greedy len points order n = .ok (0 :: rest, pathLen len points (0 :: rest ++ [0])) ∧ (0 :: rest).Perm (List.range n) ∧
      Nearest points (0 :: rest) := by
  obtain ⟨ext, last, e1, e2, e3, e4, e5, e6⟩ := walk_ok len hn ho hs (n - 1) 0 [0] 0 (by simp) (by simp) (by simpa using h0) (by simp; omega)
    (fun v hv u huv _ => by rw [List.mem_singleton] at hv; omega)
  have hlast : last < points.length := by
    have hm := List.mem_of_getLast? e5
    rcases List.mem_cons.1 hm with rfl | hm
    · omega
    · have := e3 _ hm; omega
  refine ⟨ext, ?_, ?_, e6⟩
  · unfold greedy
    rw [if_neg (by omega), e1, bind_ok, leg_ok len hlast (show 0 < points.length by omega), bind_ok]
    simp only [List.cons_append, List.nil_append]
    congr 2
    have key : ∀ (l : List Nat) (a z : Nat), (a :: l).getLast? = some z →
        pathLen len points (a :: l) + len (pt points z) (pt points 0) = pathLen len points (a :: (l ++ [0])) := by
      intro l
      induction l with
      | nil =>
        intro a z h
        simp only [List.getLast?_singleton, Option.some.injEq] at h
        subst h
        simp [pathLen, Rat.add_zero, Rat.zero_add]
      | cons b l ih =>
        intro a z h
        rw [List.getLast?_cons_cons] at h
        simp only [List.cons_append, pathLen, Rat.add_assoc, ih b z h]
    rw [Rat.zero_add]
    exact key ext 0 last e5
  · have hp : ([0] ++ ext).Subperm (List.range n) := List.Nodup.subperm e2 (fun x hx => by
      rw [List.mem_range]
      rcases List.mem_append.1 hx with hx | hx
      · rw [List.mem_singleton] at hx; omega
      · exact e3 x hx)
    exact hp.perm_of_length_le (by simp [e4]; omega)

/-- C195: fewer points than nodes raise `IndexError`. -/
theorem C195_points_raise (len : Point → Point → Rat) {points : List Point} {order : Nat → List Nat} {n : Nat} (h : points.length < n) :
    greedy len points order n = .error .indexError ∧ (∀ p, computeLength len points (List.range n) n ≠ .ok p) := by
  refine ⟨by unfold greedy; rw [if_pos h], ?_⟩
  intro p hp
  unfold computeLength lastOf at hp
  have hl : (List.range n).getLast? = some (n - 1) := by
    rw [List.getLast?_eq_getElem?, List.length_range, List.getElem?_range (by omega)]
  simp only [hl, bind_ok] at hp
  obtain ⟨a, _, hp⟩ := bind_eq_ok.1 hp
  obtain ⟨pp, h2, _⟩ := bind_eq_ok.1 hp
  unfold leg at h2
  obtain ⟨q, h3, _⟩ := bind_eq_ok.1 h2
  have h4 : points[n - 1]? = some q := pyGet_ok_iff.1 h3
  have := (List.getElem?_eq_some_iff.1 h4).1
  omega

/-- C195: the lengths of a tour are those between neighbours and from the last node to the first; their sum is the length. -/
theorem C195_length (len : Point → Point → Rat) {points : List Point} {a : Nat} {l : List Nat} {z : Nat} (hz : (a :: l).getLast? = some z)
    (hlt : ∀ x ∈ a :: l, x < points.length) :
    ∃ ls, computeLength len points (a :: l) (l.length + 1) = .ok (ls, ls.sum) ∧ ls.length = l.length + 1 ∧ ls.sum = pathLen len points (a :: l) + len (pt points z) (pt points a) ∧
      ls[l.length]? = some (len (pt points z) (pt points a)) ∧
      ∀ (i x y : Nat), (a :: l)[i]? = some x → (a :: l)[i + 1]? = some y → ls[i]? = some (len (pt points x) (pt points y)) := by
  let zs := (a :: l).dropLast.zipWith (fun a b => len (pt points a) (pt points b)) l
  have hzl : zs.length = l.length := by simp [zs]
  refine ⟨zs ++ [len (pt points z) (pt points a)], ?_, by simp [hzl], ?_, ?_, ?_⟩
  · unfold computeLength lastOf
    have h1 : pyGet (a :: l) 0 = .ok a := rfl
    simp only [hz, bind_ok, h1, leg_ok len (hlt z (List.mem_of_getLast? hz)) (hlt a (by simp)), Nat.add_sub_cancel]
    rw [legs_ok len hlt l.length 0 (by simp), bind_ok]
    have e1 : ((a :: l).drop 0).take l.length = (a :: l).dropLast := by
      rw [List.drop_zero, List.dropLast_eq_take]; rfl
    have e2 : ((a :: l).drop (0 + 1)).take l.length = l := by simp
    rw [e1, e2]
    simp only [zs, List.sum_append, List.sum_cons, List.sum_nil, Rat.add_zero]
    rw [Rat.add_comm]
  · rw [List.sum_append, List.sum_cons, List.sum_nil, Rat.add_zero]
    have := zip_sum len points (a :: l)
    rw [List.tail_cons] at this
    rw [this]
  · rw [List.getElem?_append_right (by omega)]
    simp [hzl]
  · intro i x y hx hy
    have hi : i < l.length := by
      have := (List.getElem?_eq_some_iff.1 hy).1
      simpa using this
    rw [List.getElem?_append_left (by omega)]
    simp only [zs, List.getElem?_zipWith]
    have h1 : (a :: l).dropLast[i]? = some x := by
      rw [List.getElem?_dropLast, if_pos (by simpa using hi)]; exact hx
    have h2 : l[i]? = some y := by simpa using hy
    rw [h1, h2]

/-- C195: a number of nodes above that of the tour raises `IndexError`; a tour without nodes too. -/
theorem C195_length_raises (len : Point → Point → Rat) {points : List Point} {sol : List Nat} {n : Nat} (hlt : ∀ x ∈ sol, x < points.length)
    (h : sol.length < n ∨ sol = []) : computeLength len points sol n = .error .indexError := by
  cases sol with
  | nil => rfl
  | cons a l =>
    rcases h with h | h
    · obtain ⟨z, hz⟩ : ∃ z, (a :: l).getLast? = some z := ⟨_, List.getLast?_eq_getLast_of_ne_nil (by simp)⟩
      unfold computeLength lastOf
      have h1 : pyGet (a :: l) 0 = .ok a := rfl
      simp only [hz, bind_ok, h1, leg_ok len (hlt z (List.mem_of_getLast? hz)) (hlt a (by simp))]
      rw [legs_error len hlt (n - 1) 0 (by simp) (by simp at h ⊢; omega)]
      rfl
    · simp at h

/-- C195: the tour in the order of the file, with its length. -/
theorem C195_baseline (len : Point → Point → Rat) {points : List Point} {n : Nat} (h0 : 0 < n) (hn : n ≤ points.length) :
    baseline len points n = .ok (List.range n, pathLen len points (List.range n) + len (pt points (n - 1)) (pt points 0)) := by
  obtain ⟨k, rfl⟩ : ∃ k, n = k + 1 := ⟨n - 1, by omega⟩
  have hc : List.range (k + 1) = 0 :: (List.range k).map Nat.succ := List.range_succ_eq_map
  have hl : (List.range (k + 1)).getLast? = some k := by
    rw [List.getLast?_eq_getElem?, List.length_range, List.getElem?_range (by omega)]
    simp
  rw [hc] at hl
  obtain ⟨ls, h1, _, h3, _⟩ := C195_length len (points := points) hl (by
    intro x hx
    rw [← hc, List.mem_range] at hx
    omega)
  unfold baseline
  rw [hc]
  rw [List.length_map, List.length_range] at h1
  rw [h1, bind_ok, h3]
  rfl

/-- C195: for whole coordinates the nodes are sorted by the sum of the differences of both coordinates. -/
theorem C195_whole {points : List Point} {i j : Nat} {x y u v : Int} (hi : points[i]? = some ((x : Rat), (y : Rat)))
    (hj : points[j]? = some ((u : Rat), (v : Rat))) : dist points i j = (x - u).natAbs + (y - v).natAbs := by
  have hc : ∀ z : Int, cut (z : Rat) = z := by
    intro z
    unfold cut
    split <;> simp
  unfold dist pt
  simp only [List.getD_eq_getElem?_getD, hi, hj, gap, hc, Option.getD_some]

/-- Squares of distances stand for distances. -/
def sq (p q : Point) : Rat := (p.1 - q.1) * (p.1 - q.1) + (p.2 - q.2) * (p.2 - q.2)

/-- Where two points coincide and the order of equal distances is another one, `StopIteration` may be raised. -/
theorem C195_coincide_refuted : ∃ order, IsOrder [(0, 0), (1 / 2, 1 / 2)] 2 order ∧ greedy sq [(0, 0), (1 / 2, 1 / 2)] order 2 = .error .stopIteration := by
  refine ⟨fun _ => [1, 0], ?_, by decide +kernel⟩
  unfold IsOrder
  decide +kernel

/-- The next node may not be the nearest one, since coordinates are cut off: node 2 is nearer to node 0 than node 1. -/
theorem C195_nearest_refuted : ∃ order, IsOrder [(0, 0), (19 / 10, 0), (1, 9 / 10)] 3 order ∧ Stable [(0, 0), (19 / 10, 0), (1, 9 / 10)] 3 order ∧
    okAnd (greedy sq [(0, 0), (19 / 10, 0), (1, 9 / 10)] order 3) (fun r => r.1 = [0, 1, 2]) = true ∧ sq (0, 0) (1, 9 / 10) < sq (0, 0) (19 / 10, 0) := by
  refine ⟨fun i => if i = 0 then [0, 1, 2] else [1, 2, 0], ?_, ?_, by decide +kernel, by decide +kernel⟩
  · unfold IsOrder; decide +kernel
  · unfold Stable; decide +kernel

/-- Nodes on a line. -/
def line : List Point := [(0, 0), (5, 0), (1, 0), (3, 0)]
def lineOrder (i : Nat) : List Nat := if i = 0 then [0, 2, 3, 1] else if i = 1 then [1, 3, 2, 0] else if i = 2 then [2, 0, 3, 1] else [3, 1, 2, 0]

example : IsOrder line 4 lineOrder ∧ Separate line 4 := by
  constructor
  · unfold IsOrder; decide +kernel
  · have : ∀ i < 4, ∀ j < 4, dist line i j = 0 → i = j := by decide +kernel
    exact fun i j hi hj h => this i hi j hj h
example : dist [(1, 2), (4, -2)] 0 1 = 7 ∧ dist [(19 / 10, -1 / 2), (-5 / 2, 5 / 2)] 0 1 = 5 := ⟨by decide +kernel, by decide +kernel⟩
example : greedy sq line lineOrder 4 = .ok ([0, 2, 3, 1], 34) := by decide +kernel
example : computeLength sq line [0, 1, 3] 3 = .ok ([25, 4, 9], 38) ∧ computeLength sq line [0, 1, 3] 4 = .error .indexError ∧
    baseline sq line 4 = .ok ([0, 1, 2, 3], 54) := ⟨by decide +kernel, by decide +kernel, by decide +kernel⟩

end Verif.TspTools
