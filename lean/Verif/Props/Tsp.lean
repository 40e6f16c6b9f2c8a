import Verif.Lemmas.Tsp
/-
Properties C30 (encodings), C31 (lengths under moves) and C56 (acceptance) of the travelling salesman
model.  `tour m p` is start, permutation, end; `walk d l` is the list of the legs of `l`.
-/
namespace Verif.Tsp

/-- Four nodes, start and end at node 0, distance `|a - b| * (a + b)`. -/
def exModel : Model := ⟨4, 0, 0, fun a b => ((a : Int) - b).natAbs * (a + b)⟩

/-- Five nodes, from 0 to 4, one-way distances. -/
def oneWay : Model := ⟨5, 0, 4, fun a b => if a < b then 1 else 10⟩

/-- Nodes that may occur in a tour permutation: all but start and end, in increasing order, each once. -/
theorem C30_nodes (m : Model) : (∀ x, x ∈ m.inner ↔ x < m.nodeCount ∧ x ≠ m.start ∧ x ≠ m.fin) ∧ m.inner.Nodup := by
  refine ⟨fun x => ?_, inner_nodup m⟩
  simp [Model.inner, List.mem_filter, List.mem_range]

/-- **C30.** The two conversions are inverse to each other: one gives `p` from `p0` exactly when the other gives
`p0` from `p`. -/
theorem C30_round_trip (m : Model) (p0 p : List Nat) : toOriginal m p0 = .ok p ↔ toFrom0 m p = .ok p0 :=
  toOriginal_iff m p0 p

example : toOriginal oneWay [2, 0, 1] = .ok [3, 1, 2] := by decide
example : toFrom0 oneWay [3, 1, 2] = .ok [2, 0, 1] := by decide

/-- **C30.** The conversion to node indices succeeds exactly on lists of valid positions. -/
theorem C30_to_original_total (m : Model) (p0 : List Nat) : (∃ p, toOriginal m p0 = .ok p) ↔ ∀ k ∈ p0, k < m.len := by
  constructor
  · rintro ⟨p, h⟩ k hk
    have := toOriginal_map m p0 p h
    have hm : m.inner[k]? ∈ p.map some := by rw [this]; exact List.mem_map_of_mem hk
    obtain ⟨x, _, hx⟩ := List.mem_map.1 hm
    exact (List.getElem?_eq_some_iff.1 hx.symm).1
  · exact toOriginal_ok m p0

/-- **C30.** The conversion to positions succeeds exactly on lists of nodes other than start and end. -/
theorem C30_to_from0_total (m : Model) (p : List Nat) :
    (∃ p0, toFrom0 m p = .ok p0) ↔ ∀ x ∈ p, x < m.nodeCount ∧ x ≠ m.start ∧ x ≠ m.fin := by
  constructor
  · rintro ⟨p0, h⟩ x hx
    have := toOriginal_map m p0 p ((toOriginal_iff m p0 p).2 h)
    have hm : some x ∈ p0.map (fun k => m.inner[k]?) := by rw [← this]; exact List.mem_map_of_mem hx
    obtain ⟨k, _, hk⟩ := List.mem_map.1 hm
    exact ((C30_nodes m).1 x).1 (List.mem_of_getElem? hk)
  · intro h
    exact toFrom0_ok m p (fun x hx => ((C30_nodes m).1 x).2 (h x hx))

example : toFrom0 oneWay [3, 4, 2] = .error .keyError := by decide
example : toOriginal oneWay [3, 1] = .error .indexError := by decide

/-- **C30.** Permutations of the positions correspond to permutations of the nodes other than start and end. -/
theorem C30_permutations (m : Model) (p0 p : List Nat) (h : toOriginal m p0 = .ok p) :
    p0.Perm (List.range m.len) ↔ p.Perm m.inner := by
  have hm := toOriginal_map m p0 p h
  constructor
  · intro hp
    apply perm_of_map_some
    rw [hm, ← range_map_get m.inner]
    exact hp.map _
  · intro hp
    have hlen : p0.length = p.length := by
      have := congrArg List.length hm
      simpa using this.symm
    have key : ∀ (l : List Nat) (l0 : List Nat), l.map some = l0.map (fun k => m.inner[k]?) →
        l.map m.dict.get? = l0.map some := by
      intro l
      induction l with
      | nil => intro l0 h; cases l0 with
        | nil => rfl
        | cons _ _ => simp at h
      | cons x l ih => intro l0 h; cases l0 with
        | nil => simp at h
        | cons k l0 =>
          simp only [List.map_cons, List.cons.injEq] at h ⊢
          exact ⟨(dict_iff m x k).2 h.1.symm, ih l0 h.2⟩
    apply perm_of_map_some
    rw [← key p p0 hm, ← key m.inner (List.range m.len) (range_map_get m.inner).symm]
    exact hp.map _

/-- **C30, as coded.** A swap move rewrites the permutation only: the zero-based encoding kept with the tour is
no longer the encoding of the tour. -/
theorem C30_swap_leaves_encoding_stale :
    ∃ s s' : Solution, build exModel computeLength [1, 2, 3] = .ok s ∧ toFrom0 exModel s.perm = .ok s.perm0 ∧
      swapMove exModel 0 1 s = .ok s' ∧ toFrom0 exModel s'.perm ≠ .ok s'.perm0 :=
  ⟨⟨0, 0, [1, 2, 3], [0, 1, 2], [1, 3, 5, 9], some 18⟩, ⟨0, 0, [2, 1, 3], [0, 1, 2], [4, 3, 8, 9], some 24⟩,
    by decide, by decide, by decide, by decide⟩

/-- The stored lengths of a tour are those of its legs, in order, and their sum. -/
structure Exact (m : Model) (s : Solution) : Prop where
  start : s.start = m.start
  fin : s.fin = m.fin
  size : s.perm.length = m.len
  legs : s.lengths = walk m.dist (tour m s.perm)
  total : s.length = some (walk m.dist (tour m s.perm)).sum

/-- Distances do not depend on the direction. -/
def Symmetric (m : Model) : Prop := ∀ a b, m.dist a b = m.dist b a

theorem exModel_symmetric : Symmetric exModel := by
  intro a b
  simp only [exModel]
  have h1 : ((a : Int) - b).natAbs = ((b : Int) - a).natAbs := by omega
  rw [h1, Int.add_comm (a : Int) b]

/-- **C31.** A tour built from a non-empty permutation of the right size carries its exact legs and length. -/
theorem C31_build (m : Model) (hs : Symmetric m) (perm : List Nat) (hne : perm ≠ []) (hl : perm.length = m.len)
    (hin : ∀ x ∈ perm, x ∈ m.inner) :
    ∃ s, build m computeLength perm = .ok s ∧ s.perm = perm ∧ Exact m s ∧ toFrom0 m s.perm = .ok s.perm0 := by
  obtain ⟨p0, h0⟩ := toFrom0_ok m perm hin
  refine ⟨_, by simp only [build, h0, bind_ok, computeLength_spec hs hl hne]; rfl, rfl, ⟨rfl, rfl, hl, rfl, rfl⟩, h0⟩

example : build exModel computeLength [2, 1, 3] = .ok ⟨0, 0, [2, 1, 3], [1, 0, 2], [4, 3, 8, 9], some 24⟩ := by decide

/-- **C31 (partial: the total only).** The array version of the evaluation gives the exact total. -/
theorem C31_build_np_partial (m : Model) (hs : Symmetric m) (perm : List Nat) (hne : perm ≠ []) (hl : perm.length = m.len)
    (hin : ∀ x ∈ perm, x ∈ m.inner) :
    ∃ s, build m computeLengthNp perm = .ok s ∧ s.perm = perm ∧ s.length = some (walk m.dist (tour m perm)).sum := by
  obtain ⟨p0, h0⟩ := toFrom0_ok m perm hin
  have hle : m.len ≤ m.nodeCount := by
    have := List.length_filter_le (fun i => i ≠ m.start && i ≠ m.fin) (List.range m.nodeCount)
    simpa [Model.len, Model.inner] using this
  obtain ⟨ls, h1⟩ := computeLengthNp_obj hs hl hne hle
  exact ⟨_, by simp only [build, h0, bind_ok, h1]; rfl, rfl, rfl⟩

/-- **C31, as coded.** The array version writes leg `i + 1` at position `i`, so the list of legs it returns is not
the list of the tour's legs (the first leg is lost, a zero appears), although the sum it returns is right. -/
theorem C31_np_legs_wrong :
    computeLengthNp exModel [1, 2, 3] = .ok ([3, 5, 0, 9], 18) ∧ walk exModel.dist (tour exModel [1, 2, 3]) = [1, 3, 5, 9] := by
  decide

/-- **C31, as coded.** Swapping after the array evaluation gives a wrong total. -/
theorem C31_np_then_swap_wrong :
    ∃ s s' : Solution, build exModel computeLengthNp [1, 2, 3] = .ok s ∧ swapMove exModel 0 2 s = .ok s' ∧
      s'.length ≠ some (walk exModel.dist (tour exModel s'.perm)).sum :=
  ⟨⟨0, 0, [1, 2, 3], [0, 1, 2], [3, 5, 0, 9], some 18⟩, ⟨0, 0, [3, 2, 1], [0, 1, 2], [9, 5, 3, 1], some 19⟩,
    by decide, by decide, by decide⟩

/-- **C31.** Two-opt with at least one candidate: it never raises; the new tour visits the same nodes, its encoding,
legs and length are exact, and the length returned is the one stored; among the reversals tried (and the tour
itself, when only improvements are returned) none is shorter, and the new tour is one of them. -/
theorem C31_two_opt (m : Model) (hs : Symmetric m) (s : Solution) (he : Exact m s) (hin : ∀ x ∈ s.perm, x ∈ m.inner)
    (hp0 : toFrom0 m s.perm = .ok s.perm0)
    (only : Bool) (it0 jt0 : Nat) (h0 : it0 < jt0 ∧ jt0 < m.len) (cands : List (Nat × Nat)) (hne : cands ≠ [])
    (hc : ∀ p ∈ cands, p.1 < p.2 ∧ p.2 < m.len) :
    ∃ v, twoOpt m only it0 jt0 cands s = .ok (v, v.length) ∧ Exact m v ∧ toFrom0 m v.perm = .ok v.perm0 ∧ v.perm.Perm s.perm ∧
      ((∃ p ∈ cands, v.perm = reverseSegment s.perm p.1 p.2) ∨ (only = true ∧ v = s)) ∧
      (∀ p ∈ cands, (walk m.dist (tour m v.perm)).sum ≤ (walk m.dist (tour m (reverseSegment s.perm p.1 p.2))).sum) ∧
      (only = true → (walk m.dist (tour m v.perm)).sum ≤ (walk m.dist (tour m s.perm)).sum) := by
  have hl := he.size
  have cost_ok : ∀ p ∈ cands, change m s p.1 p.2 =
      .ok ((walk m.dist (tour m (reverseSegment s.perm p.1 p.2))).sum - (walk m.dist (tour m s.perm)).sum) := by
    intro p hp
    obtain ⟨q, c, _, h2, h3, _⟩ := reverse_effect hs he.start he.fin hl (it := p.1) (jt := p.2) (by have := (hc p hp).1; omega)
      (by have := (hc p hp).2; omega)
    rw [h2, h3]; congr 1; omega
  obtain ⟨q0, c0, hq0, _, _, _⟩ := reverse_effect hs he.start he.fin hl (it := it0) (jt := jt0) (by omega) (by omega)
  obtain ⟨b, hb1, hb2, hb3, hb4, hb5⟩ := searchMoves_spec (m := m) (s := s)
    (fun i j => (walk m.dist (tour m (reverseSegment s.perm i j))).sum - (walk m.dist (tour m s.perm)).sum) cands ⟨it0, jt0, none⟩
    cost_ok (by simp)
  obtain ⟨c, hbc⟩ : ∃ c, b.change = some c := by
    rcases h : b.change with _ | c
    · exact absurd (hb3 h).2 hne
    · exact ⟨c, rfl⟩
  have hbm : (b.it, b.jt) ∈ cands := by
    rcases hb4 with h | h
    · exact h
    · rw [h] at hbc; cases hbc
  obtain ⟨q, c', hq1, hq2, hq3, hq4⟩ := reverse_effect hs he.start he.fin hl (it := b.it) (jt := b.jt)
    (by have := (hc _ hbm).1; simp only at this; omega) (by have := (hc _ hbm).2; simp only at this; omega)
  have hperm := reverseSegment_perm s.perm (it := b.it) (jt := b.jt) (by have := (hc _ hbm).1; simp only at this; omega)
  obtain ⟨p0, hp0'⟩ := toFrom0_ok m (reverseSegment s.perm b.it b.jt) (fun x hx => hin x (hperm.mem_iff.1 hx))
  have hcc := hb2 c hbc
  have hmin := (hb5 c hbc).1
  have happ : applyMove m s true b = .ok ⟨s.start, s.fin, reverseSegment s.perm b.it b.jt, p0,
      walk m.dist (tour m (reverseSegment s.perm b.it b.jt)), some (walk m.dist (tour m (reverseSegment s.perm b.it b.jt))).sum⟩ := by
    simp only [applyMove, hq1, bind_ok, hp0', hq4 he.legs, he.total, hbc, addLen]
    congr 3; omega
  by_cases hkeep : (improves b.change || !only) = true
  · refine ⟨⟨s.start, s.fin, reverseSegment s.perm b.it b.jt, p0,
      walk m.dist (tour m (reverseSegment s.perm b.it b.jt)), some (walk m.dist (tour m (reverseSegment s.perm b.it b.jt))).sum⟩,
      ?_, ⟨he.start, he.fin, ?_, rfl, rfl⟩, hp0', hperm, .inl ⟨_, hbm, rfl⟩, ?_, ?_⟩
    · simp only [twoOpt, hq0, hb1, happ, bind_ok, hkeep, ↓reduceIte]
    · exact hperm.length_eq.trans hl
    · intro p hp
      have := hmin p hp
      simp only; omega
    · intro ho
      rw [ho, hbc] at hkeep
      simp [improves] at hkeep
      simp only; omega
  · refine ⟨s, ?_, he, hp0, List.Perm.refl _, ?_, ?_, fun _ => Int.le_refl _⟩
    · simp only [twoOpt, hq0, hb1, happ, bind_ok, hkeep, ↓reduceIte, Bool.false_eq_true]
    · right
      cases only <;> simp_all
    · intro p hp
      have := hmin p hp
      rw [hbc] at hkeep
      cases only <;> simp [improves] at hkeep
      omega

example : Exact exModel ⟨0, 0, [2, 1, 3], [1, 0, 2], [4, 3, 8, 9], some 24⟩ := by
  constructor <;> decide
example : twoOpt exModel true 0 1 [(1, 2), (0, 1), (0, 2)] ⟨0, 0, [2, 1, 3], [1, 0, 2], [4, 3, 8, 9], some 24⟩ =
    .ok (⟨0, 0, [2, 3, 1], [1, 2, 0], [4, 5, 8, 1], some 18⟩, some 18) := by decide

/-- **C31.** When the stored legs may be wrong (array evaluation) the length stored by a two-opt move is still exact. -/
theorem C31_two_opt_length (m : Model) (hs : Symmetric m) (s : Solution) (hst : s.start = m.start) (hfi : s.fin = m.fin)
    (hl : s.perm.length = m.len) (htot : s.length = some (walk m.dist (tour m s.perm)).sum) (keepTail : Bool) (it jt : Nat)
    (h1 : it ≤ jt) (h2 : jt < m.len) (c : Int) (hc : change m s it jt = .ok c) (v : Solution)
    (h : applyMove m s keepTail ⟨it, jt, some c⟩ = .ok v) :
    v.perm.Perm s.perm ∧ v.length = some (walk m.dist (tour m v.perm)).sum := by
  obtain ⟨q, c', hq1, hq2, hq3, hq4⟩ := reverse_effect hs hst hfi hl (it := it) (jt := jt) h1 (by omega)
  rw [hq2] at hc; cases hc
  simp only [applyMove, hq1, bind_ok] at h
  obtain ⟨p0, _, h⟩ := bind_eq_ok.1 h
  cases h
  refine ⟨reverseSegment_perm _ h1, ?_⟩
  rw [htot, hq3]; rfl

/-- **C31, as coded.** When no candidate was drawn (for instance a single test at the last position) two-opt returns a
tour of infinite stored length. -/
theorem C31_two_opt_no_candidate :
    (twoOpt exModel false 0 1 [] ⟨0, 0, [1, 2, 3], [0, 1, 2], [1, 3, 5, 9], some 18⟩).map (fun r => (r.1.perm, r.2)) =
      .ok ([2, 1, 3], none) := by decide

/-- **C31, as coded.** The intersection variant forgets the legs after the reversed segment. -/
theorem C31_intersection_drops_legs :
    ∃ v : Solution, twoOptIntersection exModel false [(0, 1)] ⟨0, 0, [2, 1, 3], [1, 0, 2], [4, 3, 8, 9], some 24⟩ = .ok (v, some 18) ∧
      v.perm = [1, 2, 3] ∧ v.lengths = [1, 3, 5] :=
  ⟨⟨0, 0, [1, 2, 3], [0, 1, 2], [1, 3, 5], some 18⟩, by decide, rfl, rfl⟩

/-- **C31, as coded.** Constructing the two-opt mutation without a number of tests raises; with one, at most
`node_count - 1` tests are made. -/
theorem C31_default_tests (n : Nat) : initTests n none = .error .typeError ∧ ∀ k, initTests n (some k) = .ok (min k (n - 1)) :=
  ⟨rfl, fun _ => rfl⟩

/-- **C31.** A swap exchanges the two nodes and keeps the legs and the length exact. -/
theorem C31_swap (m : Model) (hs : Symmetric m) (s : Solution) (he : Exact m s) (i1 i2 : Nat) (h12 : i1 < i2) (h2 : i2 < m.len) :
    ∃ s', swapMove m i1 i2 s = .ok s' ∧ Exact m s' ∧ s'.perm.length = s.perm.length ∧
      s'.perm[i1]? = s.perm[i2]? ∧ s'.perm[i2]? = s.perm[i1]? ∧ ∀ (k : Nat), k ≠ i1 → k ≠ i2 → s'.perm[k]? = s.perm[k]? := by
  have hl := he.size
  have e1 : s.perm[i1]? = some (s.perm[i1]'(by omega)) := List.getElem?_eq_getElem _
  have e2 : s.perm[i2]? = some (s.perm[i2]'(by omega)) := List.getElem?_eq_getElem _
  obtain ⟨L', h, hL⟩ := swap_effect hs he.start he.fin hl he.legs he.total h12 e1 e2
  refine ⟨_, h, ⟨he.start, he.fin, by simp [swapped, hl], rfl, ?_⟩, by simp [swapped], ?_, ?_, ?_⟩
  · show some L' = _
    rw [hL]; simp only [Option.some.injEq]; omega
  · simp only [swapped, List.getElem?_set, List.length_set]
    rw [if_neg (by omega), if_pos trivial, if_pos (by omega)]; exact e2.symm
  · simp only [swapped, List.getElem?_set, List.length_set]
    rw [if_pos trivial, if_pos (by omega)]; exact e1.symm
  · intro k k1 k2
    simp only [swapped, List.getElem?_set, List.length_set]
    rw [if_neg (fun h => k2 h.symm), if_neg (fun h => k1 h.symm)]

example : swapMove exModel 0 2 ⟨0, 0, [2, 1, 3], [1, 0, 2], [4, 3, 8, 9], some 24⟩ =
    .ok ⟨0, 0, [3, 1, 2], [1, 0, 2], [9, 8, 3, 4], some 24⟩ := by decide

/-- **C31.** Undoing a swap restores the tour with its legs and length. -/
theorem C31_swap_backtrack (m : Model) (hs : Symmetric m) (s : Solution) (he : Exact m s) (i1 i2 : Nat) (h12 : i1 < i2)
    (h2 : i2 < m.len) : ∃ s', swapMove m i1 i2 s = .ok s' ∧ swapMove m i1 i2 s' = .ok s := by
  have hl := he.size
  have e1 : s.perm[i1]? = some (s.perm[i1]'(by omega)) := List.getElem?_eq_getElem _
  have e2 : s.perm[i2]? = some (s.perm[i2]'(by omega)) := List.getElem?_eq_getElem _
  obtain ⟨L', h, hL⟩ := swap_effect hs he.start he.fin hl he.legs he.total h12 e1 e2
  obtain ⟨s1, hs1, hx1, _, a1, a2, a3⟩ := C31_swap m hs s he i1 i2 h12 h2
  obtain ⟨s2, hs2, hx2, _, b1, b2, b3⟩ := C31_swap m hs s1 hx1 i1 i2 h12 h2
  refine ⟨s1, hs1, ?_⟩
  have hperm : s2.perm = s.perm := by
    apply List.ext_getElem?
    intro k
    by_cases k1 : k = i1
    · rw [k1, b1, a2]
    · by_cases k2 : k = i2
      · rw [k2, b2, a1]
      · rw [b3 k k1 k2, a3 k k1 k2]
  have hp0 : s1.perm0 = s.perm0 := by
    rw [h] at hs1; rw [← Except.ok.inj hs1]
  have hp0' : s2.perm0 = s1.perm0 := by
    have f1 : s1.perm[i1]? = some (s1.perm[i1]'(by have := hx1.size; omega)) := List.getElem?_eq_getElem _
    have f2 : s1.perm[i2]? = some (s1.perm[i2]'(by have := hx1.size; omega)) := List.getElem?_eq_getElem _
    obtain ⟨L'', g, _⟩ := swap_effect hs hx1.start hx1.fin hx1.size hx1.legs hx1.total h12 f1 f2
    rw [g] at hs2; rw [← Except.ok.inj hs2]
  rw [hs2]
  congr 1
  have c1 := hx2.start.trans he.start.symm
  have c2 := hx2.fin.trans he.fin.symm
  have c3 := hx2.legs.trans (hperm ▸ he.legs.symm)
  have c4 := hx2.total.trans (hperm ▸ he.total.symm)
  cases s2; cases s
  simp_all

/-- **C31, as coded.** Without symmetry a swap of neighbours stores a wrong length (the leg between them is counted twice). -/
theorem C31_swap_asymmetric :
    ∃ s' : Solution, swapMove oneWay 0 1 ⟨0, 4, [1, 2, 3], [0, 1, 2], [1, 1, 1, 1], some 4⟩ = .ok s' ∧
      s'.lengths = walk oneWay.dist (tour oneWay s'.perm) ∧ s'.length ≠ some (walk oneWay.dist (tour oneWay s'.perm)).sum :=
  ⟨⟨0, 4, [2, 1, 3], [0, 1, 2], [1, 10, 1, 1], some 22⟩, by decide, by decide, by decide⟩

/-- **C56, as coded.** The acceptance test never answers true. -/
theorem C56_never_true (m : Model) (perm : List Nat) : satisfy m perm ≠ .ok (some true) := by
  intro h
  simp only [satisfy] at h
  obtain ⟨a, _, h⟩ := bind_eq_ok.1 h
  obtain ⟨z, _, h⟩ := bind_eq_ok.1 h
  split at h <;> cases h

/-- **C56, as coded.** Every non-empty permutation of the nodes other than start and end — every solution the problem
builds — is rejected. -/
theorem C56_rejects_every_tour (m : Model) (perm : List Nat) (hne : perm ≠ []) (hp : perm.Perm m.inner) :
    satisfy m perm = .ok (some false) := by
  obtain ⟨x, xs, rfl⟩ := List.exists_cons_of_ne_nil hne
  obtain ⟨a, z, hz⟩ := exists_snoc hne
  have hx := ((C30_nodes m).1 x).1 (hp.mem_iff.1 (by simp))
  have hlast : pyLast (x :: xs) = .ok z := by rw [hz]; exact pyLast_snoc a z
  simp only [satisfy, pyGet, List.getElem?_cons_zero, bind_ok, hlast]
  rw [if_neg (fun h => hx.2.1 h.1)]

example : [3, 1, 2].Perm oneWay.inner := by decide

/-- **C56 (partial: what the test does decide).** The answer differs from false exactly when the permutation itself begins with
the start node and ends with the end node; an empty permutation raises. -/
theorem C56_decides_partial (m : Model) (perm : List Nat) :
    (satisfy m perm = .ok none ↔ perm.head? = some m.start ∧ perm.getLast? = some m.fin) ∧
      (satisfy m perm = .error .indexError ↔ perm = []) := by
  cases perm with
  | nil => simp [satisfy, pyGet, bind_error]
  | cons x xs =>
    obtain ⟨a, z, hz⟩ := exists_snoc (l := x :: xs) (by simp)
    have hlast : pyLast (x :: xs) = .ok z := by rw [hz]; exact pyLast_snoc a z
    have hl' : (x :: xs).getLast? = some z := by rw [hz]; simp
    simp only [satisfy, pyGet, List.getElem?_cons_zero, bind_ok, hlast, hl', List.head?_cons]
    by_cases h : x = m.start ∧ z = m.fin <;> simp [h]

example : satisfy oneWay [0, 1, 2, 3, 4] = .ok none := by decide

end Verif.Tsp
