import Verif.Model.Tsp
import Verif.Lemmas.ListSum
/- Helper lemmas about the tour model. -/
namespace Verif.Tsp

/-- Legs of a walk. -/
def walk (d : Nat → Nat → Int) : List Nat → List Int
  | [] => []
  | [_] => []
  | a :: b :: l => d a b :: walk d (b :: l)

theorem walk_length (d : Nat → Nat → Int) (x : Nat) (l : List Nat) : (walk d (x :: l)).length = l.length := by
  induction l generalizing x with
  | nil => rfl
  | cons y l ih => simp [walk, ih]

theorem walk_getElem? (d : Nat → Nat → Int) (l : List Nat) : ∀ (i a b : Nat), l[i]? = some a → l[i + 1]? = some b →
    (walk d l)[i]? = some (d a b) := by
  induction l with
  | nil => intro i a b h; simp at h
  | cons x l ih =>
    intro i a b h5 h6
    cases l with
    | nil => simp at h6
    | cons y l =>
      cases i with
      | zero => simp at h5 h6; simp [walk, h5, h6]
      | succ i =>
        simp only [List.getElem?_cons_succ] at h5 h6
        simp only [walk, List.getElem?_cons_succ]
        exact ih i a b h5 (by simpa using h6)

/-- Joining two walks adds the leg between them. -/
theorem walk_append (d : Nat → Nat → Int) (a : List Nat) (x y : Nat) (b : List Nat) :
    walk d ((a ++ [x]) ++ (y :: b)) = walk d (a ++ [x]) ++ d x y :: walk d (y :: b) := by
  induction a with
  | nil => simp [walk]
  | cons z a ih =>
    cases a with
    | nil => simp [walk]
    | cons w a =>
      simp only [List.cons_append, walk] at ih ⊢
      rw [ih]

theorem walk_reverse {d : Nat → Nat → Int} (hs : ∀ a b, d a b = d b a) (l : List Nat) :
    walk d l.reverse = (walk d l).reverse := by
  induction l with
  | nil => rfl
  | cons x l ih =>
    cases l with
    | nil => rfl
    | cons y l =>
      rw [List.reverse_cons, List.reverse_cons, List.append_assoc]
      have := walk_append d l.reverse y x []
      rw [List.reverse_cons] at ih
      rw [List.append_assoc] at this
      rw [this]
      simp only [walk, List.reverse_cons] at ih ⊢
      rw [ih, hs y x]

theorem sum_snoc (l : List Int) (x : Int) : (l ++ [x]).sum = l.sum + x := by
  rw [List.sum_append]; simp

/-- The loop of `compute_length`. -/
theorem legLoop_spec (d : Nat → Nat → Int) (sol : List Nat) : ∀ (n i : Nat) (ls : List Int) (obj : Int), i + n < sol.length →
    legLoop d sol n i ls obj = .ok (ls ++ walk d ((sol.drop i).take (n + 1)), obj + (walk d ((sol.drop i).take (n + 1))).sum) := by
  intro n
  induction n with
  | zero =>
    intro i ls obj h
    have : (sol.drop i).take 1 = [sol[i]] := by
      rw [List.drop_eq_getElem_cons (by omega)]; rfl
    simp [legLoop, this, walk]
  | succ n ih =>
    intro i ls obj h
    have h1 : i < sol.length := by omega
    have h2 : i + 1 < sol.length := by omega
    have hd : (sol.drop i).take (n + 1 + 1) = sol[i] :: (sol.drop (i + 1)).take (n + 1) := by
      rw [List.drop_eq_getElem_cons h1]; rfl
    have hd' : (sol.drop (i + 1)).take (n + 1) = sol[i + 1] :: (sol.drop (i + 2)).take n := by
      rw [List.drop_eq_getElem_cons h2]; rfl
    simp only [legLoop, pyGet_of_lt h1, pyGet_of_lt h2, bind_ok]
    rw [ih _ _ _ (by omega), hd, hd']
    simp only [walk, List.sum_cons, List.append_assoc, List.singleton_append, Except.ok.injEq, Prod.mk.injEq, true_and]
    omega

theorem pyLast_snoc (l : List α) (x : α) : pyLast (l ++ [x]) = .ok x := by
  simp [pyLast]

theorem exists_snoc {l : List α} (h : l ≠ []) : ∃ a x, l = a ++ [x] :=
  ⟨l.dropLast, l.getLast h, (List.dropLast_concat_getLast h).symm⟩

/-- `compute_length` on a permutation of the right length. -/
theorem computeLength_spec {m : Model} (hs : ∀ a b, m.dist a b = m.dist b a) {sol : List Nat}
    (hl : sol.length = m.len) (hne : sol ≠ []) :
    computeLength m sol = .ok (walk m.dist (m.start :: sol ++ [m.fin]), (walk m.dist (m.start :: sol ++ [m.fin])).sum) := by
  obtain ⟨x, xs, rfl⟩ := List.exists_cons_of_ne_nil hne
  obtain ⟨a, z, hz⟩ := exists_snoc hne
  have hloop := legLoop_spec m.dist (x :: xs) (m.len - 1) 0 [m.dist m.start x] (m.dist m.start x) (by
    simp only [List.length_cons] at hl ⊢; omega)
  have htake : ((x :: xs).drop 0).take (m.len - 1 + 1) = x :: xs := by
    rw [List.drop_zero, List.take_of_length_le (by simp only [List.length_cons] at hl ⊢; omega)]
  rw [htake] at hloop
  have hw1 : walk m.dist (m.start :: (x :: xs) ++ [m.fin]) =
      m.dist m.start x :: walk m.dist (x :: xs) ++ [m.dist z m.fin] := by
    have := walk_append m.dist (m.start :: a) z m.fin []
    rw [hz]
    simp only [List.cons_append] at this ⊢
    rw [this]
    have h2 : walk m.dist (m.start :: (a ++ [z])) = m.dist m.start x :: walk m.dist (a ++ [z]) := by
      rw [← hz]; rfl
    rw [h2]
    simp [walk]
  have hlast : pyLast (x :: xs) = .ok z := by rw [hz]; exact pyLast_snoc a z
  simp only [computeLength, pyGet, List.getElem?_cons_zero, bind_ok, hloop, hlast]
  rw [hw1, hs z]
  simp [List.sum_append]; try omega

/-- The objective of `compute_length_np`. -/
theorem legLoopNp_obj (d : Nat → Nat → Int) (sol : List Nat) : ∀ (n i : Nat) (ls : List Int) (obj : Int), i + n < sol.length →
    i + n ≤ ls.length →
    ∃ ls'', legLoopNp d sol n i ls obj = .ok (ls'', obj + (walk d ((sol.drop i).take (n + 1))).sum) ∧ ls''.length = ls.length := by
  intro n
  induction n with
  | zero =>
    intro i ls obj h _
    have : (sol.drop i).take 1 = [sol[i]] := by
      rw [List.drop_eq_getElem_cons (by omega)]; rfl
    exact ⟨ls, by simp [legLoopNp, this, walk], rfl⟩
  | succ n ih =>
    intro i ls obj h hl
    have h1 : i < sol.length := by omega
    have h2 : i + 1 < sol.length := by omega
    have hd : (sol.drop i).take (n + 1 + 1) = sol[i] :: (sol.drop (i + 1)).take (n + 1) := by
      rw [List.drop_eq_getElem_cons h1]; rfl
    have hd' : (sol.drop (i + 1)).take (n + 1) = sol[i + 1] :: (sol.drop (i + 2)).take n := by
      rw [List.drop_eq_getElem_cons h2]; rfl
    obtain ⟨ls'', h3, h4⟩ := ih (i + 1) (ls.set i (d sol[i] sol[i + 1])) (obj + d sol[i] sol[i + 1]) (by omega) (by simp; omega)
    refine ⟨ls'', ?_, by rw [h4]; simp⟩
    have hset : pySet ls i (d sol[i] sol[i + 1]) = .ok (ls.set i (d sol[i] sol[i + 1])) :=
      pySet_ok_iff.2 ⟨by omega, rfl⟩
    simp only [legLoopNp, pyGet_of_lt h1, pyGet_of_lt h2, bind_ok, hset, h3]
    rw [hd, hd']
    simp only [walk, List.sum_cons, Except.ok.injEq, Prod.mk.injEq, true_and]
    omega

theorem computeLengthNp_obj {m : Model} {sol : List Nat} (hs : ∀ a b, m.dist a b = m.dist b a)
    (hl : sol.length = m.len) (hne : sol ≠ []) (hn : m.len ≤ m.nodeCount) :
    ∃ ls, computeLengthNp m sol = .ok (ls, (walk m.dist (m.start :: sol ++ [m.fin])).sum) := by
  have hc := computeLength_spec hs hl hne
  obtain ⟨x, xs, rfl⟩ := List.exists_cons_of_ne_nil hne
  simp only [List.length_cons] at hl
  have hpos : 0 < m.nodeCount := by omega
  have hset : pySet (List.replicate m.nodeCount (0 : Int)) 0 (m.dist m.start x) =
      .ok ((List.replicate m.nodeCount (0 : Int)).set 0 (m.dist m.start x)) := pySet_ok_iff.2 ⟨by simpa using hpos, rfl⟩
  obtain ⟨ls, h1, h2⟩ := legLoopNp_obj m.dist (x :: xs) (m.len - 1) 0 ((List.replicate m.nodeCount (0 : Int)).set 0 (m.dist m.start x))
    (m.dist m.start x) (by simp only [List.length_cons]; omega) (by simp; omega)
  have hloop := legLoop_spec m.dist (x :: xs) (m.len - 1) 0 [m.dist m.start x] (m.dist m.start x) (by simp only [List.length_cons]; omega)
  obtain ⟨a, z, hz⟩ := exists_snoc hne
  have hlast : pyLast (x :: xs) = .ok z := by rw [hz]; exact pyLast_snoc a z
  have hset2 : pySet ls (m.nodeCount - 1) (m.dist m.fin z) = .ok (ls.set (m.nodeCount - 1) (m.dist m.fin z)) :=
    pySet_ok_iff.2 ⟨by rw [h2]; simp; omega, rfl⟩
  refine ⟨ls.set (m.nodeCount - 1) (m.dist m.fin z), ?_⟩
  simp only [computeLength, pyGet, List.getElem?_cons_zero, bind_ok, hloop, hlast] at hc
  have hsum := congrArg Prod.snd (Except.ok.inj hc)
  simp only at hsum
  simp only [computeLengthNp, pyGet, List.getElem?_cons_zero, bind_ok, hset, h1, hlast, hset2]
  rw [← hsum]

/-- Positions around a segment. -/
theorem pointsIndex_ok {s : Solution} {it jt : Nat} (h1 : it ≤ jt) (h2 : jt < s.perm.length) :
    ∃ A x B y C, s.start :: s.perm ++ [s.fin] = (A ++ [x]) ++ B ++ (y :: C) ∧ B = (s.perm.drop it).take (jt + 1 - it) ∧
      A ++ [x] = s.start :: s.perm.take it ∧ y :: C = s.perm.drop (jt + 1) ++ [s.fin] ∧
      pointsIndex s s.perm.length it jt = .ok (x, s.perm[it], s.perm[jt], y) := by
  have hit : it < s.perm.length := by omega
  obtain ⟨A, x, hA⟩ := exists_snoc (l := s.start :: s.perm.take it) (by simp)
  obtain ⟨y, C, hC⟩ := List.exists_cons_of_ne_nil (l := s.perm.drop (jt + 1) ++ [s.fin]) (by simp)
  refine ⟨A, x, (s.perm.drop it).take (jt + 1 - it), y, C, ?_, rfl, hA.symm, hC.symm, ?_⟩
  · rw [← hA, ← hC]
    have : s.perm = s.perm.take it ++ ((s.perm.drop it).take (jt + 1 - it) ++ s.perm.drop (jt + 1)) := by
      conv => lhs; rw [← List.take_append_drop it s.perm, ← List.take_append_drop (jt + 1 - it) (s.perm.drop it)]
      rw [List.drop_drop, show it + (jt + 1 - it) = jt + 1 by omega]
    conv => lhs; rw [this]
    simp
  · have hb : before s it = .ok x := by
      unfold before
      split
      · rename_i h0; subst h0
        have : A ++ [x] = [] ++ [s.start] := by rw [← hA]; simp
        have := List.append_inj_right' this rfl
        cases this; rfl
      · rename_i h0
        rw [pyGet_ok_iff]
        have hlen : A.length = it := by
          have := congrArg List.length hA
          simp at this; omega
        have : (A ++ [x])[it]? = some x := by rw [← hlen]; simp
        rw [← hA] at this
        obtain ⟨k, rfl⟩ : ∃ k, it = k + 1 := ⟨it - 1, by omega⟩
        simpa [List.getElem?_take] using this
    have ha : after s s.perm.length jt = .ok y := by
      unfold after
      split
      · rename_i h0
        rw [List.drop_of_length_le (by omega)] at hC
        simp at hC; rw [hC.1]
      · rename_i h0
        rw [pyGet_ok_iff]
        have : (y :: C)[0]? = some y := rfl
        rw [← hC] at this
        rw [List.getElem?_append_left (by simp; omega)] at this
        simpa using this
    simp only [pointsIndex, pyGet_of_lt hit, pyGet_of_lt h2, bind_ok, hb, ha]

theorem head_seg {l : List Nat} {it jt : Nat} (h1 : it ≤ jt) (h2 : jt < l.length) :
    ∃ B', (l.drop it).take (jt + 1 - it) = l[it] :: B' ∧ B'.length = jt - it := by
  refine ⟨(l.drop (it + 1)).take (jt - it), ?_, by simp; omega⟩
  rw [List.drop_eq_getElem_cons (by omega), show jt + 1 - it = jt - it + 1 by omega, List.take_succ_cons]

theorem last_seg {l : List Nat} {it jt : Nat} (h1 : it ≤ jt) (h2 : jt < l.length) :
    ∃ B', (l.drop it).take (jt + 1 - it) = B' ++ [l[jt]] ∧ B'.length = jt - it := by
  refine ⟨(l.drop it).take (jt - it), ?_, by simp; omega⟩
  rw [show jt + 1 - it = jt - it + 1 by omega, List.take_succ_eq_append_getElem (by simp; omega)]
  congr 2
  simp only [List.getElem_drop]
  congr 1; omega

theorem sum_set (l : List Int) (k : Nat) (v x : Int) (h : l[k]? = some x) : (l.set k v).sum = l.sum - x + v := by
  induction l generalizing k with
  | nil => simp at h
  | cons a l ih =>
    cases k with
    | zero => simp at h; subst h; simp; omega
    | succ k => simp at h; simp [ih k h]; omega

/-- The tour from start to end through the permutation. -/
def tour (m : Model) (perm : List Nat) : List Nat := m.start :: perm ++ [m.fin]

/-- Legs of a tour split around a segment. -/
theorem walk_parts (d : Nat → Nat → Int) (A : List Nat) (x b e y : Nat) (B B' B'' C : List Nat) (h1 : B = b :: B')
    (h2 : B = B'' ++ [e]) :
    walk d ((A ++ [x]) ++ B ++ (y :: C)) = walk d (A ++ [x]) ++ d x b :: (walk d B ++ d e y :: walk d (y :: C)) := by
  rw [List.append_assoc]
  have e1 : B ++ y :: C = b :: (B' ++ y :: C) := by rw [h1]; rfl
  rw [e1, walk_append, ← e1, h2, walk_append]

theorem walk_snoc_length (d : Nat → Nat → Int) (A : List Nat) (x : Nat) : (walk d (A ++ [x])).length = A.length := by
  cases A with
  | nil => rfl
  | cons a A => rw [List.cons_append, walk_length]; simp

theorem sum_reverse (l : List Int) : l.reverse.sum = l.sum := perm_sum (List.reverse_perm l)

/-- Slices of a list given in parts. -/
theorem slices {l a b c : List Int} {u v : Int} {it jt : Nat} (h : l = a ++ u :: (b ++ v :: c)) (ha : a.length = it)
    (hb : b.length = jt - it) (hij : it ≤ jt) :
    l.take it = a ∧ (l.drop (it + 1)).take (jt - it) = b ∧ l.drop (jt + 2) = c := by
  subst h
  refine ⟨by rw [← ha, List.take_left], ?_, ?_⟩
  · rw [← ha, ← List.drop_drop, List.drop_left, ha, ← hb]
    simp
  · rw [show jt + 2 = a.length + (1 + (b.length + 1)) by omega, ← List.drop_drop, List.drop_left, ← List.drop_drop]
    simp only [List.drop_succ_cons, List.drop_zero]
    rw [← List.drop_drop, List.drop_left]; rfl

/-- The effect of reversing a segment. -/
theorem reverse_effect {m : Model} (hs : ∀ a b, m.dist a b = m.dist b a) {s : Solution} (hst : s.start = m.start)
    (hfi : s.fin = m.fin) (hl : s.perm.length = m.len) {it jt : Nat} (h1 : it ≤ jt) (h2 : jt < s.perm.length) :
    ∃ q c, pointsIndex s m.len it jt = .ok q ∧ change m s it jt = .ok c ∧
      (walk m.dist (tour m (reverseSegment s.perm it jt))).sum = (walk m.dist (tour m s.perm)).sum + c ∧
      (s.lengths = walk m.dist (tour m s.perm) →
        newLengths m s true it jt q = walk m.dist (tour m (reverseSegment s.perm it jt))) := by
  obtain ⟨A, x, B, y, C, hW, hB, hA, hC, hq⟩ := pointsIndex_ok (s := s) h1 h2
  obtain ⟨B', hb1, hb1l⟩ := head_seg h1 h2
  obtain ⟨B'', hb2, hb2l⟩ := last_seg h1 h2
  rw [← hB] at hb1 hb2
  replace hq : pointsIndex s m.len it jt = .ok (x, s.perm[it], s.perm[jt], y) := by rw [← hl]; exact hq
  have hold := walk_parts m.dist A x _ _ y B B' B'' C hb1 hb2
  have hrb1 : B.reverse = s.perm[jt] :: B''.reverse := by rw [hb2]; simp
  have hrb2 : B.reverse = B'.reverse ++ [s.perm[it]] := by rw [hb1]; simp
  have hnew := walk_parts m.dist A x _ _ y B.reverse B''.reverse B'.reverse C hrb1 hrb2
  have hT : tour m s.perm = (A ++ [x]) ++ B ++ (y :: C) := by rw [← hW, tour, hst, hfi]
  have hT' : tour m (reverseSegment s.perm it jt) = (A ++ [x]) ++ B.reverse ++ (y :: C) := by
    rw [hA, hC, tour, ← hst, ← hfi, reverseSegment, hB]; simp
  rw [walk_reverse hs] at hnew
  refine ⟨_, _, hq, by simp only [change, hq, bind_ok]; rfl, ?_, ?_⟩
  · rw [hT, hT', hold, hnew]
    simp only [List.sum_append, List.sum_cons, sum_reverse]
    omega
  · intro hlen
    rw [hT, hold] at hlen
    rw [hT', hnew]
    have hAl : A.length = it := by
      have := congrArg List.length hA
      simp at this; omega
    have hwa : (walk m.dist (A ++ [x])).length = it := by rw [walk_snoc_length, hAl]
    have hwb : (walk m.dist B).length = jt - it := by rw [hb1, walk_length, hb1l]
    obtain ⟨t1, t2, t3⟩ := slices hlen hwa hwb h1
    have t4 : (if (true && decide (jt + 1 < m.len)) then s.lengths.drop (jt + 2) else []) = walk m.dist (y :: C) := by
      rw [t3]
      by_cases hj : jt + 1 < m.len
      · simp [hj]
      · have : y :: C = [s.fin] := by rw [hC, List.drop_of_length_le (by omega)]; rfl
        rw [this]; simp [walk]
    have t5 : (if it > 0 then s.lengths.take it else []) = walk m.dist (A ++ [x]) := by
      rw [t1]
      by_cases hi : it > 0
      · simp [hi]
      · have : A = [] := List.eq_nil_of_length_eq_zero (by omega)
        subst this; simp [walk]
    simp only [newLengths, t4, t5, t2]
    simp

theorem reverseSegment_perm (p : List Nat) {it jt : Nat} (h : it ≤ jt) : (reverseSegment p it jt).Perm p := by
  have : p = p.take it ++ ((p.drop it).take (jt + 1 - it) ++ p.drop (jt + 1)) := by
    conv => lhs; rw [← List.take_append_drop it p, ← List.take_append_drop (jt + 1 - it) (p.drop it)]
    rw [List.drop_drop, show it + (jt + 1 - it) = jt + 1 by omega]
  conv => rhs; rw [this]
  rw [reverseSegment, List.append_assoc]
  exact List.Perm.append_left _ (List.Perm.append_right _ (List.reverse_perm _))

/-- What the search returns when all candidates are legal. -/
theorem searchMoves_spec {m : Model} {s : Solution} (cost : Nat → Nat → Int) : ∀ (cands : List (Nat × Nat)) (b : Best),
    (∀ p ∈ cands, change m s p.1 p.2 = .ok (cost p.1 p.2)) →
    (∀ c, b.change = some c → c = cost b.it b.jt) →
    ∃ b', searchMoves m s cands b = .ok b' ∧
      (∀ c, b'.change = some c → c = cost b'.it b'.jt) ∧
      (b'.change = none → b' = b ∧ cands = []) ∧
      ((b'.it, b'.jt) ∈ cands ∨ b' = b) ∧
      (∀ c, b'.change = some c → (∀ p ∈ cands, c ≤ cost p.1 p.2) ∧ (∀ c0, b.change = some c0 → c ≤ c0)) := by
  intro cands
  induction cands with
  | nil =>
    intro b _ hb
    exact ⟨b, rfl, hb, fun _ => ⟨rfl, rfl⟩, .inr rfl, fun c hc => ⟨by simp, fun c0 h0 => by rw [hc] at h0; cases h0; omega⟩⟩
  | cons p rest ih =>
    intro b hall hb
    obtain ⟨i, j⟩ := p
    have hc := hall (i, j) (by simp)
    simp only at hc
    have hu : ∃ c, (b.update i j (cost i j)).change = some c ∧ c ≤ cost i j ∧ (∀ c0, b.change = some c0 → c ≤ c0) ∧
        c = cost (b.update i j (cost i j)).it (b.update i j (cost i j)).jt ∧
        (b.update i j (cost i j) = b ∨ ((b.update i j (cost i j)).it = i ∧ (b.update i j (cost i j)).jt = j)) := by
      rcases hbc : b.change with _ | c0
      · simp [Best.update, hbc]
      · simp only [Best.update, hbc]
        by_cases hlt : cost i j < c0
        · simp only [hlt, ↓reduceIte]
          exact ⟨_, rfl, by omega, by simp; omega, rfl, .inr (by simp)⟩
        · simp only [hlt, ↓reduceIte]
          exact ⟨c0, hbc, by omega, by simp, hb c0 hbc, .inl trivial⟩
    obtain ⟨c1, hu1, hu2, hu3, hu4, hu5⟩ := hu
    obtain ⟨b', k1, k2, k3, k4, k5⟩ := ih (b.update i j (cost i j)) (fun p hp => hall p (by simp [hp]))
      (fun c hc' => by rw [hu1] at hc'; cases hc'; exact hu4)
    refine ⟨b', by simp only [searchMoves, hc, bind_ok, k1], k2, ?_, ?_, ?_⟩
    · intro hn
      obtain ⟨k, _⟩ := k3 hn
      rw [k, hu1] at hn; cases hn
    · rcases k4 with k | k
      · exact .inl (by simp [k])
      · rcases hu5 with h | ⟨h, h'⟩
        · exact .inr (by rw [k, h])
        · left; rw [k, h, h']; simp
    · intro c hc'
      obtain ⟨g1, g2⟩ := k5 c hc'
      have := g2 c1 hu1
      refine ⟨?_, ?_⟩
      · intro p hp
        rcases List.mem_cons.1 hp with rfl | hp
        · show c ≤ cost i j; omega
        · exact g1 p hp
      · intro c0 h0
        have := hu3 c0 h0
        omega

theorem fillDict_spec (m : Model) : ∀ (l : List Nat) (d : Dict Nat Nat) (c : Nat), l.Nodup →
    (∀ k x, (l.filter (fun i => i ≠ m.start && i ≠ m.fin))[k]? = some x → (fillDict m l d c).get? x = some (c + k)) ∧
    (∀ x, x ∉ l.filter (fun i => i ≠ m.start && i ≠ m.fin) → (fillDict m l d c).get? x = d.get? x) := by
  intro l
  induction l with
  | nil => intro d c _; simp [fillDict]
  | cons i l ih =>
    intro d c hn
    obtain ⟨hi, hn'⟩ := List.nodup_cons.1 hn
    simp only [fillDict]
    by_cases hp : (i ≠ m.start && i ≠ m.fin) = true
    · rw [if_pos hp, List.filter_cons_of_pos (p := fun i => i ≠ m.start && i ≠ m.fin) hp]
      obtain ⟨h1, h2⟩ := ih (d.set i c) (c + 1) hn'
      constructor
      · intro k x hk
        cases k with
        | zero =>
          simp only [List.getElem?_cons_zero, Option.some.injEq] at hk
          subst hk
          rw [h2 i (fun h => hi (List.mem_filter.1 h).1), Dict.get?_set_self]; rfl
        | succ k =>
          rw [List.getElem?_cons_succ] at hk
          rw [h1 k x hk]; congr 1; omega
      · intro x hx
        simp only [List.mem_cons, not_or] at hx
        rw [h2 x hx.2, Dict.get?_set_ne]
        exact hx.1
    · rw [if_neg hp, List.filter_cons_of_neg (p := fun i => i ≠ m.start && i ≠ m.fin) hp]
      exact ih d c hn'

theorem inner_nodup (m : Model) : m.inner.Nodup := List.Pairwise.filter _ List.nodup_range

theorem dict_iff (m : Model) (x k : Nat) : m.dict.get? x = some k ↔ m.inner[k]? = some x := by
  obtain ⟨h1, h2⟩ := fillDict_spec m (List.range m.nodeCount) [] 0 List.nodup_range
  constructor
  · intro h
    by_cases hx : x ∈ m.inner
    · obtain ⟨k', hk'⟩ := List.mem_iff_getElem?.1 hx
      have := h1 k' x hk'
      rw [Model.dict] at h
      rw [h] at this
      simp only [Option.some.injEq] at this
      rw [this, Nat.zero_add]; exact hk'
    · have := h2 x hx
      rw [Model.dict] at h
      rw [h] at this; simp [Dict.get?] at this
  · intro h
    have := h1 k x h
    rw [Nat.zero_add] at this
    exact this

theorem dict_get_iff (m : Model) (x k : Nat) : m.dict.get x = .ok k ↔ pyGet m.inner k = .ok x := by
  rw [pyGet_ok_iff, ← dict_iff]
  unfold Dict.get
  cases m.dict.get? x <;> simp

theorem toOriginal_iff (m : Model) : ∀ (p0 p : List Nat), toOriginal m p0 = .ok p ↔ toFrom0 m p = .ok p0 := by
  intro p0
  induction p0 with
  | nil =>
    intro p
    cases p with
    | nil => simp [toOriginal, toFrom0]
    | cons x p =>
      simp only [toOriginal, Except.ok.injEq, List.nil_eq, reduceCtorEq, false_iff, toFrom0]
      intro h
      obtain ⟨_, _, h⟩ := bind_eq_ok.1 h
      obtain ⟨_, _, h⟩ := bind_eq_ok.1 h
      cases h
  | cons k p0 ih =>
    intro p
    cases p with
    | nil =>
      simp only [toOriginal, toFrom0, Except.ok.injEq, List.nil_eq, reduceCtorEq, iff_false]
      intro h
      obtain ⟨_, _, h⟩ := bind_eq_ok.1 h
      obtain ⟨_, _, h⟩ := bind_eq_ok.1 h
      cases h
    | cons x p =>
      simp only [toOriginal, toFrom0]
      constructor
      · intro h
        obtain ⟨y, hy, h⟩ := bind_eq_ok.1 h
        obtain ⟨ys, hys, h⟩ := bind_eq_ok.1 h
        cases h
        rw [(dict_get_iff m x k).2 hy, bind_ok, (ih p).1 hys, bind_ok]
      · intro h
        obtain ⟨y, hy, h⟩ := bind_eq_ok.1 h
        obtain ⟨ys, hys, h⟩ := bind_eq_ok.1 h
        cases h
        rw [(dict_get_iff m x k).1 hy, bind_ok, (ih p).2 hys, bind_ok]

theorem toOriginal_map (m : Model) : ∀ (p0 p : List Nat), toOriginal m p0 = .ok p → p.map some = p0.map (fun k => m.inner[k]?) := by
  intro p0
  induction p0 with
  | nil => intro p h; cases h; rfl
  | cons k p0 ih =>
    intro p h
    obtain ⟨y, hy, h⟩ := bind_eq_ok.1 h
    obtain ⟨ys, hys, h⟩ := bind_eq_ok.1 h
    cases h
    simp [ih ys hys, pyGet_ok_iff.1 hy]

theorem toOriginal_ok (m : Model) : ∀ (p0 : List Nat), (∀ k ∈ p0, k < m.len) → ∃ p, toOriginal m p0 = .ok p := by
  intro p0
  induction p0 with
  | nil => intro _; exact ⟨[], rfl⟩
  | cons k p0 ih =>
    intro h
    obtain ⟨ys, hys⟩ := ih (fun k hk => h k (by simp [hk]))
    exact ⟨_, by simp only [toOriginal, pyGet_of_lt (l := m.inner) (h k (by simp)), bind_ok, hys]; rfl⟩

theorem toFrom0_ok (m : Model) : ∀ (p : List Nat), (∀ x ∈ p, x ∈ m.inner) → ∃ p0, toFrom0 m p = .ok p0 := by
  intro p
  induction p with
  | nil => intro _; exact ⟨[], rfl⟩
  | cons k p ih =>
    intro h
    obtain ⟨ys, hys⟩ := ih (fun k hk => h k (by simp [hk]))
    obtain ⟨i, hi⟩ := List.mem_iff_getElem?.1 (h k (by simp))
    exact ⟨_, by simp only [toFrom0, (dict_get_iff m k i).2 (pyGet_ok_iff.2 hi), bind_ok, hys]; rfl⟩

theorem perm_of_map_some {a b : List Nat} (h : (a.map some).Perm (b.map some)) : a.Perm b := by
  have := h.filterMap id
  simpa [List.filterMap_map] using this

theorem range_map_get (l : List Nat) : (List.range l.length).map (fun k => l[k]?) = l.map some := by
  apply List.ext_getElem?
  intro i
  by_cases h : i < l.length
  · simp [h]
  · simp [h]

theorem tour_perm_at {m : Model} {p : List Nat} {i v : Nat} (h : p[i]? = some v) : (tour m p)[i + 1]? = some v := by
  have hi : i < p.length := (List.getElem?_eq_some_iff.1 h).1
  simp only [tour, List.cons_append, List.getElem?_cons_succ, List.getElem?_append_left hi, h]

theorem tour_before {m : Model} {s : Solution} {it x : Nat} (hst : s.start = m.start) (h : before s it = .ok x) :
    (tour m s.perm)[it]? = some x := by
  unfold before at h
  split at h
  · rename_i h0; cases h; subst h0; simp [tour, hst]
  · rename_i h0
    obtain ⟨k, rfl⟩ : ∃ k, it = k + 1 := ⟨it - 1, by omega⟩
    exact tour_perm_at (pyGet_ok_iff.1 h)

theorem tour_after {m : Model} {s : Solution} {jt y : Nat} (hfi : s.fin = m.fin) (h : after s s.perm.length jt = .ok y) :
    (tour m s.perm)[jt + 2]? = some y := by
  unfold after at h
  split at h
  · rename_i h0; cases h
    simp [tour, hfi, h0]
  · exact tour_perm_at (pyGet_ok_iff.1 h)

theorem walk_at (d : Nat → Nat → Int) {l : List Nat} {i a b : Nat} (h1 : l[i]? = some a) (h2 : l[i + 1]? = some b) :
    (walk d l)[i]? = some (d a b) := walk_getElem? d l i a b h1 h2

/-- Two tours agreeing at two neighbouring positions have the same leg there. -/
theorem walk_congr_at (d : Nat → Nat → Int) {l l' : List Nat} (hl : l.length = l'.length) {i : Nat} (h1 : l[i]? = l'[i]?)
    (h2 : l[i + 1]? = l'[i + 1]?) : (walk d l)[i]? = (walk d l')[i]? := by
  by_cases hi : i + 1 < l.length
  · rw [walk_at d (List.getElem?_eq_getElem (show i < l.length by omega)) (List.getElem?_eq_getElem hi)]
    rw [walk_at d (h1 ▸ List.getElem?_eq_getElem (show i < l.length by omega)) (h2 ▸ List.getElem?_eq_getElem hi)]
  · have len : ∀ l : List Nat, (walk d l).length = l.length - 1 := by
      intro l; cases l with
      | nil => rfl
      | cons x l => rw [walk_length]; simp
    rw [List.getElem?_eq_none (by rw [len]; omega), List.getElem?_eq_none (by rw [len]; omega)]

theorem set4 (l : List Int) {i j : Nat} (hij : i < j) (hj : j + 1 < l.length) (a b c d : Int) (k : Nat) :
    ((((l.set i a).set (i + 1) b).set j c).set (j + 1) d)[k]? = if k = j + 1 then some d else if k = j then some c else
      if k = i + 1 then some b else if k = i then some a else l[k]? := by
  simp only [List.getElem?_set, List.length_set]
  grind

/-- The swapped permutation. -/
def swapped (p : List Nat) (i1 i2 v1 v2 : Nat) : List Nat := (p.set i1 v2).set i2 v1

theorem swap_effect {m : Model} (hs : ∀ a b, m.dist a b = m.dist b a) {s : Solution} (hst : s.start = m.start)
    (hfi : s.fin = m.fin) (hl : s.perm.length = m.len) (hlen : s.lengths = walk m.dist (tour m s.perm))
    {L : Int} (hL : s.length = some L) {i1 i2 v1 v2 : Nat} (h12 : i1 < i2) (hv1 : s.perm[i1]? = some v1) (hv2 : s.perm[i2]? = some v2) :
    ∃ L', swapMove m i1 i2 s = .ok { s with
        perm := swapped s.perm i1 i2 v1 v2
        lengths := walk m.dist (tour m (swapped s.perm i1 i2 v1 v2))
        length := some L' } ∧
      L' = L + ((walk m.dist (tour m (swapped s.perm i1 i2 v1 v2))).sum - (walk m.dist (tour m s.perm)).sum) := by
  have hi2 : i2 < s.perm.length := (List.getElem?_eq_some_iff.1 hv2).1
  have hi1 : i1 < s.perm.length := by omega
  generalize hcur : swapped s.perm i1 i2 v1 v2 = cur
  have hclen : cur.length = s.perm.length := by rw [← hcur]; simp [swapped]
  have hc1 : pySet s.perm i1 v2 = .ok (s.perm.set i1 v2) := pySet_ok_iff.2 ⟨hi1, rfl⟩
  have hc2 : pySet (s.perm.set i1 v2) i2 v1 = .ok cur := by
    rw [← hcur]; exact pySet_ok_iff.2 ⟨by simpa using hi2, rfl⟩
  have hcat : ∀ k, cur[k]? = if k = i2 then some v1 else if k = i1 then some v2 else s.perm[k]? := by
    intro k
    rw [← hcur]
    simp only [swapped, List.getElem?_set]
    by_cases e1 : i2 = k
    · subst e1; simp [hi2]
    · by_cases e2 : i1 = k
      · subst e2; simp [e1, hi1, Ne.symm e1]
      · simp [e1, e2, Ne.symm e1, Ne.symm e2]
  obtain ⟨A, x, B, y, C, hW, hB, hA, hC, hq⟩ := pointsIndex_ok (s := { s with perm := cur }) (it := i1) (jt := i2) (by omega)
    (by simpa [hclen] using hi2)
  have hq' : pointsIndex { s with perm := cur } m.len i1 i2 = .ok (x, cur[i1], cur[i2], y) := by
    rw [← hl, ← hclen]; exact hq
  have hpq := hq
  simp only [pointsIndex, bind_eq_ok, Except.ok.injEq, Prod.mk.injEq] at hpq
  obtain ⟨_, _, _, _, b', hb, a', ha, rfl, _, _, rfl⟩ := hpq
  have tb := tour_before (m := m) (s := { s with perm := cur }) hst hb
  have ta := tour_after (m := m) (s := { s with perm := cur }) hfi ha
  simp only at tb ta
  -- legs
  have lenW : s.lengths.length = s.perm.length + 1 := by
    rw [hlen, tour, List.cons_append, walk_length]; simp
  have hwW : (walk m.dist (tour m cur)).length = s.perm.length + 1 := by
    rw [tour, List.cons_append, walk_length]; simp [hclen]
  have c_i1 : cur[i1]? = some v2 := by rw [hcat]; simp [show i1 ≠ i2 by omega]
  have c_i2 : cur[i2]? = some v1 := by rw [hcat]; simp
  obtain ⟨a2, ha2⟩ : ∃ a2, cur[i1 + 1]? = some a2 := ⟨_, List.getElem?_eq_getElem (by omega)⟩
  obtain ⟨b0, hb0⟩ : ∃ b0, cur[i2 - 1]? = some b0 := ⟨_, List.getElem?_eq_getElem (by omega)⟩
  have w1 : (walk m.dist (tour m cur))[i1]? = some (m.dist b' v2) := walk_at _ tb (tour_perm_at c_i1)
  have w2 : (walk m.dist (tour m cur))[i1 + 1]? = some (m.dist v2 a2) := walk_at _ (tour_perm_at c_i1) (tour_perm_at ha2)
  have w3 : (walk m.dist (tour m cur))[i2]? = some (m.dist b0 v1) := by
    have := tour_perm_at (m := m) hb0
    rw [show i2 - 1 + 1 = i2 by omega] at this
    exact walk_at _ this (tour_perm_at c_i2)
  have w4 : (walk m.dist (tour m cur))[i2 + 1]? = some (m.dist v1 a') := walk_at _ (tour_perm_at c_i2) ta
  obtain ⟨p1, hp1⟩ : ∃ p1, s.lengths[i1]? = some p1 := ⟨_, List.getElem?_eq_getElem (by omega)⟩
  obtain ⟨p2, hp2⟩ : ∃ p1, s.lengths[i1 + 1]? = some p1 := ⟨_, List.getElem?_eq_getElem (by omega)⟩
  obtain ⟨p3, hp3⟩ : ∃ p1, s.lengths[i2]? = some p1 := ⟨_, List.getElem?_eq_getElem (by omega)⟩
  obtain ⟨p4, hp4⟩ : ∃ p1, s.lengths[i2 + 1]? = some p1 := ⟨_, List.getElem?_eq_getElem (by omega)⟩
  generalize hl1 : s.lengths.set i1 (m.dist b' v2) = l1
  generalize hl2 : l1.set (i1 + 1) (m.dist v2 a2) = l2
  generalize hl3 : l2.set i2 (m.dist b0 v1) = l3
  generalize hl4 : l3.set (i2 + 1) (m.dist v1 a') = l4
  have g1 : l1.length = s.perm.length + 1 := by rw [← hl1]; simpa using lenW
  have g2 : l2.length = s.perm.length + 1 := by rw [← hl2]; simpa using g1
  have g3 : l3.length = s.perm.length + 1 := by rw [← hl3]; simpa using g2
  have g4 : l4.length = s.perm.length + 1 := by rw [← hl4]; simpa using g3
  have s1 : pySet s.lengths i1 (m.dist b' v2) = .ok l1 := pySet_ok_iff.2 ⟨by omega, hl1.symm⟩
  have s2 : pySet l1 (i1 + 1) (m.dist v2 a2) = .ok l2 := pySet_ok_iff.2 ⟨by omega, hl2.symm⟩
  have s3 : pySet l2 i2 (m.dist b0 v1) = .ok l3 := pySet_ok_iff.2 ⟨by omega, hl3.symm⟩
  have s4 : pySet l3 (i2 + 1) (m.dist v1 a') = .ok l4 := pySet_ok_iff.2 ⟨by omega, hl4.symm⟩
  have hl4at : ∀ k : Nat, l4[k]? = if k = i2 + 1 then some (m.dist v1 a') else if k = i2 then some (m.dist b0 v1) else
      if k = i1 + 1 then some (m.dist v2 a2) else if k = i1 then some (m.dist b' v2) else s.lengths[k]? := by
    intro k
    rw [← hl4, ← hl3, ← hl2, ← hl1]
    exact set4 _ (by omega) (by omega) _ _ _ _ k
  have hwalk : l4 = walk m.dist (tour m cur) := by
    apply List.ext_getElem?
    intro k
    rw [hl4at]
    split
    · rename_i e; rw [e, w4]
    split
    · rename_i e; rw [e, w3]
    split
    · rename_i e; rw [e, w2]
    split
    · rename_i e; rw [e, w1]
    rename_i e1 e2 e3 e4
    rw [hlen]
    have same : ∀ j, j ≠ i1 + 1 → j ≠ i2 + 1 → (tour m s.perm)[j]? = (tour m cur)[j]? := by
      intro j j1 j2
      cases j with
      | zero => simp [tour]
      | succ j =>
        simp only [tour, List.cons_append, List.getElem?_cons_succ, List.getElem?_append, hclen]
        rw [hcat]
        simp [show j ≠ i2 by omega, show j ≠ i1 by omega]
    exact walk_congr_at _ (by simp [tour, hclen]) (same k e3 e1) (same (k + 1) (by omega) (by omega))
  have r1 := pyGet_ok_iff.2 (hwalk ▸ w1 : l4[i1]? = _)
  have r2 := pyGet_ok_iff.2 (hwalk ▸ w2 : l4[i1 + 1]? = _)
  have r3 := pyGet_ok_iff.2 (hwalk ▸ w3 : l4[i2]? = _)
  have r4 := pyGet_ok_iff.2 (hwalk ▸ w4 : l4[i2 + 1]? = _)
  refine ⟨L + (m.dist b' v2 + m.dist v2 a2 + m.dist b0 v1 + m.dist v1 a' - (p1 + p2 + p3 + p4)), ?_, ?_⟩
  · simp only [swapMove, pyGet_ok_iff.2 hv1, pyGet_ok_iff.2 hv2, hc1, hc2, hq', pyGet_ok_iff.2 hp1, pyGet_ok_iff.2 hp2,
      pyGet_ok_iff.2 hp3, pyGet_ok_iff.2 hp4, pyGet_ok_iff.2 c_i1, pyGet_ok_iff.2 c_i2, pyGet_ok_iff.2 ha2, pyGet_ok_iff.2 hb0,
      bind_ok, s1, s2, s3, s4, r1, r2, r3, r4]
    simp only [hL, addLen]
    rw [hwalk]
  · rw [← hwalk]
    rw [← hlen]
    have q1 : l1.sum = s.lengths.sum - p1 + m.dist b' v2 := by rw [← hl1]; exact sum_set _ _ _ _ hp1
    have q2 : l2.sum = l1.sum - p2 + m.dist v2 a2 := by
      rw [← hl2]; exact sum_set _ _ _ _ (by rw [← hl1, List.getElem?_set_ne (by omega)]; exact hp2)
    have q4 : l4.sum = l3.sum - p4 + m.dist v1 a' := by
      rw [← hl4]; exact sum_set _ _ _ _ (by
        rw [← hl3, List.getElem?_set_ne (by omega), ← hl2, List.getElem?_set_ne (by omega), ← hl1, List.getElem?_set_ne (by omega)]
        exact hp4)
    by_cases hadj : i2 = i1 + 1
    · subst hadj
      have q3 : l3.sum = l2.sum - m.dist v2 a2 + m.dist b0 v1 := by
        rw [← hl3]; exact sum_set _ _ _ _ (by rw [← hl2, List.getElem?_set_self (by omega)])
      have e1 : a2 = v1 := by rw [c_i2] at ha2; exact (Option.some.inj ha2).symm
      have e2 : b0 = v2 := by
        rw [show i1 + 1 - 1 = i1 by omega, c_i1] at hb0; exact (Option.some.inj hb0).symm
      have e3 : p2 = m.dist v1 v2 := by
        have := walk_at m.dist (tour_perm_at (m := m) hv1) (tour_perm_at (m := m) hv2)
        rw [← hlen, hp2] at this; exact Option.some.inj this
      have e4 : p3 = p2 := by rw [hp3] at hp2; exact Option.some.inj hp2
      rw [q4, q3, q2, q1, e4, e3, hs v1 v2, e1, e2]
      omega
    · have q3 : l3.sum = l2.sum - p3 + m.dist b0 v1 := by
        rw [← hl3]; exact sum_set _ _ _ _ (by
          rw [← hl2, List.getElem?_set_ne (by omega), ← hl1, List.getElem?_set_ne (by omega)]; exact hp3)
      rw [q4, q3, q2, q1]; omega

end Verif.Tsp
