import Verif.Lemmas.MaxEnt
/- Property C190: learning from the visits of an expert (`MaxentIRL`). -/
namespace Verif.MaxEnt
variable {W : Type}

/-- Specification: the observation lies in cell `i` of the first coordinate and in cell `j` of the second. -/
def InCell (c : Conf) (o : Rat × Rat) (i j : Nat) : Prop :=
  c.low.1 + i * ((c.high.1 - c.low.1) / c.cells) ≤ o.1 ∧ o.1 < c.low.1 + (i + 1) * ((c.high.1 - c.low.1) / c.cells) ∧
  c.low.2 + j * ((c.high.2 - c.low.2) / c.cells) ≤ o.2 ∧ o.2 < c.low.2 + (j + 1) * ((c.high.2 - c.low.2) / c.cells)

/-- Specification: the observation lies between the bounds; upper bounds are excluded. -/
def Within (c : Conf) (o : Rat × Rat) : Prop :=
  c.low.1 ≤ o.1 ∧ o.1 < c.high.1 ∧ c.low.2 ≤ o.2 ∧ o.2 < c.high.2

/-- Specification: there is at least one cell and one action, a state for each pair of cells, and the bounds differ. -/
structure Good (c : Conf) : Prop where
  cells : 0 < c.cells
  actions : 0 < c.actions
  states : c.states = c.cells * c.cells
  first : c.low.1 < c.high.1
  second : c.low.2 < c.high.2

/-- C190: the index of an observation is that of its pair of cells. -/
theorem C190_cell {c : Conf} (hc : Good c) {o : Rat × Rat} {i j : Nat} (h : InCell c o i j) : index c o = i + j * c.cells := by
  obtain ⟨h1, h2, h3, h4⟩ := h
  unfold index
  rw [cell_eq hc.cells hc.first h1 h2, cell_eq hc.cells hc.second h3 h4]

theorem inCell_ex {c : Conf} (hc : Good c) {o : Rat × Rat} (h : Within c o) : ∃ i j, i < c.cells ∧ j < c.cells ∧ InCell c o i j := by
  obtain ⟨i, i1, i2, i3⟩ := cell_ex hc.cells hc.first h.1 h.2.1
  obtain ⟨j, j1, j2, j3⟩ := cell_ex hc.cells hc.second h.2.2.1 h.2.2.2
  exact ⟨i, j, i1, j1, i2, i3, j2, j3⟩

theorem pair_lt {n i j : Nat} (hi : i < n) (hj : j < n) : i + j * n < n * n := by
  calc i + j * n < n + j * n := by omega
    _ = (j + 1) * n := by rw [Nat.succ_mul, Nat.add_comm]
    _ ≤ n * n := Nat.mul_le_mul_right _ hj

theorem pair_inj {n i j i' j' : Nat} (hi : i < n) (hi' : i' < n) (h : i + j * n = i' + j' * n) : i = i' ∧ j = j' := by
  have h1 : (i + j * n) % n = i := by rw [Nat.add_mul_mod_self_right, Nat.mod_eq_of_lt hi]
  have h2 : (i' + j' * n) % n = i' := by rw [Nat.add_mul_mod_self_right, Nat.mod_eq_of_lt hi']
  have e : i = i' := by rw [← h1, ← h2, h]
  refine ⟨e, ?_⟩
  subst e
  exact Nat.eq_of_mul_eq_mul_right (by omega : 0 < n) (by omega)

/-- C190: within the bounds, every observation has a row of the table, and two have the same one exactly if they share both cells. -/
theorem C190_index {c : Conf} (hc : Good c) {o o' : Rat × Rat} (h : Within c o) (h' : Within c o') :
    0 ≤ index c o ∧ index c o < c.states ∧ (index c o = index c o' ↔ ∃ i j, InCell c o i j ∧ InCell c o' i j) := by
  obtain ⟨i, j, hi, hj, hij⟩ := inCell_ex hc h
  obtain ⟨i', j', hi', hj', hij'⟩ := inCell_ex hc h'
  have e := C190_cell hc hij
  have e' := C190_cell hc hij'
  have hlt := pair_lt hi hj
  rw [← hc.states] at hlt
  refine ⟨by rw [e]; positivity, by rw [e]; exact_mod_cast hlt, ?_⟩
  constructor
  · intro hh
    rw [e, e'] at hh
    obtain ⟨rfl, rfl⟩ := pair_inj hi hi' (by exact_mod_cast hh)
    exact ⟨i, j, hij, hij'⟩
  · rintro ⟨a, b, h1, h2⟩
    rw [C190_cell hc h1, C190_cell hc h2]

theorem top_cell {n : Nat} {lo hi : Rat} (hn : 0 < n) (h : lo < hi) : cell n lo hi hi = n := by
  have hn' : (0 : Rat) < n := by exact_mod_cast hn
  have hwn : n * ((hi - lo) / n) = hi - lo := by field_simp
  have hw : 0 < (hi - lo) / n := div_pos (by linarith) hn'
  exact cell_eq hn h (by linarith) (by linarith)

/-- The upper bound of the first coordinate is taken for the lowest cell, one cell further in the second coordinate. -/
theorem C190_wraps_refuted {c : Conf} (hc : Good c) {v : Rat} {j : Nat} (h : InCell c (c.low.1, v) 0 j) :
    index c (c.high.1, v) = index c (c.low.1, v + (c.high.2 - c.low.2) / c.cells) := by
  have h3 := h.2.2.1
  have h4 := h.2.2.2
  have : InCell c (c.low.1, v + (c.high.2 - c.low.2) / c.cells) 0 (j + 1) := by
    refine ⟨h.1, h.2.1, ?_, ?_⟩
    · push_cast; dsimp only at h3 ⊢; linarith
    · push_cast; dsimp only at h4 ⊢; linarith
  rw [C190_cell hc this]
  unfold index
  dsimp only
  rw [top_cell hc.cells hc.first, cell_eq hc.cells hc.second h3 h4]
  push_cast
  ring

/-- The highest value of the second coordinate raises, in any cell of the first. -/
theorem C190_top_refuted {c : Conf} (hc : Good c) {q : List (List Rat)} (hq : q.length = c.states) (k : Cgp.Kind) {x : Rat}
    (h1 : c.low.1 ≤ x) (h2 : x < c.high.1) : sample c q k (x, c.high.2) = .error .indexError := by
  obtain ⟨i, i1, i2, i3⟩ := cell_ex hc.cells hc.first h1 h2
  have e : index c (x, c.high.2) = ((i + c.cells * c.cells : Nat) : Int) := by
    unfold index
    dsimp only
    rw [top_cell hc.cells hc.second, cell_eq hc.cells hc.first i2 i3]
    push_cast
    rfl
  unfold sample place
  rw [e, if_pos (by omega), if_neg (by rw [hq, hc.states]; push_cast; omega)]
  rfl

/-- C190: the expectations of the expert are the visits of each state per demonstration. -/
theorem C190_expectations {c : Conf} (hc : Good c) {demos : List (List (Rat × Rat))} (h : ∀ d ∈ demos, ∀ o ∈ d, Within c o) :
    ∃ e, expectations c demos = .ok e ∧ e.length = c.states ∧
      ∀ k : Nat, k < c.states → e[k]? = some (((demos.flatten.countP (fun o => index c o == k) : Nat) : Rat) / ((demos.length : Nat) : Rat)) := by
  have hin : ∀ o ∈ demos.flatten, ∃ k : Nat, index c o = k ∧ k < c.states := by
    intro o ho
    obtain ⟨d, hd, hod⟩ := List.mem_flatten.1 ho
    obtain ⟨i, j, hi, hj, hij⟩ := inCell_ex hc (h d hd o hod)
    refine ⟨i + j * c.cells, by rw [C190_cell hc hij]; push_cast; rfl, ?_⟩
    rw [hc.states]; exact pair_lt hi hj
  obtain ⟨v, hv⟩ := visits_ok (n := c.states) (demos.flatten.map (index c)) (List.replicate c.states 0) (by
    intro i hi
    obtain ⟨o, ho, rfl⟩ := List.mem_map.1 hi
    obtain ⟨k, e, hk⟩ := hin o ho
    exact ⟨k, by rw [e]; exact place_nat hk⟩)
  obtain ⟨s1, s2⟩ := visits_spec _ _ _ hv
  refine ⟨v.map (· / demos.length), by simp only [expectations, hv, bind_ok], by simpa using s1, ?_⟩
  intro k hk
  rw [List.getElem?_map, s2 k 0 (by simp [hk])]
  simp only [Option.map_some, zero_add, List.countP_map]
  have : List.countP ((fun i => place c.states i == .ok k) ∘ index c) demos.flatten = List.countP (fun o => index c o == k) demos.flatten := by
    apply List.countP_congr
    intro o ho
    obtain ⟨k', e, hk'⟩ := hin o ho
    simp only [Function.comp, e, place_nat hk', beq_iff_eq, Except.ok.injEq, Nat.cast_inj]
  rw [this]

/-- C190: the weights move by the rate times the difference of expert and learner, and positive ones are cut off to 0. -/
theorem C190_gradient {c : Conf} {expert learner theta : List Rat} (h1 : expert.length = theta.length) (h2 : learner.length = theta.length) :
    (gradient c.thetaRate expert learner theta).length = theta.length ∧
    ∀ (j : Nat) (e l t : Rat), expert[j]? = some e → learner[j]? = some l → theta[j]? = some t →
      (gradient c.thetaRate expert learner theta)[j]? = some (min 0 (t + c.thetaRate * (e - l))) :=
  ⟨by simp [gradient, h1, h2], fun _ _ _ _ a b d => gradient_get a b d⟩

/-- C190: values stay at most 0, weights too, and shapes stay, whatever the world does. -/
theorem C190_nonpositive {c : Conf} (hg : 0 ≤ c.gamma) (h0 : 0 ≤ c.qRate) (h1 : c.qRate ≤ 1) {w : World W} {fuel : Nat}
    {expert theta : List Rat} {world : W} (he : expert.length = c.states) (hl : theta.length = c.states) (ht : ∀ t ∈ theta, t ≤ 0)
    {n : Nat} {s : St W} (h : train c w fuel expert (start c world theta) n = .ok s) :
    (∀ row ∈ s.q, ∀ v ∈ row, v ≤ 0) ∧ (∀ t ∈ s.theta, t ≤ 0) ∧ Shape c s := by
  have key := train_keeps (P := fun x => x ≤ 0) (R := fun x => x ≤ 0) (c := c) (s := start c world theta) (by
      intro q1 m r a1 a2 a3
      have b1 : c.gamma * m ≤ 0 := mul_nonpos_of_nonneg_of_nonpos hg a2
      have b2 : c.qRate * (r + c.gamma * m) ≤ 0 := mul_nonpos_of_nonneg_of_nonpos h0 (by linarith)
      have b3 : (1 - c.qRate) * q1 ≤ 0 := mul_nonpos_of_nonneg_of_nonpos (by linarith) a1
      linarith)
    (fun row hr v hv => le_of_eq (zeros_mem row hr v hv)) ht n (fun _ _ _ x hx => hx) h
  exact ⟨key.1, key.2.1, key.2.2 (start_shape hl) he⟩

/-- C190: as long as the weights are the first ones, of at least -1, values are bounded by the sum of the discounts. -/
theorem C190_bounded {c : Conf} (hg : 0 ≤ c.gamma) (hg1 : c.gamma < 1) (h0 : 0 ≤ c.qRate) (h1 : c.qRate ≤ 1) {w : World W} {fuel : Nat}
    {expert theta : List Rat} {world : W} (ht : ∀ t ∈ theta, -1 ≤ t)
    {n : Nat} (hn : n ≤ c.first) {s : St W} (h : train c w fuel expert (start c world theta) n = .ok s) :
    ∀ row ∈ s.q, ∀ v ∈ row, -1 / (1 - c.gamma) ≤ v := by
  have hp : 0 < 1 - c.gamma := by linarith
  have hB : -1 / (1 - c.gamma) ≤ 0 := div_nonpos_of_nonpos_of_nonneg (by norm_num) hp.le
  have hfix : -1 + c.gamma * (-1 / (1 - c.gamma)) = -1 / (1 - c.gamma) := by field_simp; ring
  generalize -1 / (1 - c.gamma) = B at hB hfix ⊢
  exact (train_keeps (P := fun x => B ≤ x) (R := fun x => -1 ≤ x) (c := c) (s := start c world theta) (by
      intro q1 m r a1 a2 a3
      have b1 : c.gamma * B ≤ c.gamma * m := mul_le_mul_of_nonneg_left a2 hg
      have b2 : c.qRate * B ≤ c.qRate * (r + c.gamma * m) := mul_le_mul_of_nonneg_left (by linarith) h0
      have b3 : (1 - c.qRate) * B ≤ (1 - c.qRate) * q1 := mul_le_mul_of_nonneg_left a1 (by linarith)
      linarith)
    (fun row hr v hv => by rw [zeros_mem row hr v hv]; exact hB) ht n
    (fun k hk hl => by rw [learns_lt (by omega)] at hl; cases hl) h).1

/-- A turn within the bounds does not raise. -/
theorem turn_ok {c : Conf} (hc : Good c) {w : World W} (hw : ∀ x, Within c (w.obs x)) {s : St W} (hs : Shape c s) :
    ∃ s', turn c w s = .ok s' ∧ Shape c s' := by
  have hpl : ∀ x, ∃ k, place c.states (index c (w.obs x)) = .ok k ∧ k < c.states := by
    intro x
    obtain ⟨h1, h2, _⟩ := C190_index hc (hw x) (hw x)
    refine ⟨(index c (w.obs x)).toNat, ?_, by omega⟩
    unfold place
    rw [if_pos h1, if_pos h2]
  obtain ⟨k, hk, hkl⟩ := hpl s.world
  have hkq : k < s.q.length := by rw [hs.rows]; exact hkl
  have hrl := hs.cols _ (List.getElem_mem hkq)
  obtain ⟨a, ha⟩ : ∃ a, SimpleGreedy.argmax s.q[k] = .ok a := by
    cases hr : s.q[k] with
    | nil => rw [hr] at hrl; have := hc.actions; simp at hrl; omega
    | cons x xs => exact ⟨_, rfl⟩
  obtain ⟨wv, hwv, _⟩ := argmax_lt ha
  obtain ⟨k', hk', hkl'⟩ := hpl (w.step s.world a)
  have hkq' : k' < s.q.length := by rw [hs.rows]; exact hkl'
  have hrl' := hs.cols _ (List.getElem_mem hkq')
  obtain ⟨m, hm⟩ : ∃ m, rowMax s.q[k'] = .ok m := by
    cases hr : s.q[k'] with
    | nil => rw [hr] at hrl'; have := hc.actions; simp at hrl'; omega
    | cons x xs => exact ⟨_, rfl⟩
  have hok : ∃ s', turn c w s = .ok s' := by
    simp only [turn, hs.rows, hk, bind_ok, pyGet_of_lt hkq, ha, pyGet_of_lt (show k < s.theta.length by rw [hs.theta]; exact hkl), hk',
      update, pyGet_ok_iff.2 hwv, pyGet_of_lt hkq', hm, visit]
    exact ⟨_, rfl⟩
  obtain ⟨s', h'⟩ := hok
  exact ⟨s', h', (turn_keeps (P := fun _ => True) (R := fun _ => True) (fun _ _ _ _ _ _ => trivial) h'
    (fun _ _ _ _ => trivial) (fun _ _ => trivial)).2.2 hs⟩

/-- C190: a turn plays the first best action of the row, counts the state, and moves one value by the rate towards the weight of
the state plus the discounted best value of the next row; all other values stay. -/
theorem C190_turn {c : Conf} (hc : Good c) {w : World W} (hw : ∀ x, Within c (w.obs x)) {s : St W} (hs : Shape c s) :
    ∃ s' k k' a q1 m t n, turn c w s = .ok s' ∧ index c (w.obs s.world) = (k : Nat) ∧ s.theta[k]? = some t ∧
      s'.world = w.step s.world a ∧ index c (w.obs s'.world) = (k' : Nat) ∧
      (∃ row, s.q[k]? = some row ∧ row[a]? = some q1 ∧ (∀ x ∈ row, x ≤ q1) ∧ ∀ (b : Nat) (x : Rat), b < a → row[b]? = some x → x < q1) ∧
      (∃ next, s.q[k']? = some next ∧ m ∈ next ∧ ∀ x ∈ next, x ≤ m) ∧
      (∃ row, s'.q[k]? = some row ∧ row[a]? = some ((1 - c.qRate) * q1 + c.qRate * (t + c.gamma * m))) ∧
      (∀ i b : Nat, i ≠ k ∨ b ≠ a → (s'.q[i]?).bind (·[b]?) = (s.q[i]?).bind (·[b]?)) ∧
      s.seen[k]? = some n ∧ s'.seen = s.seen.set k (n + 1) ∧ s'.theta = s.theta := by
  have hpl : ∀ x, ∃ k : Nat, index c (w.obs x) = k ∧ k < c.states := by
    intro x
    obtain ⟨h1, h2, _⟩ := C190_index hc (hw x) (hw x)
    exact ⟨(index c (w.obs x)).toNat, by omega, by omega⟩
  obtain ⟨k, hk, hkl⟩ := hpl s.world
  have hkq : k < s.q.length := by rw [hs.rows]; exact hkl
  have hrl := hs.cols _ (List.getElem_mem hkq)
  obtain ⟨a, ha⟩ : ∃ a, SimpleGreedy.argmax s.q[k] = .ok a := by
    cases hr : s.q[k] with
    | nil => rw [hr] at hrl; have := hc.actions; simp at hrl; omega
    | cons x xs => exact ⟨_, rfl⟩
  obtain ⟨q1, hq1, hq2, hq3⟩ := argmax_lt ha
  obtain ⟨k', hk', hkl'⟩ := hpl (w.step s.world a)
  have hkq' : k' < s.q.length := by rw [hs.rows]; exact hkl'
  have hrl' := hs.cols _ (List.getElem_mem hkq')
  obtain ⟨m, hm⟩ : ∃ m, rowMax s.q[k'] = .ok m := by
    cases hr : s.q[k'] with
    | nil => rw [hr] at hrl'; have := hc.actions; simp at hrl'; omega
    | cons x xs => exact ⟨_, rfl⟩
  have htl : k < s.theta.length := by rw [hs.theta]; exact hkl
  have hsl : k < s.seen.length := by rw [hs.seen]; exact hkl
  have hal := (List.getElem?_eq_some_iff.1 hq1).1
  refine ⟨{ s with q := s.q.set k (s.q[k].set a (q1 + c.qRate * (s.theta[k] + c.gamma * m - q1))),
                   seen := s.seen.modify k (· + 1), world := w.step s.world a },
    k, k', a, q1, m, s.theta[k], s.seen[k], ?_, hk, by simp [htl], rfl, hk', ⟨s.q[k], by simp [hkq], hq1, hq2, hq3⟩,
    ⟨s.q[k'], by simp [hkq'], rowMax_mem hm, rowMax_ge hm⟩, ⟨_, by rw [List.getElem?_set_self hkq], ?_⟩, ?_, by simp [hsl], ?_, rfl⟩
  · simp only [turn, hs.rows, hk, place_nat hkl, bind_ok, pyGet_of_lt hkq, ha, pyGet_of_lt htl, hk', place_nat hkl',
      update, pyGet_ok_iff.2 hq1, pyGet_of_lt hkq', hm, visit]
  · rw [List.getElem?_set_self hal]
    congr 1
    ring
  · intro i b hib
    dsimp only
    by_cases hik : k = i
    · subst hik
      rw [List.getElem?_set_self hkq]
      have hb : a ≠ b := by
        rintro rfl
        rcases hib with h | h <;> exact h rfl
      simp [List.getElem?_set_ne hb, hkq]
    · rw [List.getElem?_set_ne hik]
  · dsimp only
    rw [List.modify_eq_set_getElem? , List.getElem?_eq_getElem hsl]
    rfl

theorem episode_ok {c : Conf} (hc : Good c) {w : World W} (hw : ∀ x, Within c (w.obs x)) : ∀ (fuel : Nat) {s : St W}, Shape c s →
    (∃ s', episode c w fuel s = .ok s' ∧ Shape c s') ∨ episode c w fuel s = .error .runtimeError := by
  intro fuel
  induction fuel with
  | zero => intro s _; exact .inr rfl
  | succ fuel ih =>
    intro s hs
    obtain ⟨t, h1, h2⟩ := turn_ok hc hw hs
    simp only [episode, h1, bind_ok]
    split
    · exact .inl ⟨t, rfl, h2⟩
    · exact ih h2

/-- C190: where observations stay within the bounds, training raises nothing; it only may not end within the given turns. -/
theorem C190_safe {c : Conf} (hc : Good c) {w : World W} (hw : ∀ x, Within c (w.obs x)) {fuel : Nat} {expert theta : List Rat} {world : W}
    (he : expert.length = c.states) (hl : theta.length = c.states) : ∀ n : Nat,
    (∃ s, train c w fuel expert (start c world theta) n = .ok s ∧ Shape c s) ∨
      train c w fuel expert (start c world theta) n = .error .runtimeError := by
  intro n
  induction n with
  | zero => exact .inl ⟨_, rfl, start_shape hl⟩
  | succ n ih =>
    simp only [train]
    rcases ih with ⟨s, h1, h2⟩ | h
    · simp only [h1, bind_ok, epoch]
      rcases episode_ok hc hw fuel (s := if learns c n then { { s with world := w.reset s.world } with
          theta := gradient c.thetaRate expert (s.seen.map (· / (n : Rat))) s.theta } else { s with world := w.reset s.world }) (by
        split
        · exact ⟨h2.rows, h2.cols, by simp [gradient, he, h2.seen, h2.theta], h2.seen⟩
        · exact ⟨h2.rows, h2.cols, h2.theta, h2.seen⟩) with ⟨u, g1, g2⟩ | g
      · left
        rw [g1]
        simp only [bind_ok]
        split
        · exact ⟨_, rfl, g2.rows, g2.cols, g2.theta, g2.seen⟩
        · exact ⟨_, rfl, g2⟩
      · right
        rw [g]; rfl
    · right; rw [h]; rfl

/-- C190: the weights change only in epoch 10000 and in the multiples of 5000 beyond, by the expert against the visits per epoch so
far. -/
theorem C190_epoch {c : Conf} {w : World W} {fuel : Nat} {expert : List Rat} {k : Nat} {s s' : St W}
    (h : epoch c w fuel expert k s = .ok s') :
    (0 < k ∧ k = c.first ∨ c.first < k ∧ c.every ∣ k → s'.theta = gradient c.thetaRate expert (s.seen.map (· / (k : Rat))) s.theta) ∧
    (¬ (0 < k ∧ k = c.first ∨ c.first < k ∧ c.every ∣ k) → s'.theta = s.theta) := by
  obtain ⟨t, u, _, _, _, e4, e5, _, e7, _, _⟩ := epoch_inv h
  have h2 := (episode_keeps (P := fun _ => True) (R := fun _ => True) (fun _ _ _ _ _ _ => trivial) fuel e5
    (fun _ _ _ _ => trivial) (fun _ _ => trivial)).2.1
  have hl : learns c k = true ↔ (0 < k ∧ k = c.first ∨ c.first < k ∧ c.every ∣ k) := by
    simp only [learns, Bool.or_eq_true, Bool.and_eq_true, bne_iff_ne, beq_iff_eq, decide_eq_true_eq, Nat.dvd_iff_mod_eq_zero]
    omega
  constructor
  · intro hk
    rw [e7, h2, e4, if_pos (hl.2 hk)]
  · intro hk
    rw [e7, h2, e4, if_neg (fun hh => hk (hl.1 hh))]

/-- C190: the solver ends up with the table of the last epoch whose number is a multiple of 1000; of no epoch, loading fails. -/
theorem C190_returned {c : Conf} {w : World W} {fuel : Nat} {theta expert : List Rat} {world : W} {d : List (List (Rat × Rat))}
    (he : expectations c d = .ok expert) {n : Nat} {r : Option (List (List Rat))}
    (h : solve c w fuel world theta none (some d) n = .ok r) :
    (n = 0 → r = none) ∧
    (0 < n → ∃ s, train c w fuel expert (start c world theta) (c.save * ((n - 1) / c.save) + 1) = .ok s ∧ r = some s.q) := by
  simp only [solve, he, bind_ok] at h
  obtain ⟨s, h1, h2⟩ := bind_eq_ok.1 h
  have := Except.ok.inj h2
  subst this
  constructor
  · rintro rfl
    have := Except.ok.inj h1
    subst this
    rfl
  · intro hn
    obtain ⟨m, rfl⟩ : ∃ m, n = m + 1 := ⟨n - 1, by omega⟩
    exact train_saved m h1

/-- What is learned after the last epoch that is saved is lost: with up to 1000 epochs, all but the first one. -/
theorem C190_lost_refuted {c : Conf} {w : World W} {fuel : Nat} {theta expert : List Rat} {world : W} {d : List (List (Rat × Rat))}
    (he : expectations c d = .ok expert) {n : Nat} (hn : 0 < n) (hs : n ≤ c.save) {r r' : Option (List (List Rat))}
    (h : solve c w fuel world theta none (some d) n = .ok r) (h' : solve c w fuel world theta none (some d) 1 = .ok r') : r = r' := by
  obtain ⟨s, a1, a2⟩ := (C190_returned he h).2 hn
  obtain ⟨s', b1, b2⟩ := (C190_returned he h').2 (by omega)
  have e : (n - 1) / c.save = 0 := Nat.div_eq_of_lt (by omega)
  rw [e] at a1
  rw [show (1 - 1) / c.save = 0 by simp] at b1
  rw [a1] at b1
  have := Except.ok.inj b1
  rw [a2, b2, this]

theorem train_expert {c : Conf} {w : World W} {fuel : Nat} {e1 e2 : List Rat} {s : St W} : ∀ n : Nat, n ≤ c.first →
    train c w fuel e1 s n = train c w fuel e2 s n := by
  intro n
  induction n with
  | zero => intro _; rfl
  | succ n ih =>
    intro hn
    simp only [train]
    rw [ih (by omega)]
    congr 1
    funext t
    simp only [epoch, learns_lt (show n < c.first by omega), Bool.false_eq_true, if_false]

/-- With up to 10000 epochs the expert has no influence: any demonstrations give the same table. -/
theorem C190_expert_refuted {c : Conf} {w : World W} {fuel : Nat} {theta e1 e2 : List Rat} {world : W} {d1 d2 : List (List (Rat × Rat))}
    (h1 : expectations c d1 = .ok e1) (h2 : expectations c d2 = .ok e2) {n : Nat} (hn : n ≤ c.first) :
    solve c w fuel world theta none (some d1) n = solve c w fuel world theta none (some d2) n := by
  simp only [solve, h1, h2, bind_ok]
  rw [train_expert n hn]

/-- C190: with as many actions as the space has, the policy gives the first action of the highest value of the row. -/
theorem C190_policy {c : Conf} (hc : Good c) {q : List (List Rat)} (hq : q.length = c.states) (hr : ∀ row ∈ q, row.length = c.actions)
    {o : Rat × Rat} {i j : Nat} (hi : i < c.cells) (hj : j < c.cells) (ho : InCell c o i j) :
    ∃ row a v, q[i + j * c.cells]? = some row ∧ sample c q (.discrete c.actions) o = .ok (.inr a) ∧ a < c.actions ∧
      row[a]? = some v ∧ (∀ x ∈ row, x ≤ v) ∧ ∀ (b : Nat) (x : Rat), b < a → row[b]? = some x → x < v := by
  have hlt : i + j * c.cells < q.length := by rw [hq, hc.states]; exact pair_lt hi hj
  have hrl := hr _ (List.getElem_mem hlt)
  obtain ⟨a, ha⟩ : ∃ a, SimpleGreedy.argmax q[i + j * c.cells] = .ok a := by
    cases hx : q[i + j * c.cells] with
    | nil => rw [hx] at hrl; have := hc.actions; simp at hrl; omega
    | cons x xs => exact ⟨_, rfl⟩
  obtain ⟨v, h1, h2, h3⟩ := argmax_lt ha
  have hal : a < c.actions := by rw [← hrl]; exact (List.getElem?_eq_some_iff.1 h1).1
  have e : index c o = ((i + j * c.cells : Nat) : Int) := by rw [C190_cell hc ho]; push_cast; rfl
  refine ⟨q[i + j * c.cells], a, v, by simp [hlt], ?_, hal, h1, h2, h3⟩
  simp only [sample, e, place_nat hlt, bind_ok, pyGet_of_lt hlt, ha, adapt, Nat.mod_eq_of_lt hal]

/-- C190: an episode is a series of turns that ends at the first state in which the world is done. -/
theorem C190_episode {c : Conf} {w : World W} : ∀ (fuel : Nat) {s s' : St W}, episode c w fuel s = .ok s' →
    ∃ (t : Nat → St W) (n : Nat), t 0 = s ∧ t (n + 1) = s' ∧ (∀ i ≤ n, turn c w (t i) = .ok (t (i + 1))) ∧
      (∀ i < n, w.done (t (i + 1)).world = false) ∧ w.done s'.world = true
  | 0, s, s', h => by simp [episode] at h
  | fuel + 1, s, s', h => by
    simp only [episode] at h
    obtain ⟨s1, h1, h2⟩ := bind_eq_ok.1 h
    split at h2
    · rename_i hd
      have := Except.ok.inj h2
      subst this
      refine ⟨fun i => if i = 0 then s else s1, 0, rfl, rfl, fun i hi => ?_, fun i hi => by omega, hd⟩
      obtain rfl := Nat.le_zero.1 hi
      exact h1
    · rename_i hd
      obtain ⟨t, n, a1, a2, a3, a4, a5⟩ := C190_episode fuel h2
      refine ⟨fun i => if i = 0 then s else t (i - 1), n + 1, rfl, a2, ?_, ?_, a5⟩
      · intro i hi
        cases i with
        | zero => simpa [a1] using h1
        | succ i => simpa using a3 i (by omega)
      · intro i hi
        cases i with
        | zero => simpa [a1] using hd
        | succ i => simpa using a4 i (by omega)

/-- C190: of a table loaded before, nothing is learned: it is the one returned, with or without an expert. -/
theorem C190_loaded {c : Conf} {w : World W} {fuel : Nat} {theta : List Rat} {world : W} {q : List (List Rat)} {d : Option (List (List (Rat × Rat)))} {n : Nat}
    {r : Option (List (List Rat))} (h : solve c w fuel world theta (some q) d n = .ok r) : r = some q := (Except.ok.inj h).symm

/-- Where the space has another number of actions, the first best action is reduced by that number. -/
theorem C190_reduced_refuted {c : Conf} (hc : Good c) {q : List (List Rat)} (hq : q.length = c.states) (hr : ∀ row ∈ q, row.length = c.actions)
    {o : Rat × Rat} {i j : Nat} (hi : i < c.cells) (hj : j < c.cells) (ho : InCell c o i j) (n : Nat) :
    ∃ row a v, q[i + j * c.cells]? = some row ∧ sample c q (.discrete n) o = .ok (.inr (a % n)) ∧ a < c.actions ∧
      row[a]? = some v ∧ (∀ x ∈ row, x ≤ v) ∧ ∀ (b : Nat) (x : Rat), b < a → row[b]? = some x → x < v := by
  have hlt : i + j * c.cells < q.length := by rw [hq, hc.states]; exact pair_lt hi hj
  have hrl := hr _ (List.getElem_mem hlt)
  obtain ⟨a, ha⟩ : ∃ a, SimpleGreedy.argmax q[i + j * c.cells] = .ok a := by
    cases hx : q[i + j * c.cells] with
    | nil => rw [hx] at hrl; have := hc.actions; simp at hrl; omega
    | cons x xs => exact ⟨_, rfl⟩
  obtain ⟨v, h1, h2, h3⟩ := argmax_lt ha
  have hal : a < c.actions := by rw [← hrl]; exact (List.getElem?_eq_some_iff.1 h1).1
  have e : index c o = ((i + j * c.cells : Nat) : Int) := by rw [C190_cell hc ho]; push_cast; rfl
  refine ⟨q[i + j * c.cells], a, v, by simp [hlt], ?_, hal, h1, h2, h3⟩
  simp only [sample, e, place_nat hlt, bind_ok, pyGet_of_lt hlt, ha, adapt]

/-- Below the lower bounds, rows are taken from the end of the table instead of raising. -/
theorem C190_below_refuted {c : Conf} (hc : Good c) {q : List (List Rat)} (hq : q.length = c.states) (hr : ∀ row ∈ q, row.length = c.actions)
    {o : Rat × Rat} {m : Nat} (hm : 0 < m) (hl : m ≤ c.states) (ho : index c o = -(m : Int)) :
    ∃ row a v, q[c.states - m]? = some row ∧ sample c q (.discrete c.actions) o = .ok (.inr a) ∧ row[a]? = some v ∧
      (∀ x ∈ row, x ≤ v) ∧ ∀ (b : Nat) (x : Rat), b < a → row[b]? = some x → x < v := by
  have hlt : c.states - m < q.length := by omega
  have hrl := hr _ (List.getElem_mem hlt)
  obtain ⟨a, ha⟩ : ∃ a, SimpleGreedy.argmax q[c.states - m] = .ok a := by
    cases hx : q[c.states - m] with
    | nil => rw [hx] at hrl; have := hc.actions; simp at hrl; omega
    | cons x xs => exact ⟨_, rfl⟩
  obtain ⟨v, h1, h2, h3⟩ := argmax_lt ha
  have hal : a < c.actions := by rw [← hrl]; exact (List.getElem?_eq_some_iff.1 h1).1
  have hp : place q.length (-(m : Int)) = .ok (c.states - m) := by
    unfold place
    rw [if_neg (by omega), if_pos (by omega)]
    congr 1
    omega
  refine ⟨q[c.states - m], a, v, by simp [hlt], ?_, h1, h2, h3⟩
  simp only [sample, ho, hp, bind_ok, pyGet_of_lt hlt, ha, adapt, Nat.mod_eq_of_lt hal]

/-- In a box of one cell the lower half is never chosen. -/
theorem C190_box_refuted {c : Conf} {q : List (List Rat)} {o : Rat × Rat} {l h : Rat} {ys : Sum (List Rat) Nat}
    (hs : sample c q (.box [(some l, some h)]) o = .ok ys) : ys = .inl [(l + h) / 2] ∨ ys = .inl [h] := by
  simp only [sample] at hs
  obtain ⟨p, _, hs⟩ := bind_eq_ok.1 hs
  obtain ⟨row, _, hs⟩ := bind_eq_ok.1 hs
  obtain ⟨a, _, hs⟩ := bind_eq_ok.1 hs
  simp only [adapt, Cgp.change_eq (show (-1 : Rat) < 1 by norm_num), bind_ok] at hs
  have := Except.ok.inj hs
  subst this
  cases a with
  | zero =>
    left
    have : max (-1 : Rat) (min 1 ((0 : Nat) : Rat)) = 0 := by norm_num
    rw [this]
    congr 2
    ring
  | succ a =>
    right
    have h1 : (1 : Rat) ≤ ((a + 1 : Nat) : Rat) := by
      have : (1 : Nat) ≤ a + 1 := by omega
      exact_mod_cast this
    have : max (-1 : Rat) (min 1 ((a + 1 : Nat) : Rat)) = 1 := by rw [min_eq_left h1]; norm_num
    rw [this]
    congr 2
    ring

/-- Without the file of the expert, the policy is the first action everywhere. -/
theorem C190_missing_refuted {c : Conf} (hc : Good c) {w : World W} {fuel : Nat} {theta : List Rat} {world : W} {n : Nat}
    {o : Rat × Rat} (ho : Within c o) :
    ∃ q, solve c w fuel world theta none none n = .ok (some q) ∧ sample c q (.discrete c.actions) o = .ok (.inr 0) := by
  refine ⟨zeros c, rfl, ?_⟩
  obtain ⟨i, j, hi, hj, hij⟩ := inCell_ex hc ho
  have hz : ∀ row ∈ zeros c, row.length = c.actions := by
    intro row hr
    rw [(List.mem_replicate.1 hr).2, List.length_replicate]
  obtain ⟨row, a, v, h1, h2, h3, h4, h5, h6⟩ := C190_policy hc (q := zeros c) (by simp [zeros]) hz hi hj hij
  have hrow := List.mem_of_getElem? h1
  rw [h2]
  cases a with
  | zero => rfl
  | succ a =>
    exfalso
    have hlen := hz row hrow
    have h0 : 0 < row.length := by omega
    have hlt := h6 0 row[0] (by omega) (by simp [h0])
    have e1 := zeros_mem row hrow row[0] (List.getElem_mem h0)
    have e2 := zeros_mem row hrow v (List.mem_of_getElem? h4)
    rw [e1, e2] at hlt
    exact lt_irrefl _ hlt

/-- Two cells for each coordinate, from 0 to 2, and two actions. -/
def small : Conf :=
  { states := 4, actions := 2, cells := 2, gamma := 1 / 2, qRate := 1 / 2, thetaRate := 1, low := (0, 0), high := (2, 2) }

theorem small_good : Good small := ⟨by decide, by decide, by decide, by decide +kernel, by decide +kernel⟩

/-- A world of three places: action 1 leads on, action 0 stays; the third place ends the episode. -/
def walk : World Nat :=
  { reset := fun _ => 0, step := fun s a => s + a, done := fun s => decide (2 ≤ s),
    obs := fun s => if s = 0 then (0, 0) else if s = 1 then (1, 0) else (1, 1) }

theorem walk_within : ∀ x, Within small (walk.obs x) := by
  intro x
  simp only [walk]
  split
  · exact ⟨by decide +kernel, by decide +kernel, by decide +kernel, by decide +kernel⟩
  · split
    · exact ⟨by decide +kernel, by decide +kernel, by decide +kernel, by decide +kernel⟩
    · exact ⟨by decide +kernel, by decide +kernel, by decide +kernel, by decide +kernel⟩

example : index small (1, 3 / 2) = 3 ∧ InCell small (1, 3 / 2) 1 1 :=
  ⟨by decide +kernel, by decide +kernel, by decide +kernel, by decide +kernel, by decide +kernel⟩
example : index small (2, 1 / 2) = index small (0, 3 / 2) :=
  (C190_wraps_refuted small_good (v := 1 / 2) (j := 0)
    ⟨by decide +kernel, by decide +kernel, by decide +kernel, by decide +kernel⟩).trans (by decide +kernel)
example : sample small (zeros small) (.discrete 2) (1, 2) = .error .indexError :=
  C190_top_refuted small_good (by decide) _ (by decide +kernel) (by decide +kernel)
/-- Below the bounds, `int` cuts off towards 0 and negative indices count from the end. -/
example : index small (-1 / 2, 0) = 0 ∧ place 4 (index small (-1, 0)) = .ok 3 := ⟨by decide +kernel, by decide +kernel⟩
example : sample small [[-1, -1 / 2], [0, 0], [0, 0], [-3, -2]] (.discrete 2) (-1, 0) = .ok (.inr 1) ∧ index small (-1, 0) = -((1 : Nat) : Int) :=
  ⟨by decide +kernel, by decide +kernel⟩
example : sample small [[-1, -1 / 2], [0, 0], [0, 0], [-3, -2]] (.discrete 1) (0, 0) = .ok (.inr 0) := by decide +kernel
/-- Four turns: the first action, which stays, and the second are tried in each place. -/
example : okAnd (episode small walk 9 (start small 0 [-1, -1, -1, -1])) (fun s => s.world = 2 ∧ s.seen = [2, 2, 0, 0]) = true := by decide +kernel
example : solve small walk 9 0 [-1, -1, -1, -1] (some [[0, 1]]) (some [[(0, 0)]]) 2 = .ok (some [[0, 1]]) := by decide +kernel
example : expectations small [[(0, 0), (1, 0)], [(0, 0), (0, 0)]] = .ok [3 / 2, 1 / 2, 0, 0] := by decide +kernel
example : gradient 1 [3 / 2, 0] [1, 2] [-1 / 4, -1] = [0, -3] := by decide +kernel
/-- Two epochs: the values learned in the second one are lost. -/
example : okAnd (train small walk 9 [1, 1, 0, 0] (start small 0 [-1, -1, -1, -1]) 2)
      (fun s => s.q = [[-7 / 8, -7 / 8], [-7 / 8, -3 / 4], [0, 0], [0, 0]] ∧ s.seen = [4, 4, 0, 0]) = true ∧
    solve small walk 9 0 [-1, -1, -1, -1] none (some [[(0, 0), (1, 0)]]) 2 =
      solve small walk 9 0 [-1, -1, -1, -1] none (some [[(0, 0), (1, 0)]]) 1 := ⟨by decide +kernel, by decide +kernel⟩
example : sample small [[-1, -1 / 2], [0, 0], [0, 0], [0, 0]] (.discrete 2) (1 / 2, 1 / 2) = .ok (.inr 1) := by decide +kernel
example : sample small [[-1, -1 / 2], [0, 0], [0, 0], [0, 0]] (.box [(some (-4), some 4)]) (1 / 2, 1 / 2) = .ok (.inl [4]) := by decide +kernel
/-- The weights move in epoch 1 when that is the first to learn. -/
example : okAnd (epoch { small with first := 1 } walk 9 [1, 1, 0, 0] 1 { start small 0 [-1, -1, -1, -1] with seen := [2, 2, 0, 1] })
    (fun s => s.theta = [-2, -2, -1, -2]) = true := by decide +kernel
example : Shape small (start small (0 : Nat) [-1, -1, -1, -1]) := start_shape rfl
example : (∃ s, train small walk 9 [1, 1, 0, 0] (start small 0 [-1, -1, -1, -1]) 3 = .ok s ∧ Shape small s) ∨
    train small walk 9 [1, 1, 0, 0] (start small 0 [-1, -1, -1, -1]) 3 = .error .runtimeError :=
  C190_safe small_good walk_within rfl rfl 3

end Verif.MaxEnt
