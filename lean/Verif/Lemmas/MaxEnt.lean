import Verif.Model.MaxEnt
import Verif.Lemmas.CgpSpace
import Verif.Props.SimpleGreedy
/- Lemmas on learning from an expert. -/
namespace Verif.MaxEnt
variable {W : Type}

theorem cell_eq {n i : Nat} {lo hi x : Rat} (hn : 0 < n) (h : lo < hi) (h1 : lo + i * ((hi - lo) / n) ≤ x)
    (h2 : x < lo + (i + 1) * ((hi - lo) / n)) : cell n lo hi x = i := by
  have hn' : (0 : Rat) < n := by exact_mod_cast hn
  have hw : 0 < (hi - lo) / n := div_pos (by linarith) hn'
  unfold cell trunc
  generalize (hi - lo) / (n : Rat) = w at *
  have hi0 : (0 : Rat) ≤ i := by exact_mod_cast Nat.zero_le i
  have a1 : (i : Rat) ≤ (x - lo) / w := by rw [le_div_iff₀ hw]; linarith
  have a2 : (x - lo) / w < i + 1 := by rw [div_lt_iff₀ hw]; linarith
  rw [if_pos (le_trans hi0 a1)]
  apply le_antisymm
  · have : ((x - lo) / w).floor < (i : Int) + 1 := by
      have := lt_of_le_of_lt (Rat.floor_le ((x - lo) / w)) a2
      exact_mod_cast this
    omega
  · exact Rat.le_floor_iff.2 (by exact_mod_cast a1)

/-- Every number between the bounds lies in one of the cells. -/
theorem cell_ex {n : Nat} {lo hi x : Rat} (hn : 0 < n) (h : lo < hi) (h1 : lo ≤ x) (h2 : x < hi) :
    ∃ i, i < n ∧ lo + i * ((hi - lo) / n) ≤ x ∧ x < lo + (i + 1) * ((hi - lo) / n) := by
  have hn' : (0 : Rat) < n := by exact_mod_cast hn
  have hw : 0 < (hi - lo) / n := div_pos (by linarith) hn'
  have hwn : n * ((hi - lo) / n) = hi - lo := by field_simp
  generalize (hi - lo) / (n : Rat) = w at *
  have hf0 : (0 : Int) ≤ ((x - lo) / w).floor := Rat.le_floor_iff.2 (by
    have : 0 ≤ (x - lo) / w := div_nonneg (by linarith) hw.le
    exact_mod_cast this)
  have hc : ((((x - lo) / w).floor.toNat : Nat) : Rat) = ((x - lo) / w).floor := by
    have : ((((x - lo) / w).floor.toNat : Int) : Rat) = (((x - lo) / w).floor : Rat) := by rw [Int.toNat_of_nonneg hf0]
    exact_mod_cast this
  have e1 := Rat.floor_le ((x - lo) / w)
  have e2 : (x - lo) / w < ((x - lo) / w).floor + 1 := by exact_mod_cast Rat.lt_floor_add_one ((x - lo) / w)
  rw [← hc] at e1 e2
  rw [le_div_iff₀ hw] at e1
  rw [div_lt_iff₀ hw] at e2
  refine ⟨((x - lo) / w).floor.toNat, ?_, by linarith, by linarith⟩
  by_contra hge
  have : (n : Rat) ≤ (((x - lo) / w).floor.toNat : Nat) := by exact_mod_cast Nat.le_of_not_lt hge
  have := mul_le_mul_of_nonneg_right this hw.le
  linarith

theorem place_nat {n i : Nat} (h : i < n) : place n i = .ok i := by
  unfold place
  rw [if_pos (by omega), if_pos (by omega)]
  simp

theorem place_lt {n : Nat} {i : Int} {k : Nat} (h : place n i = .ok k) : k < n := by
  unfold place at h
  split at h
  · split at h
    · have := Except.ok.inj h; omega
    · cases h
  · split at h
    · have := Except.ok.inj h; omega
    · cases h

theorem visit_inv {n : Nat} {i : Int} {v v' : List Rat} (h : visit n i v = .ok v') :
    ∃ k, place n i = .ok k ∧ v' = v.modify k (· + 1) := by
  unfold visit at h
  obtain ⟨k, h1, h2⟩ := bind_eq_ok.1 h
  exact ⟨k, h1, (Except.ok.inj h2).symm⟩

/-- Every position holds what it held and the number of visits. -/
theorem visits_spec {n : Nat} : ∀ (l : List Int) (v v' : List Rat), visits n l v = .ok v' →
    v'.length = v.length ∧ ∀ (k : Nat) (x : Rat), v[k]? = some x →
      v'[k]? = some (x + (l.countP (fun i => place n i == .ok k) : Nat)) := by
  intro l
  induction l with
  | nil =>
    intro v v' h
    have := Except.ok.inj h
    subst this
    exact ⟨rfl, by simp⟩
  | cons i l ih =>
    intro v v' h
    simp only [visits] at h
    obtain ⟨u, h1, h2⟩ := bind_eq_ok.1 h
    obtain ⟨p, hp, rfl⟩ := visit_inv h1
    obtain ⟨g1, g2⟩ := ih _ _ h2
    refine ⟨by rw [g1, List.length_modify], ?_⟩
    intro k x hx
    rw [List.countP_cons]
    by_cases hk : p = k
    · subst hk
      rw [g2 p (x + 1) (by rw [List.getElem?_modify_eq, hx]; rfl)]
      simp only [hp, beq_self_eq_true, if_true]
      push_cast
      rw [add_assoc, add_comm (1 : Rat)]
    · rw [g2 k x (by rw [List.getElem?_modify]; simp [hk, hx])]
      have : (place n i == .ok k) = false := by
        rw [hp]
        simp [hk]
      simp [this]

theorem visits_ok {n : Nat} : ∀ (l : List Int) (v : List Rat), (∀ i ∈ l, ∃ k, place n i = .ok k) → ∃ v', visits n l v = .ok v' := by
  intro l
  induction l with
  | nil => intro v _; exact ⟨v, rfl⟩
  | cons i l ih =>
    intro v h
    obtain ⟨k, hk⟩ := h i (by simp)
    simp only [visits, visit, hk, bind_ok]
    exact ih _ (fun j hj => h j (List.mem_cons_of_mem _ hj))

theorem foldl_max_mem (xs : List Rat) : ∀ x, xs.foldl max x ∈ x :: xs := by
  induction xs with
  | nil => intro x; simp
  | cons y ys ih =>
    intro x
    simp only [List.foldl_cons]
    have := ih (max x y)
    rcases List.mem_cons.1 this with h | h
    · rw [h]
      rcases max_choice x y with e | e <;> rw [e] <;> simp
    · simp [h]

theorem rowMax_mem {l : List Rat} {m : Rat} (h : rowMax l = .ok m) : m ∈ l := by
  cases l with
  | nil => cases h
  | cons x xs => have := Except.ok.inj h; subst this; exact foldl_max_mem xs x

theorem rowMax_ge {l : List Rat} {m : Rat} (h : rowMax l = .ok m) : ∀ x ∈ l, x ≤ m := by
  have key : ∀ (xs : List Rat) (y : Rat), y ≤ xs.foldl max y ∧ ∀ x ∈ xs, x ≤ xs.foldl max y := by
    intro xs
    induction xs with
    | nil => intro y; exact ⟨le_refl _, by simp⟩
    | cons z zs ih =>
      intro y
      simp only [List.foldl_cons]
      obtain ⟨h1, h2⟩ := ih (max y z)
      refine ⟨le_trans (le_max_left _ _) h1, ?_⟩
      intro x hx
      rcases List.mem_cons.1 hx with rfl | hx
      · exact le_trans (le_max_right _ _) h1
      · exact h2 x hx
  cases l with
  | nil => cases h
  | cons x xs =>
    have := Except.ok.inj h
    subst this
    intro y hy
    rcases List.mem_cons.1 hy with rfl | hy
    · exact (key xs y).1
    · exact (key xs x).2 y hy

theorem argmax_lt {l : List Rat} {a : Nat} (h : SimpleGreedy.argmax l = .ok a) :
    ∃ w, l[a]? = some w ∧ (∀ x ∈ l, x ≤ w) ∧ ∀ (k : Nat) (x : Rat), k < a → l[k]? = some x → x < w := by
  cases l with
  | nil => cases h
  | cons x xs =>
    have := Except.ok.inj h
    subst this
    have key := SimpleGreedy.argmaxFrom_spec xs [x] 0 x rfl (by simp) (by simp)
    exact key

/-- The table has a row for each state and a column for each action; weights and visits have an entry for each state. -/
structure Shape (c : Conf) (s : St W) : Prop where
  rows : s.q.length = c.states
  cols : ∀ row ∈ s.q, row.length = c.actions
  theta : s.theta.length = c.states
  seen : s.seen.length = c.states

theorem update_inv {c : Conf} {q q' : List (List Rat)} {k a k' : Nat} {r : Rat} (h : update c q k a r k' = .ok q') :
    ∃ row q1 next m, q[k]? = some row ∧ row[a]? = some q1 ∧ q[k']? = some next ∧ m ∈ next ∧
      q' = q.set k (row.set a (q1 + c.qRate * (r + c.gamma * m - q1))) := by
  unfold update at h
  obtain ⟨row, h1, h⟩ := bind_eq_ok.1 h
  obtain ⟨q1, h2, h⟩ := bind_eq_ok.1 h
  obtain ⟨next, h3, h⟩ := bind_eq_ok.1 h
  obtain ⟨m, h4, h⟩ := bind_eq_ok.1 h
  exact ⟨row, q1, next, m, pyGet_ok_iff.1 h1, pyGet_ok_iff.1 h2, pyGet_ok_iff.1 h3, rowMax_mem h4, (Except.ok.inj h).symm⟩

theorem turn_inv {c : Conf} {w : World W} {s s' : St W} (h : turn c w s = .ok s') :
    ∃ k row a reward k', place s.q.length (index c (w.obs s.world)) = .ok k ∧ s.q[k]? = some row ∧
      SimpleGreedy.argmax row = .ok a ∧ reward ∈ s.theta ∧ update c s.q k a reward k' = .ok s'.q ∧
      s'.theta = s.theta ∧ s'.saved = s.saved ∧ s'.world = w.step s.world a ∧
      visit c.states (index c (w.obs s.world)) s.seen = .ok s'.seen := by
  simp only [turn] at h
  obtain ⟨k, h1, h⟩ := bind_eq_ok.1 h
  obtain ⟨row, h2, h⟩ := bind_eq_ok.1 h
  obtain ⟨a, h3, h⟩ := bind_eq_ok.1 h
  obtain ⟨p, h4, h⟩ := bind_eq_ok.1 h
  obtain ⟨reward, h5, h⟩ := bind_eq_ok.1 h
  obtain ⟨k', h6, h⟩ := bind_eq_ok.1 h
  obtain ⟨q, h7, h⟩ := bind_eq_ok.1 h
  obtain ⟨seen, h8, h⟩ := bind_eq_ok.1 h
  have := Except.ok.inj h
  subst this
  exact ⟨k, row, a, reward, k', h1, pyGet_ok_iff.1 h2, h3, List.mem_of_getElem? (pyGet_ok_iff.1 h5), h7, rfl, rfl, rfl, h8⟩

theorem mem_set_cases {α : Type} {l : List α} {k : Nat} {x y : α} (h : y ∈ l.set k x) : y = x ∨ y ∈ l := by
  rcases List.mem_or_eq_of_mem_set h with h | h
  · exact .inr h
  · exact .inl h

/-- A turn keeps shapes, and any property of entries that the update rule keeps. -/
theorem turn_keeps {c : Conf} {w : World W} {P R : Rat → Prop}
    (hu : ∀ q1 m r, P q1 → P m → R r → P (q1 + c.qRate * (r + c.gamma * m - q1))) {s s' : St W} (h : turn c w s = .ok s')
    (hq : ∀ row ∈ s.q, ∀ v ∈ row, P v) (ht : ∀ t ∈ s.theta, R t) :
    (∀ row ∈ s'.q, ∀ v ∈ row, P v) ∧ s'.theta = s.theta ∧ (Shape c s → Shape c s') := by
  obtain ⟨k, row, a, reward, k', h1, h2, h3, h4, h5, h6, h7, h8, h9⟩ := turn_inv h
  obtain ⟨row', q1, next, m, u1, u2, u3, u4, u5⟩ := update_inv h5
  have hrow := List.mem_of_getElem? u1
  have hnew := hu q1 m reward (hq row' hrow q1 (List.mem_of_getElem? u2)) (hq next (List.mem_of_getElem? u3) m u4) (ht reward h4)
  refine ⟨?_, h6, ?_⟩
  · intro r hr v hv
    rw [u5] at hr
    rcases mem_set_cases hr with rfl | hr
    · rcases mem_set_cases hv with rfl | hv
      · exact hnew
      · exact hq row' hrow v hv
    · exact hq r hr v hv
  · intro hs
    obtain ⟨p, _, e⟩ := visit_inv h9
    refine ⟨by rw [u5, List.length_set, hs.rows], ?_, by rw [h6, hs.theta], by rw [e, List.length_modify, hs.seen]⟩
    intro r hr
    rw [u5] at hr
    rcases mem_set_cases hr with rfl | hr
    · rw [List.length_set]; exact hs.cols row' hrow
    · exact hs.cols r hr

theorem episode_keeps {c : Conf} {w : World W} {P R : Rat → Prop}
    (hu : ∀ q1 m r, P q1 → P m → R r → P (q1 + c.qRate * (r + c.gamma * m - q1))) : ∀ (fuel : Nat) {s s' : St W},
    episode c w fuel s = .ok s' → (∀ row ∈ s.q, ∀ v ∈ row, P v) → (∀ t ∈ s.theta, R t) →
    (∀ row ∈ s'.q, ∀ v ∈ row, P v) ∧ s'.theta = s.theta ∧ (Shape c s → Shape c s') := by
  intro fuel
  induction fuel with
  | zero => intro s s' h; cases h
  | succ fuel ih =>
    intro s s' h hq ht
    simp only [episode] at h
    obtain ⟨t, h1, h2⟩ := bind_eq_ok.1 h
    obtain ⟨a1, a2, a3⟩ := turn_keeps hu h1 hq ht
    split at h2
    · have := Except.ok.inj h2
      subst this
      exact ⟨a1, a2, a3⟩
    · obtain ⟨b1, b2, b3⟩ := ih h2 a1 (by rw [a2]; exact ht)
      exact ⟨b1, b2.trans a2, fun hs => b3 (a3 hs)⟩

theorem gradient_get {rate : Rat} {expert learner theta : List Rat} {j : Nat} {e l t : Rat} (h1 : expert[j]? = some e)
    (h2 : learner[j]? = some l) (h3 : theta[j]? = some t) :
    (gradient rate expert learner theta)[j]? = some (min 0 (t + rate * (e - l))) := by
  unfold gradient
  rw [List.getElem?_map, show (theta.zip (expert.zip learner))[j]? = some (t, e, l) from
    List.getElem?_zip_eq_some.2 ⟨h3, List.getElem?_zip_eq_some.2 ⟨h1, h2⟩⟩]
  simp only [Option.map_some]
  congr 1
  split
  · rename_i h; rw [min_eq_left (le_of_lt h)]
  · rename_i h; rw [min_eq_right (not_lt.1 h)]

theorem gradient_nonpos {rate : Rat} {expert learner theta : List Rat} : ∀ x ∈ gradient rate expert learner theta, x ≤ 0 := by
  intro x hx
  unfold gradient at hx
  obtain ⟨y, _, rfl⟩ := List.mem_map.1 hx
  simp only
  split
  · exact le_refl _
  · rename_i h; exact not_lt.1 h

/-- An epoch in two steps: the weights, then the episode. -/
theorem epoch_inv {c : Conf} {w : World W} {fuel : Nat} {expert : List Rat} {k : Nat} {s s' : St W}
    (h : epoch c w fuel expert k s = .ok s') :
    ∃ t u : St W, t.q = s.q ∧ t.seen = s.seen ∧ t.saved = s.saved ∧
      t.theta = (if learns c k then gradient c.thetaRate expert (s.seen.map (· / (k : Rat))) s.theta else s.theta) ∧
      episode c w fuel t = .ok u ∧ s'.q = u.q ∧ s'.theta = u.theta ∧ s'.seen = u.seen ∧
      s'.saved = (if k % c.save = 0 then some u.q else u.saved) := by
  simp only [epoch] at h
  obtain ⟨u, h1, h2⟩ := bind_eq_ok.1 h
  refine ⟨_, u, ?_, ?_, ?_, ?_, h1, ?_⟩
  · split <;> rfl
  · split <;> rfl
  · split <;> rfl
  · split <;> rfl
  · split at h2
    · rename_i hk; have := Except.ok.inj h2; subst this; simp [hk]
    · rename_i hk; have := Except.ok.inj h2; subst this; simp [hk]

theorem episode_saved {c : Conf} {w : World W} : ∀ (fuel : Nat) {s s' : St W}, episode c w fuel s = .ok s' → s'.saved = s.saved := by
  intro fuel
  induction fuel with
  | zero => intro s s' h; cases h
  | succ fuel ih =>
    intro s s' h
    simp only [episode] at h
    obtain ⟨t, h1, h2⟩ := bind_eq_ok.1 h
    obtain ⟨_, _, _, _, _, _, _, _, _, _, _, a, _⟩ := turn_inv h1
    split at h2
    · have := Except.ok.inj h2; subst this; exact a
    · exact (ih h2).trans a

/-- Training keeps what its parts keep. -/
theorem train_keeps {c : Conf} {w : World W} {fuel : Nat} {expert : List Rat} {P R : Rat → Prop}
    (hu : ∀ q1 m r, P q1 → P m → R r → P (q1 + c.qRate * (r + c.gamma * m - q1)))
    {s : St W} (hq : ∀ row ∈ s.q, ∀ v ∈ row, P v) (ht : ∀ t ∈ s.theta, R t) : ∀ (n : Nat) {s' : St W},
    (∀ k < n, learns c k → ∀ x, x ≤ 0 → R x) →
    train c w fuel expert s n = .ok s' →
    (∀ row ∈ s'.q, ∀ v ∈ row, P v) ∧ (∀ t ∈ s'.theta, R t) ∧ (Shape c s → expert.length = c.states → Shape c s') := by
  intro n
  induction n with
  | zero =>
    intro s' _ h
    have := Except.ok.inj h
    subst this
    exact ⟨hq, ht, fun hs _ => hs⟩
  | succ n ih =>
    intro s' hR h
    simp only [train] at h
    obtain ⟨m, h1, h2⟩ := bind_eq_ok.1 h
    obtain ⟨a1, a2, a3⟩ := ih (fun k hk => hR k (by omega)) h1
    obtain ⟨t, u, e1, e2, e3, e4, e5, e6, e7, e8, e9⟩ := epoch_inv h2
    have htt : ∀ x ∈ t.theta, R x := by
      intro x hx
      rw [e4] at hx
      split at hx
      · rename_i hl; exact hR n (by omega) hl x (gradient_nonpos x hx)
      · exact a2 x hx
    obtain ⟨b1, b2, b3⟩ := episode_keeps hu fuel e5 (by rw [e1]; exact a1) htt
    refine ⟨by rw [e6]; exact b1, by rw [e7, b2]; exact htt, ?_⟩
    intro hs he
    have hm := a3 hs he
    have hsht : Shape c t := by
      refine ⟨by rw [e1, hm.rows], by rw [e1]; exact hm.cols, ?_, by rw [e2, hm.seen]⟩
      rw [e4]
      split
      · simp [gradient, he, hm.seen, hm.theta]
      · exact hm.theta
    have := b3 hsht
    exact ⟨by rw [e6, this.rows], by rw [e6]; exact this.cols, by rw [e7, this.theta], by rw [e8, this.seen]⟩

theorem zeros_mem {c : Conf} : ∀ row ∈ zeros c, ∀ v ∈ row, v = 0 := by
  intro row hr v hv
  rw [(List.mem_replicate.1 hr).2] at hv
  exact (List.mem_replicate.1 hv).2

theorem start_shape {c : Conf} {world : W} {theta : List Rat} (h : theta.length = c.states) : Shape c (start c world theta) := by
  refine ⟨by simp [start, zeros], ?_, h, by simp [start]⟩
  intro row hr
  rw [(List.mem_replicate.1 hr).2, List.length_replicate]

/-- The number of epochs up to and including the last that is saved. -/
def upTo (save n : Nat) : Nat := save * ((n - 1) / save) + 1

theorem train_saved {c : Conf} {w : World W} {fuel : Nat} {expert : List Rat} {s : St W} : ∀ (n : Nat) {s' : St W},
    train c w fuel expert s (n + 1) = .ok s' →
    ∃ t, train c w fuel expert s (upTo c.save (n + 1)) = .ok t ∧ s'.saved = some t.q := by
  intro n
  induction n with
  | zero =>
    intro s' h
    refine ⟨s', by simpa [upTo] using h, ?_⟩
    simp only [train] at h
    obtain ⟨m, h1, h2⟩ := bind_eq_ok.1 h
    obtain ⟨t, u, _, _, _, _, _, e6, _, _, e9⟩ := epoch_inv h2
    rw [e9, if_pos (Nat.zero_mod _), e6]
  | succ n ih =>
    intro s' h
    have h0 := h
    rw [train] at h
    obtain ⟨m, h1, h2⟩ := bind_eq_ok.1 h
    obtain ⟨t, u, _, _, e3, _, e5, e6, _, _, e9⟩ := epoch_inv h2
    by_cases hd : (n + 1) % c.save = 0
    · refine ⟨s', ?_, by rw [e9, if_pos hd, e6]⟩
      have : upTo c.save (n + 1 + 1) = n + 1 + 1 := by
        unfold upTo
        rw [Nat.add_sub_cancel, Nat.mul_div_cancel' (Nat.dvd_of_mod_eq_zero hd)]
      rw [this]; exact h0
    · obtain ⟨t', g1, g2⟩ := ih h1
      refine ⟨t', ?_, by rw [e9, if_neg hd, episode_saved fuel e5, e3, g2]⟩
      have : upTo c.save (n + 1 + 1) = upTo c.save (n + 1) := by
        unfold upTo
        rw [Nat.add_sub_cancel, Nat.add_sub_cancel, Nat.succ_div, if_neg (fun hh => hd (Nat.mod_eq_zero_of_dvd hh))]
        simp
      rw [this]; exact g1

theorem learns_lt {c : Conf} {k : Nat} (h : k < c.first) : learns c k = false := by
  simp only [learns]
  have h1 : (k == c.first) = false := by simp; omega
  have h2 : decide (c.first < k) = false := by simp; omega
  simp [h1, h2]

end Verif.MaxEnt
