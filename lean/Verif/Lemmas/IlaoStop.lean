import Verif.Lemmas.IlaoRun

/-! The label of the root when `epsilon` is not positive. -/
namespace Verif.Ilao
variable [DecidableEq σ] {m : Mdp σ α} {c : Config σ}

/-- The root is not solved; times and residuals are not negative. -/
structure Calm (root : σ) (g : Graph σ α) : Prop where
  contains : g.contains root = true
  solved : (node g root).solved = false
  fpt : ∀ s, 0 ≤ (node g s).fpt
  residual : ∀ s r, (node g s).residual = some r → 0 ≤ r

theorem Calm.set {root : σ} {g : Graph σ α} (h : Calm root g) (s : σ) (n : Node α) (h1 : s = root → n.solved = false) (h2 : 0 ≤ n.fpt)
    (h3 : ∀ r, n.residual = some r → 0 ≤ r) : Calm root (g.set s n) where
  contains := by rw [contains_set, h.contains]; simp
  solved := by
    rw [node_set]
    split
    · rename_i e; exact h1 e.symm
    · exact h.solved
  fpt := fun t => by
    rw [node_set]
    split
    · exact h2
    · exact h.fpt t
  residual := fun t r => by
    rw [node_set]
    split
    · exact h3 r
    · exact h.residual t r

theorem Calm.keep {root : σ} {g : Graph σ α} (h : Calm root g) (s : σ) (n : Node α) (h1 : n.solved = (node g s).solved) (h2 : n.fpt = (node g s).fpt)
    (h3 : n.residual = (node g s).residual) : Calm root (g.set s n) :=
  h.set s n (fun e => by rw [h1, e]; exact h.solved) (by rw [h2]; exact h.fpt s) (by rw [h3]; exact h.residual s)

theorem distance_nonneg (x y : Option Rat) (r : Rat) (h : distance x y = some r) : 0 ≤ r := by
  cases x <;> cases y <;> simp only [distance] at h
  · cases h; exact le_refl _
  · cases h
  · cases h
  · cases h
    split <;> linarith

theorem addNode_calm {root : σ} {g : Graph σ α} (h : Calm root g) (s : σ) : Calm root (addNode m c g s) := by
  rw [addNode]
  split
  · exact h
  · rename_i hc
    have hne : s ≠ root := fun e => hc (by rw [e]; exact h.contains)
    split
    · exact h.set s _ (fun e => absurd e hne) (le_refl _) (by simp)
    · exact h.set s _ (fun e => absurd e hne) (le_refl _) (by simp)

theorem foldl_calm {β : Type} {root : σ} (f : Graph σ α → β → Graph σ α) (hf : ∀ g x, Calm root g → Calm root (f g x)) (l : List β) (g : Graph σ α)
    (h : Calm root g) : Calm root (l.foldl f g) := by
  induction l generalizing g with
  | nil => exact h
  | cons x l ih => exact ih _ (hf g x h)

theorem expand_calm {root : σ} {g : Graph σ α} (h : Calm root g) (s : σ) : Calm root (expand m c g s) := by
  rw [expand]
  have := foldl_calm (fun g a => (m.outcomes s a).foldl (fun g o => addNode m c g o.2.2) g)
    (fun g a hg => foldl_calm (fun g (o : Rat × Rat × σ) => addNode m c g o.2.2) (fun g o hg => addNode_calm hg _) _ _ hg) (m.actions s) g h
  exact this.keep s _ rfl rfl rfl

theorem update_calm {root : σ} {g : Graph σ α} (h : Calm root g) (s : σ) : Calm root (update m c g s) := by
  rw [update]
  exact h.set s _ (fun e => by rw [e]; exact h.solved) (h.fpt s) (fun r => distance_nonneg _ _ r)

theorem dfs_calm {root : σ} (n : Nat) (op visited : List σ) (g : Graph σ α) (h : Calm root g) :
    Good False (Calm root) (dfs m c root n op visited g) := by
  induction n generalizing op visited g with
  | zero =>
    cases op with
    | nil => exact h
    | cons x op => trivial
  | succ n ih =>
    cases op with
    | nil => rw [dfs]; exact h
    | cons cs rest =>
      rw [dfs]
      split
      · exact ih _ _ _ h
      · split
        · exact ih _ _ _ (h.keep _ _ rfl rfl rfl)
        · split
          · exact ih _ _ _ (update_calm (expand_calm (h.keep root { node g root with reach := true } rfl rfl rfl) _) _)
          · split
            · exact ih _ _ _ (update_calm h _)
            · split
              · exact fun h => h
              · exact ih _ _ _ h

theorem dfsAll_calm {root : σ} (inner n : Nat) (g : Graph σ α) (h : Calm root g) : Good False (Calm root) (dfsAll m c root inner n g) := by
  induction n generalizing g with
  | zero =>
    rw [dfsAll]
    split
    · trivial
    · exact h
  | succ n ih =>
    rw [dfsAll]
    split
    · exact (dfs_calm inner [root] [] _ (h.keep root { node g root with reach := false } rfl rfl rfl)).bind fun g' hg' => ih g' hg'
    · exact h

theorem visit_calm {root : σ} {r : Graph σ α × List σ × List σ} (h : Calm root r.1) (t : σ) : Calm root (visit m r t).1 := by
  obtain ⟨g, best, nf⟩ := r
  rw [visit]
  simp only
  split
  · exact h.keep _ _ rfl rfl rfl
  · split
    · exact h.keep _ _ rfl rfl rfl
    · split
      · exact h
      · exact h.keep _ _ rfl rfl rfl

theorem bestGraph_calm {root : σ} (n : Nat) (fr best : List σ) (g : Graph σ α) (h : Calm root g) :
    Good False (fun r => Calm root r.1) (bestGraph m c n fr best g) := by
  induction n generalizing fr best g with
  | zero =>
    cases fr with
    | nil => exact h
    | cons f fr => trivial
  | succ n ih =>
    cases fr with
    | nil => rw [bestGraph]; exact h
    | cons f fr =>
      rw [bestGraph]
      refine ih _ _ _ ?_
      have one : ∀ (l : List σ) (r : Graph σ α × List σ × List σ), Calm root r.1 → Calm root (l.foldl (visit m) r).1 := by
        intro l
        induction l with
        | nil => intro r h; exact h
        | cons t l ih => intro r h; exact ih _ (visit_calm h t)
      have two : ∀ (l : List σ) (r : Graph σ α × List σ × List σ), Calm root r.1 → Calm root (l.foldl (frontier m) r).1 := by
        intro l
        induction l with
        | nil => intro r h; exact h
        | cons t l ih =>
          intro r h
          refine ih _ ?_
          rw [frontier]
          split
          · exact h
          · exact one _ r h
      exact two _ _ h

theorem valueIteration_calm {root : σ} (l : List σ) (n : Nat) (g : Graph σ α) (h : Calm root g) : Good False (Calm root) (valueIteration m c l n g) := by
  induction n generalizing g with
  | zero => trivial
  | succ n ih =>
    rw [valueIteration]
    have key : ∀ (l : List σ) (r : Graph σ α × Option Rat), Calm root r.1 →
        Calm root (l.foldl (fun r s => let g := update m c r.1 s; (g, larger r.2 (node g s).residual)) r).1 := by
      intro l
      induction l with
      | nil => intro r h; exact h
      | cons t l ih => intro r h; exact ih _ (update_calm h t)
    have := key l (g, some 0) h
    split
    · exact ih _ this
    · exact this

theorem reachability_calm {root : σ} (l : List σ) (n : Nat) (g : Graph σ α) (h : Calm root g) : Good False (Calm root) (reachability m l n g) := by
  have one : ∀ (l : List σ) (g : Graph σ α) (b : Bool), Calm root g → Good False (fun r => Calm root r.1) (reachSweep m l g b) := by
    intro l
    induction l with
    | nil => intro g b h; exact h
    | cons s l ih =>
      intro g b h
      rw [reachSweep]
      refine Good.bind (P := fun r => Calm root r.1) ?_ fun r hr => ih _ _ hr
      rw [updateReach]
      split
      · exact fun h => h
      · exact h.keep _ _ rfl rfl rfl
  induction n generalizing g with
  | zero => trivial
  | succ n ih =>
    rw [reachability]
    refine (one l g false h).bind fun r hr => ?_
    obtain ⟨g1, ch⟩ := r
    simp only at hr ⊢
    by_cases hch : ch = true
    · rw [if_pos hch]; exact ih _ hr
    · rw [if_neg hch]; exact hr

theorem passageTimes_calm (hp : ∀ s a, ∀ o ∈ m.outcomes s a, 0 ≤ o.1) {root : σ} (l : List σ) (n : Nat) (g : Graph σ α) (h : Calm root g) :
    Good False (Calm root) (passageTimes m c l n g) := by
  have one : ∀ (l : List σ) (g : Graph σ α) (d : Rat), Calm root g → Good False (fun r => Calm root r.1) (fptSweep m l g d) := by
    intro l
    induction l with
    | nil => intro g b h; exact h
    | cons s l ih =>
      intro g b h
      rw [fptSweep]
      refine Good.bind (P := fun r => Calm root r.1) ?_ fun r hr => ih _ _ hr
      rw [updateFpt]
      split
      · exact fun h => h
      · rename_i a _
        refine h.set _ _ (fun e => by rw [e]; exact h.solved) (Mdp.sum_nonneg _ fun o ho => ?_) (h.residual s)
        exact mul_nonneg (hp s a o ho) (by linarith [h.fpt o.2.2])
  induction n generalizing g with
  | zero => trivial
  | succ n ih =>
    rw [passageTimes]
    refine (one l g 0 h).bind fun r hr => ?_
    obtain ⟨g1, d⟩ := r
    simp only at hr ⊢
    by_cases hd : c.epsilon < d
    · rw [if_pos hd]; exact ih _ hr
    · rw [if_neg hd]; exact hr

theorem round_calm (hp : ∀ s a, ∀ o ∈ m.outcomes s a, 0 ≤ o.1) (he : c.epsilon ≤ 0) {root : σ} (fuel : Nat) (g : Graph σ α) (h : Calm root g) :
    Good False (Calm root) (round m c fuel root g) := by
  rw [round]
  refine (dfsAll_calm fuel fuel g h).bind fun g1 h1 => ?_
  refine (bestGraph_calm fuel [root] [root] g1 h1).bind fun r2 h2 => ?_
  obtain ⟨g2, b2⟩ := r2
  refine (valueIteration_calm (c.arrange b2) fuel g2 h2).bind fun g3 h3 => ?_
  refine (bestGraph_calm fuel [root] [root] g3 h3).bind fun r4 h4 => ?_
  obtain ⟨g4, b4⟩ := r4
  refine (reachability_calm (c.arrange b4) fuel g4 h4).bind fun g5 h5 => ?_
  refine (passageTimes_calm hp (c.arrange b4) fuel g5 h5).bind fun g6 h6 => ?_
  show Calm root (solvedBits c (c.arrange b4) g6)
  rw [solvedBits]
  refine foldl_calm _ (fun g s hg => ?_) (c.arrange b4) g6 h6
  refine hg.set _ _ (fun _ => ?_) (hg.fpt s) (hg.residual s)
  simp only
  cases hr : (node g s).residual with
  | none => simp
  | some r =>
    have := mul_nonneg (hg.fpt s) (hg.residual s r hr)
    have hx : ¬ (node g s).fpt * r < c.epsilon := by linarith
    simp [hx]

theorem rounds_calm (hp : ∀ s a, ∀ o ∈ m.outcomes s a, 0 ≤ o.1) (he : c.epsilon ≤ 0) {root : σ} (fuel n : Nat) (g : Graph σ α) (h : Calm root g) :
    Good False (fun _ => False) (rounds m c fuel root n g) := by
  induction n generalizing g with
  | zero =>
    rw [rounds, if_neg (by rw [h.solved]; simp)]
    trivial
  | succ n ih =>
    rw [rounds, if_neg (by rw [h.solved]; simp)]
    exact (round_calm hp he fuel g h).bind fun g1 h1 => ih g1 h1

end Verif.Ilao
