import Verif.Lemmas.IlaoStop

/-!
C80: the C++ ILAO* solver never overestimates, if its heuristic does not.
C81: what holds of the answer when `solve` returns, and that near-optimality and even a complete
policy are not among it.
C82: exceptions and calls that never return.
-/
namespace Verif.Ilao
variable [DecidableEq σ] {m : Mdp σ α} {c : Config σ} {U : σ → Option Rat}

/-- Successive calls of `solve` on one solver; the first call that does not return ends it. -/
def session (m : Mdp σ α) (c : Config σ) (fuel : Nat) (starts : List σ) : Except Stop (Graph σ α) :=
  starts.foldlM (solve m c fuel) []

theorem start_inv (hU : CostBound m c U) {g : Graph σ α} (h : Inv m c U g) {s : σ} (hs : m.goal s = false) :
    Inv m c U (if g.contains s then g else g.set s { value := some (c.h s) }) := by
  have := addNode_inv hU h s
  rw [addNode, hs] at this
  simpa using this

theorem start_contains (g : Graph σ α) (s : σ) (n : Node α) : Dict.contains (if g.contains s then g else g.set s n) s = true := by
  split
  · assumption
  · rw [contains_set]; simp

theorem solve_good (hU : CostBound m c U) (he : 0 ≤ c.epsilon) (harr : ∀ l, (c.arrange l).Perm l) (fuel : Nat) {g : Graph σ α} (h : Inv m c U g) {s : σ}
    (hs : m.goal s = false) :
    Good (NoDeadEnd m) (fun g' => Inv m c U g' ∧ g'.contains s = true ∧ (node g' s).solved = true ∧
      ((node g s).solved = false → NoDeadEnd m → Settled m c s g')) (solve m c fuel g s) := by
  have h0 := start_inv hU h hs
  have hc := start_contains g s { value := some (c.h s) }
  have hsv : (node (if g.contains s then g else g.set s { value := some (c.h s) }) s).solved = (node g s).solved := by
    split
    · rfl
    · rename_i hn
      rw [node_set, if_pos rfl, node_not_contains (by simpa using hn)]
  rw [solve]
  generalize (if g.contains s then g else g.set s { value := some (c.h s) }) = g0 at h0 hc hsv ⊢
  simp only [hs, Bool.or_false]
  split
  · rename_i hx
    exact ⟨h0, hc, hx, fun hy => by rw [← hsv, hx] at hy; cases hy⟩
  · rename_i hx
    exact (rounds_good hU he harr hs fuel fuel g0 h0 hc (fun hy => absurd hy hx)).mono fun g' hg' => ⟨hg'.1, hg'.2.1 _ hc, hg'.2.2.1, fun _ => hg'.2.2.2⟩

theorem inv_nil : Inv m c U ([] : Graph σ α) where
  goal := by intro s h; cases h
  nogoal := by intro s h; cases h
  exp := by intro s h; cases h
  best := by intro s a h; cases h
  tip := fun _ _ _ => ⟨rfl, rfl⟩
  below := by intro s h; cases h
  live := by intro _ s h; cases h

theorem session_good (hU : CostBound m c U) (he : 0 ≤ c.epsilon) (harr : ∀ l, (c.arrange l).Perm l) (fuel : Nat) (starts : List σ)
    (hs : ∀ s ∈ starts, m.goal s = false) : Good (NoDeadEnd m) (Inv m c U) (session m c fuel starts) := by
  have key : ∀ (l : List σ), (∀ s ∈ l, m.goal s = false) → ∀ g, Inv m c U g → Good (NoDeadEnd m) (Inv m c U) (l.foldlM (solve m c fuel) g) := by
    intro l
    induction l with
    | nil => intro _ g h; exact h
    | cons s l ih =>
      intro hl g h
      rw [List.foldlM_cons]
      exact (solve_good hU he harr fuel h (hl s (by simp))).bind fun g' hg' => ih (fun t ht => hl t (List.mem_cons_of_mem _ ht)) g' hg'.1
  exact key starts hs [] inv_nil

/-! ### C80 -/

/-- C80: let `U` be any costs, possibly infinite, of which each is at least the heuristic and at least
what some applicable action costs in terms of `U` — such as the costs of a policy, or the least ones.  After
any calls of `solve`, from states that are no goals, no reported value is above `U`. -/
theorem C80_lower_bound (hU : CostBound m c U) (he : 0 ≤ c.epsilon) (harr : ∀ l, (c.arrange l).Perm l) (fuel : Nat) (starts : List σ)
    (hs : ∀ s ∈ starts, m.goal s = false) {g : Graph σ α} (hg : session m c fuel starts = .ok g) (s : σ) (v : Option Rat) (hv : bestValue g s = .ok v) :
    Below v (U s) := by
  have h := session_good hU he harr fuel starts hs
  rw [hg] at h
  rw [bestValue] at hv
  cases hn : g.get? s with
  | none => rw [hn] at hv; cases hv
  | some n =>
    rw [hn] at hv
    cases hv
    have hc : g.contains s = true := by rw [Dict.contains_eq, hn]; rfl
    have := h.below s hc
    rwa [node, hn] at this

/-- C80: and the goals met on the way have the value 0 and no action. -/
theorem C80_goals (hU : CostBound m c U) (he : 0 ≤ c.epsilon) (harr : ∀ l, (c.arrange l).Perm l) (fuel : Nat) (starts : List σ)
    (hs : ∀ s ∈ starts, m.goal s = false) {g : Graph σ α} (hg : session m c fuel starts = .ok g) (s : σ) (hgoal : m.goal s = true) :
    bestAction g s = .error .runtimeError ∧ isSolutionDefined g s = false ∧ ∀ v, bestValue g s = .ok v → v = some 0 := by
  have h := session_good hU he harr fuel starts hs
  rw [hg] at h
  rw [bestAction, isSolutionDefined, bestValue]
  cases hn : g.get? s with
  | none => exact ⟨rfl, rfl, fun v hv => by cases hv⟩
  | some n =>
    have hc : g.contains s = true := by rw [Dict.contains_eq, hn]; rfl
    have h1 := (h.goal s hc hgoal).2.2
    have h2 : (node g s).best = none := by
      cases hb : (node g s).best with
      | none => rfl
      | some a => have := (h.exp s (h.best s a hb).1).2.1; rw [hgoal] at this; cases this
    rw [node, hn] at h1 h2
    simp only [Option.getD_some] at h1 h2
    refine ⟨by simp only [h2], by simp [h2], fun v hv => ?_⟩
    cases hv
    exact h1

/-- C80: the actions told are applicable. -/
theorem C80_applicable (hU : CostBound m c U) (he : 0 ≤ c.epsilon) (harr : ∀ l, (c.arrange l).Perm l) (fuel : Nat) (starts : List σ)
    (hs : ∀ s ∈ starts, m.goal s = false) {g : Graph σ α} (hg : session m c fuel starts = .ok g) (s : σ) (a : α) (ha : bestAction g s = .ok a) :
    a ∈ m.actions s ∧ m.goal s = false := by
  have h := session_good hU he harr fuel starts hs
  rw [hg] at h
  rw [bestAction] at ha
  cases hn : g.get? s with
  | none => rw [hn] at ha; cases ha
  | some n =>
    rw [hn] at ha
    simp only at ha
    cases hb : n.best with
    | none => rw [hb] at ha; cases ha
    | some b =>
      rw [hb] at ha
      cases ha
      have hb' : (node g s).best = some a := by rw [node, hn]; exact hb
      exact ⟨(h.best s a hb').2, (h.exp s (h.best s a hb').1).2.1⟩

/-- 0 chooses between 1 and 2, which both come to the goal 3 in the end: 2 after 2 tries, 1 after 10
cheaper ones. -/
def slow : Mdp Nat Nat where
  actions s := if s = 0 then [1, 2] else if s = 3 then [] else [0]
  outcomes s a := if s = 0 then [(1, 1, a)] else if s = 1 then [(9/10, 4/5, 1), (1/10, 4/5, 3)] else [(1/2, 1, 2), (1/2, 1, 3)]
  goal s := s == 3

def slowConfig : Config Nat := { h := fun _ => 0, epsilon := 1/4, arrange := List.reverse }

/-- The least costs. -/
def slowCost (s : Nat) : Option Rat := if s = 0 then some 3 else if s = 1 then some 8 else if s = 3 then some 0 else some 2

theorem slow_bound : CostBound slow slowConfig slowCost where
  prob := by
    intro s a _ o ho
    simp only [slow] at ho
    split at ho
    · simp at ho; subst ho; exact zero_le_one
    · split at ho
      · simp at ho; rcases ho with rfl | rfl <;> decide +kernel
      · simp at ho; rcases ho with rfl | rfl <;> decide +kernel
  discount := by decide +kernel
  goal := by
    intro s hs
    have : s = 3 := by simpa [slow] using hs
    subst this
    exact le_refl (0 : Rat)
  heuristic := by
    intro s _
    rw [slowCost]
    show Below (some 0) _
    split
    · show (0 : Rat) ≤ 3; decide +kernel
    · split
      · show (0 : Rat) ≤ 8; decide +kernel
      · split
        · exact le_refl (0 : Rat)
        · show (0 : Rat) ≤ 2; decide +kernel
  action := by
    intro s u hg hu
    by_cases h0 : s = 0
    · subst h0; cases hu; exact ⟨2, by decide, 3, by decide +kernel, by decide +kernel⟩
    · by_cases h1 : s = 1
      · subst h1; cases hu; exact ⟨0, by decide, 8, by decide +kernel, by decide +kernel⟩
      · have h3 : s ≠ 3 := by rintro rfl; cases hg
        rw [slowCost, if_neg h0, if_neg h1, if_neg h3] at hu
        cases hu
        refine ⟨0, by simp [slow, h0, h3], 2, ?_, by decide +kernel⟩
        rw [meanInf]
        simp only [slow, if_neg h0, if_neg h1]
        decide +kernel

example : (session slow slowConfig 50 [0]).toOption.map (fun g => (bestValue g 0, bestValue g 1, bestValue g 3)) =
    some (.ok (some (63/25)), .ok (some (38/25)), .ok (some 0)) := by decide +kernel

/-- A goal 1 that may be left for another goal 2 at the cost of 5. -/
def past : Mdp Nat Nat where
  actions s := if s = 2 then [] else [0]
  outcomes s _ := if s = 0 then [(1, 1, 1)] else [(1, 5, 2)]
  goal s := s == 1 || s == 2

/-- C80, negated for calls from a goal: such a call does nothing but make the goal an ordinary state, and
a later call overestimates what leads there: 6 instead of 1. -/
theorem C80_goal_first_refuted :
    (session past { h := fun _ => 0 } 60 [1, 0]).toOption.map (fun g => (bestValue g 0, bestValue g 1)) = some (.ok (some 6), .ok (some 5)) ∧
    (session past { h := fun _ => 0 } 60 [0, 1]).toOption.map (fun g => (bestValue g 0, bestValue g 1)) = some (.ok (some 1), .ok (some 0)) := by
  decide +kernel

/-! ### C81 -/

omit [DecidableEq σ] in
theorem q_near {V W : σ → Rat} {d e : Rat} (hd : 0 ≤ d) (s : σ) (a : α) (hp : ∀ o ∈ m.outcomes s a, 0 ≤ o.1) (h1 : ((m.outcomes s a).map fun o => o.1).sum = 1)
    (h : ∀ y, |W y - V y| ≤ e) : |m.q d W s a - m.q d V s a| ≤ d * e := by
  have key : ∀ l : List (Rat × Rat × σ), (∀ o ∈ l, 0 ≤ o.1) →
      |(l.map fun o => o.1 * (o.2.1 + d * W o.2.2)).sum - (l.map fun o => o.1 * (o.2.1 + d * V o.2.2)).sum| ≤ (l.map fun o => o.1).sum * (d * e) := by
    intro l
    induction l with
    | nil => intro _; simp
    | cons o l ih =>
      intro hl
      simp only [List.map_cons, List.sum_cons]
      have i1 := ih fun x hx => hl x (List.mem_cons_of_mem _ hx)
      have i2 : |o.1 * (o.2.1 + d * W o.2.2) - o.1 * (o.2.1 + d * V o.2.2)| ≤ o.1 * (d * e) := by
        have : o.1 * (o.2.1 + d * W o.2.2) - o.1 * (o.2.1 + d * V o.2.2) = o.1 * (d * (W o.2.2 - V o.2.2)) := by ring
        rw [this, abs_mul, abs_mul, abs_of_nonneg (hl o (by simp)), abs_of_nonneg hd]
        exact mul_le_mul_of_nonneg_left (mul_le_mul_of_nonneg_left (h _) hd) (hl o (by simp))
      rw [abs_le] at i1 i2 ⊢
      constructor <;> nlinarith [i1.1, i1.2, i2.1, i2.2]
  have := key (m.outcomes s a) hp
  rw [h1, one_mul] at this
  exact this

/-- C81: if no state is a dead end, then when `solve` returns from a state that is no goal and was not
labelled before, that state has an applicable action; its value is within `discount * epsilon` of what
this action costs in terms of the values reported, and at most that much above what any other costs.
Moreover there are states, it among them, that all have an action, and these actions lead only to these
states, to goals, or to states that are labelled solved and have an action too. -/
theorem C81_returns_partial (hU : CostBound m c U) (hL : NoDeadEnd m) (h1 : ∀ s, ∀ a ∈ m.actions s, ((m.outcomes s a).map fun o => o.1).sum = 1)
    (he : 0 ≤ c.epsilon) (harr : ∀ l, (c.arrange l).Perm l) (fuel : Nat) (starts : List σ)
    (hs : ∀ s ∈ starts, m.goal s = false) {g g' : Graph σ α} (hg : session m c fuel starts = .ok g) {s : σ} (hng : m.goal s = false)
    (hsol : (node g s).solved = false) (hg' : solve m c fuel g s = .ok g') :
    ∃ a v, bestAction g' s = .ok a ∧ a ∈ m.actions s ∧ bestValue g' s = .ok (some v) ∧
      |v - m.q c.discount (val g') s a| ≤ c.discount * c.epsilon ∧
      (∀ b ∈ m.actions s, v ≤ m.q c.discount (val g') s b + c.discount * c.epsilon) ∧
      ∃ B : List σ, s ∈ B ∧ ∀ x ∈ B, m.goal x = false ∧ ∃ b, bestAction g' x = .ok b ∧ ∀ o ∈ m.outcomes x b,
        o.2.2 ∈ B ∨ m.goal o.2.2 = true ∨ ((node g' o.2.2).solved = true ∧ ∃ b', bestAction g' o.2.2 = .ok b') := by
  have h := session_good hU he harr fuel starts hs
  rw [hg] at h
  have h' := solve_good hU he harr fuel h hng
  rw [hg'] at h'
  obtain ⟨i1, i2, i3, i4⟩ := h'
  obtain ⟨s1, s2, s3⟩ := i4 hsol hL
  have act : ∀ x a, (node g' x).best = some a → bestAction g' x = .ok a := by
    intro x a ha
    rw [node] at ha
    rw [bestAction]
    cases hn : g'.get? x with
    | none => rw [hn] at ha; cases ha
    | some n => rw [hn] at ha; simp only [Option.getD_some] at ha; simp only [ha]
  obtain ⟨a, V, v1, v2, v3, v4⟩ := s2
  have ha := (i1.best s a v1).2
  have near : ∀ b ∈ m.actions s, |m.q c.discount (val g') s b - m.q c.discount V s b| ≤ c.discount * c.epsilon :=
    fun b hb => q_near hU.discount s b (hU.prob s b hb) (h1 s b hb) v4
  refine ⟨a, m.q c.discount V s a, act s a v1, ha, ?_, ?_, fun b hb => ?_, ?_⟩
  · rw [bestValue]
    cases hn : g'.get? s with
    | none => rw [Dict.contains_eq, hn] at i2; cases i2
    | some n => rw [node, hn] at v2; simp only [Option.getD_some] at v2; simp only [v2]
  · rw [abs_sub_comm]; exact near a ha
  · have := near b hb
    rw [abs_le] at this
    linarith [v3 b hb, this.1]
  · obtain ⟨B, b1, b2⟩ := s3 i3
    refine ⟨B, b1, fun x hx => ?_⟩
    obtain ⟨b, b3, b4⟩ := b2 x hx
    have hxe := (i1.best x b b3).1
    refine ⟨(i1.exp x hxe).2.1, b, act x b b3, fun o ho => ?_⟩
    rcases b4 o ho with h | h
    · exact .inl h
    · by_cases hog : m.goal o.2.2 = true
      · exact .inr (.inl hog)
      · have hog : m.goal o.2.2 = false := by simpa using hog
        refine .inr (.inr ⟨h, ?_⟩)
        have hoe : (node g' o.2.2).expanded = true := by
          cases hx : (node g' o.2.2).expanded with
          | true => rfl
          | false => rw [(i1.tip _ hx hog).2] at h; cases h
        obtain ⟨b', hb'⟩ := Option.ne_none_iff_exists'.1 ((i1.live hL _ (i1.exp _ hoe).1).2 hoe)
        exact ⟨b', act _ _ hb'⟩

example : (solve slow slowConfig 50 [] 0).toOption.map (fun g => (bestAction g 0, slow.q 1 (val g) 0 1, slow.q 1 (val g) 0 2)) =
    some (.ok 1, 63/25, 11/4) := by decide +kernel

/-- C81, negated for optimality: with the heuristic 0, costs at least 4/5, `epsilon` 1/4 and a walk
over sets in reverse order, `solve` returns from 0 labelled solved with the action 1 and the value 63/25;
but a policy that takes the action told costs 9, and the best policy 3. -/
theorem C81_optimality_refuted :
    (solve slow slowConfig 50 [] 0).toOption.map (fun g => ((node g 0).solved, bestAction g 0, bestValue g 0)) = some (true, .ok 1, .ok (some (63/25))) ∧
    (∀ W : Nat → Rat, W 3 = 0 → W 1 = slow.q 1 W 1 0 → W 0 = slow.q 1 W 0 1 → W 0 = 9) ∧
    (∀ W : Nat → Rat, W 3 = 0 → W 2 = slow.q 1 W 2 0 → W 0 = slow.q 1 W 0 2 → W 0 = 3) := by
  refine ⟨by decide +kernel, fun W h3 h1 h0 => ?_, fun W h3 h2 h0 => ?_⟩
  · simp [Mdp.q, slow, h3] at h1 h0
    linarith
  · simp [Mdp.q, slow, h3] at h2 h0
    linarith

/-- Five states and the goal 5. -/
def flip : Mdp Nat Nat where
  actions s := if s = 5 then [] else [0, 1]
  outcomes s a := match s, a with
    | 0, 0 => [(1/8, 1/2, 4), (7/8, 1/2, 3)]
    | 0, _ => [(3/4, 1/4, 2), (1/4, 1/4, 5)]
    | 1, 0 => [(1/8, 2, 4), (7/8, 2, 3)]
    | 1, _ => [(1, 2, 4)]
    | 2, 0 => [(1, 2, 4)]
    | 2, _ => [(1, 3/4, 0)]
    | 3, 0 => [(1, 1, 2)]
    | 3, _ => [(1, 3/2, 2)]
    | 4, 0 => [(7/8, 1, 4), (1/8, 1, 5)]
    | _, _ => [(1, 1, 1)]
  goal s := s == 5

/-- C81, negated for a complete policy: `solve` returns from 0, and the actions told lead from 0 to 2,
from there to 4 and from there to 1, for which there is no action; from every state a goal can be reached,
and 0 and 2 are labelled solved. -/
theorem C81_complete_refuted :
    (solve flip { h := fun _ => 0, epsilon := 1/8 } 60 [] 0).toOption.map (fun g =>
      ([bestAction g 0, bestAction g 2, bestAction g 4, bestAction g 1], (node g 0).solved, (node g 2).solved)) =
      some ([.ok 1, .ok 0, .ok 1, .error .runtimeError], true, true) ∧
    (3/4, 1/4, 2) ∈ flip.outcomes 0 1 ∧ (1, 2, 4) ∈ flip.outcomes 2 0 ∧ (1, 1, 1) ∈ flip.outcomes 4 1 ∧ flip.actions 1 = [0, 1] ∧ flip.goal 1 = false := by
  decide +kernel

/-! ### C82 -/

/-- C82: if no state is a dead end, no call raises, whatever the heuristic and the costs. -/
theorem C82_no_exception (hp : ∀ s, ∀ a ∈ m.actions s, ∀ o ∈ m.outcomes s a, 0 ≤ o.1) (hd : 0 ≤ c.discount) (hL : NoDeadEnd m)
    (he : 0 ≤ c.epsilon) (harr : ∀ l, (c.arrange l).Perm l) (fuel : Nat) (starts : List σ) (hs : ∀ s ∈ starts, m.goal s = false) (e : PyErr) :
    session m c fuel starts ≠ .error (.raised e) := by
  have hU : CostBound m c (fun _ => none) := ⟨hp, hd, fun _ _ => trivial, fun _ _ => trivial, fun _ _ _ h => by cases h⟩
  have h := session_good hU he harr fuel starts hs
  intro hx
  rw [hx] at h
  exact h hL

example : NoDeadEnd slow ∧ NoDeadEnd flip := by
  refine ⟨fun s hs => ?_, fun s hs => ?_⟩
  · have : s ≠ 3 := by rintro rfl; cases hs
    simp only [slow, if_neg this]
    split <;> simp
  · have : s ≠ 5 := by rintro rfl; cases hs
    simp [flip, this]

/-- 0 leads to 1, which only leads to the dead end 2. -/
def trap : Mdp Nat Nat where
  actions s := if s = 2 then [] else [0]
  outcomes s _ := [(1, 1, s + 1)]
  goal s := s == 9

/-- C82, negated with dead ends: a null pointer is dereferenced. -/
theorem C82_dead_end_refuted : solve trap { h := fun _ => 0 } 60 [] 0 = .error (.raised .attributeError) := by decide +kernel

/-- C82: from a state that is no goal and has no action, `solve` never returns. -/
theorem C82_dead_root_hangs (s : σ) (hs : m.goal s = false) (ha : m.actions s = []) (fuel : Nat) : solve m c fuel [] s = .error .unfinished := by
  have key : ∀ n (g : Graph σ α), (node g s).reach = true → (node g s).solved = false → (node g s).goal = false →
      dfsAll m c s fuel n g = .error .unfinished := by
    intro n
    induction n with
    | zero => intro g h1 _ _; rw [dfsAll, if_pos h1]
    | succ n ih =>
      intro g h1 h2 h3
      rw [dfsAll, if_pos h1]
      cases fuel with
      | zero => rfl
      | succ f =>
        have hn : node (g.set s { node g s with reach := false }) s = { node g s with reach := false } := by rw [node_set, if_pos rfl]
        rw [dfs, if_neg (by rw [hn]; simp [h2]), if_neg (by rw [hn]; simp [h3]), if_pos (by simp [isEmpty, ha]), dfs]
        refine ih _ ?_ ?_ ?_
        all_goals
          rw [update, node_set, if_pos rfl, expand, ha, List.foldl_nil, node_set, if_pos rfl, node_set, if_pos rfl, hn]
          try simp [h2, h3]
  rw [solve]
  have hc : Dict.contains ([] : Graph σ α) s = false := rfl
  simp only [hc, Bool.false_eq_true, if_false]
  have hn : node (Dict.set ([] : Graph σ α) s { value := some (c.h s) }) s = { value := some (c.h s) } := by rw [node_set, if_pos rfl]
  simp only [hn, hs, Bool.or_self, Bool.false_eq_true, if_false]
  cases fuel with
  | zero => rw [rounds, hn]; rfl
  | succ f =>
    rw [rounds, hn]
    simp only [Bool.false_eq_true, if_false]
    rw [round, key (f + 1) _ (by rw [hn]) (by rw [hn]) (by rw [hn])]
    rfl

example : trap.actions 2 = [] ∧ trap.goal 2 = false := by decide

/-- C82: with an `epsilon` that is not positive, `solve` never returns from a state that is no goal. -/
theorem C82_epsilon_hangs (hp : ∀ s a, ∀ o ∈ m.outcomes s a, 0 ≤ o.1) (he : c.epsilon ≤ 0) (s : σ) (hs : m.goal s = false) (fuel : Nat) (g : Graph σ α) :
    solve m c fuel [] s ≠ .ok g := by
  intro hx
  rw [solve] at hx
  have hc : Dict.contains ([] : Graph σ α) s = false := rfl
  simp only [hc, Bool.false_eq_true, if_false] at hx
  have hn : node (Dict.set ([] : Graph σ α) s { value := some (c.h s) }) s = { value := some (c.h s) } := by rw [node_set, if_pos rfl]
  simp only [hn, hs, Bool.or_self, Bool.false_eq_true, if_false] at hx
  have calm : Calm s (Dict.set ([] : Graph σ α) s { value := some (c.h s) }) := by
    refine ⟨by rw [contains_set]; simp, by rw [hn], fun t => ?_, fun t r => ?_⟩
    · rw [node_set]; split
      · exact le_refl _
      · exact le_refl _
    · rw [node_set]; split
      · intro h; cases h
      · intro h; cases h
  have := rounds_calm hp he fuel fuel _ calm
  rw [hx] at this
  exact this

example : ∀ s a, ∀ o ∈ trap.outcomes s a, 0 ≤ o.1 := by
  intro s a o ho
  simp only [trap, List.mem_singleton] at ho
  subst ho
  exact zero_le_one

/-- C82: the first call returns at once from a goal. -/
theorem C82_goal_returns (s : σ) (hs : m.goal s = true) (fuel : Nat) : ∃ g, solve m c fuel [] s = .ok g ∧ bestAction g s = .error .runtimeError := by
  refine ⟨Dict.set [] s { value := some (c.h s) }, ?_, ?_⟩
  · rw [solve]
    simp [hs, Dict.contains_eq]
  · rw [bestAction, Dict.get?_set_self]

example : slow.goal 3 = true := by decide

end Verif.Ilao
