import Verif.Lemmas.RiwAcyclic

namespace Verif.Riw

variable {σ α φ κ : Type}

/-! ### Counting rollouts -/

theorem lowerMin_rollouts (st : St σ α φ) (r : Rat) : (lowerMin st r).rollouts = st.rollouts ∧ (lowerMin st r).reachedEnd = st.reachedEnd := by
  unfold lowerMin
  split
  · exact ⟨rfl, rfl⟩
  · split <;> exact ⟨rfl, rfl⟩

theorem terminalMin_rollouts (st : St σ α φ) (t : Bool) : (terminalMin st t).rollouts = st.rollouts ∧ (terminalMin st t).reachedEnd = st.reachedEnd := by
  unfold terminalMin
  split
  · split <;> exact ⟨rfl, rfl⟩
  · split <;> exact ⟨rfl, rfl⟩

theorem fillChild_rollouts [DecidableEq κ] (d : Domain σ α φ) (c : Config σ κ) (st : St σ α φ) (i k : Nat) :
    (fillChild d c st i k).1.rollouts = st.rollouts ∧ (fillChild d c st i k).1.reachedEnd = st.reachedEnd := by
  unfold fillChild
  split
  · exact ⟨rfl, rfl⟩
  · split
    · exact ⟨rfl, rfl⟩
    · exact ⟨rfl, rfl⟩
    · dsimp only
      split
      · exact ⟨(lowerMin_rollouts _ _).1, (lowerMin_rollouts _ _).2⟩
      · exact ⟨(terminalMin_rollouts _ _).1.trans (lowerMin_rollouts _ _).1, (terminalMin_rollouts _ _).2.trans (lowerMin_rollouts _ _).2⟩

theorem arrive_rollouts [DecidableEq φ] (d : Domain σ α φ) (c : Config σ κ) (w : Nat) (st : St σ α φ) (j : Nat) (b : Bool) :
    (arrive d c w st j b).1.rollouts = st.rollouts := by
  unfold arrive
  split
  · rfl
  · split
    · rfl
    · dsimp only
      split
      · rfl
      · split
        · rfl
        · split
          · split <;> rfl
          · rfl

theorem step_rollouts [DecidableEq κ] [DecidableEq φ] {d : Domain σ α φ} {c : Config σ κ} {w : Nat} {st st' : St σ α φ} {i : Nat} {o : Option Nat}
    (h : step d c w st i = .ok (st', o)) : st'.rollouts = st.rollouts := by
  rcases step_ok h with ⟨rfl, _⟩ | ⟨n, k, _, _, _, e⟩
  · rfl
  · have := arrive_rollouts d c w (fillChild d c { st with graph := expand d st.graph i, draws := st.draws + 1 } i k).1
        (fillChild d c { st with graph := expand d st.graph i, draws := st.draws + 1 } i k).2.1
        (fillChild d c { st with graph := expand d st.graph i, draws := st.draws + 1 } i k).2.2
    rw [← e, (fillChild_rollouts _ _ _ _ _).1] at this
    exact this

theorem walk_rollouts [DecidableEq κ] [DecidableEq φ] {d : Domain σ α φ} {c : Config σ κ} {w fuel i : Nat} {st st' : St σ α φ}
    (h : walk d c w fuel i st = some (.ok st')) : st'.rollouts = st.rollouts :=
  walk_ind (fun x => x.rollouts = st.rollouts) (fun _ _ => True) (fun _ _ _ hp _ hs => (step_rollouts hs).trans hp)
    (fun _ _ _ _ hp _ hs => ⟨(step_rollouts hs).trans hp, trivial⟩) fuel i st st' rfl trivial h

/-- Why the rollouts of one width end. -/
theorem rollouts_end [DecidableEq κ] [DecidableEq φ] {d : Domain σ α φ} {c : Config σ κ} {w fuel root : Nat} :
    ∀ (left : Nat) (st st' : St σ α φ), rollouts d c w fuel root left st = some (.ok st') →
      st'.rollouts ≤ st.rollouts + left ∧
      ((∀ n, st'.graph[root]? = some n → n.solved = true) ∨ (∃ t, st'.ticks = t + 1 ∧ c.late t = true) ∨ st'.rollouts = st.rollouts + left) := by
  intro left
  induction left with
  | zero =>
    intro st st' h
    unfold rollouts at h
    split at h
    · rename_i hn
      simp at h; subst h; exact ⟨by omega, Or.inl (by rw [hn]; simp)⟩
    · rename_i n hn
      split at h
      · rename_i hs
        simp at h; subst h; exact ⟨by omega, Or.inl (by rw [hn]; simpa using hs)⟩
      · split at h
        · rename_i hl
          simp at h; subst h; exact ⟨by simp, Or.inr (Or.inl ⟨_, rfl, hl⟩)⟩
        · simp at h; subst h; exact ⟨by simp, Or.inr (Or.inr rfl)⟩
  | succ left ih =>
    intro st st' h
    unfold rollouts at h
    split at h
    · rename_i hn
      simp at h; subst h; exact ⟨by omega, Or.inl (by rw [hn]; simp)⟩
    · rename_i n hn
      split at h
      · rename_i hs
        simp at h; subst h; exact ⟨by omega, Or.inl (by rw [hn]; simpa using hs)⟩
      · split at h
        · rename_i hl
          simp at h; subst h; exact ⟨by simp, Or.inr (Or.inl ⟨_, rfl, hl⟩)⟩
        · split at h
          · rename_i heq; omega
          · rename_i l heq
            have hll : l = left := by omega
            rw [hll] at h
            split at h
            · simp at h
            · simp at h
            · rename_i st1 hr
              unfold rollout at hr
              have h1 := walk_rollouts hr
              simp only at h1
              obtain ⟨i1, i2⟩ := ih st1 st' h
              refine ⟨by omega, ?_⟩
              rcases i2 with h | h | h
              · exact Or.inl h
              · exact Or.inr (Or.inl h)
              · exact Or.inr (Or.inr (by omega))

theorem enter_rollouts [DecidableEq κ] [DecidableEq φ] (d : Domain σ α φ) (c : Config σ κ) (w : Nat) (s : σ) (st : St σ α φ) :
    (enter d c w s st).1.rollouts = st.rollouts := rfl

/-! ### Terminal states -/

/-- Induction over a backup: only nodes with children are given a value again. -/
theorem backup_ind_parent {d : Domain σ α φ} {c : Config σ κ} (ho : ∀ l x, x ∈ c.order l → x ∈ l) {g0 : Graph σ α} (hT : True' d c.key g0) (mr : Option Rat)
    (P : Graph σ α → Prop)
    (hp : ∀ g p (n : Node σ α), g.map bare = g0.map bare → g[p]? = some n → n.children ≠ [] → P g → P (backupParent c.discount g p))
    (hv : ∀ g i, g.map bare = g0.map bare → P g → P (pruneValue c mr g i)) (frontier : List Nat) (g : Graph σ α) (hb : g.map bare = g0.map bare) (h : P g) :
    P (backupValues c mr frontier g) := by
  have h1 : ∀ (l : List Nat) (r : Graph σ α × List Nat), (∀ p ∈ l, ∃ n0 : Node σ α, g0[p]? = some n0 ∧ n0.children ≠ []) → r.1.map bare = g0.map bare → P r.1 →
      (l.foldl (fun r p => (backupParent c.discount r.1 p, insertNew r.2 p)) r).1.map bare = g0.map bare ∧
      P (l.foldl (fun r p => (backupParent c.discount r.1 p, insertNew r.2 p)) r).1 := by
    intro l
    induction l with
    | nil => intro r _ hb hr; exact ⟨hb, hr⟩
    | cons x l ih =>
      intro r hl hb hr
      obtain ⟨n0, hn0, hc⟩ := hl x List.mem_cons_self
      obtain ⟨n, hn, e, _⟩ := bare_children hb.symm hn0
      exact ih _ (fun p hp => hl p (List.mem_cons_of_mem _ hp)) (by rw [backupParent_bare]; exact hb) (hp _ _ n hb hn (by rw [← e]; exact hc) hr)
  have h2 : ∀ (l : List Nat) (r : Graph σ α × List Nat), r.1.map bare = g0.map bare → P r.1 →
      (l.foldl (updateFrontier c) r).1.map bare = g0.map bare ∧ P (l.foldl (updateFrontier c) r).1 := by
    intro l
    induction l with
    | nil => intro r hb hr; exact ⟨hb, hr⟩
    | cons x l ih =>
      intro r hb hr
      have : (updateFrontier c r x).1.map bare = g0.map bare ∧ P (updateFrontier c r x).1 := by
        unfold updateFrontier
        split
        · exact ⟨hb, hr⟩
        · rename_i n hn
          refine h1 _ _ ?_ hb hr
          intro p hp
          obtain ⟨n0, hn0, _, _, e, _⟩ := bare_children hb hn
          obtain ⟨m, k, a, rr, hm, hk⟩ := hT.back p x n0 hn0 (by rw [← e]; exact ho _ _ hp)
          refine ⟨m, hm, ?_⟩
          intro e
          rw [e] at hk
          simp at hk
      exact ih _ this.1 this.2
  have h3 : ∀ (k : Nat) (fr : List Nat) (g : Graph σ α), g.map bare = g0.map bare → P g → P (backupLoop c k fr g) := by
    intro k
    induction k with
    | zero => intro fr g _ hg; exact hg
    | succ k ih =>
      intro fr g hb hg
      unfold backupLoop
      split
      · exact hg
      · exact ih _ _ (h2 _ (g, []) hb hg).1 (h2 _ (g, []) hb hg).2
  have h4 : ∀ (l : List Nat) (g : Graph σ α), g.map bare = g0.map bare → P g → (l.foldl (pruneValue c mr) g).map bare = g0.map bare ∧ P (l.foldl (pruneValue c mr) g) := by
    intro l
    induction l with
    | nil => intro g hb hg; exact ⟨hb, hg⟩
    | cons x l ih => intro g hb hg; exact ih _ (by rw [pruneValue_bare]; exact hb) (hv _ _ hb hg)
  obtain ⟨a1, a2⟩ := h4 (c.order frontier) g hb h
  exact h3 _ _ _ a1 a2

/-- Terminal nodes have no children and are not solved. -/
def Asleep (g : Graph σ α) : Prop := ∀ (i : Nat) (n : Node σ α), g[i]? = some n → n.terminal = true → n.children = [] ∧ n.solved = false

theorem Asleep.modify {g : Graph σ α} (h : Asleep g) {i : Nat} {f : Node σ α → Node σ α}
    (hf : ∀ n, g[i]? = some n → (f n).terminal = true → (n.children = [] ∧ n.solved = false → (f n).children = [] ∧ (f n).solved = false) ∧ n.terminal = true) : Asleep (g.modify i f) := by
  intro x m hm ht
  rw [getElem?_modify'] at hm
  cases hg : g[x]? with
  | none => rw [hg] at hm; simp at hm
  | some m0 =>
    rw [hg] at hm
    simp only [Option.map_some, Option.some.injEq] at hm
    subst hm
    by_cases hix : i = x
    · subst hix
      rw [if_pos rfl] at ht ⊢
      obtain ⟨f1, f2⟩ := hf m0 hg ht
      exact f1 (h i m0 hg f2)
    · rw [if_neg hix] at ht ⊢
      exact h x m0 hg ht

theorem Asleep.updateNode {d : Domain σ α φ} {c : Config σ κ} (ho : ∀ l x, x ∈ c.order l → x ∈ l) {st : St σ α φ} (hT : True' d c.key st.graph) (h : Asleep st.graph) {j : Nat} {b : Bool}
    (hj : ∀ m, st.graph[j]? = some m → m.terminal = false) : Asleep (updateNode c st j b).graph := by
  unfold Riw.updateNode
  refine backup_ind_parent (d := d) ho hT st.minReward Asleep ?_ ?_ _ _ ?_ ?_
  · intro g p n hb hn hc hA x m hm ht
    obtain ⟨m0, hm0, e⟩ := backupParent_get hm
    by_cases hpx : p = x
    · subst hpx
      rw [hn] at hm0
      cases hm0
      rw [if_pos rfl] at e
      rw [e] at ht
      exact absurd (hA p n hn ht).1 hc
    · rw [if_neg hpx] at e
      subst e
      exact hA x m hm0 ht
  · intro g i _ hA
    unfold pruneValue
    refine hA.modify ?_
    intro n hn
    split
    · exact fun h => ⟨fun h => h, h⟩
    · exact fun h => ⟨fun h => h, h⟩
  · refine map_modify_of bare (fun n => ?_) _ _
    rfl
  · refine h.modify ?_
    intro n hn ht
    rw [hj n hn] at ht
    simp at ht

theorem Asleep.arrive [DecidableEq φ] {d : Domain σ α φ} {c : Config σ κ} (ho : ∀ l x, x ∈ c.order l → x ∈ l) {w : Nat} {st : St σ α φ} {j : Nat} {b : Bool}
    (hT : True' d c.key st.graph) (h : Asleep st.graph) (he : (arrive d c w st j b).1.reachedEnd = false) : Asleep (arrive d c w st j b).1.graph := by
  have hnov : ∀ x : Nat, Asleep (st.graph.modify j fun m => { m with novelty := x }) ∧ True' d c.key (st.graph.modify j fun m => { m with novelty := x }) := by
    intro x
    refine ⟨h.modify fun n hn ht => ⟨fun h => h, ht⟩, hT.of_skel ?_⟩
    refine map_modify_of skel (fun n => ?_) _ _
    rfl
  unfold Riw.arrive at he ⊢
  split
  · exact h
  · rename_i m hm
    rw [hm] at he
    dsimp only at he ⊢
    split
    · rename_i hts
      rw [if_pos hts] at he
      simp at he
    · rename_i hts
      have hmt : m.terminal = false := by
        cases ht : m.terminal
        · rfl
        · simp [ht] at hts
      rw [if_neg hts] at he
      obtain ⟨a1, a2⟩ := hnov (novelty w st.table (d.features m.state) m.depth b).2.1
      have hj1 : ∀ x : Nat, ∀ m', (st.graph.modify j fun m => { m with novelty := x })[j]? = some m' → m'.terminal = false := by
        intro x m' hm'
        rw [getElem?_modify', hm] at hm'
        simp only [Option.map_some, Option.some.injEq, if_pos] at hm'
        subst hm'
        exact hmt
      split
      · refine Asleep.updateNode (d := d) ho ?_ ?_ ?_
        · refine a2.of_skel (map_modify_of skel (fun n => ?_) _ _)
          rfl
        · exact a1.modify fun n hn ht => ⟨fun h => h, ht⟩
        · intro m' hm'
          rw [getElem?_modify'] at hm'
          cases hg : (st.graph.modify j fun m => { m with novelty := (novelty w st.table (d.features m'.state) m'.depth b).2.1 })[j]? with
          | none => rw [getElem?_modify', hm] at hg; simp at hg
          | some m2 =>
            rw [getElem?_modify', hm] at hm'
            simp only [Option.map_some, Option.some.injEq, if_pos] at hm'
            subst hm'
            exact hmt
      · rename_i hnv
        rw [if_neg hnv] at he
        split
        · rename_i hd
          rw [if_pos hd] at he
          simp at he
        · split
          · split
            · exact Asleep.updateNode (d := d) ho a2 a1 (hj1 _)
            · exact a1
          · exact a1

theorem arrive_end [DecidableEq φ] {d : Domain σ α φ} {c : Config σ κ} {w : Nat} {st : St σ α φ} {j : Nat} {b : Bool} (h : st.reachedEnd = true) :
    (arrive d c w st j b).1.reachedEnd = true := by
  unfold arrive
  split
  · exact h
  · split
    · rfl
    · dsimp only
      split
      · exact h
      · split
        · rfl
        · split
          · split
            · exact h
            · exact h
          · exact h

/-- As long as no trajectory has come to its end, terminal nodes are left alone. -/
theorem Asleep.step [DecidableEq κ] [DecidableEq φ] {d : Domain σ α φ} {c : Config σ κ} (ho : ∀ l x, x ∈ c.order l → x ∈ l) {w : Nat} {st st' : St σ α φ} {i : Nat} {o : Option Nat}
    (hG : Good d c.key st.graph) (h : st.reachedEnd = false → Asleep st.graph) (hi : ∀ n, st.graph[i]? = some n → n.terminal = false) (hs : step d c w st i = .ok (st', o)) :
    (st'.reachedEnd = false → Asleep st'.graph) ∧ (∀ (j : Nat) (n : Node σ α), o = some j → st'.graph[j]? = some n → n.terminal = false) ∧
    (∀ (x : Nat) (n : Node σ α), st.graph[x]? = some n → n.terminal = false → ∃ n' : Node σ α, st'.graph[x]? = some n' ∧ n'.terminal = false ∧ n'.state = n.state) := by
  rcases step_ok hs with ⟨rfl, rfl, _⟩ | ⟨n, k, hn, hsol, hk, e⟩
  · exact ⟨h, by simp, fun x n hx h0 => ⟨n, hx, h0, rfl⟩⟩
  · generalize hst1 : ({ st with graph := expand d st.graph i, draws := st.draws + 1 } : St σ α φ) = st1 at e
    have hg1 : st1.graph = expand d st.graph i := by rw [← hst1]
    have he1 : st1.reachedEnd = st.reachedEnd := by rw [← hst1]
    rw [← hg1] at hk
    obtain ⟨n1, a, r, o1, hn1, hc, _⟩ := mem_unsolved.1 hk
    have ht1 : True' d c.key st1.graph := by rw [hg1]; exact hG.1.expand i
    obtain ⟨n0, hn0, es, ed, et, _⟩ := expand_get (by rw [← hg1]; exact hn1)
    rw [hn] at hn0
    cases hn0
    have hit := hi n hn
    have ht2 : True' d c.key (fillChild d c st1 i k).1.graph := True'.fill ht1 i k
    have hget : ∀ (x : Nat) (m : Node σ α), (fillChild d c st1 i k).1.graph[x]? = some m →
        (∃ m0 : Node σ α, st.graph[x]? = some m0 ∧ m.state = m0.state ∧ m.terminal = m0.terminal ∧ m.solved = m0.solved ∧ (x ≠ i → m.children = m0.children)) ∨
        (x = st1.graph.length ∧ m.children = [] ∧ m.solved = false) := by
      intro x m hm
      rcases fill_get ht1 hn1 hc hm with ⟨m1, hm1, e1, e2, e3, _, _, _, e7⟩ | ⟨ex, e, _⟩
      · left
        obtain ⟨m0, hm0, f1, _, f3, f4, _, _, _, _, f9⟩ := expand_get (by rw [← hg1]; exact hm1)
        refine ⟨m0, hm0, e1.trans f1, e2.trans f3, e3.trans f4, ?_⟩
        intro hxi
        have hix : ¬ i = x := fun e => hxi e.symm
        rw [e7, if_neg hix, f9, if_neg (fun e => hix e.1)]
      · right
        rw [e]
        exact ⟨ex, rfl, rfl⟩
    have hf := arrive_frame d c w (fillChild d c st1 i k).1 (fillChild d c st1 i k).2.1 (fillChild d c st1 i k).2.2
    rw [← e] at hf
    refine ⟨?_, ?_, ?_⟩
    · intro hend
      have hst' : st' = (Riw.arrive d c w (fillChild d c st1 i k).1 (fillChild d c st1 i k).2.1 (fillChild d c st1 i k).2.2).1 := by rw [← e]
      have h0 : st.reachedEnd = false := by
        cases hr : st.reachedEnd with
        | false => rfl
        | true =>
          have := arrive_end (d := d) (c := c) (w := w) (st := (fillChild d c st1 i k).1) (j := (fillChild d c st1 i k).2.1) (b := (fillChild d c st1 i k).2.2)
            (by rw [(fillChild_rollouts _ _ _ _ _).2, he1]; exact hr)
          rw [← e, hend] at this
          simp at this
      have hA2 : Asleep (fillChild d c st1 i k).1.graph := by
        intro x m hm ht
        rcases hget x m hm with ⟨m0, hm0, _, e2, e3, e4⟩ | ⟨_, e1, e2⟩
        · have hxi : x ≠ i := by
            intro e
            subst e
            rw [hn] at hm0
            cases hm0
            rw [e2, hit] at ht
            simp at ht
          rw [e4 hxi, e3]
          exact h h0 x m0 hm0 (by rw [← e2]; exact ht)
        · exact ⟨e1, e2⟩
      rw [hst']
      exact Asleep.arrive ho ht2 hA2 (by rw [← hst']; exact hend)
    · intro j m ho hm
      have ha := arrive_some (d := d) (c := c) (w := w) (st := (fillChild d c st1 i k).1) (j := (fillChild d c st1 i k).2.1) (b := (fillChild d c st1 i k).2.2)
        (j' := j) (by rw [← e]; exact ho)
      obtain ⟨hj, m1, hm1, hm1t, _⟩ := ha
      obtain ⟨m2, hm2, e2⟩ := map_get hf hm
      rw [← hj, hm2] at hm1
      cases hm1
      simp only [frame, Prod.mk.injEq] at e2
      rw [e2.2.2.2.2]
      exact hm1t
    · intro x m hx h0
      obtain ⟨m1, hm1⟩ := expand_put (d := d) (i := i) hx
      rw [← hg1] at hm1
      obtain ⟨m2, hm2⟩ := fill_put (d := d) (c := c) hn1 hc hm1
      obtain ⟨m3, hm3, e3⟩ := map_get hf.symm hm2
      simp only [frame, Prod.mk.injEq] at e3
      rcases hget x m2 hm2 with ⟨m0, hm0, f0, f2, _⟩ | ⟨ex, _⟩
      · rw [hx] at hm0
        cases hm0
        exact ⟨m3, hm3, by rw [← e3.2.2.2.2, f2]; exact h0, e3.1.symm.trans f0⟩
      · have := (List.getElem?_eq_some_iff.mp hm1).1
        omega

theorem Asleep.rollouts [DecidableEq κ] [DecidableEq φ] {d : Domain σ α φ} {c : Config σ κ} (ho : ∀ l x, x ∈ c.order l → x ∈ l) {w fuel root left : Nat} {s : σ} {st st' : St σ α φ}
    (ht : Good d c.key st.graph) (h : st.reachedEnd = false → Asleep st.graph) (hroot : ∃ n, st.graph[root]? = some n ∧ n.terminal = false ∧ c.key n.state = c.key s)
    (hs : rollouts d c w fuel root left st = some (.ok st')) :
    (st'.reachedEnd = false → Asleep st'.graph) ∧ ∃ n, st'.graph[root]? = some n ∧ n.terminal = false ∧ c.key n.state = c.key s := by
  have := rollouts_ind (fun st => Good d c.key st.graph ∧ (st.reachedEnd = false → Asleep st.graph) ∧ ∃ n, st.graph[root]? = some n ∧ n.terminal = false ∧ c.key n.state = c.key s)
    (fun st hp => hp) ?_ left st st' ⟨ht, h, hroot⟩ hs
  · exact this.2
  · intro st st' n hp _ _ hr
    unfold rollout at hr
    refine walk_ind (fun st => Good d c.key st.graph ∧ (st.reachedEnd = false → Asleep st.graph) ∧ ∃ n, st.graph[root]? = some n ∧ n.terminal = false ∧ c.key n.state = c.key s)
      (fun st i => ∀ n, st.graph[i]? = some n → n.terminal = false) ?_ ?_ fuel root { st with rollouts := st.rollouts + 1 } st' hp ?_ hr
    · intro st i st' ⟨p1, p2, n, p3, p4, p5⟩ hq hs
      obtain ⟨q1, _, q3⟩ := Asleep.step ho p1 p2 hq hs
      obtain ⟨n', h1, h2, h3⟩ := q3 root n p3 p4
      exact ⟨p1.step hs, q1, n', h1, h2, by rw [h3]; exact p5⟩
    · intro st i st' j ⟨p1, p2, n, p3, p4, p5⟩ hq hs
      obtain ⟨q1, q2, q3⟩ := Asleep.step ho p1 p2 hq hs
      obtain ⟨n', h1, h2, h3⟩ := q3 root n p3 p4
      exact ⟨⟨p1.step hs, q1, n', h1, h2, by rw [h3]; exact p5⟩, fun n hn => q2 j n rfl hn⟩
    · obtain ⟨_, _, n, p3, p4, _⟩ := hp
      intro m hm
      rw [p3] at hm
      cases hm
      exact p4

end Verif.Riw
