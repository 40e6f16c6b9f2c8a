import Verif.Lemmas.Riw

namespace Verif.Riw

variable {σ α φ κ : Type}

/-! ### Rules for whole runs -/

theorem step_ok [DecidableEq κ] [DecidableEq φ] {d : Domain σ α φ} {c : Config σ κ} {w : Nat} {st st' : St σ α φ} {i : Nat} {o : Option Nat}
    (h : step d c w st i = .ok (st', o)) :
    (st' = st ∧ o = none ∧ ∀ n, st.graph[i]? = some n → n.solved = true) ∨
    ∃ n k, st.graph[i]? = some n ∧ n.solved = false ∧ k ∈ unsolved (expand d st.graph i) i ∧
      (st', o) = arrive d c w (fillChild d c { st with graph := expand d st.graph i, draws := st.draws + 1 } i k).1
        (fillChild d c { st with graph := expand d st.graph i, draws := st.draws + 1 } i k).2.1
        (fillChild d c { st with graph := expand d st.graph i, draws := st.draws + 1 } i k).2.2 := by
  unfold step at h
  cases hn : st.graph[i]? with
  | none => rw [hn] at h; simp only [Except.ok.injEq, Prod.mk.injEq] at h; exact Or.inl ⟨h.1.symm, h.2.symm, by simp⟩
  | some n =>
    rw [hn] at h
    dsimp only at h
    by_cases hs : n.solved = true
    · rw [if_pos hs] at h
      simp only [Except.ok.injEq, Prod.mk.injEq] at h
      exact Or.inl ⟨h.1.symm, h.2.symm, by intro m hm; cases hm; exact hs⟩
    · rw [if_neg hs] at h
      cases hk : (unsolved (expand d st.graph i) i)[c.pick st.draws % (unsolved (expand d st.graph i) i).length]? with
      | none => rw [hk] at h; simp at h
      | some k =>
        rw [hk] at h
        simp only [Except.ok.injEq] at h
        exact Or.inr ⟨n, k, rfl, by simpa using hs, List.mem_of_getElem? hk, h.symm⟩

theorem step_error [DecidableEq κ] [DecidableEq φ] {d : Domain σ α φ} {c : Config σ κ} {w : Nat} {st : St σ α φ} {i : Nat} {e : PyErr}
    (h : step d c w st i = .error e) : ∃ n, st.graph[i]? = some n ∧ n.solved = false ∧ unsolved (expand d st.graph i) i = [] := by
  unfold step at h
  cases hn : st.graph[i]? with
  | none => rw [hn] at h; simp at h
  | some n =>
    rw [hn] at h
    dsimp only at h
    by_cases hs : n.solved = true
    · rw [if_pos hs] at h; simp at h
    · rw [if_neg hs] at h
      refine ⟨n, rfl, by simpa using hs, ?_⟩
      cases hu : unsolved (expand d st.graph i) i with
      | nil => rfl
      | cons x xs =>
        rw [hu] at h
        have hlt : c.pick st.draws % (x :: xs).length < (x :: xs).length := Nat.mod_lt _ (by simp)
        rw [List.getElem?_eq_getElem hlt] at h
        simp at h

/-- What holds of the solver and of the node at which a rollout is. -/
theorem walk_ind [DecidableEq κ] [DecidableEq φ] {d : Domain σ α φ} {c : Config σ κ} {w : Nat} (P : St σ α φ → Prop) (Q : St σ α φ → Nat → Prop)
    (hend : ∀ st i st', P st → Q st i → step d c w st i = .ok (st', none) → P st')
    (hgo : ∀ st i st' j, P st → Q st i → step d c w st i = .ok (st', some j) → P st' ∧ Q st' j) :
    ∀ (fuel i : Nat) (st st' : St σ α φ), P st → Q st i → walk d c w fuel i st = some (.ok st') → P st' := by
  intro fuel
  induction fuel with
  | zero => intro i st st' _ _ h; simp [walk] at h
  | succ fuel ih =>
    intro i st st' hp hq h
    unfold walk at h
    cases hs : step d c w st i with
    | error e => rw [hs] at h; simp at h
    | ok r =>
      obtain ⟨st1, o⟩ := r
      rw [hs] at h
      cases o with
      | none => simp at h; subst h; exact hend st i st1 hp hq hs
      | some j =>
        obtain ⟨hp1, hq1⟩ := hgo st i st1 j hp hq hs
        exact ih j st1 st' hp1 hq1 h

theorem rollouts_ind [DecidableEq κ] [DecidableEq φ] {d : Domain σ α φ} {c : Config σ κ} {w fuel root : Nat} (P : St σ α φ → Prop)
    (htick : ∀ st, P st → P { st with ticks := st.ticks + 1 })
    (hroll : ∀ st st' n, P st → st.graph[root]? = some n → n.solved = false → rollout d c w fuel root st = some (.ok st') → P st') :
    ∀ (left : Nat) (st st' : St σ α φ), P st → rollouts d c w fuel root left st = some (.ok st') → P st' := by
  intro left
  induction left with
  | zero =>
    intro st st' hp h
    unfold rollouts at h
    split at h
    · simp at h; subst h; exact hp
    · split at h
      · simp at h; subst h; exact hp
      · split at h
        · simp at h; subst h; exact htick _ hp
        · simp at h; subst h; exact htick _ hp
  | succ left ih =>
    intro st st' hp h
    unfold rollouts at h
    split at h
    · simp at h; subst h; exact hp
    · rename_i n hn
      split at h
      · simp at h; subst h; exact hp
      · rename_i hs
        split at h
        · simp at h; subst h; exact htick _ hp
        · dsimp only at h
          split at h
          · simp at h
          · simp at h
          · rename_i st1 h1
            exact ih st1 st' (hroll _ _ n (htick _ hp) hn (by simpa using hs) h1) h

theorem solveWidth_ok [DecidableEq κ] [DecidableEq φ] {d : Domain σ α φ} {c : Config σ κ} {fuel w : Nat} {s : σ} {st st' : St σ α φ} {b : Bool}
    (h : solveWidth d c fuel w s st = some (.ok (st', b))) :
    ∃ st1, rollouts d c w fuel (enter d c w s st).2 (c.budget - (enter d c w s st).1.rollouts) (enter d c w s st).1 = some (.ok st1) ∧
      st' = { st1 with ticks := st1.ticks + 1 } ∧ b = !(!c.late st1.ticks && decide (st1.rollouts < c.budget) && !st1.reachedEnd && st1.statesPruned) := by
  unfold solveWidth at h
  dsimp only at h
  split at h
  · simp at h
  · simp at h
  · rename_i st1 h1
    simp only [Option.some.injEq, Except.ok.injEq, Prod.mk.injEq] at h
    exact ⟨st1, h1, h.1.symm, h.2.symm⟩

theorem widths_ind [DecidableEq κ] [DecidableEq φ] {d : Domain σ α φ} {c : Config σ κ} {fuel : Nat} {s : σ} (P : St σ α φ → Prop)
    (hw : ∀ w st st' b, P st → solveWidth d c fuel w s st = some (.ok (st', b)) → P st') :
    ∀ (k w : Nat) (st st' : St σ α φ) (b : Bool), P st → widths d c fuel s k w st = some (.ok (st', b)) → P st' := by
  intro k
  induction k with
  | zero => intro w st st' b hp h; simp [widths] at h; obtain ⟨rfl, _⟩ := h; exact hp
  | succ k ih =>
    intro w st st' b hp h
    unfold widths at h
    split at h
    · simp at h
    · simp at h
    · rename_i st1 h1
      simp at h
      obtain ⟨rfl, _⟩ := h
      exact hw w st st1 true hp h1
    · rename_i st1 h1
      exact ih (w + 1) st1 st' b (hw w st st1 false hp h1) h

/-! ### The steps of a rollout keep the graph true -/

/-- The graph is true and the best actions are visited ones. -/
def Good (d : Domain σ α φ) (key : σ → κ) (g : Graph σ α) : Prop := True' d key g ∧ BestOk g

theorem Good.modify {d : Domain σ α φ} {key : σ → κ} {g : Graph σ α} (h : Good d key g) {f : Node σ α → Node σ α}
    (hf : ∀ n, skel (f n) = skel n ∧ (f n).best = n.best) (i : Nat) : Good d key (g.modify i f) := by
  refine ⟨h.1.of_skel (map_modify_of skel (fun n => (hf n).1) _ _), h.2.modify (fun n => ⟨(hf n).2, ?_⟩) i⟩
  have := (hf n).1
  simp only [skel, Prod.mk.injEq] at this
  exact this.2.1

theorem Good.updateNode {d : Domain σ α φ} {c : Config σ κ} {st : St σ α φ} (h : Good d c.key st.graph) (i : Nat) (b : Bool) :
    Good d c.key (updateNode c st i b).graph :=
  ⟨h.1.of_skel (skel_of_bare (updateNode_bare c st i b)), updateNode_best h.2⟩

theorem Good.expand {d : Domain σ α φ} {key : σ → κ} {g : Graph σ α} (h : Good d key g) (i : Nat) : Good d key (expand d g i) := by
  refine ⟨h.1.expand i, ?_⟩
  intro j n k hn hb
  unfold Riw.expand at hn
  rw [getElem?_modify'] at hn
  cases hg : g[j]? with
  | none => rw [hg] at hn; simp at hn
  | some m =>
    rw [hg] at hn
    simp only [Option.map_some, Option.some.injEq] at hn
    by_cases hij : i = j
    · by_cases he : m.children = []
      · subst hn
        simp only [hij, he] at hb
        have hb' : m.best = some k := by simpa using hb
        obtain ⟨a, r, x, hc⟩ := h.2 j m k hg hb'
        rw [he] at hc
        simp at hc
      · have : n = m := by rw [← hn]; simp [hij, he]
        subst this
        exact h.2 j n k hg hb
    · have : n = m := by rw [← hn]; simp [hij]
      subst this
      exact h.2 j n k hg hb

theorem Good.arrive [DecidableEq φ] {d : Domain σ α φ} {c : Config σ κ} {w : Nat} {st : St σ α φ} (h : Good d c.key st.graph) (j : Nat) (b : Bool) :
    Good d c.key (arrive d c w st j b).1.graph := by
  have hnov : ∀ x : Nat, Good d c.key (st.graph.modify j fun m => { m with novelty := x }) := by
    intro x
    refine h.modify (fun n => ?_) j
    exact ⟨rfl, rfl⟩
  have hpr : ∀ g : Graph σ α, Good d c.key g → Good d c.key (g.modify j fun m => { m with pruned := true }) := by
    intro g hg
    refine hg.modify (fun n => ?_) j
    exact ⟨rfl, rfl⟩
  unfold Riw.arrive
  split
  · exact h
  · split
    · exact h.updateNode j true
    · dsimp only
      split
      · exact Good.updateNode (hpr _ (hnov _)) j true
      · split
        · exact Good.updateNode (hnov _) j true
        · split
          · split
            · exact Good.updateNode (hnov _) j false
            · exact hnov _
          · exact hnov _

theorem Good.step [DecidableEq κ] [DecidableEq φ] {d : Domain σ α φ} {c : Config σ κ} {w : Nat} {st st' : St σ α φ} {i : Nat} {o : Option Nat}
    (h : Good d c.key st.graph) (hs : step d c w st i = .ok (st', o)) : Good d c.key st'.graph := by
  rcases step_ok hs with ⟨rfl, _⟩ | ⟨n, k, _, _, _, e⟩
  · exact h
  · have h1 : Good d c.key (fillChild d c { st with graph := Riw.expand d st.graph i, draws := st.draws + 1 } i k).1.graph :=
      ⟨True'.fill (st := { st with graph := Riw.expand d st.graph i, draws := st.draws + 1 }) (h.expand i).1 i k,
        BestOk.fill (st := { st with graph := Riw.expand d st.graph i, draws := st.draws + 1 }) (h.expand i).2 i k⟩
    have h2 := h1.arrive (w := w) (fillChild d c { st with graph := Riw.expand d st.graph i, draws := st.draws + 1 } i k).2.1
      (fillChild d c { st with graph := Riw.expand d st.graph i, draws := st.draws + 1 } i k).2.2
    rw [← e] at h2
    exact h2

theorem map_get_of {β : Type} {q : Node σ α → β} {f : Node σ α → Node σ α} (hf : ∀ n, q (f n) = q n) (g : Graph σ α) : (g.map f).map q = g.map q := by
  rw [List.map_map]
  apply List.map_congr_left
  intro n _
  exact hf n

/-- The graph once the root is in it. -/
theorem enter_cases [DecidableEq κ] [DecidableEq φ] (d : Domain σ α φ) (c : Config σ κ) (w : Nat) (s : σ) (st : St σ α φ) :
    ∃ (nov : Nat) (table : Table φ) (g' : Graph σ α) (root : Nat), enter d c w s st =
        ({ st with graph := g'.modify root fun n => { n with novelty := nov }, table := table, changed := false, statesPruned := false, reachedEnd := false }, root) ∧
      ((locate c.key (clearBits st.graph) s = some root ∧ g' = (clearBits st.graph).modify root fun n => { n with depth := 0 }) ∨
       (locate c.key (clearBits st.graph) s = none ∧ root = (clearBits st.graph).length ∧ g' = clearBits st.graph ++ [{ state := s, depth := 0 }])) := by
  refine ⟨_, _, (putRoot c.key (clearBits st.graph) s).1, (putRoot c.key (clearBits st.graph) s).2, rfl, ?_⟩
  cases hl : locate c.key (clearBits st.graph) s with
  | some i => left; simp [putRoot, hl]
  | none => right; simp [putRoot, hl]

theorem BestOk.append {g : Graph σ α} (h : BestOk g) {n0 : Node σ α} (h0 : n0.best = none) : BestOk (g ++ [n0]) := by
  intro x q y hq hb
  rw [List.getElem?_append] at hq
  split at hq
  · exact h x q y hq hb
  · have := List.mem_of_getElem? hq
    simp at this
    subst this
    rw [h0] at hb
    simp at hb

theorem BestOk.map {g : Graph σ α} (h : BestOk g) {f : Node σ α → Node σ α} (hf : ∀ n, (f n).best = n.best ∧ (f n).children = n.children) : BestOk (g.map f) := by
  intro x q y hq hb
  rw [List.getElem?_map] at hq
  cases hg : g[x]? with
  | none => rw [hg] at hq; simp at hq
  | some m =>
    rw [hg] at hq
    simp at hq
    subst hq
    rw [(hf m).1] at hb
    rw [(hf m).2]
    exact h x m y hg hb

theorem Good.enter [DecidableEq κ] [DecidableEq φ] {d : Domain σ α φ} {c : Config σ κ} {st : St σ α φ} (h : Good d c.key st.graph) (w : Nat) (s : σ) :
    Good d c.key (enter d c w s st).1.graph := by
  have h0 : Good d c.key (clearBits st.graph) := by
    unfold clearBits
    refine ⟨h.1.of_skel (map_get_of (fun n => ?_) _), h.2.map (fun n => ?_)⟩
    · rfl
    · exact ⟨rfl, rfl⟩
  obtain ⟨nov, table, g', root, e, h1⟩ := enter_cases d c w s st
  rw [e]
  have : Good d c.key g' := by
    rcases h1 with ⟨_, rfl⟩ | ⟨hl, _, rfl⟩
    · refine h0.modify (fun n => ?_) root
      exact ⟨rfl, rfl⟩
    · exact ⟨h0.1.append rfl rfl fun i n hn => locate_none hl hn, h0.2.append rfl⟩
  refine this.modify (fun n => ?_) root
  exact ⟨rfl, rfl⟩

theorem Good.solveWidth [DecidableEq κ] [DecidableEq φ] {d : Domain σ α φ} {c : Config σ κ} {fuel w : Nat} {s : σ} {st st' : St σ α φ} {b : Bool}
    (h : Good d c.key st.graph) (hs : solveWidth d c fuel w s st = some (.ok (st', b))) : Good d c.key st'.graph := by
  obtain ⟨st1, h1, rfl, _⟩ := solveWidth_ok hs
  refine rollouts_ind (fun st => Good d c.key st.graph) (fun st hp => hp) ?_ _ _ st1 (h.enter w s) h1
  intro st st' n hp _ _ hr
  unfold rollout at hr
  exact walk_ind (fun st => Good d c.key st.graph) (fun _ _ => True) (fun st i st' hp _ hs => hp.step hs)
    (fun st i st' j hp _ hs => ⟨hp.step hs, trivial⟩) fuel _ { st with rollouts := st.rollouts + 1 } st' hp trivial hr

theorem Good.solve [DecidableEq κ] [DecidableEq φ] {d : Domain σ α φ} {c : Config σ κ} {fuel : Nat} {s : σ} {st st' : St σ α φ} {b : Bool}
    (h : Good d c.key st.graph) (hs : solve d c fuel s st = some (.ok (st', b))) : Good d c.key st'.graph := by
  unfold Riw.solve at hs
  exact widths_ind (fun st => Good d c.key st.graph) (fun _ _ _ _ hp hw => hp.solveWidth hw) _ _ { st with rollouts := 0, table := [] } st' b h hs

theorem Good.getBestAction [DecidableEq κ] {d : Domain σ α φ} {c : Config σ κ} {st st' : St σ α φ} {s : σ} {a : α}
    (h : Good d c.key st.graph) (hs : getBestAction c st s = .ok (a, st')) : Good d c.key st'.graph := by
  have hup : ∀ sub : List Nat, Good d c.key (updateGraph c st sub).graph := by
    intro sub
    have h1 : ∀ (l : List Nat) (g : Graph σ α), Good d c.key g →
        Good d c.key (l.foldl (fun g i => g.modify i fun n => { n with depth := sizeSub n.depth 1 }) g) := by
      intro l
      induction l with
      | nil => intro g hg; exact hg
      | cons x l ih =>
        intro g hg
        refine ih _ (hg.modify (fun n => ?_) x)
        exact ⟨rfl, rfl⟩
    have h2 := h1 (c.order sub) st.graph h
    exact ⟨h2.1.of_skel (skel_of_bare (backupValues_bare _ _ _ _)), backupValues_best h2.2⟩
  unfold Riw.getBestAction at hs
  split at hs
  · simp at hs
  · split at hs
    · simp at hs
    · split at hs
      · simp at hs
      · split at hs
        · simp at hs
        · simp at hs
        · simp only [Except.ok.injEq, Prod.mk.injEq] at hs
          rw [← hs.2]
          exact hup _

end Verif.Riw
