import Verif.Model.CppAStar
import Verif.Lemmas.Astar

/-! Invariants of the C++ A* solver started on an empty graph. -/
namespace Verif.CppAStar
open Verif.Search
variable [DecidableEq σ]

/-- A queue that loses and invents nothing. -/
structure Queue.Lawful (Q : Queue σ) : Prop where
  push : ∀ k l x, (Q.push k l x).Perm (x :: l)
  popNone : ∀ k l, Q.pop k l = none → l = []
  pop : ∀ k l x r, Q.pop k l = some (x, r) → l.Perm (x :: r)

/-- A queue that moreover always gives an element with the least key. -/
structure Queue.Min (Q : Queue σ) : Prop extends Q.Lawful where
  least : ∀ k l x r, Q.pop k l = some (x, r) → ∀ y ∈ l, less (k y) (k x) = false

theorem node_set (g : Graph σ α) (s t : σ) (n : Node σ α) :
    node (g.set s n) t = if t = s then n else node g t := by
  unfold node
  rw [Dict.get?_set]
  split <;> rfl

theorem contains_set (g : Graph σ α) (s t : σ) (n : Node σ α) :
    Dict.contains (g.set s n) t = (decide (t = s) || g.contains t) := by
  rw [Dict.contains_eq, Dict.contains_eq, Dict.get?_set]
  by_cases h : t = s <;> simp [h]

theorem node_not_contains {g : Graph σ α} {s : σ} (h : g.contains s = false) : node g s = {} := by
  rw [Dict.contains_eq] at h
  unfold node
  cases hg : g.get? s with
  | none => rfl
  | some n => rw [hg] at h; simp at h

/-- What one applicable action changes. -/
inductive Tried (p : Problem σ α) (h : σ → Rat) (Q : Queue σ) (cur : σ) (a : α) (st st' : St σ α) : Prop
  | same (eq : st' = st) (known : st.graph.contains (p.next cur a) = true)
      (no : p.next cur a ∈ st.closed ∨
        less (plus (node st.graph cur).gscore (p.cost cur a (p.next cur a))) (node st.graph (p.next cur a)).gscore = false)
  | better (open_ : p.next cur a ∉ st.closed)
      (closed : st'.closed = st.closed)
      (queue : st'.queue = Q.push (key st'.graph) st.queue (p.next cur a))
      (node_ : ∀ x, node st'.graph x = if x = p.next cur a then
        { node st.graph x with
          gscore := plus (node st.graph cur).gscore (p.cost cur a (p.next cur a))
          fscore := plus (plus (node st.graph cur).gscore (p.cost cur a (p.next cur a))) (h (p.next cur a))
          bestParent := some (cur, a, p.cost cur a (p.next cur a)) } else node st.graph x)
      (contains : ∀ x, st'.graph.contains x = (decide (x = p.next cur a) || st.graph.contains x))
      (why : st.graph.contains (p.next cur a) = false ∨
        less (plus (node st.graph cur).gscore (p.cost cur a (p.next cur a))) (node st.graph (p.next cur a)).gscore = true)

theorem tryAction_spec (p : Problem σ α) (h : σ → Rat) (Q : Queue σ) (cur : σ) (a : α) (st : St σ α)
    (hc : ∀ x ∈ st.closed, st.graph.contains x = true) (hcur : st.graph.contains cur = true) :
    Tried p h Q cur a st (tryAction p h Q cur st a) := by
  rw [tryAction]
  simp only
  by_cases hn : st.graph.contains (p.next cur a) = true
  · simp only [hn, Bool.not_true, Bool.false_eq_true, if_false, Bool.false_or]
    by_cases hcl : p.next cur a ∈ st.closed
    · rw [if_pos hcl]
      exact .same rfl hn (.inl hcl)
    · rw [if_neg hcl]
      by_cases hl : less (plus (node st.graph cur).gscore (p.cost cur a (p.next cur a))) (node st.graph (p.next cur a)).gscore = true
      · rw [if_pos hl]
        refine .better hcl rfl rfl ?_ ?_ (.inr hl)
        · intro x
          simp only [node_set]
          by_cases hx : x = p.next cur a
          · subst hx; simp
          · simp [hx]
        · intro x; simp only [contains_set]
      · rw [if_neg hl]
        exact .same rfl hn (.inr (by simpa using hl))
  · have hn' : st.graph.contains (p.next cur a) = false := by simpa using hn
    have hcl : p.next cur a ∉ st.closed := fun hx => hn (hc _ hx)
    have hne : cur ≠ p.next cur a := by rintro e; rw [← e] at hn; exact hn hcur
    simp only [hn', Bool.not_false, if_true, Bool.true_or]
    rw [if_neg hcl]
    refine .better hcl rfl rfl ?_ ?_ (.inl hn')
    · intro x
      simp only [node_set, if_true]
      rw [if_neg hne]
      by_cases hx : x = p.next cur a
      · subst hx; simp [node_not_contains hn']
      · simp [hx]
    · intro x; simp only [contains_set]; by_cases hx : x = p.next cur a <;> simp [hx]

/-- The state of a search begun on an empty graph; the actions `todo` of `cur` are still to be
looked at. -/
structure Inv (p : Problem σ α) (h : σ → Rat) (s0 : σ) (cur : σ) (todo : List α) (st : St σ α) : Prop where
  nosolved : ∀ x, (node st.graph x).solved = false ∧ (node st.graph x).bestAction = none
  root : st.graph.contains s0 = true ∧ (node st.graph s0).gscore = some 0 ∧ (node st.graph s0).fscore = some (h s0)
  began : s0 ∈ st.closed ∨ (st.closed = [] ∧ ∀ x, st.graph.contains x = true → x = s0)
  reached : ∀ x, st.graph.contains x = true → x ≠ s0 → ∃ u a gu, u ∈ st.closed ∧ a ∈ p.actions u ∧ p.next u a = x ∧
    (node st.graph x).bestParent = some (u, a, p.cost u a x) ∧ (node st.graph u).gscore = some gu ∧
    (node st.graph x).gscore = some (gu + p.cost u a x) ∧
    (node st.graph x).fscore = some (gu + p.cost u a x + h x)
  order : ∀ pre x post, st.closed = pre ++ x :: post → x ≠ s0 → ∃ u ac, (node st.graph x).bestParent = some (u, ac) ∧ u ∈ post
  nodup : st.closed.Nodup
  known : ∀ x ∈ st.closed, st.graph.contains x = true
  nogoal : ∀ x ∈ st.closed, p.goal x = false
  queued : ∀ x, st.graph.contains x = true → x ∈ st.closed ∨ x ∈ st.queue
  inGraph : ∀ x ∈ st.queue, st.graph.contains x = true
  succ : ∀ u ∈ st.closed, ∀ a ∈ p.actions u, (u = cur ∧ a ∈ todo) ∨ st.graph.contains (p.next u a) = true

theorem Inv.gsome {p : Problem σ α} {h : σ → Rat} {s0 cur : σ} {todo : List α} {st : St σ α}
    (hi : Inv p h s0 cur todo st) {x : σ} (hx : st.graph.contains x = true) :
    ∃ g, (node st.graph x).gscore = some g ∧ (node st.graph x).fscore = some (g + h x) := by
  by_cases h0 : x = s0
  · subst h0; exact ⟨0, hi.root.2.1, by rw [hi.root.2.2]; simp⟩
  · obtain ⟨u, a, gu, _, _, _, _, _, h1, h2⟩ := hi.reached x hx h0
    exact ⟨_, h1, h2⟩

theorem inv_try {p : Problem σ α} {h : σ → Rat} {Q : Queue σ} (hQ : Q.Lawful) {s0 cur : σ} {a : α} {todo : List α}
    {st : St σ α} (hi : Inv p h s0 cur (a :: todo) st) (hcur : cur ∈ st.closed) (ha : a ∈ p.actions cur) :
    Inv p h s0 cur todo (tryAction p h Q cur st a) ∧ (tryAction p h Q cur st a).closed = st.closed := by
  have hs0 : s0 ∈ st.closed := by
    rcases hi.began with h1 | ⟨h1, _⟩
    · exact h1
    · rw [h1] at hcur; cases hcur
  rcases tryAction_spec p h Q cur a st hi.known (hi.known _ hcur) with ⟨eq, known, no⟩ | ⟨op, hcl, hq, hn, hc, why⟩
  · rw [eq]
    refine ⟨{ hi with succ := ?_ }, rfl⟩
    intro u hu b hb
    rcases hi.succ u hu b hb with ⟨rfl, h1⟩ | h1
    · rcases List.mem_cons.1 h1 with rfl | h1
      · exact .inr known
      · exact .inl ⟨rfl, h1⟩
    · exact .inr h1
  · generalize tryAction p h Q cur st a = st' at *
    obtain ⟨gc, hgc, _⟩ := hi.gsome (hi.known _ hcur)
    have hclosed : ∀ x ∈ st.closed, node st'.graph x = node st.graph x := by
      intro x hx
      rw [hn, if_neg]
      rintro rfl; exact op hx
    have hmem : ∀ x, x ∈ st'.queue ↔ x = p.next cur a ∨ x ∈ st.queue := by
      intro x
      rw [hq, (hQ.push _ _ _).mem_iff, List.mem_cons]
    refine ⟨⟨?_, ?_, ?_, ?_, ?_, ?_, ?_, ?_, ?_, ?_, ?_⟩, hcl⟩
    · intro x
      rw [hn]
      split
      · exact hi.nosolved x
      · exact hi.nosolved x
    · rw [hclosed _ hs0, hc, hi.root.1, Bool.or_true]
      exact ⟨rfl, hi.root.2⟩
    · rw [hcl]; exact .inl hs0
    · intro x hx hx0
      rw [hcl]
      by_cases hxn : x = p.next cur a
      · subst hxn
        refine ⟨cur, a, gc, hcur, ha, rfl, ?_, ?_, ?_, ?_⟩
        · rw [hn, if_pos rfl]
        · rw [hclosed _ hcur]; exact hgc
        · rw [hn, if_pos rfl, hgc]; rfl
        · rw [hn, if_pos rfl, hgc]; rfl
      · rw [hc] at hx
        simp only [hxn, decide_false, Bool.false_or] at hx
        obtain ⟨u, b, gu, h1, h2, h3, h4, h5, h6, h7⟩ := hi.reached x hx hx0
        refine ⟨u, b, gu, h1, h2, h3, ?_, ?_, ?_, ?_⟩
        · rw [hn, if_neg hxn]; exact h4
        · rw [hclosed _ h1]; exact h5
        · rw [hn, if_neg hxn]; exact h6
        · rw [hn, if_neg hxn]; exact h7
    · intro pre x post hpp hx0
      rw [hcl] at hpp
      rw [hclosed x (by rw [hpp]; simp)]
      exact hi.order pre x post hpp hx0
    · rw [hcl]; exact hi.nodup
    · intro x hx
      rw [hcl] at hx
      rw [hc, hi.known x hx, Bool.or_true]
    · intro x hx
      rw [hcl] at hx
      exact hi.nogoal x hx
    · intro x hx
      rw [hc] at hx
      rw [hcl, hmem]
      by_cases hxn : x = p.next cur a
      · exact .inr (.inl hxn)
      · simp only [hxn, decide_false, Bool.false_or] at hx
        rcases hi.queued x hx with h1 | h1
        · exact .inl h1
        · exact .inr (.inr h1)
    · intro x hx
      rw [hc]
      rcases (hmem x).1 hx with h1 | h1
      · simp [h1]
      · simp [hi.inGraph x h1]
    · intro u hu b hb
      rw [hcl] at hu
      rw [hc]
      rcases hi.succ u hu b hb with ⟨rfl, h1⟩ | h1
      · rcases List.mem_cons.1 h1 with rfl | h1
        · exact .inr (by simp)
        · exact .inl ⟨rfl, h1⟩
      · exact .inr (by simp [h1])

theorem inv_fold {p : Problem σ α} {h : σ → Rat} {Q : Queue σ} (hQ : Q.Lawful) {s0 cur : σ} (todo : List α)
    {st : St σ α} (hi : Inv p h s0 cur todo st) (hcur : cur ∈ st.closed) (ha : ∀ a ∈ todo, a ∈ p.actions cur) :
    Inv p h s0 cur [] (todo.foldl (tryAction p h Q cur) st) ∧ (todo.foldl (tryAction p h Q cur) st).closed = st.closed := by
  induction todo generalizing st with
  | nil => exact ⟨hi, rfl⟩
  | cons a todo ih =>
    obtain ⟨h1, h2⟩ := inv_try hQ hi hcur (ha a (by simp))
    obtain ⟨h3, h4⟩ := ih h1 (by rw [h2]; exact hcur) (fun b hb => ha b (by simp [hb]))
    exact ⟨h3, h4.trans h2⟩

/-- The invariant between two rounds. -/
abbrev Ok (p : Problem σ α) (h : σ → Rat) (s0 : σ) (st : St σ α) : Prop := Inv p h s0 s0 [] st

theorem Inv.irrel {p : Problem σ α} {h : σ → Rat} {s0 c c' : σ} {st : St σ α} (hi : Inv p h s0 c [] st) :
    Inv p h s0 c' [] st := by
  refine { hi with succ := fun u hu a ha => ?_ }
  rcases hi.succ u hu a ha with ⟨_, h⟩ | h
  · cases h
  · exact .inr h

/-- Closing the popped node. -/
theorem inv_close {p : Problem σ α} {h : σ → Rat} {s0 cur : σ} {st : St σ α} {q : List σ} (hi : Ok p h s0 st)
    (hq : st.queue.Perm (cur :: q)) (hcl : cur ∉ st.closed) (hg : p.goal cur = false) :
    Inv p h s0 cur (p.actions cur) { st with queue := q, closed := cur :: st.closed } := by
  have hcg : st.graph.contains cur = true := hi.inGraph cur (hq.mem_iff.2 (by simp))
  refine ⟨hi.nosolved, hi.root, ?_, ?_, ?_, ?_, ?_, ?_, ?_, ?_, ?_⟩
  · rcases hi.began with h1 | ⟨_, h1⟩
    · exact .inl (List.mem_cons_of_mem _ h1)
    · rw [h1 cur hcg]; exact .inl (by simp)
  · intro x hx hx0
    obtain ⟨u, a, gu, h1, hrest⟩ := hi.reached x hx hx0
    exact ⟨u, a, gu, List.mem_cons_of_mem _ h1, hrest⟩
  · intro pre x post hpp hx0
    cases pre with
    | nil =>
      simp only [List.nil_append, List.cons.injEq] at hpp
      obtain ⟨rfl, rfl⟩ := hpp
      obtain ⟨u, a, gu, h1, _, _, h2, _⟩ := hi.reached cur hcg hx0
      exact ⟨u, _, h2, h1⟩
    | cons y pre =>
      simp only [List.cons_append, List.cons.injEq] at hpp
      exact hi.order pre x post hpp.2 hx0
  · exact List.nodup_cons.2 ⟨hcl, hi.nodup⟩
  · intro x hx
    rcases List.mem_cons.1 hx with rfl | hx
    · exact hcg
    · exact hi.known x hx
  · intro x hx
    rcases List.mem_cons.1 hx with rfl | hx
    · exact hg
    · exact hi.nogoal x hx
  · intro x hx
    show x ∈ cur :: st.closed ∨ x ∈ q
    rcases hi.queued x hx with h1 | h1
    · exact .inl (List.mem_cons_of_mem _ h1)
    · rcases List.mem_cons.1 (hq.mem_iff.1 h1) with rfl | h1
      · exact .inl (by simp)
      · exact .inr h1
  · intro x hx
    exact hi.inGraph x (hq.mem_iff.2 (List.mem_cons_of_mem _ hx))
  · intro u hu a ha
    rcases List.mem_cons.1 hu with rfl | hu
    · exact .inl ⟨rfl, ha⟩
    · rcases hi.succ u hu a ha with ⟨_, h⟩ | h
      · cases h
      · exact .inr h

theorem inv_expand {p : Problem σ α} {h : σ → Rat} {Q : Queue σ} (hQ : Q.Lawful) {s0 cur : σ} {st : St σ α} {q : List σ}
    (hi : Ok p h s0 st) (hq : st.queue.Perm (cur :: q)) (hcl : cur ∉ st.closed) (hg : p.goal cur = false) :
    Ok p h s0 (expand p h Q cur { st with queue := q }) ∧
      (expand p h Q cur { st with queue := q }).closed = cur :: st.closed := by
  obtain ⟨h1, h2⟩ := inv_fold hQ (p.actions cur) (inv_close hi hq hcl hg) (by simp) (fun _ h => h)
  exact ⟨h1.irrel, h2⟩

/-- Dropping a popped node that is closed already. -/
theorem inv_drop {p : Problem σ α} {h : σ → Rat} {s0 cur : σ} {st : St σ α} {q : List σ}
    (hi : Ok p h s0 st) (hq : st.queue.Perm (cur :: q)) (hcl : cur ∈ st.closed) :
    Ok p h s0 { st with queue := q } :=
  { hi with
    queued := fun x hx => by
      rcases hi.queued x hx with h1 | h1
      · exact .inl h1
      · rcases List.mem_cons.1 (hq.mem_iff.1 h1) with rfl | h1
        · exact .inl hcl
        · exact .inr h1
    inGraph := fun x hx => hi.inGraph x (hq.mem_iff.2 (List.mem_cons_of_mem _ hx)) }

/-- The state `solve` starts from. -/
def start (h : σ → Rat) (Q : Queue σ) (s0 : σ) : St σ α :=
  let g : Graph σ α := Dict.set (Dict.set [] s0 {}) s0 { (node (Dict.set [] s0 {}) s0 : Node σ α) with gscore := some 0, fscore := some (h s0) }
  { graph := g, queue := Q.push (key g) [] s0, closed := [] }

theorem solve_fresh (p : Problem σ α) (h : σ → Rat) (Q : Queue σ) (s0 : σ) (fuel : Nat) (hg : p.goal s0 = false) :
    solve p h Q [] s0 fuel = loop p h Q s0 fuel (start h Q s0) := by
  have hn : (node (Dict.set ([] : Graph σ α) s0 {}) s0).solved = false := by rw [node_set, if_pos rfl]
  have hc : ¬ ((node (Dict.set ([] : Graph σ α) s0 {}) s0).solved || p.goal s0) = true := by simp [hn, hg]
  show (if ((node (Dict.set ([] : Graph σ α) s0 {}) s0).solved || p.goal s0) = true then _ else _) = _
  rw [if_neg hc]
  rfl

theorem inv_start (p : Problem σ α) (h : σ → Rat) (Q : Queue σ) (hQ : Q.Lawful) (s0 : σ) :
    Ok p h s0 (start h Q s0) := by
  have hnode : ∀ x, node (start (α := α) h Q s0).graph x = if x = s0 then { gscore := some 0, fscore := some (h s0) } else {} := by
    intro x
    simp only [start, node_set]
    by_cases hx : x = s0
    · simp [hx]
    · simp [hx, node]
  have hcont : ∀ x, (start (α := α) h Q s0).graph.contains x = decide (x = s0) := by
    intro x
    simp only [start, contains_set, Dict.contains]
    simp
  have hq : ∀ x, x ∈ (start (α := α) h Q s0).queue ↔ x = s0 := by
    intro x
    rw [start, (hQ.push _ _ _).mem_iff]; simp
  refine ⟨?_, ?_, ?_, ?_, ?_, ?_, ?_, ?_, ?_, ?_, ?_⟩
  · intro x; rw [hnode]; split <;> exact ⟨rfl, rfl⟩
  · rw [hnode, hcont]; simp
  · exact .inr ⟨rfl, fun x hx => by rw [hcont] at hx; simpa using hx⟩
  · intro x hx h0; rw [hcont] at hx; simp at hx; exact absurd hx h0
  · intro pre x post hpp; simp [start] at hpp
  · simp [start]
  · intro x hx; simp [start] at hx
  · intro x hx; simp [start] at hx
  · intro x hx; rw [hcont] at hx; exact .inr ((hq x).2 (by simpa using hx))
  · intro x hx; rw [hcont]; simpa using (hq x).1 hx
  · intro u hu; simp [start] at hu

/-- The round in which the search stops. -/
inductive Stops (p : Problem σ α) (Q : Queue σ) (root : σ) (st : St σ α) : Except PyErr (Bool × Graph σ α) → Prop
  | empty (h : Q.pop (key st.graph) st.queue = none) : Stops p Q root st (.ok (false, st.graph))
  | goal (cur : σ) (q : List σ) (h : Q.pop (key st.graph) st.queue = some (cur, q)) (hc : cur ∉ st.closed)
      (hg : p.goal cur = true) :
      Stops p Q root st (do
        let g ← walk root st.graph.length cur (st.graph.set cur { node st.graph cur with fscore := some 0 })
        return (true, g))

/-- Either the rounds run out, or the search stops in a state satisfying any property that the
rounds preserve. -/
theorem loop_ind {p : Problem σ α} {h : σ → Rat} {Q : Queue σ} (hQ : Q.Lawful) {s0 : σ} (P : St σ α → Prop)
    (hdrop : ∀ st cur q, Ok p h s0 st → P st → Q.pop (key st.graph) st.queue = some (cur, q) → cur ∈ st.closed →
      P { st with queue := q })
    (hexp : ∀ st cur q, Ok p h s0 st → P st → Q.pop (key st.graph) st.queue = some (cur, q) → cur ∉ st.closed →
      p.goal cur = false → P (expand p h Q cur { st with queue := q }))
    (fuel : Nat) (st : St σ α) (hi : Ok p h s0 st) (hP : P st) :
    loop p h Q s0 fuel st = .error .runtimeError ∨
      ∃ st', Ok p h s0 st' ∧ P st' ∧ Stops p Q s0 st' (loop p h Q s0 fuel st) := by
  induction fuel generalizing st with
  | zero => exact .inl rfl
  | succ fuel ih =>
    rw [loop]
    cases hp : Q.pop (key st.graph) st.queue with
    | none => exact .inr ⟨st, hi, hP, .empty hp⟩
    | some r =>
      obtain ⟨cur, q⟩ := r
      have hperm := hQ.pop _ _ _ _ hp
      simp only
      by_cases hcl : cur ∈ st.closed
      · rw [if_pos hcl]
        exact ih _ (inv_drop hi hperm hcl) (hdrop st cur q hi hP hp hcl)
      · rw [if_neg hcl]
        have hns := (hi.nosolved cur).1
        by_cases hg : p.goal cur = true
        · rw [if_pos (by simp [hg]), if_neg (by rw [hns]; simp)]
          exact .inr ⟨st, hi, hP, .goal cur q hp hcl hg⟩
        · have hg' : p.goal cur = false := by simpa using hg
          rw [if_neg (by rw [hg', hns]; simp)]
          exact ih _ (inv_expand hQ hi hperm hcl hg').1 (hexp st cur q hi hP hp hcl hg')

end Verif.CppAStar
