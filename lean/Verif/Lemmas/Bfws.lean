import Verif.Model.Bfws
import Verif.Lemmas.PlanGraph
import Verif.Lemmas.PlanHeap
import Mathlib.Data.List.Induction
import Mathlib.Tactic.Linarith

/-! Invariants of the model of bfws.hh. -/
namespace Verif.Bfws
open Verif.Search
open Verif.PlanGraph
variable [DecidableEq σ] [DecidableEq φ] {d : Domain σ α φ} {Q : Queue σ} {s0 : σ}

/-- The graph and the lists of a search from `s0`; the node `cur` still has the actions `todo`
to be tried. -/
structure Ok (d : Domain σ α φ) (s0 cur : σ) (todo : List α) (st : St σ α φ) : Prop where
  nosolved : ∀ x, (node st.graph x).solved = false ∧ (node st.graph x).bestAction = none
  root : s0 ∈ st.closed ∨ (st.closed = [] ∧ (∀ x ∈ st.queue, x = s0) ∧ s0 ∈ st.queue)
  links : Links d.toProblem s0 st.graph
  fromClosed : ∀ x u a c, x ≠ s0 → (node st.graph x).bestParent = some (u, a, c) → u ∈ st.closed
  up : ∀ x, st.graph.contains x = true → ∃ k, Up st.graph s0 k x
  known : ∀ x ∈ st.closed, st.graph.contains x = true
  inGraph : ∀ x ∈ st.queue, st.graph.contains x = true
  nogoal : ∀ x ∈ st.closed, d.goal x = false
  nodup : st.closed.Nodup
  heur : ∀ x ∈ st.queue, (node st.graph x).heuristic = d.heuristic x
  succ : ∀ u ∈ st.closed, ∀ a ∈ d.actions u, (u = cur ∧ a ∈ todo) ∨ d.next u a ∈ st.closed ∨ d.next u a ∈ st.queue

/-- What one action does. -/
structure Tried (d : Domain σ α φ) (Q : Queue σ) (cur : σ) (a : α) (st st' : St σ α φ) : Prop where
  closed : st'.closed = st.closed
  contains : ∀ x, st'.graph.contains x = (decide (x = d.next cur a) || st.graph.contains x)
  other : ∀ x, x ≠ d.next cur a → node st'.graph x = node st.graph x
  fields : (node st'.graph (d.next cur a)).solved = (node st.graph (d.next cur a)).solved ∧
    (node st'.graph (d.next cur a)).bestAction = (node st.graph (d.next cur a)).bestAction
  link : ((node st'.graph (d.next cur a)).bestParent = some (cur, a, d.cost cur a (d.next cur a)) ∧ d.next cur a ∉ st.closed) ∨
    ((node st'.graph (d.next cur a)).bestParent = (node st.graph (d.next cur a)).bestParent ∧
      (d.next cur a ∉ st.closed → st.graph.contains (d.next cur a) = true))
  step : (d.next cur a ∈ st.closed ∧ st'.queue = st.queue ∧ node st'.graph (d.next cur a) = node st.graph (d.next cur a)) ∨
    (d.next cur a ∉ st.closed ∧ st'.queue = Q.push (worse st'.graph) st.queue (d.next cur a) ∧
      (node st'.graph (d.next cur a)).heuristic = d.heuristic (d.next cur a))

theorem tryAction_spec (cur : σ) (a : α) (st : St σ α φ) : Tried d Q cur a st (tryAction d Q cur st a) := by
  rw [tryAction]
  simp only
  generalize hn : d.next cur a = n
  generalize hG : (if (!st.graph.contains n) = true then st.graph.set n {} else st.graph) = G
  have hGn : ∀ x, node G x = node st.graph x := by
    intro x
    rw [← hG]
    split
    · rename_i hc
      rw [node_set]
      split
      · rename_i hx; subst hx
        rw [node_not_contains (by simpa using hc)]
      · rfl
    · rfl
  have hGc : ∀ x, G.contains x = (decide (x = n) || st.graph.contains x) := by
    intro x
    rw [← hG]
    split
    · rw [contains_set]
    · rename_i hc
      by_cases hx : x = n
      · subst hx; simpa using hc
      · simp [hx]
  split
  · rename_i hc
    exact ⟨rfl, fun x => by rw [hn]; exact hGc x, fun x _ => hGn x, by simp [hn, hGn], .inr ⟨by simp [hn, hGn], fun h => absurd (hn ▸ hc) h⟩,
      .inl ⟨hn ▸ hc, rfl, by simp [hn, hGn]⟩⟩
  · rename_i hc
    have hset : ∀ nd : Node σ α, ∀ x, Dict.contains (G.set n nd) x = (decide (x = n) || st.graph.contains x) := by
      intro nd x
      rw [contains_set, hGc]
      by_cases hx : x = n <;> simp [hx]
    refine ⟨rfl, fun x => by rw [hn]; exact hset _ x, fun x hx => ?_, ?_, ?_, .inr ⟨hn ▸ hc, by rw [hn], ?_⟩⟩
    · rw [node_set, if_neg (by rw [← hn]; exact hx), hGn]
    · rw [hn, node_set, if_pos rfl, ← hGn]
      split <;> exact ⟨rfl, rfl⟩
    · rw [hn, node_set, if_pos rfl, ← hGn]
      split
      · exact .inl ⟨rfl, hc⟩
      · rename_i h
        refine .inr ⟨rfl, fun _ => ?_⟩
        simp only [Bool.or_eq_true, not_or, Bool.not_eq_true', Bool.not_eq_false] at h
        exact h.1
    · rw [hn, node_set, if_pos rfl]

omit [DecidableEq φ] in
theorem Ok.try (hQ : Q.Lawful) {cur : σ} {a : α} {todo : List α} {st st' : St σ α φ} (ho : Ok d s0 cur (a :: todo) st) (hcur : cur ∈ st.closed)
    (ha : a ∈ d.actions cur) (h : Tried d Q cur a st st') : Ok d s0 cur todo st' := by
  have hs0 : s0 ∈ st.closed := by
    rcases ho.root with h | ⟨h, _⟩
    · exact h
    · rw [h] at hcur; cases hcur
  have hqs : ∀ x, x ∈ st'.queue ↔ x ∈ st.queue ∨ (x = d.next cur a ∧ d.next cur a ∉ st.closed) := by
    intro x
    rcases h.step with ⟨h1, h2, _⟩ | ⟨h1, h2, _⟩
    · rw [h2]; simp [h1]
    · rw [h2, (hQ.push _ _ _).mem_iff, List.mem_cons]
      simp only [h1, not_false_eq_true, and_true]
      exact or_comm
  have hmono : ∀ x, st.graph.contains x = true → st'.graph.contains x = true := fun x hx => by rw [h.contains, hx, Bool.or_true]
  refine ⟨?_, .inl (by rw [h.closed]; exact hs0), ?_, ?_, ?_, ?_, ?_, ?_, ?_, ?_, ?_⟩
  · intro x
    by_cases hx : x = d.next cur a
    · subst hx; rw [h.fields.1, h.fields.2]; exact ho.nosolved _
    · rw [h.other x hx]; exact ho.nosolved x
  · intro x u b c hx hp
    by_cases hxn : x = d.next cur a
    · subst hxn
      rcases h.link with ⟨l1, _⟩ | ⟨l1, _⟩
      · rw [l1] at hp
        simp only [Option.some.injEq, Prod.mk.injEq] at hp
        obtain ⟨rfl, rfl, rfl⟩ := hp
        exact ⟨hmono _ (ho.known _ hcur), ha, rfl, rfl⟩
      · rw [l1] at hp
        obtain ⟨a1, a2⟩ := ho.links _ u b c hx hp
        exact ⟨hmono _ a1, a2⟩
    · rw [h.other x hxn] at hp
      obtain ⟨a1, a2⟩ := ho.links _ u b c hx hp
      exact ⟨hmono _ a1, a2⟩
  · intro x u b c hx hp
    rw [h.closed]
    by_cases hxn : x = d.next cur a
    · subst hxn
      rcases h.link with ⟨l1, _⟩ | ⟨l1, _⟩
      · rw [l1] at hp
        simp only [Option.some.injEq, Prod.mk.injEq] at hp
        rw [← hp.1]; exact hcur
      · rw [l1] at hp; exact ho.fromClosed _ u b c hx hp
    · rw [h.other x hxn] at hp; exact ho.fromClosed _ u b c hx hp
  · intro x hx
    rcases h.link with ⟨l1, l2⟩ | ⟨l1, l2⟩
    · have hn0 : d.next cur a ≠ s0 := fun e => l2 (e ▸ hs0)
      have hbp : ∀ y, y ≠ d.next cur a → (node st'.graph y).bestParent = (node st.graph y).bestParent := fun y hy => by rw [h.other y hy]
      obtain ⟨kc, hkc⟩ := ho.up cur (ho.known cur hcur)
      have hD : ∀ y u b c, y ∈ st.closed → y ≠ s0 → (node st.graph y).bestParent = some (u, b, c) → u ∈ st.closed := fun y u b c _ hy hp => ho.fromClosed y u b c hy hp
      by_cases hxn : x = d.next cur a
      · subst hxn
        exact ⟨kc + 1, .step hn0 l1 (hkc.within (· ∈ st.closed) hD hcur (fun y hy => hbp y (by rintro rfl; exact l2 hy)))⟩
      · rw [h.contains] at hx
        have hx' : st.graph.contains x = true := by simpa [hxn] using hx
        obtain ⟨k, hk⟩ := ho.up x hx'
        exact up_reparent (· ∈ st.closed) hD hcur l2 hn0 hbp l1 hkc hk
    · have hx' : st.graph.contains x = true := by
        rw [h.contains] at hx
        by_cases hxn : x = d.next cur a
        · subst hxn
          by_cases hc : d.next cur a ∈ st.closed
          · exact ho.known _ hc
          · exact l2 hc
        · simpa [hxn] using hx
      obtain ⟨k, hk⟩ := ho.up x hx'
      refine ⟨k, hk.congr fun y => ?_⟩
      by_cases hy : y = d.next cur a
      · subst hy; exact l1
      · rw [h.other y hy]
  · intro x hx
    rw [h.closed] at hx
    exact hmono _ (ho.known x hx)
  · intro x hx
    rcases (hqs x).1 hx with hx | ⟨rfl, _⟩
    · exact hmono _ (ho.inGraph x hx)
    · rw [h.contains]; simp
  · rw [h.closed]; exact ho.nogoal
  · rw [h.closed]; exact ho.nodup
  · intro x hx
    by_cases hxn : x = d.next cur a
    · subst hxn
      rcases h.step with ⟨h1, h2, h3⟩ | ⟨_, _, h3⟩
      · rw [h2] at hx; rw [h3]; exact ho.heur _ hx
      · exact h3
    · rw [h.other x hxn]
      rcases (hqs x).1 hx with hx | ⟨hx, _⟩
      · exact ho.heur x hx
      · exact absurd hx hxn
  · intro u hu b hb
    rw [h.closed] at hu ⊢
    have hq : ∀ x, x ∈ st.queue → x ∈ st'.queue := fun x hx => (hqs x).2 (.inl hx)
    rcases ho.succ u hu b hb with ⟨h1, h2⟩ | h1 | h1
    · rcases List.mem_cons.1 h2 with rfl | h2
      · subst h1
        by_cases hc : d.next u b ∈ st.closed
        · exact .inr (.inl hc)
        · exact .inr (.inr ((hqs _).2 (.inr ⟨rfl, hc⟩)))
      · exact .inl ⟨h1, h2⟩
    · exact .inr (.inl h1)
    · exact .inr (.inr (hq _ h1))

/-- All the actions of a node, with any property of the state. -/
theorem fold_ind (hQ : Q.Lawful) {cur : σ} (R : List α → St σ α φ → Prop)
    (hR : ∀ a todo st st', Ok d s0 cur (a :: todo) st → cur ∈ st.closed → a ∈ d.actions cur → Tried d Q cur a st st' → Ok d s0 cur todo st' →
      R (a :: todo) st → R todo st')
    (todo : List α) (st : St σ α φ) (ho : Ok d s0 cur todo st) (hcur : cur ∈ st.closed) (htodo : ∀ a ∈ todo, a ∈ d.actions cur) (h : R todo st) :
    Ok d s0 cur [] (todo.foldl (tryAction d Q cur) st) ∧ R [] (todo.foldl (tryAction d Q cur) st) ∧
      (todo.foldl (tryAction d Q cur) st).closed = st.closed := by
  induction todo generalizing st with
  | nil => exact ⟨ho, h, rfl⟩
  | cons a todo ih =>
    have ht := tryAction_spec (d := d) (Q := Q) cur a st
    have ho' := ho.try hQ hcur (htodo a (by simp)) ht
    obtain ⟨h1, h2, h3⟩ := ih _ ho' (by rw [ht.closed]; exact hcur) (fun b hb => htodo b (List.mem_cons_of_mem _ hb))
      (hR a todo st _ ho hcur (htodo a (by simp)) ht ho' h)
    exact ⟨h1, h2, h3.trans ht.closed⟩

omit [DecidableEq φ] in
/-- Nothing is left to do in the node expanded before, so it may be any. -/
theorem Ok.any {cur cur' : σ} {st : St σ α φ} (h : Ok d s0 cur [] st) : Ok d s0 cur' [] st :=
  { h with succ := fun u hu a ha => (h.succ u hu a ha).imp (fun h => absurd h.2 List.not_mem_nil) id }

omit [DecidableEq φ] in
theorem Ok.drop {cur x : σ} {q : List σ} {st : St σ α φ} (h : Ok d s0 cur [] st) (hp : st.queue.Perm (x :: q)) (hx : x ∈ st.closed) :
    Ok d s0 cur [] { st with queue := q } := by
  have hsub : ∀ y ∈ q, y ∈ st.queue := fun y hy => hp.mem_iff.2 (List.mem_cons_of_mem _ hy)
  refine ⟨h.nosolved, ?_, h.links, h.fromClosed, h.up, h.known, fun y hy => h.inGraph y (hsub y hy), h.nogoal, h.nodup, fun y hy => h.heur y (hsub y hy), ?_⟩
  · rcases h.root with h1 | ⟨h1, _⟩
    · exact .inl h1
    · rw [h1] at hx; cases hx
  · intro u hu a ha
    rcases h.succ u hu a ha with h1 | h1 | h1
    · exact .inl h1
    · exact .inr (.inl h1)
    · rcases List.mem_cons.1 (hp.mem_iff.1 h1) with h2 | h2
      · exact .inr (.inl (h2 ▸ hx))
      · exact .inr (.inr h2)

omit [DecidableEq φ] in
theorem Ok.opens {cur x : σ} {q : List σ} {st : St σ α φ} (h : Ok d s0 cur [] st) (hp : st.queue.Perm (x :: q)) (hx : x ∉ st.closed) (hg : d.goal x = false) :
    Ok d s0 x (d.actions x) { st with queue := q, closed := x :: st.closed } := by
  have hsub : ∀ y ∈ q, y ∈ st.queue := fun y hy => hp.mem_iff.2 (List.mem_cons_of_mem _ hy)
  have hxq : x ∈ st.queue := hp.mem_iff.2 (by simp)
  refine ⟨h.nosolved, ?_, h.links, fun y u a c h1 h2 => List.mem_cons_of_mem _ (h.fromClosed y u a c h1 h2), h.up, ?_, fun y hy => h.inGraph y (hsub y hy), ?_,
    List.nodup_cons.2 ⟨hx, h.nodup⟩, fun y hy => h.heur y (hsub y hy), ?_⟩
  · rcases h.root with h1 | ⟨_, h1, _⟩
    · exact .inl (List.mem_cons_of_mem _ h1)
    · rw [h1 x hxq]; exact .inl (by simp)
  · intro y hy
    rcases List.mem_cons.1 hy with rfl | hy
    · exact h.inGraph _ hxq
    · exact h.known y hy
  · intro y hy
    rcases List.mem_cons.1 hy with rfl | hy
    · exact hg
    · exact h.nogoal y hy
  · intro u hu a ha
    rcases List.mem_cons.1 hu with rfl | hu
    · exact .inl ⟨rfl, ha⟩
    · rcases h.succ u hu a ha with ⟨_, h1⟩ | h1 | h1
      · cases h1
      · exact .inr (.inl (List.mem_cons_of_mem _ h1))
      · rcases List.mem_cons.1 (hp.mem_iff.1 h1) with h2 | h2
        · exact .inr (.inl (by rw [h2]; simp))
        · exact .inr (.inr h2)

/-- The outcome of the loop. -/
inductive Ends (d : Domain σ α φ) (s0 : σ) (st1 : St σ α φ) : Except PyErr (St σ α φ) → Prop
  | empty : st1.queue = [] → Ends d s0 st1 (.ok st1)
  | goal (cur : σ) (st' : St σ α φ) (as : List α) : cur ∈ st1.queue → d.goal cur = true → Tells d.toProblem s0 st'.graph as →
    as.length ≤ st1.closed.length → Ends d s0 st1 (.ok st')

omit [DecidableEq φ] in
/-- Plans spelt by the parents go through expanded nodes only. -/
theorem Ok.closed_of_spells {cur x : σ} {todo : List α} {st : St σ α φ} (h : Ok d s0 cur todo st) {as : List α} (hs : Spells d.toProblem s0 st.graph x as)
    {pre post : List α} {a : α} (he : as = pre ++ a :: post) : d.walk s0 pre ∈ st.closed := by
  have h1 := (hs.parent pre a post he).2
  refine h.fromClosed _ _ _ _ ?_ h1
  intro e
  have hu := hs.up (pre ++ [a]) post (by rw [he]; simp)
  rw [e] at hu
  have := hu.unique .root
  simp at this

/-- A goal popped from the queue ends the search with a plan. -/
theorem loop_goal (hQ : Q.Lawful) (h0 : d.goal s0 = false) (fuel : Nat) {st : St σ α φ} (ho : Ok d s0 s0 [] st) {cur : σ} {q : List σ}
    (hp : Q.pop (worse st.graph) st.queue = some (cur, q)) (hg : d.goal cur = true) :
    ∃ st' as, loop d Q s0 (fuel + 1) st = some (.ok st') ∧ cur ∈ st.queue ∧ Tells d.toProblem s0 st'.graph as ∧ as.length ≤ st.closed.length := by
  have hperm := hQ.pop _ _ _ _ hp
  have hc : cur ∉ st.closed := fun h => by rw [ho.nogoal cur h] at hg; cases hg
  have hsol := (ho.nosolved cur).1
  have hcq : cur ∈ st.queue := hperm.mem_iff.2 (by simp)
  have hin := ho.inGraph cur hcq
  have hne : cur ≠ s0 := by rintro rfl; rw [h0] at hg; cases hg
  obtain ⟨k, hk⟩ := ho.up cur hin
  obtain ⟨as, hlen, hs⟩ := hk.spells ho.links
  have hcl : ∀ pre a post, as = pre ++ a :: post → d.walk s0 pre ∈ st.closed := fun pre a post he => ho.closed_of_spells hs he
  obtain ⟨g', m1, m2, _⟩ := tells_of_mark (g := st.graph) (g1 := st.graph.set cur { node st.graph cur with fscore := some 0 }) hs hne hin hg
    (fun pre a post he => ho.nogoal _ (hcl pre a post he)) (fun y => (ho.nosolved y).2)
    (by
      intro y
      rw [node_set, contains_set]
      by_cases hy : y = cur
      · subst hy; simp [hin]
      · simp [hy])
    (by rw [node_set, if_pos rfl])
  refine ⟨{ st with queue := q, graph := g' }, as, ?_, hcq, m2, ?_⟩
  · rw [loop, hp]
    simp only
    rw [if_neg hc, if_pos (by rw [hg]; rfl), if_neg (by rw [hsol]; simp)]
    rw [m1]
  · have hsub : ((List.range as.length).map fun i => d.walk s0 (as.take i)) ⊆ st.closed := by
      intro y hy
      obtain ⟨i, hi, rfl⟩ := List.mem_map.1 hy
      have hi := List.mem_range.1 hi
      exact hcl (as.take i) as[i] (as.drop (i + 1)) (by simp)
    have hnd : ((List.range as.length).map fun i => d.walk s0 (as.take i)).Nodup := by
      refine List.Nodup.map_on ?_ List.nodup_range
      intro i hi j hj he
      have hi := List.mem_range.1 hi
      have hj := List.mem_range.1 hj
      have := (hs.distinct (List.take_append_drop i as).symm (List.take_append_drop j as).symm he).1
      have := congrArg List.length this
      simp only [List.length_take] at this
      omega
    have := hnd.length_le_of_subset hsub
    simpa using this

/-- The search as long as it has fuel, with any property that expansions keep. -/
theorem loop_ind (hQ : Q.Lawful) (h0 : d.goal s0 = false) (P : St σ α φ → Prop)
    (hdrop : ∀ st cur q, Ok d s0 s0 [] st → P st → Q.pop (worse st.graph) st.queue = some (cur, q) → cur ∈ st.closed → P { st with queue := q })
    (hopen : ∀ st cur q, Ok d s0 s0 [] st → P st → Q.pop (worse st.graph) st.queue = some (cur, q) → cur ∉ st.closed → d.goal cur = false →
      P ((d.actions cur).foldl (tryAction d Q cur) { st with queue := q, closed := cur :: st.closed }))
    (fuel : Nat) (st : St σ α φ) (ho : Ok d s0 s0 [] st) (h : P st) :
    loop d Q s0 fuel st = none ∨ ∃ st1 r, loop d Q s0 fuel st = some r ∧ Ok d s0 s0 [] st1 ∧ P st1 ∧ Ends d s0 st1 r := by
  induction fuel generalizing st with
  | zero => exact .inl rfl
  | succ fuel ih =>
    rw [loop]
    cases hp : Q.pop (worse st.graph) st.queue with
    | none => exact .inr ⟨st, _, rfl, ho, h, .empty (hQ.popNone _ _ hp)⟩
    | some cq =>
      obtain ⟨cur, q⟩ := cq
      have hperm := hQ.pop _ _ _ _ hp
      simp only
      by_cases hc : cur ∈ st.closed
      · rw [if_pos hc]
        exact ih _ (ho.drop hperm hc) (hdrop st cur q ho h hp hc)
      · rw [if_neg hc]
        have hsol := (ho.nosolved cur).1
        by_cases hg : d.goal cur = true
        · obtain ⟨st', as, g1, g2, g3, g4⟩ := loop_goal hQ h0 fuel ho hp hg
          rw [loop, hp] at g1
          simp only at g1
          rw [if_neg hc] at g1
          exact .inr ⟨st, _, g1, ho, h, .goal cur _ as g2 hg g3 g4⟩
        · have hg' : d.goal cur = false := by simpa using hg
          rw [if_neg (by rw [hg', hsol]; simp)]
          have h1 := (fold_ind hQ (fun _ _ => True) (fun _ _ _ _ _ _ _ _ _ _ => trivial) (d.actions cur) _ (ho.opens hperm hc hg') (by simp)
            (fun a ha => ha) trivial).1
          exact ih _ h1.any (hopen st cur q ho h hp hc hg')

/-- The search from a fresh graph. -/
def start (d : Domain σ α φ) (Q : Queue σ) (s0 : σ) : St σ α φ :=
  let r := novelty ([] : PairMap φ) (d.heuristic s0) (d.features s0)
  let graph := (Dict.set ([] : Graph σ α) s0 {}).set s0 { gscore := some 0, heuristic := d.heuristic s0, novelty := some r.1 }
  { graph := graph, queue := Q.push (worse graph) [] s0, map := r.2 }

theorem solve_eq (h0 : d.goal s0 = false) (fuel : Nat) : solve d Q fuel [] s0 = (loop d Q s0 fuel (start d Q s0)).map (·.map St.graph) := by
  have hnode : node (Dict.set ([] : Graph σ α) s0 {}) s0 = {} := by rw [node_set, if_pos rfl]
  simp only [solve, Dict.contains, Bool.false_eq_true, if_false, start]
  rw [hnode]
  simp only [h0, Bool.or_false, Bool.false_eq_true, if_false]
  generalize loop d Q s0 fuel _ = r
  cases r with
  | none => rfl
  | some r => cases r <;> rfl

theorem start_node (x : σ) : node (start d Q s0).graph x = if x = s0 then
    { gscore := some 0, heuristic := d.heuristic s0, novelty := some (novelty ([] : PairMap φ) (d.heuristic s0) (d.features s0)).1 } else {} := by
  rw [start]
  simp only
  rw [node_set]
  split
  · rfl
  · rename_i h; rw [node_set, if_neg h]; rfl

theorem start_contains (x : σ) : (start d Q s0).graph.contains x = true ↔ x = s0 := by
  rw [start]
  simp only
  rw [contains_set, contains_set]
  simp [Dict.contains]

theorem start_queue (hQ : Q.Lawful) : (start d Q s0).queue.Perm [s0] := hQ.push _ _ _

theorem start_ok (hQ : Q.Lawful) : Ok d s0 s0 [] (start d Q s0) := by
  have hq := start_queue (d := d) (s0 := s0) hQ
  have hmem : ∀ x, x ∈ (start d Q s0).queue ↔ x = s0 := fun x => by rw [hq.mem_iff]; simp
  have hcl : (start d Q s0).closed = [] := rfl
  have hb : ∀ x, (node (start d Q s0).graph x).bestParent = none := by
    intro x; rw [start_node]; split <;> rfl
  refine ⟨?_, .inr ⟨hcl, fun x hx => (hmem x).1 hx, (hmem s0).2 rfl⟩, ?_, ?_, ?_, ?_, ?_, ?_, ?_, ?_, ?_⟩
  · intro x; rw [start_node]; split <;> exact ⟨rfl, rfl⟩
  · intro x u a c _ hp; rw [hb] at hp; cases hp
  · intro x u a c _ hp; rw [hb] at hp; cases hp
  · intro x hx; rw [(start_contains x).1 hx]; exact ⟨0, .root⟩
  · rw [hcl]; intro x hx; cases hx
  · intro x hx; exact (start_contains x).2 ((hmem x).1 hx)
  · rw [hcl]; intro x hx; cases hx
  · rw [hcl]; exact List.nodup_nil
  · intro x hx; rw [(hmem x).1 hx, start_node, if_pos rfl]
  · rw [hcl]; intro x hx; cases hx

/-! ### Finite domains -/

/-- Entries of the queue and actions not yet tried. -/
def pending (d : Domain σ α φ) (S : List σ) (st : St σ α φ) : Nat :=
  st.queue.length + ((S.filter fun x => x ∉ st.closed).map fun x => (d.actions x).length).sum

omit [DecidableEq φ] in
theorem sum_close (S cl : List σ) (cur : σ) (hS : cur ∈ S) (hc : cur ∉ cl) :
    ((S.filter fun x => x ∉ cur :: cl).map fun x => (d.actions x).length).sum + (d.actions cur).length ≤
      ((S.filter fun x => x ∉ cl).map fun x => (d.actions x).length).sum := by
  have hle : ∀ S : List σ, ((S.filter fun x => x ∉ cur :: cl).map fun x => (d.actions x).length).sum ≤
      ((S.filter fun x => x ∉ cl).map fun x => (d.actions x).length).sum := by
    intro S
    induction S with
    | nil => simp
    | cons y S ih =>
      rw [List.filter_cons, List.filter_cons]
      by_cases h1 : y ∈ cl
      · simpa [h1] using ih
      · by_cases h2 : y = cur
        · subst h2; simp [h1]; simp at ih; omega
        · simp [h1, h2]; simp at ih; omega
  induction S with
  | nil => cases hS
  | cons y S ih =>
    rw [List.filter_cons, List.filter_cons]
    by_cases h2 : y = cur
    · subst h2
      have := hle S
      simp [hc]; simp at this; omega
    · have hS' : cur ∈ S := (List.mem_cons.1 hS).resolve_left (Ne.symm h2)
      have := ih hS'
      by_cases h1 : y ∈ cl
      · simpa [h1] using this
      · simp [h1, h2]; simp at this; omega

theorem loop_total (hQ : Q.Lawful) (h0 : d.goal s0 = false) {S : List σ} (hcl : ∀ s ∈ S, d.goal s = false → ∀ a ∈ d.actions s, d.next s a ∈ S)
    (fuel : Nat) (st : St σ α φ) (ho : Ok d s0 s0 [] st) (hin : ∀ x ∈ st.queue, x ∈ S) (hf : pending d S st < fuel) :
    loop d Q s0 fuel st ≠ none := by
  induction fuel generalizing st with
  | zero => omega
  | succ fuel ih =>
    rw [loop]
    cases hp : Q.pop (worse st.graph) st.queue with
    | none => simp
    | some cq =>
      obtain ⟨cur, q⟩ := cq
      have hperm := hQ.pop _ _ _ _ hp
      have hlen := hperm.length_eq
      simp only [List.length_cons] at hlen
      have hcS : cur ∈ S := hin cur (hperm.mem_iff.2 (by simp))
      have hqS : ∀ x ∈ q, x ∈ S := fun x hx => hin x (hperm.mem_iff.2 (List.mem_cons_of_mem _ hx))
      simp only
      by_cases hc : cur ∈ st.closed
      · rw [if_pos hc]
        refine ih _ (ho.drop hperm hc) hqS ?_
        simp only [pending] at hf ⊢
        omega
      · rw [if_neg hc]
        have hsol := (ho.nosolved cur).1
        by_cases hg : d.goal cur = true
        · obtain ⟨st', as, g1, g2, g3, g4⟩ := loop_goal hQ h0 fuel ho hp hg
          rw [loop, hp] at g1
          simp only at g1
          rw [if_neg hc] at g1
          rw [g1]
          simp
        · have hg' : d.goal cur = false := by simpa using hg
          rw [if_neg (by rw [hg', hsol]; simp)]
          obtain ⟨h1, ⟨h2, h3⟩, h4⟩ := fold_ind hQ (s0 := s0) (fun (t : List α) (s : St σ α φ) => s.queue.length + t.length ≤ q.length + (d.actions cur).length ∧ ∀ x ∈ s.queue, x ∈ S)
            (by
              intro a todo s s' _ _ ha ht _ ⟨b1, b2⟩
              simp only [List.length_cons] at b1
              rcases ht.step with ⟨_, e, _⟩ | ⟨_, e, _⟩
              · rw [e]; exact ⟨by omega, b2⟩
              · have hpp := hQ.push (worse s'.graph) s.queue (d.next cur a)
                rw [e]
                refine ⟨by rw [hpp.length_eq]; simp only [List.length_cons]; omega, fun x hx => ?_⟩
                rcases List.mem_cons.1 (hpp.mem_iff.1 hx) with rfl | hx
                · exact hcl cur hcS hg' a ha
                · exact b2 x hx)
            (d.actions cur) _ (ho.opens hperm hc hg') (by simp) (fun a ha => ha) ⟨by simp, hqS⟩
          refine ih _ h1.any h3 ?_
          have := sum_close (d := d) S st.closed cur hcS hc
          simp only [pending, h4] at hf ⊢
          simp only [List.length_nil] at h2
          omega

/-! ### The heuristic -/

/-- The score of a node is its heuristic value. -/
def key (st : St σ α φ) (x : σ) : Option Rat := some (node st.graph x).heuristic

omit [DecidableEq φ] in
theorem worse_agrees (st : St σ α φ) : Agrees (worse st.graph) (key st) := by
  constructor
  · intro a b h
    simp only [CppAStar.Le, CppAStar.less, key, worse, Bool.or_eq_true, Bool.and_eq_true, decide_eq_true_eq, decide_eq_false_iff_not] at h ⊢
    rcases h with h | ⟨h, _⟩ <;> linarith
  · intro a b h
    simp only [CppAStar.Le, CppAStar.less, key, worse, Bool.or_eq_false_iff, decide_eq_false_iff_not] at h ⊢
    exact h.1

omit [DecidableEq φ] in
theorem heap_try {cur : σ} {a : α} {todo : List α} {st st' : St σ α φ} (ho : Ok d s0 cur (a :: todo) st) (ho' : Ok d s0 cur todo st')
    (h : Tried d heap cur a st st') (hh : CppAStar.HeapOk (key st) st.queue) : CppAStar.HeapOk (key st') st'.queue := by
  have hsub : ∀ x ∈ st.queue, x ∈ st'.queue := by
    intro x hx
    rcases h.step with ⟨_, e, _⟩ | ⟨_, e, _⟩
    · rw [e]; exact hx
    · rw [e, (heap_lawful.push _ _ _).mem_iff]; exact List.mem_cons_of_mem _ hx
  have hk : CppAStar.HeapOk (key st') st.queue := by
    refine CppAStar.heapOk_congr (fun x hx => ?_) hh
    simp only [key, ho.heur x hx, ho'.heur x (hsub x hx)]
  rcases h.step with ⟨_, e, _⟩ | ⟨_, e, _⟩
  · rw [e]; exact hk
  · rw [e]; exact push_ok (worse_agrees st') hk _

/-- Where some action always lowers the heuristic by one, each node expanded is better than
those before. -/
theorem loop_greedy (h0 : d.goal s0 = false) (hnn : ∀ x, 0 ≤ d.heuristic x)
    (hdec : ∀ x, d.goal x = false → ∃ a ∈ d.actions x, d.heuristic (d.next x a) ≤ d.heuristic x - 1)
    (fuel : Nat) (st : St σ α φ) (ho : Ok d s0 s0 [] st) (hh : CppAStar.HeapOk (key st) st.queue) (v : Rat)
    (hx : ∃ x ∈ st.queue, d.heuristic x ≤ v) (hcl : ∀ y ∈ st.closed, v < d.heuristic y) (hlen : (st.closed.length : Rat) + v ≤ d.heuristic s0)
    (hf : v < fuel) :
    ∃ st' as, loop d heap s0 fuel st = some (.ok st') ∧ Tells d.toProblem s0 st'.graph as ∧ (as.length : Rat) ≤ d.heuristic s0 := by
  induction fuel generalizing st v with
  | zero =>
    obtain ⟨x, _, h⟩ := hx
    have := hnn x
    simp only [Nat.cast_zero] at hf
    linarith
  | succ fuel ih =>
    obtain ⟨x, hxq, hxv⟩ := hx
    have hv0 : 0 ≤ v := le_trans (hnn x) hxv
    cases hp : (heap : Queue σ).pop (worse st.graph) st.queue with
    | none =>
      rw [heap_lawful.popNone _ _ hp] at hxq
      cases hxq
    | some cq =>
      obtain ⟨cur, q⟩ := cq
      have hperm := heap_lawful.pop _ _ _ _ hp
      have hcq : cur ∈ st.queue := hperm.mem_iff.2 (by simp)
      obtain ⟨hh', hmin⟩ := pop_ok (worse_agrees st) hh hp
      have hcv : d.heuristic cur ≤ v := by
        have := hmin x hxq
        simp only [key, CppAStar.Le, CppAStar.less, decide_eq_false_iff_not, not_lt, ho.heur x hxq, ho.heur cur hcq] at this
        linarith
      have hc : cur ∉ st.closed := fun h => by have := hcl cur h; linarith
      by_cases hg : d.goal cur = true
      · obtain ⟨st', as, g1, _, g3, g4⟩ := loop_goal heap_lawful h0 fuel ho hp hg
        refine ⟨st', as, g1, g3, ?_⟩
        have : (as.length : Rat) ≤ st.closed.length := by exact_mod_cast g4
        linarith
      · have hg' : d.goal cur = false := by simpa using hg
        obtain ⟨a, ha, had⟩ := hdec cur hg'
        rw [loop, hp]
        simp only
        rw [if_neg hc, if_neg (by rw [hg', (ho.nosolved cur).1]; simp)]
        have hnc : d.next cur a ∉ cur :: st.closed := by
          intro h
          rcases List.mem_cons.1 h with h | h
          · rw [h] at had; linarith
          · have := hcl _ h; linarith
        obtain ⟨h1, ⟨h2, h3⟩, h4⟩ := fold_ind (d := d) heap_lawful (s0 := s0) (cur := cur) (fun (t : List α) (s : St σ α φ) => CppAStar.HeapOk (key s) s.queue ∧
            (a ∈ t ∨ d.next cur a ∈ s.queue ∨ d.next cur a ∈ s.closed))
          (by
            intro b todo s s' hb1 _ _ ht hb2 ⟨c1, c2⟩
            refine ⟨heap_try hb1 hb2 ht c1, ?_⟩
            have hsub : ∀ x ∈ s.queue, x ∈ s'.queue := by
              intro x hx
              rcases ht.step with ⟨_, e, _⟩ | ⟨_, e, _⟩
              · rw [e]; exact hx
              · rw [e, (heap_lawful.push _ _ _).mem_iff]; exact List.mem_cons_of_mem _ hx
            rcases c2 with c2 | c2 | c2
            · rcases List.mem_cons.1 c2 with rfl | c2
              · rcases ht.step with ⟨e, _, _⟩ | ⟨_, e, _⟩
                · exact .inr (.inr (by rw [ht.closed]; exact e))
                · exact .inr (.inl (by rw [e, (heap_lawful.push _ _ _).mem_iff]; simp))
              · exact .inl c2
            · exact .inr (.inl (hsub _ c2))
            · exact .inr (.inr (by rw [ht.closed]; exact c2)))
          (d.actions cur) _ (ho.opens hperm hc hg') (by simp) (fun a ha => ha) ⟨hh', .inl ha⟩
        refine ih _ h1.any h2 (d.heuristic cur - 1) ⟨d.next cur a, ?_, had⟩ ?_ ?_ ?_
        · rcases h3 with h3 | h3 | h3
          · cases h3
          · exact h3
          · rw [h4] at h3; exact absurd h3 hnc
        · rw [h4]
          intro y hy
          rcases List.mem_cons.1 hy with rfl | hy
          · linarith
          · have := hcl y hy; linarith
        · rw [h4]
          simp only [List.length_cons, Nat.cast_add, Nat.cast_one]
          linarith
        · simp only [Nat.cast_add, Nat.cast_one] at hf
          linarith

/-! ### Novelty -/

theorem fold_new (L : List (φ × Nat)) (hL : L.Nodup) (r : Nat × List (Nat × φ)) :
    let r' := L.foldl (fun (r : Nat × List (Nat × φ)) e => if (e.2, e.1) ∈ r.2 then r else (r.1 + 1, (e.2, e.1) :: r.2)) r
    r'.1 = r.1 + L.countP (fun e => decide ((e.2, e.1) ∉ r.2)) ∧ ∀ x, x ∈ r'.2 ↔ x ∈ r.2 ∨ (x.2, x.1) ∈ L := by
  induction L generalizing r with
  | nil => simp
  | cons e L ih =>
    obtain ⟨he, hL⟩ := List.nodup_cons.1 hL
    simp only [List.foldl_cons]
    by_cases h : (e.2, e.1) ∈ r.2
    · rw [if_pos h]
      obtain ⟨h1, h2⟩ := ih hL r
      refine ⟨by rw [h1, List.countP_cons]; simp [h], fun x => ?_⟩
      rw [h2, List.mem_cons]
      constructor
      · rintro (a | a)
        · exact .inl a
        · exact .inr (.inr a)
      · rintro (a | a | a)
        · exact .inl a
        · rw [← a] at h; exact .inl h
        · exact .inr a
    · rw [if_neg h]
      obtain ⟨h1, h2⟩ := ih hL (r.1 + 1, (e.2, e.1) :: r.2)
      refine ⟨?_, fun x => ?_⟩
      · rw [h1, List.countP_cons]
        simp only [h, not_false_eq_true, decide_true, if_true]
        have : L.countP (fun y => decide ((y.2, y.1) ∉ (e.2, e.1) :: r.2)) = L.countP (fun y => decide ((y.2, y.1) ∉ r.2)) := by
          apply List.countP_congr
          intro y hy
          have hye : y ≠ e := by rintro rfl; exact he hy
          have : (y.2, y.1) ≠ (e.2, e.1) := fun h => hye (by simp only [Prod.mk.injEq] at h; exact Prod.ext h.2 h.1)
          simp [List.mem_cons, this]
        rw [this]
        omega
      · rw [h2, List.mem_cons, List.mem_cons]
        constructor
        · rintro ((rfl | a) | a)
          · exact .inr (.inl rfl)
          · exact .inl a
          · exact .inr (.inr a)
        · rintro (a | a | a)
          · exact .inl (.inr a)
          · exact .inl (.inl (by rw [← a]))
          · exact .inr a

/-- The pairs stored after the calls `hist`. -/
def mapOf (hist : List (Rat × List φ)) : PairMap φ := hist.foldl (fun m e => (novelty m e.1 e.2).2) []

omit [DecidableEq φ] in
theorem nodup_zipIdx (fs : List φ) (k : Nat) : (fs.zipIdx k).Nodup := by
  induction fs generalizing k with
  | nil => simp
  | cons f fs ih =>
    rw [List.zipIdx_cons, List.nodup_cons]
    refine ⟨fun h => ?_, ih _⟩
    have := List.mem_zipIdx h
    omega

theorem novelty_mem (m : PairMap φ) (h h' : Rat) (fs : List φ) (x : Nat × φ) :
    x ∈ (((novelty m h fs).2).get? h').getD [] ↔ x ∈ (m.get? h').getD [] ∨ (h' = h ∧ fs[x.1]? = some x.2) := by
  simp only [novelty, Dict.get?_set]
  by_cases hh : h' = h
  · subst hh
    simp only [if_true, Option.getD_some, true_and]
    rw [(fold_new fs.zipIdx (nodup_zipIdx fs 0) _).2, List.mem_zipIdx_iff_getElem?]
  · simp [hh]

theorem mapOf_spec (hist : List (Rat × List φ)) (h : Rat) :
    ((mapOf hist).get? h = none ↔ ∀ e ∈ hist, e.1 ≠ h) ∧
    ∀ x : Nat × φ, x ∈ ((mapOf hist).get? h).getD [] ↔ ∃ e ∈ hist, e.1 = h ∧ e.2[x.1]? = some x.2 := by
  induction hist using List.reverseRecOn with
  | nil => simp [mapOf, Dict.get?_nil]
  | append_singleton hist e ih =>
    have hm : mapOf (hist ++ [e]) = (novelty (mapOf hist) e.1 e.2).2 := by simp [mapOf]
    rw [hm]
    constructor
    · simp only [novelty, Dict.get?_set]
      by_cases hh : h = e.1
      · subst hh
        simp only [if_true, reduceCtorEq, false_iff]
        exact fun a => a e (by simp) rfl
      · simp only [hh, if_false, ih.1, List.mem_append, List.mem_singleton]
        constructor
        · rintro a b (hb | rfl)
          · exact a b hb
          · exact Ne.symm hh
        · intro a b hb; exact a b (.inl hb)
    · intro x
      rw [novelty_mem, ih.2]
      simp only [List.mem_append, List.mem_singleton]
      constructor
      · rintro (⟨b, hb, hb'⟩ | ⟨rfl, hb⟩)
        · exact ⟨b, .inl hb, hb'⟩
        · exact ⟨e, .inr rfl, rfl, hb⟩
      · rintro ⟨b, hb | rfl, hb'⟩
        · exact .inl ⟨b, hb, hb'⟩
        · exact .inr ⟨hb'.1.symm, hb'.2⟩

end Verif.Bfws
