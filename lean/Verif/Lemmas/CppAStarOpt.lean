import Verif.Lemmas.CppAStar
import Mathlib.Data.List.Perm.Subperm

/-! The walk back, termination and optimality of the C++ A* solver. -/
namespace Verif.CppAStar
open Verif.Search
variable [DecidableEq σ]

/-- Walking back from a node marks a path from the root to it. -/
theorem walk_spec {p : Problem σ α} {h : σ → Rat} {s0 : σ} {st : St σ α} (hi : Ok p h s0 st) (fuel : Nat) :
    ∀ (pre0 post : List σ) (x : σ) (g : Graph σ α) (v : Rat), st.closed = pre0 ++ post → post.length ≤ fuel →
    st.graph.contains x = true → (x = s0 ∨ ∃ u ac, (node st.graph x).bestParent = some (u, ac) ∧ u ∈ post) →
    (∀ y, (node g y).bestParent = (node st.graph y).bestParent ∧ Dict.contains g y = st.graph.contains y) →
    (node g x).fscore = some v →
    ∃ as g', walk s0 fuel x g = .ok g' ∧ p.Applicable s0 as ∧ p.walk s0 as = x ∧
      (node st.graph x).gscore = some (p.walkCost s0 as) ∧ (x ≠ s0 → as ≠ []) ∧
      (∀ pre a rest, as = pre ++ a :: rest → p.walk s0 pre ∈ post ∧
        (node st.graph (p.walk s0 (pre ++ [a]))).bestParent =
          some (p.walk s0 pre, a, p.cost (p.walk s0 pre) a (p.next (p.walk s0 pre) a)) ∧
        node g' (p.walk s0 pre) = { node g (p.walk s0 pre) with
          bestAction := some (p.walk s0 (pre ++ [a]))
          fscore := some (p.walkCost (p.walk s0 pre) (a :: rest) + v)
          solved := true }) ∧
      (∀ y, (∀ pre a rest, as = pre ++ a :: rest → y ≠ p.walk s0 pre) → node g' y = node g y) ∧
      (∀ y, (node g' y).bestParent = (node st.graph y).bestParent ∧ Dict.contains g' y = st.graph.contains y) := by
  induction fuel with
  | zero =>
    intro pre0 post x g v hcl hf hx hpar hg hv
    obtain rfl : post = [] := List.eq_nil_of_length_eq_zero (by omega)
    rcases hpar with rfl | ⟨u, ac, _, hu⟩
    · refine ⟨[], g, by simp [walk], trivial, rfl, hi.root.2.1, by simp, by simp, fun _ _ => rfl, hg⟩
    · cases hu
  | succ fuel ih =>
    intro pre0 post x g v hcl hf hx hpar hg hv
    by_cases hx0 : x = s0
    · subst hx0
      refine ⟨[], g, by simp [walk], trivial, rfl, hi.root.2.1, by simp, by simp, fun _ _ => rfl, hg⟩
    · rcases hpar with rfl | ⟨u, ac, hbp, hu⟩
      · exact absurd rfl hx0
      obtain ⟨u', a, gu, r1, r2, r3, r4, r5, r6, r7⟩ := hi.reached x hx hx0
      rw [hbp] at r4
      simp only [Option.some.injEq, Prod.mk.injEq] at r4
      obtain ⟨rfl, rfl⟩ := r4
      obtain ⟨p1, p2, rfl⟩ := List.append_of_mem hu
      have hnd : u ∉ p2 := by
        have := hi.nodup
        rw [hcl] at this
        have := (List.nodup_append.1 this).2.1
        have := (List.nodup_append.1 this).2.1
        exact (List.nodup_cons.1 this).1
      have hparu : u = s0 ∨ ∃ w ac, (node st.graph u).bestParent = some (w, ac) ∧ w ∈ p2 := by
        by_cases h0 : u = s0
        · exact .inl h0
        · exact .inr (hi.order (pre0 ++ p1) u p2 (by rw [hcl]; simp) h0)
      have hg1 : ∀ y, (node (g.set u { node g u with bestAction := some x, fscore := plus (node g x).fscore (p.cost u a x), solved := true }) y).bestParent = (node st.graph y).bestParent ∧
          Dict.contains (g.set u { node g u with bestAction := some x, fscore := plus (node g x).fscore (p.cost u a x), solved := true }) y = st.graph.contains y := by
        intro y
        rw [node_set, contains_set]
        by_cases hy : y = u
        · subst hy; simp [(hg y).1, hi.known y r1]
        · simp [hy, hg y]
      obtain ⟨as, g', w1, w2, w3, w4, _, w5, w6, w7⟩ := ih (pre0 ++ p1 ++ [u]) p2 u _ (v + p.cost u a x) (by rw [hcl]; simp)
        (by simp at hf; omega) (hi.known u r1) hparu hg1 (by rw [node_set, if_pos rfl, hv]; rfl)
      have hnp : ∀ pre b rest, as = pre ++ b :: rest → u ≠ p.walk s0 pre := by
        intro pre b rest hpp he
        exact hnd (he ▸ (w5 pre b rest hpp).1)
      have hux : p.next u a = x := r3
      have hwalk : p.walk s0 (as ++ [a]) = x := by rw [walk_append, w3]; exact hux
      refine ⟨as ++ [a], g', ?_, ?_, hwalk, ?_, by simp, ?_, ?_, w7⟩
      · rw [walk.eq_def]
        simp only [if_neg hx0]
        rw [(hg x).1, hbp]
        exact w1
      · rw [applicable_append, w3]; exact ⟨w2, r2, trivial⟩
      · rw [walkCost_append, w3, r6]
        rw [r5] at w4
        simp only [Option.some.injEq] at w4
        rw [w4]
        simp [Problem.walkCost, hux]
      · intro pre b rest hpp
        rcases List.eq_nil_or_concat rest with rfl | ⟨rest', c, rfl⟩
        · obtain ⟨rfl, hb⟩ := List.append_inj' hpp rfl
          simp only [List.cons.injEq, and_true] at hb
          subst hb
          rw [hwalk, w3, hux]
          refine ⟨by simp, hbp, ?_⟩
          rw [w6 u hnp, node_set, if_pos rfl, hv]
          simp only [Problem.walkCost, hux, plus]
          congr 2
          grind
        · have hpp' : as = pre ++ b :: rest' := by
            have h' : as ++ [a] = (pre ++ b :: rest') ++ [c] := by simpa using hpp
            exact (List.append_inj' h' rfl).1
          have hca : c = a := by
            have h' : as ++ [a] = (pre ++ b :: rest') ++ [c] := by simpa using hpp
            have := (List.append_inj' h' rfl).2
            simpa using this.symm
          subst hca
          obtain ⟨q1, q2, q3⟩ := w5 pre b rest' hpp'
          refine ⟨by simp [q1], q2, ?_⟩
          rw [q3, node_set, if_neg (fun he => hnp pre b rest' hpp' he.symm)]
          have : p.walkCost (p.walk s0 pre) (b :: (rest'.concat c)) = p.walkCost (p.walk s0 pre) (b :: rest') + p.cost u c x := by
            rw [List.concat_eq_append, ← List.cons_append, walkCost_append]
            have : p.walk (p.walk s0 pre) (b :: rest') = u := by
              rw [← walk_append, ← hpp']; exact w3
            rw [this]
            simp [Problem.walkCost, hux]
          rw [this]
          congr 2
          grind
      · intro y hy
        rw [w6 y, node_set, if_neg]
        · rintro rfl
          exact hy as a [] rfl w3.symm
        · intro pre b rest hpp
          exact hy pre b (rest ++ [a]) (by rw [hpp]; simp)

theorem walk_fuel {p : Problem σ α} {h : σ → Rat} {s0 : σ} {st : St σ α} (hi : Ok p h s0 st) :
    st.closed.length ≤ st.graph.length := by
  have : st.closed.length ≤ (Dict.keys st.graph).length := by
    refine (hi.nodup.subperm ?_).length_le
    intro x hx
    have := hi.known x hx
    rwa [Dict.contains_iff, Dict.get?_isSome_iff_mem_keys] at this
  simpa [Dict.keys] using this

/-! ### Termination -/

theorem try_length {p : Problem σ α} {h : σ → Rat} {Q : Queue σ} (hQ : Q.Lawful) (cur : σ) (a : α) (st : St σ α) :
    (tryAction p h Q cur st a).queue.length ≤ st.queue.length + 1 := by
  rw [tryAction]
  simp only
  repeat' split
  all_goals first
    | exact Nat.le_succ _
    | (show (Q.push _ _ _).length ≤ _
       rw [(hQ.push _ _ _).length_eq]; exact le_refl _)

theorem fold_length {p : Problem σ α} {h : σ → Rat} {Q : Queue σ} (hQ : Q.Lawful) (cur : σ) (as : List α) (st : St σ α) :
    (as.foldl (tryAction p h Q cur) st).queue.length ≤ st.queue.length + as.length := by
  induction as generalizing st with
  | nil => simp
  | cons a as ih =>
    have h1 := ih (tryAction p h Q cur st a)
    have h2 := try_length (p := p) (h := h) hQ cur a st
    simp only [List.foldl_cons, List.length_cons]
    omega

/-- The number of actions of the states of `S` that are not closed. -/
def open_ (p : Problem σ α) (S closed : List σ) : Nat :=
  ((S.filter fun s => decide (s ∉ closed)).map fun s => (p.actions s).length).sum

theorem open_le (p : Problem σ α) (S closed : List σ) (c : σ) : open_ p S (c :: closed) ≤ open_ p S closed := by
  induction S with
  | nil => simp [open_]
  | cons x S ih =>
    unfold open_ at *
    simp only [List.filter_cons, List.mem_cons, not_or, decide_eq_true_eq]
    split
    · rw [if_pos (by rename_i h; exact h.2)]; simp only [List.map_cons, List.sum_cons]
      simp only [List.mem_cons, not_or] at ih; omega
    · split
      · simp only [List.map_cons, List.sum_cons]; simp only [List.mem_cons, not_or] at ih; omega
      · simpa using ih

theorem open_close (p : Problem σ α) (S closed : List σ) (c : σ) (hc : c ∈ S) (hn : c ∉ closed) :
    open_ p S (c :: closed) + (p.actions c).length ≤ open_ p S closed := by
  induction S with
  | nil => cases hc
  | cons x S ih =>
    by_cases hx : x = c
    · subst hx
      have h1 := open_le p S closed x
      unfold open_ at *
      rw [List.filter_cons_of_neg (by simp), List.filter_cons_of_pos (by simpa using hn)]
      simp only [List.map_cons, List.sum_cons]
      omega
    · have h1 := ih (by rcases List.mem_cons.1 hc with h | h; exact absurd h.symm hx; exact h)
      unfold open_ at *
      by_cases hxc : x ∈ closed
      · rw [List.filter_cons_of_neg (by simp [hxc]), List.filter_cons_of_neg (by simp [hxc])]
        exact h1
      · rw [List.filter_cons_of_pos (by simp [hxc, hx]), List.filter_cons_of_pos (by simp [hxc])]
        simp only [List.map_cons, List.sum_cons]
        omega

theorem try_inside {p : Problem σ α} {h : σ → Rat} {Q : Queue σ} {S : List σ} (hS : ∀ s ∈ S, ∀ a ∈ p.actions s, p.next s a ∈ S)
    {cur : σ} {a : α} (hcur : cur ∈ S) (ha : a ∈ p.actions cur) {st : St σ α}
    (hst : ∀ x, st.graph.contains x = true → x ∈ S) :
    ∀ x, (tryAction p h Q cur st a).graph.contains x = true → x ∈ S := by
  have hn := hS cur hcur a ha
  intro x hx
  rw [tryAction] at hx
  simp only at hx
  by_cases hc : st.graph.contains (p.next cur a) = true
  · simp only [hc, Bool.not_true, Bool.false_eq_true, if_false] at hx
    split at hx
    · exact hst x hx
    · split at hx
      · simp only [contains_set, Bool.or_eq_true, decide_eq_true_eq] at hx
        rcases hx with rfl | hx
        · exact hn
        · exact hst x hx
      · exact hst x hx
  · simp only [Bool.not_eq_true] at hc
    simp only [hc, Bool.not_false, if_true, Bool.true_or] at hx
    split at hx
    · simp only [contains_set, Bool.or_eq_true, decide_eq_true_eq] at hx
      rcases hx with rfl | hx
      · exact hn
      · exact hst x hx
    · simp only [contains_set, Bool.or_eq_true, decide_eq_true_eq] at hx
      rcases hx with rfl | rfl | hx
      · exact hn
      · exact hn
      · exact hst x hx

theorem fold_inside {p : Problem σ α} {h : σ → Rat} {Q : Queue σ} {S : List σ} (hS : ∀ s ∈ S, ∀ a ∈ p.actions s, p.next s a ∈ S)
    {cur : σ} (hcur : cur ∈ S) (as : List α) (ha : ∀ a ∈ as, a ∈ p.actions cur) {st : St σ α}
    (hst : ∀ x, st.graph.contains x = true → x ∈ S) :
    ∀ x, (as.foldl (tryAction p h Q cur) st).graph.contains x = true → x ∈ S := by
  induction as generalizing st with
  | nil => exact hst
  | cons a as ih =>
    exact ih (fun b hb => ha b (by simp [hb])) (try_inside hS hcur (ha a (by simp)) hst)

theorem loop_total {p : Problem σ α} {h : σ → Rat} {Q : Queue σ} (hQ : Q.Lawful) {s0 : σ} {S : List σ}
    (hS : ∀ s ∈ S, ∀ a ∈ p.actions s, p.next s a ∈ S)
    (fuel : Nat) (st : St σ α) (hi : Ok p h s0 st) (hst : ∀ x, st.graph.contains x = true → x ∈ S)
    (hf : st.queue.length + open_ p S st.closed < fuel) :
    ∃ st', Ok p h s0 st' ∧ Stops p Q s0 st' (loop p h Q s0 fuel st) := by
  induction fuel generalizing st with
  | zero => omega
  | succ fuel ih =>
    rw [loop]
    cases hp : Q.pop (key st.graph) st.queue with
    | none => exact ⟨st, hi, .empty hp⟩
    | some r =>
      obtain ⟨cur, q⟩ := r
      have hperm := hQ.pop _ _ _ _ hp
      have hlen := hperm.length_eq
      simp only [List.length_cons] at hlen
      simp only
      by_cases hcl : cur ∈ st.closed
      · rw [if_pos hcl]
        exact ih _ (inv_drop hi hperm hcl) hst (by simp only; omega)
      · rw [if_neg hcl]
        have hns := (hi.nosolved cur).1
        by_cases hg : p.goal cur = true
        · rw [if_pos (by simp [hg]), if_neg (by rw [hns]; simp)]
          exact ⟨st, hi, .goal cur q hp hcl hg⟩
        · have hg' : p.goal cur = false := by simpa using hg
          rw [if_neg (by rw [hg', hns]; simp)]
          obtain ⟨e1, e2⟩ := inv_expand hQ hi hperm hcl hg'
          have hcS : cur ∈ S := hst cur (hi.inGraph cur (hperm.mem_iff.2 (by simp)))
          refine ih _ e1 ?_ ?_
          · exact fold_inside hS hcS _ (fun _ h => h) hst
          · rw [e2]
            have h1 := open_close p S st.closed cur hcS hcl
            have h2 := fold_length (p := p) (h := h) hQ cur (p.actions cur) { st with queue := q, closed := cur :: st.closed }
            simp only at h2
            show (expand p h Q cur { st with queue := q }).queue.length + _ < fuel
            have h3 : (expand p h Q cur { st with queue := q }).queue.length ≤ q.length + (p.actions cur).length := h2
            omega

/-! ### Optimality -/

/-- Closed nodes have no larger estimate than the others, and edges from them are relaxed. -/
structure Opt (p : Problem σ α) (h : σ → Rat) (cur : σ) (todo : List α) (st : St σ α) : Prop where
  mono : ∀ u ∈ st.closed, ∀ x, x ∉ st.closed → ∀ gu gx, (node st.graph u).gscore = some gu →
    (node st.graph x).gscore = some gx → gu + h u ≤ gx + h x
  edge : ∀ u ∈ st.closed, ∀ a ∈ p.actions u, (u = cur ∧ a ∈ todo) ∨
    ∀ gu gn, (node st.graph u).gscore = some gu → (node st.graph (p.next u a)).gscore = some gn →
      gn ≤ gu + p.cost u a (p.next u a)

/-- No closed node has a larger estimate than the last one. -/
def Last (h : σ → Rat) (cur : σ) (st : St σ α) : Prop :=
  ∀ u ∈ st.closed, ∀ gu gc, (node st.graph u).gscore = some gu → (node st.graph cur).gscore = some gc → gu + h u ≤ gc + h cur

theorem opt_try {p : Problem σ α} {h : σ → Rat} {Q : Queue σ} {s0 cur : σ} {a : α} {todo : List α}
    {st : St σ α} (hcons : ∀ s, ∀ a ∈ p.actions s, h s ≤ p.cost s a (p.next s a) + h (p.next s a))
    (hi : Inv p h s0 cur (a :: todo) st) (ho : Opt p h cur (a :: todo) st) (hl : Last h cur st)
    (hcur : cur ∈ st.closed) (ha : a ∈ p.actions cur) :
    Opt p h cur todo (tryAction p h Q cur st a) ∧ Last h cur (tryAction p h Q cur st a) := by
  obtain ⟨gc, hgc, _⟩ := hi.gsome (hi.known _ hcur)
  have hca := hcons cur a ha
  rcases tryAction_spec p h Q cur a st hi.known (hi.known _ hcur) with ⟨eq, known, no⟩ | ⟨op, hcl, hq, hn, hc, why⟩
  · rw [eq]
    refine ⟨⟨ho.mono, ?_⟩, hl⟩
    intro u hu b hb
    rcases ho.edge u hu b hb with ⟨rfl, h1⟩ | h1
    · rcases List.mem_cons.1 h1 with rfl | h1
      · refine .inr fun gu gn hgu hgn => ?_
        rcases no with no | no
        · have := hl _ no gn gu hgn hgu
          rw [hgc] at hgu; obtain rfl := Option.some.inj hgu
          linarith
        · rw [hgu, hgn] at no
          simpa [plus, less] using no
      · exact .inl ⟨rfl, h1⟩
    · exact .inr h1
  · generalize tryAction p h Q cur st a = st' at *
    have hclosed : ∀ x ∈ st.closed, node st'.graph x = node st.graph x := by
      intro x hx
      rw [hn, if_neg]
      rintro rfl; exact op hx
    have hgn : (node st'.graph (p.next cur a)).gscore = some (gc + p.cost cur a (p.next cur a)) := by
      rw [hn, if_pos rfl, hgc]; rfl
    refine ⟨⟨?_, ?_⟩, ?_⟩
    · intro u hu x hx gu gx hgu hgx
      rw [hcl] at hu hx
      rw [hclosed u hu] at hgu
      by_cases hxn : x = p.next cur a
      · rw [hxn] at hgx ⊢
        rw [hgn] at hgx
        obtain rfl := Option.some.inj hgx
        have := hl u hu gu gc hgu hgc
        linarith
      · rw [hn, if_neg hxn] at hgx
        exact ho.mono u hu x hx gu gx hgu hgx
    · intro u hu b hb
      rw [hcl] at hu
      have key : (u = cur ∧ b ∈ todo) ∨ (u = cur ∧ b = a) ∨ ((¬ (u = cur ∧ b ∈ a :: todo))) := by
        by_cases h1 : u = cur ∧ b ∈ a :: todo
        · obtain ⟨h1, h2⟩ := h1
          rcases List.mem_cons.1 h2 with h2 | h2
          · exact .inr (.inl ⟨h1, h2⟩)
          · exact .inl ⟨h1, h2⟩
        · exact .inr (.inr h1)
      rcases key with h1 | ⟨rfl, rfl⟩ | h1
      · exact .inl h1
      · refine .inr fun gu gn hgu hgn' => ?_
        rw [hclosed _ hu, hgc] at hgu
        rw [hgn] at hgn'
        obtain rfl := Option.some.inj hgu
        obtain rfl := Option.some.inj hgn'
        exact le_refl _
      · refine .inr fun gu gn hgu hgn' => ?_
        rw [hclosed _ hu] at hgu
        have hedge := (ho.edge u hu b hb).resolve_left h1
        have hsucc := (hi.succ u hu b hb).resolve_left h1
        by_cases hxn : p.next u b = p.next cur a
        · rw [hxn] at hgn' hedge hsucc
          rw [hgn] at hgn'
          obtain rfl := Option.some.inj hgn'
          rcases why with why | why
          · rw [hsucc] at why; cases why
          · obtain ⟨go, hgo, _⟩ := hi.gsome hsucc
            have h2 := hedge gu go hgu hgo
            rw [hgo, hgc] at why
            simp only [plus, less, decide_eq_true_eq] at why
            rw [hxn]
            linarith
        · rw [hn, if_neg hxn] at hgn'
          exact hedge gu gn hgu hgn'
    · intro u hu gu gc' hgu hgc'
      rw [hcl] at hu
      rw [hclosed _ hu] at hgu
      rw [hclosed _ hcur] at hgc'
      exact hl u hu gu gc' hgu hgc'

theorem opt_fold {p : Problem σ α} {h : σ → Rat} {Q : Queue σ} (hQ : Q.Lawful) {s0 cur : σ} (todo : List α)
    {st : St σ α} (hcons : ∀ s, ∀ a ∈ p.actions s, h s ≤ p.cost s a (p.next s a) + h (p.next s a))
    (hi : Inv p h s0 cur todo st) (ho : Opt p h cur todo st) (hl : Last h cur st)
    (hcur : cur ∈ st.closed) (ha : ∀ a ∈ todo, a ∈ p.actions cur) :
    Opt p h cur [] (todo.foldl (tryAction p h Q cur) st) := by
  induction todo generalizing st with
  | nil => exact ho
  | cons a todo ih =>
    obtain ⟨h1, h2⟩ := inv_try hQ hi hcur (ha a (by simp))
    obtain ⟨h3, h4⟩ := opt_try (Q := Q) hcons hi ho hl hcur (ha a (by simp))
    exact ih h1 h3 h4 (by rw [h2]; exact hcur) (fun b hb => ha b (by simp [hb]))

/-- The least popped estimate. -/
theorem popped_least {p : Problem σ α} {h : σ → Rat} {Q : Queue σ} (hQ : Q.Lawful) {s0 cur : σ} {st : St σ α} {q : List σ}
    (hi : Ok p h s0 st) (hp : Q.pop (key st.graph) st.queue = some (cur, q))
    (hmin : ∀ y ∈ st.queue, less (key st.graph y) (key st.graph cur) = false) {x : σ} (hx : st.graph.contains x = true)
    (hxc : x ∉ st.closed) {gc gx : Rat} (hgc : (node st.graph cur).gscore = some gc) (hgx : (node st.graph x).gscore = some gx) :
    gc + h cur ≤ gx + h x := by
  have hxq : x ∈ st.queue := (hi.queued x hx).resolve_left hxc
  have hcg := hi.inGraph cur ((hQ.pop _ _ _ _ hp).mem_iff.2 (by simp))
  have := hmin x hxq
  obtain ⟨g1, a1, a2⟩ := hi.gsome hx
  obtain ⟨g2, b1, b2⟩ := hi.gsome hcg
  rw [a1] at hgx; rw [b1] at hgc
  obtain rfl := Option.some.inj hgx
  obtain rfl := Option.some.inj hgc
  rw [key, key, a2, b2] at this
  simpa [less] using this

theorem opt_expand {p : Problem σ α} {h : σ → Rat} {Q : Queue σ} (hQ : Q.Lawful) {s0 cur : σ} {st : St σ α} {q : List σ}
    (hcons : ∀ s, ∀ a ∈ p.actions s, h s ≤ p.cost s a (p.next s a) + h (p.next s a))
    (hi : Ok p h s0 st) (ho : Opt p h s0 [] st) (hp : Q.pop (key st.graph) st.queue = some (cur, q))
    (hmin : ∀ y ∈ st.queue, less (key st.graph y) (key st.graph cur) = false)
    (hcl : cur ∉ st.closed) (hg : p.goal cur = false) :
    Opt p h s0 [] (expand p h Q cur { st with queue := q }) := by
  have hperm := hQ.pop _ _ _ _ hp
  have hI := inv_close hi hperm hcl hg
  have h1 : Opt p h cur (p.actions cur) { st with queue := q, closed := cur :: st.closed } := by
    constructor
    · intro u hu x hx gu gx hgu hgx
      simp only [List.mem_cons, not_or] at hu hx
      rcases hu with rfl | hu
      · have hxg : st.graph.contains x = true := by
          by_cases hc : st.graph.contains x = true
          · exact hc
          · have := node_not_contains (by simpa using hc : st.graph.contains x = false)
            simp only at hgx
            rw [this] at hgx; cases hgx
        exact popped_least hQ hi hp hmin hxg hx.2 hgu hgx
      · exact ho.mono u hu x hx.2 gu gx hgu hgx
    · intro u hu a ha
      simp only [List.mem_cons] at hu
      rcases hu with rfl | hu
      · exact .inl ⟨rfl, ha⟩
      · rcases ho.edge u hu a ha with ⟨_, h1⟩ | h1
        · cases h1
        · exact .inr h1
  have h2 : Last h cur ({ st with queue := q, closed := cur :: st.closed } : St σ α) := by
    intro u hu gu gc hgu hgc
    simp only [List.mem_cons] at hu
    rcases hu with rfl | hu
    · simp only at hgu hgc
      rw [hgu] at hgc; obtain rfl := Option.some.inj hgc; exact le_refl _
    · exact ho.mono u hu cur hcl gu gc hgu hgc
  have h3 := opt_fold (Q := Q) hQ (p.actions cur) hcons hI h1 h2 (by simp) (fun _ h => h)
  refine ⟨h3.mono, fun u hu a ha => ?_⟩
  rcases h3.edge u hu a ha with ⟨_, h⟩ | h
  · cases h
  · exact .inr h

/-- The heuristic never exceeds what it costs to reach a goal. -/
theorem admissible {p : Problem σ α} {h : σ → Rat}
    (hcons : ∀ s, ∀ a ∈ p.actions s, h s ≤ p.cost s a (p.next s a) + h (p.next s a))
    (hgoal : ∀ s, p.goal s = true → h s = 0) (bs : List α) (s : σ) (hb : p.Applicable s bs) (hg : p.goal (p.walk s bs) = true) :
    h s ≤ p.walkCost s bs := by
  induction bs generalizing s with
  | nil => rw [hgoal s hg]; exact le_refl _
  | cons b bs ih =>
    have h1 := hcons s b hb.1
    have h2 := ih _ hb.2 hg
    simp only [Problem.walkCost]
    linarith

/-- Every plan costs at least the estimate of the popped node. -/
theorem popped_bound {p : Problem σ α} {h : σ → Rat} {Q : Queue σ} (hQ : Q.Lawful) {s0 cur : σ} {st : St σ α} {q : List σ}
    (hcons : ∀ s, ∀ a ∈ p.actions s, h s ≤ p.cost s a (p.next s a) + h (p.next s a))
    (hgoal : ∀ s, p.goal s = true → h s = 0)
    (hi : Ok p h s0 st) (ho : Opt p h s0 [] st) (hp : Q.pop (key st.graph) st.queue = some (cur, q))
    (hmin : ∀ y ∈ st.queue, less (key st.graph y) (key st.graph cur) = false)
    {gc : Rat} (hgc : (node st.graph cur).gscore = some gc)
    (bs : List α) : ∀ (u : σ) (gu : Rat), st.graph.contains u = true → (node st.graph u).gscore = some gu →
      p.Applicable u bs → p.goal (p.walk u bs) = true → gc + h cur ≤ gu + p.walkCost u bs := by
  induction bs with
  | nil =>
    intro u gu hu hgu _ hg
    have hun : u ∉ st.closed := fun hc => by
      have h1 := hi.nogoal u hc
      simp only [Problem.walk] at hg
      rw [h1] at hg; cases hg
    have h1 := popped_least hQ hi hp hmin hu hun hgc hgu
    have h2 := hgoal u hg
    simp only [Problem.walkCost]; linarith
  | cons b bs ih =>
    intro u gu hu hgu hb hg
    by_cases hun : u ∈ st.closed
    · have hs := (hi.succ u hun b hb.1).resolve_left (by simp)
      obtain ⟨gn, hgn, _⟩ := hi.gsome hs
      have he := (ho.edge u hun b hb.1).resolve_left (by simp) gu gn hgu hgn
      have h1 := ih _ gn hs hgn hb.2 hg
      simp only [Problem.walkCost]; linarith
    · have h1 := popped_least hQ hi hp hmin hu hun hgc hgu
      have h2 := admissible hcons hgoal (b :: bs) u hb hg
      linarith

theorem opt_start (p : Problem σ α) (h : σ → Rat) (Q : Queue σ) (s0 : σ) : Opt p h s0 [] (start (α := α) h Q s0) :=
  ⟨fun u hu => by simp [start] at hu, fun u hu => by simp [start] at hu⟩

end Verif.CppAStar
