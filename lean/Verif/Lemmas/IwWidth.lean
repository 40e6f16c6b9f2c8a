import Verif.Lemmas.Iw

/-! What the search of one width leaves behind, and the sequence of widths, with no time left
after a goal. -/
namespace Verif.Iw
open Verif.Search (Problem)
open Verif.PlanGraph
variable [DecidableEq σ] [DecidableEq φ] {d : Domain σ α φ} {c : Config σ} {width : Nat} {s0 : σ}

/-- `loop_ind` seen from outside of the search of one width. -/
theorem width_ind (hQ : c.queue.Lawful) (hleft : ∀ k, c.left k = false) (hcost : Nonneg d)
    (P : St σ α φ → Prop) (R : σ → List α → St σ α φ → Prop)
    (hdrop : ∀ st cur q, Ok d s0 st → P st → c.queue.pop (worse c st.graph) st.queue = some (cur, q) → cur ∈ st.closed → P { st with queue := q })
    (hdead : ∀ st cur q, Ok d s0 st → P st → c.queue.pop (worse c st.graph) st.queue = some (cur, q) → cur ∉ st.closed →
      d.goal cur = false → d.terminal cur = true → P { st with queue := q, closed := cur :: st.closed })
    (hopen : ∀ st cur q, Ok d s0 st → P st → c.queue.pop (worse c st.graph) st.queue = some (cur, q) → cur ∉ st.closed →
      d.goal cur = false → d.terminal cur = false → R cur (d.actions cur) { st with queue := q, closed := cur :: st.closed })
    (hR : ∀ cur a todo st st' gc, d.goal cur = false → d.terminal cur = false → Ok d s0 st → cur ∈ st.closed →
      (node st.graph cur).gscore = some gc → a ∈ d.actions cur →
      Tried d c width cur a (gc + d.cost cur a (d.next cur a)) st st' → Ok d s0 st' → R cur (a :: todo) st → R cur todo st')
    (hdone : ∀ cur st, R cur [] st → P st)
    (fuel : Nat) {st : St σ α φ} (hb : Between d s0 st) (h0 : d.goal s0 = false) (ht : d.terminal s0 = false) (hP : P (start d c width s0 st)) :
    solveWidth d c fuel width s0 st = none ∨ ∃ st1, Ok d s0 st1 ∧ P st1 ∧ st1.scores = st.scores ∧
      ((st1.queue = [] ∧ solveWidth d c fuel width s0 st = some (.ok (false, st1))) ∨
        ∃ cur q gx st' as, c.queue.pop (worse c st1.graph) st1.queue = some (cur, q) ∧ d.goal cur = true ∧ (node st1.graph cur).gscore = some gx ∧
          solveWidth d c fuel width s0 st = some (.ok (true, st')) ∧ Won d s0 width st st' as ∧ d.walkCost s0 as ≤ gx) := by
  obtain ⟨hok, _, _, _, _, _, hsc, _⟩ := start_ok hQ (width := width) hb
  rw [solveWidth_eq hb h0 ht]
  rcases loop_ind hQ hleft hcost (width := width) (s0 := s0) (fun s => P s ∧ s.scores = st.scores) (fun cur todo s => R cur todo s ∧ s.scores = st.scores)
    (fun s cur q a b e f => ⟨hdrop s cur q a b.1 e f, b.2⟩)
    (fun s cur q a b e f g h => ⟨hdead s cur q a b.1 e f g h, b.2⟩)
    (fun s cur q a b e f g h => ⟨hopen s cur q a b.1 e f g h, b.2⟩)
    (fun cur a todo s s' gc x1 x2 x3 x4 x5 x6 x7 x8 x9 => ⟨hR cur a todo s s' gc x1 x2 x3 x4 x5 x6 x7 x8 x9.1, x7.scores.trans x9.2⟩)
    (fun cur s h => ⟨hdone cur s h.1, h.2⟩) fuel _ hok ⟨hP, hsc⟩ with h | ⟨st1, ho, ⟨hp, hs⟩, hst⟩
  · rw [h]; exact .inl rfl
  · right
    refine ⟨st1, ho, hp, hs, ?_⟩
    generalize hr : loop d c width s0 fuel (start d c width s0 st) = r at hst
    cases hst with
    | empty h =>
      left
      refine ⟨hQ.popNone _ _ h, ?_⟩
      simp only [ho.found]
    | goal cur q h hc hg =>
      right
      have hin : st1.graph.contains cur = true := ho.inGraph cur ((hQ.pop _ _ _ _ h).mem_iff.2 (by simp))
      obtain ⟨gx, _, hgx, _⟩ := ho.tree.scores cur hin
      obtain ⟨st', as, w1, w2, w3⟩ := reach_spec (width := width) (st := { st1 with queue := q, closed := cur :: st1.closed }) ho.tree ho.found h0 hin hgx hg
      refine ⟨cur, q, gx, { st' with ticks := st'.ticks + 1 }, as, h, hg, hgx, ?_, ?_, w3⟩
      · rw [w1]; simp only [w2.found]
      · exact ⟨w2.tells, w2.live, w2.found, by rw [← hs]; exact w2.scores, w2.solved⟩

/-! ### What a search without success has covered -/

/-- No goal can be reached from `s0` without acting in a terminal state. -/
def NoGoal (d : Domain σ α φ) (s0 : σ) : Prop :=
  ∀ as, d.Applicable s0 as → (∀ pre a post, as = pre ++ a :: post → d.terminal (d.walk s0 pre) = false) → d.goal (d.walk s0 as) = false

/-- A generated state is queued or expanded, or was pruned because its tuples had been seen. -/
def Covered (d : Domain σ α φ) (width : Nat) (st : St σ α φ) (x : σ) : Prop :=
  (x ∈ st.closed ∨ x ∈ st.queue) ∨ (st.pruned = true ∧ ∀ t, 1 ≤ t.length → t.length ≤ width → Holds (d.features x) t → t ∈ st.seen)

structure Cover (d : Domain σ α φ) (width : Nat) (s0 cur : σ) (todo : List α) (st : St σ α φ) : Prop where
  root : s0 ∈ st.closed ∨ s0 ∈ st.queue
  seen : ∀ t ∈ st.seen, ∃ y, (y ∈ st.closed ∨ y ∈ st.queue) ∧ Holds (d.features y) t
  succ : ∀ u ∈ st.closed, d.terminal u = false → ∀ a ∈ d.actions u, (u = cur ∧ a ∈ todo) ∨ Covered d width st (d.next u a)

omit [DecidableEq σ] [DecidableEq φ] in
theorem Cover.move {cur cur' : σ} {todo : List α} {st : St σ α φ} {q cl : List σ} (h : Cover d width s0 cur [] st)
    (hm : ∀ x, (x ∈ st.closed ∨ x ∈ st.queue) → (x ∈ cl ∨ x ∈ q))
    (hs : ∀ u ∈ cl, u ∈ st.closed ∨ (u = cur' ∧ (d.terminal u = true ∨ d.actions u = todo))) :
    Cover d width s0 cur' todo { st with queue := q, closed := cl } := by
  refine ⟨hm _ h.root, ?_, ?_⟩
  · intro t ht
    obtain ⟨y, h1, h2⟩ := h.seen t ht
    exact ⟨y, hm y h1, h2⟩
  · intro u hu hut a ha
    rcases hs u hu with h1 | ⟨h1, h2 | h2⟩
    · rcases h.succ u h1 hut a ha with ⟨_, h⟩ | h
      · cases h
      · right
        rcases h with h | h
        · exact .inl (hm _ h)
        · exact .inr h
    · rw [hut] at h2; cases h2
    · left; exact ⟨h1, h2 ▸ ha⟩

theorem Cover.try (hQ : c.queue.Lawful) {cur : σ} {a : α} {todo : List α} {T : Rat} {st st' : St σ α φ} (ht : Tried d c width cur a T st st')
    (h : Cover d width s0 cur (a :: todo) st) : Cover d width s0 cur todo st' := by
  obtain ⟨n1, n2, n3, n4⟩ := novelty_spec width st.seen (d.features (d.next cur a))
  have hmono : ∀ x, (x ∈ st.closed ∨ x ∈ st.queue) → (x ∈ st'.closed ∨ x ∈ st'.queue) := by
    intro x hx
    rw [ht.closed]
    rcases hx with hx | hx
    · exact .inl hx
    · right
      rcases ht.step with ⟨_, h1, _⟩ | ⟨_, _, h1⟩
      · rw [h1]; exact hx
      · rw [h1, (hQ.push _ _ _).mem_iff]; exact List.mem_cons_of_mem _ hx
  have hcov : ∀ x, Covered d width st x → Covered d width st' x := by
    intro x hx
    rcases hx with hx | ⟨h1, h2⟩
    · exact .inl (hmono x hx)
    · right
      refine ⟨?_, fun t a b e => ?_⟩
      · rcases ht.step with ⟨_, _, h3⟩ | ⟨_, h3, _⟩
        · exact h3
        · rw [h3]; exact h1
      · rw [ht.seen, n1]; exact .inl (h2 t a b e)
  refine ⟨hmono _ h.root, ?_, ?_⟩
  · intro t htt
    rw [ht.seen, n1] at htt
    rcases htt with htt | ⟨htl, hth⟩
    · obtain ⟨y, h1, h2⟩ := h.seen t htt
      exact ⟨y, hmono y h1, h2⟩
    · rcases ht.step with ⟨h1, _, _⟩ | ⟨_, _, h1⟩
      · -- pruned: the tuple had been seen
        by_cases hs : t ∈ st.seen
        · obtain ⟨y, h1, h2⟩ := h.seen t hs
          exact ⟨y, hmono y h1, h2⟩
        · have := n3 t htl.1 htl.2 hth hs
          omega
      · refine ⟨d.next cur a, .inr ?_, hth⟩
        rw [h1, (hQ.push _ _ _).mem_iff]; simp
  · intro u hu hut b hb
    rw [ht.closed] at hu
    rcases h.succ u hu hut b hb with ⟨rfl, h1⟩ | h1
    · rcases List.mem_cons.1 h1 with rfl | h1
      · right
        rcases ht.step with ⟨h2, h3, h4⟩ | ⟨_, _, h2⟩
        · right
          refine ⟨h4, fun t a b e => ?_⟩
          rw [ht.seen, n1]; exact .inr ⟨⟨a, b⟩, e⟩
        · left; right
          rw [h2, (hQ.push _ _ _).mem_iff]; simp
      · exact .inl ⟨rfl, h1⟩
    · exact .inr (hcov _ h1)

/-- The search of one width that comes to its end has covered all it generated. -/
theorem width_cover (hQ : c.queue.Lawful) (hleft : ∀ k, c.left k = false) (hcost : Nonneg d)
    (fuel : Nat) {st : St σ α φ} (hb : Between d s0 st) (h0 : d.goal s0 = false) (ht : d.terminal s0 = false) :
    solveWidth d c fuel width s0 st = none ∨
      (∃ st1, solveWidth d c fuel width s0 st = some (.ok (false, st1)) ∧ Ok d s0 st1 ∧ st1.queue = [] ∧ Cover d width s0 s0 [] st1 ∧ st1.scores = st.scores) ∨
      ∃ st' as, solveWidth d c fuel width s0 st = some (.ok (true, st')) ∧ Won d s0 width st st' as := by
  obtain ⟨hok, hcl, hq, _, hseen, _, _, _⟩ := start_ok hQ (width := width) hb
  have hstart : Cover d width s0 s0 [] (start d c width s0 st) := by
    refine ⟨.inr ((hq s0).2 rfl), ?_, ?_⟩
    · intro t htt
      rw [hseen, (novelty_spec width [] (d.features s0)).1] at htt
      rcases htt with h | h
      · cases h
      · exact ⟨s0, .inr ((hq s0).2 rfl), h.2⟩
    · intro u hu; rw [hcl] at hu; cases hu
  have hmv : ∀ (st : St σ α φ) cur q, c.queue.pop (worse c st.graph) st.queue = some (cur, q) →
      ∀ x, (x ∈ st.closed ∨ x ∈ st.queue) → (x ∈ cur :: st.closed ∨ x ∈ q) := by
    intro st cur q hp x hx
    rcases hx with hx | hx
    · exact .inl (List.mem_cons_of_mem _ hx)
    · rcases List.mem_cons.1 ((hQ.pop _ _ _ _ hp).mem_iff.1 hx) with rfl | hx
      · exact .inl (by simp)
      · exact .inr hx
  rcases width_ind hQ hleft hcost (width := width) (Cover d width s0 s0 []) (Cover d width s0)
    (by
      intro st cur q ho h hp hc
      refine h.move (cl := st.closed) (fun x hx => ?_) (fun u hu => .inl hu)
      rcases hmv st cur q hp x hx with h | h
      · rcases List.mem_cons.1 h with rfl | h
        · exact .inl hc
        · exact .inl h
      · exact .inr h)
    (by
      intro st cur q ho h hp hc hg ht
      have : Cover d width s0 cur [] { st with queue := q, closed := cur :: st.closed } :=
        h.move (hmv st cur q hp) (fun u hu => by
          rcases List.mem_cons.1 hu with rfl | hu
          · exact .inr ⟨rfl, .inl ht⟩
          · exact .inl hu)
      exact { this with succ := fun u hu hut a ha => (this.succ u hu hut a ha).imp (fun h => absurd h.2 List.not_mem_nil) id })
    (by
      intro st cur q ho h hp hc hg ht
      exact h.move (hmv st cur q hp) (fun u hu => by
        rcases List.mem_cons.1 hu with rfl | hu
        · exact .inr ⟨rfl, .inr rfl⟩
        · exact .inl hu))
    (by
      intro cur a todo st st' gc _ _ _ _ _ _ ht _ h
      exact h.try hQ ht)
    (by
      intro cur st h
      exact { h with succ := fun u hu hut a ha => (h.succ u hu hut a ha).imp (fun h => absurd h.2 List.not_mem_nil) id })
    fuel hb h0 ht hstart with h | ⟨st1, ho, hP, hs, h | ⟨cur, q, gx, st', as, _, _, _, h1, h2, _⟩⟩
  · exact .inl h
  · exact .inr (.inl ⟨st1, h.2, ho, h.1, hP, hs⟩)
  · exact .inr (.inr ⟨st', as, h1, h2⟩)

omit [DecidableEq σ] [DecidableEq φ] in
theorem noGoal_of_closed {cl : List σ} (hroot : s0 ∈ cl) (hng : ∀ x ∈ cl, d.goal x = false)
    (hsucc : ∀ u ∈ cl, d.terminal u = false → ∀ a ∈ d.actions u, d.next u a ∈ cl) : NoGoal d s0 := by
  intro as
  induction as using List.reverseRecOn with
  | nil => intro _ _; exact hng _ hroot
  | append_singleton as a _ =>
    intro hap hterm
    refine hng _ ?_
    have key : ∀ as : List α, d.Applicable s0 as → (∀ pre a post, as = pre ++ a :: post → d.terminal (d.walk s0 pre) = false) → d.walk s0 as ∈ cl := by
      intro as
      induction as using List.reverseRecOn with
      | nil => intro _ _; exact hroot
      | append_singleton as a ih =>
        intro hap hterm
        rw [Search.applicable_append] at hap
        rw [Search.walk_append]
        exact hsucc _ (ih hap.1 (fun pre b post h => hterm pre b (post ++ [a]) (by rw [h]; simp))) (hterm as a [] rfl) a hap.2.1
    exact key _ hap hterm

/-- The full tuple of a state. -/
def full (fs : List φ) : Tuple φ := (List.range fs.length).map fun i => (i, fs[i]?)

omit [DecidableEq φ] in
theorem holds_full (fs : List φ) : Holds fs (full fs) := by
  refine ⟨List.pairwise_map.2 List.pairwise_lt_range, ?_⟩
  intro e he
  obtain ⟨i, hi, rfl⟩ := List.mem_map.1 he
  have hi := List.mem_range.1 hi
  refine ⟨rfl, ?_⟩
  rw [List.getElem?_eq_getElem hi]; simp

omit [DecidableEq φ] in
theorem full_inj {fs fs' : List φ} (hlen : fs'.length = fs.length) (h : Holds fs' (full fs)) : fs' = fs := by
  refine List.ext_getElem? fun i => ?_
  by_cases hi : i < fs.length
  · exact (h.2 (i, fs[i]?) (List.mem_map.2 ⟨i, List.mem_range.2 hi, rfl⟩)).1
  · rw [List.getElem?_eq_none (by omega), List.getElem?_eq_none (by omega)]

omit [DecidableEq φ] in
/-- If nothing was pruned, or if the whole feature vector identifies the state and fits into the
width, a failed search proves that there is no plan. -/
theorem cover_noGoal {st : St σ α φ} (ho : Ok d s0 st) (hq : st.queue = []) (hc : Cover d width s0 s0 [] st)
    (h : st.pruned = false ∨ (1 ≤ width ∧ (∀ x, (d.features x).length = width) ∧ ∀ x y, d.features x = d.features y → x = y)) : NoGoal d s0 := by
  have hcl : ∀ x, (x ∈ st.closed ∨ x ∈ st.queue) → x ∈ st.closed := fun x hx => hx.resolve_right (by rw [hq]; exact List.not_mem_nil)
  refine noGoal_of_closed (hcl _ hc.root) ho.nogoal fun u hu hut a ha => ?_
  rcases hc.succ u hu hut a ha with ⟨_, h⟩ | h1 | ⟨h1, h2⟩
  · cases h
  · exact hcl _ h1
  · rcases h with h | ⟨w1, w2, w3⟩
    · rw [h] at h1; cases h1
    · have hf := h2 (full (d.features (d.next u a))) (by simp [full, w2, w1]) (by simp [full, w2]) (holds_full _)
      obtain ⟨y, y1, y2⟩ := hc.seen _ hf
      have := w3 _ _ (full_inj (by rw [w2, w2]) y2)
      rw [← this]
      exact hcl _ y1

/-! ### Termination -/

/-- What is left to do, over a finite set of states. -/
def pending (d : Domain σ α φ) (S : List σ) (st : St σ α φ) : Nat :=
  st.queue.length + ((S.filter fun x => x ∉ st.closed).map fun x => (d.actions x).length).sum

omit [DecidableEq φ] in
theorem sum_close (S cl : List σ) (cur : σ) (hS : cur ∈ S) (hc : cur ∉ cl) :
    ((S.filter fun x => x ∉ cur :: cl).map fun x => (d.actions x).length).sum + (d.actions cur).length ≤
      ((S.filter fun x => x ∉ cl).map fun x => (d.actions x).length).sum := by
  have hle : ∀ S : List σ, ((S.filter fun x => x ∉ cur :: cl).map fun x => (d.actions x).length).sum ≤
      ((S.filter fun x => x ∉ cl).map fun x => (d.actions x).length).sum := by
    intro S
    induction S with
    | nil => simp
    | cons y S ih =>
      rw [List.filter_cons, List.filter_cons]
      by_cases h1 : y ∈ cl
      · simp only [List.mem_cons, h1, or_true, not_true_eq_false, decide_false, Bool.false_eq_true, if_false]
        simpa using ih
      · by_cases h2 : y = cur
        · simp only [h2, List.mem_cons, true_or, not_true_eq_false, decide_false, Bool.false_eq_true, if_false, hc, not_false_eq_true, decide_true, if_true,
            List.map_cons, List.sum_cons]
          simp only [List.mem_cons] at ih
          omega
        · simp only [h1, h2, List.mem_cons, or_self, not_false_eq_true, decide_true, if_true, List.map_cons, List.sum_cons]
          simp only [List.mem_cons] at ih
          omega
  induction S with
  | nil => cases hS
  | cons y S ih =>
    rw [List.filter_cons, List.filter_cons]
    by_cases h2 : y = cur
    · have := hle S
      simp only [h2, List.mem_cons, true_or, not_true_eq_false, decide_false, Bool.false_eq_true, if_false, hc, not_false_eq_true, decide_true, if_true,
            List.map_cons, List.sum_cons]
      simp only [List.mem_cons] at this
      omega
    · have hS' : cur ∈ S := (List.mem_cons.1 hS).resolve_left (fun e => h2 e.symm)
      have ih := ih hS'
      by_cases h1 : y ∈ cl
      · simp only [List.mem_cons, h1, or_true, not_true_eq_false, decide_false, Bool.false_eq_true, if_false]
        simpa using ih
      · simp only [h1, h2, List.mem_cons, or_self, not_false_eq_true, decide_true, if_true, List.map_cons, List.sum_cons]
        simp only [List.mem_cons] at ih
        omega

theorem fold_queue (hQ : c.queue.Lawful) (hcost : Nonneg d) {cur : σ} (hgoal : d.goal cur = false) (hterm : d.terminal cur = false)
    {S : List σ} (hcl : ∀ s ∈ S, d.terminal s = false → ∀ a ∈ d.actions s, d.next s a ∈ S) (hS : cur ∈ S)
    (todo : List α) (st : St σ α φ) (ho : Ok d s0 st) (hcur : cur ∈ st.closed) (htodo : ∀ a ∈ todo, a ∈ d.actions cur)
    (hin : ∀ x ∈ st.queue, x ∈ S) :
    Ok d s0 (todo.foldl (tryAction d c width cur) st) ∧ (todo.foldl (tryAction d c width cur) st).closed = st.closed ∧
      (todo.foldl (tryAction d c width cur) st).queue.length ≤ st.queue.length + todo.length ∧
      ∀ x ∈ (todo.foldl (tryAction d c width cur) st).queue, x ∈ S := by
  obtain ⟨h1, h2, h3⟩ := fold_ind hQ hcost (width := width) (s0 := s0) hgoal hterm
    (fun t s => s.queue.length + t.length ≤ st.queue.length + todo.length ∧ ∀ x ∈ s.queue, x ∈ S)
    (by
      rintro a t s s' gc _ _ _ ha ht _ ⟨h1, h2⟩
      simp only [List.length_cons] at h1
      rcases ht.step with ⟨_, h3, _⟩ | ⟨_, _, h3⟩
      · rw [h3]; exact ⟨by omega, h2⟩
      · rw [h3, (hQ.push _ _ _).length_eq]
        refine ⟨by simp only [List.length_cons]; omega, fun x hx => ?_⟩
        rw [(hQ.push _ _ _).mem_iff] at hx
        rcases List.mem_cons.1 hx with rfl | hx
        · exact hcl cur hS hterm a ha
        · exact h2 x hx)
    todo st ho hcur htodo ⟨le_refl _, hin⟩
  exact ⟨h1, h3, by simpa using h2.1, h2.2⟩

/-- On a finite set of states the loop ends. -/
theorem loop_total (hQ : c.queue.Lawful) (hleft : ∀ k, c.left k = false) (hcost : Nonneg d) (h0 : d.goal s0 = false)
    {S : List σ} (hcl : ∀ s ∈ S, d.terminal s = false → ∀ a ∈ d.actions s, d.next s a ∈ S)
    (fuel : Nat) (st : St σ α φ) (ho : Ok d s0 st) (hin : ∀ x ∈ st.queue, x ∈ S) (hf : pending d S st < fuel) :
    loop d c width s0 fuel st ≠ none := by
  induction fuel generalizing st with
  | zero => omega
  | succ fuel ih =>
    rw [loop]
    cases hp : c.queue.pop (worse c st.graph) st.queue with
    | none => simp
    | some r =>
      obtain ⟨cur, q⟩ := r
      have hperm := hQ.pop _ _ _ _ hp
      have hlen := hperm.length_eq
      simp only [List.length_cons] at hlen
      have hing : ∀ x ∈ q, st.graph.contains x = true := fun x hx => ho.inGraph x (hperm.mem_iff.2 (by simp [hx]))
      have hinS : ∀ x ∈ q, x ∈ S := fun x hx => hin x (hperm.mem_iff.2 (by simp [hx]))
      have hcg : st.graph.contains cur = true := ho.inGraph cur (hperm.mem_iff.2 (by simp))
      have hcS : cur ∈ S := hin cur (hperm.mem_iff.2 (by simp))
      simp only
      by_cases hc : cur ∈ st.closed
      · rw [if_pos hc]
        refine ih _ { ho with inGraph := hing } hinS ?_
        simp only [pending] at hf ⊢
        omega
      · rw [if_neg hc]
        have hns := (ho.tree.nosolved cur).1
        by_cases hg : d.goal cur = true
        · rw [if_pos (by rw [hg]; rfl)]
          obtain ⟨gx, _, hgx, _⟩ := ho.tree.scores cur hcg
          obtain ⟨st', as, w1, _⟩ := reach_spec (width := width) (st := { st with queue := q, closed := cur :: st.closed }) ho.tree ho.found h0 hcg hgx hg
          rw [w1]
          simp [hleft]
        · have hg' : d.goal cur = false := by simpa using hg
          rw [if_neg (by rw [hg', hns]; simp)]
          have ho' : Ok d s0 { st with queue := q, closed := cur :: st.closed } :=
            { tree := ho.tree
              known := fun x hx => (List.mem_cons.1 hx).elim (fun e => e ▸ hcg) (ho.known x)
              inGraph := hing
              nogoal := fun x hx => (List.mem_cons.1 hx).elim (fun e => e ▸ hg') (ho.nogoal x)
              nodup := List.nodup_cons.2 ⟨hc, ho.nodup⟩
              found := ho.found }
          have hsum := sum_close (d := d) S st.closed cur hcS hc
          by_cases ht : d.terminal cur = true
          · rw [if_pos ht]
            refine ih _ ho' hinS ?_
            simp only [pending] at hf ⊢
            omega
          · have ht' : d.terminal cur = false := by simpa using ht
            rw [if_neg ht]
            obtain ⟨h1, h2, h3, h4⟩ := fold_queue hQ hcost (width := width) hg' ht' hcl hcS (d.actions cur) _ ho' (by simp) (fun _ h => h) hinS
            refine ih _ h1 h4 ?_
            simp only [pending, h2] at hf ⊢
            simp only at h3
            omega

/-- The work of the search of one width. -/
def work (d : Domain σ α φ) (S : List σ) : Nat := 2 + (S.map fun x => (d.actions x).length).sum

theorem solveWidth_total (hQ : c.queue.Lawful) (hleft : ∀ k, c.left k = false) (hcost : Nonneg d) (h0 : d.goal s0 = false)
    {S : List σ} (hs : s0 ∈ S) (hcl : ∀ s ∈ S, d.terminal s = false → ∀ a ∈ d.actions s, d.next s a ∈ S)
    {fuel : Nat} (hf : work d S ≤ fuel) {st : St σ α φ} (hb : Between d s0 st) : solveWidth d c fuel width s0 st ≠ none := by
  by_cases ht : d.terminal s0 = true
  · obtain ⟨st', h, _⟩ := solveWidth_dead (c := c) (fuel := fuel) (width := width) hb h0 ht
    rw [h]; simp
  · have ht' : d.terminal s0 = false := by simpa using ht
    obtain ⟨hok, hc, hq, hql, _⟩ := start_ok hQ (width := width) hb
    rw [solveWidth_eq hb h0 ht']
    have := loop_total (width := width) hQ hleft hcost h0 hcl fuel _ hok (fun x hx => by rw [(hq x).1 hx]; exact hs) (by
      rw [pending, hql, hc]
      simp only [List.not_mem_nil, not_false_eq_true, decide_true, List.filter_true]
      rw [work] at hf
      omega)
    cases hl : loop d c width s0 fuel (start d c width s0 st) with
    | none => exact absurd hl this
    | some r => cases r <;> simp

/-! ### The sequence of widths -/

/-- What is known after a search without success. -/
structure Lost (d : Domain σ α φ) (s0 : σ) (ws : List Nat) (st st' : St σ α φ) : Prop where
  found : st'.found = false
  noAction : ∀ x, (node st'.graph x).bestAction = none
  scores : st'.scores = st.scores
  noGoal : ∀ w, ws.getLast? = some w → 1 ≤ w → (∀ x, (d.features x).length = w) → (∀ x y, d.features x = d.features y → x = y) → NoGoal d s0

omit [DecidableEq σ] [DecidableEq φ] in
theorem noGoal_dead (h0 : d.goal s0 = false) (ht : d.terminal s0 = true) : NoGoal d s0 := by
  intro as hap hterm
  cases as with
  | nil => exact h0
  | cons a as =>
    have := hterm [] a as rfl
    rw [show d.walk s0 [] = s0 from rfl, ht] at this
    cases this

/-- One width: out of fuel, failed, or won. -/
theorem width_cases (hQ : c.queue.Lawful) (hleft : ∀ k, c.left k = false) (hcost : Nonneg d)
    (fuel : Nat) {st : St σ α φ} (hb : Between d s0 st) (h0 : d.goal s0 = false) :
    solveWidth d c fuel width s0 st = none ∨
      (∃ st1, solveWidth d c fuel width s0 st = some (.ok (false, st1)) ∧ st1.found = false ∧ (∀ x, (node st1.graph x).bestAction = none) ∧ st1.scores = st.scores ∧
        (st1.pruned = true → Between d s0 st1) ∧
        (st1.pruned = false ∨ (1 ≤ width ∧ (∀ x, (d.features x).length = width) ∧ ∀ x y, d.features x = d.features y → x = y) → NoGoal d s0)) ∨
      ∃ st' as, solveWidth d c fuel width s0 st = some (.ok (true, st')) ∧ Won d s0 width st st' as := by
  by_cases ht : d.terminal s0 = true
  · obtain ⟨st', h1, h2, h3, h4, h5⟩ := solveWidth_dead (c := c) (fuel := fuel) (width := width) hb h0 ht
    exact .inr (.inl ⟨st', h1, h2, h4, h5, (fun h => absurd h (by rw [h3]; simp)), fun _ => noGoal_dead h0 ht⟩)
  · rcases width_cover hQ hleft hcost (width := width) fuel hb h0 (by simpa using ht) with h | ⟨st1, h1, h2, h3, h4, h5⟩ | h
    · exact .inl h
    · exact .inr (.inl ⟨st1, h1, h2.found, fun x => (h2.tree.nosolved x).2, h5, fun _ => ⟨h2.found, .inr h2.tree⟩, cover_noGoal h2 h3 h4⟩)
    · exact .inr (.inr h)

theorem widths_cases (hQ : c.queue.Lawful) (hleft : ∀ k, c.left k = false) (hcost : Nonneg d) (h0 : d.goal s0 = false)
    (fuel : Nat) (ws : List Nat) {st : St σ α φ} (hb : Between d s0 st) :
    widths d c fuel s0 ws st = none ∨ ∃ st', widths d c fuel s0 ws st = some (.ok st') ∧
      ((∃ w ∈ ws, ∃ as, Won d s0 w st st' as) ∨ Lost d s0 ws st st') := by
  induction ws generalizing st with
  | nil =>
    refine .inr ⟨st, rfl, .inr ⟨hb.1, fun x => ?_, rfl, fun w h => by cases h⟩⟩
    rcases hb.2 with h | h
    · rw [h]; rfl
    · exact (h.nosolved x).2
  | cons w ws ih =>
    rw [widths]
    rcases width_cases hQ hleft hcost (width := w) fuel hb h0 with h | ⟨st1, h1, h2, h3, h4, h5, h6⟩ | ⟨st', as, h1, h2⟩
    · rw [h]; exact .inl rfl
    · rw [h1]
      simp only [h2, Bool.false_eq_true, if_false]
      by_cases hp : st1.pruned = true
      · simp only [hp, Bool.not_true, Bool.false_eq_true, if_false]
        rcases ih (h5 hp) with h | ⟨st', e, ⟨w', hw, as, hwon⟩ | hl⟩
        · exact .inl h
        · exact .inr ⟨st', e, .inl ⟨w', by simp [hw], as, { hwon with scores := by rw [hwon.scores, h4] }⟩⟩
        · refine .inr ⟨st', e, .inr { hl with scores := hl.scores.trans h4, noGoal := ?_ }⟩
          intro w' hw' a1 a2 a3
          cases ws with
          | nil =>
            simp only [List.getLast?_singleton, Option.some.injEq] at hw'
            subst hw'
            exact h6 (.inr ⟨a1, a2, a3⟩)
          | cons v ws => exact hl.noGoal w' (by simpa using hw') a1 a2 a3
      · have hp' : st1.pruned = false := by simpa using hp
        simp only [hp', Bool.not_false, if_true]
        exact .inr ⟨st1, rfl, .inr ⟨h2, h3, h4, fun _ _ _ _ _ => h6 (.inl hp')⟩⟩
    · rw [h1]
      simp only [if_true, hleft, Bool.false_eq_true, if_false]
      exact .inr ⟨_, rfl, .inl ⟨w, by simp, as, ⟨h2.tells, h2.live, h2.found, h2.scores, h2.solved⟩⟩⟩

theorem widths_total (hQ : c.queue.Lawful) (hleft : ∀ k, c.left k = false) (hcost : Nonneg d) (h0 : d.goal s0 = false)
    {S : List σ} (hs : s0 ∈ S) (hcl : ∀ s ∈ S, d.terminal s = false → ∀ a ∈ d.actions s, d.next s a ∈ S)
    {fuel : Nat} (hf : work d S ≤ fuel) (ws : List Nat) {st : St σ α φ} (hb : Between d s0 st) : widths d c fuel s0 ws st ≠ none := by
  induction ws generalizing st with
  | nil => simp [widths]
  | cons w ws ih =>
    rw [widths]
    have ht := solveWidth_total (width := w) hQ hleft hcost h0 hs hcl hf hb
    rcases width_cases hQ hleft hcost (width := w) fuel hb h0 with h | ⟨st1, h1, h2, _, _, h5, _⟩ | ⟨st', as, h1, h2⟩
    · exact absurd h ht
    · rw [h1]
      simp only [h2, Bool.false_eq_true, if_false]
      by_cases hp : st1.pruned = true
      · simp only [hp, Bool.not_true, Bool.false_eq_true, if_false]
        exact ih (h5 hp)
      · have hp' : st1.pruned = false := by simpa using hp
        simp [hp']
    · rw [h1]
      simp [hleft]

/-! ### Any clock: only one width finds goals -/

/-- The scores so far are of one width, and once there are some the root is solved. -/
def OneWidth (s0 : σ) (width : Nat) (old : List (Nat × Option Rat)) (st : St σ α φ) : Prop :=
  (st.found = false ∧ st.scores = old ∧ (node st.graph s0).solved = false) ∨
    (st.found = true ∧ (node st.graph s0).solved = true ∧ ∃ new, st.scores = old ++ new ∧ ∀ e ∈ new, e.1 = width)

theorem tryAction_keeps (cur : σ) (a : α) (st : St σ α φ) (x : σ) :
    (node (tryAction d c width cur st a).graph x).solved = (node st.graph x).solved ∧
      (tryAction d c width cur st a).found = st.found ∧ (tryAction d c width cur st a).scores = st.scores := by
  rw [tryAction]
  simp only
  generalize d.next cur a = n
  generalize hG : (if (!st.graph.contains n) = true then st.graph.set n {} else st.graph) = G
  have hGn : ∀ x, node G x = node st.graph x := by
    intro x
    rw [← hG]
    split
    · rename_i h
      rw [node_set]
      split
      · rename_i h'; subst h'; exact (node_not_contains (by simpa using h)).symm
      · rfl
    · rfl
  rcases novelty width st.seen (d.features n) with ⟨nov, seen⟩
  simp only
  split
  · refine ⟨?_, rfl, rfl⟩
    simp only [node_set, hGn]
    by_cases hx : x = n
    · subst hx
      simp only [if_true]
      generalize ((!Dict.contains st.graph x) || less _ _) = b
      cases b <;> (simp only [if_true, if_false, Bool.false_eq_true]; generalize (!Dict.contains st.graph x || _) = b'; cases b' <;> rfl)
    · simp only [if_neg hx]
  · refine ⟨?_, rfl, rfl⟩
    simp only [node_set, hGn]
    by_cases hx : x = n
    · subst hx
      simp only [if_true]
      generalize ((!Dict.contains st.graph x) || less _ _) = b
      cases b <;> (simp only [if_true, if_false, Bool.false_eq_true]; generalize (!Dict.contains st.graph x || _) = b'; cases b' <;> rfl)
    · simp only [if_neg hx]

omit [DecidableEq φ] in
theorem mark_solved {root : σ} (fuel : Nat) {cur : σ} {g g' : Graph σ α} (h : mark root fuel cur g = some (.ok g')) :
    ((node g root).solved = true → (node g' root).solved = true) ∧ (cur ≠ root → (node g' root).solved = true) := by
  induction fuel generalizing cur g with
  | zero =>
    by_cases hc : cur = root
    · rw [mark, if_pos hc] at h
      cases h
      exact ⟨id, fun h => absurd hc h⟩
    · rw [mark, if_neg hc] at h; cases h
  | succ fuel ih =>
    by_cases hc : cur = root
    · rw [mark, if_pos hc] at h
      cases h
      exact ⟨id, fun h => absurd hc h⟩
    · rw [mark, if_neg hc] at h
      simp only at h
      cases hp : (node g cur).bestParent with
      | none => rw [hp] at h; cases h
      | some r =>
        obtain ⟨par, a, k⟩ := r
        rw [hp] at h
        simp only at h
        obtain ⟨h1, h2⟩ := ih h
        by_cases hpar : par = root
        · have : (node g' root).solved = true := h1 (by rw [node_set, if_pos hpar.symm])
          exact ⟨fun _ => this, fun _ => this⟩
        · have := h2 hpar
          exact ⟨fun _ => this, fun _ => this⟩

omit [DecidableEq φ] in
theorem reach_one {old : List (Nat × Option Rat)} {cur : σ} {st st' : St σ α φ} (h : OneWidth s0 width old st)
    (hr : reach s0 width cur st = some (.ok st')) : OneWidth s0 width old st' ∧ st'.found = true := by
  rw [reach] at hr
  cases hp : pathCost s0 st.graph st.graph.length cur 0 with
  | none => rw [hp] at hr; cases hr
  | some r =>
    cases r with
    | error e => rw [hp] at hr; cases hr
    | ok tent =>
      rw [hp] at hr
      simp only at hr
      have hold : ∃ new, st.scores = old ++ new ∧ ∀ e ∈ new, e.1 = width := by
        rcases h with ⟨_, h, _⟩ | ⟨_, _, h⟩
        · exact ⟨[], by simp [h], by simp⟩
        · exact h
      obtain ⟨new, n1, n2⟩ := hold
      have hnew : ∀ v, ∃ new', st.scores ++ [(width, v)] = old ++ new' ∧ ∀ e ∈ new', e.1 = width := by
        intro v
        refine ⟨new ++ [(width, v)], by simp [n1], ?_⟩
        intro e he
        rcases List.mem_append.1 he with he | he
        · exact n2 e he
        · simp only [List.mem_singleton] at he; rw [he]
      split at hr
      · cases hm : mark s0 st.graph.length cur (st.graph.set cur (if (node st.graph cur).solved = true then node st.graph cur else
          { node st.graph cur with fscore := some 0, solved := true })) with
        | none => rw [hm] at hr; cases hr
        | some r =>
          cases r with
          | error e => rw [hm] at hr; cases hr
          | ok g =>
            rw [hm] at hr
            simp only [Option.some.injEq, Except.ok.injEq] at hr
            obtain ⟨m1, m2⟩ := mark_solved _ hm
            subst hr
            refine ⟨.inr ⟨rfl, ?_, hnew _⟩, rfl⟩
            by_cases hc : cur = s0
            · refine m1 ?_
              rw [node_set, if_pos hc.symm]
              split
              · assumption
              · rfl
            · exact m2 hc
      · rename_i hcond
        simp only [Option.some.injEq, Except.ok.injEq] at hr
        subst hr
        rcases h with ⟨h, _, _⟩ | ⟨_, h, _⟩
        · rw [h] at hcond; simp at hcond
        · exact ⟨.inr ⟨rfl, h, hnew _⟩, rfl⟩

theorem loop_one {old : List (Nat × Option Rat)} (fuel : Nat) {st st' : St σ α φ} (h : OneWidth s0 width old st)
    (hl : loop d c width s0 fuel st = some (.ok st')) : OneWidth s0 width old st' := by
  induction fuel generalizing st with
  | zero => cases hl
  | succ fuel ih =>
    rw [loop] at hl
    cases hp : c.queue.pop (worse c st.graph) st.queue with
    | none =>
      rw [hp] at hl
      simp only [Option.some.injEq, Except.ok.injEq] at hl
      rw [← hl]; exact h
    | some r =>
      obtain ⟨cur, q⟩ := r
      rw [hp] at hl
      simp only at hl
      split at hl
      · exact ih (st := { st with queue := q }) h hl
      · split at hl
        · cases hr : reach s0 width cur { st with queue := q, closed := cur :: st.closed } with
          | none => rw [hr] at hl; cases hl
          | some r =>
            cases r with
            | error e => rw [hr] at hl; cases hl
            | ok st1 =>
              rw [hr] at hl
              simp only at hl
              obtain ⟨h1, _⟩ := reach_one (st := { st with queue := q, closed := cur :: st.closed }) h hr
              split at hl
              · exact ih (st := { st1 with ticks := st1.ticks + 1 }) h1 hl
              · simp only [Option.some.injEq, Except.ok.injEq] at hl
                rw [← hl]; exact h1
        · split at hl
          · exact ih (st := { st with queue := q, closed := cur :: st.closed }) h hl
          · refine ih ?_ hl
            have key : ∀ (todo : List α) (s : St σ α φ), OneWidth s0 width old s → OneWidth s0 width old (todo.foldl (tryAction d c width cur) s) := by
              intro todo
              induction todo with
              | nil => exact fun s hs => hs
              | cons a todo iht =>
                intro s hs
                refine iht _ ?_
                obtain ⟨k1, k2, k3⟩ := tryAction_keeps (d := d) (c := c) (width := width) cur a s s0
                rw [OneWidth, k1, k2, k3]
                exact hs
            exact key _ { st with queue := q, closed := cur :: st.closed } h

/-- All the scores of one call are of one width, or the root is solved before it. -/
theorem widths_one (h0 : d.goal s0 = false) (fuel : Nat) (ws : List Nat) {st st' : St σ α φ}
    (h : (st.found = false ∧ st.scores = [] ∧ (node st.graph s0).solved = false) ∨
      ((node st.graph s0).solved = true ∧ ∃ w, ∀ e ∈ st.scores, e.1 = w))
    (hl : widths d c fuel s0 ws st = some (.ok st')) : ∃ w, ∀ e ∈ st'.scores, e.1 = w := by
  induction ws generalizing st with
  | nil =>
    simp only [widths, Option.some.injEq, Except.ok.injEq] at hl
    rw [← hl]
    rcases h with ⟨_, h, _⟩ | ⟨_, h⟩
    · exact ⟨0, by simp [h]⟩
    · exact h
  | cons w ws ih =>
    rw [widths] at hl
    cases hs : solveWidth d c fuel w s0 st with
    | none => rw [hs] at hl; cases hl
    | some r =>
      cases r with
      | error e => rw [hs] at hl; cases hl
      | ok r =>
        obtain ⟨res, st1⟩ := r
        rw [hs] at hl
        simp only at hl
        -- the state after this width
        have hst1 : (st1.found = false ∧ st1.scores = [] ∧ (node st1.graph s0).solved = false) ∨
            ((node st1.graph s0).solved = true ∧ ∃ w, ∀ e ∈ st1.scores, e.1 = w) := by
          rw [solveWidth] at hs
          generalize hG : (if st.graph.contains s0 then st.graph else st.graph.set s0 {}) = G at hs
          have hGs : (node G s0).solved = (node st.graph s0).solved := by
            rw [← hG]
            split
            · rfl
            · rename_i hc; rw [node_set, if_pos rfl, node_not_contains (by simpa using hc)]
          simp only [hGs, h0, Bool.or_false] at hs
          rcases h with ⟨a1, a2, a3⟩ | ⟨a1, a2⟩
          · simp only [a3, Bool.false_eq_true, if_false] at hs
            split at hs
            · simp only [Option.some.injEq, Except.ok.injEq, Prod.mk.injEq] at hs
              rw [← hs.2]
              exact .inl ⟨a1, a2, by simp only; rw [hGs]; exact a3⟩
            · rcases hnov : novelty w ([] : List (Tuple φ)) (d.features s0) with ⟨nov, seen⟩
              rw [hnov] at hs
              simp only at hs
              generalize hS : ({ graph := _, queue := _, closed := _, seen := _, pruned := _, found := st.found, scores := st.scores, ticks := st.ticks } : St σ α φ) = S at hs
              have hS1 : OneWidth s0 w [] S := by
                rw [← hS]
                left
                refine ⟨a1, a2, ?_⟩
                simp only [node_set, if_true]
              cases hloop : loop d c w s0 fuel S with
              | none => rw [hloop] at hs; cases hs
              | some r =>
                cases r with
                | error e => rw [hloop] at hs; cases hs
                | ok st2 =>
                  rw [hloop] at hs
                  simp only [Option.some.injEq, Except.ok.injEq, Prod.mk.injEq] at hs
                  rw [← hs.2]
                  rcases loop_one fuel hS1 hloop with h | ⟨_, h2, new, h3, h4⟩
                  · exact .inl h
                  · exact .inr ⟨h2, w, by rw [h3]; simpa using h4⟩
          · simp only [a1, if_true, Option.some.injEq, Except.ok.injEq, Prod.mk.injEq] at hs
            rw [← hs.2]
            exact .inr ⟨by simp only; rw [hGs]; exact a1, a2⟩
        have hdone : ∃ w, ∀ e ∈ st1.scores, e.1 = w := by
          rcases hst1 with ⟨_, h, _⟩ | ⟨_, h⟩
          · exact ⟨0, by simp [h]⟩
          · exact h
        split at hl
        · split at hl
          · exact ih (st := { st1 with ticks := st1.ticks + 1 }) hst1 hl
          · simp only [Option.some.injEq, Except.ok.injEq] at hl
            rw [← hl]; exact hdone
        · split at hl
          · simp only [Option.some.injEq, Except.ok.injEq] at hl
            rw [← hl]; exact hdone
          · split at hl
            · simp only [Option.some.injEq, Except.ok.injEq] at hl
              rw [← hl]; exact hdone
            · exact ih hst1 hl

end Verif.Iw
