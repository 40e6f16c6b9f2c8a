import Verif.Lemmas.IwWidth
import Verif.Lemmas.CppHeap

/-! Problems of bounded width: with unit costs, the default ordering and an exact queue, the
search of that width finds a shortest plan. -/
namespace Verif.Iw
open Verif.Search (Problem)
open Verif.PlanGraph
variable [DecidableEq σ] [DecidableEq φ] {d : Domain σ α φ} {c : Config σ} {width : Nat} {s0 : σ}

/-- `x` can be reached in `k` steps without acting in goals or terminal states. -/
def Reach (d : Domain σ α φ) (s0 : σ) (k : Nat) (x : σ) : Prop :=
  ∃ as, as.length = k ∧ d.Applicable s0 as ∧ d.walk s0 as = x ∧
    ∀ pre a post, as = pre ++ a :: post → d.goal (d.walk s0 pre) = false ∧ d.terminal (d.walk s0 pre) = false

/-- The problem has width at most `w`: there is a chain of tuples of features, of sizes from 1
to `w`, the first true in the root, such that every shortest way to the `i`-th tuple extends by
one action to a shortest way to the next one, and the last tuple is true in goals only. -/
structure HasWidth (d : Domain σ α φ) (s0 : σ) (w m : Nat) (t : Nat → Tuple φ) : Prop where
  size : ∀ i ≤ m, 1 ≤ (t i).length ∧ (t i).length ≤ w
  root : Holds (d.features s0) (t 0)
  shortest : ∀ i ≤ m, ∀ k x, Reach d s0 k x → Holds (d.features x) (t i) → i ≤ k
  extend : ∀ i < m, ∀ x, Reach d s0 i x → Holds (d.features x) (t i) → d.goal x = false →
    d.terminal x = false ∧ ∃ a ∈ d.actions x, Holds (d.features (d.next x a)) (t (i + 1))
  goal : ∀ x, Reach d s0 m x → Holds (d.features x) (t m) → d.goal x = true

/-- Every step costs one. -/
def Unit (d : Domain σ α φ) : Prop := ∀ s a t, d.cost s a t = 1

omit [DecidableEq σ] [DecidableEq φ] in
theorem walkCost_unit (hu : Unit d) (s : σ) (as : List α) : d.walkCost s as = as.length := by
  induction as generalizing s with
  | nil => simp [Problem.walkCost]
  | cons a as ih =>
    simp only [Problem.walkCost, ih, List.length_cons]
    rw [hu]
    push_cast; ring

omit [DecidableEq φ] in
/-- Nodes of the graph can be reached in at most as many steps as their score says. -/
theorem Tree.reach {g : Graph σ α} (hu : Unit d) (ht : Tree d s0 g) {x : σ} {gx : Rat} (hx : g.contains x = true) (hgx : (node g x).gscore = some gx) :
    ∃ k, Reach d s0 k x ∧ (k : Rat) ≤ gx := by
  obtain ⟨k, hk⟩ := ht.up x hx
  obtain ⟨as, hlen, hs⟩ := hk.spells ht.links
  obtain ⟨h1, h2⟩ := ht.path as hx hgx hs
  rw [walkCost_unit hu] at h1
  exact ⟨as.length, ⟨as, rfl, hs.applicable, hs.reaches, h2⟩, h1⟩

/-- A queued state on the front of the chain. -/
def Front (d : Domain σ α φ) (t : Nat → Tuple φ) (i : Nat) (st : St σ α φ) (x : σ) : Prop :=
  x ∈ st.queue ∧ x ∉ st.closed ∧ Holds (d.features x) (t i) ∧ ∃ gx, (node st.graph x).gscore = some gx ∧ gx ≤ i

/-- The front of the chain is at `i`, perhaps about to move to `i + 1`. -/
def At (d : Domain σ α φ) (t : Nat → Tuple φ) (m i : Nat) (st : St σ α φ) : Prop :=
  i ≤ m ∧ (∃ x, Front d t i st x) ∧ (∀ j, i + 2 ≤ j → j ≤ m → t j ∉ st.seen) ∧ (i + 1 ≤ m → t (i + 1) ∈ st.seen → ∃ y, Front d t (i + 1) st y)

/-- The node being expanded is on the front or before it. -/
def Moving (d : Domain σ α φ) (t : Nat → Tuple φ) (m i : Nat) (cur : σ) (todo : List α) (st : St σ α φ) : Prop :=
  i ≤ m ∧ (∃ gc, (node st.graph cur).gscore = some gc ∧ gc ≤ i) ∧ (∀ j, i + 2 ≤ j → j ≤ m → t j ∉ st.seen) ∧
    (i + 1 ≤ m → t (i + 1) ∈ st.seen → ∃ y, Front d t (i + 1) st y) ∧
    ((∃ x, Front d t i st x) ∨ (i + 1 ≤ m ∧ ((∃ y, Front d t (i + 1) st y) ∨ ∃ a ∈ todo, Holds (d.features (d.next cur a)) (t (i + 1)))))

/-- The score of the node reached is at most one more than that of the node expanded. -/
theorem tried_score {cur : σ} {a : α} {gc : Rat} {st st' : St σ α φ} (hu : Unit d)
    (ht : Tried d c width cur a (gc + d.cost cur a (d.next cur a)) st st') {i : Nat} (hgc : gc ≤ i) :
    ∃ gx, (node st'.graph (d.next cur a)).gscore = some gx ∧ gx ≤ (i + 1 : Nat) := by
  have h1 : gc + d.cost cur a (d.next cur a) ≤ (i + 1 : Nat) := by
    rw [hu]; push_cast; linarith
  rcases ht.link with ⟨_, l2, _⟩ | ⟨l1, l2, _⟩
  · exact ⟨_, l2, h1⟩
  · cases hg : (node st.graph (d.next cur a)).gscore with
    | none => rw [hg] at l1; cases l1
    | some gx =>
      rw [hg] at l1 l2
      simp only [less, decide_eq_false_iff_not, not_lt] at l1
      exact ⟨gx, l2, le_trans l1 h1⟩

theorem tried_lower {cur : σ} {a : α} {T gx : Rat} {st st' : St σ α φ} (ht : Tried d c width cur a T st st') {x : σ}
    (hx : (node st.graph x).gscore = some gx) : ∃ gx', (node st'.graph x).gscore = some gx' ∧ gx' ≤ gx := by
  by_cases hxn : x = d.next cur a
  · subst hxn
    rcases ht.link with ⟨l1, l2, _⟩ | ⟨_, l2, _⟩
    · rw [hx] at l1
      simp only [less, decide_eq_true_eq] at l1
      exact ⟨_, l2, le_of_lt l1⟩
    · exact ⟨gx, l2.trans hx, le_refl _⟩
  · exact ⟨gx, by rw [ht.other x hxn]; exact hx, le_refl _⟩

theorem Front.try (hQ : c.queue.Lawful) {cur : σ} {a : α} {T : Rat} {st st' : St σ α φ} {t : Nat → Tuple φ} {i : Nat} {x : σ}
    (ht : Tried d c width cur a T st st') (h : Front d t i st x) : Front d t i st' x := by
  obtain ⟨h1, h2, h3, gx, h4, h5⟩ := h
  obtain ⟨gx', h6, h7⟩ := tried_lower ht h4
  refine ⟨?_, by rw [ht.closed]; exact h2, h3, gx', h6, le_trans h7 h5⟩
  rcases ht.step with ⟨_, e, _⟩ | ⟨_, _, e⟩
  · rw [e]; exact h1
  · rw [e, (hQ.push _ _ _).mem_iff]; exact List.mem_cons_of_mem _ h1

theorem Moving.try (hQ : c.queue.Lawful) (hu : Unit d) {m i : Nat} {t : Nat → Tuple φ} (hw : HasWidth d s0 width m t) {cur : σ} {a : α} {todo : List α}
    {gc : Rat} {st st' : St σ α φ} (ho' : Ok d s0 st') (hg : (node st.graph cur).gscore = some gc)
    (hclosed : ∀ x ∈ st.closed, ∀ t' : Tuple φ, 1 ≤ t'.length → t'.length ≤ width → Holds (d.features x) t' → t' ∈ st.seen)
    (ht : Tried d c width cur a (gc + d.cost cur a (d.next cur a)) st st') (h : Moving d t m i cur (a :: todo) st) : Moving d t m i cur todo st' := by
  obtain ⟨h1, ⟨gc', h2, h3⟩, h4, h5, h6⟩ := h
  rw [hg] at h2; cases h2
  obtain ⟨n1, n2, n3, n4⟩ := novelty_spec width st.seen (d.features (d.next cur a))
  obtain ⟨gx, g1, g2⟩ := tried_score hu ht h3
  have hcont : st'.graph.contains (d.next cur a) = true := by rw [ht.contains]; simp
  obtain ⟨k, hk1, hk2⟩ := ho'.tree.reach hu hcont g1
  have hki : k ≤ i + 1 := by exact_mod_cast le_trans hk2 g2
  -- the next tuple, if it is new, puts the state into the queue
  have hfront : i + 1 ≤ m → Holds (d.features (d.next cur a)) (t (i + 1)) → ∃ y, Front d t (i + 1) st' y := by
    intro hm hh
    by_cases hs : t (i + 1) ∈ st.seen
    · obtain ⟨y, hy⟩ := h5 hm hs
      exact ⟨y, hy.try hQ ht⟩
    · have hnov := n3 _ (hw.size _ hm).1 (hw.size _ hm).2 hh hs
      have := (hw.size _ hm).2
      refine ⟨d.next cur a, ?_, ?_, hh, gx, g1, g2⟩
      · rcases ht.step with ⟨e, _, _⟩ | ⟨_, _, e⟩
        · omega
        · rw [e, (hQ.push _ _ _).mem_iff]; simp
      · rw [ht.closed]
        intro hc
        exact hs (hclosed _ hc _ (hw.size _ hm).1 (hw.size _ hm).2 hh)
  obtain ⟨gc'', e1, e2⟩ := tried_lower ht hg
  refine ⟨h1, ⟨gc'', e1, le_trans e2 h3⟩, ?_, ?_, ?_⟩
  · intro j hj hjm
    rw [ht.seen, n1]
    rintro (h | ⟨_, h⟩)
    · exact h4 j hj hjm h
    · have := hw.shortest j hjm k _ hk1 h
      omega
  · intro hm hs
    rw [ht.seen, n1] at hs
    rcases hs with hs | ⟨_, hs⟩
    · obtain ⟨y, hy⟩ := h5 hm hs
      exact ⟨y, hy.try hQ ht⟩
    · exact hfront hm hs
  · rcases h6 with ⟨x, hx⟩ | ⟨hm, ⟨y, hy⟩ | ⟨b, hb, hh⟩⟩
    · exact .inl ⟨x, hx.try hQ ht⟩
    · exact .inr ⟨hm, .inl ⟨y, hy.try hQ ht⟩⟩
    · rcases List.mem_cons.1 hb with rfl | hb
      · exact .inr ⟨hm, .inl (hfront hm hh)⟩
      · exact .inr ⟨hm, .inr ⟨b, hb, hh⟩⟩

/-- The tuples of expanded and queued states have been seen. -/
def Seen (d : Domain σ α φ) (width : Nat) (st : St σ α φ) : Prop :=
  ∀ x, (x ∈ st.closed ∨ x ∈ st.queue) → ∀ t : Tuple φ, 1 ≤ t.length → t.length ≤ width → Holds (d.features x) t → t ∈ st.seen

theorem Seen.try (hQ : c.queue.Lawful) {cur : σ} {a : α} {T : Rat} {st st' : St σ α φ} (ht : Tried d c width cur a T st st')
    (h : Seen d width st) : Seen d width st' := by
  obtain ⟨n1, _⟩ := novelty_spec width st.seen (d.features (d.next cur a))
  intro x hx t a1 a2 a3
  rw [ht.seen, n1]
  rw [ht.closed] at hx
  rcases hx with hx | hx
  · exact .inl (h x (.inl hx) t a1 a2 a3)
  · rcases ht.step with ⟨_, e, _⟩ | ⟨_, _, e⟩
    · rw [e] at hx; exact .inl (h x (.inr hx) t a1 a2 a3)
    · rw [e, (hQ.push _ _ _).mem_iff] at hx
      rcases List.mem_cons.1 hx with rfl | hx
      · exact .inr ⟨⟨a1, a2⟩, a3⟩
      · exact .inl (h x (.inr hx) t a1 a2 a3)

omit [DecidableEq φ] in
theorem worse_default (hord : c.ordering = fun a b => less b.1 a.1) {g : Graph σ α} {x y : σ} {gx gy : Rat} (hx : (node g x).gscore = some gx)
    (hy : (node g y).gscore = some gy) (h : worse c g x y = false) : gx ≤ gy := by
  simp only [worse, hord, hx, hy, less, decide_eq_false_iff_not, not_lt] at h
  exact h

/-- What the search needs of the queue: in the states of the search (`E` between expansions, `F`
during them) the popped node has the least score. -/
structure Prio (d : Domain σ α φ) (c : Config σ) (width : Nat) (s0 : σ) (E : St σ α φ → Prop) (F : σ → St σ α φ → Prop) : Prop where
  first : ∀ st cur q, Ok d s0 st → E st → c.queue.pop (worse c st.graph) st.queue = some (cur, q) → ∀ y ∈ st.queue, worse c st.graph cur y = false
  drop : ∀ st cur q, Ok d s0 st → E st → c.queue.pop (worse c st.graph) st.queue = some (cur, q) → E { st with queue := q }
  dead : ∀ st cur q, Ok d s0 st → E st → c.queue.pop (worse c st.graph) st.queue = some (cur, q) → E { st with queue := q, closed := cur :: st.closed }
  opens : ∀ st cur q, Ok d s0 st → E st → c.queue.pop (worse c st.graph) st.queue = some (cur, q) → F cur { st with queue := q, closed := cur :: st.closed }
  try' : ∀ cur a st st' gc, Ok d s0 st → Ok d s0 st' → (node st.graph cur).gscore = some gc →
    Tried d c width cur a (gc + d.cost cur a (d.next cur a)) st st' → F cur st → F cur st'
  done : ∀ cur st, F cur st → E st

theorem Queue.Exact.prio (hQ : c.queue.Exact) (hord : c.ordering = fun a b => less b.1 a.1) : Prio d c width s0 (fun _ => True) (fun _ _ => True) := by
  refine ⟨?_, fun _ _ _ _ _ _ => trivial, fun _ _ _ _ _ _ => trivial, fun _ _ _ _ _ _ => trivial, fun _ _ _ _ _ _ _ _ _ _ => trivial, fun _ _ _ => trivial⟩
  intro st cur q _ _ hp y hy
  have he : worse c st.graph = fun a b => less ((fun s => (node st.graph s).gscore) b) ((fun s => (node st.graph s).gscore) a) := by
    funext a b; simp only [worse, hord]
  rw [he] at hp ⊢
  exact hQ.first _ _ _ _ hp y hy

/-- The search of the width of the problem does not fail, and its plan is no longer than the
chain. -/
theorem width_found {E : St σ α φ → Prop} {F : σ → St σ α φ → Prop} (hL : c.queue.Lawful) (hQ : Prio d c width s0 E F)
    (hord : c.ordering = fun a b => less b.1 a.1) (hleft : ∀ k, c.left k = false) (hu : Unit d)
    {m : Nat} {t : Nat → Tuple φ} (hw : HasWidth d s0 width m t) (fuel : Nat) {st : St σ α φ} (hb : Between d s0 st) (h0 : d.goal s0 = false)
    (ht0 : d.terminal s0 = false) (hE : E (start d c width s0 st)) :
    solveWidth d c fuel width s0 st = none ∨
      ∃ st' as, solveWidth d c fuel width s0 st = some (.ok (true, st')) ∧ Won d s0 width st st' as ∧ as.length ≤ m := by
  have hcost : Nonneg d := fun s a _ => by rw [hu]; decide
  obtain ⟨hok, hcl, hq, _, hseen, _, _, _⟩ := start_ok hL (width := width) hb
  have hnov := (novelty_spec width [] (d.features s0)).1
  have hroot : Reach d s0 0 s0 := ⟨[], rfl, trivial, rfl, fun pre a post h => absurd h (by simp)⟩
  have hstart : Seen d width (start d c width s0 st) ∧ ∃ i, At d t m i (start d c width s0 st) := by
    refine ⟨?_, 0, Nat.zero_le _, ⟨s0, (hq s0).2 rfl, by rw [hcl]; exact List.not_mem_nil, hw.root, 0, hok.tree.root.2, by simp⟩, ?_, ?_⟩
    · intro x hx t a1 a2 a3
      rw [hcl] at hx
      rcases hx with hx | hx
      · cases hx
      · rw [(hq x).1 hx] at a3
        rw [hseen, hnov]; exact .inr ⟨⟨a1, a2⟩, a3⟩
    · intro j hj hjm
      rw [hseen, hnov]
      rintro (h | h)
      · cases h
      · have := hw.shortest j hjm 0 s0 hroot h.2; omega
    · intro hm hs
      rw [hseen, hnov] at hs
      rcases hs with h | h
      · cases h
      · have := hw.shortest (0 + 1) hm 0 s0 hroot h.2; omega
  have hpopF : ∀ (st : St σ α φ) cur q cl t' i x, c.queue.pop (worse c st.graph) st.queue = some (cur, q) → x ≠ cur → (x ∉ st.closed → x ∉ cl) →
      Front d t' i st x → Front d t' i { st with queue := q, closed := cl } x := by
    intro st cur q cl t' i x hp hne hc ⟨h1, h2, h3, h4⟩
    exact ⟨((List.mem_cons.1 ((hL.pop _ _ _ _ hp).mem_iff.1 h1)).resolve_left hne), hc h2, h3, h4⟩
  have hseenpop : ∀ (st : St σ α φ) cur q cl, c.queue.pop (worse c st.graph) st.queue = some (cur, q) → (∀ x ∈ cl, x = cur ∨ x ∈ st.closed) →
      Seen d width st → Seen d width { st with queue := q, closed := cl } := by
    intro st cur q cl hp hcl hs x hx
    have hcur : cur ∈ st.queue := (hL.pop _ _ _ _ hp).mem_iff.2 (by simp)
    rcases hx with hx | hx
    · rcases hcl x hx with rfl | hx
      · exact hs x (.inr hcur)
      · exact hs x (.inl hx)
    · exact hs x (.inr ((hL.pop _ _ _ _ hp).mem_iff.2 (by simp [hx])))
  -- the popped node is not after the front
  have hbefore : ∀ (st : St σ α φ) cur q i, Ok d s0 st → E st → c.queue.pop (worse c st.graph) st.queue = some (cur, q) → (∃ x, Front d t i st x) →
      ∃ gc, (node st.graph cur).gscore = some gc ∧ gc ≤ i := by
    intro st cur q i ho he hp ⟨x, h1, _, _, gx, h4, h5⟩
    obtain ⟨gc, _, hgc, _⟩ := ho.tree.scores cur (ho.inGraph cur ((hL.pop _ _ _ _ hp).mem_iff.2 (by simp)))
    exact ⟨gc, hgc, le_trans (worse_default hord hgc h4 (hQ.first _ _ _ ho he hp x h1)) h5⟩
  -- it is not the one on the next front
  have hnotnext : ∀ (st : St σ α φ) cur i y, Ok d s0 st → i + 1 ≤ m → (∃ gc, (node st.graph cur).gscore = some gc ∧ gc ≤ (i : Rat)) →
      Front d t (i + 1) st y → y ≠ cur := by
    rintro st cur i y ho hm ⟨gc, h1, h2⟩ ⟨f1, _, f3, _⟩ rfl
    obtain ⟨k, k1, k2⟩ := ho.tree.reach hu (ho.inGraph _ f1) h1
    have := hw.shortest _ hm k _ k1 f3
    have h3 : (k : Rat) ≤ i := le_trans k2 h2
    have : k ≤ i := by exact_mod_cast h3
    omega
  rcases width_ind hL hleft hcost (width := width) (fun s => E s ∧ Seen d width s ∧ ∃ i, At d t m i s)
    (fun cur todo s => F cur s ∧ Seen d width s ∧ ∃ i, Moving d t m i cur todo s)
    (by
      rintro st cur q ho ⟨he, hs, i, h1, ⟨x, hx⟩, h3, h4⟩ hp hc
      refine ⟨hQ.drop _ _ _ ho he hp, hseenpop st cur q st.closed hp (fun x h => .inr h) hs, i, h1,
        ⟨x, hpopF st cur q st.closed t i x hp (by rintro rfl; exact hx.2.1 hc) id hx⟩, h3, ?_⟩
      intro hm hs'
      obtain ⟨y, hy⟩ := h4 hm hs'
      exact ⟨y, hpopF st cur q st.closed t _ y hp (by rintro rfl; exact hy.2.1 hc) id hy⟩)
    (by
      rintro st cur q ho ⟨he, hs, i, h1, ⟨x, hx⟩, h3, h4⟩ hp hc hg htm
      have hgc := hbefore st cur q i ho he hp ⟨x, hx⟩
      have hcl' : ∀ x, x ≠ cur → x ∉ st.closed → x ∉ cur :: st.closed := fun x h1 h2 h3 => (List.mem_cons.1 h3).elim h1 h2
      refine ⟨hQ.dead _ _ _ ho he hp, hseenpop st cur q (cur :: st.closed) hp (fun x h => List.mem_cons.1 h) hs, i, h1, ⟨x, ?_⟩, h3, ?_⟩
      · have hne : x ≠ cur := by
          rintro rfl
          -- a dead end on the front: impossible
          obtain ⟨f1, f2, f3, gx, f4, f5⟩ := hx
          obtain ⟨k, k1, k2⟩ := ho.tree.reach hu (ho.inGraph _ f1) f4
          have hki : k ≤ i := by exact_mod_cast le_trans k2 f5
          have hik := hw.shortest i h1 k _ k1 f3
          have : k = i := by omega
          subst this
          rcases Nat.lt_or_eq_of_le h1 with h | h
          · have := (hw.extend k h _ k1 f3 hg).1
            rw [htm] at this; cases this
          · subst h
            have := hw.goal _ k1 f3
            rw [hg] at this; cases this
        exact hpopF st cur q _ t i x hp hne (hcl' x hne) hx
      · intro hm hs'
        obtain ⟨y, hy⟩ := h4 hm hs'
        have hne := hnotnext st cur i y ho hm hgc hy
        exact ⟨y, hpopF st cur q _ t _ y hp hne (hcl' y hne) hy⟩)
    (by
      rintro st cur q ho ⟨he, hs, i, h1, ⟨x, hx⟩, h3, h4⟩ hp hc hg htm
      have hgc := hbefore st cur q i ho he hp ⟨x, hx⟩
      have hcl' : ∀ x, x ≠ cur → x ∉ st.closed → x ∉ cur :: st.closed := fun x h1 h2 h3 => (List.mem_cons.1 h3).elim h1 h2
      refine ⟨hQ.opens _ _ _ ho he hp, hseenpop st cur q (cur :: st.closed) hp (fun x h => List.mem_cons.1 h) hs, i, h1, hgc, h3, ?_, ?_⟩
      · intro hm hs'
        obtain ⟨y, hy⟩ := h4 hm hs'
        have hne := hnotnext st cur i y ho hm hgc hy
        exact ⟨y, hpopF st cur q _ t _ y hp hne (hcl' y hne) hy⟩
      · by_cases hne : x = cur
        · subst hne
          obtain ⟨f1, f2, f3, gx, f4, f5⟩ := hx
          obtain ⟨k, k1, k2⟩ := ho.tree.reach hu (ho.inGraph _ f1) f4
          have hki : k ≤ i := by exact_mod_cast le_trans k2 f5
          have hik := hw.shortest i h1 k _ k1 f3
          have : k = i := by omega
          subst this
          right
          rcases Nat.lt_or_eq_of_le h1 with h | h
          · exact ⟨h, .inr (hw.extend k h _ k1 f3 hg).2⟩
          · subst h
            have := hw.goal _ k1 f3
            rw [hg] at this; cases this
        · exact .inl ⟨x, hpopF st cur q _ t i x hp hne (hcl' x hne) hx⟩)
    (by
      rintro cur a todo st st' gc hg htm ho hcur hgc ha htr ho' ⟨he, hs, i, hm⟩
      exact ⟨hQ.try' _ _ _ _ _ ho ho' hgc htr he, hs.try hL htr, i, hm.try hL hu hw ho' hgc (fun x hx => hs x (.inl hx)) htr⟩)
    (by
      rintro cur st ⟨he, hs, i, h1, h2, h3, h4, h5⟩
      refine ⟨hQ.done _ _ he, hs, ?_⟩
      rcases h5 with h5 | ⟨hm, h5 | ⟨a, ha, _⟩⟩
      · exact ⟨i, h1, h5, h3, h4⟩
      · refine ⟨i + 1, hm, h5, fun j hj => h3 j (by omega), fun hm' hs' => ?_⟩
        exact absurd hs' (h3 (i + 2) (le_refl _) hm')
      · cases ha)
    fuel hb h0 ht0 ⟨hE, hstart⟩ with h | ⟨st1, ho, ⟨he, _, i, him, ⟨x, hx⟩, _⟩, hs, h | ⟨cur, q, gx, st', as, hp, hgoal, hgx, h1, h2, h3⟩⟩
  · exact .inl h
  · have := hx.1
    rw [h.1] at this; cases this
  · right
    refine ⟨st', as, h1, h2, ?_⟩
    obtain ⟨gc, e1, e2⟩ := hbefore st1 cur q i ho he hp ⟨x, hx⟩
    rw [hgx] at e1; cases e1
    rw [walkCost_unit hu] at h3
    have : (as.length : Rat) ≤ i := le_trans h3 e2
    have : as.length ≤ i := by exact_mod_cast this
    omega

/-- In the sequence of widths. -/
theorem widths_found (hQ : c.queue.Exact) (hord : c.ordering = fun a b => less b.1 a.1) (hleft : ∀ k, c.left k = false) (hu : Unit d)
    {w m : Nat} {t : Nat → Tuple φ} (hw : HasWidth d s0 w m t) (hplan : ¬ NoGoal d s0) (fuel : Nat) (h0 : d.goal s0 = false)
    (pre post : List Nat) {st : St σ α φ} (hb : Between d s0 st) :
    widths d c fuel s0 (pre ++ w :: post) st = none ∨ ∃ st' w' as, widths d c fuel s0 (pre ++ w :: post) st = some (.ok st') ∧
      Won d s0 w' st st' as ∧ (w' ∈ pre ∨ w' = w ∧ as.length ≤ m) := by
  have hcost : Nonneg d := fun s a _ => by rw [hu]; decide
  have ht : d.terminal s0 = false := by
    cases h : d.terminal s0 with
    | false => rfl
    | true => exact absurd (noGoal_dead h0 h) hplan
  induction pre generalizing st with
  | nil =>
    rw [List.nil_append, widths]
    rcases width_found hQ.toLawful (Queue.Exact.prio hQ hord) hord hleft hu hw fuel hb h0 ht trivial with h | ⟨st', as, h1, h2, h3⟩
    · rw [h]; exact .inl rfl
    · rw [h1]
      simp only [if_true, hleft, Bool.false_eq_true, if_false]
      exact .inr ⟨_, w, as, rfl, ⟨h2.tells, h2.live, h2.found, h2.scores, h2.solved⟩, .inr ⟨rfl, h3⟩⟩
  | cons v pre ih =>
    rw [List.cons_append, widths]
    rcases width_cases hQ.toLawful hleft hcost (width := v) fuel hb h0 with h | ⟨st1, h1, h2, _, h4, h5, h6⟩ | ⟨st', as, h1, h2⟩
    · rw [h]; exact .inl rfl
    · rw [h1]
      simp only [h2, Bool.false_eq_true, if_false]
      by_cases hp : st1.pruned = true
      · simp only [hp, Bool.not_true, Bool.false_eq_true, if_false]
        rcases ih (h5 hp) with h | ⟨st', w', as, e, hwon, hw'⟩
        · exact .inl h
        · exact .inr ⟨st', w', as, e, { hwon with scores := by rw [hwon.scores, h4] }, hw'.imp (fun h => by simp [h]) id⟩
      · exact absurd (h6 (.inl (by simpa using hp))) hplan
    · rw [h1]
      simp only [if_true, hleft, Bool.false_eq_true, if_false]
      exact .inr ⟨_, v, as, rfl, ⟨h2.tells, h2.live, h2.found, h2.scores, h2.solved⟩, .inl (by simp)⟩

omit [DecidableEq σ] [DecidableEq φ] in
/-- A problem with a width has a plan. -/
theorem HasWidth.plan {m : Nat} {t : Nat → Tuple φ} (hw : HasWidth d s0 width m t) : ¬ NoGoal d s0 := by
  intro hno
  have key : ∀ i ≤ m, ∃ x, Reach d s0 i x ∧ Holds (d.features x) (t i) := by
    intro i
    induction i with
    | zero => exact fun _ => ⟨s0, ⟨[], rfl, trivial, rfl, fun pre a post h => absurd h (by simp)⟩, hw.root⟩
    | succ i ih =>
      intro hi
      obtain ⟨x, hx, hh⟩ := ih (by omega)
      have hx' := hx
      obtain ⟨as, e1, e2, e3, e4⟩ := hx'
      have hg : d.goal x = false := by
        rw [← e3]
        exact hno as e2 (fun pre a post h => (e4 pre a post h).2)
      obtain ⟨htm, a, ha, hh'⟩ := hw.extend i (by omega) x hx hh hg
      refine ⟨d.next x a, ⟨as ++ [a], by simp [e1], ?_, ?_, ?_⟩, hh'⟩
      · rw [Search.applicable_append, e3]; exact ⟨e2, ha, trivial⟩
      · rw [Search.walk_append, e3]; rfl
      · intro pre b post h
        rcases snoc_split h with ⟨_, rfl, rfl⟩ | ⟨post', _, h2⟩
        · rw [e3]; exact ⟨hg, htm⟩
        · exact e4 pre b post' h2
  obtain ⟨x, hx, hh⟩ := key m (le_refl _)
  have hg := hw.goal x hx hh
  obtain ⟨as, e1, e2, e3, e4⟩ := hx
  have := hno as e2 (fun pre a post h => (e4 pre a post h).2)
  rw [e3, hg] at this
  cases this

/-! ### The queue of the C++ library -/

theorem less_eq (a b : Option Rat) : less a b = CppAStar.less a b := by
  cases a <;> cases b <;> rfl

omit [DecidableEq σ] in
theorem siftUp_eq (k : σ → Option Rat) (x : σ) (fuel i : Nat) (l : List σ) :
    siftUp (fun a b => less (k b) (k a)) x fuel i l = CppAStar.siftUp k x fuel i l := by
  induction fuel generalizing i l with
  | zero => rfl
  | succ fuel ih =>
    rw [siftUp, CppAStar.siftUp]
    simp only [ih]
    simp only [less_eq]
    rfl

omit [DecidableEq σ] in
theorem siftHole_eq (k : σ → Option Rat) (fuel i : Nat) (l : List σ) :
    siftHole (fun a b => less (k b) (k a)) fuel i l = CppAStar.siftHole k fuel i l := by
  induction fuel generalizing i l with
  | zero => rfl
  | succ fuel ih =>
    rw [siftHole, CppAStar.siftHole]
    simp only [ih]
    simp only [less_eq]
    rfl

omit [DecidableEq σ] in
theorem heap_push (k : σ → Option Rat) (l : List σ) (x : σ) :
    (heap : Queue σ).push (fun a b => less (k b) (k a)) l x = (CppAStar.heap : CppAStar.Queue σ).push k l x := by
  simp only [heap, CppAStar.heap, siftUp_eq]

omit [DecidableEq σ] in
theorem heap_pop (k : σ → Option Rat) (l : List σ) :
    (heap : Queue σ).pop (fun a b => less (k b) (k a)) l = (CppAStar.heap : CppAStar.Queue σ).pop k l := by
  match l with
  | [] => rfl
  | [x] => rfl
  | x :: y :: rest => simp only [heap, CppAStar.heap, siftUp_eq, siftHole_eq]

/-- The scores. -/
def key (st : St σ α φ) (s : σ) : Option Rat := (node st.graph s).gscore

/-- The queue is a heap, its scores are at least `k` and all scores at most `k + 1`; the tuples of
all nodes have been seen. -/
structure Level (d : Domain σ α φ) (width : Nat) (st : St σ α φ) (k : Rat) : Prop where
  heap : CppAStar.HeapOk (key st) st.queue
  low : ∀ x ∈ st.queue, ∀ gx, key st x = some gx → k ≤ gx
  high : ∀ x, st.graph.contains x = true → ∀ gx, key st x = some gx → gx ≤ k + 1
  known : ∀ x, st.graph.contains x = true → ∀ t : Tuple φ, 1 ≤ t.length → t.length ≤ width → Holds (d.features x) t → t ∈ st.seen

theorem heap_prio (hq : c.queue = heap) (hord : c.ordering = fun a b => less b.1 a.1) (hu : Unit d)
    (hlen : ∀ x, width ≤ (d.features x).length) :
    Prio d c width s0 (fun st => ∃ k, Level d width st k) (fun cur st => ∃ gc, key st cur = some gc ∧ Level d width st gc) := by
  have hworse : ∀ st : St σ α φ, worse c st.graph = fun a b => less (key st b) (key st a) := by
    intro st; funext a b; simp only [worse, hord, key]
  have hpop : ∀ (st : St σ α φ) cur q, c.queue.pop (worse c st.graph) st.queue = some (cur, q) → (CppAStar.heap : CppAStar.Queue σ).pop (key st) st.queue = some (cur, q) := by
    intro st cur q h
    rw [hq, hworse, heap_pop] at h
    exact h
  have hL : c.queue.Lawful := by rw [hq]; exact heap_lawful
  have hE : ∀ (st : St σ α φ) cur q cl k, c.queue.pop (worse c st.graph) st.queue = some (cur, q) → Level d width st k →
      Level d width { st with queue := q, closed := cl } k := by
    intro st cur q cl k hp h
    exact ⟨(CppAStar.pop_ok h.heap (hpop _ _ _ hp)).1, fun x hx => h.low x ((hL.pop _ _ _ _ hp).mem_iff.2 (by simp [hx])), h.high, h.known⟩
  have hmin : ∀ (st : St σ α φ) cur q k, c.queue.pop (worse c st.graph) st.queue = some (cur, q) → Level d width st k →
      ∀ y ∈ st.queue, less (key st y) (key st cur) = false := by
    intro st cur q k hp h y hy
    rw [less_eq]
    exact (CppAStar.pop_ok h.heap (hpop _ _ _ hp)).2 y hy
  refine ⟨?_, ?_, ?_, ?_, ?_, fun cur st ⟨gc, _, h⟩ => ⟨gc, h⟩⟩
  · rintro st cur q ho ⟨k, h⟩ hp y hy
    rw [hworse]
    exact hmin st cur q k hp h y hy
  · rintro st cur q ho ⟨k, h⟩ hp
    exact ⟨k, hE st cur q _ k hp h⟩
  · rintro st cur q ho ⟨k, h⟩ hp
    exact ⟨k, hE st cur q _ k hp h⟩
  · rintro st cur q ho ⟨k, h⟩ hp
    have hcur : cur ∈ st.queue := (hL.pop _ _ _ _ hp).mem_iff.2 (by simp)
    obtain ⟨gc, _, hgc, _⟩ := ho.tree.scores cur (ho.inGraph cur hcur)
    have hk := h.low cur hcur gc hgc
    have h' := hE st cur q (cur :: st.closed) k hp h
    refine ⟨gc, hgc, h'.heap, ?_, ?_, h.known⟩
    · intro x hx gx hgx
      have := hmin st cur q k hp h x ((hL.pop _ _ _ _ hp).mem_iff.2 (by simp [hx]))
      rw [show key st cur = some gc from hgc, show key st x = some gx from hgx] at this
      simpa [less] using this
    · intro x hx gx hgx
      have := h.high x hx gx hgx
      linarith
  · rintro cur a st st' gc ho ho' hgc htr ⟨gc', e, h⟩
    rw [show key st cur = some gc from hgc] at e
    cases e
    rw [hu] at htr
    -- known nodes keep their scores
    have hkeep : ∀ x, st.graph.contains x = true → key st' x = key st x := by
      intro x hx
      by_cases hxn : x = d.next cur a
      · subst hxn
        rcases htr.link with ⟨l1, _⟩ | ⟨_, l2, _⟩
        · obtain ⟨gx, _, hgx, _⟩ := ho.tree.scores _ hx
          have := h.high _ hx gx hgx
          rw [hgx] at l1
          simp only [less, decide_eq_true_eq] at l1
          linarith
        · exact l2
      · simp only [key, htr.other x hxn]
    have hheap : CppAStar.HeapOk (key st') st.queue :=
      CppAStar.heapOk_congr (fun x hx => (hkeep x (ho.inGraph x hx)).symm) h.heap
    have hhigh : ∀ x, st'.graph.contains x = true → ∀ gx, key st' x = some gx → gx ≤ gc + 1 := by
      intro x hx gx hgx
      by_cases hc : st.graph.contains x = true
      · rw [hkeep x hc] at hgx; exact h.high x hc gx hgx
      · rw [htr.contains] at hx
        have hxn : x = d.next cur a := by simpa [hc] using hx
        subst hxn
        rcases htr.link with ⟨_, l2, _⟩ | ⟨l1, _, _⟩
        · rw [show key st' _ = some (gc + 1) from l2] at hgx
          cases hgx; exact le_refl _
        · rw [node_not_contains (by simpa using hc)] at l1
          cases l1
    have hlow : ∀ x ∈ st.queue, ∀ gx, key st' x = some gx → gc ≤ gx := by
      intro x hx gx hgx
      rw [hkeep x (ho.inGraph x hx)] at hgx
      exact h.low x hx gx hgx
    have hkc : key st' cur = some gc := by
      by_cases hc : st.graph.contains cur = true
      · rw [hkeep cur hc]; exact hgc
      · rw [node_not_contains (by simpa using hc)] at hgc; cases hgc
    obtain ⟨n1, _, _, n4⟩ := novelty_spec width st.seen (d.features (d.next cur a))
    have hknown : ∀ x, st'.graph.contains x = true → ∀ t : Tuple φ, 1 ≤ t.length → t.length ≤ width → Holds (d.features x) t → t ∈ st'.seen := by
      intro x hx t a1 a2 a3
      rw [htr.seen, n1]
      rw [htr.contains] at hx
      by_cases hc : st.graph.contains x = true
      · exact .inl (h.known x hc t a1 a2 a3)
      · have hxn : x = d.next cur a := by simpa [hc] using hx
        subst hxn
        exact .inr ⟨⟨a1, a2⟩, a3⟩
    refine ⟨gc, hkc, ?_⟩
    rcases htr.step with ⟨_, e, _⟩ | ⟨hnov, _, e⟩
    · exact ⟨by rw [e]; exact hheap, by rw [e]; exact hlow, hhigh, hknown⟩
    · refine ⟨?_, ?_, hhigh, hknown⟩
      · rw [e, hq, hworse, heap_push]
        exact CppAStar.push_ok hheap _
      · intro x hx gx hgx
        rw [e, (hL.push _ _ _).mem_iff] at hx
        rcases List.mem_cons.1 hx with rfl | hx
        · -- the node just queued
          by_cases hc : st.graph.contains (d.next cur a) = true
          · exfalso
            rcases n4 with h4 | ⟨t, t1, t2, t3, t4, t5⟩
            · have := hlen (d.next cur a)
              omega
            · exact t5 (h.known _ hc t t2 t3 t4)
          · rcases htr.link with ⟨_, l2, _⟩ | ⟨l1, _, _⟩
            · rw [show key st' _ = some (gc + 1) from l2] at hgx
              cases hgx; linarith
            · rw [node_not_contains (by simpa using hc)] at l1
              cases l1
        · exact hlow x hx gx hgx

theorem heap_start (hq : c.queue = heap) {st : St σ α φ} (hg : st.graph = []) (hf : st.found = false) : Level d width (start d c width s0 st) 0 := by
  have hL : c.queue.Lawful := by rw [hq]; exact heap_lawful
  obtain ⟨hok, _, hqs, hlen, hseen, _, _, hcon⟩ := start_ok (d := d) hL (width := width) (s0 := s0) (st := st) ⟨hf, .inl hg⟩
  have hx : ∀ x, (start d c width s0 st).graph.contains x = true → x = s0 := by
    intro x hx
    rw [hcon, hg] at hx
    simpa [Dict.contains] using hx
  refine ⟨?_, ?_, ?_, ?_⟩
  · intro i x y hi h1 h2
    have := (List.getElem?_eq_some_iff.1 h1).1
    omega
  · intro x h gx hgx
    rw [(hqs x).1 h, key, hok.tree.root.2] at hgx
    cases hgx; exact le_refl _
  · intro x h gx hgx
    rw [hx x h, key, hok.tree.root.2] at hgx
    cases hgx; norm_num
  · intro x h t a1 a2 a3
    rw [hx x h] at a3
    rw [hseen, (novelty_spec width [] (d.features s0)).1]
    exact .inr ⟨⟨a1, a2⟩, a3⟩

end Verif.Iw
