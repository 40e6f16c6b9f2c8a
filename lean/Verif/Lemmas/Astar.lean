import Verif.Model.Search
import Mathlib.Tactic.Linarith
import Mathlib.Algebra.Order.Ring.Rat

/-! Invariants of the lazy A* search. -/
namespace Verif.Search

/-- Where a sequence of actions leads, what it costs, and whether each action is applicable. -/
def Problem.walk (p : Problem σ α) : σ → List α → σ
  | s, [] => s
  | s, a :: as => p.walk (p.next s a) as

def Problem.walkCost (p : Problem σ α) : σ → List α → Rat
  | _, [] => 0
  | s, a :: as => p.cost s a (p.next s a) + p.walkCost (p.next s a) as

def Problem.Applicable (p : Problem σ α) : σ → List α → Prop
  | _, [] => True
  | s, a :: as => a ∈ p.actions s ∧ p.Applicable (p.next s a) as

theorem walk_append (p : Problem σ α) (s : σ) (as bs : List α) :
    p.walk s (as ++ bs) = p.walk (p.walk s as) bs := by
  induction as generalizing s with
  | nil => rfl
  | cons a as ih => exact ih _

theorem walkCost_append (p : Problem σ α) (s : σ) (as bs : List α) :
    p.walkCost s (as ++ bs) = p.walkCost s as + p.walkCost (p.walk s as) bs := by
  induction as generalizing s with
  | nil => simp [Problem.walkCost, Problem.walk]
  | cons a as ih =>
    simp only [List.cons_append, Problem.walkCost, Problem.walk, ih, Rat.add_assoc]

theorem applicable_append (p : Problem σ α) (s : σ) (as bs : List α) :
    p.Applicable s (as ++ bs) ↔ p.Applicable s as ∧ p.Applicable (p.walk s as) bs := by
  induction as generalizing s with
  | nil => simp [Problem.Applicable, Problem.walk]
  | cons a as ih =>
    simp only [List.cons_append, Problem.Applicable, Problem.walk, ih, and_assoc]

theorem popMin_spec {q : List (Entry σ α)} {e : Entry σ α} {rest : List (Entry σ α)}
    (h : popMin q = some (e, rest)) :
    q.length = rest.length + 1 ∧ (∀ x, x ∈ q ↔ x = e ∨ x ∈ rest) ∧ ∀ x ∈ q, e.f ≤ x.f := by
  induction q generalizing e rest with
  | nil => cases h
  | cons y ys ih =>
    rw [popMin] at h
    cases hp : popMin ys with
    | none =>
      rw [hp] at h
      simp only [Option.some.injEq, Prod.mk.injEq] at h
      obtain ⟨rfl, rfl⟩ := h
      have hys : ys = [] := by
        cases ys with
        | nil => rfl
        | cons z zs =>
          rw [popMin] at hp
          split at hp
          · cases hp
          · split at hp <;> cases hp
      subst hys
      simp
    | some r =>
      obtain ⟨m, r⟩ := r
      obtain ⟨h1, h2, h3⟩ := ih hp
      rw [hp] at h
      simp only at h
      by_cases hb : y.before m = true
      · rw [if_pos hb] at h
        simp only [Option.some.injEq, Prod.mk.injEq] at h
        obtain ⟨rfl, rfl⟩ := h
        refine ⟨rfl, fun x => List.mem_cons, ?_⟩
        have hm : y.f ≤ m.f := by
          simp only [Entry.before, decide_eq_true_eq] at hb
          rcases hb with hb | hb
          · exact le_of_lt hb
          · exact le_of_eq hb.1
        intro x hx
        rcases List.mem_cons.1 hx with rfl | hx
        · exact le_refl _
        · exact le_trans hm (h3 x hx)
      · rw [if_neg hb] at h
        simp only [Option.some.injEq, Prod.mk.injEq] at h
        obtain ⟨rfl, rfl⟩ := h
        have hm : m.f ≤ y.f := by
          simp only [Entry.before, decide_eq_true_eq, not_or] at hb
          exact not_lt.1 hb.1
        refine ⟨by simp [h1], fun x => ?_, ?_⟩
        · simp only [List.mem_cons, h2]
          exact ⟨fun h => by rcases h with h | h | h <;> simp [h],
            fun h => by rcases h with h | h | h <;> simp [h]⟩
        · intro x hx
          rcases List.mem_cons.1 hx with rfl | hx
          · exact hm
          · exact h3 x hx

theorem popMin_none {q : List (Entry σ α)} (h : popMin q = none) : q = [] := by
  cases q with
  | nil => rfl
  | cons z zs =>
    rw [popMin] at h
    split at h
    · cases h
    · split at h <;> cases h

variable [DecidableEq σ]

/-- How a node was reached: it is the source at distance 0, or it follows an explored node. -/
def Link (p : Problem σ α) (s0 : σ) (s : Search σ α) (node : σ) (dist : Rat) : Option (σ × α) → Prop
  | none => node = s0 ∧ dist = 0
  | some (u, a) => (s.explored.get? u).isSome ∧ a ∈ p.actions u ∧ p.next u a = node ∧
      ∃ g hh, s.enqueued.get? u = some (g, hh) ∧ dist = g + p.cost u a (p.next u a)

structure Inv (p : Problem σ α) (h : σ → Rat) (w : Rat) (s0 : σ) (s : Search σ α) : Prop where
  src : ∃ hh, s.enqueued.get? s0 = some (0, hh)
  began : s.explored ≠ [] → (s.explored.get? s0).isSome
  prio : ∀ e ∈ s.queue, e.f = e.dist + w * h e.node ∧ ∃ g hh, s.enqueued.get? e.node = some (g, hh) ∧ g ≤ e.dist
  link : ∀ e ∈ s.queue, Link p s0 s e.node e.dist e.parent
  heur : ∀ n g hh, s.enqueued.get? n = some (g, hh) → n ≠ s0 → hh = h n
  queued : ∀ n g hh, s.enqueued.get? n = some (g, hh) → s.explored.get? n = none →
    ∃ e ∈ s.queue, e.node = n ∧ e.dist = g
  expl : ∀ n pr, s.explored.get? n = some pr → p.goal n = false ∧
    ∃ g hh, s.enqueued.get? n = some (g, hh) ∧ Link p s0 s n g pr
  rank : ∃ rank : σ → Nat, ∀ n pr, s.explored.get? n = some pr →
    rank n < s.explored.length ∧ ∀ u a, pr = some (u, a) → rank u < rank n

/-- Every successor of an explored node is explored or queued at no more than the distance
through that node. -/
def Succ (p : Problem σ α) (s : Search σ α) : Prop :=
  ∀ n gn hn, (s.explored.get? n).isSome → s.enqueued.get? n = some (gn, hn) → ∀ a ∈ p.actions n,
    (s.explored.get? (p.next n a)).isSome ∨
    ∃ g hh, s.enqueued.get? (p.next n a) = some (g, hh) ∧ g ≤ gn + p.cost n a (p.next n a)

/-- What the neighbour loop leaves unchanged, and what it only improves. -/
structure Grows (s t : Search σ α) : Prop where
  explored : t.explored = s.explored
  kept : ∀ n, (s.explored.get? n).isSome → t.enqueued.get? n = s.enqueued.get? n
  better : ∀ n g hh, s.enqueued.get? n = some (g, hh) → ∃ g', t.enqueued.get? n = some (g', hh) ∧ g' ≤ g

theorem Grows.refl (s : Search σ α) : Grows s s := ⟨rfl, fun _ _ => rfl, fun _ g _ h => ⟨g, h, le_refl _⟩⟩

theorem Grows.trans {s t u : Search σ α} (h1 : Grows s t) (h2 : Grows t u) : Grows s u := by
  refine ⟨h2.explored.trans h1.explored, ?_, ?_⟩
  · intro n hn
    rw [h2.kept n (by rw [h1.explored]; exact hn), h1.kept n hn]
  · intro n g hh h
    obtain ⟨g1, h3, h4⟩ := h1.better n g hh h
    obtain ⟨g2, h5, h6⟩ := h2.better n g1 hh h3
    exact ⟨g2, h5, le_trans h6 h4⟩

theorem Link.grows {p : Problem σ α} {s0 : σ} {s t : Search σ α} (hg : Grows s t) {n : σ} {d : Rat}
    {pr : Option (σ × α)} (h : Link p s0 s n d pr) : Link p s0 t n d pr := by
  cases pr with
  | none => exact h
  | some q =>
    obtain ⟨h1, h2, h3, g, hh, h4, h5⟩ := h
    refine ⟨by rw [hg.explored]; exact h1, h2, h3, g, hh, ?_, h5⟩
    rw [hg.kept _ h1]; exact h4

/-- Adding one queue entry for a node that is not explored. -/
theorem push_inv {p : Problem σ α} {h : σ → Rat} {w : Rat} {s0 : σ} {s : Search σ α}
    (hi : Inv p h w s0 s) {cur : σ} {dist hc : Rat} (hcur : (s.explored.get? cur).isSome)
    (hd : s.enqueued.get? cur = some (dist, hc)) {n : σ} {a : α} (ha : a ∈ p.actions cur)
    (hn : p.next cur a = n) (hne : s.explored.get? n = none)
    (hlow : ∀ g hh, s.enqueued.get? n = some (g, hh) → dist + p.cost cur a n < g) :
    let t : Search σ α := { s with
      enqueued := s.enqueued.set n (dist + p.cost cur a n, h n)
      queue := ⟨dist + p.cost cur a n + w * h n, s.cnt, n, dist + p.cost cur a n, some (cur, a)⟩ :: s.queue
      cnt := s.cnt + 1 }
    Inv p h w s0 t ∧ Grows s t := by
  intro t
  have hex : s.explored ≠ [] := by
    intro h0; rw [h0] at hcur; simp at hcur
  have hs0 := hi.began hex
  have hns0 : n ≠ s0 := by
    rintro rfl; rw [hne] at hs0; simp at hs0
  have hget : ∀ m, t.enqueued.get? m = if m = n then some (dist + p.cost cur a n, h n) else s.enqueued.get? m :=
    fun m => Dict.get?_set _ _ _ _
  have hself : t.enqueued.get? n = some (dist + p.cost cur a n, h n) := by rw [hget, if_pos rfl]
  have hoth : ∀ m, m ≠ n → t.enqueued.get? m = s.enqueued.get? m := fun m hm => by rw [hget, if_neg hm]
  have hgr : Grows s t := by
    refine ⟨rfl, ?_, ?_⟩
    · intro m hm
      refine hoth m ?_
      rintro rfl; rw [hne] at hm; simp at hm
    · intro m g hh hm
      by_cases hmn : m = n
      · subst hmn
        have := hlow g hh hm
        have h2 := hi.heur m g hh hm hns0
        exact ⟨_, by rw [hself, h2], le_of_lt this⟩
      · exact ⟨g, by rw [hoth m hmn]; exact hm, le_refl _⟩
  refine ⟨?_, hgr⟩
  constructor
  · obtain ⟨hh, h0⟩ := hi.src
    exact ⟨hh, by rw [hoth s0 hns0.symm]; exact h0⟩
  · exact hi.began
  · intro e he
    rcases List.mem_cons.1 he with rfl | he
    · exact ⟨rfl, _, _, hself, le_refl _⟩
    · obtain ⟨h1, g, hh, h2, h3⟩ := hi.prio e he
      obtain ⟨g', h4, h5⟩ := hgr.better _ _ _ h2
      exact ⟨h1, g', hh, h4, le_trans h5 h3⟩
  · intro e he
    rcases List.mem_cons.1 he with rfl | he
    · refine ⟨hcur, ha, hn, dist, hc, ?_, ?_⟩
      · rw [hgr.kept cur hcur]; exact hd
      · rw [hn]
    · exact (hi.link e he).grows hgr
  · intro m g hh hm hms
    by_cases hmn : m = n
    · subst hmn
      rw [hself] at hm
      simp only [Option.some.injEq, Prod.mk.injEq] at hm
      exact hm.2.symm
    · rw [hoth m hmn] at hm
      exact hi.heur m g hh hm hms
  · intro m g hh hm hx
    by_cases hmn : m = n
    · subst hmn
      rw [hself] at hm
      simp only [Option.some.injEq, Prod.mk.injEq] at hm
      exact ⟨_, List.mem_cons_self, rfl, hm.1⟩
    · rw [hoth m hmn] at hm
      obtain ⟨e, h1, h2, h3⟩ := hi.queued m g hh hm hx
      exact ⟨e, List.mem_cons_of_mem _ h1, h2, h3⟩
  · intro m pr hm
    obtain ⟨h1, g, hh, h2, h3⟩ := hi.expl m pr hm
    refine ⟨h1, g, hh, ?_, h3.grows hgr⟩
    rw [hgr.kept m (by rw [show s.explored.get? m = some pr from hm]; rfl)]
    exact h2
  · exact hi.rank

theorem pushAll_inv {p : Problem σ α} {h : σ → Rat} {w : Rat} {s0 : σ} (l : List (σ × Rat × α))
    {s : Search σ α} (hi : Inv p h w s0 s) {cur : σ} {dist hc : Rat} (hcur : (s.explored.get? cur).isSome)
    (hd : s.enqueued.get? cur = some (dist, hc))
    (hl : ∀ q ∈ l, q.2.2 ∈ p.actions cur ∧ p.next cur q.2.2 = q.1 ∧ q.2.1 = p.cost cur q.2.2 q.1) :
    Inv p h w s0 (pushAll h w cur dist l s) ∧ Grows s (pushAll h w cur dist l s) ∧
    (pushAll h w cur dist l s).queue.length ≤ s.queue.length + l.length ∧
    ∀ q ∈ l, (s.explored.get? q.1).isSome ∨
      ∃ g hh, (pushAll h w cur dist l s).enqueued.get? q.1 = some (g, hh) ∧ g ≤ dist + q.2.1 := by
  induction l generalizing s with
  | nil => exact ⟨hi, Grows.refl s, by simp [pushAll], by simp⟩
  | cons q l ih =>
    obtain ⟨n, c, a⟩ := q
    have hl' := fun q hq => hl q (List.mem_cons_of_mem _ hq)
    obtain ⟨ha, hn, hcost⟩ := hl _ List.mem_cons_self
    simp only at ha hn hcost
    rw [pushAll]
    by_cases hx : s.explored.contains n = true
    · rw [if_pos hx]
      obtain ⟨h1, h2, h3, h4⟩ := ih hi hcur hd hl'
      refine ⟨h1, h2, by simp only [List.length_cons]; omega, ?_⟩
      intro q hq
      rcases List.mem_cons.1 hq with rfl | hq
      · exact .inl ((Dict.contains_iff _ _).1 hx)
      · exact h4 q hq
    · rw [if_neg hx]
      have hne : s.explored.get? n = none := by
        rw [Dict.contains_eq] at hx
        simpa using hx
      have hex : s.explored ≠ [] := by
        intro h0; rw [h0] at hcur; simp at hcur
      have hns0 : n ≠ s0 := by
        rintro rfl
        have := hi.began hex
        rw [hne] at this; simp at this
      have stepCase : ∀ t : Search σ α, Inv p h w s0 t → Grows s t →
          t.queue.length = s.queue.length + 1 →
          (∃ g hh, t.enqueued.get? n = some (g, hh) ∧ g ≤ dist + c) →
          Inv p h w s0 (pushAll h w cur dist l t) ∧ Grows s (pushAll h w cur dist l t) ∧
          (pushAll h w cur dist l t).queue.length ≤ s.queue.length + (((n, c, a) :: l).length) ∧
          ∀ q ∈ (n, c, a) :: l, (s.explored.get? q.1).isSome ∨
            ∃ g hh, (pushAll h w cur dist l t).enqueued.get? q.1 = some (g, hh) ∧ g ≤ dist + q.2.1 := by
        intro t ht hg hlen htn
        obtain ⟨h1, h2, h3, h4⟩ := ih ht (by rw [hg.explored]; exact hcur) (by rw [hg.kept cur hcur]; exact hd) hl'
        refine ⟨h1, hg.trans h2, by simp only [List.length_cons]; omega, ?_⟩
        intro q hq
        rcases List.mem_cons.1 hq with rfl | hq
        · obtain ⟨g, hh, h5, h6⟩ := htn
          obtain ⟨g', h7, h8⟩ := h2.better _ _ _ h5
          exact .inr ⟨g', hh, h7, le_trans h8 h6⟩
        · rcases h4 q hq with h5 | h5
          · exact .inl (by rw [← hg.explored]; exact h5)
          · exact .inr h5
      cases hq : s.enqueued.get? n with
      | some r =>
        obtain ⟨g, hn'⟩ := r
        simp only
        by_cases hle : g ≤ dist + c
        · rw [if_pos hle]
          obtain ⟨h1, h2, h3, h4⟩ := ih hi hcur hd hl'
          refine ⟨h1, h2, by simp only [List.length_cons]; omega, ?_⟩
          intro q hq'
          rcases List.mem_cons.1 hq' with rfl | hq'
          · obtain ⟨g', h7, h8⟩ := h2.better _ _ _ hq
            exact .inr ⟨g', _, h7, le_trans h8 hle⟩
          · exact h4 q hq'
        · rw [if_neg hle]
          have hh := hi.heur n g hn' hq hns0
          subst hh
          subst hcost
          obtain ⟨h1, h2⟩ := push_inv hi hcur hd ha hn hne (by
            intro g' hh' h'
            rw [hq] at h'
            simp only [Option.some.injEq, Prod.mk.injEq] at h'
            rw [← h'.1]; exact not_le.1 hle)
          exact stepCase _ h1 h2 rfl ⟨_, _, Dict.get?_set_self _ _ _, le_refl _⟩
      | none =>
        simp only
        subst hcost
        obtain ⟨h1, h2⟩ := push_inv hi hcur hd ha hn hne (by
          intro g' hh' h'; rw [hq] at h'; cases h')
        exact stepCase _ h1 h2 rfl ⟨_, _, Dict.get?_set_self _ _ _, le_refl _⟩

theorem extender_spec (p : Problem σ α) (n : σ) (ex : Dict σ (Option (σ × α))) :
    (∀ q ∈ extender p n ex, q.2.2 ∈ p.actions n ∧ p.next n q.2.2 = q.1 ∧ q.2.1 = p.cost n q.2.2 q.1) ∧
    (extender p n ex).length ≤ (p.actions n).length ∧
    (∀ a ∈ p.actions n, (ex.get? (p.next n a)).isSome ∨
      (p.next n a, p.cost n a (p.next n a), a) ∈ extender p n ex) := by
  refine ⟨?_, ?_, ?_⟩
  · intro q hq
    obtain ⟨r, hr, rfl⟩ := List.mem_map.1 hq
    obtain ⟨a, ha, rfl⟩ := List.mem_map.1 (List.mem_filter.1 hr).1
    exact ⟨ha, rfl, rfl⟩
  · simp only [extender, List.length_map]
    exact le_trans (List.length_filter_le _ _) (by simp)
  · intro a ha
    by_cases hx : (ex.get? (p.next n a)).isSome
    · exact .inl hx
    · refine .inr (List.mem_map.2 ⟨(p.next n a, a), List.mem_filter.2 ⟨List.mem_map.2 ⟨a, ha, rfl⟩, ?_⟩, rfl⟩)
      simp only [Dict.contains_eq]
      simpa using hx

theorem length_set_new {d : Dict κ β} [DecidableEq κ] {k : κ} {v : β} (h : d.get? k = none) :
    (d.set k v).length = d.length + 1 := by
  induction d with
  | nil => rfl
  | cons q d ih =>
    obtain ⟨k', v'⟩ := q
    rw [Dict.get?] at h
    by_cases hk : k' = k
    · rw [if_pos hk] at h; cases h
    · rw [if_neg hk] at h
      rw [Dict.set, if_neg hk, List.length_cons, ih h, List.length_cons]

/-- The entry popped for a node that is not explored carries the recorded distance. -/
theorem popped_dist {p : Problem σ α} {h : σ → Rat} {w : Rat} {s0 : σ} {s : Search σ α}
    (hi : Inv p h w s0 s) {e : Entry σ α} {q : List (Entry σ α)} (hp : popMin s.queue = some (e, q))
    (hx : s.explored.get? e.node = none) : ∃ hh, s.enqueued.get? e.node = some (e.dist, hh) := by
  obtain ⟨_, hmem, hmin⟩ := popMin_spec hp
  have he : e ∈ s.queue := (hmem e).2 (.inl rfl)
  obtain ⟨h1, g, hh, h2, h3⟩ := hi.prio e he
  obtain ⟨e', h4, h5, h6⟩ := hi.queued _ g hh h2 hx
  have h7 := hmin e' h4
  rw [h1, (hi.prio e' h4).1, h5, h6] at h7
  have : g = e.dist := by linarith
  exact ⟨hh, by rw [← this]; exact h2⟩

theorem expand_inv {p : Problem σ α} {h : σ → Rat} {w : Rat} {s0 : σ} {s : Search σ α}
    (hi : Inv p h w s0 s) (hs : Succ p s) {e : Entry σ α} {q : List (Entry σ α)}
    (hp : popMin s.queue = some (e, q)) (hgoal : p.goal e.node = false) :
    Inv p h w s0 (expand p h w e { s with queue := q }) ∧ Succ p (expand p h w e { s with queue := q }) ∧
    (((s.explored.get? e.node).isSome ∧ expand p h w e { s with queue := q } = { s with queue := q }) ∨
     (s.explored.get? e.node = none ∧
      (expand p h w e { s with queue := q }).explored = s.explored.set e.node e.parent ∧
      (expand p h w e { s with queue := q }).queue.length ≤ q.length + (p.actions e.node).length ∧
      (∃ hh, (expand p h w e { s with queue := q }).enqueued.get? e.node = some (e.dist, hh)) ∧
      ∀ n, (s.explored.get? n).isSome →
        (expand p h w e { s with queue := q }).enqueued.get? n = s.enqueued.get? n)) := by
  obtain ⟨hlen, hmem, hmin⟩ := popMin_spec hp
  have he : e ∈ s.queue := (hmem e).2 (.inl rfl)
  by_cases hx : s.explored.contains e.node = true
  · have hex : expand p h w e { s with queue := q } = { s with queue := q } := by
      rw [expand, if_pos hx]
    have hx' : (s.explored.get? e.node).isSome := (Dict.contains_iff _ _).1 hx
    rw [hex]
    refine ⟨?_, hs, .inl ⟨hx', rfl⟩⟩
    refine ⟨hi.src, hi.began, fun x hx => hi.prio x ((hmem x).2 (.inr hx)),
      fun x hx => hi.link x ((hmem x).2 (.inr hx)), hi.heur, ?_, hi.expl, hi.rank⟩
    intro n g hh h1 h2
    obtain ⟨x, h3, h4, h5⟩ := hi.queued n g hh h1 h2
    rcases (hmem x).1 h3 with rfl | h3
    · rw [← h4] at h2
      simp only at h2
      rw [h2] at hx'; simp at hx'
    · exact ⟨x, h3, h4, h5⟩
  · have hne : s.explored.get? e.node = none := by
      rw [Dict.contains_eq] at hx
      simpa using hx
    obtain ⟨hh0, hd⟩ := popped_dist hi hp hne
    generalize ht : ({ s with queue := q, explored := s.explored.set e.node e.parent } : Search σ α) = t
    have hexp : expand p h w e { s with queue := q } =
        pushAll h w e.node e.dist (extender p e.node t.explored) t := by
      rw [expand, if_neg hx, ← ht]
    have htx : ∀ n, t.explored.get? n = if n = e.node then some e.parent else s.explored.get? n := by
      intro n; rw [← ht]; exact Dict.get?_set _ _ _ _
    have hte : t.enqueued = s.enqueued := by rw [← ht]
    have htq : t.queue = q := by rw [← ht]
    have hmono : ∀ n, (s.explored.get? n).isSome → (t.explored.get? n).isSome := by
      intro n hn
      rw [htx]; split
      · rfl
      · exact hn
    have hlinkmono : ∀ {n d pr}, Link p s0 s n d pr → Link p s0 t n d pr := by
      intro n d pr hl
      cases pr with
      | none => exact hl
      | some r =>
        obtain ⟨h1, h2, h3, g, hh, h4, h5⟩ := hl
        exact ⟨hmono _ h1, h2, h3, g, hh, by rw [hte]; exact h4, h5⟩
    have hcurx : t.explored.get? e.node = some e.parent := by rw [htx, if_pos rfl]
    have hti : Inv p h w s0 t := by
      constructor
      · rw [hte]; exact hi.src
      · intro _
        by_cases h0 : s.explored = []
        · -- the first pop is the source
          have hl := hi.link e he
          cases hpr : e.parent with
          | none =>
            rw [hpr] at hl
            rw [htx, hl.1, if_pos rfl]; rfl
          | some r =>
            rw [hpr] at hl
            have := hl.1
            rw [h0] at this; simp at this
        · exact hmono _ (hi.began h0)
      · intro x hx'
        rw [htq] at hx'
        rw [hte]
        exact hi.prio x ((hmem x).2 (.inr hx'))
      · intro x hx'
        rw [htq] at hx'
        exact hlinkmono (hi.link x ((hmem x).2 (.inr hx')))
      · rw [hte]; exact hi.heur
      · intro n g hh h1 h2
        rw [hte] at h1
        rw [htx] at h2
        by_cases hn : n = e.node
        · rw [if_pos hn] at h2; cases h2
        · rw [if_neg hn] at h2
          obtain ⟨x, h3, h4, h5⟩ := hi.queued n g hh h1 h2
          rcases (hmem x).1 h3 with rfl | h3
          · exact absurd h4.symm hn
          · exact ⟨x, by rw [htq]; exact h3, h4, h5⟩
      · intro n pr hn
        rw [htx] at hn
        by_cases hne' : n = e.node
        · rw [if_pos hne'] at hn
          cases hn
          subst hne'
          exact ⟨hgoal, e.dist, hh0, by rw [hte]; exact hd, hlinkmono (hi.link e he)⟩
        · rw [if_neg hne'] at hn
          obtain ⟨h1, g, hh, h2, h3⟩ := hi.expl n pr hn
          exact ⟨h1, g, hh, by rw [hte]; exact h2, hlinkmono h3⟩
      · obtain ⟨rank, hr⟩ := hi.rank
        have hlen' : t.explored.length = s.explored.length + 1 := by
          rw [← ht]; exact length_set_new hne
        have hparent : ∀ u, (s.explored.get? u).isSome → u ≠ e.node := by
          rintro u hu rfl
          rw [hne] at hu; simp at hu
        refine ⟨fun n => if n = e.node then s.explored.length else rank n, ?_⟩
        intro n pr hn
        rw [htx] at hn
        by_cases hne' : n = e.node
        · rw [if_pos hne'] at hn
          cases hn
          simp only [hne', if_true]
          refine ⟨by omega, ?_⟩
          intro u a hpr
          have hl := hi.link e he
          rw [hpr] at hl
          rw [if_neg (hparent u hl.1)]
          obtain ⟨pr', hpr'⟩ := Option.isSome_iff_exists.1 hl.1
          exact (hr u pr' hpr').1
        · rw [if_neg hne'] at hn
          simp only [if_neg hne']
          obtain ⟨h1, h2⟩ := hr n pr hn
          refine ⟨by omega, ?_⟩
          intro u a hpr
          obtain ⟨_, g, hh, _, h3⟩ := hi.expl n pr hn
          rw [hpr] at h3
          rw [if_neg (hparent u h3.1)]
          exact h2 u a hpr
    obtain ⟨e1, e2, e3⟩ := extender_spec p e.node t.explored
    have hd' : t.enqueued.get? e.node = some (e.dist, hh0) := by rw [hte]; exact hd
    obtain ⟨p1, p2, p3, p4⟩ := pushAll_inv (extender p e.node t.explored) hti
      (by rw [hcurx]; rfl) hd' e1
    rw [hexp]
    refine ⟨p1, ?_, .inr ⟨hne, ?_, ?_, ⟨hh0, ?_⟩, ?_⟩⟩
    · intro n gn hn h1 h2 a ha
      rw [p2.explored] at h1 ⊢
      rw [p2.kept n h1] at h2
      by_cases hne' : n = e.node
      · subst hne'
        rw [hd'] at h2
        simp only [Option.some.injEq, Prod.mk.injEq] at h2
        rcases e3 a ha with h3 | h3
        · exact .inl h3
        · rcases p4 _ h3 with h4 | h4
          · exact .inl h4
          · rw [← h2.1]; exact .inr h4
      · have h1' : (s.explored.get? n).isSome := by
          rw [htx, if_neg hne'] at h1; exact h1
        rw [hte] at h2
        rcases hs n gn hn h1' h2 a ha with h3 | ⟨g, hh, h3, h4⟩
        · exact .inl (hmono _ h3)
        · obtain ⟨g', h5, h6⟩ := p2.better _ g hh (by rw [hte]; exact h3)
          exact .inr ⟨g', hh, h5, le_trans h6 h4⟩
    · rw [p2.explored, ← ht]
    · rw [htq] at p3
      omega
    · rw [p2.kept _ (by rw [hcurx]; rfl)]; exact hd'
    · intro n hn
      rw [p2.kept n (hmono n hn), hte]

theorem init_inv (p : Problem σ α) (h : σ → Rat) (w : Rat) (s0 : σ) :
    Inv p h w s0 (init h w s0) ∧ Succ p (init h w s0 : Search σ α) := by
  have hget : ∀ n, (init h w s0 : Search σ α).enqueued.get? n = if s0 = n then some (0, w * h s0) else none := by
    intro n; simp only [init, Dict.get?]
  refine ⟨?_, ?_⟩
  · constructor
    · exact ⟨_, by rw [hget, if_pos rfl]⟩
    · intro h0; exact absurd rfl h0
    · intro e he
      simp only [init, List.mem_singleton] at he
      subst he
      exact ⟨by simp, 0, _, by rw [hget, if_pos rfl], le_refl _⟩
    · intro e he
      simp only [init, List.mem_singleton] at he
      subst he
      exact ⟨rfl, rfl⟩
    · intro n g hh hn hne
      rw [hget, if_neg hne.symm] at hn; cases hn
    · intro n g hh hn _
      rw [hget] at hn
      split at hn
      · rename_i hs
        simp only [Option.some.injEq, Prod.mk.injEq] at hn
        exact ⟨_, List.mem_singleton.2 rfl, hs, hn.1⟩
      · cases hn
    · intro n pr hn; simp [init] at hn
    · exact ⟨fun _ => 0, fun n pr hn => by simp [init] at hn⟩
  · intro n gn hn h1
    simp [init] at h1

/-- What holds of a finished loop. -/
theorem loop_spec {p : Problem σ α} {h : σ → Rat} {w : Rat} {s0 : σ} {fuel : Nat} {s : Search σ α}
    {r : Option (Entry σ α) × Search σ α} (P : Search σ α → Prop)
    (hstep : ∀ s e q, Inv p h w s0 s → Succ p s → P s → popMin s.queue = some (e, q) → p.goal e.node = false →
      P (expand p h w e { s with queue := q }))
    (hi : Inv p h w s0 s) (hs : Succ p s) (hP : P s) (hl : loop p h w fuel s = .ok r) :
    (r.1 = none ∧ Inv p h w s0 r.2 ∧ Succ p r.2 ∧ P r.2 ∧ r.2.queue = []) ∨
    ∃ e t q, r.1 = some e ∧ Inv p h w s0 t ∧ Succ p t ∧ P t ∧ popMin t.queue = some (e, q) ∧
      p.goal e.node = true ∧ r.2 = { t with queue := q } := by
  induction fuel generalizing s with
  | zero => cases hl
  | succ fuel ih =>
    rw [loop] at hl
    cases hp : popMin s.queue with
    | none =>
      rw [hp] at hl
      cases hl
      exact .inl ⟨rfl, hi, hs, hP, popMin_none hp⟩
    | some m =>
      obtain ⟨e, q⟩ := m
      rw [hp] at hl
      simp only at hl
      by_cases hg : p.goal e.node = true
      · rw [if_pos hg] at hl
        cases hl
        exact .inr ⟨e, s, q, rfl, hi, hs, hP, hp, hg, rfl⟩
      · rw [if_neg hg] at hl
        have hg' : p.goal e.node = false := by simpa using hg
        obtain ⟨h1, h2, _⟩ := expand_inv hi hs hp hg'
        exact ih h1 h2 (hstep s e q hi hs hP hp hg') hl

/-! ### Termination on finite domains -/

/-- Pops still possible: the queue, and the actions of nodes not yet explored. -/
def pending (p : Problem σ α) (S : List σ) (s : Search σ α) : Nat :=
  s.queue.length + ((S.filter fun n => (s.explored.get? n).isNone).map fun n => (p.actions n).length).sum

theorem sum_filter_mark (p : Problem σ α) (S : List σ) (d : Dict σ (Option (σ × α))) (n : σ)
    (v : Option (σ × α)) (hn : n ∈ S) (hd : d.get? n = none) :
    ((S.filter fun m => ((d.set n v).get? m).isNone).map fun n => (p.actions n).length).sum + (p.actions n).length ≤
    ((S.filter fun m => (d.get? m).isNone).map fun n => (p.actions n).length).sum := by
  have hle : ∀ S : List σ, ((S.filter fun m => ((d.set n v).get? m).isNone).map fun n => (p.actions n).length).sum ≤
      ((S.filter fun m => (d.get? m).isNone).map fun n => (p.actions n).length).sum := by
    intro S
    induction S with
    | nil => simp
    | cons m S ih =>
      simp only [List.filter_cons, Dict.get?_set]
      simp only [Dict.get?_set] at ih
      by_cases hm : m = n
      · subst hm
        simp only [if_true, Option.isNone_some, Bool.false_eq_true, if_false, hd, Option.isNone_none,
          List.map_cons, List.sum_cons]
        omega
      · simp only [hm, if_false]
        split
        · simp only [List.map_cons, List.sum_cons]; omega
        · exact ih
  induction S with
  | nil => simp at hn
  | cons m S ih =>
    by_cases hm : m = n
    · subst hm
      have := hle S
      simp only [Dict.get?_set] at this
      simp only [List.filter_cons, Dict.get?_set, if_true, Option.isNone_some, Bool.false_eq_true, if_false, hd,
        Option.isNone_none, List.map_cons, List.sum_cons]
      omega
    · have := ih (by rcases List.mem_cons.1 hn with h | h; exact absurd h.symm hm; exact h)
      simp only [Dict.get?_set] at this
      simp only [List.filter_cons, Dict.get?_set, hm, if_false]
      split
      · simp only [List.map_cons, List.sum_cons]; omega
      · exact this

theorem loop_total {p : Problem σ α} {h : σ → Rat} {w : Rat} {s0 : σ} {S : List σ}
    (hS : ∀ n ∈ S, ∀ a ∈ p.actions n, p.next n a ∈ S) {fuel : Nat} {s : Search σ α}
    (hi : Inv p h w s0 s) (hs : Succ p s) (hs0 : s0 ∈ S)
    (hx : ∀ n, (s.explored.get? n).isSome → n ∈ S) (hf : pending p S s < fuel) :
    ∃ r, loop p h w fuel s = .ok r := by
  induction fuel generalizing s with
  | zero => omega
  | succ fuel ih =>
    rw [loop]
    cases hp : popMin s.queue with
    | none => exact ⟨_, rfl⟩
    | some m =>
      obtain ⟨e, q⟩ := m
      simp only
      by_cases hg : p.goal e.node = true
      · rw [if_pos hg]; exact ⟨_, rfl⟩
      · rw [if_neg hg]
        have hg' : p.goal e.node = false := by simpa using hg
        obtain ⟨h1, h2, h3⟩ := expand_inv hi hs hp hg'
        obtain ⟨hlen, hmem, _⟩ := popMin_spec hp
        have hin : e.node ∈ S := by
          have hl := hi.link e ((hmem e).2 (.inl rfl))
          cases hpr : e.parent with
          | none => rw [hpr] at hl; rw [hl.1]; exact hs0
          | some u =>
            rw [hpr] at hl
            obtain ⟨l1, l2, l3, _⟩ := hl
            rw [← l3]
            exact hS _ (hx _ l1) _ l2
        rcases h3 with ⟨h4, h5⟩ | ⟨h4, h5, h6, h7, _⟩
        · refine ih h1 h2 ?_ ?_
          · rw [h5]; exact hx
          · rw [h5]
            simp only [pending] at hf ⊢
            omega
        · refine ih h1 h2 ?_ ?_
          · intro n hn
            rw [h5, Dict.get?_set] at hn
            split at hn
            · rename_i hne; rw [hne]; exact hin
            · exact hx n hn
          · have := sum_filter_mark p S s.explored e.node e.parent hin h4
            simp only [pending] at hf ⊢
            rw [h5]
            omega

end Verif.Search
