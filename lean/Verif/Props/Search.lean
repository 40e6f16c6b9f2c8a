import Verif.Lemmas.Astar

/-!
C35: lazy A* returns an executable path to a goal, with its costs-to-go.
C36: it is optimal with a consistent heuristic.
C51: with a larger weight it is within that factor of the optimum.
-/
namespace Verif.Search
variable [DecidableEq σ]

/-- The states passed by a sequence of actions, each with the action taken there. -/
def Problem.trace (p : Problem σ α) : σ → List α → List (σ × Option α)
  | _, [] => []
  | s, a :: as => (s, some a) :: p.trace (p.next s a) as

omit [DecidableEq σ] in
theorem trace_append (p : Problem σ α) (s : σ) (as bs : List α) :
    p.trace s (as ++ bs) = p.trace s as ++ p.trace (p.walk s as) bs := by
  induction as generalizing s with
  | nil => rfl
  | cons a as ih => simp [Problem.trace, Problem.walk, ih]

/-- Walking back from an explored node finds a path from the source along recorded distances,
through explored nodes that differ. -/
theorem chain_spec {p : Problem σ α} {h : σ → Rat} {w : Rat} {s0 : σ} {s : Search σ α}
    (hi : Inv p h w s0 s) (rank : σ → Nat)
    (hr : ∀ n pr, s.explored.get? n = some pr → rank n < s.explored.length ∧ ∀ u a, pr = some (u, a) → rank u < rank n)
    (fuel : Nat) (n : σ) (path : List (σ × Option α)) (hn : (s.explored.get? n).isSome) (hf : rank n < fuel) :
    ∃ as, chain s.explored fuel n path = .ok (p.trace s0 as ++ path) ∧ p.Applicable s0 as ∧ p.walk s0 as = n ∧
      (∀ pre post, as = pre ++ post → (s.explored.get? (p.walk s0 pre)).isSome ∧
        ∃ hh, s.enqueued.get? (p.walk s0 pre) = some (p.walkCost s0 pre, hh)) ∧
      ((p.trace s0 as).map Prod.fst).Nodup ∧ ∀ x ∈ (p.trace s0 as).map Prod.fst, rank x < rank n := by
  induction fuel generalizing n path with
  | zero => omega
  | succ fuel ih =>
    obtain ⟨pr, hpr⟩ := Option.isSome_iff_exists.1 hn
    obtain ⟨_, g, hh, hg, hl⟩ := hi.expl n pr hpr
    rw [chain, Dict.get, hpr, bind_ok]
    cases pr with
    | none =>
      obtain ⟨rfl, rfl⟩ := hl
      refine ⟨[], rfl, trivial, rfl, ?_, by simp [Problem.trace], by simp [Problem.trace]⟩
      intro pre post hpp
      obtain ⟨rfl, rfl⟩ := List.append_eq_nil_iff.1 hpp.symm
      exact ⟨hn, hh, hg⟩
    | some q =>
      obtain ⟨u, a⟩ := q
      obtain ⟨l1, l2, l3, gu, hhu, l4, l5⟩ := hl
      have hru := (hr n _ hpr).2 u a rfl
      obtain ⟨as, c1, c2, c3, c4, c5, c6⟩ := ih u ((u, some a) :: path) l1 (by omega)
      have hwalk : p.walk s0 (as ++ [a]) = n := by
        rw [walk_append, c3]; exact l3
      have hu := (c4 as [] (by simp)).2
      rw [c3, l4] at hu
      obtain ⟨hh', hu⟩ := hu
      simp only [Option.some.injEq, Prod.mk.injEq] at hu
      have hcost : p.walkCost s0 (as ++ [a]) = g := by
        rw [walkCost_append, c3, ← hu.1, l5]
        simp [Problem.walkCost]
      refine ⟨as ++ [a], ?_, ?_, hwalk, ?_, ?_, ?_⟩
      · show chain s.explored fuel u ((u, some a) :: path) = _
        rw [c1, trace_append, c3]
        simp [Problem.trace]
      · rw [applicable_append, c3]
        exact ⟨c2, l2, trivial⟩
      · intro pre post hpp
        rcases List.eq_nil_or_concat post with rfl | ⟨post', b, rfl⟩
        · rw [List.append_nil] at hpp
          subst hpp
          rw [hwalk, hcost]
          exact ⟨hn, hh, hg⟩
        · have : as = pre ++ post' := by
            rw [List.concat_eq_append, ← List.append_assoc] at hpp
            exact (List.append_inj' hpp rfl).1
          exact c4 pre post' this
      · rw [trace_append, c3, List.map_append, List.nodup_append]
        refine ⟨c5, by simp [Problem.trace], ?_⟩
        intro x hx y hy
        simp only [Problem.trace, List.map_cons, List.map_nil, List.mem_singleton] at hy
        subst hy
        intro hxy
        have := c6 x hx
        rw [hxy] at this
        omega
      · intro x hx
        rw [trace_append, c3, List.map_append, List.mem_append] at hx
        rcases hx with hx | hx
        · have := c6 x hx; omega
        · simp only [Problem.trace, List.map_cons, List.map_nil, List.mem_singleton] at hx
          rw [hx]; exact hru

theorem set_new {d : Dict κ β} [DecidableEq κ] {k : κ} (v : β) (h : k ∉ d.map Prod.fst) :
    d.set k v = d ++ [(k, v)] := by
  induction d with
  | nil => rfl
  | cons q d ih =>
    obtain ⟨k', v'⟩ := q
    simp only [List.map_cons, List.mem_cons, not_or] at h
    rw [Dict.set, if_neg (fun hk => h.1 hk.symm), ih h.2]; rfl

theorem record_spec (total : Rat) (enq : Dict σ (Rat × Rat)) (path : List (σ × Option α)) (o : Outcome σ α)
    (hn : (path.map Prod.fst).Nodup) (hd : ∀ x ∈ path.map Prod.fst, x ∉ o.policy.map Prod.fst)
    (hv : o.values.map Prod.fst = o.policy.map Prod.fst) (gs : σ → Rat)
    (hg : ∀ x ∈ path.map Prod.fst, ∃ hh, enq.get? x = some (gs x, hh)) :
    record total enq path o = .ok
      { policy := o.policy ++ path
        values := o.values ++ path.map fun q => (q.1, total - gs q.1)
        plan := o.plan ++ path.flatMap fun q => q.2.toList } := by
  induction path generalizing o with
  | nil => simp [record]
  | cons q path ih =>
    obtain ⟨n, l⟩ := q
    obtain ⟨hh, h1⟩ := hg n (by simp)
    have hnew : n ∉ o.policy.map Prod.fst := hd n (by simp)
    rw [record, Dict.get, h1, bind_ok]
    simp only [List.map_cons, List.nodup_cons] at hn
    rw [ih _ hn.2]
    · rw [set_new _ hnew, set_new _ (by rw [hv]; exact hnew)]
      simp
    · intro x hx
      simp only
      rw [set_new _ hnew]
      simp only [List.map_append, List.map_cons, List.map_nil, List.mem_append, List.mem_singleton, not_or]
      refine ⟨hd x (by simp only [List.map_cons, List.mem_cons]; exact .inr hx), ?_⟩
      rintro rfl
      exact hn.1 hx
    · simp only
      rw [set_new _ hnew, set_new _ (by rw [hv]; exact hnew)]
      simp [hv]
    · intro x hx
      exact hg x (by simp only [List.map_cons, List.mem_cons]; exact .inr hx)

/-- Acting as the policy says for a number of steps. -/
def execute (p : Problem σ α) (policy : Dict σ (Option α)) : Nat → σ → Option σ
  | 0, s => some s
  | k + 1, s =>
    match policy.get? s with
    | some (some a) => execute p policy k (p.next s a)
    | _ => none

/-- `as` is the path described by the outcome: it is applicable from `s0`, reaches a goal only
at its end, and policy, values and plan describe it, values being costs-to-go plus `extra`. -/
structure IsPath (p : Problem σ α) (s0 : σ) (extra : σ → Rat) (o : Outcome σ α) (as : List α) : Prop where
  nonempty : as ≠ []
  applicable : p.Applicable s0 as
  reaches : p.goal (p.walk s0 as) = true
  plan : o.plan = as
  policy : ∀ pre a post, as = pre ++ a :: post → o.policy.get? (p.walk s0 pre) = some (some a)
  last : o.policy.get? (p.walk s0 as) = some none
  only : ∀ s, o.policy.contains s = true ↔ ∃ pre post, as = pre ++ post ∧ s = p.walk s0 pre
  values : ∀ pre post, as = pre ++ post →
    o.values.get? (p.walk s0 pre) = some (p.walkCost (p.walk s0 pre) post + extra (p.walk s0 as))
  before : ∀ pre a post, as = pre ++ a :: post → p.goal (p.walk s0 pre) = false
  executes : execute p o.policy as.length s0 = some (p.walk s0 as)

omit [DecidableEq σ] in
theorem mem_trace {p : Problem σ α} {s : σ} {as : List α} {q : σ × Option α} :
    q ∈ p.trace s as ↔ ∃ pre a post, as = pre ++ a :: post ∧ q = (p.walk s pre, some a) := by
  induction as generalizing s with
  | nil => simp [Problem.trace]
  | cons b bs ih =>
    simp only [Problem.trace, List.mem_cons, ih]
    constructor
    · rintro (rfl | ⟨pre, a, post, rfl, rfl⟩)
      · exact ⟨[], b, bs, rfl, rfl⟩
      · exact ⟨b :: pre, a, post, rfl, rfl⟩
    · rintro ⟨pre, a, post, h1, rfl⟩
      cases pre with
      | nil =>
        simp only [List.nil_append, List.cons.injEq] at h1
        obtain ⟨rfl, rfl⟩ := h1
        exact .inl rfl
      | cons c pre =>
        simp only [List.cons_append, List.cons.injEq] at h1
        obtain ⟨rfl, rfl⟩ := h1
        exact .inr ⟨pre, a, post, rfl, rfl⟩

theorem execute_trace {p : Problem σ α} {policy : Dict σ (Option α)} {as : List α} {s : σ}
    (h : ∀ pre a post, as = pre ++ a :: post → policy.get? (p.walk s pre) = some (some a)) :
    execute p policy as.length s = some (p.walk s as) := by
  induction as generalizing s with
  | nil => rfl
  | cons a as ih =>
    have h0 := h [] a as rfl
    simp only [Problem.walk] at h0
    rw [List.length_cons, execute, h0]
    refine ih ?_
    rintro pre b post rfl
    exact h (a :: pre) b post rfl

omit [DecidableEq σ] in
theorem trace_plan (p : Problem σ α) (s : σ) (as : List α) :
    (p.trace s as).flatMap (fun q => q.2.toList) = as := by
  induction as generalizing s with
  | nil => rfl
  | cons a as ih => simp [Problem.trace, ih]

/-- What a search that stops at a goal entry with a parent returns. -/
theorem finish_spec {p : Problem σ α} {h : σ → Rat} {w : Rat} {s0 : σ} {t : Search σ α} {e : Entry σ α}
    {q : List (Entry σ α)} (hi : Inv p h w s0 t) (hp : popMin t.queue = some (e, q))
    (hg : p.goal e.node = true) {u : σ} {a : α} (hpr : e.parent = some (u, a)) :
    ∃ path o as, chain t.explored (t.explored.length + 1) u [(u, some a), (e.node, none)] = .ok path ∧
      record e.f t.enqueued path {} = .ok o ∧ IsPath p s0 (fun n => w * h n) o as ∧
      e.dist = p.walkCost s0 as := by
  obtain ⟨_, hmem, _⟩ := popMin_spec hp
  have he : e ∈ t.queue := (hmem e).2 (.inl rfl)
  have hl := hi.link e he
  rw [hpr] at hl
  obtain ⟨l1, l2, l3, gu, hhu, l4, l5⟩ := hl
  obtain ⟨rank, hr⟩ := hi.rank
  obtain ⟨pu, hpu⟩ := Option.isSome_iff_exists.1 l1
  obtain ⟨as, c1, c2, c3, c4, c5, c6⟩ := chain_spec hi rank hr (t.explored.length + 1) u
    [(u, some a), (e.node, none)] l1 (by have := (hr u pu hpu).1; omega)
  have hgx : t.explored.get? e.node = none := by
    cases hx : t.explored.get? e.node with
    | none => rfl
    | some pr =>
      have := (hi.expl _ _ hx).1
      rw [hg] at this; cases this
  obtain ⟨hhe, hde⟩ := popped_dist hi hp hgx
  have hwalk : p.walk s0 (as ++ [a]) = e.node := by rw [walk_append, c3]; exact l3
  have hu := (c4 as [] (by simp)).2
  rw [c3, l4] at hu
  obtain ⟨hh', hu⟩ := hu
  simp only [Option.some.injEq, Prod.mk.injEq] at hu
  have hcost : e.dist = p.walkCost s0 (as ++ [a]) := by
    rw [walkCost_append, c3, ← hu.1, l5]
    simp [Problem.walkCost]
  have happ : p.Applicable s0 (as ++ [a]) := by
    rw [applicable_append, c3]; exact ⟨c2, l2, trivial⟩
  have hpath : p.trace s0 as ++ [(u, some a), (e.node, none)] = p.trace s0 (as ++ [a]) ++ [(e.node, none)] := by
    rw [trace_append, c3]; simp [Problem.trace]
  -- every prefix is recorded
  have hall : ∀ pre post, as ++ [a] = pre ++ post →
      ∃ hh, t.enqueued.get? (p.walk s0 pre) = some (p.walkCost s0 pre, hh) := by
    intro pre post hpp
    rcases List.eq_nil_or_concat post with rfl | ⟨post', b, rfl⟩
    · rw [List.append_nil] at hpp
      subst hpp
      rw [hwalk, ← hcost]; exact ⟨hhe, hde⟩
    · have : as = pre ++ post' := by
        rw [List.concat_eq_append, ← List.append_assoc] at hpp
        exact (List.append_inj' hpp rfl).1
      exact (c4 pre post' this).2
  have hexpl : ∀ pre b post, as ++ [a] = pre ++ b :: post → (t.explored.get? (p.walk s0 pre)).isSome := by
    intro pre b post hpp
    rcases List.eq_nil_or_concat post with rfl | ⟨post', c, rfl⟩
    · have : as = pre := (List.append_inj' hpp rfl).1
      subst this
      rw [c3]; exact l1
    · have : as = pre ++ b :: post' := by
        have h' : as ++ [a] = (pre ++ b :: post') ++ [c] := by simpa using hpp
        exact (List.append_inj' h' rfl).1
      exact (c4 pre (b :: post') this).1
  have hnodup : ((p.trace s0 (as ++ [a]) ++ [(e.node, none)]).map Prod.fst).Nodup := by
    rw [List.map_append, List.nodup_append]
    refine ⟨?_, by simp, ?_⟩
    · rw [trace_append, c3, List.map_append, List.nodup_append]
      refine ⟨c5, by simp [Problem.trace], ?_⟩
      intro x hx y hy
      simp only [Problem.trace, List.map_cons, List.map_nil, List.mem_singleton] at hy
      subst hy
      intro hxy
      have := c6 x hx
      rw [hxy] at this; omega
    · intro x hx y hy
      simp only [List.map_cons, List.map_nil, List.mem_singleton] at hy
      subst hy
      rintro rfl
      obtain ⟨r, hr1, hr2⟩ := List.mem_map.1 hx
      obtain ⟨pre, b, post, h1, h2⟩ := mem_trace.1 hr1
      have := hexpl pre b post h1
      rw [h2] at hr2
      simp only at hr2
      rw [hr2, hgx] at this
      simp at this
  let gs : σ → Rat := fun x => match t.enqueued.get? x with
    | some v => v.1
    | none => 0
  have hgs : ∀ pre post, as ++ [a] = pre ++ post → gs (p.walk s0 pre) = p.walkCost s0 pre := by
    intro pre post hpp
    obtain ⟨hh, h1⟩ := hall pre post hpp
    simp only [gs, h1]
  have hkeys : ∀ x ∈ (p.trace s0 (as ++ [a]) ++ [(e.node, none)]).map Prod.fst,
      ∃ pre post, as ++ [a] = pre ++ post ∧ x = p.walk s0 pre := by
    intro x hx
    rw [List.map_append, List.mem_append] at hx
    rcases hx with hx | hx
    · obtain ⟨r, hr1, rfl⟩ := List.mem_map.1 hx
      obtain ⟨pre, b, post, h1, rfl⟩ := mem_trace.1 hr1
      exact ⟨pre, b :: post, h1, rfl⟩
    · simp only [List.map_cons, List.map_nil, List.mem_singleton] at hx
      exact ⟨as ++ [a], [], by simp, by rw [hx, hwalk]⟩
  have hrec := record_spec (α := α) e.f t.enqueued (p.trace s0 (as ++ [a]) ++ [(e.node, none)]) {} hnodup
    (by intro x _; simp) rfl gs (by
      intro x hx
      obtain ⟨pre, post, h1, rfl⟩ := hkeys x hx
      obtain ⟨hh, h2⟩ := hall pre post h1
      exact ⟨hh, by rw [hgs pre post h1]; exact h2⟩)
  refine ⟨_, _, as ++ [a], ?_, hrec, ?_, hcost⟩
  · rw [c1, hpath]
  · have hpol : ∀ pre b post, as ++ [a] = pre ++ b :: post →
        Dict.get? (p.trace s0 (as ++ [a]) ++ [(e.node, none)]) (p.walk s0 pre) = some (some b) := by
      intro pre b post h1
      refine Dict.get?_of_mem hnodup (List.mem_append.2 (.inl (mem_trace.2 ⟨pre, b, post, h1, rfl⟩)))
    constructor
    · simp
    · exact happ
    · rw [hwalk]; exact hg
    · simp [trace_plan]
    · intro pre b post h1
      simpa using hpol pre b post h1
    · simp only [List.nil_append]
      rw [hwalk]
      exact Dict.get?_of_mem hnodup (List.mem_append.2 (.inr (by simp)))
    · intro s
      simp only [List.nil_append, Dict.contains_iff, Dict.get?_isSome_iff_mem_keys]
      constructor
      · exact hkeys s
      · rintro ⟨pre, post, h1, rfl⟩
        cases post with
        | nil =>
          rw [List.append_nil] at h1
          rw [← h1, hwalk]
          simp [Dict.keys]
        | cons b post =>
          have := Dict.mem_of_get? (hpol pre b post h1)
          exact List.mem_map.2 ⟨_, this, rfl⟩
    · intro pre post h1
      simp only [List.nil_append]
      have hf : e.f = p.walkCost s0 (as ++ [a]) + w * h e.node := by
        rw [(hi.prio e he).1, hcost]
      have hval : (p.walk s0 pre, e.f - gs (p.walk s0 pre)) ∈
          ((p.trace s0 (as ++ [a]) ++ [(e.node, none)]).map fun (q : σ × Option α) => (q.1, e.f - gs q.1)) := by
        refine List.mem_map.2 ?_
        cases post with
        | nil =>
          rw [List.append_nil] at h1
          refine ⟨(e.node, none), by simp, by rw [← h1, hwalk]⟩
        | cons b post =>
          exact ⟨_, List.mem_append.2 (.inl (mem_trace.2 ⟨pre, b, post, h1, rfl⟩)), rfl⟩
      rw [Dict.get?_of_mem (by simpa [Dict.keys, Function.comp_def] using hnodup) hval]
      rw [hgs pre post h1, hf, hwalk]
      conv_lhs => rw [h1, walkCost_append]
      congr 1
      linarith
    · intro pre b post h1
      obtain ⟨pr, hpr'⟩ := Option.isSome_iff_exists.1 (hexpl pre b post h1)
      exact (hi.expl _ _ hpr').1
    · refine execute_trace ?_
      intro pre b post h1
      simpa using hpol pre b post h1

/-- Explored nodes closed under successors and containing the source: nothing else is reachable. -/
theorem closed_reach {p : Problem σ α} {h : σ → Rat} {w : Rat} {s0 : σ} {t : Search σ α}
    (hi : Inv p h w s0 t) (hs : Succ p t) (hq : t.queue = []) (as : List α) (ha : p.Applicable s0 as) :
    (t.explored.get? (p.walk s0 as)).isSome := by
  have hall : ∀ n g hh, t.enqueued.get? n = some (g, hh) → (t.explored.get? n).isSome := by
    intro n g hh hn
    cases hx : t.explored.get? n with
    | some _ => rfl
    | none =>
      obtain ⟨e, he, _⟩ := hi.queued n g hh hn hx
      rw [hq] at he; simp at he
  have h0 : (t.explored.get? s0).isSome := by
    obtain ⟨hh, h1⟩ := hi.src
    exact hall _ _ _ h1
  have key : ∀ s, (t.explored.get? s).isSome → ∀ as, p.Applicable s as → (t.explored.get? (p.walk s as)).isSome := by
    intro s hx as
    induction as generalizing s with
    | nil => intro _; exact hx
    | cons a as ih =>
      rintro ⟨h1, h2⟩
      refine ih _ ?_ h2
      obtain ⟨pr, hpr⟩ := Option.isSome_iff_exists.1 hx
      obtain ⟨_, g, hh, h3, _⟩ := hi.expl _ _ hpr
      rcases hs s g hh hx h3 a h1 with h4 | ⟨g', hh', h4, _⟩
      · exact h4
      · exact hall _ _ _ h4
  exact key s0 h0 as ha

/-- Whatever heuristic and weight, and however long it runs: if the start is not a goal and the
search stops, then either the outcome describes a path to a goal (values being the
costs-to-go plus the weighted heuristic at that goal), or there is no policy and no goal is
reachable. -/
theorem C35_result (p : Problem σ α) (h : σ → Rat) (w : Rat) (s0 : σ) (fuel : Nat)
    (hg : p.goal s0 = false) (r : Option (Entry σ α) × Search σ α)
    (hr : loop p h w fuel (init h w s0) = .ok r) :
    ∃ o, solve p h w s0 fuel = .ok o ∧
      ((∃ as, IsPath p s0 (fun n => w * h n) o as) ∨
       (o.policy = [] ∧ o.values = [] ∧ o.plan = [] ∧ ∀ as, p.Applicable s0 as → p.goal (p.walk s0 as) = false)) := by
  obtain ⟨i1, i2⟩ := init_inv p h w s0
  obtain ⟨found, t'⟩ := r
  rw [solve, hr, bind_ok]
  rcases loop_spec (fun _ => True) (fun _ _ _ _ _ _ _ _ => trivial) i1 i2 trivial hr with
    ⟨h1, h2, h3, _, h4⟩ | ⟨e, t, q, h1, h2, h3, _, h4, h5, h6⟩
  · simp only at h1
    subst h1
    refine ⟨{}, rfl, .inr ⟨rfl, rfl, rfl, ?_⟩⟩
    intro as ha
    obtain ⟨pr, hpr⟩ := Option.isSome_iff_exists.1 (closed_reach h2 h3 h4 as ha)
    exact (h2.expl _ _ hpr).1
  · simp only at h1 h6
    subst h1
    cases hpr : e.parent with
    | none =>
      have hl := h2.link e (((popMin_spec h4).2.1 e).2 (.inl rfl))
      rw [hpr] at hl
      rw [hl.1, hg] at h5; cases h5
    | some ua =>
      obtain ⟨u, a⟩ := ua
      obtain ⟨path, o, as, f1, f2, f3, _⟩ := finish_spec h2 h4 h5 hpr
      refine ⟨o, ?_, .inl ⟨as, f3⟩⟩
      simp only [hpr, h6]
      rw [f1, bind_ok, f2]

/-- On a domain whose reachable states lie in a finite list, the search stops within one pop
more than there are actions in total, plus one. -/
theorem C35_terminates (p : Problem σ α) (h : σ → Rat) (w : Rat) (s0 : σ) (S : List σ) (hs0 : s0 ∈ S)
    (hS : ∀ n ∈ S, ∀ a ∈ p.actions n, p.next n a ∈ S) (fuel : Nat)
    (hf : (S.map fun n => (p.actions n).length).sum + 1 < fuel) :
    ∃ r, loop p h w fuel (init h w s0) = .ok r := by
  obtain ⟨i1, i2⟩ := init_inv p h w s0
  refine loop_total hS i1 i2 hs0 (by intro n hn; simp [init] at hn) ?_
  simp only [pending, init, List.length_singleton, Dict.get?_nil, Option.isNone_none]
  rw [List.filter_eq_self.2 (by simp)]
  omega

/-- A start that is already a goal makes the solver raise. -/
theorem C35_start_at_goal_raises (p : Problem σ α) (h : σ → Rat) (w : Rat) (s0 : σ) (fuel : Nat)
    (hg : p.goal s0 = true) : solve p h w s0 (fuel + 1) = .error .keyError := by
  have : loop p h w (fuel + 1) (init h w s0) =
      .ok (some ⟨w * h s0, 0, s0, 0, none⟩, { init h w s0 with queue := [] }) := by
    simp [loop, init, popMin, hg]
  rw [solve, this, bind_ok]

/-- Following the recorded path from the start reaches a goal; with a heuristic that is zero at
goals the recorded values are exactly the costs-to-go. -/
theorem C35_values_are_costs (p : Problem σ α) (h : σ → Rat) (w : Rat) (s0 : σ) (o : Outcome σ α) (as : List α)
    (hz : ∀ s, p.goal s = true → h s = 0) (hp : IsPath p s0 (fun n => w * h n) o as) (pre post : List α)
    (hpp : as = pre ++ post) :
    o.values.get? (p.walk s0 pre) = some (p.walkCost (p.walk s0 pre) post) := by
  rw [hp.values pre post hpp, hz _ hp.reaches]; simp

/-! ### C36 and C51 -/

/-- The heuristic drops along an action by at most its cost. -/
def Consistent (p : Problem σ α) (h : σ → Rat) : Prop :=
  ∀ s, ∀ a ∈ p.actions s, h s ≤ p.cost s a (p.next s a) + h (p.next s a)

def NonNegative (p : Problem σ α) : Prop := ∀ s, ∀ a ∈ p.actions s, 0 ≤ p.cost s a (p.next s a)

omit [DecidableEq σ] in
theorem consistent_walk {p : Problem σ α} {H : σ → Rat} {K : Rat}
    (hH : ∀ s, ∀ a ∈ p.actions s, H s ≤ K * p.cost s a (p.next s a) + H (p.next s a))
    (as : List α) (s : σ) (ha : p.Applicable s as) : H s ≤ K * p.walkCost s as + H (p.walk s as) := by
  induction as generalizing s with
  | nil => simp [Problem.walkCost, Problem.walk]
  | cons a as ih =>
    have h1 := hH s a ha.1
    have h2 := ih _ ha.2
    simp only [Problem.walkCost, Problem.walk]
    rw [Rat.mul_add]
    linarith

/-- Distances of explored nodes are within the factor. -/
def Within (p : Problem σ α) (s0 : σ) (K : Rat) (s : Search σ α) : Prop :=
  ∀ as g hh, p.Applicable s0 as → (s.explored.get? (p.walk s0 as)).isSome →
    s.enqueued.get? (p.walk s0 as) = some (g, hh) → g ≤ K * p.walkCost s0 as

theorem frontier {p : Problem σ α} {h : σ → Rat} {w : Rat} {s0 : σ} {s : Search σ α} {K : Rat}
    (hi : Inv p h w s0 s) (hs : Succ p s) (hK : 1 ≤ K) (hc : NonNegative p) (hw : Within p s0 K s)
    (as : List α) (ha : p.Applicable s0 as) (hx : s.explored.get? (p.walk s0 as) = none) :
    ∃ pre post g hh, as = pre ++ post ∧ s.explored.get? (p.walk s0 pre) = none ∧
      s.enqueued.get? (p.walk s0 pre) = some (g, hh) ∧ g ≤ K * p.walkCost s0 pre := by
  induction hn : as.length generalizing as with
  | zero =>
    have : as = [] := List.length_eq_zero_iff.1 hn
    subst this
    obtain ⟨hh, h0⟩ := hi.src
    exact ⟨[], [], 0, hh, rfl, hx, h0, by simp [Problem.walkCost]⟩
  | succ n ih =>
    rcases List.eq_nil_or_concat as with rfl | ⟨bs, a, rfl⟩
    · simp at hn
    · rw [List.concat_eq_append] at *
      rw [applicable_append] at ha
      obtain ⟨ha1, ha2, _⟩ := ha
      cases hb : s.explored.get? (p.walk s0 bs) with
      | none =>
        obtain ⟨pre, post, g, hh, h1, h2⟩ := ih bs ha1 hb (by simpa using hn)
        exact ⟨pre, post ++ [a], g, hh, by rw [h1]; simp, h2⟩
      | some pr =>
        obtain ⟨_, g, hh, h1, _⟩ := hi.expl _ _ hb
        have h2 := hw bs g hh ha1 (by rw [hb]; rfl) h1
        have hwk : p.walk s0 (bs ++ [a]) = p.next (p.walk s0 bs) a := by rw [walk_append]; rfl
        rcases hs _ g hh (by rw [hb]; rfl) h1 a ha2 with h3 | ⟨g', hh', h3, h4⟩
        · rw [hwk] at hx; rw [hx] at h3; simp at h3
        · refine ⟨bs ++ [a], [], g', hh', by simp, hx, by rw [hwk]; exact h3, ?_⟩
          rw [walkCost_append]
          simp only [Problem.walkCost]
          have h5 := hc _ a ha2
          have h6 : p.cost (p.walk s0 bs) a (p.next (p.walk s0 bs) a) ≤
              K * p.cost (p.walk s0 bs) a (p.next (p.walk s0 bs) a) := by
            have := mul_le_mul_of_nonneg_right hK h5
            linarith
          rw [Rat.mul_add, Rat.add_zero]
          linarith

theorem popped_least {p : Problem σ α} {h : σ → Rat} {w : Rat} {s0 : σ} {s : Search σ α} {K : Rat}
    (hi : Inv p h w s0 s) (hs : Succ p s) (hK : 1 ≤ K) (hc : NonNegative p)
    (hH : ∀ s, ∀ a ∈ p.actions s, w * h s ≤ K * p.cost s a (p.next s a) + w * h (p.next s a))
    (hw : Within p s0 K s) {e : Entry σ α} {q : List (Entry σ α)} (hp : popMin s.queue = some (e, q))
    (as : List α) (ha : p.Applicable s0 as) (hx : s.explored.get? (p.walk s0 as) = none) :
    e.f ≤ K * p.walkCost s0 as + w * h (p.walk s0 as) := by
  obtain ⟨pre, post, g, hh, h1, h2, h3, h4⟩ := frontier hi hs hK hc hw as ha hx
  obtain ⟨e', h5, h6, h7⟩ := hi.queued _ g hh h3 h2
  have h8 := (popMin_spec hp).2.2 e' h5
  rw [(hi.prio e' h5).1, h6, h7] at h8
  subst h1
  have h9 := consistent_walk (H := fun n => w * h n) hH post (p.walk s0 pre) ((applicable_append _ _ _ _).1 ha).2
  rw [walkCost_append, walk_append, Rat.mul_add]
  linarith

theorem within_step {p : Problem σ α} {h : σ → Rat} {w : Rat} {s0 : σ} {s : Search σ α} {K : Rat}
    (hK : 1 ≤ K) (hc : NonNegative p)
    (hH : ∀ s, ∀ a ∈ p.actions s, w * h s ≤ K * p.cost s a (p.next s a) + w * h (p.next s a))
    {e : Entry σ α} {q : List (Entry σ α)} (hi : Inv p h w s0 s) (hs : Succ p s) (hw : Within p s0 K s)
    (hp : popMin s.queue = some (e, q)) (hg : p.goal e.node = false) :
    Within p s0 K (expand p h w e { s with queue := q }) := by
  obtain ⟨_, _, h3⟩ := expand_inv hi hs hp hg
  rcases h3 with ⟨_, h5⟩ | ⟨h4, h5, _, ⟨hh0, h7⟩, h8⟩
  · rw [h5]; exact hw
  · intro as g hh ha hx he
    rw [h5, Dict.get?_set] at hx
    by_cases hn : p.walk s0 as = e.node
    · rw [hn, h7] at he
      simp only [Option.some.injEq, Prod.mk.injEq] at he
      have h9 := popped_least hi hs hK hc hH hw hp as ha (by rw [hn]; exact h4)
      rw [(hi.prio e (((popMin_spec hp).2.1 e).2 (.inl rfl))).1, hn] at h9
      rw [← he.1]
      linarith
    · rw [if_neg hn] at hx
      rw [h8 _ hx] at he
      exact hw as g hh ha hx he

theorem optimal_within (p : Problem σ α) (h : σ → Rat) (w K : Rat) (s0 : σ) (fuel : Nat) (o : Outcome σ α)
    (hK : 1 ≤ K) (hc : NonNegative p) (hz : ∀ s, p.goal s = true → h s = 0)
    (hH : ∀ s, ∀ a ∈ p.actions s, w * h s ≤ K * p.cost s a (p.next s a) + w * h (p.next s a))
    (hg : p.goal s0 = false) (ho : solve p h w s0 fuel = .ok o) (bs : List α) (hb : p.Applicable s0 bs)
    (hbg : p.goal (p.walk s0 bs) = true) : p.walkCost s0 o.plan ≤ K * p.walkCost s0 bs := by
  obtain ⟨i1, i2⟩ := init_inv p h w s0
  rw [solve, bind_eq_ok] at ho
  obtain ⟨⟨found, t'⟩, hl, ho⟩ := ho
  have hw0 : Within p s0 K (init h w s0 : Search σ α) := by
    intro as g hh _ hx; simp [init] at hx
  rcases loop_spec (Within p s0 K) (fun s e q a b c d e' => within_step hK hc hH a b c d e') i1 i2 hw0 hl with
    ⟨h1, h2, h3, _, h4⟩ | ⟨e, t, q, h1, h2, h3, hw, h4, h5, h6⟩
  · obtain ⟨pr, hpr⟩ := Option.isSome_iff_exists.1 (closed_reach h2 h3 h4 bs hb)
    have := (h2.expl _ _ hpr).1
    rw [hbg] at this; cases this
  · simp only at h1 h6
    subst h1
    cases hpr : e.parent with
    | none =>
      have hl := h2.link e (((popMin_spec h4).2.1 e).2 (.inl rfl))
      rw [hpr] at hl
      rw [hl.1, hg] at h5; cases h5
    | some ua =>
      obtain ⟨u, a⟩ := ua
      obtain ⟨path, o', as, f1, f2, f3, f4⟩ := finish_spec h2 h4 h5 hpr
      simp only [hpr, h6] at ho
      rw [f1, bind_ok, f2] at ho
      cases ho
      have hx : t.explored.get? (p.walk s0 bs) = none := by
        cases hx : t.explored.get? (p.walk s0 bs) with
        | none => rfl
        | some pr =>
          have := (h2.expl _ _ hx).1
          rw [hbg] at this; cases this
      have := popped_least h2 h3 hK hc hH hw h4 bs hb hx
      rw [(h2.prio e (((popMin_spec h4).2.1 e).2 (.inl rfl))).1, hz _ hbg, hz _ h5] at this
      rw [f3.plan, ← f4]
      linarith

/-- Costs are not negative, the heuristic is consistent and zero at goals, the weight is
between zero and one: no path to any goal is cheaper than the plan returned. -/
theorem C36_optimal (p : Problem σ α) (h : σ → Rat) (w : Rat) (s0 : σ) (fuel : Nat) (o : Outcome σ α)
    (hc : NonNegative p) (hh : Consistent p h) (hz : ∀ s, p.goal s = true → h s = 0) (hw0 : 0 ≤ w) (hw1 : w ≤ 1)
    (hg : p.goal s0 = false) (ho : solve p h w s0 fuel = .ok o) (bs : List α) (hb : p.Applicable s0 bs)
    (hbg : p.goal (p.walk s0 bs) = true) : p.walkCost s0 o.plan ≤ p.walkCost s0 bs := by
  have := optimal_within p h w 1 s0 fuel o (le_refl _) hc hz (by
    intro s a ha
    have h1 := mul_le_mul_of_nonneg_left (hh s a ha) hw0
    have h2 := mul_le_mul_of_nonneg_right hw1 (hc s a ha)
    rw [Rat.mul_add] at h1
    linarith) hg ho bs hb hbg
  linarith

/-- With a weight of at least one, the plan costs at most that many times the cheapest path. -/
theorem C51_weighted_bound (p : Problem σ α) (h : σ → Rat) (w : Rat) (s0 : σ) (fuel : Nat) (o : Outcome σ α)
    (hc : NonNegative p) (hh : Consistent p h) (hz : ∀ s, p.goal s = true → h s = 0) (hw1 : 1 ≤ w)
    (hg : p.goal s0 = false) (ho : solve p h w s0 fuel = .ok o) (bs : List α) (hb : p.Applicable s0 bs)
    (hbg : p.goal (p.walk s0 bs) = true) : p.walkCost s0 o.plan ≤ w * p.walkCost s0 bs := by
  refine optimal_within p h w w s0 fuel o hw1 hc hz ?_ hg ho bs hb hbg
  intro s a ha
  have h1 := mul_le_mul_of_nonneg_left (hh s a ha) (le_trans zero_le_one hw1)
  rw [Rat.mul_add] at h1
  exact h1

/-- A small graph: 0 → 1 (3), 0 → 2 (1), 2 → 1 (1), 1 → 3 (10), goal 3; actions are targets. -/
def diamond : Problem Nat Nat where
  actions s := if s = 0 then [1, 2] else if s = 2 then [1] else if s = 1 then [3] else []
  next _ a := a
  cost s a _ := if s = 0 ∧ a = 1 then 3 else if s = 1 then 10 else 1
  goal s := s == 3

/-- Its exact costs to the goal, a consistent heuristic. -/
def diamondH (s : Nat) : Rat := if s = 0 then 12 else if s = 2 then 11 else if s = 1 then 10 else 0

theorem diamond_nonneg : NonNegative diamond := by
  intro s a _
  simp only [diamond]
  split
  · decide
  · split <;> decide

theorem diamond_actions {s a : Nat} (ha : a ∈ diamond.actions s) :
    (s = 0 ∧ (a = 1 ∨ a = 2)) ∨ (s = 2 ∧ a = 1) ∨ (s = 1 ∧ a = 3) := by
  simp only [diamond] at ha
  split at ha
  · simp_all
  · split at ha
    · simp_all
    · split at ha <;> simp_all

theorem diamondH_consistent : Consistent diamond diamondH := by
  intro s a ha
  rcases diamond_actions ha with ⟨rfl, rfl | rfl⟩ | ⟨rfl, rfl⟩ | ⟨rfl, rfl⟩ <;> decide +kernel

example : NonNegative diamond ∧ Consistent diamond diamondH ∧ (∀ s, diamond.goal s = true → diamondH s = 0) ∧
    diamond.goal 0 = false ∧
    (∃ o, solve diamond diamondH 1 0 10 = .ok o ∧ o.plan = [2, 1, 3] ∧ diamond.walkCost 0 o.plan = 12 ∧
      o.values.get? 2 = some 11) ∧
    ∀ n ∈ [0, 1, 2, 3], ∀ a ∈ diamond.actions n, diamond.next n a ∈ [0, 1, 2, 3] :=
  ⟨diamond_nonneg, diamondH_consistent, by intro s hs; simp [diamond] at hs; subst hs; decide +kernel, rfl,
    okAnd_spec (by decide +kernel), by decide⟩

/-- An estimate that never exceeds the cost to the goal but is not consistent is not enough:
explored nodes are not opened again, and the plan returned may cost more than another path. -/
theorem C36_admissible_not_enough : ∃ (h : Nat → Rat) (o : Outcome Nat Nat) (bs : List Nat),
    (∀ s as, diamond.Applicable s as → diamond.goal (diamond.walk s as) = true → h s ≤ diamond.walkCost s as) ∧
    solve diamond h 1 0 10 = .ok o ∧ diamond.Applicable 0 bs ∧ diamond.goal (diamond.walk 0 bs) = true ∧
    diamond.walkCost 0 bs < diamond.walkCost 0 o.plan := by
  obtain ⟨o, h1, h2⟩ : ∃ o, solve diamond (fun s => if s = 2 then 5 else 0) 1 0 10 = .ok o ∧ o.plan = [1, 3] :=
    okAnd_spec (by decide +kernel)
  refine ⟨fun s => if s = 2 then 5 else 0, o, [2, 1, 3], ?_, h1, ?_, by decide, by rw [h2]; decide +kernel⟩
  · intro s as ha hg
    have h3 := consistent_walk (p := diamond) (H := diamondH) (K := 1) (by
      intro s a ha
      have := diamondH_consistent s a ha
      linarith) as s ha
    have h4 : diamondH (diamond.walk s as) = 0 := by
      simp only [diamond, beq_iff_eq] at hg
      rw [show diamond.walk s as = 3 from hg]; decide +kernel
    have h5 : (if s = 2 then (5 : Rat) else 0) ≤ diamondH s := by
      simp only [diamondH]
      by_cases hs : s = 2
      · subst hs; decide +kernel
      · simp only [hs, if_false]
        split
        · decide +kernel
        · split <;> decide +kernel
    rw [h4] at h3
    simp only
    linarith
  · simp [Problem.Applicable, diamond]

end Verif.Search
