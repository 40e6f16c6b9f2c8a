import Verif.Lemmas.PlanGraph
import Verif.Lemmas.Tuples
import Mathlib.Data.List.Induction

/-! Invariants of the model of iw.hh: the novelty test, the search graph, and the loop with no
time left after a goal. -/
namespace Verif.Iw
open Verif.Search (Problem)
open Verif.PlanGraph

/-! ### Novelty -/

/-- The tuple is about features of the state, in the order of their indices. -/
def Holds (fs : List φ) (t : Tuple φ) : Prop :=
  t.Pairwise (fun a b => a.1 < b.1) ∧ ∀ e ∈ t, fs[e.1]? = e.2 ∧ e.2 ≠ none

theorem Holds.comb {fs : List φ} {t : Tuple φ} (h : Holds fs t) : Comb fs.length (t.map (·.1)) := by
  refine ⟨List.pairwise_map.2 h.1, ?_⟩
  intro i hi
  obtain ⟨e, he, rfl⟩ := List.mem_map.1 hi
  obtain ⟨h1, h2⟩ := h.2 e he
  exact Nat.lt_of_not_le fun hle => h2 (by rw [← h1, List.getElem?_eq_none hle])

theorem Comb.length_le {n : Nat} {l : List Nat} (h : Comb n l) : l.length ≤ n := by
  cases l with
  | nil => simp
  | cons x l => have := h.head; simp only [List.length_cons]; omega

theorem Holds.length_le {fs : List φ} {t : Tuple φ} (h : Holds fs t) : t.length ≤ fs.length := by
  have := h.comb.length_le
  simpa using this

theorem mem_tuplesOf {fs : List φ} {k : Nat} (hk : k ≤ fs.length) (t : Tuple φ) :
    t ∈ tuplesOf fs k ↔ t.length = k ∧ Holds fs t := by
  rw [tuplesOf, List.mem_map]
  constructor
  · rintro ⟨cv, hcv, rfl⟩
    obtain ⟨h1, h2⟩ := ((generateTuples_spec hk).1 cv).1 hcv
    refine ⟨by simp [h1], List.pairwise_map.2 h2.1, ?_⟩
    intro e he
    obtain ⟨i, hi, rfl⟩ := List.mem_map.1 he
    refine ⟨rfl, ?_⟩
    rw [List.getElem?_eq_getElem (h2.2 i hi)]
    simp
  · rintro ⟨h1, h2⟩
    refine ⟨t.map (·.1), ((generateTuples_spec hk).1 _).2 ⟨by simp [h1], h2.comb⟩, ?_⟩
    rw [List.map_map]
    conv => rhs; rw [← List.map_id t]
    refine List.map_congr_left fun e he => ?_
    simp only [Function.comp, id]
    rw [(h2.2 e he).1]

section
variable [DecidableEq φ]

def novStep (k : Nat) (r : Nat × List (Tuple φ)) (t : Tuple φ) : Nat × List (Tuple φ) :=
  if t ∈ r.2 then r else (min r.1 k, t :: r.2)

theorem novStep_fold (k : Nat) (L : List (Tuple φ)) (r : Nat × List (Tuple φ)) :
    (∀ t, t ∈ (L.foldl (novStep k) r).2 ↔ t ∈ r.2 ∨ t ∈ L) ∧ (L.foldl (novStep k) r).1 ≤ r.1 ∧
      (∀ t ∈ L, t ∉ r.2 → (L.foldl (novStep k) r).1 ≤ k) ∧
      ((L.foldl (novStep k) r).1 = r.1 ∨ (L.foldl (novStep k) r).1 = k ∧ ∃ t ∈ L, t ∉ r.2) := by
  induction L generalizing r with
  | nil => simp
  | cons u L ih =>
    rw [List.foldl_cons]
    obtain ⟨h1, h2, h3, h4⟩ := ih (novStep k r u)
    by_cases hu : u ∈ r.2
    · have e : novStep k r u = r := by simp [novStep, hu]
      rw [e] at h1 h2 h3 h4 ⊢
      refine ⟨fun t => ?_, h2, ?_, ?_⟩
      · rw [h1, List.mem_cons]
        constructor
        · rintro (h | h) <;> simp [h]
        · rintro (h | rfl | h)
          · exact .inl h
          · exact .inl hu
          · exact .inr h
      · intro t ht hn
        rcases List.mem_cons.1 ht with rfl | ht
        · exact absurd hu hn
        · exact h3 t ht hn
      · rcases h4 with h4 | ⟨h4, t, ht, hn⟩
        · exact .inl h4
        · exact .inr ⟨h4, t, by simp [ht], hn⟩
    · have e : novStep k r u = (min r.1 k, u :: r.2) := by simp [novStep, hu]
      rw [e] at h1 h2 h3 h4 ⊢
      simp only at h1 h2 h3 h4
      refine ⟨fun t => ?_, by omega, ?_, ?_⟩
      · rw [h1, List.mem_cons, List.mem_cons]
        constructor
        · rintro ((h | h) | h) <;> simp [h]
        · rintro (h | h | h) <;> simp [h]
      · intro t ht hn
        omega
      · rcases h4 with h4 | ⟨h4, _⟩
        · rcases Nat.le_total r.1 k with h | h
          · left; omega
          · exact .inr ⟨by omega, u, by simp, hu⟩
        · exact .inr ⟨h4, u, by simp, hu⟩

theorem novelty_fold {fs : List φ} (ks : List Nat) (hks : ∀ k ∈ ks, k ≤ fs.length) (hnd : ks.Nodup) (r : Nat × List (Tuple φ)) :
    (∀ t, t ∈ (ks.foldl (fun r k => (tuplesOf fs k).foldl (novStep k) r) r).2 ↔ t ∈ r.2 ∨ t.length ∈ ks ∧ Holds fs t) ∧
      (ks.foldl (fun r k => (tuplesOf fs k).foldl (novStep k) r) r).1 ≤ r.1 ∧
      (∀ t, t.length ∈ ks → Holds fs t → t ∉ r.2 → (ks.foldl (fun r k => (tuplesOf fs k).foldl (novStep k) r) r).1 ≤ t.length) ∧
      ((ks.foldl (fun r k => (tuplesOf fs k).foldl (novStep k) r) r).1 = r.1 ∨
        ∃ t, t.length = (ks.foldl (fun r k => (tuplesOf fs k).foldl (novStep k) r) r).1 ∧ t.length ∈ ks ∧ Holds fs t ∧ t ∉ r.2) := by
  induction ks generalizing r with
  | nil => simp
  | cons k ks ih =>
    rw [List.foldl_cons]
    obtain ⟨hk, hnd⟩ := List.nodup_cons.1 hnd
    obtain ⟨h1, h2, h3, h4⟩ := ih (fun j hj => hks j (by simp [hj])) hnd ((tuplesOf fs k).foldl (novStep k) r)
    obtain ⟨s1, s2, s3, s4⟩ := novStep_fold k (tuplesOf fs k) r
    have hm := mem_tuplesOf (hks k (by simp))
    refine ⟨fun t => ?_, by omega, ?_, ?_⟩
    · rw [h1, s1, hm, List.mem_cons]
      constructor
      · rintro ((h | h) | h)
        · exact .inl h
        · exact .inr ⟨.inl h.1, h.2⟩
        · exact .inr ⟨.inr h.1, h.2⟩
      · rintro (h | ⟨h | h, h'⟩)
        · exact .inl (.inl h)
        · exact .inl (.inr ⟨h, h'⟩)
        · exact .inr ⟨h, h'⟩
    · intro t ht hh hn
      rcases List.mem_cons.1 ht with h | h
      · have := s3 t ((hm t).2 ⟨h, hh⟩) hn
        omega
      · refine h3 t h hh ?_
        rw [s1, hm]
        rintro (h' | h')
        · exact hn h'
        · exact hk (h'.1 ▸ h)
    · rcases h4 with h4 | ⟨t, t1, t2, t3, t4⟩
      · rcases s4 with s4 | ⟨s4, t, ht, hn⟩
        · exact .inl (h4.trans s4)
        · obtain ⟨h5, h6⟩ := (hm t).1 ht
          exact .inr ⟨t, by omega, by simp [h5], h6, hn⟩
      · exact .inr ⟨t, t1, by simp [t2], t3, fun h => t4 ((s1 t).2 (.inl h))⟩

/-- What `novelty` computes and stores. -/
theorem novelty_spec (width : Nat) (seen : List (Tuple φ)) (fs : List φ) :
    (∀ t, t ∈ (novelty width seen fs).2 ↔ t ∈ seen ∨ (1 ≤ t.length ∧ t.length ≤ width) ∧ Holds fs t) ∧
      (novelty width seen fs).1 ≤ fs.length + 1 ∧
      (∀ t, 1 ≤ t.length → t.length ≤ width → Holds fs t → t ∉ seen → (novelty width seen fs).1 ≤ t.length) ∧
      ((novelty width seen fs).1 = fs.length + 1 ∨
        ∃ t, t.length = (novelty width seen fs).1 ∧ 1 ≤ t.length ∧ t.length ≤ width ∧ Holds fs t ∧ t ∉ seen) := by
  have hr : ∀ k, k ∈ List.range' 1 (min width fs.length) ↔ 1 ≤ k ∧ k ≤ width ∧ k ≤ fs.length := by
    intro k; rw [List.mem_range'_1]; omega
  obtain ⟨h1, h2, h3, h4⟩ := novelty_fold (fs := fs) (List.range' 1 (min width fs.length)) (fun k hk => ((hr k).1 hk).2.2) (List.nodup_range' (step := 1))
    (fs.length + 1, seen)
  have hl : ∀ t, t.length ∈ List.range' 1 (min width fs.length) ∧ Holds fs t ↔ (1 ≤ t.length ∧ t.length ≤ width) ∧ Holds fs t := by
    intro t
    rw [hr]
    constructor
    · rintro ⟨⟨a, b, _⟩, c⟩; exact ⟨⟨a, b⟩, c⟩
    · rintro ⟨⟨a, b⟩, c⟩; exact ⟨⟨a, b, c.length_le⟩, c⟩
  refine ⟨fun t => ?_, h2, ?_, ?_⟩
  · rw [← hl]; exact h1 t
  · intro t a b c d
    exact h3 t ((hl t).2 ⟨⟨a, b⟩, c⟩).1 c d
  · rcases h4 with h4 | ⟨t, a, b, c, e⟩
    · exact .inl h4
    · exact .inr ⟨t, a, ((hr _).1 b).1, ((hr _).1 b).2.1, c, e⟩
end

/-! ### One applicable action -/

variable [DecidableEq σ] [DecidableEq φ]

/-- What one applicable action changes. -/
structure Tried (d : Domain σ α φ) (c : Config σ) (width : Nat) (cur : σ) (a : α) (T : Rat) (st st' : St σ α φ) : Prop where
  closed : st'.closed = st.closed
  found : st'.found = st.found
  scores : st'.scores = st.scores
  ticks : st'.ticks = st.ticks
  seen : st'.seen = (novelty width st.seen (d.features (d.next cur a))).2
  contains : ∀ x, st'.graph.contains x = (decide (x = d.next cur a) || st.graph.contains x)
  other : ∀ x, x ≠ d.next cur a → node st'.graph x = node st.graph x
  fields : (node st'.graph (d.next cur a)).solved = (node st.graph (d.next cur a)).solved ∧
    (node st'.graph (d.next cur a)).bestAction = (node st.graph (d.next cur a)).bestAction ∧
    (node st'.graph (d.next cur a)).fscore = (node st.graph (d.next cur a)).fscore
  link : (less (some T) (node st.graph (d.next cur a)).gscore = true ∧ (node st'.graph (d.next cur a)).gscore = some T ∧
      (node st'.graph (d.next cur a)).bestParent = some (cur, a, d.cost cur a (d.next cur a))) ∨
    (less (some T) (node st.graph (d.next cur a)).gscore = false ∧
      (node st'.graph (d.next cur a)).gscore = (node st.graph (d.next cur a)).gscore ∧
      (node st'.graph (d.next cur a)).bestParent = (node st.graph (d.next cur a)).bestParent)
  step : (width < (novelty width st.seen (d.features (d.next cur a))).1 ∧ st'.queue = st.queue ∧ st'.pruned = true) ∨
    ((novelty width st.seen (d.features (d.next cur a))).1 ≤ width ∧ st'.pruned = st.pruned ∧
      st'.queue = c.queue.push (worse c st'.graph) st.queue (d.next cur a))

theorem tryAction_spec (d : Domain σ α φ) (c : Config σ) (width : Nat) (cur : σ) (a : α) (st : St σ α φ) (gc : Rat)
    (hg : (node st.graph cur).gscore = some gc) :
    Tried d c width cur a (gc + d.cost cur a (d.next cur a)) st (tryAction d c width cur st a) := by
  rw [tryAction]
  simp only
  generalize hn : d.next cur a = n
  generalize hG : (if (!st.graph.contains n) = true then st.graph.set n {} else st.graph) = G
  have hGn : ∀ x, node G x = node st.graph x := by
    intro x
    rw [← hG]
    split
    · rename_i h
      rw [node_set]
      split
      · rename_i h'; subst h'; exact (node_not_contains (by simpa using h)).symm
      · rfl
    · rfl
  have hGc : ∀ x, G.contains x = (decide (x = n) || st.graph.contains x) := by
    intro x
    rw [← hG]
    split
    · rw [contains_set]
    · rename_i h
      by_cases hx : x = n
      · subst hx; simpa using h
      · simp [hx]
  have hnew : (!st.graph.contains n) = true → (node st.graph n).gscore = none := by
    intro h; rw [node_not_contains (by simpa using h)]
  simp only [hGn, hg, plus]
  have hcond : ((!st.graph.contains n || less (some (gc + d.cost cur a n)) (node st.graph n).gscore) = true) ↔
      less (some (gc + d.cost cur a n)) (node st.graph n).gscore = true := by
    constructor
    · intro h
      rcases Bool.or_eq_true_iff.1 h with h | h
      · rw [hnew h]; rfl
      · exact h
    · intro h; rw [h]; simp
  simp only [hcond]
  -- the node after the scores were updated
  generalize hnd : (if less (some (gc + d.cost cur a n)) (node st.graph n).gscore = true then
    { node st.graph n with gscore := some (gc + d.cost cur a n), bestParent := some (cur, a, d.cost cur a n) }
    else node st.graph n) = nd
  have hlink : (less (some (gc + d.cost cur a n)) (node st.graph n).gscore = true ∧ nd.gscore = some (gc + d.cost cur a n) ∧
      nd.bestParent = some (cur, a, d.cost cur a n)) ∨
      (less (some (gc + d.cost cur a n)) (node st.graph n).gscore = false ∧ nd.gscore = (node st.graph n).gscore ∧
        nd.bestParent = (node st.graph n).bestParent) := by
    rw [← hnd]
    split
    · rename_i h; exact .inl ⟨h, rfl, rfl⟩
    · rename_i h; exact .inr ⟨by simpa using h, rfl, rfl⟩
  have hrest : nd.solved = (node st.graph n).solved ∧ nd.bestAction = (node st.graph n).bestAction ∧ nd.fscore = (node st.graph n).fscore := by
    rw [← hnd]; split <;> exact ⟨rfl, rfl, rfl⟩
  generalize hnd2 : (if (!st.graph.contains n || match Option.map (fun x => x + 1) (node st.graph cur).depth, nd.depth with
    | some x, some y => decide (x < y)
    | some _, none => true
    | none, _ => false) = true then { nd with depth := Option.map (fun x => x + 1) (node st.graph cur).depth } else nd) = nd2
  have h2 : nd2.solved = nd.solved ∧ nd2.bestAction = nd.bestAction ∧ nd2.fscore = nd.fscore ∧ nd2.gscore = nd.gscore ∧ nd2.bestParent = nd.bestParent := by
    rw [← hnd2]
    generalize (!st.graph.contains n || _) = b
    cases b <;> exact ⟨rfl, rfl, rfl, rfl, rfl⟩
  obtain ⟨e1, e2, e3, e4, e5⟩ := h2
  rcases hnov : novelty width st.seen (d.features n) with ⟨nov, seen⟩
  simp only
  by_cases hp : width < nov
  · rw [if_pos hp]
    refine ⟨rfl, rfl, rfl, rfl, ?_, ?_, ?_, ?_, ?_, ?_⟩
    · rw [hn, hnov]
    · intro x; rw [hn]; simp only [contains_set, hGc]; by_cases hx : x = n <;> simp [hx]
    · intro x hx; rw [hn] at hx; simp only [node_set, if_neg hx, hGn]
    · rw [hn]; simp only [node_set, if_pos, e1, e2, e3]; exact hrest
    · rw [hn]; simp only [node_set, if_pos, e4, e5]; exact hlink
    · rw [hn, hnov]; exact .inl ⟨hp, rfl, rfl⟩
  · rw [if_neg hp]
    refine ⟨rfl, rfl, rfl, rfl, ?_, ?_, ?_, ?_, ?_, ?_⟩
    · rw [hn, hnov]
    · intro x; rw [hn]; simp only [contains_set, hGc]; by_cases hx : x = n <;> simp [hx]
    · intro x hx; rw [hn] at hx; simp only [node_set, if_neg hx, hGn]
    · rw [hn]; simp only [node_set, if_pos, e1, e2, e3]; exact hrest
    · rw [hn]; simp only [node_set, if_pos, e4, e5]; exact hlink
    · rw [hn, hnov]; exact .inr ⟨by simpa using hp, rfl, rfl⟩

/-! ### The search graph -/

/-- The search graph of a solver started from `s0` that has not found a goal yet. -/
structure Tree (d : Domain σ α φ) (s0 : σ) (g : Graph σ α) : Prop where
  nosolved : ∀ x, (node g x).solved = false ∧ (node g x).bestAction = none
  root : g.contains s0 = true ∧ (node g s0).gscore = some 0
  links : Links d.toProblem s0 g
  scores : ∀ x, g.contains x = true → ∃ gx, 0 ≤ gx ∧ (node g x).gscore = some gx ∧ (x ≠ s0 → ∃ u a c gu, (node g x).bestParent = some (u, a, c) ∧
    (node g u).gscore = some gu ∧ 0 ≤ c ∧ gu + c ≤ gx ∧ d.goal u = false ∧ d.terminal u = false)
  up : ∀ x, g.contains x = true → ∃ k, Up g s0 k x

theorem Tree.try {d : Domain σ α φ} {c : Config σ} {width : Nat} {s0 cur : σ} {a : α} {gc : Rat} {st st' : St σ α φ}
    (hcost : 0 ≤ d.cost cur a (d.next cur a)) (ht : Tree d s0 st.graph) (hcur : st.graph.contains cur = true)
    (hg : (node st.graph cur).gscore = some gc) (ha : a ∈ d.actions cur) (hgoal : d.goal cur = false) (hterm : d.terminal cur = false)
    (h : Tried d c width cur a (gc + d.cost cur a (d.next cur a)) st st') : Tree d s0 st'.graph := by
  obtain ⟨_, _, _, _, _, hc, ho, hf, hl, _⟩ := h
  generalize hn : d.next cur a = n at *
  generalize hC : d.cost cur a n = C at *
  have hgc : 0 ≤ gc := by
    obtain ⟨gx, h1, h2, _⟩ := ht.scores cur hcur
    rw [hg] at h2
    cases h2; exact h1
  have hcont : ∀ x, st.graph.contains x = true → st'.graph.contains x = true := fun x hx => by rw [hc, hx, Bool.or_true]
  have hcont' : ∀ x, x ≠ n → st'.graph.contains x = true → st.graph.contains x = true := fun x hx h => by
    rw [hc] at h; simpa [hx] using h
  have hsol : ∀ x, (node st'.graph x).solved = false ∧ (node st'.graph x).bestAction = none := by
    intro x
    by_cases hx : x = n
    · rw [hx, hf.1, hf.2.1]; exact ht.nosolved n
    · rw [ho x hx]; exact ht.nosolved x
  rcases hl with ⟨l1, l2, l3⟩ | ⟨l1, l2, l3⟩
  · -- a better parent
    have hn0 : n ≠ s0 := by
      intro e
      rw [e, ht.root.2] at l1
      simp only [less, decide_eq_true_eq] at l1
      linarith
    have hncur : cur ≠ n := by
      intro e
      rw [← e, hg] at l1
      simp only [less, decide_eq_true_eq] at l1
      linarith
    have hD : ∀ y u a c, (st.graph.contains y = true ∧ ∃ gy, (node st.graph y).gscore = some gy ∧ gy ≤ gc) → y ≠ s0 →
        (node st.graph y).bestParent = some (u, a, c) →
        (st.graph.contains u = true ∧ ∃ gu, (node st.graph u).gscore = some gu ∧ gu ≤ gc) := by
      rintro y u b c' ⟨y1, gy, y2, y3⟩ hy0 hp
      obtain ⟨gx, s1, s2, s3⟩ := ht.scores y y1
      obtain ⟨u', b', c'', gu, p1, p2, p3, p4, _, _⟩ := s3 hy0
      rw [hp] at p1
      cases p1
      rw [y2] at s2; cases s2
      obtain ⟨k1, k2, k3, k4⟩ := ht.links y u b c' hy0 hp
      exact ⟨k1, gu, p2, by linarith⟩
    have hDn : ¬ (st.graph.contains n = true ∧ ∃ gy, (node st.graph n).gscore = some gy ∧ gy ≤ gc) := by
      rintro ⟨_, gy, h1, h2⟩
      rw [h1] at l1
      simp only [less, decide_eq_true_eq] at l1
      linarith
    have hb : ∀ y, y ≠ n → (node st'.graph y).bestParent = (node st.graph y).bestParent := fun y hy => by rw [ho y hy]
    obtain ⟨kc, hkc⟩ := ht.up cur hcur
    refine ⟨hsol, ⟨hcont _ ht.root.1, by rw [ho s0 hn0.symm]; exact ht.root.2⟩, ?_, ?_, ?_⟩
    · intro x u b c' hx hp
      by_cases hxn : x = n
      · subst hxn
        rw [l3] at hp; cases hp
        exact ⟨hcont _ hcur, ha, hn, hC.symm⟩
      · rw [hb x hxn] at hp
        obtain ⟨k1, k2⟩ := ht.links x u b c' hx hp
        exact ⟨hcont _ k1, k2⟩
    · intro x hx
      by_cases hxn : x = n
      · subst hxn
        refine ⟨gc + C, by linarith, l2, fun _ => ⟨cur, a, C, gc, l3, by rw [ho cur hncur]; exact hg, hcost, le_refl _, hgoal, hterm⟩⟩
      · obtain ⟨gx, s1, s2, s3⟩ := ht.scores x (hcont' x hxn hx)
        refine ⟨gx, s1, by rw [ho x hxn]; exact s2, fun h0 => ?_⟩
        obtain ⟨u, b, c', gu, p1, p2, p3, p4, p5, p6⟩ := s3 h0
        by_cases hun : u = n
        · subst hun
          refine ⟨u, b, c', gc + C, by rw [hb x hxn]; exact p1, l2, p3, ?_, p5, p6⟩
          rw [p2] at l1
          simp only [less, decide_eq_true_eq] at l1
          linarith
        · exact ⟨u, b, c', gu, by rw [hb x hxn]; exact p1, by rw [ho u hun]; exact p2, p3, p4, p5, p6⟩
    · intro x hx
      by_cases hxn : x = n
      · subst hxn
        exact ⟨kc + 1, .step hn0 l3 (hkc.within _ hD ⟨hcur, gc, hg, le_refl _⟩ (fun y hy => hb y (by rintro rfl; exact hDn hy)))⟩
      · obtain ⟨k, hk⟩ := ht.up x (hcont' x hxn hx)
        exact up_reparent _ hD ⟨hcur, gc, hg, le_refl _⟩ hDn hn0 hb l3 hkc hk
  · -- nothing better
    have hin : st.graph.contains n = true := by
      cases h : st.graph.contains n with
      | true => rfl
      | false => rw [node_not_contains h] at l1; cases l1
    have hcc : ∀ x, st'.graph.contains x = st.graph.contains x := by
      intro x; rw [hc]
      by_cases hx : x = n
      · subst hx; simp [hin]
      · simp [hx]
    have hb : ∀ x, (node st'.graph x).bestParent = (node st.graph x).bestParent := by
      intro x
      by_cases hx : x = n
      · subst hx; exact l3
      · rw [ho x hx]
    have hgs : ∀ x, (node st'.graph x).gscore = (node st.graph x).gscore := by
      intro x
      by_cases hx : x = n
      · subst hx; exact l2
      · rw [ho x hx]
    refine ⟨hsol, ⟨by rw [hcc]; exact ht.root.1, by rw [hgs]; exact ht.root.2⟩, ht.links.congr hb hcc, ?_, ?_⟩
    · intro x hx
      rw [hcc] at hx
      obtain ⟨gx, s1, s2, s3⟩ := ht.scores x hx
      refine ⟨gx, s1, by rw [hgs]; exact s2, fun h0 => ?_⟩
      obtain ⟨u, b, c', gu, p1, p2, p3⟩ := s3 h0
      exact ⟨u, b, c', gu, by rw [hb]; exact p1, by rw [hgs]; exact p2, p3⟩
    · intro x hx
      rw [hcc] at hx
      obtain ⟨k, hk⟩ := ht.up x hx
      exact ⟨k, hk.congr hb⟩

omit [DecidableEq φ] in
/-- A graph with the same links and scores. -/
theorem Tree.congr {d : Domain σ α φ} {s0 : σ} {g g' : Graph σ α} (ht : Tree d s0 g) (hcc : ∀ x, g'.contains x = g.contains x)
    (hn : ∀ x, (node g' x).bestParent = (node g x).bestParent ∧ (node g' x).gscore = (node g x).gscore ∧ (node g' x).solved = (node g x).solved ∧
      (node g' x).bestAction = (node g x).bestAction) : Tree d s0 g' := by
  refine ⟨fun x => ?_, ⟨by rw [hcc]; exact ht.root.1, by rw [(hn _).2.1]; exact ht.root.2⟩, ht.links.congr (fun x => (hn x).1) hcc, ?_, ?_⟩
  · rw [(hn x).2.2.1, (hn x).2.2.2]; exact ht.nosolved x
  · intro x hx
    rw [hcc] at hx
    obtain ⟨gx, s1, s2, s3⟩ := ht.scores x hx
    refine ⟨gx, s1, by rw [(hn _).2.1]; exact s2, fun h0 => ?_⟩
    obtain ⟨u, b, c', gu, p1, p2, p3⟩ := s3 h0
    exact ⟨u, b, c', gu, by rw [(hn _).1]; exact p1, by rw [(hn _).2.1]; exact p2, p3⟩
  · intro x hx
    rw [hcc] at hx
    obtain ⟨k, hk⟩ := ht.up x hx
    exact ⟨k, hk.congr fun x => (hn x).1⟩

/-! ### The loop -/

/-- The state between two rounds of the search of one width; nothing was found yet. -/
structure Ok (d : Domain σ α φ) (s0 : σ) (st : St σ α φ) : Prop where
  tree : Tree d s0 st.graph
  known : ∀ x ∈ st.closed, st.graph.contains x = true
  inGraph : ∀ x ∈ st.queue, st.graph.contains x = true
  nogoal : ∀ x ∈ st.closed, d.goal x = false
  nodup : st.closed.Nodup
  found : st.found = false

theorem Ok.try {d : Domain σ α φ} {c : Config σ} (hQ : c.queue.Lawful) {width : Nat} {s0 cur : σ} {a : α} {gc : Rat} {st st' : St σ α φ}
    (hcost : 0 ≤ d.cost cur a (d.next cur a)) (ho : Ok d s0 st) (hcur : st.graph.contains cur = true)
    (hg : (node st.graph cur).gscore = some gc) (ha : a ∈ d.actions cur) (hgoal : d.goal cur = false) (hterm : d.terminal cur = false)
    (h : Tried d c width cur a (gc + d.cost cur a (d.next cur a)) st st') : Ok d s0 st' := by
  refine ⟨ho.tree.try hcost hcur hg ha hgoal hterm h, ?_, ?_, ?_, ?_, ?_⟩
  · intro x hx
    rw [h.closed] at hx
    rw [h.contains, ho.known x hx, Bool.or_true]
  · intro x hx
    rw [h.contains]
    rcases h.step with ⟨_, h1, _⟩ | ⟨_, _, h1⟩
    · rw [h1] at hx; rw [ho.inGraph x hx, Bool.or_true]
    · rw [h1, (hQ.push _ _ _).mem_iff] at hx
      rcases List.mem_cons.1 hx with rfl | hx
      · simp
      · rw [ho.inGraph x hx, Bool.or_true]
  · intro x hx; rw [h.closed] at hx; exact ho.nogoal x hx
  · rw [h.closed]; exact ho.nodup
  · rw [h.found]; exact ho.found

/-- Costs are not negative. -/
def Nonneg (d : Domain σ α φ) : Prop := ∀ s, ∀ a ∈ d.actions s, 0 ≤ d.cost s a (d.next s a)

/-- All the actions of a node, with any property of the state and the actions still to do. -/
theorem fold_ind {d : Domain σ α φ} {c : Config σ} (hQ : c.queue.Lawful) (hcost : Nonneg d) {width : Nat} {s0 cur : σ}
    (hgoal : d.goal cur = false) (hterm : d.terminal cur = false) (R : List α → St σ α φ → Prop)
    (hR : ∀ a todo st st' gc, Ok d s0 st → cur ∈ st.closed → (node st.graph cur).gscore = some gc → a ∈ d.actions cur →
      Tried d c width cur a (gc + d.cost cur a (d.next cur a)) st st' → Ok d s0 st' → R (a :: todo) st → R todo st')
    (todo : List α) (st : St σ α φ) (ho : Ok d s0 st) (hcur : cur ∈ st.closed) (htodo : ∀ a ∈ todo, a ∈ d.actions cur) (h : R todo st) :
    Ok d s0 (todo.foldl (tryAction d c width cur) st) ∧ R [] (todo.foldl (tryAction d c width cur) st) ∧
      (todo.foldl (tryAction d c width cur) st).closed = st.closed := by
  induction todo generalizing st with
  | nil => exact ⟨ho, h, rfl⟩
  | cons a todo ih =>
    obtain ⟨gc, _, hg, _⟩ := ho.tree.scores cur (ho.known cur hcur)
    have ht := tryAction_spec d c width cur a st gc hg
    have hac := htodo a (by simp)
    have ho' := ho.try hQ (hcost cur a hac) (ho.known cur hcur) hg hac hgoal hterm ht
    obtain ⟨h1, h2, h3⟩ := ih _ ho' (by rw [ht.closed]; exact hcur) (fun b hb => htodo b (by simp [hb])) (hR a todo st _ gc ho hcur hg hac ht ho' h)
    exact ⟨h1, h2, h3.trans ht.closed⟩

/-- The round in which the search of one width ends. -/
inductive Stops (d : Domain σ α φ) (c : Config σ) (width : Nat) (s0 : σ) (st : St σ α φ) : Option (Except PyErr (St σ α φ)) → Prop
  | empty (h : c.queue.pop (worse c st.graph) st.queue = none) : Stops d c width s0 st (some (.ok st))
  | goal (cur : σ) (q : List σ) (h : c.queue.pop (worse c st.graph) st.queue = some (cur, q)) (hc : cur ∉ st.closed)
      (hg : d.goal cur = true) :
      Stops d c width s0 st (match reach s0 width cur { st with queue := q, closed := cur :: st.closed } with
        | none => none
        | some (.error e) => some (.error e)
        | some (.ok st) => some (.ok { st with ticks := st.ticks + 1 }))

/-- Either the rounds run out, or the search stops in a state satisfying any property that the
rounds preserve. -/
theorem loop_ind {d : Domain σ α φ} {c : Config σ} (hQ : c.queue.Lawful) (hleft : ∀ k, c.left k = false) (hcost : Nonneg d)
    {width : Nat} {s0 : σ} (P : St σ α φ → Prop) (R : σ → List α → St σ α φ → Prop)
    (hdrop : ∀ st cur q, Ok d s0 st → P st → c.queue.pop (worse c st.graph) st.queue = some (cur, q) → cur ∈ st.closed → P { st with queue := q })
    (hdead : ∀ st cur q, Ok d s0 st → P st → c.queue.pop (worse c st.graph) st.queue = some (cur, q) → cur ∉ st.closed →
      d.goal cur = false → d.terminal cur = true → P { st with queue := q, closed := cur :: st.closed })
    (hopen : ∀ st cur q, Ok d s0 st → P st → c.queue.pop (worse c st.graph) st.queue = some (cur, q) → cur ∉ st.closed →
      d.goal cur = false → d.terminal cur = false → R cur (d.actions cur) { st with queue := q, closed := cur :: st.closed })
    (hR : ∀ cur a todo st st' gc, d.goal cur = false → d.terminal cur = false → Ok d s0 st → cur ∈ st.closed →
      (node st.graph cur).gscore = some gc → a ∈ d.actions cur →
      Tried d c width cur a (gc + d.cost cur a (d.next cur a)) st st' → Ok d s0 st' → R cur (a :: todo) st → R cur todo st')
    (hdone : ∀ cur st, R cur [] st → P st)
    (fuel : Nat) (st : St σ α φ) (ho : Ok d s0 st) (hP : P st) :
    loop d c width s0 fuel st = none ∨ ∃ st', Ok d s0 st' ∧ P st' ∧ Stops d c width s0 st' (loop d c width s0 fuel st) := by
  induction fuel generalizing st with
  | zero => exact .inl rfl
  | succ fuel ih =>
    rw [loop]
    cases hp : c.queue.pop (worse c st.graph) st.queue with
    | none => exact .inr ⟨st, ho, hP, .empty hp⟩
    | some r =>
      obtain ⟨cur, q⟩ := r
      have hperm := hQ.pop _ _ _ _ hp
      have hin : ∀ x ∈ q, st.graph.contains x = true := fun x hx => ho.inGraph x (hperm.mem_iff.2 (by simp [hx]))
      have hcg : st.graph.contains cur = true := ho.inGraph cur (hperm.mem_iff.2 (by simp))
      simp only
      by_cases hcl : cur ∈ st.closed
      · rw [if_pos hcl]
        exact ih _ { ho with inGraph := hin } (hdrop st cur q ho hP hp hcl)
      · rw [if_neg hcl]
        have hns := (ho.tree.nosolved cur).1
        by_cases hg : d.goal cur = true
        · rw [if_pos (by rw [hg]; rfl)]
          simp only [hleft, Bool.false_eq_true, if_false]
          exact .inr ⟨st, ho, hP, .goal cur q hp hcl hg⟩
        · have hg' : d.goal cur = false := by simpa using hg
          rw [if_neg (by rw [hg', hns]; simp)]
          have ho' : Ok d s0 { st with queue := q, closed := cur :: st.closed } :=
            { tree := ho.tree
              known := fun x hx => (List.mem_cons.1 hx).elim (fun e => e ▸ hcg) (ho.known x)
              inGraph := hin
              nogoal := fun x hx => (List.mem_cons.1 hx).elim (fun e => e ▸ hg') (ho.nogoal x)
              nodup := List.nodup_cons.2 ⟨hcl, ho.nodup⟩
              found := ho.found }
          by_cases ht : d.terminal cur = true
          · rw [if_pos ht]
            exact ih _ ho' (hdead st cur q ho hP hp hcl hg' ht)
          · have ht' : d.terminal cur = false := by simpa using ht
            rw [if_neg ht]
            obtain ⟨h1, h2, _⟩ := fold_ind hQ hcost (width := width) hg' ht' (R cur) (hR cur · · · · · hg' ht') (d.actions cur) _ ho' (by simp) (fun _ h => h)
              (hopen st cur q ho hP hp hcl hg' ht')
            exact ih _ h1 (hdone cur _ h2)

/-! ### Reaching a goal -/

theorem pathCost_spec {p : Problem σ α} {s0 x : σ} {as : List α} {g : Graph σ α} (hs : Spells p s0 g x as) (fuel : Nat) (hf : as.length ≤ fuel)
    (acc : Rat) : pathCost s0 g fuel x acc = some (.ok (acc + p.walkCost s0 as)) := by
  induction fuel generalizing as x acc with
  | zero =>
    have : as = [] := List.length_eq_zero_iff.1 (by omega)
    subst this
    have : x = s0 := hs.reaches.symm
    subst this
    simp [pathCost, Problem.walkCost]
  | succ fuel ih =>
    rcases List.eq_nil_or_concat as with rfl | ⟨as, a, rfl⟩
    · have : x = s0 := hs.reaches.symm
      subst this
      simp [pathCost, Problem.walkCost]
    · simp only [List.concat_eq_append] at *
      obtain ⟨_, hp⟩ := hs.parent as a [] rfl
      have hx : p.next (p.walk s0 as) a = x := by rw [← hs.reaches, Search.walk_append]; rfl
      rw [hs.reaches] at hp
      rw [pathCost, if_neg hs.ne_root]
      simp only [hp]
      rw [ih hs.prefix (by simp at hf; omega), Search.walkCost_append]
      simp only [Problem.walkCost, Rat.add_zero, hx, Rat.add_assoc]
      rw [Rat.add_comm (p.cost _ _ _)]

omit [DecidableEq φ] in
/-- The path to a node costs at most its score, and leads through states that were expanded. -/
theorem Tree.path {d : Domain σ α φ} {s0 : σ} {g : Graph σ α} (ht : Tree d s0 g) (as : List α) : ∀ {x : σ} {gx : Rat},
    g.contains x = true → (node g x).gscore = some gx → Spells d.toProblem s0 g x as →
    d.walkCost s0 as ≤ gx ∧ ∀ pre a post, as = pre ++ a :: post → d.goal (d.walk s0 pre) = false ∧ d.terminal (d.walk s0 pre) = false := by
  induction as using List.reverseRecOn with
  | nil =>
    intro x gx _ hgx hs
    have : x = s0 := hs.reaches.symm
    subst this
    rw [ht.root.2] at hgx
    cases hgx
    exact ⟨le_refl _, fun pre a post h => absurd h (by simp)⟩
  | append_singleton as a ih =>
    intro x gx hx hgx hs
    obtain ⟨hu, hp⟩ := hs.parent as a [] rfl
    rw [hs.reaches] at hp
    obtain ⟨gx', _, s2, s3⟩ := ht.scores x hx
    rw [hgx] at s2; cases s2
    obtain ⟨u, b, c, gu, p1, p2, p3, p4, p5, p6⟩ := s3 hs.ne_root
    rw [hp] at p1
    simp only [Option.some.injEq, Prod.mk.injEq] at p1
    obtain ⟨e1, rfl, e3⟩ := p1
    have hnext : d.next (d.walk s0 as) a = x := by rw [← hs.reaches, Search.walk_append]; rfl
    obtain ⟨i1, i2⟩ := ih hu (by rw [e1]; exact p2) hs.prefix
    refine ⟨?_, ?_⟩
    · rw [Search.walkCost_append]
      simp only [Problem.walkCost, Rat.add_zero, hnext, e3]
      linarith
    · intro pre b post hpp
      rcases snoc_split hpp with ⟨_, rfl, rfl⟩ | ⟨post', _, h2⟩
      · rw [e1]; exact ⟨p5, p6⟩
      · exact i2 pre b post' h2

/-- What is known when a goal was reached. -/
structure Won (d : Domain σ α φ) (s0 : σ) (width : Nat) (st st' : St σ α φ) (as : List α) : Prop where
  tells : Tells d.toProblem s0 st'.graph as
  live : ∀ pre a post, as = pre ++ a :: post → d.terminal (d.walk s0 pre) = false
  found : st'.found = true
  scores : st'.scores = st.scores ++ [(width, some (d.walkCost s0 as))]
  solved : (node st'.graph s0).solved = true

omit [DecidableEq φ] in
theorem reach_spec {d : Domain σ α φ} {s0 cur : σ} {width : Nat} {gx : Rat} {st : St σ α φ} (ht : Tree d s0 st.graph) (hf : st.found = false)
    (h0 : d.goal s0 = false) (hin : st.graph.contains cur = true) (hgx : (node st.graph cur).gscore = some gx) (hg : d.goal cur = true) :
    ∃ st' as, reach s0 width cur st = some (.ok st') ∧ Won d s0 width st st' as ∧ d.walkCost s0 as ≤ gx := by
  have hne : cur ≠ s0 := by rintro rfl; rw [h0] at hg; cases hg
  obtain ⟨k, hk⟩ := ht.up cur hin
  obtain ⟨as, hlen, hs⟩ := hk.spells ht.links
  obtain ⟨c1, c2⟩ := ht.path as hin hgx hs
  have hsol := (ht.nosolved cur).1
  rw [reach, pathCost_spec hs _ hs.length_le]
  simp only [hf, Bool.not_false, Bool.true_or, if_true, hsol, Bool.false_eq_true, if_false]
  obtain ⟨g', m1, m2, m3⟩ := tells_of_mark (g := st.graph) (g1 := st.graph.set cur { node st.graph cur with fscore := some 0, solved := true }) hs hne hin hg
    (fun pre a post h => (c2 pre a post h).1) (fun y => (ht.nosolved y).2)
    (by
      intro y
      rw [node_set, contains_set]
      by_cases hy : y = cur
      · subst hy; simp [hin]
      · simp [hy])
    (by rw [node_set, if_pos rfl])
  rw [m1]
  refine ⟨_, as, rfl, ⟨m2, fun pre a post h => (c2 pre a post h).2, rfl, ?_, m3⟩, c1⟩
  have hv := m2.value [] as rfl
  have hc : Dict.contains g' s0 = true := by
    cases hc : Dict.contains g' s0 with
    | true => rfl
    | false => rw [node_not_contains hc] at m3; cases m3
  rw [bestValue_of_node (by exact hc)] at hv
  simp only [Except.ok.injEq] at hv
  show st.scores ++ [(width, (node g' s0).fscore)] = _
  simp only [Problem.walk] at hv
  rw [hv]

/-! ### One width -/

/-- The state in which the loop of one width starts. -/
def start (d : Domain σ α φ) (c : Config σ) (width : Nat) (s0 : σ) (st : St σ α φ) : St σ α φ :=
  let graph := if st.graph.contains s0 then st.graph else st.graph.set s0 {}
  let st : St σ α φ := { st with graph := graph, queue := [], closed := [], seen := [], pruned := false }
  let graph := graph.set s0 { node graph s0 with depth := some 0, gscore := some 0 }
  let queue := c.queue.push (worse c graph) [] s0
  let r := novelty width [] (d.features s0)
  let graph := graph.set s0 { node graph s0 with novelty := some r.1 }
  { st with graph := graph, queue := queue, seen := r.2 }

/-- The graph between two widths: empty, or that of the widths before. -/
def Between (d : Domain σ α φ) (s0 : σ) (st : St σ α φ) : Prop := st.found = false ∧ (st.graph = [] ∨ Tree d s0 st.graph)

theorem solveWidth_eq {d : Domain σ α φ} {c : Config σ} {fuel width : Nat} {s0 : σ} {st : St σ α φ} (hb : Between d s0 st)
    (h0 : d.goal s0 = false) (ht : d.terminal s0 = false) :
    solveWidth d c fuel width s0 st = match loop d c width s0 fuel (start d c width s0 st) with
      | none => none
      | some (.error e) => some (.error e)
      | some (.ok st) => some (.ok (st.found, st)) := by
  have hs : (node (if st.graph.contains s0 then st.graph else st.graph.set s0 {}) s0).solved = false := by
    split
    · rcases hb.2 with h | h
      · rename_i hc; rw [h] at hc; cases hc
      · exact (h.nosolved s0).1
    · rw [node_set, if_pos rfl]
  rw [solveWidth]
  simp only [hs, h0, ht, Bool.or_self, Bool.false_eq_true, if_false, start]
  rcases novelty width [] (d.features s0) with ⟨nov, seen⟩
  rfl

theorem solveWidth_dead {d : Domain σ α φ} {c : Config σ} {fuel width : Nat} {s0 : σ} {st : St σ α φ} (hb : Between d s0 st)
    (h0 : d.goal s0 = false) (ht : d.terminal s0 = true) :
    ∃ st', solveWidth d c fuel width s0 st = some (.ok (false, st')) ∧ st'.found = false ∧ st'.pruned = false ∧
      (∀ x, (node st'.graph x).bestAction = none) ∧ st'.scores = st.scores := by
  have hs : ∀ x, (node (if st.graph.contains s0 then st.graph else st.graph.set s0 {}) x).solved = false ∧
      (node (if st.graph.contains s0 then st.graph else st.graph.set s0 {}) x).bestAction = none := by
    intro x
    rcases hb.2 with h | h
    · rw [h]
      simp only [Dict.contains, Bool.false_eq_true, if_false]
      rw [node_set]; split <;> exact ⟨rfl, rfl⟩
    · rw [if_pos h.root.1]; exact h.nosolved x
  rw [solveWidth]
  simp only [(hs s0).1, h0, ht, Bool.or_self, Bool.false_eq_true, if_false, if_true]
  exact ⟨_, rfl, hb.1, rfl, fun x => (hs x).2, rfl⟩

theorem start_ok {d : Domain σ α φ} {c : Config σ} (hQ : c.queue.Lawful) {width : Nat} {s0 : σ} {st : St σ α φ} (hb : Between d s0 st) :
    Ok d s0 (start d c width s0 st) ∧ (start d c width s0 st).closed = [] ∧ (∀ x, x ∈ (start d c width s0 st).queue ↔ x = s0) ∧
      (start d c width s0 st).queue.length = 1 ∧
      (start d c width s0 st).seen = (novelty width [] (d.features s0)).2 ∧ (start d c width s0 st).pruned = false ∧
      (start d c width s0 st).scores = st.scores ∧
      ∀ x, (start d c width s0 st).graph.contains x = (decide (x = s0) || st.graph.contains x) := by
  have hq : ∀ x, x ∈ (start d c width s0 st).queue ↔ x = s0 := by
    intro x
    rw [start]
    simp only
    rw [(hQ.push _ _ _).mem_iff]
    simp
  have hql : (start d c width s0 st).queue.length = 1 := by
    rw [start]
    simp only
    rw [(hQ.push _ _ _).length_eq]
    rfl
  have htree : Tree d s0 (start d c width s0 st).graph ∧ ∀ x, (start d c width s0 st).graph.contains x = (decide (x = s0) || st.graph.contains x) := by
    rw [start]
    simp only
    rcases hb.2 with h | h
    · rw [h]
      simp only [Dict.contains, Bool.false_eq_true, if_false, Bool.or_false]
      generalize hG : (Dict.set (Dict.set (Dict.set ([] : Graph σ α) s0 {}) s0 _) s0 _) = G
      have hn : ∀ x, (node G x).bestParent = none ∧ (node G x).solved = false ∧ (node G x).bestAction = none ∧ (x = s0 → (node G x).gscore = some 0) := by
        intro x
        rw [← hG]
        simp only [node_set]
        by_cases hx : x = s0
        · simp [hx]
        · simp [hx, node]
      have hc : ∀ x, G.contains x = decide (x = s0) := by
        intro x
        rw [← hG]
        simp only [contains_set, Dict.contains]
        simp
      refine ⟨⟨fun x => ⟨(hn x).2.1, (hn x).2.2.1⟩, ⟨by rw [hc]; simp, (hn s0).2.2.2 rfl⟩, ?_, ?_, ?_⟩, hc⟩
      · intro x u a c _ hp; rw [(hn x).1] at hp; cases hp
      · intro x hx
        rw [hc] at hx
        have hx := of_decide_eq_true hx
        exact ⟨0, le_refl _, (hn x).2.2.2 hx, fun h => absurd hx h⟩
      · intro x hx
        rw [hc] at hx
        have hx := of_decide_eq_true hx
        subst hx
        exact ⟨0, .root⟩
    · rw [if_pos h.root.1]
      refine ⟨h.congr ?_ ?_, ?_⟩
      · intro x
        simp only [contains_set]
        by_cases hx : x = s0
        · subst hx; simp [h.root.1]
        · simp [hx]
      · intro x
        simp only [node_set]
        by_cases hx : x = s0
        · subst hx; simp [h.root.2]
        · simp [hx]
      · intro x
        simp only [contains_set]
        by_cases hx : x = s0 <;> simp [hx]
  refine ⟨⟨htree.1, ?_, ?_, ?_, ?_, hb.1⟩, rfl, hq, hql, rfl, rfl, rfl, htree.2⟩
  · intro x hx; cases hx
  · intro x hx
    rw [(hq x).1 hx]
    exact htree.1.root.1
  · intro x hx; cases hx
  · exact List.nodup_nil

end Verif.Iw
