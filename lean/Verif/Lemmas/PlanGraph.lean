import Verif.Model.PlanGraph
import Verif.Lemmas.Astar
import Verif.Lemmas.CppHeap
import Mathlib.Data.List.Nodup

/-! The walk back along the parents, and the queue, shared by the models of iw.hh and bfws.hh. -/
namespace Verif.PlanGraph
open Verif.Search

/-- A queue that loses and invents nothing. -/
structure Queue.Lawful (Q : Queue σ) : Prop where
  push : ∀ k l x, (Q.push k l x).Perm (x :: l)
  popNone : ∀ k l, Q.pop k l = none → l = []
  pop : ∀ k l x r, Q.pop k l = some (x, r) → l.Perm (x :: r)

/-- A queue that moreover always gives an element of least score, when elements are compared by
a score, even if the scores have changed since the elements were put in. -/
structure Queue.Exact (Q : Queue σ) : Prop extends Q.Lawful where
  first : ∀ (f : σ → Option Rat) l x r, Q.pop (fun a b => less (f b) (f a)) l = some (x, r) → ∀ y ∈ l, less (f y) (f x) = false

theorem siftUp_perm [DecidableEq σ] (k : σ → σ → Bool) (x : σ) (fuel i : Nat) (l : List σ) (hi : i < l.length) :
    (siftUp k x fuel i l).Perm (l.set i x) := by
  induction fuel generalizing i l with
  | zero => exact .refl _
  | succ fuel ih =>
    rw [siftUp]
    split
    · exact .refl _
    · split
      · exact .refl _
      · rename_i h0 par hp
        split
        · have hlt : (i - 1) / 2 < l.length := (List.getElem?_eq_some_iff.1 hp).1
          refine (ih _ _ (by simpa using hlt)).trans ?_
          exact CppAStar.perm_hole (by omega) hi hp
        · exact .refl _

theorem siftHole_perm [DecidableEq σ] (k : σ → σ → Bool) (x : σ) (fuel i : Nat) (l : List σ) (hi : i < l.length) :
    (siftHole k fuel i l).1 < (siftHole k fuel i l).2.length ∧
      ((siftHole k fuel i l).2.set (siftHole k fuel i l).1 x).Perm (l.set i x) := by
  induction fuel generalizing i l with
  | zero => exact ⟨hi, .refl _⟩
  | succ fuel ih =>
    rw [siftHole]
    split
    · rename_i a b ha hb
      have h1 := (List.getElem?_eq_some_iff.1 ha).1
      have h2 := (List.getElem?_eq_some_iff.1 hb).1
      split
      · obtain ⟨h3, h4⟩ := ih (2 * i + 1) (l.set i a) (by simpa using h1)
        exact ⟨h3, h4.trans (CppAStar.perm_hole (by omega) hi ha)⟩
      · obtain ⟨h3, h4⟩ := ih (2 * i + 2) (l.set i b) (by simpa using h2)
        exact ⟨h3, h4.trans (CppAStar.perm_hole (by omega) hi hb)⟩
    · rename_i a ha _
      have h1 := (List.getElem?_eq_some_iff.1 ha).1
      exact ⟨by simpa using h1, CppAStar.perm_hole (by omega) hi ha⟩
    · exact ⟨hi, .refl _⟩

theorem heap_lawful [DecidableEq σ] : (heap : Queue σ).Lawful := by
  refine ⟨?_, ?_, ?_⟩
  · intro k l x
    refine (siftUp_perm k x _ _ _ (by simp)).trans ?_
    rw [List.set_append_right _ _ (Nat.le_refl _)]
    simp only [Nat.sub_self, List.set_cons_zero]
    exact List.perm_append_comm
  · intro k l h
    match l with
    | [] => rfl
    | [x] => simp [heap] at h
    | x :: y :: rest => simp [heap] at h
  · intro k l x r h
    match l with
    | [] => simp [heap] at h
    | [y] =>
      simp only [heap, Option.some.injEq, Prod.mk.injEq] at h
      obtain ⟨rfl, rfl⟩ := h
      exact .refl _
    | z :: y :: rest =>
      simp only [heap, Option.some.injEq, Prod.mk.injEq] at h
      obtain ⟨rfl, rfl⟩ := h
      refine .cons _ ?_
      have h1 := siftHole_perm k ((y :: rest).getLast (by simp)) (z :: (y :: rest).dropLast).length 0
        (z :: (y :: rest).dropLast) (by simp)
      refine .trans ?_ ((siftUp_perm k _ _ _ _ h1.1).trans h1.2).symm
      rw [List.set_cons_zero]
      have h2 : (y :: rest).dropLast ++ [(y :: rest).getLast (by simp)] = y :: rest := List.dropLast_concat_getLast _
      have h3 : ((y :: rest).dropLast ++ [(y :: rest).getLast (by simp)]).Perm ((y :: rest).getLast (by simp) :: (y :: rest).dropLast) :=
        List.perm_append_comm
      rwa [h2] at h3

variable [DecidableEq σ]

theorem node_set (g : Graph σ α) (s t : σ) (n : Node σ α) :
    node (g.set s n) t = if t = s then n else node g t := by
  unfold node
  rw [Dict.get?_set]
  split <;> rfl

theorem contains_set (g : Graph σ α) (s t : σ) (n : Node σ α) :
    Dict.contains (g.set s n) t = (decide (t = s) || g.contains t) := by
  rw [Dict.contains_eq, Dict.contains_eq, Dict.get?_set]
  by_cases h : t = s <;> simp [h]

theorem node_not_contains {g : Graph σ α} {s : σ} (h : g.contains s = false) : node g s = {} := by
  rw [Dict.contains_eq] at h
  unfold node
  cases hg : g.get? s with
  | none => rfl
  | some n => rw [hg] at h; simp at h

theorem contains_of_parent {g : Graph σ α} {s : σ} (h : (node g s).bestParent ≠ none) : g.contains s = true := by
  cases hc : g.contains s with
  | true => rfl
  | false => rw [node_not_contains hc] at h; exact absurd rfl h

/-! ### The parents -/

/-- From `x`, the parents lead to `s0` in `k` steps. -/
inductive Up (g : Graph σ α) (s0 : σ) : Nat → σ → Prop
  | root : Up g s0 0 s0
  | step {x u : σ} {a : α} {c : Rat} {k : Nat} (hx : x ≠ s0) (hp : (node g x).bestParent = some (u, a, c)) (hu : Up g s0 k u) :
    Up g s0 (k + 1) x

theorem Up.unique {g : Graph σ α} {s0 x : σ} {k l : Nat} (h : Up g s0 k x) (h' : Up g s0 l x) : k = l := by
  induction h generalizing l with
  | root =>
    cases h' with
    | root => rfl
    | step hx _ _ => exact absurd rfl hx
  | step hx hp _ ih =>
    cases h' with
    | root => exact absurd rfl hx
    | step _ hp' hu' =>
      rw [hp] at hp'
      simp only [Option.some.injEq, Prod.mk.injEq] at hp'
      rw [← hp'.1] at hu'
      rw [ih hu']

theorem Up.congr {g g' : Graph σ α} {s0 x : σ} {k : Nat} (h : Up g s0 k x) (hb : ∀ y, (node g' y).bestParent = (node g y).bestParent) :
    Up g' s0 k x := by
  induction h with
  | root => exact .root
  | step hx hp _ ih => exact .step hx (by rw [hb]; exact hp) ih

/-- The chain stays in a set closed under taking parents. -/
theorem Up.within {g g' : Graph σ α} {s0 x : σ} {k : Nat} (h : Up g s0 k x) (D : σ → Prop)
    (hD : ∀ y u a c, D y → y ≠ s0 → (node g y).bestParent = some (u, a, c) → D u) (hx : D x)
    (hb : ∀ y, D y → (node g' y).bestParent = (node g y).bestParent) : Up g' s0 k x := by
  induction h with
  | root => exact .root
  | step hne hp _ ih => exact .step hne (by rw [hb _ hx]; exact hp) (ih (hD _ _ _ _ hx hne hp))

/-- Giving `n` the parent `cur` keeps all chains when `cur`'s own avoids `n`. -/
theorem up_reparent {g g' : Graph σ α} {s0 n cur : σ} {a : α} {c : Rat} (D : σ → Prop)
    (hD : ∀ y u a c, D y → y ≠ s0 → (node g y).bestParent = some (u, a, c) → D u) (hcur : D cur) (hn : ¬ D n) (hn0 : n ≠ s0)
    (hb : ∀ y, y ≠ n → (node g' y).bestParent = (node g y).bestParent) (hbn : (node g' n).bestParent = some (cur, a, c))
    {kc : Nat} (hc : Up g s0 kc cur) {x : σ} {k : Nat} (hx : Up g s0 k x) : ∃ k', Up g' s0 k' x := by
  have hc' : Up g' s0 kc cur := hc.within D hD hcur (fun y hy => hb y (by rintro rfl; exact hn hy))
  induction hx with
  | root => exact ⟨0, .root⟩
  | @step x u b d k hne hp _ ih =>
    by_cases he : x = n
    · subst he
      exact ⟨kc + 1, .step hne hbn hc'⟩
    · obtain ⟨k', h'⟩ := ih
      exact ⟨k' + 1, .step hne (by rw [hb _ he]; exact hp) h'⟩

/-- The links are steps of the problem. -/
def Links (p : Problem σ α) (s0 : σ) (g : Graph σ α) : Prop :=
  ∀ x u a c, x ≠ s0 → (node g x).bestParent = some (u, a, c) →
    g.contains u = true ∧ a ∈ p.actions u ∧ p.next u a = x ∧ c = p.cost u a x

theorem Links.congr {p : Problem σ α} {s0 : σ} {g g' : Graph σ α} (h : Links p s0 g)
    (hb : ∀ y, (node g' y).bestParent = (node g y).bestParent) (hc : ∀ y, Dict.contains g' y = Dict.contains g y) : Links p s0 g' := by
  intro x u a c hx hp
  rw [hb] at hp
  rw [hc]
  exact h x u a c hx hp

/-- The plan that the parents of `x` spell. -/
structure Spells (p : Problem σ α) (s0 : σ) (g : Graph σ α) (x : σ) (as : List α) : Prop where
  applicable : p.Applicable s0 as
  reaches : p.walk s0 as = x
  up : ∀ pre post, as = pre ++ post → Up g s0 pre.length (p.walk s0 pre)
  parent : ∀ pre a post, as = pre ++ a :: post → g.contains (p.walk s0 pre) = true ∧
    (node g (p.walk s0 (pre ++ [a]))).bestParent = some (p.walk s0 pre, a, p.cost (p.walk s0 pre) a (p.walk s0 (pre ++ [a])))

theorem snoc_split {as pre post : List α} {a b : α} (h : as ++ [a] = pre ++ b :: post) :
    (post = [] ∧ b = a ∧ pre = as) ∨ ∃ post', post = post' ++ [a] ∧ as = pre ++ b :: post' := by
  rcases List.eq_nil_or_concat post with rfl | ⟨post', z, rfl⟩
  · have := List.append_inj' h rfl
    exact .inl ⟨rfl, by simpa using this.2.symm, this.1.symm⟩
  · refine .inr ⟨post', ?_, ?_⟩
    · have h' : as ++ [a] = (pre ++ b :: post') ++ [z] := by rw [h]; simp
      have := List.append_inj' h' rfl
      rw [List.cons.inj this.2 |>.1]; simp
    · have h' : as ++ [a] = (pre ++ b :: post') ++ [z] := by rw [h]; simp
      exact (List.append_inj' h' rfl).1

theorem Up.spells {p : Problem σ α} {s0 x : σ} {g : Graph σ α} (hl : Links p s0 g) {k : Nat} (h : Up g s0 k x) :
    ∃ as, as.length = k ∧ Spells p s0 g x as := by
  induction h with
  | root =>
    refine ⟨[], rfl, ⟨trivial, rfl, ?_, ?_⟩⟩
    · intro pre post hpp
      have : pre = [] := (List.append_eq_nil_iff.1 hpp.symm).1
      subst this; exact .root
    · intro pre a post hpp
      exact absurd hpp (by simp)
  | @step x u a c k hx hp hu ih =>
    obtain ⟨as, hlen, hs⟩ := ih
    obtain ⟨l1, l2, l3, l4⟩ := hl x u a c hx hp
    have hw : p.walk s0 (as ++ [a]) = x := by
      rw [walk_append, hs.reaches]; exact l3
    refine ⟨as ++ [a], by simp [hlen], ⟨?_, hw, ?_, ?_⟩⟩
    · rw [applicable_append, hs.reaches]
      exact ⟨hs.applicable, l2, trivial⟩
    · intro pre post hpp
      cases post with
      | nil =>
        rw [List.append_nil] at hpp
        subst hpp
        rw [hw]
        simp only [List.length_append, List.length_cons, List.length_nil, hlen]
        exact .step hx hp hu
      | cons b post =>
        rcases snoc_split hpp with ⟨_, _, rfl⟩ | ⟨post', _, h2⟩
        · exact hs.up pre [] (by simp)
        · exact hs.up pre _ h2
    · intro pre b post hpp
      rcases snoc_split hpp with ⟨_, rfl, rfl⟩ | ⟨post', _, h2⟩
      · rw [hw, hs.reaches]
        exact ⟨l1, by rw [← l4]; exact hp⟩
      · exact hs.parent pre b post' h2

theorem Spells.prefix {p : Problem σ α} {s0 x : σ} {g : Graph σ α} {as : List α} {a : α} (h : Spells p s0 g x (as ++ [a])) :
    Spells p s0 g (p.walk s0 as) as where
  applicable := ((applicable_append p s0 as [a]).1 h.applicable).1
  reaches := rfl
  up := fun pre post hpp => h.up pre (post ++ [a]) (by rw [hpp]; simp)
  parent := fun pre b post hpp => h.parent pre b (post ++ [a]) (by rw [hpp]; simp)

theorem Spells.congr {p : Problem σ α} {s0 x : σ} {g g' : Graph σ α} {as : List α} (h : Spells p s0 g x as)
    (hb : ∀ y, (node g' y).bestParent = (node g y).bestParent) (hc : ∀ y, Dict.contains g' y = Dict.contains g y) :
    Spells p s0 g' x as where
  applicable := h.applicable
  reaches := h.reaches
  up := fun pre post hpp => (h.up pre post hpp).congr hb
  parent := fun pre a post hpp => by rw [hb, hc]; exact h.parent pre a post hpp

/-- Two different places of the plan are different states. -/
theorem Spells.distinct {p : Problem σ α} {s0 x : σ} {g : Graph σ α} {as pre post pre' post' : List α} (h : Spells p s0 g x as)
    (h1 : as = pre ++ post) (h2 : as = pre' ++ post') (he : p.walk s0 pre = p.walk s0 pre') : pre = pre' ∧ post = post' := by
  have hu := h.up pre post h1
  have hu' := h.up pre' post' h2
  rw [← he] at hu'
  have := hu.unique hu'
  exact List.append_inj (h1.symm.trans h2) this

theorem Spells.ne_root {p : Problem σ α} {s0 x : σ} {g : Graph σ α} {as : List α} {a : α} (h : Spells p s0 g x (as ++ [a])) : x ≠ s0 := by
  intro he
  have h1 := h.up (as ++ [a]) [] (by simp)
  rw [h.reaches, he] at h1
  have := h1.unique .root
  simp at this

/-- The places of the plan are in the graph, so there are not too many. -/
theorem Spells.length_le {p : Problem σ α} {s0 x : σ} {g : Graph σ α} {as : List α} (h : Spells p s0 g x as) : as.length ≤ g.length := by
  have hsub : ((List.range as.length).map fun i => p.walk s0 (as.take i)) ⊆ g.keys := by
    intro y hy
    obtain ⟨i, hi, rfl⟩ := List.mem_map.1 hy
    have hi := List.mem_range.1 hi
    rw [← Dict.get?_isSome_iff_mem_keys, ← Dict.contains_iff]
    exact (h.parent (as.take i) as[i] (as.drop (i + 1)) (by simp)).1
  have hnd : ((List.range as.length).map fun i => p.walk s0 (as.take i)).Nodup := by
    refine List.Nodup.map_on ?_ List.nodup_range
    intro i hi j hj he
    have hi := List.mem_range.1 hi
    have hj := List.mem_range.1 hj
    have := (h.distinct (List.take_append_drop i as).symm (List.take_append_drop j as).symm he).1
    have := congrArg List.length this
    simp only [List.length_take] at this
    omega
  have := hnd.length_le_of_subset hsub
  simpa [Dict.keys] using this

/-- The walk back. -/
theorem mark_spec {p : Problem σ α} {s0 x : σ} {as : List α} {g : Graph σ α} (hs : Spells p s0 g x as) (fuel : Nat) (hf : as.length ≤ fuel)
    (F : Rat) (hF : (node g x).fscore = some F) :
    ∃ g', mark s0 fuel x g = some (.ok g') ∧
      (∀ pre a post, as = pre ++ a :: post → node g' (p.walk s0 pre) = { node g (p.walk s0 pre) with
        bestAction := some (p.walk s0 (pre ++ [a])), fscore := some (p.walkCost (p.walk s0 pre) (a :: post) + F), solved := true }) ∧
      (∀ y, (∀ pre a post, as = pre ++ a :: post → y ≠ p.walk s0 pre) → node g' y = node g y) ∧
      (∀ y, (node g' y).bestParent = (node g y).bestParent ∧ g'.contains y = g.contains y) := by
  induction fuel generalizing as x g F with
  | zero =>
    have : as = [] := List.length_eq_zero_iff.1 (by omega)
    subst this
    have : x = s0 := hs.reaches.symm
    subst this
    refine ⟨g, by simp [mark], ?_, fun _ _ => rfl, fun _ => ⟨rfl, rfl⟩⟩
    intro pre a post h; simp at h
  | succ fuel ih =>
    rcases List.eq_nil_or_concat as with rfl | ⟨as, a, rfl⟩
    · have : x = s0 := hs.reaches.symm
      subst this
      refine ⟨g, by simp [mark], ?_, fun _ _ => rfl, fun _ => ⟨rfl, rfl⟩⟩
      intro pre a post h; simp at h
    · simp only [List.concat_eq_append] at *
      have hx0 := hs.ne_root
      obtain ⟨hu, hp⟩ := hs.parent as a [] rfl
      rw [hs.reaches] at hp
      generalize hudef : p.walk s0 as = u at *
      have hxu : x ≠ u := by
        intro he
        have := (hs.distinct (List.append_nil _).symm (pre' := as) (post' := [a]) rfl (by rw [hs.reaches, hudef, he])).2
        cases this
      have hcost : p.next u a = x := by
        rw [← hs.reaches, walk_append, hudef]; rfl
      rw [mark, if_neg hx0]
      simp only [hp]
      generalize hg1 : (g.set u { node g u with bestAction := some x, fscore := plus (node g x).fscore (p.cost u a x), solved := true }) = g1
      have hn1 : ∀ y, node g1 y = if y = u then { node g u with bestAction := some x, fscore := some (F + p.cost u a x), solved := true } else node g y := by
        intro y; rw [← hg1, node_set, hF]; rfl
      have hc1 : ∀ y, g1.contains y = g.contains y := by
        intro y; rw [← hg1, contains_set]
        by_cases hy : y = u
        · subst hy; simp [hu]
        · simp [hy]
      have hb1 : ∀ y, (node g1 y).bestParent = (node g y).bestParent := by
        intro y; rw [hn1]; split
        · rename_i h; subst h; rfl
        · rfl
      have hs1 : Spells p s0 g1 u as := by
        have := hs.prefix
        rw [hudef] at this
        exact this.congr hb1 hc1
      obtain ⟨g', m1, m2, m3, m4⟩ := ih hs1 (by simp at hf; omega) (F + p.cost u a x) (by rw [hn1, if_pos rfl])
      have hoffu : ∀ pre b post, as = pre ++ b :: post → p.walk s0 pre ≠ u := by
        intro pre b post hpp he
        rw [← hs1.reaches] at he
        have := (hs1.distinct hpp (List.append_nil _).symm he).2
        cases this
      refine ⟨g', m1, ?_, ?_, fun y => ⟨(m4 y).1.trans (hb1 y), (m4 y).2.trans (hc1 y)⟩⟩
      · intro pre b post hpp
        rcases snoc_split hpp with ⟨rfl, rfl, rfl⟩ | ⟨post', rfl, h2⟩
        · rw [hudef, m3 u (fun pre' b' post' h he => hoffu pre' b' post' h he.symm), hn1, if_pos rfl, hs.reaches]
          simp only [Problem.walkCost, hcost, Rat.add_zero]
          rw [Rat.add_comm]
        · rw [m2 pre b post' h2, hn1, if_neg (hoffu pre b post' h2)]
          have : p.walkCost (p.walk s0 pre) (b :: (post' ++ [a])) = p.walkCost (p.walk s0 pre) (b :: post') + p.cost u a x := by
            rw [← List.cons_append, walkCost_append, ← walk_append, ← h2, hudef]
            simp only [Problem.walkCost, hcost, Rat.add_zero]
          rw [this]
          have e : p.walkCost (p.walk s0 pre) (b :: post') + (F + p.cost u a x) = p.walkCost (p.walk s0 pre) (b :: post') + p.cost u a x + F := by
            rw [Rat.add_assoc, Rat.add_comm F]
          rw [e]
      · intro y hy
        rw [m3 y (fun pre b post h => hy pre b (post ++ [a]) (by rw [h]; simp)), hn1, if_neg]
        rintro rfl
        exact hy as a [] rfl hudef.symm

/-! ### What the solver tells -/

/-- `as` is the plan that the solver tells of: applicable from `s0`, with a goal at its end and
none before; along it the solution is defined, `get_best_action` gives the action and
`get_best_value` the cost still to pay; and off it no solution is defined. -/
structure Tells (p : Problem σ α) (s0 : σ) (g : Graph σ α) (as : List α) : Prop where
  nonempty : as ≠ []
  applicable : p.Applicable s0 as
  reaches : p.goal (p.walk s0 as) = true
  before : ∀ pre a post, as = pre ++ a :: post → p.goal (p.walk s0 pre) = false
  action : ∀ pre a post, as = pre ++ a :: post → bestAction g (p.walk s0 pre) = .ok a
  value : ∀ pre post, as = pre ++ post → bestValue g (p.walk s0 pre) = .ok (some (p.walkCost (p.walk s0 pre) post))
  defined : ∀ s, isSolutionDefined g s = true ↔ ∃ pre a post, as = pre ++ a :: post ∧ s = p.walk s0 pre

theorem bestValue_of_node {g : Graph σ α} {s : σ} (hc : Dict.contains g s = true) : bestValue g s = .ok (node g s).fscore := by
  rw [Dict.contains_iff] at hc
  obtain ⟨n, hn⟩ := Option.isSome_iff_exists.1 hc
  simp [bestValue, node, hn]

theorem bestAction_of_node {g : Graph σ α} {s t u : σ} {a : α} {c : Rat} (hc : Dict.contains g s = true)
    (h1 : (node g s).bestAction = some t) (h2 : (node g t).bestParent = some (u, a, c)) : bestAction g s = .ok a := by
  rw [Dict.contains_iff] at hc
  obtain ⟨n, hn⟩ := Option.isSome_iff_exists.1 hc
  simp only [node, hn, Option.getD_some] at h1
  simp only [bestAction, hn, h1, h2]

theorem defined_iff {g : Graph σ α} {s : σ} :
    isSolutionDefined g s = true ↔ Dict.contains g s = true ∧ (node g s).bestAction.isSome = true ∧ (node g s).solved = true := by
  rw [Dict.contains_iff, isSolutionDefined, node]
  cases hg : g.get? s with
  | none => simp
  | some n => simp

/-- Marking the plan of a goal makes the solver tell of it. -/
theorem tells_of_mark {p : Problem σ α} {s0 x : σ} {as : List α} {g g1 : Graph σ α} (hs : Spells p s0 g x as) (hx0 : x ≠ s0)
    (hgx : g.contains x = true) (hgoal : p.goal x = true) (hbefore : ∀ pre a post, as = pre ++ a :: post → p.goal (p.walk s0 pre) = false)
    (hno : ∀ y, (node g y).bestAction = none)
    (hg1 : ∀ y, (node g1 y).bestParent = (node g y).bestParent ∧ (node g1 y).bestAction = (node g y).bestAction ∧ g1.contains y = g.contains y)
    (hF : (node g1 x).fscore = some 0) :
    ∃ g', mark s0 g.length x g1 = some (.ok g') ∧ Tells p s0 g' as ∧ (node g' s0).solved = true := by
  have hs1 : Spells p s0 g1 x as := hs.congr (fun y => (hg1 y).1) (fun y => (hg1 y).2.2)
  have hne : as ≠ [] := by rintro rfl; exact hx0 hs.reaches.symm
  obtain ⟨g', m1, m2, m3, m4⟩ := mark_spec hs1 g.length hs.length_le 0 hF
  have hcont : ∀ pre a post, as = pre ++ a :: post → Dict.contains g' (p.walk s0 pre) = true := fun pre a post h => by
    rw [(m4 _).2, (hg1 _).2.2]; exact (hs.parent pre a post h).1
  refine ⟨g', m1, ⟨hne, hs.applicable, by rw [hs.reaches]; exact hgoal, hbefore, ?_, ?_, ?_⟩, ?_⟩
  · intro pre a post hpp
    refine bestAction_of_node (hcont pre a post hpp) (by rw [m2 pre a post hpp]) (t := p.walk s0 (pre ++ [a])) (u := p.walk s0 pre)
      (c := p.cost (p.walk s0 pre) a (p.walk s0 (pre ++ [a]))) ?_
    rw [(m4 _).1, (hg1 _).1]; exact (hs.parent pre a post hpp).2
  · intro pre post hpp
    cases post with
    | nil =>
      rw [List.append_nil] at hpp
      subst hpp
      rw [hs.reaches, bestValue_of_node (by rw [(m4 _).2, (hg1 _).2.2]; exact hgx), m3 x, hF]
      · rfl
      · intro pre a post hpp he
        rw [← hs.reaches] at he
        have := (hs.distinct (List.append_nil _).symm hpp he).2
        cases this
    | cons b post =>
      rw [bestValue_of_node (hcont pre b post hpp), m2 pre b post hpp]
      simp
  · intro s
    rw [defined_iff]
    constructor
    · rintro ⟨_, h2, _⟩
      refine Classical.byContradiction fun hn => ?_
      rw [m3 s (fun pre a post hpp he => hn ⟨pre, a, post, hpp, he⟩), (hg1 s).2.1, hno s] at h2
      cases h2
    · rintro ⟨pre, a, post, hpp, rfl⟩
      refine ⟨hcont pre a post hpp, ?_, ?_⟩
      · rw [m2 pre a post hpp]; rfl
      · rw [m2 pre a post hpp]
  · cases as with
    | nil => exact absurd rfl hne
    | cons a as =>
      have := m2 [] a as rfl
      simp only [Problem.walk] at this
      rw [this]

end Verif.PlanGraph
