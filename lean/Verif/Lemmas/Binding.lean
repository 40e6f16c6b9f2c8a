import Verif.Model.Binding
import Verif.Props.Rcpsp
import Verif.Lemmas.SchedReplay

/-! What the binding keeps. -/
namespace Verif.Binding
open Verif.Rcpsp (Problem Capacity capOf load total runsAt NeedTable)
open Verif.Sched (sadd Dom Policy Plan needOf Ordinary)

/-! ### Dictionaries -/

theorem get?_mapv [DecidableEq κ] (f : α → β) (d : Dict κ α) (k : κ) :
    Dict.get? (d.map fun p => (p.1, f p.2)) k = (d.get? k).map f := by
  induction d with
  | nil => rfl
  | cons p d ih =>
    simp only [List.map_cons, Dict.get?]
    split
    · rfl
    · exact ih

theorem keys_mapv (f : α → β) (d : Dict κ α) : Dict.keys (d.map fun p => (p.1, f p.2)) = d.keys := by
  simp [Dict.keys]

theorem get?_mapk {f : String → Nat} {d : Dict String α} {k : String}
    (h : ∀ k' ∈ d.keys, f k' = f k → k' = k) : Dict.get? (d.map fun p => (f p.1, p.2)) (f k) = d.get? k := by
  induction d with
  | nil => rfl
  | cons p d ih =>
    simp only [List.map_cons, Dict.get?]
    by_cases hk : p.1 = k
    · rw [if_pos hk, if_pos (by rw [hk])]
    · rw [if_neg hk, if_neg (fun e => hk (h p.1 (by simp [Dict.keys]) e))]
      exact ih fun k' hk' => h k' (by simp only [Dict.keys, List.map_cons, List.mem_cons]; exact .inr hk')

theorem get?_filterk (p : String → Bool) (d : Dict String α) {k : String} (h : p k = true) :
    Dict.get? (d.filter fun e => p e.1) k = d.get? k := by
  induction d with
  | nil => rfl
  | cons e d ih =>
    rw [List.filter_cons]
    by_cases he : e.1 = k
    · rw [if_pos (by rw [he]; exact h)]
      simp only [Dict.get?, he, if_true]
    · simp only [Dict.get?, he, if_false]
      split
      · simp only [Dict.get?, he, if_false]; exact ih
      · exact ih

/-! ### The graph -/

theorem mem_foldl_sadd (l acc : List Nat) (x : Nat) : x ∈ l.foldl sadd acc ↔ x ∈ acc ∨ x ∈ l := by
  induction l generalizing acc with
  | nil => simp
  | cons y l ih =>
    rw [List.foldl_cons, ih]
    unfold sadd
    split
    · rename_i h
      simp only [List.mem_cons]
      constructor
      · rintro (g | g)
        · exact .inl g
        · exact .inr (.inr g)
      · rintro (g | rfl | g)
        · exact .inl g
        · exact .inl h
        · exact .inr g
    · simp only [List.mem_append, List.mem_cons, List.not_mem_nil, or_false]
      exact or_assoc

theorem mem_distinct {l : List Nat} {x : Nat} : x ∈ distinct l ↔ x ∈ l := by
  unfold distinct
  rw [mem_foldl_sadd]; simp

theorem nodup_foldl_sadd (l acc : List Nat) (h : acc.Nodup) : (l.foldl sadd acc).Nodup := by
  induction l generalizing acc with
  | nil => exact h
  | cons y l ih =>
    rw [List.foldl_cons]
    apply ih
    unfold sadd
    split
    · exact h
    · rename_i hy
      rw [List.nodup_append]
      refine ⟨h, by simp, ?_⟩
      intro a ha b hb
      simp only [List.mem_singleton] at hb
      subst hb
      rintro rfl
      exact hy ha

theorem nodup_distinct (l : List Nat) : (distinct l).Nodup := nodup_foldl_sadd l [] List.nodup_nil

theorem foldl_sadd_nodup (l acc : List Nat) (h : (acc ++ l).Nodup) : l.foldl sadd acc = acc ++ l := by
  induction l generalizing acc with
  | nil => simp
  | cons y l ih =>
    rw [List.foldl_cons]
    have hy : y ∉ acc := by
      intro hy
      rw [List.nodup_append] at h
      exact h.2.2 y hy y (by simp) rfl
    rw [show sadd acc y = acc ++ [y] by unfold sadd; rw [if_neg hy], ih _ (by simpa using h)]
    simp

theorem distinct_nodup {l : List Nat} (h : l.Nodup) : distinct l = l := foldl_sadd_nodup l [] (by simpa using h)

theorem foldl_sadd_sub (l acc : List Nat) (h : ∀ x ∈ l, x ∈ acc) : l.foldl sadd acc = acc := by
  induction l generalizing acc with
  | nil => rfl
  | cons y l ih =>
    rw [List.foldl_cons, show sadd acc y = acc by unfold sadd; rw [if_pos (h y (by simp))]]
    exact ih _ fun x hx => h x (by simp [hx])

theorem mem_edges {succ : Dict Nat (List Nat)} {a b : Nat} :
    (a, b) ∈ edges succ ↔ ∃ ss, (a, ss) ∈ succ ∧ b ∈ ss := by
  unfold edges
  simp only [List.mem_flatMap, List.mem_map, Prod.mk.injEq]
  constructor
  · rintro ⟨⟨a', ss⟩, h, b', hb, rfl, rfl⟩
    exact ⟨ss, h, hb⟩
  · rintro ⟨ss, h, hb⟩
    exact ⟨(a, ss), h, b, hb, rfl, rfl⟩

/-- With edges between tasks only, the nodes are the tasks. -/
theorem nodes_eq {tasks : List Nat} {succ : Dict Nat (List Nat)} (hn : tasks.Nodup)
    (hs : ∀ a ss, (a, ss) ∈ succ → ∀ b ∈ ss, a ∈ tasks ∧ b ∈ tasks) : nodes tasks succ = tasks := by
  unfold nodes distinct
  rw [List.foldl_append, show tasks.foldl sadd [] = tasks from distinct_nodup hn]
  apply foldl_sadd_sub
  intro x hx
  obtain ⟨⟨a, b⟩, he, hx⟩ := List.mem_flatMap.1 hx
  obtain ⟨ss, h1, h2⟩ := mem_edges.1 he
  obtain ⟨h3, h4⟩ := hs a ss h1 b h2
  simp only [List.mem_cons, List.not_mem_nil, or_false] at hx
  rcases hx with rfl | rfl
  · exact h3
  · exact h4

theorem get?_of_fun (l : List Nat) (f : Nat → α) {x : Nat} (h : x ∈ l) : Dict.get? (l.map fun n => (n, f n)) x = some (f x) := by
  induction l with
  | nil => simp at h
  | cons y l ih =>
    simp only [List.map_cons, Dict.get?]
    by_cases hy : y = x
    · rw [if_pos hy, hy]
    · rw [if_neg hy]
      rcases List.mem_cons.1 h with rfl | h
      · exact absurd rfl hy
      · exact ih h

theorem mem_preds {tasks : List Nat} {succ : Dict Nat (List Nat)} (hn : tasks.Nodup)
    (hs : ∀ a ss, (a, ss) ∈ succ → ∀ b ∈ ss, a ∈ tasks ∧ b ∈ tasks) {x q : Nat} (hx : x ∈ tasks) :
    q ∈ ((predecessorsMap tasks succ).get? x).getD [] ↔ ∃ ss, (q, ss) ∈ succ ∧ x ∈ ss := by
  unfold predecessorsMap
  rw [nodes_eq hn hs, get?_of_fun tasks _ hx]
  simp only [Option.getD_some, mem_distinct, List.mem_map, List.mem_filter, decide_eq_true_eq]
  constructor
  · rintro ⟨⟨a, b⟩, ⟨h1, h2⟩, h3⟩
    simp only at h2 h3
    subst h2; subst h3
    exact mem_edges.1 h1
  · rintro ⟨ss, h1, h2⟩
    exact ⟨(q, x), ⟨mem_edges.2 ⟨ss, h1, h2⟩, rfl⟩, rfl⟩

theorem mem_succs {tasks : List Nat} {succ : Dict Nat (List Nat)} (hn : tasks.Nodup)
    (hs : ∀ a ss, (a, ss) ∈ succ → ∀ b ∈ ss, a ∈ tasks ∧ b ∈ tasks) {a b : Nat} :
    (∃ ss, (a, ss) ∈ successorsMap tasks succ ∧ b ∈ ss) ↔ ∃ ss, (a, ss) ∈ succ ∧ b ∈ ss := by
  unfold successorsMap
  rw [nodes_eq hn hs]
  simp only [List.mem_map, Prod.mk.injEq]
  constructor
  · rintro ⟨ss, ⟨n, hn', rfl, rfl⟩, hb⟩
    rw [mem_distinct] at hb
    obtain ⟨⟨a', b'⟩, he, rfl⟩ := List.mem_map.1 hb
    obtain ⟨he1, hea⟩ := List.mem_filter.1 he
    simp only [decide_eq_true_eq] at hea
    subst hea
    exact mem_edges.1 he1
  · rintro ⟨ss, h1, h2⟩
    refine ⟨_, ⟨a, (hs a ss h1 b h2).1, rfl, rfl⟩, ?_⟩
    rw [mem_distinct, List.mem_map]
    exact ⟨(a, b), List.mem_filter.2 ⟨mem_edges.2 ⟨ss, h1, h2⟩, by simp⟩, rfl⟩

theorem keys_succs {tasks : List Nat} {succ : Dict Nat (List Nat)} (hn : tasks.Nodup)
    (hs : ∀ a ss, (a, ss) ∈ succ → ∀ b ∈ ss, a ∈ tasks ∧ b ∈ tasks) : (successorsMap tasks succ).keys = tasks := by
  unfold successorsMap
  rw [nodes_eq hn hs]
  simp [Dict.keys, Function.comp_def]

end Verif.Binding
