import Verif.Lemmas.VrpTools
/-
C196: the tools of vehicle routing.
-/
namespace Verif.VrpTools
open Parse

/-- C196: the graph has an edge in both directions between two customers exactly if their distance is not 0, with the distance as
weight; a loop at the depot; and nothing else. -/
theorem C196_graph (ev : Nat → Nat → Rat) (order : Nat → List Nat) (n f c : Nat) :
    (f < c → c < n → (graph ev order n).get? (f, c) = (if ev f c = 0 then none else some (ev f c)) ∧
      (graph ev order n).get? (c, f) = (if ev f c = 0 then none else some (ev f c))) ∧
    (graph ev order n).get? (0, 0) = some 0 ∧ (f ≠ 0 → (graph ev order n).get? (f, f) = none) ∧
    (n ≤ f ∨ n ≤ c → (f, c) ≠ (0, 0) → (graph ev order n).get? (f, c) = none) := by
  have key : ∀ f c, (f, c) ≠ (0, 0) → (graph ev order n).get? (f, c) =
      if (f < n ∧ c < n) ∧ matrix ev f c ≠ 0 then some (matrix ev f c) else none := by
    intro f c h
    unfold graph
    rw [Dict.get?_set_ne _ _ h]
    have hp : ∀ a b, prune ev order n n a b = matrix ev a b := fun a b => by simp [prune]
    simp only [hp]
    have := get_filterMap (fun e : Nat × Nat => matrix ev e.1 e.2) (f, c) ((List.range n).flatMap (fun f => (List.range n).map (fun c => (f, c))))
    simp only at this
    rw [this]
    have hm : (f, c) ∈ (List.range n).flatMap (fun f => (List.range n).map (fun c => (f, c))) ↔ f < n ∧ c < n := by
      simp [List.mem_flatMap]
    simp only [hm]
  refine ⟨fun h1 h2 => ⟨?_, ?_⟩, ?_, ?_, ?_⟩
  · rw [key f c (by simp; omega)]
    have hm : matrix ev f c = ev f c := by simp [matrix, h1]
    rw [hm]
    by_cases e : ev f c = 0
    · simp [e]
    · simp [e, h2, show f < n by omega]
  · rw [key c f (by simp; omega)]
    have hm : matrix ev c f = ev f c := by simp [matrix, h1, show ¬ c < f by omega]
    rw [hm]
    by_cases e : ev f c = 0
    · simp [e]
    · simp [e, h2, show f < n by omega]
  · unfold graph; exact Dict.get?_set_self _ _ _
  · intro h
    rw [key f f (by simp [h])]
    simp [matrix]
  · intro h h'
    rw [key f c h', if_neg (fun x => by omega)]

/-- Customers at the same place have no edge, so no route of the graph goes straight from one to the other. -/
theorem C196_graph_refuted (order : Nat → List Nat) :
    (graph (fun f _ => if f = 1 then 0 else 5) order 3).get? (1, 2) = none ∧ (graph (fun f _ => if f = 1 then 0 else 5) order 3).get? (0, 2) = some 5 := by
  refine ⟨((C196_graph _ order 3 1 2).1 (by omega) (by omega)).1.trans (by simp), ((C196_graph _ order 3 0 2).1 (by omega) (by omega)).1.trans (by simp)⟩

/-- C196: pruning leaves all with as many neighbours as customers; otherwise it leaves, with its whole part, the depot and every customer
for which fewer than `k` others are as near, and drops, unless it is the depot, every customer than which `k` are nearer. -/
theorem C196_prune (ev : Nat → Nat → Rat) {order : Nat → List Nat} {n k f c : Nat}
    (ho : (order f).Perm (List.range n) ∧ (order f).Pairwise (fun a b => matrix ev f a ≤ matrix ev f b)) (hc : c < n) :
    (n ≤ k → prune ev order n k f c = matrix ev f c) ∧
    (k < n → c = 0 ∨ (List.range n).countP (fun m => decide (m ≠ c ∧ matrix ev f m ≤ matrix ev f c)) < k → prune ev order n k f c = cut (matrix ev f c)) ∧
    (k < n → c ≠ 0 → k ≤ (List.range n).countP (fun m => decide (matrix ev f m < matrix ev f c)) → prune ev order n k f c = 0) := by
  obtain ⟨hp, hs⟩ := ho
  refine ⟨fun h => by unfold prune; rw [if_neg (by omega)], fun h hk => ?_, fun h h0 hk => ?_⟩
  · unfold prune
    rw [if_pos h]
    rcases hk with rfl | hk
    · rw [if_pos (Or.inr rfl)]
    · rw [if_pos (Or.inl ?_)]
      obtain ⟨a, b, e⟩ := List.append_of_mem (hp.mem_iff.2 (List.mem_range.2 hc))
      rw [← hp.countP_eq, e, List.countP_append] at hk
      have hnd : (a ++ c :: b).Nodup := e ▸ hp.nodup_iff.2 List.nodup_range
      have ha : a.countP (fun m => decide (m ≠ c ∧ matrix ev f m ≤ matrix ev f c)) = a.length := by
        rw [List.countP_eq_length]
        intro x hx
        rw [e, List.pairwise_append] at hs
        rw [List.nodup_append] at hnd
        simp only [decide_eq_true_eq]
        exact ⟨fun hxc => hnd.2.2 x hx c (by simp) hxc, hs.2.2 x hx c (by simp)⟩
      rw [e, List.mem_take_iff_getElem]
      exact ⟨a.length, by simp; omega, by simp⟩
  · unfold prune
    rw [if_pos h, if_neg ?_]
    rintro (hm | hm)
    · obtain ⟨a, b, e, hl⟩ := take_mem hm
      rw [← hp.countP_eq, e, List.countP_append, List.countP_cons] at hk
      have hb : b.countP (fun m => decide (matrix ev f m < matrix ev f c)) = 0 := by
        rw [List.countP_eq_zero]
        intro x hx
        rw [e, List.pairwise_append] at hs
        have := (List.pairwise_cons.1 hs.2.1).1 x hx
        simp only [decide_eq_true_eq]
        exact Rat.not_lt.2 this
      have ha := List.countP_le_length (p := fun m => decide (matrix ev f m < matrix ev f c)) (l := a)
      rw [hb] at hk
      have hcc : ¬ matrix ev f c < matrix ev f c := Rat.not_lt.2 Rat.le_refl
      simp only [hcc, decide_false, Bool.false_eq_true, if_false] at hk
      omega
    · exact h0 hm

/-- Pruned, distances below 1 are 0, which is no edge, even those of the nearest customers. -/
theorem C196_prune_refuted (ev : Nat → Nat → Rat) (order : Nat → List Nat) {n k f c : Nat} (hk : k < n) (h0 : 0 ≤ matrix ev f c) (h1 : matrix ev f c < 1) :
    prune ev order n k f c = 0 := by
  unfold prune
  rw [if_pos hk]
  split
  · have : cut (matrix ev f c) = 0 := by
      unfold cut
      rw [if_pos h0]
      have a1 : (0 : Int) ≤ (matrix ev f c).floor := Rat.le_floor_iff.2 (by simpa using h0)
      have a2 : (matrix ev f c).floor < 1 := Rat.floor_lt_iff.2 (by simpa using h1)
      omega
    rw [this]
    rfl
  · rfl

/-- C196: of routes that begin at the depot, the result has the customers in their order and the length of all closed routes. -/
theorem C196_recompute (len : Customer → Customer → Rat) {customers : List Customer} (h0 : 0 < customers.length) {paths : Dict Int (List Nat)} {routes : List (List Nat)}
    (hp : paths.map Prod.snd = routes.map (fun r => 0 :: r)) (hr : ∀ r ∈ routes, ∀ x ∈ r, x < customers.length) :
    recompute len customers paths = .ok (routes.map (fun r => r.map (cu customers)), (routes.map (fun r => pathLen len customers (0 :: (r ++ [0])))).sum) := by
  have := loop_ok len h0 (routes.map (fun r => (0, r))) [] 0 (by
    intro p hp
    obtain ⟨r, hr', rfl⟩ := List.mem_map.1 hp
    exact ⟨h0, hr r hr'⟩)
  simp only [List.map_map, Function.comp_def] at this
  rw [recompute, hp, this]
  simp [Rat.zero_add]

/-- Of routes that do not begin at the depot, the first customer is lost, and the way to it is not counted. -/
theorem C196_first_refuted (len : Customer → Customer → Rat) {customers : List Customer} (h0 : 0 < customers.length) {v : Int} {a : Nat} {r : List Nat}
    (ha : a < customers.length) (hr : ∀ x ∈ r, x < customers.length) :
    recompute len customers [(v, a :: r)] = .ok ([r.map (cu customers)], pathLen len customers (a :: (r ++ [0]))) := by
  have := loop_ok len h0 [(a, r)] [] 0 (by
    intro p hp
    rw [List.mem_singleton] at hp
    subst hp
    exact ⟨ha, hr⟩)
  simpa [recompute, Rat.zero_add, Rat.add_zero] using this

/-- C196: the text of a result, split into lines and words, is the objective and the flag, then one line for each vehicle with the depot,
the customers of its tour and the depot. -/
theorem C196_output {obj : List Char} (hne : obj ≠ []) (hobj : ∀ c ∈ obj, isSpace c = false) (opt : Int) {tours : List (List Int)} {n : Nat} (hn : n ≤ tours.length) (depot : Int) :
    ∃ txt, output obj opt tours n depot = .ok txt ∧
      (pyLines txt).map pyWords = [obj, Imopse.str opt] :: (tours.take n).map (fun t => Imopse.str depot :: (t.map Imopse.str ++ [Imopse.str depot])) ++ [[]] := by
  refine ⟨_, by rw [output, linesFrom_ok tours depot n 0 (by omega), bind_ok], ?_⟩
  rw [List.drop_zero]
  have e : (tours.take n).flatMap (fun t => body depot t ++ ['\n']) = ((tours.take n).map (body depot)).flatMap (fun x => x ++ ['\n']) := by
    rw [List.flatMap_map]
  rw [e, text_ends, pyLines_text (by simp)]
  · have h1 : pyWords (obj ++ ' ' :: Imopse.str opt) = [obj, Imopse.str opt] := by
      have := Spells.word [] obj _ _ (by simp) hne hobj (spells_last opt) (by simp; decide)
      exact pyWords_spells (by simpa using this)
    simp only [List.map_cons, List.map_append, List.map_map, h1, List.cons_append]
    congr 2
    apply List.map_congr_left
    intro t _
    exact pyWords_spells (spells_body depot t)
  · intro l hl
    simp only [List.mem_cons, List.mem_append, List.mem_map, List.not_mem_nil, or_false] at hl
    rcases hl with rfl | ⟨t, _, rfl⟩ | rfl
    · simp only [List.mem_append, List.mem_cons, not_or]
      exact ⟨no_newline hobj, by decide, no_newline str_space⟩
    · exact body_newline depot t
    · simp

/-- With fewer tours than vehicles, `IndexError` is raised, though the result without the other vehicles could be written. -/
theorem C196_output_refuted (obj : List Char) (opt : Int) {tours : List (List Int)} {n : Nat} (hn : tours.length < n) (depot : Int) :
    output obj opt tours n depot = .error .indexError := by
  rw [output, linesFrom_error tours depot n 0 (by omega) (by omega)]
  rfl

/-- The distance along a line. -/
def along (a b : Customer) : Rat := if a.x ≤ b.x then b.x - a.x else a.x - b.x
def four : List Customer := [⟨0, 0, 0⟩, ⟨1, 1 / 2, 0⟩, ⟨2, 5 / 2, 0⟩, ⟨3, 9 / 2, 0⟩]
def fourEv (i j : Nat) : Rat := along (cu four i) (cu four j)

example : recompute along four [(0, [0, 1, 3]), (1, [0, 2])] = .ok ([[⟨1, 1 / 2, 0⟩, ⟨3, 9 / 2, 0⟩], [⟨2, 5 / 2, 0⟩]], 14) ∧
    recompute along four [(0, [1, 3])] = .ok ([[⟨3, 9 / 2, 0⟩]], 17 / 2) := ⟨by decide +kernel, by decide +kernel⟩
example : output "14.00".toList 0 [[1, 3], []] 2 0 = .ok "14.00 0\n0 1 3 0\n0  0\n".toList := by decide +kernel
example : (prune fourEv (fun _ => [0, 1, 2, 3]) 4 3 0 2, prune fourEv (fun _ => [0, 1, 2, 3]) 4 3 0 1, prune fourEv (fun _ => [0, 1, 2, 3]) 4 3 0 3) = (2, 0, 0) := by
  decide +kernel
example : [0, 1, 2, 3].Perm (List.range 4) ∧ [0, 1, 2, 3].Pairwise (fun a b => matrix fourEv 0 a ≤ matrix fourEv 0 b) := ⟨by decide +kernel, by decide +kernel⟩
example : (graph fourEv (fun _ => []) 4).get? (3, 1) = some 4 := by decide +kernel

end Verif.VrpTools
