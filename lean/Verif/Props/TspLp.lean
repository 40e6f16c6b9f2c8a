import Verif.Lemmas.TspLpSolve
import Verif.Lemmas.TspLpPruned
import Mathlib.Data.Nat.Find
import Mathlib.Data.List.Sublists
/-
**C113.** The iterative linear program for the travelling salesman problem: which choices of edges the program
allows, what the rows added for the components of an answer cut off, that the answers are turned into tours, and when
the tour returned is shortest.
-/
namespace Verif.TspLp
open Verif.Milp Verif.Tsp

/-- The answers the library may give: in every round reached, a feasible assignment of the program of that round and the
components of the edges it chooses. -/
def Honest (m : Model) (p : Program Edge) (edges : List Edge) (ans : Nat → Answer) (limit : Nat) : Prop :=
  ∀ k, (k = 0 ∨ k < limit) → (∀ j, j < k → 1 < (ans j).comps.length) →
    (programAt p edges ans k).Feasible (ans k).value ∧ Components m.nodeCount (chosen edges (ans k).value) (ans k).comps

/-- The same with a best assignment in every round. -/
def HonestBest (m : Model) (p : Program Edge) (edges : List Edge) (ans : Nat → Answer) (limit : Nat) : Prop :=
  ∀ k, (k = 0 ∨ k < limit) → (∀ j, j < k → 1 < (ans j).comps.length) →
    (programAt p edges ans k).Least (ans k).value ∧ Components m.nodeCount (chosen edges (ans k).value) (ans k).comps

/-! ### Examples -/

/-- Three nodes on a line, round trip. -/
def ex3 : Model := ⟨3, 0, 0, fun a b => ((a : Int) - b).natAbs⟩

/-- All edges between the three nodes. -/
def edges3 : List Edge := completeGraph 0 [[0, 1, 2], [1, 0, 2], [2, 1, 0]]

/-- Six nodes on a line from 0 to 5. -/
def ex6 : Model := ⟨6, 0, 0, fun a b => ((a : Int) - b).natAbs⟩

/-- All edges between the six nodes. -/
def edges6 : List Edge := completeGraph 0 [[0, 1, 2, 3, 4, 5], [1, 0, 2, 3, 4, 5], [2, 1, 3, 0, 4, 5], [3, 2, 4, 1, 5, 0],
  [4, 3, 5, 2, 1, 0], [5, 4, 3, 2, 1, 0]]

/-- Two triangles. -/
def triangles : List Edge := [(0, 1), (1, 2), (2, 0), (3, 4), (4, 5), (5, 3)]

theorem ex_symmetric (n : Nat) : ∀ a b, (Model.mk n 0 0 (fun a b => ((a : Int) - b).natAbs)).dist a b =
    (Model.mk n 0 0 (fun a b => ((a : Int) - b).natAbs)).dist b a := by
  intro a b
  show ((((a : Int) - b).natAbs : Nat) : Int) = ((((b : Int) - a).natAbs : Nat) : Int)
  congr 1; omega

/-! ### Theorems -/

/-- **C113.** Both graph builders, whatever order the nearest neighbours come in: each edge once, both directions, no loops,
every node has a neighbour. -/
theorem C113_graphs (m : Model) (hs : m.start < m.nodeCount) (hf : m.fin < m.nodeCount) (h2 : 2 ≤ m.nodeCount)
    (sd : List (List Nat)) (hl : sd.length = m.nodeCount) (hsd : ∀ r, r ∈ sd → ∀ v, v ∈ r → v < m.nodeCount) :
    Graph m (completeGraph m.fin sd) ∧ Graph m (prunedGraph m.nodeCount m.fin sd) := by
  constructor
  · refine graph_of_rows hs hf h2 hl (fun r => r.1.drop 1 ++ [m.fin]) ?_
    rintro ⟨r, i⟩ hr
    have hrm := List.fst_mem_of_mem_zipIdx hr
    refine ⟨by simp, ?_⟩
    intro n hn
    rcases List.mem_append.1 hn with hn | hn
    · exact hsd r hrm n (List.mem_of_mem_drop hn)
    · simp only [List.mem_singleton] at hn; subst hn; exact hf
  · refine graph_of_rows hs hf h2 hl
      (fun r => (r.1.take 50).drop 1 ++ (List.range (min (r.2 + 5) m.nodeCount)).drop r.2 ++ [m.fin]) ?_
    rintro ⟨r, i⟩ hr
    have hrm := List.fst_mem_of_mem_zipIdx hr
    refine ⟨by simp, ?_⟩
    intro n hn
    rcases List.mem_append.1 hn with hn | hn
    · rcases List.mem_append.1 hn with hn | hn
      · exact hsd r hrm n (List.mem_of_mem_take (List.mem_of_mem_drop hn))
      · have := List.mem_range.1 (List.mem_of_mem_drop hn); omega
    · simp only [List.mem_singleton] at hn; subst hn; exact hf

/-- **C113.** The complete builder gives all the edges when the nearest node of each node is found to be itself. -/
theorem C113_complete_partial (m : Model) (sd : List (List Nat)) (hl : sd.length = m.nodeCount)
    (hsd : ∀ (i : Nat) (r : List Nat), sd[i]? = some r → r.Perm (List.range m.nodeCount) ∧ r[0]? = some i) (a b : Nat) (ha : a < m.nodeCount)
    (hb : b < m.nodeCount) (hab : a ≠ b) : (a, b) ∈ completeGraph m.fin sd := by
  refine (mem_rows (fun r => r.1.drop 1 ++ [m.fin]) sd.zipIdx [] (a, b)).2 (.inr ?_)
  have hi : sd[a]? = some (sd[a]'(by omega)) := List.getElem?_eq_getElem (by omega)
  obtain ⟨hp, h0⟩ := hsd a _ hi
  refine ⟨(sd[a]'(by omega), a), b, ?_, ?_, fun h => hab h.symm, .inl rfl⟩
  · rw [List.mem_zipIdx_iff_getElem?]; exact hi
  · apply List.mem_append_left
    have hbm : b ∈ sd[a]'(by omega) := hp.mem_iff.2 (List.mem_range.2 hb)
    simp only
    generalize sd[a]'(by omega) = r at h0 hbm
    cases r with
    | nil => simp at hbm
    | cons x r =>
      simp at h0; subst h0
      rcases List.mem_cons.1 hbm with h | h
      · exact absurd h.symm hab
      · simpa using h

example : (∀ a b, a < 6 → b < 6 → a ≠ b → (a, b) ∈ edges6) ∧ edges6.length = 30 := by
  refine ⟨fun a b ha hb hab => ?_, by decide +kernel⟩
  refine C113_complete_partial ex6 _ rfl ?_ a b ha hb hab
  intro i r hi
  have hil := (List.getElem?_eq_some_iff.1 hi).1
  simp at hil
  have : i = 0 ∨ i = 1 ∨ i = 2 ∨ i = 3 ∨ i = 4 ∨ i = 5 := by omega
  rcases this with rfl | rfl | rfl | rfl | rfl | rfl <;> simp at hi <;> subst hi <;> exact ⟨by decide, rfl⟩

/-- **C113.** The program of a graph is built, and allows exactly the choices of edges that leave every node but the end once
and enter every node but the start once (every node, on a round trip) and never go forth and back; its objective is the
total length of the chosen edges. -/
theorem C113_built (m : Model) (edges : List Edge) (hg : Graph m edges) (hs : ∀ a b, m.dist a b = m.dist b a) (hne : m.inner ≠ []) :
    ∃ p, init m edges = .ok p ∧
      ∀ a, (p.Feasible a ↔ (∀ e, e ∈ edges → a e = 0 ∨ a e = 1) ∧ Flow m (chosen edges a)) ∧
        (p.Feasible a → p.objective.value a = ((chosen edges a).map (fun e => m.dist e.1 e.2)).sum) := by
  refine ⟨prog m edges, init_eq hg hs hne, fun a => ⟨feasible_iff hg a, fun h => ?_⟩⟩
  exact objective_chosen m edges a ((feasible_iff hg a).1 h).1

/-- **C113, as coded.** Without a node between start and end the model is not even built: the dummy tour cannot be
evaluated. -/
theorem C113_no_inner (m : Model) (edges : List Edge) (h : m.inner = []) : init m edges = .error .indexError := by
  unfold init build
  rw [h]
  rfl

example : (Model.mk 2 0 1 (fun _ _ => 5)).inner = [] := by decide

/-- **C113.** No round cuts off a tour: as long as the answers before had several components each, every tour along the edges of
the graph is feasible, and its objective is its length. -/
theorem C113_tours_partial (m : Model) (edges : List Edge) (hg : Graph m edges) (hs : ∀ a b, m.dist a b = m.dist b a) (hne : m.inner ≠ [])
    (p : Program Edge) (hp : init m edges = .ok p) (h2 : m.start ≠ m.fin ∨ 2 ≤ m.inner.length) (ans : Nat → Answer) (limit k : Nat)
    (hk : k ≤ limit) (hon : Honest m p edges ans limit) (hsev : ∀ j, j < k → 1 < (ans j).comps.length) (t : List Nat) (ht : TourOn m edges t) :
    (programAt p edges ans k).Feasible (indicator (legs (tour m t))) ∧
      (programAt p edges ans k).objective.value (indicator (legs (tour m t))) = (walk m.dist (tour m t)).sum := by
  rw [init_eq hg hs hne] at hp; cases hp
  have h01 : ∀ e, e ∈ edges → indicator (legs (tour m t)) e = 0 ∨ indicator (legs (tour m t)) e = 1 := by
    intro e _; unfold indicator; split <;> simp
  have hch := chosen_indicator (edges := edges) ht.2
  have hflow : Flow m (chosen edges (indicator (legs (tour m t)))) := Flow.congr (fun e => (hch e).symm) (tour_flow hg ht.1 h2)
  constructor
  · rw [programAt_feasible hg]
    refine ⟨h01, hflow, ?_⟩
    intro j hj s hsm
    obtain ⟨hfe, hc⟩ := hon j (.inr (by omega)) (fun i hi => hsev i (by omega))
    have hfj := ((programAt_feasible hg ans j _).1 hfe).2.1
    obtain ⟨hin, hout⟩ := comp_proper hc (hsev j hj) hsm
    obtain ⟨_, b1, b2, b3, _⟩ := hc.2.2 s hsm
    obtain ⟨⟨x, y, c1, c2, c3⟩, ⟨x', y', d1, d2, d3⟩⟩ := tour_crosses ht.1 s (closed_ends hfj b1 b2 b3) hin hout
    exact ⟨⟨x', y', (hch _).2 d1, d2, d3⟩, ⟨x, y, (hch _).2 c1, c2, c3⟩⟩
  · have hobj := objective_chosen m edges _ h01
    have := (chosen_is_tour hflow (hg.nodup.filter _) ht.1 (fun e he => (hch e).2 he)).2
    exact hobj.trans this

/-- **C113.** An answer with a single component is a tour: the chosen edges are its legs and the objective is its length. -/
theorem C113_single_component (m : Model) (edges : List Edge) (hg : Graph m edges) (hs : ∀ a b, m.dist a b = m.dist b a) (hne : m.inner ≠ [])
    (p : Program Edge) (hp : init m edges = .ok p) (ans : Nat → Answer) (k : Nat) (a : Answer)
    (hf : (programAt p edges ans k).Feasible a.value) (hc : Components m.nodeCount (chosen edges a.value) a.comps)
    (h1 : a.comps.length = 1) :
    ∃ t, TourOn m edges t ∧ (∀ e, e ∈ chosen edges a.value ↔ e ∈ legs (tour m t)) ∧
      (programAt p edges ans k).objective.value a.value = (walk m.dist (tour m t)).sum := by
  rw [init_eq hg hs hne] at hp; cases hp
  obtain ⟨h01, hflow, _⟩ := (programAt_feasible hg ans k _).1 hf
  obtain ⟨ps, cs, q, _, hr, hsp, hcs⟩ := parts_spec hflow hg.start_lt hc
  have hperm : q.Perm m.inner := by
    refine (List.perm_ext_iff_of_nodup (List.nodup_cons.1 hsp.nodup).2 (inner_nodup m)).2 ?_
    intro v
    rw [inner_mem]
    obtain ⟨s, hs1, hs2⟩ := (hr.comp _ _).1 hsp.comp
    have hmem := hsp.mem s hs1
    constructor
    · intro hv
      refine ⟨hr.lt cs s v hs1 ((hmem v).2 (.inr (.inl hv))), ?_, fun h => hsp.fin (h ▸ hv)⟩
      rintro rfl
      exact (List.nodup_cons.1 hsp.nodup).1 hv
    · rintro ⟨a1, a2, a3⟩
      obtain ⟨c, s', b1, b2⟩ := hr.cover v a1
      have : c = cs := by have := (List.getElem?_eq_some_iff.1 b1).1; omega
      subst this
      rw [hs1] at b1; cases b1
      rcases (hmem v).1 b2 with h | h | h
      · exact absurd h a2
      · exact h
      · exact absurd h a3
  obtain ⟨c1, c2⟩ := chosen_is_tour hflow (hg.nodup.filter _) hperm hsp.legs
  refine ⟨q, ⟨hperm, fun e he => (mem_chosen.1 (hsp.legs e he)).1⟩, fun e => (c1 e).symm, ?_⟩
  exact (objective_chosen m edges _ h01).trans c2

/-- **C113.** The rows added for an answer cut it off: no later feasible assignment chooses the same edges. -/
theorem C113_cut (m : Model) (edges : List Edge) (hg : Graph m edges) (hs : ∀ a b, m.dist a b = m.dist b a) (hne : m.inner ≠ [])
    (p : Program Edge) (hp : init m edges = .ok p) (ans : Nat → Answer) (j k : Nat) (hjk : j < k)
    (hc : Components m.nodeCount (chosen edges (ans j).value) (ans j).comps) (a : Edge → Int) (hf : (programAt p edges ans k).Feasible a) :
    chosen edges a ≠ chosen edges (ans j).value := by
  rw [init_eq hg hs hne] at hp; cases hp
  intro heq
  obtain ⟨_, _, hcut⟩ := (programAt_feasible hg ans k a).1 hf
  obtain ⟨s, hsm, _⟩ := hc.1 m.start hg.start_lt
  obtain ⟨⟨x, y, h1, h2, h3⟩, _⟩ := hcut j hjk s hsm
  rw [heq] at h1
  exact h2 (((hc.2.2 s hsm).2.2.2.1 (x, y) h1).2 h3)

/-- **C113.** When the graph holds any tour at all, the solver never raises, whatever feasible answers the library gives and
however few rounds are allowed: it returns every inner node exactly once, with the exact length. -/
theorem C113_solve (m : Model) (edges : List Edge) (hg : Graph m edges) (hs : ∀ a b, m.dist a b = m.dist b a) (hne : m.inner ≠ [])
    (ht : ∃ t, TourOn m edges t) (p : Program Edge) (hp : init m edges = .ok p) (ans : Nat → Answer) (limit : Nat)
    (hon : Honest m p edges ans limit) :
    ∃ sol, solve m edges ans limit = .ok sol ∧ sol.perm.Perm m.inner ∧ sol.length = some (walk m.dist (tour m sol.perm)).sum := by
  rw [init_eq hg hs hne] at hp; cases hp
  rcases rounds_spec hg hs hne ans limit 0 edges none (fun _ h => h) (by simp) (by
    intro j _ hj hsev
    obtain ⟨hf, hc⟩ := hon j (by omega) (fun i hi => hsev i (by omega) hi)
    exact ⟨((programAt_feasible hg ans j _).1 hf).2.1, hc⟩) with ⟨_, hno⟩ | ⟨sol, hrun, hgood, _⟩
  · exact absurd ht hno
  · obtain ⟨sol', h1, h2, h3⟩ := build_ok hs hgood.1 hne
    refine ⟨sol', ?_, h2 ▸ hgood.1, h2 ▸ h3⟩
    unfold solve
    rw [hrun, bind_ok]
    exact h1

/-- **C113.** If the answers are best ones and one of the rounds allowed ends with a single component, the tour returned is no
longer than any tour along the edges. -/
theorem C113_optimal_partial (m : Model) (edges : List Edge) (hg : Graph m edges) (hs : ∀ a b, m.dist a b = m.dist b a) (hne : m.inner ≠ [])
    (h2 : m.start ≠ m.fin ∨ 2 ≤ m.inner.length) (p : Program Edge) (hp : init m edges = .ok p) (ans : Nat → Answer) (limit k : Nat)
    (hon : HonestBest m p edges ans limit) (hk : k = 0 ∨ k < limit) (hsev : ∀ j, j < k → 1 < (ans j).comps.length)
    (h1 : (ans k).comps.length = 1) :
    ∃ sol, solve m edges ans limit = .ok sol ∧ sol.perm.Perm m.inner ∧ sol.length = some (walk m.dist (tour m sol.perm)).sum ∧
      ∀ t, TourOn m edges t → (walk m.dist (tour m sol.perm)).sum ≤ (walk m.dist (tour m t)).sum := by
  have hp' := hp
  have hon' : Honest m p edges ans limit := fun j a b => ⟨(hon j a b).1.1, (hon j a b).2⟩
  obtain ⟨⟨hfk, hleast⟩, hck⟩ := hon k hk hsev
  obtain ⟨t0, ht0, _, hobj⟩ := C113_single_component m edges hg hs hne p hp ans k (ans k) hfk hck h1
  rw [init_eq hg hs hne] at hp; cases hp
  rcases rounds_spec hg hs hne ans limit 0 edges none (fun _ h => h) (by simp) (by
    intro j _ hj hsev
    obtain ⟨hf, hc⟩ := hon' j (by omega) (fun i hi => hsev i (by omega) hi)
    exact ⟨((programAt_feasible hg ans j _).1 hf).2.1, hc⟩) with ⟨_, hno⟩ | ⟨sol, hrun, hgood, _, hle⟩
  · exact absurd ⟨t0, ht0⟩ hno
  · obtain ⟨sol', e1, e2, e3⟩ := build_ok hs hgood.1 hne
    refine ⟨sol', ?_, e2 ▸ hgood.1, e2 ▸ e3, fun t ht => ?_⟩
    · unfold solve; rw [hrun, bind_ok]; exact e1
    · have hlek := hle k (Nat.zero_le _) (by omega) (fun i _ hi => hsev i hi) h1
      have hf := ((programAt_feasible hg ans k _).1 hfk)
      obtain ⟨ft, ot⟩ := C113_tours_partial m edges hg hs hne _ hp' h2 ans (max limit k) k (Nat.le_max_right ..) (by
        intro j hj hs'
        by_cases hjl : j = 0 ∨ j < limit
        · exact hon' j hjl hs'
        · exfalso; have := hs' k (by omega); omega) hsev t ht
      have hmin := hleast _ ft
      rw [ot] at hmin
      have hv : (programAt (prog m edges) edges ans k).objective.value (ans k).value =
          ((chosen edges (ans k).value).map (fun e => m.dist e.1 e.2)).sum := objective_chosen m edges _ hf.1
      rw [hv] at hmin
      have : len sol = (walk m.dist (tour m sol'.perm)).sum := by unfold len; rw [hgood.2, e2]; rfl
      omega

/-- **C113.** With enough rounds allowed the loop always reaches an answer with a single component, so what is returned is no longer
than any tour along the edges. -/
theorem C113_finishes_partial (m : Model) (edges : List Edge) (hg : Graph m edges) (hs : ∀ a b, m.dist a b = m.dist b a) (hne : m.inner ≠ [])
    (h2 : m.start ≠ m.fin ∨ 2 ≤ m.inner.length) (p : Program Edge) (hp : init m edges = .ok p) (ans : Nat → Answer) (limit : Nat)
    (hlim : 2 ^ edges.length < limit) (hon : HonestBest m p edges ans limit) :
    ∃ sol, solve m edges ans limit = .ok sol ∧ sol.perm.Perm m.inner ∧ sol.length = some (walk m.dist (tour m sol.perm)).sum ∧
      ∀ t, TourOn m edges t → (walk m.dist (tour m sol.perm)).sum ≤ (walk m.dist (tour m t)).sum := by
  classical
  have hpos : ∀ k, k < limit → (∀ j, j < k → 1 < (ans j).comps.length) → 0 < (ans k).comps.length := by
    intro k hk hsev
    obtain ⟨s, hsm, _⟩ := (hon k (.inr hk) hsev).2.1 m.start hg.start_lt
    exact List.length_pos_of_mem hsm
  by_cases hall : ∀ k, k < limit → 1 < (ans k).comps.length
  · exfalso
    have hnd : ((List.range limit).map (fun k => chosen edges (ans k).value)).Nodup := by
      rw [List.Nodup, List.pairwise_map]
      refine List.Pairwise.imp_of_mem ?_ (List.pairwise_lt_range)
      intro j k _ hk hjk heq
      have hk' := List.mem_range.1 hk
      have hfk := (hon k (.inr hk') (fun i hi => hall i (by omega))).1.1
      have hcj := (hon j (.inr (by omega)) (fun i hi => hall i (by omega))).2
      exact C113_cut m edges hg hs hne p hp ans j k hjk hcj _ hfk heq.symm
    have hsub : ((List.range limit).map (fun k => chosen edges (ans k).value)) ⊆ edges.sublists := by
      intro x hx
      obtain ⟨k, _, rfl⟩ := List.mem_map.1 hx
      exact List.mem_sublists.2 (List.filter_sublist)
    have := (List.subperm_of_subset hnd hsub).length_le
    rw [List.length_sublists, List.length_map, List.length_range] at this
    omega
  · have hex : ∃ k, k < limit ∧ ¬ 1 < (ans k).comps.length := by
      simpa only [not_forall, exists_prop] using hall
    obtain ⟨hk, hn⟩ := Nat.find_spec hex
    have hmin : ∀ j, j < Nat.find hex → 1 < (ans j).comps.length := by
      intro j hj
      have := Nat.find_min hex hj
      by_contra hc
      exact this ⟨by omega, hc⟩
    have := hpos _ hk hmin
    exact C113_optimal_partial m edges hg hs hne h2 p hp ans limit _ hon (.inr hk) hmin (by omega)

/-- **C113.** The pruned graph always holds a tour, whatever order the nearest neighbours come in: all the edges to the end and
between nodes numbered at most four apart are enough. -/
theorem C113_pruned (m : Model) (hs : m.start < m.nodeCount) (hf : m.fin < m.nodeCount) (hne : m.inner ≠ []) (sd : List (List Nat))
    (hl : sd.length = m.nodeCount) : ∃ t, TourOn m (prunedGraph m.nodeCount m.fin sd) t := by
  have hmem := mem_rows (fun r => (r.1.take 50).drop 1 ++ (List.range (min (r.2 + 5) m.nodeCount)).drop r.2 ++ [m.fin]) sd.zipIdx []
  have hrow : ∀ v, v < m.nodeCount → ∃ r, (r, v) ∈ sd.zipIdx := by
    intro v hv
    exact ⟨sd[v]'(by omega), by rw [List.mem_zipIdx_iff_getElem?]; simp⟩
  have hup : ∀ a b, a < b → b ≤ a + 4 → b < m.nodeCount →
      b ∈ (List.range (min (a + 5) m.nodeCount)).drop a := by
    intro a b h1 h2 h3
    rw [List.range_eq_range', List.drop_range', List.mem_range'_1]
    omega
  refine near_tour hs hf hne ?_ ?_
  · intro a ha hne'
    obtain ⟨r, hr⟩ := hrow a ha
    refine ⟨(hmem _).2 (.inr ⟨(r, a), m.fin, hr, by simp, fun h => hne' h.symm, .inl rfl⟩),
      (hmem _).2 (.inr ⟨(r, a), m.fin, hr, by simp, fun h => hne' h.symm, .inr rfl⟩)⟩
  · intro a b ha hb hab h1 h2
    rcases Nat.lt_or_ge a b with h | h
    · obtain ⟨r, hr⟩ := hrow a ha
      refine (hmem _).2 (.inr ⟨(r, a), b, hr, ?_, fun h => hab h.symm, .inl rfl⟩)
      exact List.mem_append_left _ (List.mem_append_right _ (hup a b h h2 hb))
    · obtain ⟨r, hr⟩ := hrow b hb
      refine (hmem _).2 (.inr ⟨(r, b), a, hr, ?_, hab, .inr rfl⟩)
      exact List.mem_append_left _ (List.mem_append_right _ (hup b a (by omega) h1 ha))

example : ∃ t, TourOn ⟨9, 7, 2, fun _ _ => 1⟩ (prunedGraph 9 2 (List.replicate 9 [0])) t :=
  C113_pruned ⟨9, 7, 2, fun _ _ => 1⟩ (by decide) (by decide) (by decide) _ rfl

/-! ### Runs -/

/-- First two triangles, then the tour around. -/
def ans6 : Nat → Answer
  | 0 => ⟨indicator triangles, [[0, 1, 2], [3, 4, 5]]⟩
  | _ => ⟨indicator (legs [0, 1, 2, 3, 4, 5, 0]), [[0, 1, 2, 3, 4, 5]]⟩

theorem triangles_flow : Flow ex6 triangles := by
  refine ⟨?_, ?_, ?_, ?_, ?_, ?_, ?_, ?_⟩
  · intro a b h
    have : ∀ e ∈ triangles, e.1 < 6 ∧ e.2 < 6 := by decide
    exact this _ h
  · intro v hv _
    have : ∀ v < 6, ∃ e ∈ triangles, e.1 = v := by decide
    obtain ⟨⟨x, y⟩, h, rfl⟩ := this v hv
    exact ⟨y, h⟩
  · intro v w w' h h'
    have : ∀ e ∈ triangles, ∀ e' ∈ triangles, e.1 = e'.1 → e.2 = e'.2 := by decide
    exact this _ h _ h' rfl
  · intro h; exact absurd rfl h
  · intro v hv _
    have : ∀ v < 6, ∃ e ∈ triangles, e.2 = v := by decide
    obtain ⟨⟨x, y⟩, h, rfl⟩ := this v hv
    exact ⟨x, h⟩
  · intro v w w' h h'
    have : ∀ e ∈ triangles, ∀ e' ∈ triangles, e.2 = e'.2 → e.1 = e'.1 := by decide
    exact this _ h _ h' rfl
  · intro h; exact absurd rfl h
  · intro a b h h'
    have : ∀ e ∈ triangles, (e.2, e.1) ∉ triangles := by decide
    exact this _ h h'

theorem triangles_comps (sel : List Edge) (h : ∀ e, e ∈ sel ↔ e ∈ triangles) : Components 6 sel [[0, 1, 2], [3, 4, 5]] := by
  refine ⟨?_, by simp, ?_⟩
  · intro v hv
    have : v = 0 ∨ v = 1 ∨ v = 2 ∨ v = 3 ∨ v = 4 ∨ v = 5 := by omega
    rcases this with rfl | rfl | rfl | rfl | rfl | rfl <;> simp
  · intro s hs
    have hcl : ∀ s ∈ [[0, 1, 2], [3, 4, 5]], s ≠ [] ∧ s.Nodup ∧ (∀ v ∈ s, v < 6) ∧ ∀ e ∈ triangles, (e.1 ∈ s ↔ e.2 ∈ s) := by decide
    obtain ⟨c1, c2, c3, c4⟩ := hcl s hs
    refine ⟨c1, c2, c3, fun e he => c4 e ((h e).1 he), ?_⟩
    rintro t ⟨v, hv⟩ hsub hc w hw
    have k1 := hc (0, 1) ((h _).2 (by decide))
    have k2 := hc (1, 2) ((h _).2 (by decide))
    have k3 := hc (3, 4) ((h _).2 (by decide))
    have k4 := hc (4, 5) ((h _).2 (by decide))
    have hvs := hsub v hv
    simp only [List.mem_cons, List.not_mem_nil, or_false] at hs k1 k2 k3 k4
    rcases hs with rfl | rfl <;> simp only [List.mem_cons, List.not_mem_nil, or_false] at hvs hw <;>
      rcases hvs with rfl | rfl | rfl <;> rcases hw with rfl | rfl | rfl <;> simp_all

theorem around_comps (sel : List Edge) (h : ∀ e, e ∈ sel ↔ e ∈ legs [0, 1, 2, 3, 4, 5, 0]) : Components 6 sel [[0, 1, 2, 3, 4, 5]] := by
  refine ⟨?_, by simp, ?_⟩
  · intro v hv
    exact ⟨_, List.mem_singleton.2 rfl, by simp; omega⟩
  · intro s hs
    have hs := List.mem_singleton.1 hs
    subst hs
    have hcl : ∀ e ∈ legs [0, 1, 2, 3, 4, 5, 0], (e.1 ∈ [0, 1, 2, 3, 4, 5] ↔ e.2 ∈ [0, 1, 2, 3, 4, 5]) := by decide
    refine ⟨by simp, by decide, by decide, fun e he => hcl e ((h e).1 he), ?_⟩
    rintro t ⟨v, hv⟩ hsub hc w hw
    have k1 := hc (0, 1) ((h _).2 (by decide))
    have k2 := hc (1, 2) ((h _).2 (by decide))
    have k3 := hc (2, 3) ((h _).2 (by decide))
    have k4 := hc (3, 4) ((h _).2 (by decide))
    have k5 := hc (4, 5) ((h _).2 (by decide))
    have hvs := hsub v hv
    simp only [List.mem_cons, List.not_mem_nil, or_false] at hvs hw k1 k2 k3 k4 k5
    rcases hvs with rfl | rfl | rfl | rfl | rfl | rfl <;> rcases hw with rfl | rfl | rfl | rfl | rfl | rfl <;> simp_all

theorem indicator_01 (l edges : List Edge) : ∀ e, e ∈ edges → indicator l e = 0 ∨ indicator l e = 1 := by
  intro e _; unfold indicator; split <;> simp

theorem graph6 : Graph ex6 edges6 := (C113_graphs ex6 (by decide) (by decide) (by decide) _ rfl (by decide)).1

theorem honest6 (limit : Nat) : Honest ex6 (prog ex6 edges6) edges6 ans6 limit := by
  intro k _ hsev
  have hcyc : ∀ e ∈ legs (tour ex6 [1, 2, 3, 4, 5]), e ∈ edges6 := by decide +kernel
  have htri : ∀ e ∈ triangles, e ∈ edges6 := by decide +kernel
  match k with
  | 0 =>
    refine ⟨?_, triangles_comps _ (chosen_indicator htri)⟩
    rw [programAt_feasible graph6]
    exact ⟨indicator_01 _ _, Flow.congr (fun e => (chosen_indicator htri e).symm) triangles_flow, fun j hj => absurd hj (by omega)⟩
  | 1 =>
    refine ⟨?_, around_comps _ (chosen_indicator hcyc)⟩
    rw [programAt_feasible graph6]
    refine ⟨indicator_01 _ _, Flow.congr (fun e => (chosen_indicator hcyc e).symm)
      (tour_flow graph6 (p := [1, 2, 3, 4, 5]) (by decide) (.inr (by decide))), ?_⟩
    intro j hj s hs
    have : j = 0 := by omega
    subst this
    have hs : s = [0, 1, 2] ∨ s = [3, 4, 5] := by simpa [ans6] using hs
    have hm := chosen_indicator (edges := edges6) hcyc
    rcases hs with rfl | rfl
    · exact ⟨⟨5, 0, (hm _).2 (by decide), by decide, by decide⟩, ⟨2, 3, (hm _).2 (by decide), by decide, by decide⟩⟩
    · exact ⟨⟨2, 3, (hm _).2 (by decide), by decide, by decide⟩, ⟨5, 0, (hm _).2 (by decide), by decide, by decide⟩⟩
  | k + 2 => exact absurd (hsev 1 (by omega)) (by decide)

example : ∃ p, init ex6 edges6 = .ok p ∧ p.Feasible (indicator triangles) ∧ p.Feasible (indicator (legs [0, 1, 2, 3, 4, 5, 0])) :=
  ⟨_, init_eq graph6 (ex_symmetric 6) (by decide), by
    rw [feasible_iff graph6]
    have htri : ∀ e ∈ triangles, e ∈ edges6 := by decide +kernel
    exact ⟨indicator_01 _ _, Flow.congr (fun e => (chosen_indicator htri e).symm) triangles_flow⟩, by
    rw [feasible_iff graph6]
    have hcyc : ∀ e ∈ legs (tour ex6 [1, 2, 3, 4, 5]), e ∈ edges6 := by decide +kernel
    exact ⟨indicator_01 _ _, Flow.congr (fun e => (chosen_indicator hcyc e).symm)
      (tour_flow graph6 (p := [1, 2, 3, 4, 5]) (by decide) (.inr (by decide)))⟩⟩

/-- After one round the two triangles have been joined; with more rounds the second answer is reached. -/
example : init ex6 edges6 = .ok (prog ex6 edges6) ∧ (∃ t, TourOn ex6 edges6 t) ∧
    (∀ limit, Honest ex6 (prog ex6 edges6) edges6 ans6 limit) ∧
    (solve ex6 edges6 ans6 1).toOption.map (fun s => (s.perm, s.length)) = some ([1, 3, 5, 4, 2], some 10) := by
  refine ⟨init_eq graph6 (ex_symmetric 6) (by decide), ⟨[1, 2, 3, 4, 5], by decide, by decide +kernel⟩, honest6, by decide +kernel⟩

/-- A round trip over the three nodes. -/
def ans3 : Nat → Answer := fun _ => ⟨indicator [(0, 1), (1, 2), (2, 0)], [[0, 1, 2]]⟩

theorem graph3 : Graph ex3 edges3 := (C113_graphs ex3 (by decide) (by decide) (by decide) _ rfl (by decide)).1

/-- On three nodes the answer given is a best one: the hypotheses of the theorems on the shortest tour are met. -/
example : init ex3 edges3 = .ok (prog ex3 edges3) ∧ (∀ limit, HonestBest ex3 (prog ex3 edges3) edges3 ans3 limit) ∧
    (ans3 0).comps.length = 1 ∧ 2 ≤ ex3.inner.length := by
  refine ⟨init_eq graph3 (ex_symmetric 3) (by decide), ?_, rfl, by decide⟩
  intro limit k _ hsev
  have hk : k = 0 := by
    rcases Nat.eq_zero_or_pos k with h | h
    · exact h
    · exact absurd (hsev 0 h) (by decide)
  subst hk
  have hcyc : ∀ e ∈ legs (tour ex3 [1, 2]), e ∈ edges3 := by decide +kernel
  have hm := chosen_indicator (edges := edges3) hcyc
  refine ⟨⟨?_, ?_⟩, ?_, by simp [ans3], ?_⟩
  · rw [programAt_feasible graph3]
    exact ⟨indicator_01 _ _, Flow.congr (fun e => (hm e).symm)
      (tour_flow graph3 (p := [1, 2]) (by decide) (.inr (by decide))), fun j hj => absurd hj (by omega)⟩
  · intro b hb
    have hb := hb.2
    have r1 := hb ⟨ones [(1, 0), (2, 0)], .eq, 1⟩ (by decide)
    have r2 := hb ⟨ones [(0, 1), (0, 2)], .eq, 1⟩ (by decide)
    have r3 := hb ⟨ones [(0, 1), (2, 1)], .eq, 1⟩ (by decide)
    have r4 := hb ⟨ones [(0, 2), (1, 2)], .eq, 1⟩ (by decide)
    have r5 := hb ⟨ones [(0, 1), (1, 0)], .le, 1⟩ (by decide)
    have hv : (programAt (prog ex3 edges3) edges3 ans3 0).objective =
        [(1, (0, 1)), (1, (1, 0)), (2, (0, 2)), (2, (2, 0)), (1, (1, 2)), (1, (2, 1))] := by decide
    rw [hv]
    simp [Row.Holds, Lin.value, ones, ans3, indicator] at r1 r2 r3 r4 r5 ⊢
    omega
  · intro v hv
    have hv : v < 3 := hv
    exact ⟨[0, 1, 2], by simp [ans3], by simp; omega⟩
  · intro s hs
    have hs : s = [0, 1, 2] := by simpa [ans3] using hs
    subst hs
    have hcl : ∀ e ∈ legs (tour ex3 [1, 2]), (e.1 ∈ [0, 1, 2] ↔ e.2 ∈ [0, 1, 2]) := by decide
    refine ⟨by simp, by decide, by decide, fun e he => hcl e ((hm e).1 he), ?_⟩
    rintro t ⟨v, hv⟩ hsub hc w hw
    have k1 := hc (0, 1) ((hm _).2 (by decide))
    have k2 := hc (1, 2) ((hm _).2 (by decide))
    have hvs := hsub v hv
    simp only [List.mem_cons, List.not_mem_nil, or_false] at hvs hw k1 k2
    rcases hvs with rfl | rfl | rfl <;> rcases hw with rfl | rfl | rfl <;> simp_all

/-! ### What is not so -/

/-- **C113, refuted for two nodes.** Out and back between two points is a tour along the edges, but the program has no solution: an
edge and its reverse may not both be chosen. -/
theorem C113_two_nodes_refuted : ∃ (m : Model) (edges : List Edge) (p : Program Edge), Graph m edges ∧ init m edges = .ok p ∧
    TourOn m edges [1] ∧ ∀ a, ¬ p.Feasible a := by
  refine ⟨⟨2, 0, 0, fun a b => ((a : Int) - b).natAbs⟩, completeGraph 0 [[0, 1], [1, 0]], _,
    (C113_graphs ⟨2, 0, 0, fun a b => ((a : Int) - b).natAbs⟩ (by decide) (by decide) (by decide) [[0, 1], [1, 0]] rfl (by decide)).1,
    init_eq (C113_graphs ⟨2, 0, 0, fun a b => ((a : Int) - b).natAbs⟩ (by decide) (by decide) (by decide) [[0, 1], [1, 0]] rfl (by decide)).1
      (ex_symmetric 2) (by decide), ⟨by decide, by decide⟩, ?_⟩
  intro a ha
  have ha := ha.2
  have r1 := ha ⟨ones [(0, 1)], .eq, 1⟩ (by decide)
  have r2 := ha ⟨ones [(1, 0)], .eq, 1⟩ (by decide)
  have r3 := ha ⟨ones [(0, 1), (1, 0)], .le, 1⟩ (by decide)
  simp [Row.Holds, Lin.value, ones] at r1 r2 r3
  omega

/-- Two triangles with one connection. -/
def bridged : List Edge := [(0, 1), (1, 0), (1, 2), (2, 1), (2, 0), (0, 2), (3, 4), (4, 3), (4, 5), (5, 4), (5, 3), (3, 5), (0, 3), (3, 0)]

theorem bridged_graph : Graph ex6 bridged := by
  refine ⟨by decide, ?_, ?_, ?_, ?_, by decide, by decide⟩
  · intro a b h
    have : ∀ e ∈ bridged, (e.2, e.1) ∈ bridged := by decide
    exact this _ h
  · intro a h
    have : ∀ e ∈ bridged, e.1 ≠ e.2 := by decide
    exact this _ h rfl
  · intro a b h
    have : ∀ e ∈ bridged, e.1 < 6 ∧ e.2 < 6 := by decide
    exact this _ h
  · intro v hv
    have : ∀ v < 6, ∃ e ∈ bridged, e.1 = v := by decide
    obtain ⟨⟨x, y⟩, h, rfl⟩ := this v hv
    exact ⟨y, h⟩

/-- **C113, refuted for graphs without a tour.** A graph given by the user may hold no tour: the program has solutions, and the
solver raises a `TypeError` while joining their components. -/
theorem C113_no_tour_refuted : ∃ (m : Model) (edges : List Edge) (p : Program Edge) (ans : Nat → Answer), Graph m edges ∧
    init m edges = .ok p ∧ Honest m p edges ans 1 ∧ solve m edges ans 1 = .error .typeError := by
  have htri : ∀ e ∈ triangles, e ∈ bridged := by decide
  refine ⟨ex6, bridged, _, ans6, bridged_graph, init_eq bridged_graph (ex_symmetric 6) (by decide), ?_, by decide +kernel⟩
  intro k hk _
  have : k = 0 := by omega
  subst this
  refine ⟨?_, triangles_comps _ (chosen_indicator htri)⟩
  rw [programAt_feasible bridged_graph]
  exact ⟨indicator_01 _ _, Flow.congr (fun e => (chosen_indicator htri e).symm) triangles_flow, fun j hj => absurd hj (by omega)⟩

/-- **C113, refuted when points coincide.** If the sorting of the distances puts another node at distance zero before the node
itself, the complete graph lacks the edge between the two. -/
theorem C113_ties_refuted : ∃ sd : List (List Nat), sd.length = 3 ∧ (∀ r, r ∈ sd → r.Perm (List.range 3)) ∧ (1, 2) ∉ completeGraph 0 sd := by
  exact ⟨[[0, 1, 2], [2, 1, 0], [1, 2, 0]], rfl, by decide, by decide⟩

end Verif.TspLp
