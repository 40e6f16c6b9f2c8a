import Verif.Model.TspLp
import Verif.Lemmas.Milp
import Verif.Lemmas.Tsp
/- Helper lemmas about the program over edges: which choices of edges it allows. -/
namespace Verif.TspLp
open Verif.Milp Verif.Tsp

/-- The graphs the solver is given: each edge once, both directions, no loops, every node has a neighbour. -/
structure Graph (m : Model) (edges : List Edge) : Prop where
  nodup : edges.Nodup
  sym : ∀ a b, (a, b) ∈ edges → (b, a) ∈ edges
  loop : ∀ a, (a, a) ∉ edges
  lt : ∀ a b, (a, b) ∈ edges → a < m.nodeCount ∧ b < m.nodeCount
  near : ∀ v, v < m.nodeCount → ∃ w, (v, w) ∈ edges
  start_lt : m.start < m.nodeCount
  fin_lt : m.fin < m.nodeCount

/-- A choice of edges that leaves every node but the end once, enters every node but the start once (both of them, when
start and end are the same), and never goes forth and back. -/
structure Flow (m : Model) (sel : List Edge) : Prop where
  lt : ∀ a b, (a, b) ∈ sel → a < m.nodeCount ∧ b < m.nodeCount
  out : ∀ v, v < m.nodeCount → v ≠ m.fin ∨ m.start = m.fin → ∃ w, (v, w) ∈ sel
  out1 : ∀ v w w', (v, w) ∈ sel → (v, w') ∈ sel → w = w'
  out0 : m.start ≠ m.fin → ∀ w, (m.fin, w) ∉ sel
  inn : ∀ v, v < m.nodeCount → v ≠ m.start ∨ m.start = m.fin → ∃ w, (w, v) ∈ sel
  inn1 : ∀ v w w', (w, v) ∈ sel → (w', v) ∈ sel → w = w'
  inn0 : m.start ≠ m.fin → ∀ w, (w, m.start) ∉ sel
  pair : ∀ a b, (a, b) ∈ sel → (b, a) ∉ sel

theorem value_ones (l : List Edge) (a : Edge → Int) : (ones l).value a = (l.map a).sum := by
  unfold ones; rw [value_map]; simp

theorem value_negs (l : List Edge) (a : Edge → Int) : (negs l).value a = -(l.map a).sum := by
  unfold negs; rw [value_map]
  induction l with
  | nil => rfl
  | cons e l ih => simp only [List.map_cons, List.sum_cons] at *; omega

theorem sum_zero_iff {α : Type} {l : List α} {f : α → Int} (h01 : ∀ x, x ∈ l → f x = 0 ∨ f x = 1) :
    (l.map f).sum = 0 ↔ ∀ x, x ∈ l → f x ≠ 1 := by
  constructor
  · intro h x hx hx1
    have hn : ∀ v, v ∈ l.map f → 0 ≤ v := by
      intro v hv
      obtain ⟨w, hw, rfl⟩ := List.mem_map.1 hv
      rcases h01 w hw with h | h <;> omega
    have := le_sum_of_mem_int hn (List.mem_map.2 ⟨x, hx, rfl⟩)
    omega
  · intro h
    apply sum_zero_int
    intro v hv
    obtain ⟨w, hw, rfl⟩ := List.mem_map.1 hv
    rcases h01 w hw with h' | h'
    · exact h'
    · exact absurd h' (h w hw)

theorem sum_one_iff {α : Type} [DecidableEq α] {l : List α} (hl : l.Nodup) {f : α → Int} (h01 : ∀ x, x ∈ l → f x = 0 ∨ f x = 1) :
    (l.map f).sum = 1 ↔ (∃ x, x ∈ l ∧ f x = 1) ∧ ∀ x y, x ∈ l → y ∈ l → f x = 1 → f y = 1 → x = y := by
  constructor
  · intro h
    obtain ⟨x, hx, hfx, hu, _⟩ := sum_one_unique hl h01 h
    refine ⟨⟨x, hx, hfx⟩, ?_⟩
    have hx' : ∀ y, y ∈ l → f y = 1 → y = x := by
      intro y hy hy1
      by_cases hyx : y = x
      · exact hyx
      · have := hu y hy hyx; omega
    intro y z hy hz hy1 hz1
    rw [hx' y hy hy1, hx' z hz hz1]
  · rintro ⟨⟨x, hx, hfx⟩, hu⟩
    have := sum_indicator hl hx (fun _ => 1)
    rw [← this]
    congr 1
    apply List.map_congr_left
    intro y hy
    by_cases hyx : y = x
    · subst hyx; simp [hfx]
    · rcases h01 y hy with h | h
      · simp [hyx, h]
      · exact absurd (hu y x hy hx h hfx) hyx

theorem mem_targets (edges : List Edge) (n : Nat) : n ∈ targets edges ↔ ∃ a, (a, n) ∈ edges := by
  unfold targets
  have : ∀ (edges : List Edge) (l : List Nat), n ∈ edges.foldl (fun l e => if e.2 ∈ l then l else l ++ [e.2]) l ↔
      n ∈ l ∨ ∃ a, (a, n) ∈ edges := by
    intro edges
    induction edges with
    | nil => simp
    | cons e edges ih =>
      intro l
      rw [List.foldl_cons, ih]
      obtain ⟨x, y⟩ := e
      simp only [List.mem_cons, Prod.mk.injEq]
      split
      · rename_i h
        constructor
        · rintro (h' | ⟨a, h'⟩)
          · exact .inl h'
          · exact .inr ⟨a, .inr h'⟩
        · rintro (h' | ⟨a, ⟨rfl, rfl⟩ | h'⟩)
          · exact .inl h'
          · exact .inl h
          · exact .inr ⟨a, h'⟩
      · simp only [List.mem_append, List.mem_singleton]
        constructor
        · rintro ((h' | rfl) | ⟨a, h'⟩)
          · exact .inl h'
          · exact .inr ⟨x, .inl ⟨rfl, rfl⟩⟩
          · exact .inr ⟨a, .inr h'⟩
        · rintro (h' | ⟨a, ⟨rfl, rfl⟩ | h'⟩)
          · exact .inl (.inl h')
          · exact .inl (.inr rfl)
          · exact .inr ⟨a, h'⟩
  simpa using this edges []

theorem Graph.targets_lt {m : Model} {edges : List Edge} (hg : Graph m edges) (n : Nat) :
    n ∈ targets edges ↔ n < m.nodeCount := by
  rw [mem_targets]
  constructor
  · rintro ⟨a, h⟩; exact (hg.lt _ _ h).2
  · intro h; obtain ⟨w, hw⟩ := hg.near n h; exact ⟨w, hg.sym _ _ hw⟩

/-- The rows of one node, when `flow_out` has the key. -/
def nodeRowList (m : Model) (edges : List Edge) (n : Nat) : List (Row Edge) :=
  (if n ≠ m.start ∧ n ≠ m.fin then [⟨ones (inE edges n) ++ negs (outE edges n), .eq, 0⟩] else []) ++
  (if n ≠ m.start then [⟨ones (inE edges n), .eq, 1⟩] else []) ++
  (if n = m.start then
    ⟨ones (outE edges n), .eq, 1⟩ :: (if n ≠ m.fin then [⟨ones (inE edges n), .eq, 0⟩] else []) else []) ++
  (if n = m.fin then
    ⟨ones (inE edges n), .eq, 1⟩ :: (if n ≠ m.start then [⟨ones (outE edges n), .eq, 0⟩] else []) else [])

/-- The program. -/
def prog (m : Model) (edges : List Edge) : Program Edge :=
  ⟨edges.map (fun e => (e, .binary)), pairRows edges ++ ((targets edges).map (nodeRowList m edges)).flatten,
    edges.map (fun e => (m.dist e.1 e.2, e))⟩

theorem outE_ne {m : Model} {edges : List Edge} (hg : Graph m edges) {n : Nat} (hn : n < m.nodeCount) :
    outE edges n ≠ [] := by
  obtain ⟨w, hw⟩ := hg.near n hn
  intro h
  have : (n, w) ∈ outE edges n := by simp [outE, hw]
  rw [h] at this; simp at this

theorem build_ok {m : Model} (hs : ∀ a b, m.dist a b = m.dist b a) {perm : List Nat} (hp : perm.Perm m.inner) (hne : m.inner ≠ []) :
    ∃ s, build m computeLength perm = .ok s ∧ s.perm = perm ∧ s.length = some (walk m.dist (tour m perm)).sum := by
  obtain ⟨p0, hp0⟩ := toFrom0_ok m perm (fun x hx => hp.mem_iff.1 hx)
  have hl : perm.length = m.len := hp.length_eq
  have hne' : perm ≠ [] := by intro h; subst h; exact hne (by simpa using hp.symm)
  have h := computeLength_spec hs hl hne'
  refine ⟨⟨m.start, m.fin, perm, p0, walk m.dist (m.start :: perm ++ [m.fin]), some (walk m.dist (m.start :: perm ++ [m.fin])).sum⟩, ?_, rfl, rfl⟩
  unfold build
  rw [hp0]; simp only [bind_ok]; rw [h]; rfl

theorem init_eq {m : Model} {edges : List Edge} (hg : Graph m edges) (hs : ∀ a b, m.dist a b = m.dist b a) (hne : m.inner ≠ []) :
    init m edges = .ok (prog m edges) := by
  obtain ⟨s, h, _⟩ := build_ok hs (List.Perm.refl m.inner) hne
  unfold init
  rw [h, bind_ok, mapE_ok (g := nodeRowList m edges)]
  · rfl
  · intro n hn
    unfold nodeRows
    rw [if_neg (outE_ne hg ((hg.targets_lt n).1 hn))]; rfl

theorem mem_inE {edges : List Edge} {n : Nat} {e : Edge} : e ∈ inE edges n ↔ e ∈ edges ∧ e.2 = n := by
  simp [inE]

theorem mem_outE {edges : List Edge} {n : Nat} {e : Edge} : e ∈ outE edges n ↔ e ∈ edges ∧ e.1 = n := by
  simp [outE]

theorem mem_chosen {edges : List Edge} {a : Edge → Int} {e : Edge} : e ∈ chosen edges a ↔ e ∈ edges ∧ 1 ≤ a e := by
  simp [chosen]

theorem in_one {edges : List Edge} (hn : edges.Nodup) {a : Edge → Int} (h01 : ∀ e, e ∈ edges → a e = 0 ∨ a e = 1) (n : Nat) :
    ((inE edges n).map a).sum = 1 ↔ (∃ w, (w, n) ∈ chosen edges a) ∧ ∀ w w', (w, n) ∈ chosen edges a → (w', n) ∈ chosen edges a → w = w' := by
  rw [sum_one_iff (show (inE edges n).Nodup from hn.filter _) (fun x hx => h01 x (mem_inE.1 hx).1)]
  simp only [mem_inE, mem_chosen]
  constructor
  · rintro ⟨⟨⟨w, v⟩, ⟨h1, h2⟩, h3⟩, hu⟩
    simp only at h2; subst h2
    refine ⟨⟨w, h1, by omega⟩, ?_⟩
    intro x y hx hy
    have hx1 : a (x, v) = 1 := by rcases h01 _ hx.1 with h | h <;> omega
    have hy1 : a (y, v) = 1 := by rcases h01 _ hy.1 with h | h <;> omega
    have := hu _ _ ⟨hx.1, rfl⟩ ⟨hy.1, rfl⟩ hx1 hy1
    exact congrArg Prod.fst this
  · rintro ⟨⟨w, h1, h2⟩, hu⟩
    have hx1 : a (w, n) = 1 := by rcases h01 _ h1 with h | h <;> omega
    refine ⟨⟨(w, n), ⟨h1, rfl⟩, hx1⟩, ?_⟩
    rintro ⟨x, v⟩ ⟨y, v'⟩ ⟨hx, hx'⟩ ⟨hy, hy'⟩ hx1 hy1
    simp only at hx' hy'; subst hx'; subst hy'
    have := hu x y ⟨hx, by omega⟩ ⟨hy, by omega⟩
    rw [this]

theorem out_one {edges : List Edge} (hn : edges.Nodup) {a : Edge → Int} (h01 : ∀ e, e ∈ edges → a e = 0 ∨ a e = 1) (n : Nat) :
    ((outE edges n).map a).sum = 1 ↔ (∃ w, (n, w) ∈ chosen edges a) ∧ ∀ w w', (n, w) ∈ chosen edges a → (n, w') ∈ chosen edges a → w = w' := by
  rw [sum_one_iff (show (outE edges n).Nodup from hn.filter _) (fun x hx => h01 x (mem_outE.1 hx).1)]
  simp only [mem_outE, mem_chosen]
  constructor
  · rintro ⟨⟨⟨v, w⟩, ⟨h1, h2⟩, h3⟩, hu⟩
    simp only at h2; subst h2
    refine ⟨⟨w, h1, by omega⟩, ?_⟩
    intro x y hx hy
    have hx1 : a (v, x) = 1 := by rcases h01 _ hx.1 with h | h <;> omega
    have hy1 : a (v, y) = 1 := by rcases h01 _ hy.1 with h | h <;> omega
    have := hu _ _ ⟨hx.1, rfl⟩ ⟨hy.1, rfl⟩ hx1 hy1
    exact congrArg Prod.snd this
  · rintro ⟨⟨w, h1, h2⟩, hu⟩
    have hx1 : a (n, w) = 1 := by rcases h01 _ h1 with h | h <;> omega
    refine ⟨⟨(n, w), ⟨h1, rfl⟩, hx1⟩, ?_⟩
    rintro ⟨v, x⟩ ⟨v', y⟩ ⟨hx, hx'⟩ ⟨hy, hy'⟩ hx1 hy1
    simp only at hx' hy'; subst hx'; subst hy'
    have := hu x y ⟨hx, by omega⟩ ⟨hy, by omega⟩
    rw [this]

theorem in_zero {edges : List Edge} {a : Edge → Int} (h01 : ∀ e, e ∈ edges → a e = 0 ∨ a e = 1) (n : Nat) :
    ((inE edges n).map a).sum = 0 ↔ ∀ w, (w, n) ∉ chosen edges a := by
  rw [sum_zero_iff (fun x hx => h01 x (mem_inE.1 hx).1)]
  simp only [mem_inE, mem_chosen]
  constructor
  · intro h w hw
    have hx1 : a (w, n) = 1 := by rcases h01 _ hw.1 with h | h <;> omega
    exact h (w, n) ⟨hw.1, rfl⟩ hx1
  · rintro h ⟨w, v⟩ ⟨h1, h2⟩ h3
    simp only at h2; subst h2
    exact h w ⟨h1, by omega⟩

theorem out_zero {edges : List Edge} {a : Edge → Int} (h01 : ∀ e, e ∈ edges → a e = 0 ∨ a e = 1) (n : Nat) :
    ((outE edges n).map a).sum = 0 ↔ ∀ w, (n, w) ∉ chosen edges a := by
  rw [sum_zero_iff (fun x hx => h01 x (mem_outE.1 hx).1)]
  simp only [mem_outE, mem_chosen]
  constructor
  · intro h w hw
    have hx1 : a (n, w) = 1 := by rcases h01 _ hw.1 with h | h <;> omega
    exact h (n, w) ⟨hw.1, rfl⟩ hx1
  · rintro h ⟨v, w⟩ ⟨h1, h2⟩ h3
    simp only at h2; subst h2
    exact h w ⟨h1, by omega⟩

/-- The conditions of the rows of one node. -/
theorem nodeRowList_holds (m : Model) (edges : List Edge) (n : Nat) (a : Edge → Int) :
    (∀ r, r ∈ nodeRowList m edges n → r.Holds a) ↔
      ((n ≠ m.start ∨ m.start = m.fin → ((inE edges n).map a).sum = 1) ∧
       (n ≠ m.fin ∨ m.start = m.fin → ((outE edges n).map a).sum = 1) ∧
       (n = m.start → m.start ≠ m.fin → ((inE edges n).map a).sum = 0) ∧
       (n = m.fin → m.start ≠ m.fin → ((outE edges n).map a).sum = 0)) := by
  have hI : ∀ c : Int, Row.Holds ⟨ones (inE edges n), .eq, c⟩ a ↔ ((inE edges n).map a).sum = c := by
    intro c; simp only [Row.Holds]; rw [value_ones]
  have hO : ∀ c : Int, Row.Holds ⟨ones (outE edges n), .eq, c⟩ a ↔ ((outE edges n).map a).sum = c := by
    intro c; simp only [Row.Holds]; rw [value_ones]
  have hB : Row.Holds ⟨ones (inE edges n) ++ negs (outE edges n), .eq, 0⟩ a ↔
      ((inE edges n).map a).sum = ((outE edges n).map a).sum := by
    simp only [Row.Holds]; rw [value_append, value_ones, value_negs]; omega
  unfold nodeRowList
  by_cases h1 : n = m.start <;> by_cases h2 : n = m.fin
  · have h3 : m.start = m.fin := h1.symm.trans h2
    simp only [h3, h2, ne_eq, not_true_eq_false, if_false, if_true, false_and, List.nil_append, List.mem_append, List.mem_cons,
      List.not_mem_nil, or_false]
    rw [← h2]
    constructor
    · intro h
      have a1 := (hO 1).1 (h _ (.inl rfl))
      have a2 := (hI 1).1 (h _ (.inr rfl))
      exact ⟨fun _ => a2, fun _ => a1, fun _ h => h.elim, fun _ h => h.elim⟩
    · rintro ⟨a2, a1, _⟩ r (rfl | rfl)
      · exact (hO 1).2 (a1 (.inr trivial))
      · exact (hI 1).2 (a2 (.inr trivial))
  · have h3 : m.start ≠ m.fin := fun h => h2 (h1.trans h)
    subst h1
    simp only [h3, ne_eq, not_true_eq_false, not_false_eq_true, if_false, if_true, false_and, List.nil_append, List.append_nil, List.mem_cons,
      List.not_mem_nil, or_false]
    constructor
    · intro h
      have a1 := (hO 1).1 (h _ (.inl rfl))
      have a2 := (hI 0).1 (h _ (.inr rfl))
      exact ⟨fun h => absurd h (by simp), fun _ => a1, fun _ _ => a2, fun h => h.elim⟩
    · rintro ⟨_, a1, a2, _⟩ r (rfl | rfl)
      · exact (hO 1).2 (a1 (by simp))
      · exact (hI 0).2 (a2 trivial trivial)
  · have h3 : m.start ≠ m.fin := fun h => h1 (h2.trans h.symm)
    subst h2
    simp only [h1, h3, ne_eq, not_true_eq_false, not_false_eq_true, if_false, if_true, and_false, List.nil_append, List.append_nil,
      List.mem_append, List.mem_cons, List.not_mem_nil, or_false]
    constructor
    · intro h
      have a1 := (hI 1).1 (h _ (.inl rfl))
      have a2 := (hO 0).1 (h _ (.inr (.inr rfl)))
      exact ⟨fun _ => a1, fun h => absurd h (by simp), fun h => h.elim, fun _ _ => a2⟩
    · rintro ⟨a1, _, _, a2⟩ r (rfl | rfl | rfl)
      · exact (hI 1).2 (a1 (by simp))
      · exact (hI 1).2 (a1 (by simp))
      · exact (hO 0).2 (a2 trivial trivial)
  · simp only [h1, h2, ne_eq, not_false_eq_true, and_self, if_false, if_true, List.append_nil,
      List.mem_append, List.mem_cons, List.not_mem_nil, or_false]
    constructor
    · intro h
      have a1 := (hI 1).1 (h _ (.inr rfl))
      have a2 := hB.1 (h _ (.inl rfl))
      exact ⟨fun _ => a1, fun _ => by omega, fun h => h.elim, fun h => h.elim⟩
    · rintro ⟨a1, a2, _, _⟩ r (rfl | rfl)
      · have b1 := a1 (.inl trivial)
        have b2 := a2 (.inl trivial)
        exact hB.2 (by omega)
      · exact (hI 1).2 (a1 (by simp))

/-- The program allows exactly the flows. -/
theorem feasible_iff {m : Model} {edges : List Edge} (hg : Graph m edges) (a : Edge → Int) :
    (prog m edges).Feasible a ↔ (∀ e, e ∈ edges → a e = 0 ∨ a e = 1) ∧ Flow m (chosen edges a) := by
  have hvars : (∀ v k, (v, k) ∈ (prog m edges).vars → Kind.Allows k (a v)) ↔ ∀ e, e ∈ edges → a e = 0 ∨ a e = 1 := by
    constructor
    · intro h e he
      exact h e .binary (List.mem_map.2 ⟨e, he, rfl⟩)
    · intro h v k hv
      obtain ⟨e, he, h'⟩ := List.mem_map.1 hv
      cases h'
      exact h v he
  unfold Program.Feasible
  rw [hvars]
  apply and_congr_right
  intro h01
  have hrows : (∀ r, r ∈ (prog m edges).rows → r.Holds a) ↔
      (∀ r, r ∈ pairRows edges → r.Holds a) ∧ ∀ n, n < m.nodeCount → ∀ r, r ∈ nodeRowList m edges n → r.Holds a := by
    show (∀ r, r ∈ pairRows edges ++ ((targets edges).map (nodeRowList m edges)).flatten → r.Holds a) ↔ _
    constructor
    · intro h
      refine ⟨fun r hr => h r (List.mem_append_left _ hr), fun n hn r hr => h r (List.mem_append_right _ ?_)⟩
      exact List.mem_flatten.2 ⟨_, List.mem_map.2 ⟨n, (hg.targets_lt n).2 hn, rfl⟩, hr⟩
    · rintro ⟨h1, h2⟩ r hr
      rcases List.mem_append.1 hr with hr | hr
      · exact h1 r hr
      · obtain ⟨l, hl, hr⟩ := List.mem_flatten.1 hr
        obtain ⟨n, hn, rfl⟩ := List.mem_map.1 hl
        exact h2 n ((hg.targets_lt n).1 hn) r hr
  have hpair : (∀ r, r ∈ pairRows edges → r.Holds a) ↔ ∀ x y, (x, y) ∈ chosen edges a → (y, x) ∉ chosen edges a := by
    unfold pairRows
    constructor
    · intro h x y hxy hyx
      rw [mem_chosen] at hxy hyx
      have := h ⟨[(1, (x, y)), (1, (y, x))], .le, 1⟩ (List.mem_map.2 ⟨(x, y), by simp [hxy.1, hyx.1], rfl⟩)
      simp only [Row.Holds, value_cons, value_nil] at this
      omega
    · intro h r hr
      obtain ⟨⟨x, y⟩, he, rfl⟩ := List.mem_map.1 hr
      simp only [List.mem_filter, decide_eq_true_eq] at he
      have := h x y
      rw [mem_chosen, mem_chosen] at this
      simp only [Row.Holds, value_cons, value_nil]
      have b1 := h01 _ he.1
      have b2 := h01 _ he.2
      by_cases hc : 1 ≤ a (x, y)
      · have : ¬ 1 ≤ a (y, x) := fun hc' => this ⟨he.1, hc⟩ ⟨he.2, hc'⟩
        omega
      · omega
  rw [hrows, hpair]
  simp only [nodeRowList_holds, in_one hg.nodup h01, out_one hg.nodup h01, in_zero h01, out_zero h01]
  constructor
  · rintro ⟨hp, h⟩
    have hlt : ∀ x y, (x, y) ∈ chosen edges a → x < m.nodeCount ∧ y < m.nodeCount :=
      fun x y hxy => hg.lt x y (mem_chosen.1 hxy).1
    refine ⟨hlt, fun v hv hc => ((h v hv).2.1 hc).1, ?_, fun hne => (h _ hg.fin_lt).2.2.2 rfl hne,
      fun v hv hc => ((h v hv).1 hc).1, ?_, fun hne => (h _ hg.start_lt).2.2.1 rfl hne, hp⟩
    · intro v w w' h1 h2
      by_cases hc : v ≠ m.fin ∨ m.start = m.fin
      · exact ((h v (hlt _ _ h1).1).2.1 hc).2 w w' h1 h2
      · have hv : v = m.fin := Classical.not_not.1 (fun h => hc (.inl h))
        subst hv
        exact absurd h1 ((h _ hg.fin_lt).2.2.2 rfl (fun h => hc (.inr h)) w)
    · intro v w w' h1 h2
      by_cases hc : v ≠ m.start ∨ m.start = m.fin
      · exact ((h v (hlt _ _ h1).2).1 hc).2 w w' h1 h2
      · have hv : v = m.start := Classical.not_not.1 (fun h => hc (.inl h))
        subst hv
        exact absurd h1 ((h _ hg.start_lt).2.2.1 rfl (fun h => hc (.inr h)) w)
  · intro hf
    refine ⟨hf.pair, fun n hn => ⟨fun hc => ⟨hf.inn n hn hc, fun w w' => hf.inn1 n w w'⟩,
      fun hc => ⟨hf.out n hn hc, fun w w' => hf.out1 n w w'⟩, ?_, ?_⟩⟩
    · rintro rfl hne; exact hf.inn0 hne
    · rintro rfl hne; exact hf.out0 hne

end Verif.TspLp
