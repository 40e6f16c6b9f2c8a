import Verif.Lemmas.TspLpCycle
/- Helper lemmas: joining the paths of the components into one tour. -/
namespace Verif.TspLp
open Verif.Milp Verif.Tsp

theorem mapE_exists {α β : Type} {f : α → Except PyErr β} {l : List α} (h : ∀ x, x ∈ l → ∃ y, f x = .ok y) :
    ∃ ys, mapE f l = .ok ys ∧ ys.length = l.length ∧ ∀ (i : Nat) (x : α), l[i]? = some x → ∃ y, ys[i]? = some y ∧ f x = .ok y := by
  induction l with
  | nil => exact ⟨[], rfl, rfl, by simp⟩
  | cons a l ih =>
    obtain ⟨y, hy⟩ := h a (by simp)
    obtain ⟨ys, h1, h2, h3⟩ := ih (fun x hx => h x (by simp [hx]))
    refine ⟨y :: ys, by simp [mapE, hy, h1], by simp [h2], ?_⟩
    intro i x hi
    cases i with
    | zero => simp at hi; subst hi; exact ⟨y, rfl, hy⟩
    | succ i => simpa using h3 i x (by simpa using hi)

theorem foldl_nodes_mem (l : List Nat) (c : Nat) : ∀ (d : Dict Nat Nat) (v x : Nat),
    (l.foldl (fun (d : Dict Nat Nat) v => d.set v c) d).get? v = some x → (v ∈ l ∧ x = c) ∨ d.get? v = some x := by
  induction l with
  | nil => intro d v x h; exact .inr h
  | cons a l ih =>
    intro d v x h
    rw [List.foldl_cons] at h
    rcases ih _ _ _ h with ⟨h1, h2⟩ | h1
    · exact .inl ⟨by simp [h1], h2⟩
    · rw [Dict.get?_set] at h1
      split at h1
      · cases h1; rename_i hx; exact .inl ⟨by simp [hx], rfl⟩
      · exact .inr h1

theorem foldl_nodes_some (l : List Nat) (c : Nat) : ∀ (d : Dict Nat Nat) (v : Nat),
    (v ∈ l ∨ (d.get? v).isSome) → ((l.foldl (fun (d : Dict Nat Nat) v => d.set v c) d).get? v).isSome := by
  induction l with
  | nil => intro d v h; simpa using h
  | cons a l ih =>
    intro d v h
    rw [List.foldl_cons]
    apply ih
    rcases h with h | h
    · rcases List.mem_cons.1 h with rfl | h
      · right; rw [Dict.get?_set, if_pos rfl]; rfl
      · exact .inl h
    · right; rw [Dict.get?_set]; split
      · rfl
      · exact h

theorem foldl_comp_mem {β : Type} (r : List (List Nat × β)) : ∀ (k : Nat) (d : Dict Nat Nat) (v c : Nat),
    ((r.zipIdx k).foldl (fun (d : Dict Nat Nat) x => x.1.1.foldl (fun (d : Dict Nat Nat) v => d.set v x.2) d) d).get? v = some c →
    (∃ i x, r[i]? = some x ∧ v ∈ x.1 ∧ c = k + i) ∨ d.get? v = some c := by
  induction r with
  | nil => intro k d v c h; exact .inr h
  | cons a r ih =>
    intro k d v c h
    rw [List.zipIdx_cons, List.foldl_cons] at h
    rcases ih _ _ _ _ h with ⟨i, x, h1, h2, h3⟩ | h1
    · exact .inl ⟨i + 1, x, by simpa using h1, h2, by omega⟩
    · rcases foldl_nodes_mem _ _ _ _ _ h1 with ⟨h2, h3⟩ | h2
      · exact .inl ⟨0, a, rfl, h2, by omega⟩
      · exact .inr h2

theorem foldl_comp_some {β : Type} (r : List (List Nat × β)) : ∀ (k : Nat) (d : Dict Nat Nat) (v : Nat),
    ((∃ x, x ∈ r ∧ v ∈ x.1) ∨ (d.get? v).isSome) →
    (((r.zipIdx k).foldl (fun (d : Dict Nat Nat) x => x.1.1.foldl (fun (d : Dict Nat Nat) v => d.set v x.2) d) d).get? v).isSome := by
  induction r with
  | nil => intro k d v h; simpa using h
  | cons a r ih =>
    intro k d v h
    rw [List.zipIdx_cons, List.foldl_cons]
    apply ih
    rcases h with ⟨x, hx, hv⟩ | h
    · rcases List.mem_cons.1 hx with rfl | hx
      · exact .inr (foldl_nodes_some _ _ _ _ (.inl hv))
      · exact .inl ⟨x, hx, hv⟩
    · exact .inr (foldl_nodes_some _ _ _ _ (.inr h))

theorem positions_mem {path : List Nat} {v i : Nat} (h : (positions path).get? v = some i) : path[i]? = some v := by
  have : ∀ (l : List Nat) (k : Nat) (d : Dict Nat Nat),
      ((l.zipIdx k).foldl (fun (d : Dict Nat Nat) (x : Nat × Nat) => d.set x.1 x.2) d).get? v = some i →
      (∃ j, l[j]? = some v ∧ i = k + j) ∨ d.get? v = some i := by
    intro l
    induction l with
    | nil => intro k d h; exact .inr h
    | cons a l ih =>
      intro k d h
      rw [List.zipIdx_cons, List.foldl_cons] at h
      rcases ih _ _ h with ⟨j, h1, h2⟩ | h1
      · exact .inl ⟨j + 1, by simpa using h1, by omega⟩
      · rw [Dict.get?_set] at h1
        split at h1
        · rename_i hx
          cases h1; exact .inl ⟨0, by simp [hx], rfl⟩
        · exact .inr h1
  rcases this path 0 [] h with ⟨j, h1, h2⟩ | h1
  · rw [h2, Nat.zero_add]; exact h1
  · simp [Dict.get?] at h1

theorem positions_some {path : List Nat} {v : Nat} (h : v ∈ path) : ∃ i, (positions path).get? v = some i ∧ path[i]? = some v := by
  have : ∀ (l : List Nat) (k : Nat) (d : Dict Nat Nat), (v ∈ l ∨ (d.get? v).isSome) →
      (((l.zipIdx k).foldl (fun (d : Dict Nat Nat) (x : Nat × Nat) => d.set x.1 x.2) d).get? v).isSome := by
    intro l
    induction l with
    | nil => intro k d h; simpa using h
    | cons a l ih =>
      intro k d h
      rw [List.zipIdx_cons, List.foldl_cons]
      apply ih
      rcases h with h | h
      · rcases List.mem_cons.1 h with rfl | h
        · right; rw [Dict.get?_set, if_pos rfl]; rfl
        · exact .inl h
      · right; rw [Dict.get?_set]; split
        · rfl
        · exact h
  obtain ⟨i, hi⟩ := Option.isSome_iff_exists.1 (this path 0 [] (.inl h))
  exact ⟨i, hi, positions_mem hi⟩

/-- What the join needs to know of the paths. -/
structure Ready (m : Model) (ps : Parts) (comps : List (List Nat)) : Prop where
  paths : ∀ (c : Nat) (s : List Nat), comps[c]? = some s → m.start ∉ s → ∃ pc idx, ps.paths[c]? = some pc ∧ ps.indexes[c]? = some idx ∧
    pc.Nodup ∧ (∀ v, v ∈ pc ↔ v ∈ s) ∧ ∀ (i v : Nat), pc[i]? = some v → Dict.get? idx v = some i
  comp : ∀ v c : Nat, ps.comp.get? v = some c ↔ ∃ s : List Nat, comps[c]? = some s ∧ v ∈ s
  cover : ∀ v, v < m.nodeCount → ∃ (c : Nat) (s : List Nat), comps[c]? = some s ∧ v ∈ s
  lt : ∀ (c : Nat) (s : List Nat) (v : Nat), comps[c]? = some s → v ∈ s → v < m.nodeCount
  disj : ∀ (c c' : Nat) (s s' : List Nat) (v : Nat), comps[c]? = some s → comps[c']? = some s' → v ∈ s → v ∈ s' → c = c'
  ends : ∀ (c : Nat) (s : List Nat), comps[c]? = some s → (m.start ∈ s ↔ m.fin ∈ s)
  ne : ∀ (c : Nat) (s : List Nat), comps[c]? = some s → ∃ v, v ∈ s

/-- The path of the start's component. -/
structure StartPath (m : Model) (sel : List Edge) (ps : Parts) (comps : List (List Nat)) (cs : Nat) (q : List Nat) : Prop where
  comp : ps.comp.get? m.start = some cs
  path : ps.paths[cs]? = some (m.start :: q ++ [m.fin])
  nodup : (m.start :: q).Nodup
  fin : m.fin ∉ q
  legs : ∀ e, e ∈ legs (m.start :: q ++ [m.fin]) → e ∈ sel
  mem : ∀ s : List Nat, comps[cs]? = some s → ∀ v, v ∈ s ↔ v = m.start ∨ v ∈ q ∨ v = m.fin

theorem parts_spec {m : Model} {sel : List Edge} (hf : Flow m sel) (hst : m.start < m.nodeCount) {comps : List (List Nat)}
    (hc : Components m.nodeCount sel comps) :
    ∃ ps cs q, parts m sel comps = .ok ps ∧ Ready m ps comps ∧ StartPath m sel ps comps cs q ∧ cs < comps.length := by
  obtain ⟨hcov, hpw, hall⟩ := hc
  have hcomp : ∀ s, s ∈ comps → IsComp m sel s := fun s hs => ⟨(hall s hs).1, (hall s hs).2.1, (hall s hs).2.2.1, (hall s hs).2.2.2.1, (hall s hs).2.2.2.2⟩
  have hmem : ∀ (c : Nat) (s : List Nat), comps[c]? = some s → s ∈ comps := fun c s h => List.mem_iff_getElem?.2 ⟨c, h⟩
  have hdisj : ∀ (c c' : Nat) (s s' : List Nat) (v : Nat), comps[c]? = some s → comps[c']? = some s' → v ∈ s → v ∈ s' → c = c' := by
    intro c c' s s' v h h' hv hv'
    obtain ⟨a1, a2⟩ := List.getElem?_eq_some_iff.1 h
    obtain ⟨b1, b2⟩ := List.getElem?_eq_some_iff.1 h'
    rcases Nat.lt_trichotomy c c' with hlt | heq | hlt
    · have := List.pairwise_iff_getElem.1 hpw c c' a1 b1 hlt
      rw [a2, b2] at this
      exact absurd hv' (this v hv)
    · exact heq
    · have := List.pairwise_iff_getElem.1 hpw c' c b1 a1 hlt
      rw [a2, b2] at this
      exact absurd hv (this v hv')
  obtain ⟨r, hr, hlen, hri⟩ := mapE_exists (f := fun s => cycle sel s m.start m.fin) (l := comps) (by
    intro s hs
    by_cases h : m.start ∈ s
    · obtain ⟨q, idx, h1, _⟩ := cycle_start hf (hcomp s hs) h; exact ⟨_, h1⟩
    · obtain ⟨q, idx, h1, _⟩ := cycle_other hf (hcomp s hs) h; exact ⟨_, h1⟩)
  have hnodes : ∀ (c : Nat) (s : List Nat) (y : List Nat × Dict Nat Nat), comps[c]? = some s → r[c]? = some y → ∀ v, v ∈ y.1 ↔ v ∈ s := by
    intro c s y hcs hy v
    obtain ⟨y', hy', hcyc⟩ := hri c s hcs
    rw [hy] at hy'; cases hy'
    by_cases h : m.start ∈ s
    · obtain ⟨q, idx, h1, _, _, _, h2⟩ := cycle_start hf (hcomp s (hmem c s hcs)) h
      rw [h1] at hcyc; cases hcyc
      rw [h2]; simp
    · obtain ⟨q, idx, h1, _, h2, _⟩ := cycle_other hf (hcomp s (hmem c s hcs)) h
      rw [h1] at hcyc; cases hcyc
      exact h2 v
  let comp : Dict Nat Nat := r.zipIdx.foldl (fun (d : Dict Nat Nat) x => x.1.1.foldl (fun (d : Dict Nat Nat) v => d.set v x.2) d) []
  have hcompd : ∀ v c : Nat, comp.get? v = some c ↔ ∃ s : List Nat, comps[c]? = some s ∧ v ∈ s := by
    have hdir : ∀ v c : Nat, comp.get? v = some c → ∃ s : List Nat, comps[c]? = some s ∧ v ∈ s := by
      intro v c h
      rcases foldl_comp_mem r 0 [] v c h with ⟨i, x, h1, h2, h3⟩ | h1
      · rw [Nat.zero_add] at h3; subst h3
        have hlt := (List.getElem?_eq_some_iff.1 h1).1
        have hs : comps[c]? = some (comps[c]'(by omega)) := List.getElem?_eq_getElem (by omega)
        exact ⟨_, hs, (hnodes c _ x hs h1 v).1 h2⟩
      · simp [Dict.get?] at h1
    intro v c
    constructor
    · exact hdir v c
    · rintro ⟨s, h1, h2⟩
      obtain ⟨y, hy, _⟩ := hri c s h1
      have hsome := foldl_comp_some r 0 [] v (.inl ⟨y, List.mem_iff_getElem?.2 ⟨c, hy⟩, (hnodes c s y h1 hy v).2 h2⟩)
      obtain ⟨c', hc'⟩ := Option.isSome_iff_exists.1 hsome
      obtain ⟨s', h1', h2'⟩ := hdir v c' hc'
      have := hdisj c c' s s' v h1 h1' h2 h2'
      subst this
      exact hc'
  obtain ⟨s0, hs0, hst0⟩ := hcov m.start hst
  obtain ⟨cs, hcs⟩ := List.mem_iff_getElem?.1 hs0
  obtain ⟨q, idx, h1, h2, h3, h4, h5⟩ := cycle_start hf (hcomp s0 hs0) hst0
  obtain ⟨y, hy, hcyc⟩ := hri cs s0 hcs
  rw [h1] at hcyc; cases hcyc
  refine ⟨⟨r.map (·.1), r.map (·.2), comp⟩, cs, q, ?_, ⟨?_, hcompd, ?_, ?_, hdisj, ?_, ?_⟩, ⟨?_, ?_, h2, h3, h4, ?_⟩, (List.getElem?_eq_some_iff.1 hcs).1⟩
  · unfold parts; rw [hr]; rfl
  · intro c s hcs hns
    obtain ⟨y, hy, hcyc⟩ := hri c s hcs
    obtain ⟨p, idx, h1, h2, h3, h4⟩ := cycle_other hf (hcomp s (hmem c s hcs)) hns
    rw [h1] at hcyc; cases hcyc
    exact ⟨p, idx, by simp [hy], by simp [hy], h2, h3, h4⟩
  · intro v hv
    obtain ⟨s, hs, hvs⟩ := hcov v hv
    obtain ⟨c, hc⟩ := List.mem_iff_getElem?.1 hs
    exact ⟨c, s, hc, hvs⟩
  · intro c s v hcs hv; exact (hcomp s (hmem c s hcs)).lt v hv
  · intro c s hcs
    have := hcomp s (hmem c s hcs)
    exact closed_ends hf this.nodup this.lt this.closed
  · intro c s hcs
    exact List.exists_mem_of_ne_nil s (hcomp s (hmem c s hcs)).ne
  · exact (hcompd _ _).2 ⟨s0, hcs, hst0⟩
  · simp [hy]
  · intro s hs v
    rw [hcs] at hs; cases hs
    exact h5 v

/-! ### The backward reading -/

theorem backwards_eq {pc : List Nat} {k : Nat} (hk : k < pc.length) :
    backwards pc k = .ok ((pc.take (k + 1)).reverse ++ (pc.drop (k + 1)).reverse) := by
  have hidx : ∀ j, j < pc.length → (((k : Int) - (j : Int)) % (pc.length : Int)).toNat = if j ≤ k then k - j else k + pc.length - j := by
    intro j hj
    split
    · rw [Int.emod_eq_of_lt (by omega) (by omega)]; omega
    · have : ((k : Int) - j) % (pc.length : Int) = ((k : Int) - j + pc.length) % (pc.length : Int) := by rw [Int.add_emod_right]
      rw [this, Int.emod_eq_of_lt (by omega) (by omega)]; omega
  unfold backwards
  rw [mapE_ok (g := fun (j : Nat) => ((pc.take (k + 1)).reverse ++ (pc.drop (k + 1)).reverse).getD j 0)]
  · congr 1
    apply List.ext_getElem?
    intro i
    rw [List.getElem?_map]
    by_cases hi : i < pc.length
    · rw [List.getElem?_range hi]
      have hl : i < ((pc.take (k + 1)).reverse ++ (pc.drop (k + 1)).reverse).length := by simp; omega
      simp only [Option.map_some, List.getD_eq_getElem?_getD]
      rw [List.getElem?_eq_getElem hl]; rfl
    · rw [List.getElem?_eq_none (by simp; omega), List.getElem?_eq_none (by simp; omega)]; rfl
  · intro j hj
    rw [List.mem_range] at hj
    rw [pyGet_ok_iff, hidx j hj, List.getD_eq_getElem?_getD]
    by_cases hjk : j ≤ k
    · rw [if_pos hjk, List.getElem?_append_left (by simp; omega), List.getElem?_reverse (by simp; omega), List.getElem?_take]
      have e : (List.take (k + 1) pc).length - 1 - j = k - j := by simp; omega
      rw [e, if_pos (by omega), List.getElem?_eq_getElem (by omega)]; rfl
    · rw [if_neg hjk, List.getElem?_append_right (by simp; omega), List.getElem?_reverse (by simp; omega), List.getElem?_drop]
      have e : k + 1 + ((List.drop (k + 1) pc).length - 1 - (j - (List.take (k + 1) pc).reverse.length)) = k + pc.length - j := by
        simp; omega
      rw [e, List.getElem?_eq_getElem (by omega)]; rfl

theorem backwards_perm (pc : List Nat) (k : Nat) : ((pc.take (k + 1)).reverse ++ (pc.drop (k + 1)).reverse).Perm pc := by
  have h := ((List.reverse_perm (pc.take (k + 1))).append (List.reverse_perm (pc.drop (k + 1))))
  rwa [List.take_append_drop] at h

theorem backwards_head {pc : List Nat} {k x : Nat} (hk : pc[k]? = some x) :
    ((pc.take (k + 1)).reverse ++ (pc.drop (k + 1)).reverse).head? = some x := by
  have hlt := (List.getElem?_eq_some_iff.1 hk).1
  rw [List.head?_append, List.head?_reverse, List.getLast?_eq_getElem?, List.getElem?_take]
  have : (List.take (k + 1) pc).length - 1 = k := by simp; omega
  rw [this, if_pos (by omega), hk]; rfl

theorem backwards_last {pc : List Nat} {k y : Nat} (hy : pc[if k + 1 ≥ pc.length then 0 else k + 1]? = some y) :
    ((pc.take (k + 1)).reverse ++ (pc.drop (k + 1)).reverse).getLast? = some y := by
  rw [List.getLast?_append, List.getLast?_reverse, List.getLast?_reverse]
  by_cases h : k + 1 ≥ pc.length
  · rw [if_pos h] at hy
    rw [List.drop_eq_nil_of_le (by omega), List.take_of_length_le (by omega), List.head?_eq_getElem? (l := pc), hy]; rfl
  · rw [if_neg h] at hy
    rw [List.head?_drop, hy]; rfl

theorem legs_mem_append {A B : List Nat} {x y : Nat} (h : (x, y) ∈ legs (A ++ B)) :
    (x, y) ∈ legs A ∨ (x, y) ∈ legs B ∨ (A.getLast? = some x ∧ B.head? = some y) := by
  obtain ⟨i, hi, hi'⟩ := mem_legs.1 h
  by_cases h1 : i + 1 < A.length
  · left
    rw [List.getElem?_append_left (by omega)] at hi
    rw [List.getElem?_append_left h1] at hi'
    exact mem_legs.2 ⟨i, hi, hi'⟩
  · by_cases h2 : i < A.length
    · right; right
      rw [List.getElem?_append_left h2] at hi
      rw [List.getElem?_append_right (by omega)] at hi'
      refine ⟨?_, ?_⟩
      · rw [List.getLast?_eq_getElem?, show A.length - 1 = i by omega, hi]
      · rw [List.head?_eq_getElem?, ← hi']; congr 1; omega
    · right; left
      rw [List.getElem?_append_right (by omega)] at hi hi'
      exact mem_legs.2 ⟨i - A.length, hi, by rw [← hi']; congr 1; omega⟩

theorem legs_left {A B : List Nat} {e : Edge} (h : e ∈ legs A) : e ∈ legs (A ++ B) := by
  obtain ⟨x, y⟩ := e
  obtain ⟨i, hi, hi'⟩ := mem_legs.1 h
  have := (List.getElem?_eq_some_iff.1 hi').1
  exact mem_legs.2 ⟨i, by rw [List.getElem?_append_left (by omega), hi], by rw [List.getElem?_append_left this, hi']⟩

theorem legs_right {A B : List Nat} {e : Edge} (h : e ∈ legs B) : e ∈ legs (A ++ B) := by
  obtain ⟨x, y⟩ := e
  obtain ⟨i, hi, hi'⟩ := mem_legs.1 h
  refine mem_legs.2 ⟨A.length + i, ?_, ?_⟩
  · rw [List.getElem?_append_right (by omega), ← hi]; congr 1; omega
  · rw [List.getElem?_append_right (by omega), ← hi']; congr 1; omega

theorem mem_addEdge {g : List Edge} {e x : Edge} : x ∈ addEdge g e ↔ x ∈ g ∨ x = e := by
  unfold addEdge
  split
  · rename_i h
    constructor
    · exact .inl
    · rintro (h' | rfl)
      · exact h'
      · exact h
  · simp

theorem mem_addEdges (l : List Edge) : ∀ (g : List Edge) (x : Edge), x ∈ l.foldl addEdge g ↔ x ∈ g ∨ x ∈ l := by
  induction l with
  | nil => simp
  | cons e l ih => intro g x; rw [List.foldl_cons, ih, mem_addEdge, List.mem_cons, or_assoc]

/-! ### The scan -/

/-- A candidate the scan may give. -/
structure Valid (m : Model) (ps : Parts) (comps : List (List Nat)) (edges : List Edge) (path joined : List Nat) (c : Cand) : Prop where
  comp : ∃ s : List Nat, comps[c.comp]? = some s ∧ c.out.2 ∈ s ∧ m.start ∉ s
  fresh : c.comp ∉ joined
  edge : c.out ∈ edges
  pos : path[c.index]? = some c.out.1
  next : path[c.index + 1]? = some c.inn.2
  back : ∀ (pc : List Nat) (k : Nat), ps.paths[c.comp]? = some pc → pc[k]? = some c.out.2 → pc.Nodup → pc[if k + 1 ≥ pc.length then 0 else k + 1]? = some c.inn.1

/-- The state of the join. -/
structure Joined (m : Model) (comps : List (List Nat)) (edges g : List Edge) (path joined : List Nat) (cs : Nat) (q : List Nat) : Prop where
  shape : path = m.start :: q ++ [m.fin]
  nodup : (m.start :: q).Nodup
  fin : m.fin ∉ q
  mem : ∀ v, v ∈ path ↔ ∃ (c : Nat) (s : List Nat), c ∈ joined ∧ comps[c]? = some s ∧ v ∈ s
  joined_nodup : joined.Nodup
  joined_lt : ∀ c, c ∈ joined → c < comps.length
  here : cs ∈ joined
  start : ∃ s : List Nat, comps[cs]? = some s ∧ m.start ∈ s
  edges : ∀ e, e ∈ edges → e ∈ g
  legs : ∀ e, e ∈ legs path → e ∈ g
  ne : m.start = m.fin → q ≠ []

theorem scan_spec {m : Model} {ps : Parts} {comps : List (List Nat)} {edges g : List Edge} {path joined q : List Nat} {cs : Nat}
    (hg : Graph m edges) (hr : Ready m ps comps) (hj : Joined m comps edges g path joined cs q) (count : Nat) {e : Edge}
    (he : e ∈ edges) (he1 : e.1 ∈ path) (he2 : e.2 ∉ path) {b : Option Cand × Option Cand}
    (hb1 : ∀ c, b.1 = some c → Valid m ps comps edges path joined c ∧ c.inn ∈ edges)
    (hb2 : ∀ c, b.2 = some c → Valid m ps comps edges path joined c) :
    ∃ b', scan m ps g edges count cs joined.length path b e = .ok b' ∧
      (∀ c, b'.1 = some c → Valid m ps comps edges path joined c ∧ c.inn ∈ edges) ∧
      (∀ c, b'.2 = some c → Valid m ps comps edges path joined c) ∧
      (e.1 ≠ m.fin → b'.1.isSome ∨ b'.2.isSome) ∧ (b.1.isSome → b'.1.isSome) ∧ (b.2.isSome → b'.2.isSome) := by
  obtain ⟨i, hi, hpi⟩ := positions_some he1
  have hil := (List.getElem?_eq_some_iff.1 hpi).1
  unfold scan
  rw [(Dict.get_ok_iff ..).2 hi, bind_ok]
  by_cases hlast : i = path.length - 1
  · rw [if_pos hlast]
    refine ⟨b, rfl, hb1, hb2, ?_, id, id⟩
    intro hne
    exfalso
    rw [hlast, hj.shape] at hpi
    have : (m.start :: q ++ [m.fin])[(m.start :: q ++ [m.fin]).length - 1]? = some m.fin := by
      rw [List.getElem?_append_right (by simp)]; simp
    rw [this] at hpi
    exact hne (Option.some.inj hpi).symm
  · rw [if_neg hlast]
    have hn1 : path[i + 1]? = some (path[i + 1]'(by omega)) := List.getElem?_eq_getElem (by omega)
    generalize path[i + 1]'(by omega) = next1 at hn1
    rw [pyGet_ok_iff.2 hn1, bind_ok]
    obtain ⟨c, s, hcs, hes⟩ := hr.cover e.2 (hg.lt e.1 e.2 he).2
    rw [(Dict.get_ok_iff ..).2 ((hr.comp e.2 c).2 ⟨s, hcs, hes⟩), bind_ok]
    have hfresh : c ∉ joined := fun h => he2 ((hj.mem e.2).2 ⟨c, s, h, hcs, hes⟩)
    have hccs : c ≠ cs := fun h => hfresh (h ▸ hj.here)
    have hns : m.start ∉ s := by
      intro h
      obtain ⟨s0, h0, h0'⟩ := hj.start
      exact hccs (hr.disj c cs s s0 m.start hcs h0 h h0')
    rw [if_neg (fun h => hccs h.1)]
    obtain ⟨pc, idx, hpc, hidx, hpn, hpm, hpi'⟩ := hr.paths c s hcs hns
    obtain ⟨k, hk⟩ := List.mem_iff_getElem?.1 ((hpm e.2).2 hes)
    have hkl := (List.getElem?_eq_some_iff.1 hk).1
    rw [pyGet_ok_iff.2 hidx, bind_ok, (Dict.get_ok_iff ..).2 (hpi' k e.2 hk), bind_ok, pyGet_ok_iff.2 hpc, bind_ok]
    obtain ⟨nextC, hnc⟩ : ∃ x, pc[if k + 1 ≥ pc.length then 0 else k + 1]? = some x := by
      split
      · exact ⟨pc[0]'(by omega), by simp⟩
      · exact ⟨pc[k + 1]'(by omega), List.getElem?_eq_getElem (by omega)⟩
    rw [pyGet_ok_iff.2 hnc, bind_ok]
    have hvalid : ∀ cost, Valid m ps comps edges path joined ⟨c, e, (nextC, next1), i, cost⟩ := by
      intro cost
      refine ⟨⟨s, hcs, hes, hns⟩, hfresh, he, hpi, hn1, ?_⟩
      intro pc' k' h1 h2 h3
      simp only at h1 h2 ⊢
      rw [hpc] at h1; cases h1
      have := hpi' k' e.2 h2
      rw [hpi' k e.2 hk] at this; cases this
      exact hnc
    have hw1 : weight m g e.1 e.2 = .ok (m.dist e.1 e.2) := if_pos (hj.edges e he)
    by_cases hin : (nextC, next1) ∈ edges ∧ nextC ∉ path ∧ next1 ∈ path
    · rw [if_pos hin]
      have hw2 : weight m g nextC next1 = .ok (m.dist nextC next1) := if_pos (hj.edges _ hin.1)
      have hw3 : weight m g e.1 next1 = .ok (m.dist e.1 next1) := if_pos (hj.legs _ (mem_legs.2 ⟨i, hpi, hn1⟩))
      rw [hw1, bind_ok, hw2, bind_ok, hw3, bind_ok]
      refine ⟨_, rfl, ?_⟩
      split
      · refine ⟨?_, hb2, fun _ => .inl rfl, fun _ => rfl, id⟩
        intro c' h; cases h
        exact ⟨hvalid _, hin.1⟩
      · rename_i hbt
        refine ⟨hb1, hb2, ?_, id, id⟩
        intro _
        left
        cases h : b.1 with
        | none => rw [h] at hbt; simp [betterThan] at hbt
        | some c => rfl
    · rw [if_neg hin, hw1, bind_ok]
      refine ⟨_, rfl, ?_⟩
      split
      · refine ⟨hb1, ?_, fun _ => .inr rfl, id, fun _ => rfl⟩
        intro c' h; cases h
        exact hvalid _
      · rename_i hbt
        refine ⟨hb1, hb2, ?_, id, id⟩
        intro _
        right
        cases h : b.2 with
        | none => rw [h] at hbt; simp [betterThan] at hbt
        | some c => rfl

theorem scan_all {m : Model} {ps : Parts} {comps : List (List Nat)} {edges g : List Edge} {path joined q : List Nat} {cs : Nat}
    (hg : Graph m edges) (hr : Ready m ps comps) (hj : Joined m comps edges g path joined cs q) (count : Nat) :
    ∀ (l : List Edge) (b : Option Cand × Option Cand), (∀ e, e ∈ l → e ∈ edges ∧ e.1 ∈ path ∧ e.2 ∉ path) →
    (∀ c, b.1 = some c → Valid m ps comps edges path joined c ∧ c.inn ∈ edges) →
    (∀ c, b.2 = some c → Valid m ps comps edges path joined c) →
    ∃ b', l.foldlM (scan m ps g edges count cs joined.length path) b = .ok b' ∧
      (∀ c, b'.1 = some c → Valid m ps comps edges path joined c ∧ c.inn ∈ edges) ∧
      (∀ c, b'.2 = some c → Valid m ps comps edges path joined c) ∧
      ((∃ e, e ∈ l ∧ e.1 ≠ m.fin) → b'.1.isSome ∨ b'.2.isSome) ∧ (b.1.isSome → b'.1.isSome) ∧ (b.2.isSome → b'.2.isSome) := by
  intro l
  induction l with
  | nil => intro b _ h1 h2; exact ⟨b, rfl, h1, h2, by simp, id, id⟩
  | cons e l ih =>
    intro b hl h1 h2
    obtain ⟨he, he1, he2⟩ := hl e (by simp)
    obtain ⟨b1, r1, v1, v2, s1, m1, m2⟩ := scan_spec hg hr hj count he he1 he2 h1 h2
    obtain ⟨b2, r2, w1, w2, s2, n1, n2⟩ := ih b1 (fun x hx => hl x (by simp [hx])) v1 v2
    refine ⟨b2, ?_, w1, w2, ?_, fun h => n1 (m1 h), fun h => n2 (m2 h)⟩
    · rw [List.foldlM_cons, r1, bind_ok, r2]
    · rintro ⟨x, hx, hxf⟩
      rcases List.mem_cons.1 hx with rfl | hx
      · rcases s1 hxf with h | h
        · exact .inl (n1 h)
        · exact .inr (n2 h)
      · exact s2 ⟨x, hx, hxf⟩

/-- A tour along the edges: every inner node once, between start and end. -/
def TourOn (m : Model) (edges : List Edge) (p : List Nat) : Prop := p.Perm m.inner ∧ ∀ e, e ∈ legs (tour m p) → e ∈ edges

/-- If there is a tour, the path so far can be left from a node other than the end. -/
theorem tour_exit {m : Model} {edges : List Edge} (hg : Graph m edges) {p : List Nat} (hp : TourOn m edges p) {path : List Nat}
    (hs : m.start ∈ path) (hf : m.fin ∈ path) (hu : ∃ u, u ∈ path ∧ u ≠ m.fin ∧ u < m.nodeCount) (hout : ∃ v, v < m.nodeCount ∧ v ∉ path) :
    ∃ e, e ∈ edges ∧ e.1 ∈ path ∧ e.2 ∉ path ∧ e.1 ≠ m.fin := by
  obtain ⟨⟨x, y, hxy, hx, hy⟩, _⟩ := tour_crosses hp.1 path ⟨fun _ => hf, fun _ => hs⟩ ⟨m.start, hg.start_lt, hs⟩ hout
  by_cases hxf : x = m.fin
  · subst hxf
    have hq : ∀ v, v ∈ p ↔ v < m.nodeCount ∧ v ≠ m.start ∧ v ≠ m.fin := fun v => by rw [hp.1.mem_iff, inner_mem]
    obtain ⟨hd, ht⟩ := path_parts m.start m.fin p
    have htour : tour m p = m.start :: p ++ [m.fin] := rfl
    have nd : (tour m p).dropLast.Nodup := by
      rw [htour, hd, List.nodup_cons]
      exact ⟨fun h => ((hq _).1 h).2.1 rfl, hp.1.nodup_iff.2 (inner_nodup m)⟩
    have hsf : m.fin = m.start := by
      have := legs_fst hxy
      rw [htour, hd, List.mem_cons] at this
      rcases this with h | h
      · exact h
      · exact absurd rfl ((hq _).1 h).2.2
    obtain ⟨u, hup, huf, hul⟩ := hu
    have hut : u ∈ p := (hq u).2 ⟨hul, fun h => huf (h.trans hsf.symm), huf⟩
    obtain ⟨y0, p', hpc⟩ := List.exists_cons_of_ne_nil (List.ne_nil_of_mem hut)
    have hleg0 : (m.start, y0) ∈ legs (tour m p) := mem_legs.2 ⟨0, rfl, by rw [htour, hpc]; rfl⟩
    have hyy : y = y0 := legs_out_unique nd (hsf ▸ hxy) hleg0
    obtain ⟨i, hi⟩ := List.mem_iff_getElem?.1 hut
    have hiu : (tour m p)[i + 1]? = some u := by
      show (m.start :: (p ++ [m.fin]))[i + 1]? = some u
      rw [List.getElem?_cons_succ, List.getElem?_append_left (List.getElem?_eq_some_iff.1 hi).1, hi]
    have h1 : (tour m p)[1]? = some y := by rw [htour, hpc, hyy]; rfl
    obtain ⟨a, b, hab, ha, hb⟩ := leg_leaves (fun v => ¬ (v ∈ path ∧ v ≠ m.fin)) (by omega : 1 ≤ i + 1) h1 hiu (fun h => hy h.1)
      (fun h => h ⟨hup, huf⟩)
    have hb' : b ∈ path ∧ b ≠ m.fin := Classical.not_not.1 hb
    have hap : a ∉ path := by
      intro hap
      have haf : a = m.fin := Classical.not_not.1 (fun h => ha ⟨hap, h⟩)
      subst haf
      have := legs_out_unique nd hab hxy
      exact hy (this ▸ hb'.1)
    exact ⟨(b, a), hg.sym _ _ (hp.2 _ hab), hb'.1, hap, hb'.2⟩
  · exact ⟨(x, y), hp.2 _ hxy, hx, hy, hxf⟩

/-- One insertion. -/
theorem insert_spec {m : Model} {ps : Parts} {comps : List (List Nat)} {edges g g1 : List Edge} {path joined q : List Nat} {cs : Nat}
    (hr : Ready m ps comps) (hj : Joined m comps edges g path joined cs q) {c : Cand}
    (hv : Valid m ps comps edges path joined c) (hg1 : ∀ e, e ∈ g → e ∈ g1) (hinn : c.inn ∈ g1) :
    ∃ idx k pc new q', ps.indexes[c.comp]? = some idx ∧ Dict.get? idx c.out.2 = some k ∧ ps.paths[c.comp]? = some pc ∧
      backwards pc k = .ok new ∧
      Joined m comps edges ((legs new).foldl addEdge g1) (path.take (c.index + 1) ++ new ++ path.drop (c.index + 1))
        (c.comp :: joined) cs q' := by
  obtain ⟨s, hcs, hos, hns⟩ := hv.comp
  obtain ⟨pc, idx, hpc, hidx, hpn, hpm, hpi⟩ := hr.paths c.comp s hcs hns
  obtain ⟨k, hk⟩ := List.mem_iff_getElem?.1 ((hpm c.out.2).2 hos)
  have hkl := (List.getElem?_eq_some_iff.1 hk).1
  have hil := (List.getElem?_eq_some_iff.1 hv.next).1
  have hlen : path.length = q.length + 2 := by rw [hj.shape]; simp
  have hback := backwards_eq hkl
  have hperm := backwards_perm pc k
  have hhead := backwards_head hk
  have hlast := backwards_last (hv.back pc k hpc hk hpn)
  generalize (pc.take (k + 1)).reverse ++ (pc.drop (k + 1)).reverse = new at *
  have hnm : ∀ v, v ∈ new ↔ v ∈ s := fun v => by rw [hperm.mem_iff, hpm]
  have hdis : ∀ v, v ∈ new → v ∉ path := by
    intro v hv' hvp
    obtain ⟨c', s', h1, h2, h3⟩ := (hj.mem v).1 hvp
    have := hr.disj c.comp c' s s' v hcs h2 ((hnm v).1 hv') h3
    exact hv.fresh (this ▸ h1)
  have htk : path.take (c.index + 1) = m.start :: q.take c.index := by
    rw [hj.shape, List.take_append_of_le_length (by simp; omega), List.take_succ_cons]
  have hdr : path.drop (c.index + 1) = q.drop c.index ++ [m.fin] := by
    rw [hj.shape, List.drop_append_of_le_length (by simp; omega), List.drop_succ_cons]
  refine ⟨idx, k, pc, new, q.take c.index ++ new ++ q.drop c.index, hidx, hpi k _ hk, hpc, hback, ?_⟩
  have hqp : ∀ v, v ∈ q → v ∈ path := by intro v h; rw [hj.shape]; simp [h]
  have hsp : m.start ∈ path := by rw [hj.shape]; simp
  have hfp : m.fin ∈ path := by rw [hj.shape]; simp
  have hqperm : (q.take c.index ++ new ++ q.drop c.index).Perm (q ++ new) := by
    have h1 : (q.take c.index ++ new ++ q.drop c.index).Perm (q.take c.index ++ (q.drop c.index ++ new)) := by
      rw [List.append_assoc]; exact List.Perm.append_left _ List.perm_append_comm
    rw [← List.append_assoc, List.take_append_drop] at h1
    exact h1
  obtain ⟨hsq, hqn⟩ := List.nodup_cons.1 hj.nodup
  have hpathmem : ∀ v, v ∈ path.take (c.index + 1) ++ new ++ path.drop (c.index + 1) ↔ v ∈ path ∨ v ∈ new := by
    intro v
    have : path = path.take (c.index + 1) ++ path.drop (c.index + 1) := (List.take_append_drop _ _).symm
    constructor
    · intro h
      rcases List.mem_append.1 h with h | h
      · rcases List.mem_append.1 h with h | h
        · exact .inl (List.mem_of_mem_take h)
        · exact .inr h
      · exact .inl (List.mem_of_mem_drop h)
    · rintro (h | h)
      · rw [this] at h
        rcases List.mem_append.1 h with h | h
        · exact List.mem_append_left _ (List.mem_append_left _ h)
        · exact List.mem_append_right _ h
      · exact List.mem_append_left _ (List.mem_append_right _ h)
  refine ⟨?_, ?_, ?_, ?_, ?_, ?_, ?_, hj.start, ?_, ?_, ?_⟩
  · rw [htk, hdr]; simp
  · rw [List.nodup_cons, hqperm.mem_iff, hqperm.nodup_iff, List.mem_append, List.nodup_append]
    refine ⟨?_, hqn, hperm.nodup_iff.2 hpn, ?_⟩
    · rintro (h | h)
      · exact hsq h
      · exact hdis _ h hsp
    · intro a ha b hb h
      subst h
      exact hdis a hb (hqp a ha)
  · rw [hqperm.mem_iff, List.mem_append]
    rintro (h | h)
    · exact hj.fin h
    · exact hdis _ h hfp
  · intro v
    rw [hpathmem, hj.mem, hnm]
    constructor
    · rintro (⟨c', s', h1, h2, h3⟩ | h)
      · exact ⟨c', s', by simp [h1], h2, h3⟩
      · exact ⟨c.comp, s, by simp, hcs, h⟩
    · rintro ⟨c', s', h1, h2, h3⟩
      rcases List.mem_cons.1 h1 with rfl | h1
      · right; rw [hcs] at h2; cases h2; exact h3
      · exact .inl ⟨c', s', h1, h2, h3⟩
  · exact List.nodup_cons.2 ⟨hv.fresh, hj.joined_nodup⟩
  · intro c' h
    rcases List.mem_cons.1 h with rfl | h
    · exact (List.getElem?_eq_some_iff.1 hcs).1
    · exact hj.joined_lt c' h
  · simp [hj.here]
  · intro e he
    rw [mem_addEdges]; exact .inl (hg1 _ (hj.edges e he))
  · rintro ⟨x, y⟩ he
    rw [mem_addEdges]
    have hA : ∀ e, e ∈ legs (path.take (c.index + 1)) → e ∈ g1 := by
      intro e h
      apply hg1; apply hj.legs
      rw [← List.take_append_drop (c.index + 1) path]
      exact legs_left h
    have hB : ∀ e, e ∈ legs (path.drop (c.index + 1)) → e ∈ g1 := by
      intro e h
      apply hg1; apply hj.legs
      rw [← List.take_append_drop (c.index + 1) path]
      exact legs_right h
    have hAl : (path.take (c.index + 1)).getLast? = some c.out.1 := by
      rw [List.getLast?_eq_getElem?, List.getElem?_take]
      have : (path.take (c.index + 1)).length - 1 = c.index := by simp; omega
      rw [this, if_pos (by omega), hv.pos]
    have hBh : (path.drop (c.index + 1)).head? = some c.inn.2 := by
      rw [List.head?_drop, hv.next]
    rcases legs_mem_append he with h | h | ⟨h1, h2⟩
    · rcases legs_mem_append h with h | h | ⟨h1, h2⟩
      · exact .inl (hA _ h)
      · exact .inr h
      · rw [hAl] at h1; rw [hhead] at h2
        cases h1; cases h2
        exact .inl (hg1 _ (hj.edges _ hv.edge))
    · exact .inl (hB _ h)
    · rw [List.getLast?_append, hlast] at h1
      rw [hBh] at h2
      simp at h1; cases h2; subst h1
      exact .inl hinn
  · intro _ h
    have : new = [] := by
      exact (List.append_eq_nil_iff.1 (List.append_eq_nil_iff.1 h).1).2
    rw [this] at hhead; simp at hhead

theorem joinLoop_spec {m : Model} {ps : Parts} {comps : List (List Nat)} {edges : List Edge} {cs : Nat}
    (hg : Graph m edges) (hr : Ready m ps comps) :
    ∀ (fuel : Nat) (g : List Edge) (path joined q : List Nat), Joined m comps edges g path joined cs q →
      comps.length + 2 ≤ fuel + joined.length →
      (joinLoop m ps edges comps.length cs cs fuel g path joined = .error .typeError ∧ ¬ ∃ p, TourOn m edges p) ∨
      ∃ g' path' joined' q', joinLoop m ps edges comps.length cs cs fuel g path joined = .ok (g', path') ∧
        Joined m comps edges g' path' joined' cs q' ∧ ∀ c, c < comps.length → c ∈ joined' := by
  intro fuel
  induction fuel with
  | zero =>
    intro g path joined q hj hfuel
    exfalso
    have := (List.Nodup.subperm hj.joined_nodup (l₂ := List.range comps.length) (fun c hc => List.mem_range.2 (hj.joined_lt c hc))).length_le
    simp at this; omega
  | succ fuel ih =>
    intro g path joined q hj hfuel
    unfold joinLoop
    by_cases hlt : joined.length < comps.length
    · rw [if_pos hlt, if_neg (fun h => h.2.2 rfl)]
      simp only []
      have hmemo : ∀ e, e ∈ edges.filter (fun e => decide (e.1 ∈ path) && decide (e.2 ∉ path)) ↔ e ∈ edges ∧ e.1 ∈ path ∧ e.2 ∉ path := by
        intro e; simp
      obtain ⟨b, hrun, v1, v2, hs, _, _⟩ := scan_all hg hr hj comps.length
        (edges.filter (fun e => decide (e.1 ∈ path) && decide (e.2 ∉ path))) (none, none) (fun e he => (hmemo e).1 he) (by simp) (by simp)
      rw [hrun, bind_ok]
      have go : ∀ (c : Cand) (g1 : List Edge), Valid m ps comps edges path joined c → (∀ e, e ∈ g → e ∈ g1) → c.inn ∈ g1 →
          (((Except.ok (c, g1) : Except PyErr (Cand × List Edge)) >>= fun cg => do
            let idx ← pyGet ps.indexes cg.1.comp
            let k ← idx.get cg.1.out.2
            let pc ← pyGet ps.paths cg.1.comp
            let new ← backwards pc k
            joinLoop m ps edges comps.length cs cs fuel ((legs new).foldl addEdge cg.2)
              (path.take (cg.1.index + 1) ++ new ++ path.drop (cg.1.index + 1))
              (if cg.1.comp ∈ joined then joined else cg.1.comp :: joined)) = .error .typeError ∧ ¬ ∃ p, TourOn m edges p) ∨
          ∃ g' path' joined' q', ((Except.ok (c, g1) : Except PyErr (Cand × List Edge)) >>= fun cg => do
            let idx ← pyGet ps.indexes cg.1.comp
            let k ← idx.get cg.1.out.2
            let pc ← pyGet ps.paths cg.1.comp
            let new ← backwards pc k
            joinLoop m ps edges comps.length cs cs fuel ((legs new).foldl addEdge cg.2)
              (path.take (cg.1.index + 1) ++ new ++ path.drop (cg.1.index + 1))
              (if cg.1.comp ∈ joined then joined else cg.1.comp :: joined)) = .ok (g', path') ∧
            Joined m comps edges g' path' joined' cs q' ∧ ∀ c, c < comps.length → c ∈ joined' := by
        intro c g1 hv hg1 hinn
        obtain ⟨idx, k, pc, new, q', h1, h2, h3, h4, h5⟩ := insert_spec hr hj hv hg1 hinn
        simp only [bind_ok]
        rw [pyGet_ok_iff.2 h1, bind_ok, (Dict.get_ok_iff ..).2 h2, bind_ok, pyGet_ok_iff.2 h3, bind_ok, h4, bind_ok, if_neg hv.fresh]
        exact ih _ _ _ _ h5 (by simp; omega)
      cases hb1 : b.1 with
      | some c =>
        have hv := v1 c hb1
        have := go c g hv.1 (fun _ h => h) (hj.edges _ hv.2)
        simpa using this
      | none =>
        cases hb2 : b.2 with
        | some c =>
          have hv := v2 c hb2
          have := go c (addEdge (addEdge g c.inn) (c.inn.2, c.inn.1)) hv (fun e h => mem_addEdge.2 (.inl (mem_addEdge.2 (.inl h))))
            (mem_addEdge.2 (.inl (mem_addEdge.2 (.inr rfl))))
          simpa using this
        | none =>
          left
          refine ⟨rfl, ?_⟩
          rintro ⟨p, hcomp⟩
          -- some component is not joined yet
          obtain ⟨c, hc, hcj⟩ : ∃ c, c < comps.length ∧ c ∉ joined := by
            apply Classical.byContradiction
            intro hno
            have hall : ∀ c, c ∈ List.range comps.length → c ∈ joined := by
              intro c hc
              apply Classical.byContradiction
              intro h; exact hno ⟨c, List.mem_range.1 hc, h⟩
            have := (List.Nodup.subperm List.nodup_range hall).length_le
            simp at this; omega
          have hs' : comps[c]? = some (comps[c]'hc) := List.getElem?_eq_getElem hc
          obtain ⟨v, hv⟩ := hr.ne c _ hs'
          have hvp : v ∉ path := by
            intro h
            obtain ⟨c', s', h1, h2, h3⟩ := (hj.mem v).1 h
            have := hr.disj c c' _ s' v hs' h2 hv h3
            exact hcj (this ▸ h1)
          obtain ⟨u, hup, huf⟩ : ∃ u, u ∈ path ∧ u ≠ m.fin := by
            by_cases hsf : m.start = m.fin
            · obtain ⟨u, hu⟩ := List.exists_mem_of_ne_nil q (hj.ne hsf)
              exact ⟨u, by rw [hj.shape]; simp [hu], fun h => hj.fin (h ▸ hu)⟩
            · exact ⟨m.start, by rw [hj.shape]; simp, hsf⟩
          have hul : u < m.nodeCount := by
            obtain ⟨c', s', h1, h2, h3⟩ := (hj.mem u).1 hup
            exact hr.lt c' s' u h2 h3
          obtain ⟨e, h1, h2, h3, h4⟩ := tour_exit hg hcomp (by rw [hj.shape]; simp) (by rw [hj.shape]; simp)
            ⟨u, hup, huf, hul⟩ ⟨v, hr.lt c _ v hs' hv, hvp⟩
          rcases hs ⟨e, (hmemo _).2 ⟨h1, h2, h3⟩, h4⟩ with h | h
          · rw [hb1] at h; simp at h
          · rw [hb2] at h; simp at h
    · rw [if_neg hlt]
      right
      refine ⟨g, path, joined, q, rfl, hj, ?_⟩
      intro c hc
      apply Classical.byContradiction
      intro hno
      have := (List.Nodup.subperm (List.nodup_cons.2 ⟨hno, hj.joined_nodup⟩) (l₂ := List.range comps.length) (by
        intro x hx
        rcases List.mem_cons.1 hx with rfl | hx
        · exact List.mem_range.2 hc
        · exact List.mem_range.2 (hj.joined_lt x hx))).length_le
      simp at this; omega

end Verif.TspLp
