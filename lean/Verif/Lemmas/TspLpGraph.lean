import Verif.Lemmas.TspLpJoin
/- Helper lemmas: the graphs built by the two builders. -/
namespace Verif.TspLp
open Verif.Milp Verif.Tsp

theorem nodup_addEdge {g : List Edge} (h : g.Nodup) (e : Edge) : (addEdge g e).Nodup := by
  unfold addEdge
  split
  · exact h
  · rename_i he
    rw [List.nodup_append]
    refine ⟨h, by simp, ?_⟩
    intro a ha b hb
    simp only [List.mem_singleton] at hb; subst hb
    exact fun h => he (h ▸ ha)

theorem mem_addPair {i n : Nat} {g : List Edge} {e : Edge} : e ∈ addPair i g n ↔ e ∈ g ∨ (n ≠ i ∧ (e = (i, n) ∨ e = (n, i))) := by
  unfold addPair
  split
  · rename_i h; simp [h]
  · rename_i h; rw [mem_addEdge, mem_addEdge, or_assoc]; simp [h]

theorem nodup_addPair {i n : Nat} {g : List Edge} (h : g.Nodup) : (addPair i g n).Nodup := by
  unfold addPair
  split
  · exact h
  · exact nodup_addEdge (nodup_addEdge h _) _

theorem mem_addPairs (i : Nat) (l : List Nat) : ∀ (g : List Edge) (e : Edge),
    e ∈ l.foldl (addPair i) g ↔ e ∈ g ∨ ∃ n, n ∈ l ∧ n ≠ i ∧ (e = (i, n) ∨ e = (n, i)) := by
  induction l with
  | nil => simp
  | cons a l ih =>
    intro g e
    rw [List.foldl_cons, ih, mem_addPair]
    constructor
    · rintro ((h | ⟨h1, h2⟩) | ⟨n, h1, h2⟩)
      · exact .inl h
      · exact .inr ⟨a, by simp, h1, h2⟩
      · exact .inr ⟨n, by simp [h1], h2⟩
    · rintro (h | ⟨n, h1, h2⟩)
      · exact .inl (.inl h)
      · rcases List.mem_cons.1 h1 with rfl | h1
        · exact .inl (.inr h2)
        · exact .inr ⟨n, h1, h2⟩

theorem nodup_addPairs (i : Nat) (l : List Nat) : ∀ (g : List Edge), g.Nodup → (l.foldl (addPair i) g).Nodup := by
  induction l with
  | nil => intro g h; exact h
  | cons a l ih => intro g h; rw [List.foldl_cons]; exact ih _ (nodup_addPair h)

/-- A builder that adds, for each row, the pairs with the nodes `F` gives. -/
theorem mem_rows (F : List Nat × Nat → List Nat) (l : List (List Nat × Nat)) : ∀ (g : List Edge) (e : Edge),
    e ∈ l.foldl (fun g r => (F r).foldl (addPair r.2) g) g ↔
      e ∈ g ∨ ∃ r n, r ∈ l ∧ n ∈ F r ∧ n ≠ r.2 ∧ (e = (r.2, n) ∨ e = (n, r.2)) := by
  induction l with
  | nil => simp
  | cons a l ih =>
    intro g e
    rw [List.foldl_cons, ih, mem_addPairs]
    constructor
    · rintro ((h | ⟨n, h1, h2⟩) | ⟨r, n, h1, h2⟩)
      · exact .inl h
      · exact .inr ⟨a, n, by simp, h1, h2⟩
      · exact .inr ⟨r, n, by simp [h1], h2⟩
    · rintro (h | ⟨r, n, h1, h2, h3⟩)
      · exact .inl (.inl h)
      · rcases List.mem_cons.1 h1 with rfl | h1
        · exact .inl (.inr ⟨n, h2, h3⟩)
        · exact .inr ⟨r, n, h1, h2, h3⟩

theorem nodup_rows (F : List Nat × Nat → List Nat) (l : List (List Nat × Nat)) : ∀ (g : List Edge), g.Nodup →
    (l.foldl (fun g r => (F r).foldl (addPair r.2) g) g).Nodup := by
  induction l with
  | nil => intro g h; exact h
  | cons a l ih => intro g h; rw [List.foldl_cons]; exact ih _ (nodup_addPairs _ _ _ h)

theorem graph_of_rows {m : Model} (hs : m.start < m.nodeCount) (hf : m.fin < m.nodeCount) (h2 : 2 ≤ m.nodeCount)
    {sd : List (List Nat)} (hl : sd.length = m.nodeCount) (F : List Nat × Nat → List Nat)
    (hF : ∀ r, r ∈ sd.zipIdx → m.fin ∈ F r ∧ ∀ n, n ∈ F r → n < m.nodeCount) :
    Graph m (sd.zipIdx.foldl (fun g r => (F r).foldl (addPair r.2) g) []) := by
  have hmem := mem_rows F sd.zipIdx []
  have hrow : ∀ r, r ∈ sd.zipIdx → r.2 < m.nodeCount := by
    rintro ⟨a, i⟩ hr
    have := List.mem_zipIdx hr
    simp only at this ⊢; omega
  have hexists : ∀ v, v < m.nodeCount → ∃ r, r ∈ sd.zipIdx ∧ r.2 = v := by
    intro v hv
    refine ⟨(sd[v]'(by omega), v), ?_, rfl⟩
    rw [List.mem_zipIdx_iff_getElem?]; simp
  refine ⟨nodup_rows F _ _ (by simp), ?_, ?_, ?_, ?_, hs, hf⟩
  · intro a b hab
    rw [hmem] at hab ⊢
    rcases hab with h | ⟨r, n, h1, h2, h3, h4⟩
    · simp at h
    · right
      refine ⟨r, n, h1, h2, h3, ?_⟩
      rcases h4 with h | h
      · cases h; exact .inr rfl
      · cases h; exact .inl rfl
  · intro a ha
    rw [hmem] at ha
    rcases ha with h | ⟨r, n, h1, h2, h3, h4⟩
    · simp at h
    · rcases h4 with h | h
      · cases h; exact h3 rfl
      · cases h; exact h3 rfl
  · intro a b hab
    rw [hmem] at hab
    rcases hab with h | ⟨r, n, h1, h2, h3, h4⟩
    · simp at h
    · have hn := (hF r h1).2 n h2
      have hr := hrow r h1
      rcases h4 with h | h
      · cases h; exact ⟨hr, hn⟩
      · cases h; exact ⟨hn, hr⟩
  · intro v hv
    by_cases hvf : v = m.fin
    · subst hvf
      obtain ⟨w, hw, hwf⟩ : ∃ w, w < m.nodeCount ∧ w ≠ m.fin := by
        by_cases h : m.fin = 0
        · exact ⟨1, by omega, by omega⟩
        · exact ⟨0, by omega, by omega⟩
      obtain ⟨r, hr, hrw⟩ := hexists w hw
      refine ⟨w, (hmem _).2 (.inr ⟨r, m.fin, hr, (hF r hr).1, by rw [hrw]; exact fun h => hwf h.symm, .inr (by rw [hrw])⟩)⟩
    · obtain ⟨r, hr, hrw⟩ := hexists v hv
      exact ⟨m.fin, (hmem _).2 (.inr ⟨r, m.fin, hr, (hF r hr).1, by rw [hrw]; exact fun h => hvf h.symm, .inl (by rw [hrw])⟩)⟩

/-- With all edges every order of the inner nodes is a tour along the edges. -/
theorem complete_tour {m : Model} {edges : List Edge} (hs : m.start < m.nodeCount) (hf : m.fin < m.nodeCount)
    (hall : ∀ a b, a < m.nodeCount → b < m.nodeCount → a ≠ b → (a, b) ∈ edges) (hne : m.inner ≠ []) {p : List Nat} (hp : p.Perm m.inner) :
    TourOn m edges p := by
  refine ⟨hp, ?_⟩
  rintro ⟨a, b⟩ hab
  have hq : ∀ v, v ∈ p ↔ v < m.nodeCount ∧ v ≠ m.start ∧ v ≠ m.fin := fun v => by rw [hp.mem_iff, inner_mem]
  have hpne : p ≠ [] := by rintro rfl; exact hne (by simpa using hp.symm)
  obtain ⟨hd, ht⟩ := path_parts m.start m.fin p
  have htour : tour m p = m.start :: p ++ [m.fin] := rfl
  have ha := legs_fst hab
  have hb := legs_snd hab
  rw [htour, hd, List.mem_cons] at ha
  rw [htour, ht] at hb
  have hb : b ∈ p ∨ b = m.fin := by simpa using hb
  have hal : a < m.nodeCount := by
    rcases ha with rfl | h
    · exact hs
    · exact ((hq _).1 h).1
  have hbl : b < m.nodeCount := by
    rcases hb with h | rfl
    · exact ((hq _).1 h).1
    · exact hf
  refine hall a b hal hbl ?_
  rintro rfl
  have nd : (tour m p).dropLast.Nodup := by
    rw [htour, hd, List.nodup_cons]
    exact ⟨fun h => ((hq _).1 h).2.1 rfl, hp.nodup_iff.2 (inner_nodup m)⟩
  have nt : (tour m p).tail.Nodup := by
    rw [htour, ht, List.nodup_append]
    refine ⟨hp.nodup_iff.2 (inner_nodup m), by simp, ?_⟩
    intro x hx y hy
    simp only [List.mem_singleton] at hy; subst hy
    exact ((hq _).1 hx).2.2
  obtain ⟨i, hi, hi'⟩ := mem_legs.1 hab
  have hil := (List.getElem?_eq_some_iff.1 hi').1
  have hlen : (tour m p).length = p.length + 2 := by simp [htour]
  have hpl : 0 < p.length := List.length_pos_iff.2 hpne
  by_cases h0 : i = 0
  · subst h0
    have k0 : (tour m p).dropLast[0]? = some a := by rw [List.getElem?_dropLast, if_pos (by omega), hi]
    have k1 : (tour m p).dropLast[1]? = some a := by rw [List.getElem?_dropLast, if_pos (by omega), hi']
    obtain ⟨a1, a2⟩ := List.getElem?_eq_some_iff.1 k0
    obtain ⟨b1, b2⟩ := List.getElem?_eq_some_iff.1 k1
    have := (List.Nodup.getElem_inj_iff nd).1 (a2.trans b2.symm)
    omega
  · obtain ⟨j, rfl⟩ : ∃ j, i = j + 1 := ⟨i - 1, by omega⟩
    have k0 : (tour m p).tail[j]? = some a := by rw [List.getElem?_tail, hi]
    have k1 : (tour m p).tail[j + 1]? = some a := by rw [List.getElem?_tail, hi']
    obtain ⟨a1, a2⟩ := List.getElem?_eq_some_iff.1 k0
    obtain ⟨b1, b2⟩ := List.getElem?_eq_some_iff.1 k1
    have := (List.Nodup.getElem_inj_iff nt).1 (a2.trans b2.symm)
    omega

end Verif.TspLp
