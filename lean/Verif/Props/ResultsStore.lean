import Verif.Props.Results
/-
Properties C22, C47: what the result store keeps.
-/
namespace Verif.Results

theorem add_sols [DecidableEq σ] {st st' : Store σ} {s : σ} {f : Int} (h : st.add s f = .ok st') :
    st'.sols = (if s ∈ st.seen.map Prod.fst then st.sols else st.sols ++ [(s, f)]) ∧
    st'.seen = (if s ∈ st.seen.map Prod.fst then st.seen else st.seen ++ [(s, f)]) := by
  unfold Store.add at h
  simp only at h
  split at h
  · cases h
  · split at h <;> cases h <;> by_cases hs : s ∈ st.seen.map Prod.fst <;> simp [hs]

theorem addAll_sols [DecidableEq σ] (adds : List (σ × Int)) {st st' : Store σ}
    (hs : ∀ s, s ∈ st.seen.map Prod.fst ↔ s ∈ st.sols.map Prod.fst) (h : st.addAll adds = .ok st') :
    ∃ extra, st'.sols = st.sols ++ extra ∧ extra.Sublist adds ∧ (extra.map Prod.fst).Nodup ∧
      (∀ p ∈ extra, p.1 ∉ st.sols.map Prod.fst) ∧ (∀ p ∈ adds, p.1 ∈ st'.sols.map Prod.fst) := by
  induction adds generalizing st with
  | nil =>
    simp only [Store.addAll, Except.ok.injEq] at h
    subst h
    exact ⟨[], by simp⟩
  | cons p adds ih =>
    obtain ⟨s, f⟩ := p
    simp only [Store.addAll, bind_eq_ok] at h
    obtain ⟨st1, h1, h2⟩ := h
    obtain ⟨a1, a2⟩ := add_sols h1
    by_cases hm : s ∈ st.seen.map Prod.fst
    · rw [if_pos hm] at a1 a2
      obtain ⟨extra, b1, b2, b3, b4, b5⟩ := ih (st := st1) (by rw [a1, a2]; exact hs) h2
      rw [a1] at b1 b4
      refine ⟨extra, b1, b2.cons _, b3, b4, ?_⟩
      intro p hp
      rcases List.mem_cons.1 hp with rfl | hp
      · rw [b1, List.map_append, List.mem_append]; exact .inl ((hs s).1 hm)
      · exact b5 p hp
    · rw [if_neg hm] at a1 a2
      obtain ⟨extra, b1, b2, b3, b4, b5⟩ := ih (st := st1) (by
        intro x; rw [a1, a2, List.map_append, List.map_append, List.mem_append, List.mem_append, hs x]) h2
      rw [a1] at b1 b4
      refine ⟨(s, f) :: extra, by rw [b1]; simp, b2.cons_cons _, ?_, ?_, ?_⟩
      · simp only [List.map_cons, List.nodup_cons]
        refine ⟨?_, b3⟩
        intro hin
        obtain ⟨q, hq, hqs⟩ := List.mem_map.1 hin
        exact b4 q hq (by rw [hqs]; simp)
      · intro p hp
        rcases List.mem_cons.1 hp with rfl | hp
        · exact fun hin => hm ((hs s).2 hin)
        · have := b4 p hp
          simp only [List.map_append, List.mem_append, not_or] at this
          exact this.1
      · intro p hp
        rcases List.mem_cons.1 hp with rfl | hp
        · rw [b1]; simp
        · exact b5 p hp

/-- C22: after any additions that raise nothing the stored list is the initial one followed by
added solutions in the order added, none of them twice and none of them already in the initial
list; every added solution is stored. -/
theorem C22_stored_once [DecidableEq σ] (l adds : List (σ × Int)) (best : Option σ) (mx lim : Bool) (nb : Nat)
    (st : Store σ) (h : (Store.init l best mx lim nb).addAll adds = .ok st) :
    ∃ extra, st.sols = l ++ extra ∧ extra.Sublist adds ∧ (extra.map Prod.fst).Nodup ∧
      (∀ p ∈ extra, p.1 ∉ l.map Prod.fst) ∧ (∀ p ∈ adds, p.1 ∈ st.sols.map Prod.fst) := by
  refine addAll_sols adds (st := Store.init l best mx lim nb) ?_ h
  intro s
  have hd : ∀ (l acc : List (σ × Int)), s ∈ (dedup l acc).map Prod.fst ↔
      s ∈ acc.map Prod.fst ∨ s ∈ l.map Prod.fst := by
    intro l
    induction l with
    | nil => intro acc; simp [dedup]
    | cons p l ih =>
      intro acc
      obtain ⟨a, b⟩ := p
      simp only [dedup]
      split
      · rename_i hc
        rw [ih]
        simp only [List.contains_iff_mem] at hc
        simp only [List.map_cons, List.mem_cons]
        constructor
        · rintro (h | h)
          · exact .inl h
          · exact .inr (.inr h)
        · rintro (h | rfl | h)
          · exact .inl h
          · exact .inl hc
          · exact .inr h
      · rw [ih]
        simp only [List.map_append, List.mem_append, List.map_cons, List.map_nil,
          List.mem_cons, List.not_mem_nil, false_or, or_assoc]
  show s ∈ (dedup l []).map Prod.fst ↔ s ∈ l.map Prod.fst
  rw [hd]
  simp

example : ∃ st, (Store.init [("a", 5), ("a", 5)] none false true 1).addAll [("b", 3), ("a", 5), ("b", 3)] = .ok st
    ∧ st.sols = [("a", 5), ("a", 5), ("b", 3)] := ⟨_, rfl, by decide⟩

/-- C22: asking for the last best solution of a store with at least one solution never raises,
and raises on a store without solutions. -/
theorem C22_last_best_defined (st : Store σ) :
    (st.sols ≠ [] → ∃ b, st.getLastBest = .ok b) ∧
    (st.sols = [] → st.getLastBest = .error .valueError ∧ st.getBestFit = .error .valueError ∧
      st.getBest = none) := by
  constructor
  · intro h
    obtain ⟨b, hb⟩ := bestOf_defined st.maximize h
    obtain ⟨b1, _⟩ := bestOf_spec hb
    have hne : st.sols.filter (fun p => decide (p.2 = b.2)) ≠ [] :=
      List.ne_nil_of_mem (List.mem_filter.2 ⟨b1, by simp⟩)
    obtain ⟨c, hc⟩ := Option.isSome_iff_exists.1 (List.getLast?_isSome.2 hne)
    exact ⟨c, by unfold Store.getLastBest; rw [hb, bind_ok, hc]⟩
  · intro h
    cases hm : st.maximize <;>
      simp [Store.getLastBest, Store.getBestFit, Store.getBest, bestOf, h, hm, pyMaxBy, pyMinBy]

example : (Store.init [("a", 5), ("b", 3), ("c", 5)] none true true 2).getLastBest = .ok ("c", 5) := by decide

theorem insAsc_perm (x : Int) (l : List Int) : (insAsc x l).Perm (x :: l) := by
  induction l with
  | nil => exact .refl _
  | cons y l ih =>
    simp only [insAsc]
    split
    · exact .refl _
    · exact (ih.cons y).trans (.swap x y l)

theorem sortAsc_perm (l : List Int) : (sortAsc l).Perm l := by
  induction l with
  | nil => exact .refl _
  | cons x l ih => exact (insAsc_perm x _).trans (ih.cons x)

/-- C47: the finalised heap holds the values of the heap, best first. -/
theorem C47_final_heap_sorted (st : Store σ) :
    st.finalHeap.Perm st.heap ∧ st.finalHeap.Pairwise (fun a b => Better st.maximize a b) := by
  unfold Store.finalHeap
  have h1 := sortAsc_perm st.heap
  have h2 := sortAsc_sorted st.heap
  cases hm : st.maximize with
  | true =>
    simp only [if_true]
    refine ⟨(List.reverse_perm _).trans h1, ?_⟩
    exact (reverse_sorted h2).imp fun h => by simp only [Better, if_true]; exact h
  | false =>
    simp only [Bool.false_eq_true, if_false]
    exact ⟨h1, h2.imp fun h => by simp only [Better, Bool.false_eq_true, if_false]; exact h⟩

example : (Store.init [("a", 5), ("b", 3), ("c", 7)] none true false 2).finalHeap = [7, 5, 3] := by decide

theorem length_heappushpop (heap : List Int) (x : Int) : (heappushpop heap x).length = heap.length := by
  have h := length_sortAsc heap
  unfold heappushpop
  split
  · rename_i he; rw [he] at h; simpa using h
  · rename_i m rest he
    rw [he] at h
    split
    · rw [length_insAsc]; simpa using h
    · simpa using h

/-- C47: with a size limit the heap never holds more values than the limit. -/
theorem C47_heap_bounded [DecidableEq σ] (l adds : List (σ × Int)) (best : Option σ) (mx : Bool) (nb : Nat)
    (st : Store σ) (h : (Store.init l best mx true nb).addAll adds = .ok st) : st.heap.length ≤ nb := by
  have key : ∀ (adds : List (σ × Int)) (s0 s1 : Store σ), s0.limit = true → s0.nbBest = nb →
      s0.heap.length ≤ nb → s0.addAll adds = .ok s1 → s1.heap.length ≤ nb := by
    intro adds
    induction adds with
    | nil => intro s0 s1 _ _ h1 h2; simp only [Store.addAll, Except.ok.injEq] at h2; rw [← h2]; exact h1
    | cons p adds ih =>
      intro s0 s1 hl hn h1 h2
      obtain ⟨s, f⟩ := p
      simp only [Store.addAll, bind_eq_ok] at h2
      obtain ⟨s2, h3, h4⟩ := h2
      have : s2.limit = true ∧ s2.nbBest = nb ∧ s2.heap.length ≤ nb := by
        unfold Store.add at h3
        simp only at h3
        split at h3
        · cases h3
        · split at h3
          · rw [← Except.ok.inj h3]
            refine ⟨hl, hn, ?_⟩
            show (if _ then _ else _ : List Int).length ≤ nb
            split
            · rw [length_heappushpop]; exact h1
            · rename_i hc
              rw [hn] at hc
              simp only [hl, and_true] at hc
              simp only [List.length_cons]; omega
          · rw [← Except.ok.inj h3]; exact ⟨hl, hn, h1⟩
      exact ih s2 s1 this.1 this.2.1 this.2.2 h4
  refine key adds _ st rfl rfl ?_ h
  show (if _ then _ else _ : List Int).length ≤ nb
  split
  · split
    · simp only [nlargest, List.length_take]; omega
    · simp only [nsmallest, List.length_take]; omega
  · rename_i hc; simp only [and_true] at hc; omega

example : ∃ st, (Store.init [("a", 5), ("b", 3)] none true true 2).addAll [("c", 7), ("d", 9)] = .ok st ∧
    st.finalHeap = [9, 7] := ⟨_, rfl, by decide⟩

end Verif.Results
