import Verif.Lemmas.Explore
import Mathlib.Data.List.Nodup
/-
Helper lemmas for the explorer of uncertain domains.
-/
namespace Verif.Explore

variable {σ α : Type} [DecidableEq σ] [DecidableEq α]

/-- The states an explorer is meant to find: those met with some probability from the start, going on from states that are
neither goals nor terminal. -/
inductive MReach (d : MDom σ α) (init : σ) : σ → Prop
  | init : MReach d init init
  | step {s s' : σ} {a : α} {p : Rat} : MReach d init s → d.goal s = false → d.terminal s = false → a ∈ d.acts s →
      (s', p) ∈ d.dist s a → p ≠ 0 → MReach d init s'

/-- A recorded transition with its probability and cost. -/
def Rec (m : Dict σ (Dict α (Dict σ (Rat × Int)))) (s : σ) (a : α) (n : σ) (x : Rat × Int) : Prop :=
  ∃ f, entry m s a = some f ∧ f.get? n = some x

structure MInv (d : MDom σ α) (init : σ) (o : Option σ) (st : MSt σ α) : Prop where
  nodup : st.seen.Nodup
  heapN : st.heap.Nodup
  heap : ∀ s ∈ st.heap, s ∈ st.seen
  start : init ∈ st.seen
  states : st.states = st.seen.length
  edges : st.edges + 1 = st.seen.length
  reach : ∀ s ∈ st.seen, MReach d init s
  term : ∀ s, st.terminal.get? s = if s ∈ st.seen then some (d.terminal s) else none
  goal : ∀ s, st.goal.get? s = if s ∈ st.seen then some (d.goal s) else none
  true_ : ∀ s a n x, Rec st.map s a n x → s ∈ st.seen ∧ d.goal s = false ∧ d.terminal s = false ∧ a ∈ d.acts s ∧
    (n, x.1) ∈ d.dist s a ∧ x.1 ≠ 0 ∧ x.2 = d.cost s a n ∧ n ∈ st.seen ∧ n ≠ init ∧ n ≠ s
  parent : ∀ n ∈ st.seen, n ≠ init → ∃ s a x, Rec st.map s a n x
  unique : ∀ n s a x s' a' x', Rec st.map s a n x → Rec st.map s' a' n x' → s = s' ∧ a = a' ∧ x = x'
  acts : ∀ s a f, entry st.map s a = some f → a ∈ d.acts s ∧ d.dist s a ≠ [] ∧ s ∈ st.seen ∧ s ∉ st.heap ∧
    d.goal s = false ∧ d.terminal s = false
  full : ∀ s ∈ st.seen, s ∈ st.heap ∨ o = some s ∨ d.goal s = true ∨ d.terminal s = true ∨
    ∀ a ∈ d.acts s, ∀ q ∈ d.dist s a, (entry st.map s a).isSome ∧ (q.2 ≠ 0 → q.1 ∈ st.seen)

/-- What one successor changes. -/
theorem succStep_spec (d : MDom σ α) (s : σ) (a : α) (st : MSt σ α) (q : σ × Rat) :
    ∃ st', succStep d s a st q = .ok st' ∧
      (if q.2 ≠ 0 ∧ q.1 ∉ st.seen then
        st'.terminal = st.terminal.set q.1 (d.terminal q.1) ∧ st'.goal = st.goal.set q.1 (d.goal q.1) ∧
        st'.heap = st.heap ++ [q.1] ∧ st'.seen = q.1 :: st.seen ∧ st'.states = st.states + 1 ∧ st'.edges = st.edges + 1 ∧
        ∀ s2 a2, entry st'.map s2 a2 = if s2 = s ∧ a2 = a then
          some (((entry st.map s a).getD []).set q.1 (q.2, d.cost s a q.1)) else entry st.map s2 a2
      else
        st'.terminal = st.terminal ∧ st'.goal = st.goal ∧ st'.heap = st.heap ∧ st'.seen = st.seen ∧ st'.states = st.states ∧
        st'.edges = st.edges ∧
        ∀ s2 a2, entry st'.map s2 a2 = if s2 = s ∧ a2 = a then some ((entry st.map s a).getD []) else entry st.map s2 a2) := by
  have h1 : (if st.map.contains s then st.map else st.map.set s []).get? s = some ((st.map.get? s).getD []) := by
    rw [Dict.contains_eq]
    cases h : st.map.get? s with
    | none => simp [Dict.get?_set_self]
    | some e => simp [h]
  have h1e : ∀ s2 a2, entry (if st.map.contains s then st.map else st.map.set s []) s2 a2 = entry st.map s2 a2 := by
    intro s2 a2
    rw [Dict.contains_eq]
    cases h : st.map.get? s with
    | none =>
      simp only [Option.isSome_none, Bool.false_eq_true, if_false]
      rw [entry_set]
      by_cases h2 : s2 = s
      · subst h2; simp [entry, h]
      · simp [h2]
    | some e => simp
  unfold succStep
  simp only []
  generalize (if st.map.contains s then st.map else st.map.set s []) = m1 at h1 h1e
  rw [Dict.get_ok_iff.2 h1, bind_ok]
  generalize he : (st.map.get? s).getD [] = e at h1
  have hent : entry st.map s a = e.get? a := by rw [← h1e]; simp [entry, h1]
  have h2 : ∃ e2, (if e.contains a then m1 else m1.set s (e.set a [])).get? s = some e2 ∧
      e2.get? a = some ((entry st.map s a).getD []) ∧ ∀ a2, a2 ≠ a → e2.get? a2 = e.get? a2 := by
    rw [Dict.contains_eq, hent]
    cases h : e.get? a with
    | none =>
      simp only [Option.isSome_none, Bool.false_eq_true, if_false]
      refine ⟨_, Dict.get?_set_self _ _ _, Dict.get?_set_self _ _ _, fun a2 h2 => Dict.get?_set_ne _ _ h2⟩
    | some f =>
      simp only [Option.isSome_some, if_true]
      exact ⟨e, h1, by simp [h], fun _ _ => rfl⟩
  have h2e : ∀ s2 a2, entry (if e.contains a then m1 else m1.set s (e.set a [])) s2 a2 =
      if s2 = s ∧ a2 = a then some ((entry st.map s a).getD []) else entry st.map s2 a2 := by
    intro s2 a2
    rw [Dict.contains_eq, hent]
    cases h : e.get? a with
    | none =>
      simp only [Option.isSome_none, Bool.false_eq_true, if_false, entry_set, h1e]
      by_cases hs : s2 = s
      · subst hs
        by_cases ha : a2 = a
        · subst ha; simp [Dict.get?_set_self]
        · have := h1e s2 a2
          simp only [entry, h1, Option.bind_some] at this
          simp [ha, Dict.get?_set_ne, entry, this]
      · simp [hs]
    | some f =>
      simp only [Option.isSome_some, if_true, h1e]
      by_cases hs : s2 = s ∧ a2 = a
      · rw [if_pos hs, hs.1, hs.2, hent, h]; rfl
      · rw [if_neg hs]
  generalize (if e.contains a then m1 else m1.set s (e.set a [])) = m2 at h2 h2e
  obtain ⟨e2, g1, g2, g3⟩ := h2
  by_cases hc : q.2 ≠ 0 ∧ q.1 ∉ st.seen
  · rw [if_pos hc, Dict.get_ok_iff.2 g1, bind_ok, Dict.get_ok_iff.2 g2, bind_ok]
    refine ⟨_, rfl, ?_⟩
    rw [if_pos hc]
    refine ⟨rfl, rfl, rfl, rfl, rfl, rfl, ?_⟩
    intro s2 a2
    simp only [entry_set]
    by_cases hs : s2 = s
    · subst hs
      by_cases ha : a2 = a
      · subst ha; simp [Dict.get?_set_self]
      · simp only [if_true, true_and, ha, if_false, Dict.get?_set_ne _ _ ha]
        have := h2e s2 a2
        simp only [true_and, ha, if_false] at this
        rw [← this]; simp [entry, g1]
    · simp only [hs, if_false, false_and]
      have := h2e s2 a2
      simp only [hs, false_and, if_false] at this
      exact this
  · rw [if_neg hc]
    refine ⟨_, rfl, ?_⟩
    rw [if_neg hc]
    exact ⟨rfl, rfl, rfl, rfl, rfl, rfl, h2e⟩

/-- The number of states of `L` not yet seen and of those waiting. -/
def mleft (L : List σ) (st : MSt σ α) : Nat := (L.filter fun s => decide (s ∉ st.seen)).length + st.heap.length

theorem filter_cons_seen {L seen : List σ} {n : σ} (hL : n ∈ L) (hn : n ∉ seen) :
    (L.filter fun s => decide (s ∉ n :: seen)).length + 1 ≤ (L.filter fun s => decide (s ∉ seen)).length := by
  induction L with
  | nil => simp at hL
  | cons x L ih =>
    by_cases hx : x = n
    · have : (L.filter fun s => decide (s ∉ n :: seen)).length ≤ (L.filter fun s => decide (s ∉ seen)).length := by
        apply List.Sublist.length_le
        apply List.monotone_filter_right
        intro y hy
        simp at hy ⊢
        exact hy.2
      rw [hx]
      simp [hn] at this ⊢
      exact this
    · have hL' : n ∈ L := by
        rcases List.mem_cons.1 hL with h | h
        · exact absurd h.symm hx
        · exact h
      have := ih hL'
      by_cases hxk : x ∈ seen
      · simp [hxk] at this ⊢; exact this
      · simp [hxk, hx] at this ⊢; exact this

theorem succStep_inv {d : MDom σ α} {init s : σ} {a : α} {st : MSt σ α} {q : σ × Rat} (I : MInv d init (some s) st)
    (hs : s ∈ st.seen) (hh : s ∉ st.heap) (hg : d.goal s = false) (ht : d.terminal s = false) (ha : a ∈ d.acts s) (hq : q ∈ d.dist s a) :
    ∃ st', succStep d s a st q = .ok st' ∧ MInv d init (some s) st' ∧ s ∈ st'.seen ∧ s ∉ st'.heap ∧
      (∀ n ∈ st.seen, n ∈ st'.seen) ∧ (∀ s2 a2, (entry st.map s2 a2).isSome → (entry st'.map s2 a2).isSome) ∧
      (entry st'.map s a).isSome ∧ (q.2 ≠ 0 → q.1 ∈ st'.seen) ∧
      ∀ L : List σ, (q.2 ≠ 0 → q.1 ∈ L) → mleft L st' ≤ mleft L st := by
  obtain ⟨st', h, hsp⟩ := succStep_spec d s a st q
  refine ⟨st', h, ?_⟩
  have hdist : d.dist s a ≠ [] := by intro h0; rw [h0] at hq; cases hq
  by_cases hc : q.2 ≠ 0 ∧ q.1 ∉ st.seen
  · rw [if_pos hc] at hsp
    obtain ⟨p1, p2, p3, p4, p5, p6, p7⟩ := hsp
    have hqs : q.1 ≠ s := by rintro h'; exact hc.2 (h' ▸ hs)
    have hqi : q.1 ≠ init := by rintro h'; exact hc.2 (h' ▸ I.start)
    have hqh : q.1 ∉ st.heap := fun h' => hc.2 (I.heap _ h')
    have hrec : ∀ s2 a2 n x, Rec st'.map s2 a2 n x ↔ (Rec st.map s2 a2 n x ∨ (s2 = s ∧ a2 = a ∧ n = q.1 ∧ x = (q.2, d.cost s a q.1))) := by
      intro s2 a2 n x
      unfold Rec
      simp only [p7]
      by_cases h2 : s2 = s ∧ a2 = a
      · obtain ⟨rfl, rfl⟩ := h2
        simp only [and_self, if_true, Option.some.injEq, exists_eq_left', Dict.get?_set, true_and]
        have hno : ∀ f, entry st.map s2 a2 = some f → f.get? q.1 = none := by
          intro f hf
          cases hfq : f.get? q.1 with
          | none => rfl
          | some x => exact absurd (I.true_ s2 a2 q.1 x ⟨f, hf, hfq⟩).2.2.2.2.2.2.2.1 hc.2
        by_cases hn : n = q.1
        · subst hn
          simp only [if_true, Option.some.injEq, true_and]
          constructor
          · intro h; exact Or.inr h.symm
          · rintro (⟨f, hf, hx⟩ | h)
            · rw [hno f hf] at hx; cases hx
            · exact h.symm
        · simp only [hn, if_false, false_and, or_false]
          cases hf : entry st.map s2 a2 with
          | none => simp
          | some f => simp
      · simp only [if_neg h2]
        constructor
        · exact Or.inl
        · rintro (h | ⟨h3, h4, _⟩)
          · exact h
          · exact absurd ⟨h3, h4⟩ h2
    have hsome : ∀ s2 a2, (entry st.map s2 a2).isSome → (entry st'.map s2 a2).isSome := by
      intro s2 a2 h'
      rw [p7]; split
      · rfl
      · exact h'
    have hsa : (entry st'.map s a).isSome := by rw [p7]; simp
    refine ⟨⟨?_, ?_, ?_, ?_, ?_, ?_, ?_, ?_, ?_, ?_, ?_, ?_, ?_, ?_⟩, ?_, ?_, ?_, hsome, hsa, ?_, ?_⟩
    · rw [p4]; exact List.nodup_cons.2 ⟨hc.2, I.nodup⟩
    · rw [p3, List.nodup_append]
      refine ⟨I.heapN, by simp, ?_⟩
      intro x hx y hy
      rw [List.mem_singleton] at hy
      subst hy
      rintro rfl
      exact hqh hx
    · intro n hn
      rw [p3] at hn; rw [p4]
      rcases List.mem_append.1 hn with hn | hn
      · exact List.mem_cons_of_mem _ (I.heap n hn)
      · rw [List.mem_singleton.1 hn]; exact List.mem_cons_self
    · rw [p4]; exact List.mem_cons_of_mem _ I.start
    · rw [p5, p4, I.states]; rfl
    · rw [p6, p4, List.length_cons, ← I.edges]
    · intro n hn
      rw [p4] at hn
      rcases List.mem_cons.1 hn with hn | hn
      · rw [hn]; exact .step (I.reach s hs) hg ht ha hq hc.1
      · exact I.reach n hn
    · intro n
      rw [p1, p4, Dict.get?_set, I.term]
      by_cases hn : n = q.1
      · simp [hn]
      · simp [hn]
    · intro n
      rw [p2, p4, Dict.get?_set, I.goal]
      by_cases hn : n = q.1
      · simp [hn]
      · simp [hn]
    · intro s2 a2 n x hr
      rw [p4]
      rcases (hrec s2 a2 n x).1 hr with hr | ⟨rfl, rfl, rfl, rfl⟩
      · obtain ⟨r1, r2, r3, r4, r5, r6, r7, r8, r9⟩ := I.true_ s2 a2 n x hr
        exact ⟨List.mem_cons_of_mem _ r1, r2, r3, r4, r5, r6, r7, List.mem_cons_of_mem _ r8, r9⟩
      · exact ⟨List.mem_cons_of_mem _ hs, hg, ht, ha, hq, hc.1, rfl, List.mem_cons_self, hqi, hqs⟩
    · intro n hn hi
      rw [p4] at hn
      rcases List.mem_cons.1 hn with hn | hn
      · exact ⟨s, a, _, (hrec _ _ _ _).2 (Or.inr ⟨rfl, rfl, hn, rfl⟩)⟩
      · obtain ⟨s2, a2, x, hr⟩ := I.parent n hn hi
        exact ⟨s2, a2, x, (hrec _ _ _ _).2 (Or.inl hr)⟩
    · intro n s2 a2 x s3 a3 x3 hr hr'
      rcases (hrec _ _ _ _).1 hr with hr | ⟨h1, h2, h3, h4⟩
      · rcases (hrec _ _ _ _).1 hr' with hr' | ⟨h1', h2', h3', h4'⟩
        · exact I.unique n s2 a2 x s3 a3 x3 hr hr'
        · exact absurd (h3' ▸ (I.true_ _ _ _ _ hr).2.2.2.2.2.2.2.1) hc.2
      · rcases (hrec _ _ _ _).1 hr' with hr' | ⟨h1', h2', h3', h4'⟩
        · exact absurd (h3 ▸ (I.true_ _ _ _ _ hr').2.2.2.2.2.2.2.1) hc.2
        · exact ⟨h1.trans h1'.symm, h2.trans h2'.symm, h4.trans h4'.symm⟩
    · intro s2 a2 f hf
      rw [p7] at hf
      by_cases h2 : s2 = s ∧ a2 = a
      · rw [h2.1, h2.2, p4, p3]
        exact ⟨ha, hdist, List.mem_cons_of_mem _ hs, by simp [hh, Ne.symm hqs], hg, ht⟩
      · rw [if_neg h2] at hf
        obtain ⟨r1, r2, r3, r4, r5⟩ := I.acts s2 a2 f hf
        rw [p4, p3]
        refine ⟨r1, r2, List.mem_cons_of_mem _ r3, ?_, r5⟩
        intro h'
        rcases List.mem_append.1 h' with h' | h'
        · exact r4 h'
        · rw [List.mem_singleton] at h'; exact hc.2 (h' ▸ r3)
    · intro n hn
      rw [p4] at hn
      rcases List.mem_cons.1 hn with hn | hn
      · left; rw [p3, hn]; simp
      · rcases I.full n hn with h' | h' | h' | h' | h'
        · left; rw [p3]; exact List.mem_append_left _ h'
        · exact Or.inr (Or.inl h')
        · exact Or.inr (Or.inr (Or.inl h'))
        · exact Or.inr (Or.inr (Or.inr (Or.inl h')))
        · refine Or.inr (Or.inr (Or.inr (Or.inr fun b hb r hr => ?_)))
          refine ⟨hsome _ _ (h' b hb r hr).1, fun h0 => ?_⟩
          rw [p4]; exact List.mem_cons_of_mem _ ((h' b hb r hr).2 h0)
    · rw [p4]; exact List.mem_cons_of_mem _ hs
    · rw [p3]; simp [hh, Ne.symm hqs]
    · intro n hn; rw [p4]; exact List.mem_cons_of_mem _ hn
    · intro _; rw [p4]; exact List.mem_cons_self
    · intro L hL
      have := filter_cons_seen (hL hc.1) hc.2
      simp only [mleft, p3, p4, List.length_append, List.length_singleton]
      omega
  · rw [if_neg hc] at hsp
    obtain ⟨p1, p2, p3, p4, p5, p6, p7⟩ := hsp
    have hrec : ∀ s2 a2 n x, Rec st'.map s2 a2 n x ↔ Rec st.map s2 a2 n x := by
      intro s2 a2 n x
      unfold Rec
      simp only [p7]
      by_cases h2 : s2 = s ∧ a2 = a
      · obtain ⟨rfl, rfl⟩ := h2
        simp only [and_self, if_true, Option.some.injEq, exists_eq_left']
        cases hf : entry st.map s2 a2 with
        | none => simp
        | some f => simp
      · simp only [if_neg h2]
    have hsome : ∀ s2 a2, (entry st.map s2 a2).isSome → (entry st'.map s2 a2).isSome := by
      intro s2 a2 h'
      rw [p7]; split
      · rfl
      · exact h'
    have hsa : (entry st'.map s a).isSome := by rw [p7]; simp
    refine ⟨⟨?_, ?_, ?_, ?_, ?_, ?_, ?_, ?_, ?_, ?_, ?_, ?_, ?_, ?_⟩, ?_, ?_, ?_, hsome, hsa, ?_, ?_⟩
    · rw [p4]; exact I.nodup
    · rw [p3]; exact I.heapN
    · rw [p3, p4]; exact I.heap
    · rw [p4]; exact I.start
    · rw [p5, p4]; exact I.states
    · rw [p6, p4]; exact I.edges
    · rw [p4]; exact I.reach
    · rw [p4, p1]; exact I.term
    · rw [p4, p2]; exact I.goal
    · intro s2 a2 n x hr
      rw [p4]; exact I.true_ s2 a2 n x ((hrec _ _ _ _).1 hr)
    · intro n hn hi
      rw [p4] at hn
      obtain ⟨s2, a2, x, hr⟩ := I.parent n hn hi
      exact ⟨s2, a2, x, (hrec _ _ _ _).2 hr⟩
    · intro n s2 a2 x s3 a3 x3 hr hr'
      exact I.unique n s2 a2 x s3 a3 x3 ((hrec _ _ _ _).1 hr) ((hrec _ _ _ _).1 hr')
    · intro s2 a2 f hf
      rw [p7] at hf
      rw [p4, p3]
      by_cases h2 : s2 = s ∧ a2 = a
      · rw [h2.1, h2.2]; exact ⟨ha, hdist, hs, hh, hg, ht⟩
      · rw [if_neg h2] at hf
        exact I.acts s2 a2 f hf
    · intro n hn
      rw [p4] at hn; rw [p3]
      rcases I.full n hn with h' | h' | h' | h' | h'
      · exact Or.inl h'
      · exact Or.inr (Or.inl h')
      · exact Or.inr (Or.inr (Or.inl h'))
      · exact Or.inr (Or.inr (Or.inr (Or.inl h')))
      · refine Or.inr (Or.inr (Or.inr (Or.inr fun b hb r hr => ?_)))
        rw [p4]
        exact ⟨hsome _ _ (h' b hb r hr).1, (h' b hb r hr).2⟩
    · rw [p4]; exact hs
    · rw [p3]; exact hh
    · rw [p4]; exact fun _ h => h
    · intro h0; rw [p4]
      by_cases h1 : q.1 ∈ st.seen
      · exact h1
      · exact absurd ⟨h0, h1⟩ hc
    · intro L _
      simp only [mleft, p3, p4]; exact Nat.le_refl _

theorem succs_inv {d : MDom σ α} {init s : σ} {a : α} (hg : d.goal s = false) (ht : d.terminal s = false) (ha : a ∈ d.acts s)
    (l : List (σ × Rat)) : ∀ {st : MSt σ α}, MInv d init (some s) st → s ∈ st.seen → s ∉ st.heap → (∀ q ∈ l, q ∈ d.dist s a) →
    ∃ st', l.foldlM (succStep d s a) st = .ok st' ∧ MInv d init (some s) st' ∧ s ∈ st'.seen ∧ s ∉ st'.heap ∧
      (∀ n ∈ st.seen, n ∈ st'.seen) ∧ (∀ s2 a2, (entry st.map s2 a2).isSome → (entry st'.map s2 a2).isSome) ∧
      (∀ q ∈ l, (entry st'.map s a).isSome ∧ (q.2 ≠ 0 → q.1 ∈ st'.seen)) ∧
      ∀ L : List σ, (∀ q ∈ l, q.2 ≠ 0 → q.1 ∈ L) → mleft L st' ≤ mleft L st := by
  induction l with
  | nil =>
    intro st I hs hh _
    exact ⟨st, rfl, I, hs, hh, fun _ h => h, fun _ _ h => h, by simp, fun _ _ => Nat.le_refl _⟩
  | cons q l ih =>
    intro st I hs hh hl
    obtain ⟨st1, h1, I1, hs1, hh1, hk1, he1, hsa1, hq1, hm1⟩ := succStep_inv I hs hh hg ht ha (hl q (by simp))
    obtain ⟨st2, h2, I2, hs2, hh2, hk2, he2, hq2, hm2⟩ := ih I1 hs1 hh1 (fun r hr => hl r (by simp [hr]))
    refine ⟨st2, ?_, I2, hs2, hh2, fun n h => hk2 n (hk1 n h), fun s2 a2 h => he2 _ _ (he1 _ _ h), ?_, ?_⟩
    · rw [List.foldlM_cons, h1, bind_ok]; exact h2
    · intro r hr
      rcases List.mem_cons.1 hr with rfl | hr
      · exact ⟨he2 _ _ hsa1, fun h0 => hk2 _ (hq1 h0)⟩
      · exact hq2 r hr
    · intro L hL
      exact Nat.le_trans (hm2 L fun r hr => hL r (by simp [hr])) (hm1 L (hL q (by simp)))

theorem expand_fold {d : MDom σ α} {init s : σ} (hg : d.goal s = false) (ht : d.terminal s = false) (l : List α) :
    ∀ {st : MSt σ α}, MInv d init (some s) st → s ∈ st.seen → s ∉ st.heap → (∀ a ∈ l, a ∈ d.acts s) →
    ∃ st', l.foldlM (fun st a => (d.dist s a).foldlM (succStep d s a) st) st = .ok st' ∧ MInv d init (some s) st' ∧
      s ∈ st'.seen ∧ s ∉ st'.heap ∧
      (∀ n ∈ st.seen, n ∈ st'.seen) ∧ (∀ s2 a2, (entry st.map s2 a2).isSome → (entry st'.map s2 a2).isSome) ∧
      (∀ a ∈ l, ∀ q ∈ d.dist s a, (entry st'.map s a).isSome ∧ (q.2 ≠ 0 → q.1 ∈ st'.seen)) ∧
      ∀ L : List σ, (∀ a ∈ l, ∀ q ∈ d.dist s a, q.2 ≠ 0 → q.1 ∈ L) → mleft L st' ≤ mleft L st := by
  induction l with
  | nil =>
    intro st I hs hh _
    exact ⟨st, rfl, I, hs, hh, fun _ h => h, fun _ _ h => h, by simp, fun _ _ => Nat.le_refl _⟩
  | cons a l ih =>
    intro st I hs hh hl
    obtain ⟨st1, h1, I1, hs1, hh1, hk1, he1, hq1, hm1⟩ := succs_inv hg ht (hl a (by simp)) (d.dist s a) I hs hh (fun _ h => h)
    obtain ⟨st2, h2, I2, hs2, hh2, hk2, he2, hq2, hm2⟩ := ih I1 hs1 hh1 (fun r hr => hl r (by simp [hr]))
    refine ⟨st2, ?_, I2, hs2, hh2, fun n h => hk2 n (hk1 n h), fun s2 a2 h => he2 _ _ (he1 _ _ h), ?_, ?_⟩
    · rw [List.foldlM_cons, h1, bind_ok]; exact h2
    · intro b hb r hr
      rcases List.mem_cons.1 hb with rfl | hb
      · exact ⟨he2 _ _ (hq1 r hr).1, fun h0 => hk2 _ ((hq1 r hr).2 h0)⟩
      · exact hq2 b hb r hr
    · intro L hL
      exact Nat.le_trans (hm2 L fun r hr => hL r (by simp [hr])) (hm1 L (hL a (by simp)))

/-- Taking a state off the heap. -/
theorem pop_inv {d : MDom σ α} {init s : σ} {i : Nat} {st : MSt σ α} (I : MInv d init none st) (hi : st.heap[i]? = some s) :
    MInv d init (some s) { st with heap := st.heap.eraseIdx i } ∧ s ∈ st.seen ∧ s ∉ st.heap.eraseIdx i ∧
      (st.heap.eraseIdx i).length + 1 = st.heap.length := by
  have hsub := List.eraseIdx_sublist (l := st.heap) (k := i)
  have hmem : s ∈ st.heap := List.mem_of_getElem? hi
  have hlt : i < st.heap.length := by
    rcases Nat.lt_or_ge i st.heap.length with h | h
    · exact h
    · rw [List.getElem?_eq_none h] at hi; cases hi
  have hsplit : ∀ x, x ∈ st.heap → x = s ∨ x ∈ st.heap.eraseIdx i := by
    intro x hx
    obtain ⟨j, hj, rfl⟩ := List.getElem_of_mem hx
    by_cases hji : j = i
    · subst hji
      left
      rw [List.getElem?_eq_getElem hj] at hi
      exact Option.some.inj hi
    · right
      rw [List.mem_eraseIdx_iff_getElem]
      exact ⟨j, hj, hji, rfl⟩
  have hnot : s ∉ st.heap.eraseIdx i := by
    rw [List.mem_eraseIdx_iff_getElem]
    rintro ⟨j, hj, hji, h⟩
    rw [List.getElem?_eq_getElem hlt] at hi
    have := (List.Nodup.getElem_inj_iff I.heapN (hi := hj) (hj := hlt)).1 (h.trans (Option.some.inj hi).symm)
    exact hji this
  refine ⟨⟨I.nodup, hsub.nodup I.heapN, fun x hx => I.heap x (hsub.subset hx), I.start, I.states, I.edges, I.reach, I.term, I.goal,
    I.true_, I.parent, I.unique, ?_, ?_⟩, I.heap s hmem, hnot, ?_⟩
  · intro s2 a2 f hf
    obtain ⟨r1, r2, r3, r4, r5⟩ := I.acts s2 a2 f hf
    exact ⟨r1, r2, r3, fun h => r4 (hsub.subset h), r5⟩
  · intro n hn
    rcases I.full n hn with h | h | h
    · rcases hsplit n h with h | h
      · exact Or.inr (Or.inl (by rw [h]))
      · exact Or.inl h
    · cases h
    · exact Or.inr (Or.inr h)
  · rw [List.length_eraseIdx_of_lt hlt]; omega

theorem close_inv {d : MDom σ α} {init s : σ} {st : MSt σ α} (I : MInv d init (some s) st)
    (h : d.goal s = true ∨ d.terminal s = true ∨
      ∀ a ∈ d.acts s, ∀ q ∈ d.dist s a, (entry st.map s a).isSome ∧ (q.2 ≠ 0 → q.1 ∈ st.seen)) : MInv d init none st := by
  refine ⟨I.nodup, I.heapN, I.heap, I.start, I.states, I.edges, I.reach, I.term, I.goal, I.true_, I.parent, I.unique, I.acts, ?_⟩
  intro n hn
  rcases I.full n hn with h' | h' | h'
  · exact Or.inl h'
  · cases h'; exact Or.inr (Or.inr h)
  · exact Or.inr (Or.inr h')

theorem mfirst_inv (d : MDom σ α) (init : σ) : MInv d init none (mfirst d init) := by
  refine ⟨by simp [mfirst], by simp [mfirst], by simp [mfirst], by simp [mfirst], rfl, rfl, ?_, ?_, ?_, ?_, ?_, ?_, ?_, ?_⟩
  · intro s h
    simp [mfirst] at h
    subst h; exact .init
  · intro s
    simp only [mfirst, Dict.get?, List.mem_singleton]
    by_cases h : init = s
    · simp [h]
    · simp [h, Ne.symm h]
  · intro s
    simp only [mfirst, Dict.get?, List.mem_singleton]
    by_cases h : init = s
    · simp [h]
    · simp [h, Ne.symm h]
  · rintro s a n x ⟨f, hf, _⟩
    simp [mfirst, entry] at hf
  · intro n hn hi
    simp [mfirst] at hn
    exact absurd hn hi
  · rintro n s a x s' a' x' ⟨f, hf, _⟩
    simp [mfirst, entry] at hf
  · intro s a f hf
    simp [mfirst, entry] at hf
  · intro s hs
    simp [mfirst] at hs
    left; simp [mfirst, hs]

theorem mloop_unfold {d : MDom σ α} {l : Limits} {pick : List σ → Nat} {fuel : Nat} {st : MSt σ α} {s : σ}
    (hst : st.states = st.seen.length) (hi : st.heap[pick st.heap % st.heap.length]? = some s) :
    mloop d l pick (fuel + 1) st = (if d.goal s || d.terminal s then
        mloop d l pick fuel { st with heap := st.heap.eraseIdx (pick st.heap % st.heap.length) }
      else do
        let st3 ← expand d s { st with heap := st.heap.eraseIdx (pick st.heap % st.heap.length) }
        let b ← mstop l st3
        if b then .ok (some st3) else mloop d l pick fuel st3) := by
  have hst1 : (if st.seen.length % 100 = 0 ∧ st.seen.length > st.states then { st with states := st.seen.length } else st) = st := by
    rw [if_neg]; omega
  have hne : st.heap ≠ [] := by rintro h; rw [h] at hi; simp at hi
  conv => lhs; unfold mloop
  rw [if_neg hne]
  simp only [hst1]
  rw [pyGet_ok_iff.2 hi, bind_ok]

/-- One turn of the loop. -/
theorem mloop_step {d : MDom σ α} {l : Limits} {pick : List σ → Nat} {init : σ} {fuel : Nat} {st : MSt σ α} (I : MInv d init none st)
    (hne : st.heap ≠ []) :
    ∃ s st', s ∈ st.seen ∧ MInv d init none st' ∧ (∀ n ∈ st.seen, n ∈ st'.seen) ∧
      (∀ L : List σ, (∀ n, MReach d init n → n ∈ L) → mleft L st' < mleft L st) ∧
      (mloop d l pick (fuel + 1) st = mloop d l pick fuel st' ∨
        ((d.goal s = false ∧ d.terminal s = false) ∧ mloop d l pick (fuel + 1) st =
          (mstop l st' >>= fun b => if b then .ok (some st') else mloop d l pick fuel st'))) := by
  have hlen : 0 < st.heap.length := List.length_pos_iff.2 hne
  have hlt : pick st.heap % st.heap.length < st.heap.length := Nat.mod_lt _ hlen
  have hi : st.heap[pick st.heap % st.heap.length]? = some st.heap[pick st.heap % st.heap.length] := List.getElem?_eq_getElem hlt
  obtain ⟨I1, hs, hh, hl⟩ := pop_inv I hi
  have hunf := mloop_unfold (d := d) (l := l) (fuel := fuel) I.states hi
  generalize st.heap[pick st.heap % st.heap.length] = s at *
  by_cases hgt : (d.goal s || d.terminal s) = true
  · rw [if_pos hgt] at hunf
    refine ⟨s, _, hs, close_inv I1 ?_, fun _ h => h, ?_, Or.inl hunf⟩
    · rcases Bool.or_eq_true_iff.1 hgt with h | h
      · exact Or.inl h
      · exact Or.inr (Or.inl h)
    · intro L _
      simp only [mleft]; omega
  · rw [if_neg hgt] at hunf
    simp only [Bool.or_eq_true, not_or, Bool.not_eq_true] at hgt
    obtain ⟨st3, h3, I3, hs3, hh3, hk3, _, hq3, hm3⟩ := expand_fold hgt.1 hgt.2 (d.acts s) I1 hs hh (fun _ h => h)
    have h3' : expand d s { st with heap := st.heap.eraseIdx (pick st.heap % st.heap.length) } = .ok st3 := h3
    refine ⟨s, st3, hs, close_inv I3 (Or.inr (Or.inr hq3)), hk3, ?_, Or.inr ⟨hgt, ?_⟩⟩
    · intro L hL
      have := hm3 L (fun a ha q hq h0 => hL _ (.step (I.reach s hs) hgt.1 hgt.2 ha hq h0))
      have h4 : mleft L ({ st with heap := st.heap.eraseIdx (pick st.heap % st.heap.length) } : MSt σ α) + 1 = mleft L st := by
        simp only [mleft]; omega
      omega
    · rw [hunf, h3', bind_ok]

omit [DecidableEq σ] [DecidableEq α] in
theorem mstop_total {e n : Nat} {p : Option Nat} (st : MSt σ α) : mstop ⟨some e, some n, p⟩ st = .ok (decide (st.states > n ∨ st.edges > e)) := by
  unfold mstop over
  simp only [bind_ok]
  by_cases h : st.states > n <;> simp [h]

theorem mloop_inv {d : MDom σ α} {l : Limits} {pick : List σ → Nat} {init : σ} (fuel : Nat) : ∀ {st st' : MSt σ α},
    MInv d init none st → mloop d l pick fuel st = .ok (some st') →
    MInv d init none st' ∧ (st'.heap = [] ∨ mstop l st' = .ok true) := by
  induction fuel with
  | zero => intro st st' _ h; cases h
  | succ fuel ih =>
    intro st st' I h
    by_cases hne : st.heap = []
    · unfold mloop at h
      rw [if_pos hne] at h
      cases h
      exact ⟨I, Or.inl hne⟩
    · obtain ⟨s, st1, _, I1, _, _, h1 | ⟨_, h1⟩⟩ := mloop_step (l := l) (pick := pick) (fuel := fuel) I hne
      · rw [h1] at h; exact ih I1 h
      · rw [h1] at h
        obtain ⟨b, hb, h⟩ := bind_eq_ok.1 h
        cases b with
        | true => rw [if_pos rfl] at h; cases h; exact ⟨I1, Or.inr hb⟩
        | false => rw [if_neg (by simp)] at h; exact ih I1 h

theorem mloop_safe {d : MDom σ α} {e n : Nat} {p : Option Nat} {pick : List σ → Nat} {init : σ} (fuel : Nat) : ∀ {st : MSt σ α},
    MInv d init none st → ∃ r, mloop d ⟨some e, some n, p⟩ pick fuel st = .ok r := by
  induction fuel with
  | zero => intro st _; exact ⟨none, rfl⟩
  | succ fuel ih =>
    intro st I
    by_cases hne : st.heap = []
    · unfold mloop; rw [if_pos hne]; exact ⟨_, rfl⟩
    · obtain ⟨s, st1, _, I1, _, _, h1 | ⟨_, h1⟩⟩ := mloop_step (l := ⟨some e, some n, p⟩) (pick := pick) (fuel := fuel) I hne
      · rw [h1]; exact ih I1
      · rw [h1, mstop_total, bind_ok]
        split
        · exact ⟨_, rfl⟩
        · exact ih I1

theorem mloop_ends {d : MDom σ α} {l : Limits} {pick : List σ → Nat} {init : σ} {L : List σ} (hL : ∀ n, MReach d init n → n ∈ L)
    (fuel : Nat) : ∀ {st : MSt σ α}, MInv d init none st → mleft L st < fuel → mloop d l pick fuel st ≠ .ok none := by
  induction fuel with
  | zero => intro st _ h; omega
  | succ fuel ih =>
    intro st I h h0
    by_cases hne : st.heap = []
    · unfold mloop at h0; rw [if_pos hne] at h0; cases h0
    · obtain ⟨s, st1, _, I1, _, hm, h1 | ⟨_, h1⟩⟩ := mloop_step (l := l) (pick := pick) (fuel := fuel) I hne
      · rw [h1] at h0
        have := hm L hL
        exact ih I1 (by omega) h0
      · rw [h1] at h0
        obtain ⟨b, hb, h0⟩ := bind_eq_ok.1 h0
        have := hm L hL
        cases b with
        | true => rw [if_pos rfl] at h0; cases h0
        | false => rw [if_neg (by simp)] at h0; exact ih I1 (by omega) h0

theorem minv_complete {d : MDom σ α} {init : σ} {st : MSt σ α} (I : MInv d init none st) (h : st.heap = []) :
    ∀ s, MReach d init s → s ∈ st.seen := by
  intro s hr
  induction hr with
  | init => exact I.start
  | step hr hg ht ha hq hp ih =>
    rcases I.full _ ih with h1 | h1 | h1 | h1 | h1
    · rw [h] at h1; cases h1
    · cases h1
    · rw [hg] at h1; cases h1
    · rw [ht] at h1; cases h1
    · exact (h1 _ ha _ hq).2 hp

/-! ### `reachable_states` -/

/-- The states met with some probability from the start, going on from states that are not terminal. -/
inductive TReach (d : MDom σ α) (init : σ) : σ → Prop
  | init : TReach d init init
  | step {s s' : σ} {a : α} {p : Rat} : TReach d init s → d.terminal s = false → a ∈ d.acts s → (s', p) ∈ d.dist s a → p ≠ 0 →
      TReach d init s'

def rstep (r : List σ × List σ) (q : σ × Rat) : List σ × List σ := if q.2 ≠ 0 ∧ q.1 ∉ r.2 then (q.1 :: r.1, q.1 :: r.2) else r

structure RInv (d : MDom σ α) (init : σ) (o : Option σ) (r : List σ × List σ) : Prop where
  nodup : r.2.Nodup
  stackN : r.1.Nodup
  sub : ∀ s ∈ r.1, s ∈ r.2
  start : init ∈ r.2
  reach : ∀ s ∈ r.2, TReach d init s
  full : ∀ s ∈ r.2, s ∈ r.1 ∨ o = some s ∨ d.terminal s = true ∨ ∀ a ∈ d.acts s, ∀ q ∈ d.dist s a, q.2 ≠ 0 → q.1 ∈ r.2

def rleft (L : List σ) (r : List σ × List σ) : Nat := (L.filter fun s => decide (s ∉ r.2)).length + r.1.length

omit [DecidableEq α] in
theorem rstep_inv {d : MDom σ α} {init s : σ} {a : α} {r : List σ × List σ} {q : σ × Rat} (I : RInv d init (some s) r) (hs : s ∈ r.2)
    (ht : d.terminal s = false) (ha : a ∈ d.acts s) (hq : q ∈ d.dist s a) :
    RInv d init (some s) (rstep r q) ∧ (∀ n ∈ r.2, n ∈ (rstep r q).2) ∧ (q.2 ≠ 0 → q.1 ∈ (rstep r q).2) ∧
      ∀ L : List σ, (q.2 ≠ 0 → q.1 ∈ L) → rleft L (rstep r q) ≤ rleft L r := by
  unfold rstep
  by_cases hc : q.2 ≠ 0 ∧ q.1 ∉ r.2
  · rw [if_pos hc]
    refine ⟨⟨List.nodup_cons.2 ⟨hc.2, I.nodup⟩, List.nodup_cons.2 ⟨fun h => hc.2 (I.sub _ h), I.stackN⟩, ?_, ?_, ?_, ?_⟩, ?_, ?_, ?_⟩
    · intro n hn
      rcases List.mem_cons.1 hn with hn | hn
      · rw [hn]; exact List.mem_cons_self
      · exact List.mem_cons_of_mem _ (I.sub n hn)
    · exact List.mem_cons_of_mem _ I.start
    · intro n hn
      rcases List.mem_cons.1 hn with hn | hn
      · rw [hn]; exact .step (I.reach s hs) ht ha hq hc.1
      · exact I.reach n hn
    · intro n hn
      rcases List.mem_cons.1 hn with hn | hn
      · rw [hn]; exact Or.inl List.mem_cons_self
      · rcases I.full n hn with h | h | h | h
        · exact Or.inl (List.mem_cons_of_mem _ h)
        · exact Or.inr (Or.inl h)
        · exact Or.inr (Or.inr (Or.inl h))
        · exact Or.inr (Or.inr (Or.inr fun b hb u hu h0 => List.mem_cons_of_mem _ (h b hb u hu h0)))
    · exact fun n hn => List.mem_cons_of_mem _ hn
    · exact fun _ => List.mem_cons_self
    · intro L hL
      have := filter_cons_seen (hL hc.1) hc.2
      simp only [rleft, List.length_cons]; omega
  · rw [if_neg hc]
    refine ⟨I, fun _ h => h, ?_, fun _ _ => Nat.le_refl _⟩
    intro h0
    by_cases h1 : q.1 ∈ r.2
    · exact h1
    · exact absurd ⟨h0, h1⟩ hc

omit [DecidableEq α] in
theorem rsteps_inv {d : MDom σ α} {init s : σ} {a : α} (ht : d.terminal s = false) (ha : a ∈ d.acts s) (l : List (σ × Rat)) :
    ∀ {r : List σ × List σ}, RInv d init (some s) r → s ∈ r.2 → (∀ q ∈ l, q ∈ d.dist s a) →
    RInv d init (some s) (l.foldl rstep r) ∧ (∀ n ∈ r.2, n ∈ (l.foldl rstep r).2) ∧ (∀ q ∈ l, q.2 ≠ 0 → q.1 ∈ (l.foldl rstep r).2) ∧
      ∀ L : List σ, (∀ q ∈ l, q.2 ≠ 0 → q.1 ∈ L) → rleft L (l.foldl rstep r) ≤ rleft L r := by
  induction l with
  | nil => intro r I _ _; exact ⟨I, fun _ h => h, by simp, fun _ _ => Nat.le_refl _⟩
  | cons q l ih =>
    intro r I hs hl
    obtain ⟨I1, hk1, hq1, hm1⟩ := rstep_inv I hs ht ha (hl q (by simp))
    obtain ⟨I2, hk2, hq2, hm2⟩ := ih I1 (hk1 s hs) (fun u hu => hl u (by simp [hu]))
    refine ⟨I2, fun n h => hk2 n (hk1 n h), ?_, ?_⟩
    · intro u hu h0
      rcases List.mem_cons.1 hu with rfl | hu
      · exact hk2 _ (hq1 h0)
      · exact hq2 u hu h0
    · intro L hL
      exact Nat.le_trans (hm2 L fun u hu => hL u (by simp [hu])) (hm1 L (hL q (by simp)))

omit [DecidableEq α] in
theorem racts_inv {d : MDom σ α} {init s : σ} (ht : d.terminal s = false) (l : List α) :
    ∀ {r : List σ × List σ}, RInv d init (some s) r → s ∈ r.2 → (∀ a ∈ l, a ∈ d.acts s) →
    RInv d init (some s) (l.foldl (fun r a => (d.dist s a).foldl rstep r) r) ∧
      (∀ n ∈ r.2, n ∈ (l.foldl (fun r a => (d.dist s a).foldl rstep r) r).2) ∧
      (∀ a ∈ l, ∀ q ∈ d.dist s a, q.2 ≠ 0 → q.1 ∈ (l.foldl (fun r a => (d.dist s a).foldl rstep r) r).2) ∧
      ∀ L : List σ, (∀ a ∈ l, ∀ q ∈ d.dist s a, q.2 ≠ 0 → q.1 ∈ L) →
        rleft L (l.foldl (fun r a => (d.dist s a).foldl rstep r) r) ≤ rleft L r := by
  induction l with
  | nil => intro r I _ _; exact ⟨I, fun _ h => h, by simp, fun _ _ => Nat.le_refl _⟩
  | cons a l ih =>
    intro r I hs hl
    obtain ⟨I1, hk1, hq1, hm1⟩ := rsteps_inv ht (hl a (by simp)) (d.dist s a) I hs (fun _ h => h)
    obtain ⟨I2, hk2, hq2, hm2⟩ := ih I1 (hk1 s hs) (fun u hu => hl u (by simp [hu]))
    refine ⟨I2, fun n h => hk2 n (hk1 n h), ?_, ?_⟩
    · intro b hb u hu h0
      rcases List.mem_cons.1 hb with rfl | hb
      · exact hk2 _ (hq1 u hu h0)
      · exact hq2 b hb u hu h0
    · intro L hL
      exact Nat.le_trans (hm2 L fun u hu => hL u (by simp [hu])) (hm1 L (hL a (by simp)))

omit [DecidableEq α] in
theorem reachLoop_step {d : MDom σ α} {init s : σ} {rest seen : List σ} {fuel : Nat} (I : RInv d init none (s :: rest, seen)) :
    ∃ r, reachLoop d (fuel + 1) (s :: rest) seen = reachLoop d fuel r.1 r.2 ∧ RInv d init none r ∧
      ∀ L : List σ, (∀ n, TReach d init n → n ∈ L) → rleft L r < rleft L (s :: rest, seen) := by
  have hs : s ∈ seen := I.sub s List.mem_cons_self
  have hN := I.stackN
  simp only [List.nodup_cons] at hN
  have I1 : RInv d init (some s) (rest, seen) := by
    refine ⟨I.nodup, hN.2, fun n hn => I.sub n (List.mem_cons_of_mem _ hn), I.start, I.reach, ?_⟩
    intro n hn
    rcases I.full n hn with h | h | h
    · rcases List.mem_cons.1 h with h | h
      · exact Or.inr (Or.inl (by rw [h]))
      · exact Or.inl h
    · cases h
    · exact Or.inr (Or.inr h)
  have close : ∀ r : List σ × List σ, RInv d init (some s) r → (d.terminal s = true ∨ ∀ a ∈ d.acts s, ∀ q ∈ d.dist s a, q.2 ≠ 0 → q.1 ∈ r.2) →
      RInv d init none r := by
    intro r R h
    refine ⟨R.nodup, R.stackN, R.sub, R.start, R.reach, ?_⟩
    intro n hn
    rcases R.full n hn with h' | h' | h'
    · exact Or.inl h'
    · cases h'; exact Or.inr (Or.inr h)
    · exact Or.inr (Or.inr h')
  by_cases ht : d.terminal s = true
  · refine ⟨(rest, seen), ?_, close _ I1 (Or.inl ht), ?_⟩
    · simp only [reachLoop]; rw [if_pos ht]
    · intro L _; simp only [rleft, List.length_cons]; omega
  · simp only [Bool.not_eq_true] at ht
    obtain ⟨I2, hk, hq, hm⟩ := racts_inv ht (d.acts s) I1 hs (fun _ h => h)
    refine ⟨_, ?_, close _ I2 (Or.inr hq), ?_⟩
    · simp only [reachLoop]; rw [if_neg (by simp [ht])]; rfl
    · intro L hL
      have := hm L (fun a ha q hq h0 => hL _ (.step (I.reach s hs) ht ha hq h0))
      have h1 : rleft L (rest, seen) < rleft L (s :: rest, seen) := by simp only [rleft, List.length_cons]; omega
      omega

omit [DecidableEq α] in
theorem reachLoop_inv {d : MDom σ α} {init : σ} (fuel : Nat) : ∀ {stack seen out : List σ}, RInv d init none (stack, seen) →
    reachLoop d fuel stack seen = some out → RInv d init none ([], out) := by
  induction fuel with
  | zero => intro stack seen out _ h; simp [reachLoop] at h
  | succ fuel ih =>
    intro stack seen out I h
    cases stack with
    | nil => simp only [reachLoop, Option.some.injEq] at h; exact h ▸ I
    | cons s rest =>
      obtain ⟨r, h1, I1, _⟩ := reachLoop_step (fuel := fuel) I
      rw [h1] at h
      exact ih I1 h

omit [DecidableEq α] in
theorem reachLoop_ends {d : MDom σ α} {init : σ} {L : List σ} (hL : ∀ n, TReach d init n → n ∈ L) (fuel : Nat) :
    ∀ {stack seen : List σ}, RInv d init none (stack, seen) → rleft L (stack, seen) < fuel → reachLoop d fuel stack seen ≠ none := by
  induction fuel with
  | zero => intro stack seen _ h; omega
  | succ fuel ih =>
    intro stack seen I h
    cases stack with
    | nil => simp [reachLoop]
    | cons s rest =>
      obtain ⟨r, h1, I1, hm⟩ := reachLoop_step (fuel := fuel) I
      rw [h1]
      have := hm L hL
      exact ih I1 (show rleft L (r.1, r.2) < fuel from Nat.lt_of_lt_of_le this (Nat.lt_succ_iff.1 h))

omit [DecidableEq σ] [DecidableEq α] in
theorem reach_first (d : MDom σ α) (init : σ) : RInv d init none ([init], [init]) := by
  refine ⟨by simp, by simp, fun _ h => h, by simp, ?_, fun s h => Or.inl h⟩
  intro s h
  rw [List.mem_singleton.1 h]; exact .init

end Verif.Explore
