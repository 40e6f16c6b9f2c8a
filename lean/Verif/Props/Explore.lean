import Verif.Lemmas.Explore
/-!
C114: exploring a deterministic domain gives a true graph of it, and all of it when no limit is met.

`Reach d init s` (Lemmas/Explore.lean) says that `s` is met from `init`, going on from `init` and from states that are not
goals.
-/
namespace Verif.Explore

variable {σ α ν : Type} [DecidableEq σ] [DecidableEq α]

/-- With the default limits (`None`) exploring raises `TypeError`, whatever the domain; so does leaving out only the limit on
paths. -/
theorem C114_defaults_raise (d : Dom σ α ν) (e n : Option Nat) (fuel : Nat) (init : σ) :
    explore d ⟨e, n, none⟩ (fuel + 1) init = .error .typeError ∧ full d ⟨e, n, none⟩ (fuel + 1) init = .error .typeError := by
  constructor
  · obtain ⟨st', pre', h, _⟩ := vertex_step (first_inv d init) (v := init) (rest := []) rfl
    unfold explore loop
    simp only [first] at h ⊢
    rw [h]; rfl
  · obtain ⟨st', h, _⟩ := full_first d init
    unfold full fullLoop
    simp only [first] at h ⊢
    rw [h]; rfl

/-- With the three limits given, exploring raises nothing of its own. -/
theorem C114_safe (d : Dom σ α ν) (e n p fuel : Nat) (init : σ) : ∃ r, explore d ⟨some e, some n, some p⟩ fuel init = .ok r :=
  loop_safe fuel (first_inv d init)

/-- Whatever the limits: the states of the graph are distinct and reachable, the start among them; what is recorded for an
action of a state is its next state, which is in the graph, with the attributes of that transition; a state has all its
actions or none; and the counters are those of the graph. -/
theorem C114_sound {d : Dom σ α ν} {l : Limits} {fuel : Nat} {init : σ} {st : St σ α ν} (h : explore d l fuel init = .ok (some st)) :
    st.map.keys.Nodup ∧ init ∈ st.map.keys ∧ (∀ s ∈ st.map.keys, Reach d init s) ∧ st.attrs.keys = st.map.keys ∧
    (∀ s a n, entry st.map s a = some n → a ∈ d.acts s ∧ n = d.next s a ∧ n ∈ st.map.keys) ∧
    (∀ s a x, entry st.attrs s a = some x ↔ (entry st.map s a).isSome ∧ x = d.info s a (d.next s a)) ∧
    (∀ s ∈ st.map.keys, (∀ a ∈ d.acts s, (entry st.map s a).isSome) ∨ st.map.get? s = some []) ∧
    st.nodes = st.map.length ∧ st.edges = (st.map.map fun q => q.2.length).sum ∧
    st.paths = (st.map.map fun q => (q.2.filter fun r => d.goal r.2).length).sum ∧
    ∀ s e, st.map.get? s = some e → e.keys.Nodup := by
  obtain ⟨pre, I, _, _⟩ := loop_inv fuel (first_inv d init) h
  have hent : ∀ s a n, entry st.map s a = some n ↔ s ∈ st.map.keys ∧ a ∈ pre s ∧ n = d.next s a := by
    intro s a n
    unfold entry
    constructor
    · intro h
      cases hm : st.map.get? s with
      | none => rw [hm] at h; cases h
      | some e =>
        rw [hm] at h
        exact ⟨mem_keys.2 ⟨_, hm⟩, ((I.row s e hm).2 a n).1 h⟩
    · rintro ⟨h1, h2⟩
      obtain ⟨e, he⟩ := mem_keys.1 h1
      rw [he]; exact ((I.row s e he).2 a n).2 h2
  have hsome : ∀ s a, (entry st.map s a).isSome ↔ s ∈ st.map.keys ∧ a ∈ pre s := by
    intro s a
    rw [Option.isSome_iff_exists]
    constructor
    · rintro ⟨n, hn⟩; have := (hent s a n).1 hn; exact ⟨this.1, this.2.1⟩
    · intro h; exact ⟨_, (hent s a _).2 ⟨h.1, h.2, rfl⟩⟩
  refine ⟨I.nodup, I.start, I.reach, I.same, ?_, ?_, ?_, ?_, I.edges, I.paths, fun s e he => (I.row s e he).1⟩
  · intro s a n hn
    obtain ⟨h1, h2, h3⟩ := (hent s a n).1 hn
    exact ⟨I.sub s a h2, h3, h3 ▸ I.closed s a h2⟩
  · intro s a x
    rw [hsome]
    unfold entry
    constructor
    · intro h
      cases hm : st.attrs.get? s with
      | none => rw [hm] at h; cases h
      | some e =>
        rw [hm] at h
        have := (I.arow s e hm a x).1 h
        exact ⟨⟨I.same ▸ mem_keys.2 ⟨_, hm⟩, this.1⟩, this.2⟩
    · rintro ⟨⟨h1, h2⟩, h3⟩
      obtain ⟨e, he⟩ := mem_keys.1 (I.same ▸ h1 : s ∈ st.attrs.keys)
      rw [he]; exact (I.arow s e he a x).2 ⟨h2, h3⟩
  · intro s hs
    have empty : pre s = [] → st.map.get? s = some [] := by
      intro hp
      obtain ⟨e, he⟩ := mem_keys.1 hs
      have := (I.row s e he).2
      rw [he]
      cases e with
      | nil => rfl
      | cons q e =>
        have h1 := (this q.1 q.2).1 (by simp [Dict.get?])
        rw [hp] at h1; cases h1.1
    rcases I.part s hs with h1 | h1 | h1 | h1
    · exact Or.inr (empty (I.stk s h1).2.1)
    · cases h1
    · left
      intro a ha
      rw [hsome, h1.1]; exact ⟨hs, ha⟩
    · exact Or.inr (empty h1.1)
  · rw [I.nodes]; simp [Dict.keys]

/-- Unless a limit is exceeded (the limits on nodes and edges only count once a goal has been met), the graph is complete: it has
all the reachable states, and all the transitions from those that are not goals, and from the start. -/
theorem C114_complete {d : Dom σ α ν} {e n p fuel : Nat} {init : σ} {st : St σ α ν}
    (h : explore d ⟨some e, some n, some p⟩ fuel init = .ok (some st)) (hp : st.paths ≤ p)
    (hl : st.paths = 0 ∨ (st.nodes ≤ n ∧ st.edges ≤ e)) :
    (∀ s, s ∈ st.map.keys ↔ Reach d init s) ∧
    ∀ s, Reach d init s → (s = init ∨ d.goal s = false) → ∀ a m, entry st.map s a = some m ↔ a ∈ d.acts s ∧ m = d.next s a := by
  obtain ⟨pre, I, hst, _⟩ := loop_inv fuel (first_inv d init) h
  have hst : st.stack = [] := by
    rcases hst with h1 | h1
    · exact h1
    · rw [stop_total] at h1
      simp only [Except.ok.injEq, decide_eq_true_iff] at h1
      omega
  have hc := inv_complete I hst
  refine ⟨fun s => ⟨I.reach s, fun hr => (hc s hr).1⟩, ?_⟩
  intro s hr hg a m
  obtain ⟨h1, h2⟩ := hc s hr
  obtain ⟨row, he⟩ := mem_keys.1 h1
  unfold entry
  rw [he, ← h2 hg]
  exact (I.row s row he).2 a m

/-- If finitely many states are reachable, exploring comes to an end, after at most as many turns as there are states. -/
theorem C114_finite {d : Dom σ α ν} {e n p : Nat} {init : σ} {L : List σ} (hN : L.Nodup) (hL : ∀ s, Reach d init s → s ∈ L) {fuel : Nat}
    (hf : L.length < fuel) : ∃ st, explore d ⟨some e, some n, some p⟩ fuel init = .ok (some st) := by
  obtain ⟨r, hr⟩ := C114_safe d e n p fuel init
  cases r with
  | some st => exact ⟨st, hr⟩
  | none =>
    exfalso
    refine loop_ends hL fuel (first_inv d init) ?_ hr
    have : left L (first init : St σ α ν) = L.length := by
      unfold left
      have hi := hL init .init
      have h1 : (fun s => decide (s ∉ (first init : St σ α ν).map.keys)) = fun s => !(s == init) := by
        funext s; simp [first, Dict.keys]; rfl
      rw [h1]
      have h2 : (L.filter fun s => !(s == init)) = L.erase init := by
        rw [List.Nodup.erase_eq_filter hN]; rfl
      rw [h2, List.length_erase_of_mem hi]
      have : 0 < L.length := List.length_pos_of_mem hi
      simp [first]; omega
    omega

/-- As long as no goal can be reached the limits on nodes and edges do nothing: when exploring ends the graph is complete, and with
infinitely many reachable states it does not end. -/
theorem C114_no_goal {d : Dom σ α ν} {e n p : Nat} {init : σ} (hg : ∀ s a, Reach d init s → a ∈ d.acts s → d.goal (d.next s a) = false) :
    (∀ fuel st, explore d ⟨some e, some n, some p⟩ fuel init = .ok (some st) → ∀ s, s ∈ st.map.keys ↔ Reach d init s) ∧
    ((∀ L : List σ, ∃ s, Reach d init s ∧ s ∉ L) → ∀ fuel, explore d ⟨some e, some n, some p⟩ fuel init = .ok none) := by
  have key : ∀ fuel st, explore d ⟨some e, some n, some p⟩ fuel init = .ok (some st) → ∀ s, s ∈ st.map.keys ↔ Reach d init s := by
    intro fuel st h
    obtain ⟨pre, I, _, _⟩ := loop_inv fuel (first_inv d init) h
    have h0 := inv_no_goal I hg
    exact (C114_complete h (by omega) (Or.inl h0)).1
  refine ⟨key, fun hinf fuel => ?_⟩
  obtain ⟨r, hr⟩ := C114_safe d e n p fuel init
  cases r with
  | none => exact hr
  | some st =>
    obtain ⟨s, h1, h2⟩ := hinf st.map.keys
    exact absurd ((key fuel st hr s).2 h1) h2

/-- The explorer of the full space expands the start only: when it returns, the graph has the start and its successors, all the
transitions of the start and no others. -/
theorem C114_full_one_level {d : Dom σ α ν} {l : Limits} {fuel : Nat} {init : σ} {st : St σ α ν} (h : full d l fuel init = .ok (some st)) :
    (∀ s, s ∈ st.map.keys ↔ s = init ∨ ∃ a ∈ d.acts init, s = d.next init a) ∧
    ∀ s a n, entry st.map s a = some n ↔ s = init ∧ a ∈ d.acts init ∧ n = d.next init a := by
  obtain ⟨st', h1, I⟩ := full_first d init
  have hst : st = st' := by
    unfold full at h
    cases fuel with
    | zero => cases h
    | succ fuel =>
      unfold fullLoop at h
      simp only [first] at h h1
      rw [h1, bind_ok] at h
      obtain ⟨b, hb, h⟩ := bind_eq_ok.1 h
      cases b with
      | true => rw [if_pos rfl] at h; cases h; rfl
      | false =>
        rw [if_neg (by simp)] at h
        cases fuel with
        | zero => cases h
        | succ fuel =>
          unfold fullLoop at h
          rw [I.stack] at h
          cases h; rfl
  subst hst
  obtain ⟨e, he, hrow⟩ := I.row
  refine ⟨I.keys, fun s a n => ?_⟩
  unfold entry
  by_cases hs : s = init
  · subst hs
    rw [he]
    simp only [true_and]
    exact hrow a n
  · simp only [hs, false_and, iff_false]
    cases hm : st.map.get? s with
    | none => simp
    | some e' => rw [I.other s e' hs hm]; simp

/-- The domain made from a complete exploration (costs named by strings, as both explorers do): its actions and next states are
those of the domain explored. -/
theorem C114_graph_partial {d : Dom σ α (Dict (Option String) Int)} {e n p fuel : Nat} {init : σ} {st : St σ α (Dict (Option String) Int)}
    (h : explore d ⟨some e, some n, some p⟩ fuel init = .ok (some st)) (hp : st.paths ≤ p)
    (hl : st.paths = 0 ∨ (st.nodes ≤ n ∧ st.edges ≤ e)) {s : σ} (hs : Reach d init s) (hg : s = init ∨ d.goal s = false) :
    (∃ as, (result st).acts s = .ok as ∧ as.Nodup ∧ ∀ a, a ∈ as ↔ a ∈ d.acts s) ∧
    (∀ a ∈ d.acts s, (result st).next s a = .ok (d.next s a)) ∧ ∀ a, a ∉ d.acts s → (result st).next s a = .error .keyError := by
  obtain ⟨c1, c2⟩ := C114_complete h hp hl
  obtain ⟨_, _, _, _, _, _, _, _, _, _, hN⟩ := C114_sound h
  obtain ⟨row, he⟩ := mem_keys.1 ((c1 s).2 hs)
  have hc := c2 s hs hg
  simp only [entry, he, Option.bind_some] at hc
  refine ⟨⟨row.keys, ?_, hN s row he, ?_⟩, ?_, ?_⟩
  · simp only [Graph.acts, result]; rw [Dict.get_ok_iff.2 he]; rfl
  · intro a
    rw [mem_keys]
    constructor
    · rintro ⟨m, hm⟩; exact ((hc a m).1 hm).1
    · intro ha; exact ⟨_, (hc a _).2 ⟨ha, rfl⟩⟩
  · intro a ha
    simp only [Graph.next, result]
    rw [Dict.get_ok_iff.2 he, bind_ok, Dict.get_ok_iff]
    exact (hc a _).2 ⟨ha, rfl⟩
  · intro a ha
    simp only [Graph.next, result]
    rw [Dict.get_ok_iff.2 he, bind_ok]
    unfold Dict.get
    cases hm : row.get? a with
    | none => rfl
    | some m => exact absurd ((hc a m).1 hm).1 ha

/-- But it has no goal, and when the attributes have names (strings, never `None`) the cost of no recorded transition can be had: asking
for one raises `KeyError`. -/
theorem C114_graph_lost {d : Dom σ α (Dict (Option String) Int)} {l : Limits} {fuel : Nat} {init : σ} {st : St σ α (Dict (Option String) Int)}
    (h : explore d l fuel init = .ok (some st)) (hx : ∀ s a n, (d.info s a n).get? none = none) :
    (∀ s, (result st).goal s = false) ∧ ∀ s a, (entry st.map s a).isSome → (result st).cost s a = .error .keyError := by
  obtain ⟨_, _, _, _, _, hat, _, _, _, _, _⟩ := C114_sound h
  refine ⟨fun s => by simp [Graph.goal, result], fun s a hs => ?_⟩
  have h1 := (hat s a _).2 ⟨hs, rfl⟩
  unfold entry at h1
  cases hm : st.attrs.get? s with
  | none => rw [hm] at h1; cases h1
  | some t =>
    rw [hm, Option.bind_some] at h1
    simp only [Graph.cost, result]
    rw [Dict.get_ok_iff.2 hm, bind_ok, Dict.get_ok_iff.2 h1, bind_ok]
    unfold Dict.get
    rw [hx]

/-- Merging two graphs whose transitions all have attributes: the states are those of both, each transition is the one of the first
graph or, failing that, of the second, with the attributes of the same graph; targets and weights are those of the first. -/
theorem C114_merge {g other : Graph σ α} (hg : Agree g) (ho : Agree other) (hN : other.map.keys.Nodup)
    (hR : ∀ s e, other.map.get? s = some e → e.keys.Nodup) :
    ∃ g', merge g other = .ok g' ∧ g'.targets = g.targets ∧ g'.weight = g.weight ∧
      (∀ s, s ∈ g'.map.keys ↔ s ∈ g.map.keys ∨ s ∈ other.map.keys) ∧
      (∀ s a, entry g'.map s a = (entry g.map s a).or (entry other.map s a)) ∧
      (∀ s a, entry g'.attrs s a = (entry g.attrs s a).or (entry other.attrs s a)) := by
  obtain ⟨g', h1, h2, h3, h4, h5, h6, h7⟩ := merge_fold ho hR other.map hg hN (fun q hq => Dict.get?_of_mem hN hq)
  refine ⟨g', h1, h4, h5, h3, ?_, ?_⟩
  · intro s a
    rw [h6]
    by_cases hs : s ∈ other.map.keys
    · rw [if_pos hs]
    · rw [if_neg hs]; simp [entry, not_mem_keys.1 hs]
  · intro s a
    rw [h7]
    by_cases hs : s ∈ other.map.keys
    · rw [if_pos hs]
    · rw [if_neg hs]
      have : s ∉ other.attrs.keys := fun h => hs ((ho.keys s).1 h)
      simp [entry, not_mem_keys.1 this]

/-- Merging does not look at targets nor at whether the transitions agree: when they differ, those of the first graph stay. -/
theorem C114_merge_own {g other : Graph σ α} (hg : Agree g) (ho : Agree other) (hN : other.map.keys.Nodup)
    (hR : ∀ s e, other.map.get? s = some e → e.keys.Nodup) {g' : Graph σ α} (h : merge g other = .ok g') {s : σ} {a : α} {n : σ}
    (hn : g.next s a = .ok n) : g'.next s a = .ok n := by
  obtain ⟨g2, h1, _, _, _, h6, _⟩ := C114_merge hg ho hN hR
  rw [h] at h1; cases h1
  simp only [Graph.next] at hn ⊢
  obtain ⟨e, he, hn⟩ := bind_eq_ok.1 hn
  have hen : entry g.map s a = some n := by
    unfold entry; rw [Dict.get_ok_iff.1 he]; exact Dict.get_ok_iff.1 hn
  have h2 := h6 s a
  rw [hen] at h2
  simp only [Option.some_or] at h2
  unfold entry at h2
  cases hm : g'.map.get? s with
  | none => rw [hm] at h2; cases h2
  | some e' =>
    rw [hm] at h2
    rw [Dict.get_ok_iff.2 hm, bind_ok, Dict.get_ok_iff]
    exact h2

/-! ### Examples -/

/-- Three states in a row, the last one a goal; a second action goes back to the start. -/
def row3 : Dom Nat Nat (Dict (Option String) Int) where
  acts s := if s < 3 then [0, 1] else []
  next s a := if a = 0 then s + 1 else 0
  goal s := decide (s = 3)
  info _ a _ := [(some "cost", (a : Int) + 1)]

example : (explore row3 ⟨some 100, some 100, some 100⟩ 10 0).toOption.map (Option.map fun st => (st.map, st.nodes, st.edges, st.paths)) =
    some (some ([(0, [(0, 1), (1, 0)]), (1, [(0, 2), (1, 0)]), (2, [(0, 3), (1, 0)]), (3, [])], 4, 6, 1)) := rfl

example : ∃ st, explore row3 ⟨some 100, some 100, some 100⟩ 10 0 = .ok (some st) ∧ st.paths ≤ 100 ∧ (st.paths = 0 ∨ (st.nodes ≤ 100 ∧ st.edges ≤ 100)) :=
  ⟨⟨[(0, [(0, 1), (1, 0)]), (1, [(0, 2), (1, 0)]), (2, [(0, 3), (1, 0)]), (3, [])], _, [], 4, 6, 1⟩, rfl, by decide, by decide⟩

theorem row3_reach (s : Nat) (h : Reach row3 0 s) : s ∈ [0, 1, 2, 3] := by
  induction h with
  | init => simp
  | @step s a _ _ ha ih =>
    simp only [row3] at ha ⊢
    split at ha
    · split <;> simp; omega
    · cases ha

example : ∃ st, explore row3 ⟨some 0, some 0, some 0⟩ 5 0 = .ok (some st) := C114_finite (L := [0, 1, 2, 3]) (by decide) row3_reach (by decide)

/-- The full space of the same domain is said to have two states and two transitions. -/
theorem C114_full_refuted : ∃ st, full row3 ⟨some 100, some 100, some 100⟩ 10 0 = .ok (some st) ∧ st.map = [(0, [(0, 1), (1, 0)]), (1, [])] ∧
    Reach row3 0 2 ∧ 2 ∉ st.map.keys := by
  refine ⟨_, rfl, rfl, ?_, by decide⟩
  have h1 : Reach row3 0 1 := .step (a := 0) .init (Or.inl rfl) (by decide)
  exact .step (s := 1) (a := 0) h1 (Or.inr (by decide)) (by decide)

/-- Counting up, no goal. -/
def countUp : Dom Nat Unit (Dict (Option String) Int) where
  acts _ := [()]
  next s _ := s + 1
  goal _ := false
  info _ _ _ := []

theorem countUp_reach (s : Nat) : Reach countUp 0 s := by
  induction s with
  | zero => exact .init
  | succ s ih => exact .step (a := ()) ih (Or.inr rfl) (by simp [countUp])

/-- The limits do not bound exploring: with all three at most 5, counting up goes on for ever. -/
theorem C114_limits_refuted (fuel : Nat) : explore countUp ⟨some 5, some 5, some 5⟩ fuel 0 = .ok none := by
  refine (C114_no_goal (fun _ _ _ _ => rfl)).2 (fun L => ?_) fuel
  refine ⟨L.sum + 1, countUp_reach _, fun h => ?_⟩
  have : ∀ (L : List Nat) x, x ∈ L → x ≤ L.sum := by
    intro L
    induction L with
    | nil => intro x hx; cases hx
    | cons y L ih =>
      intro x hx
      rcases List.mem_cons.1 hx with rfl | hx
      · simp
      · have := ih x hx; simp; omega
  have := this L _ h
  omega

/-- A graph explored has a state that was a goal of the domain; the domain made of it does not know. -/
theorem C114_goals_refuted : ∃ st, explore row3 ⟨some 100, some 100, some 100⟩ 10 0 = .ok (some st) ∧ row3.goal 3 = true ∧ 3 ∈ st.map.keys ∧
    (result st).goal 3 = false ∧ (result st).cost 0 0 = .error .keyError := by
  refine ⟨_, rfl, by decide, by decide, by decide, by decide⟩

example : ∀ s a n, (row3.info s a n).get? none = none := fun _ _ _ => rfl

/-- Two graphs to merge, disagreeing on one transition. -/
def gA : Graph Nat Nat := ⟨[(0, [(0, 1)]), (1, [])], [(0, [(0, [(some "w", 5)])]), (1, [])], [1], some "w"⟩
def gB : Graph Nat Nat := ⟨[(0, [(0, 2), (1, 2)]), (2, [])], [(0, [(0, [(some "w", 7)]), (1, [(some "w", 8)])]), (2, [])], [2], some "w"⟩

example : (merge gA gB).toOption.map (fun g => (g.map, g.attrs, g.targets)) = some ([(0, [(0, 1), (1, 2)]), (1, []), (2, [])],
    [(0, [(0, [(some "w", 5)]), (1, [(some "w", 8)])]), (1, []), (2, [])], [1]) := rfl

example : Agree gA := by
  refine ⟨fun s => by simp [gA, Dict.keys], fun s a => ?_⟩
  simp only [gA, entry, Dict.get?]
  split
  · simp only [Option.bind_some, Dict.get?]; split <;> rfl
  · split <;> rfl

end Verif.Explore
