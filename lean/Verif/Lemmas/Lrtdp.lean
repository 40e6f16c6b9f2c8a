import Verif.Model.Lrtdp
import Verif.Lemmas.Mdp

/-! Lemmas about the model of lrtdp.hh. -/
namespace Verif

namespace Lrtdp

variable [DecidableEq σ] {m : Mdp σ α} {c : Config σ}

theorem get?_modify (g : Dict σ (Node α)) (s : σ) (f : Node α → Node α) (x : σ) :
    (modify g s f).get? x = if x = s then (g.get? s).map f else g.get? x := by
  unfold modify
  by_cases hx : x = s
  · subst hx
    rw [if_pos rfl]
    cases h : g.get? x with
    | none => simp [h]
    | some n => simp [Dict.get?_set_self]
  · rw [if_neg hx]
    cases h : g.get? s with
    | none => rfl
    | some n => simp [Dict.get?_set_ne _ _ hx]

/-- Nodes are added, the others stay as they are. -/
def Adds (m : Mdp σ α) (c : Config σ) (g g' : Dict σ (Node α)) : Prop :=
  ∀ x, g'.get? x = g.get? x ∨ (g.get? x = none ∧
    g'.get? x = some (if m.goal x then { value := 0, goal := true, solved := true } else { value := c.h x }))

theorem Adds.refl (g : Dict σ (Node α)) : Adds m c g g := fun _ => .inl rfl

theorem Adds.trans {g g' g'' : Dict σ (Node α)} (h : Adds m c g g') (h' : Adds m c g' g'') : Adds m c g g'' := by
  intro x
  rcases h x with e | ⟨e, e'⟩
  · rcases h' x with f | ⟨f, f'⟩
    · exact .inl (f.trans e)
    · exact .inr ⟨e ▸ f, f'⟩
  · rcases h' x with f | ⟨f, -⟩
    · exact .inr ⟨e, f.trans e'⟩
    · rw [e'] at f; cases f

theorem Adds.some {g g' : Dict σ (Node α)} (h : Adds m c g g') {x : σ} {n : Node α} (e : g.get? x = some n) :
    g'.get? x = some n := by
  rcases h x with f | ⟨f, -⟩
  · rw [f, e]
  · rw [f] at e; cases e

theorem addNode_adds (g : Dict σ (Node α)) (s : σ) : Adds m c g (addNode m c g s) := by
  intro x
  unfold addNode
  by_cases hc : g.contains s = true
  · rw [if_pos hc]; exact .inl rfl
  · rw [if_neg hc]
    have hn : g.get? s = none := by
      rw [Dict.contains_eq] at hc
      simpa using hc
    by_cases hx : x = s
    · subst hx
      right
      refine ⟨hn, ?_⟩
      split <;> simp [Dict.get?_set_self]
    · left
      split <;> rw [Dict.get?_set_ne _ _ hx]

theorem addNode_has (g : Dict σ (Node α)) (s : σ) : ((addNode m c g s).get? s).isSome := by
  unfold addNode
  split
  · rename_i h; rwa [Dict.contains_eq] at h
  · split <;> simp [Dict.get?_set_self]

theorem isSome_adds {g g' : Dict σ (Node α)} (h : Adds m c g g') {x : σ} (e : (g.get? x).isSome) :
    (g'.get? x).isSome := by
  obtain ⟨n, hn⟩ := Option.isSome_iff_exists.1 e
  rw [h.some hn]; rfl

theorem addAll_spec (os : List (Rat × Rat × σ)) (g : Dict σ (Node α)) :
    Adds m c g (os.foldl (fun g o => addNode m c g o.2.2) g) ∧
    ∀ o ∈ os, ((os.foldl (fun g o => addNode m c g o.2.2) g).get? o.2.2).isSome := by
  induction os generalizing g with
  | nil => exact ⟨Adds.refl g, by simp⟩
  | cons o os ih =>
    obtain ⟨h1, h2⟩ := ih (addNode m c g o.2.2)
    refine ⟨(addNode_adds g _).trans h1, ?_⟩
    intro x hx
    rcases List.mem_cons.1 hx with rfl | hx
    · exact isSome_adds h1 (addNode_has g _)
    · exact h2 x hx

theorem expand_spec (g : Dict σ (Node α)) (s : σ) :
    Adds m c g (expand m c g s) ∧
    ∀ a ∈ m.actions s, ∀ o ∈ m.outcomes s a, ((expand m c g s).get? o.2.2).isSome := by
  unfold expand
  generalize m.actions s = as
  induction as generalizing g with
  | nil => exact ⟨Adds.refl g, by simp⟩
  | cons a as ih =>
    obtain ⟨h1, h2⟩ := ih ((m.outcomes s a).foldl (fun g o => addNode m c g o.2.2) g)
    obtain ⟨h3, h4⟩ := addAll_spec (m := m) (c := c) (m.outcomes s a) g
    refine ⟨h3.trans h1, ?_⟩
    intro b hb o ho
    rcases List.mem_cons.1 hb with rfl | hb
    · exact isSome_adds h1 (h4 o ho)
    · exact h2 b hb o ho

theorem value_of {g : Dict σ (Node α)} {s : σ} {n : Node α} (h : g.get? s = some n) : value g s = n.value := by
  simp [value, h]

theorem isSolved_of {g : Dict σ (Node α)} {s : σ} {n : Node α} (h : g.get? s = some n) : isSolved g s = n.solved := by
  simp [isSolved, h]

theorem isSolved_iff {g : Dict σ (Node α)} {s : σ} :
    isSolved g s = true ↔ ∃ n, g.get? s = some n ∧ n.solved = true := by
  unfold isSolved
  cases g.get? s <;> simp

/-- What a labelled state has: a best action that nearly keeps the value, with labelled
outcomes only. -/
def Good (m : Mdp σ α) (c : Config σ) (g : Dict σ (Node α)) (lab : σ → Prop) (s : σ) : Prop :=
  ∃ n a, g.get? s = some n ∧ n.best = some a ∧ a ∈ m.actions s ∧
    |n.value - m.q c.discount (value g) s a| ≤ c.epsilon ∧
    ∀ o ∈ m.outcomes s a, (g.get? o.2.2).isSome ∧ lab o.2.2

/-- The part of the invariant that does not depend on the depth and the time. -/
structure Inv (m : Mdp σ α) (c : Config σ) (P : σ → Rat → Prop) (g : Dict σ (Node α)) : Prop where
  goal : ∀ s n, g.get? s = some n → m.goal s = true → n.value = 0 ∧ n.goal = true ∧ n.solved = true
  other : ∀ s n, g.get? s = some n → m.goal s = false → n.goal = false
  upper : ∀ s n, g.get? s = some n → m.goal s = false → P s n.value
  act : ∀ s n, g.get? s = some n → m.goal s = false →
    (∀ a, n.best = some a → a ∈ m.actions s) ∧ (n.solved = true → n.best.isSome = true)

/-- Every labelled state is a goal or `Good`. -/
def Labels (m : Mdp σ α) (c : Config σ) (g : Dict σ (Node α)) : Prop :=
  ∀ s, isSolved g s = true → m.goal s = false → Good m c g (fun x => isSolved g x = true) s

/-- A property of the values of the states that heuristic and updates respect. -/
structure Holds (m : Mdp σ α) (c : Config σ) (P : σ → Rat → Prop) : Prop where
  h : ∀ s, m.goal s = false → P s (c.h s)
  step : ∀ s, m.goal s = false → ∀ v : σ → Rat,
    (∀ a ∈ m.actions s, ∀ o ∈ m.outcomes s a, (m.goal o.2.2 = true → v o.2.2 = 0) ∧
      (m.goal o.2.2 = false → P o.2.2 (v o.2.2))) →
    ∀ a w, Mdp.greedy (fun a => m.q c.discount v s a) (m.actions s) = some (a, w) → P s w

/-- The graph changes: nodes that were labelled stay exactly as they are. -/
def Keeps (g g' : Dict σ (Node α)) : Prop :=
  ∀ x n, g.get? x = some n → ∃ n', g'.get? x = some n' ∧ (n.solved = true → n' = n) ∧
    (n.best.isSome = true → n'.best.isSome = true)

theorem Keeps.refl (g : Dict σ (Node α)) : Keeps g g := fun _ n h => ⟨n, h, fun _ => rfl, id⟩

theorem Keeps.trans {g g' g'' : Dict σ (Node α)} (h : Keeps g g') (h' : Keeps g' g'') : Keeps g g'' := by
  intro x n e
  obtain ⟨n', e', k, b⟩ := h x n e
  obtain ⟨n'', e'', k', b'⟩ := h' x n' e'
  refine ⟨n'', e'', fun hs => ?_, fun h => b' (b h)⟩
  have := k hs
  subst this
  exact k' hs

theorem Adds.keeps {g g' : Dict σ (Node α)} (h : Adds m c g g') : Keeps g g' :=
  fun _ n e => ⟨n, h.some e, fun _ => rfl, id⟩

theorem keeps_modify {g : Dict σ (Node α)} {s : σ} (hs : isSolved g s = false) (f : Node α → Node α)
    (hb : ∀ n, (f n).best.isSome = true) :
    Keeps g (modify g s f) := by
  intro x n e
  rw [get?_modify]
  by_cases hx : x = s
  · subst hx
    rw [if_pos rfl, e]
    refine ⟨f n, rfl, fun h => ?_, fun _ => hb n⟩
    rw [isSolved_of e, h] at hs
    cases hs
  · rw [if_neg hx]
    exact ⟨n, e, fun _ => rfl, id⟩

theorem Keeps.solved {g g' : Dict σ (Node α)} (h : Keeps g g') {x : σ} (e : isSolved g x = true) :
    isSolved g' x = true ∧ g'.get? x = g.get? x := by
  obtain ⟨n, hn, hs⟩ := isSolved_iff.1 e
  obtain ⟨n', hn', k, -⟩ := h x n hn
  have := k hs
  subst this
  exact ⟨isSolved_iff.2 ⟨_, hn', hs⟩, by rw [hn, hn']⟩

theorem Good.mono {g g' : Dict σ (Node α)} {lab lab' : σ → Prop} {s : σ} (h : Good m c g lab s)
    (hs : g'.get? s = g.get? s)
    (hv : ∀ x, lab x → (g.get? x).isSome → value g' x = value g x ∧ (g'.get? x).isSome ∧ lab' x) :
    Good m c g' lab' s := by
  obtain ⟨n, a, e, hb, ha, hq, ho⟩ := h
  refine ⟨n, a, hs.trans e, hb, ha, ?_, fun o h => (hv _ (ho o h).2 (ho o h).1).2⟩
  rw [m.q_congr c.discount (v := value g') (w := value g) (fun o h => (hv _ (ho o h).2 (ho o h).1).1)]
  exact hq

/-- Only states that are not labelled change, and no new labels but goals: labels stay right. -/
theorem Labels.keeps {g g' : Dict σ (Node α)} (h : Labels m c g) (hk : Keeps g g')
    (hn : ∀ x, m.goal x = false → isSolved g' x = true → isSolved g x = true) : Labels m c g' := by
  intro s hs hg
  have h0 := hn s hg hs
  refine (h s h0 hg).mono (hk.solved h0).2 ?_
  intro x hx _
  obtain ⟨h1, h2⟩ := hk.solved hx
  refine ⟨?_, ?_, h1⟩
  · simp [value, h2]
  · rwa [h2]

theorem adds_inv {P : σ → Rat → Prop} (hP : Holds m c P) {g g' : Dict σ (Node α)} (h : Adds m c g g') (hi : Inv m c P g) :
    Inv m c P g' := by
  refine ⟨?_, ?_, ?_, ?_⟩
  · intro s n e hg
    rcases h s with f | ⟨-, f⟩
    · exact hi.goal s n (f ▸ e) hg
    · rw [f, if_pos hg] at e; cases e; exact ⟨rfl, rfl, rfl⟩
  · intro s n e hg
    rcases h s with f | ⟨-, f⟩
    · exact hi.other s n (f ▸ e) hg
    · rw [f, if_neg (by simp [hg])] at e; cases e; rfl
  · intro s n e hg
    rcases h s with f | ⟨-, f⟩
    · exact hi.upper s n (f ▸ e) hg
    · rw [f, if_neg (by simp [hg])] at e; cases e; exact hP.h s hg
  · intro s n e hg
    rcases h s with f | ⟨-, f⟩
    · exact hi.act s n (f ▸ e) hg
    · rw [f, if_neg (by simp [hg])] at e; cases e; exact ⟨(by intro a h; cases h), (by intro h; cases h)⟩

theorem adds_unsolved {g g' : Dict σ (Node α)} (h : Adds m c g g') {x : σ} (hg : m.goal x = false)
    (hs : isSolved g' x = true) : isSolved g x = true := by
  rcases h x with f | ⟨-, f⟩
  · simpa [isSolved, f] using hs
  · rw [if_neg (by simp [hg])] at f
    simp [isSolved, f] at hs

theorem modify_inv {P : σ → Rat → Prop} {g : Dict σ (Node α)} (hi : Inv m c P g) {s : σ} (hg : m.goal s = false)
    (f : Node α → Node α) (h1 : ∀ n, (f n).goal = n.goal) (h2 : ∀ n, g.get? s = some n → P s (f n).value)
    {a : α} (ha : a ∈ m.actions s) (h3 : ∀ n, (f n).best = some a) :
    Inv m c P (modify g s f) := by
  refine ⟨?_, ?_, ?_, ?_⟩ <;> intro x n e hx <;> rw [get?_modify] at e
  · rw [if_neg (by rintro rfl; rw [hg] at hx; cases hx)] at e
    exact hi.goal x n e hx
  · split at e
    · rename_i hxs
      subst hxs
      cases h : g.get? x with
      | none => rw [h] at e; cases e
      | some n0 => rw [h] at e; cases e; rw [h1]; exact hi.other x n0 h hx
    · exact hi.other x n e hx
  · split at e
    · rename_i hxs
      subst hxs
      cases h : g.get? x with
      | none => rw [h] at e; cases e
      | some n0 => rw [h] at e; cases e; exact h2 n0 h
    · exact hi.upper x n e hx
  · split at e
    · rename_i hxs
      subst hxs
      cases h : g.get? x with
      | none => rw [h] at e; cases e
      | some n0 =>
        rw [h] at e; cases e
        rw [h3]
        exact ⟨fun b hb => by cases hb; exact ha, fun _ => rfl⟩
    · exact hi.act x n e hx

/-- The greedy value after the expansion has the property. -/
theorem greedy_holds {P : σ → Rat → Prop} (hP : Holds m c P) {g : Dict σ (Node α)} (hi : Inv m c P g) {s : σ}
    (hg : m.goal s = false) {a : α} {v : Rat}
    (h : greedyAction m c (expand m c g s) s = some (a, v)) : P s v := by
  refine hP.step s hg (value (expand m c g s)) ?_ a v h
  intro b hb o ho
  have hi' := adds_inv hP (expand_spec g s).1 hi
  obtain ⟨n, hn⟩ := Option.isSome_iff_exists.1 ((expand_spec (m := m) (c := c) g s).2 b hb o ho)
  rw [value_of hn]
  exact ⟨fun h => (hi'.goal _ n hn h).1, hi'.upper _ n hn⟩

/-- Labelled nodes stay as they are and only goals are labelled. -/
structure Next (m : Mdp σ α) (g g' : Dict σ (Node α)) : Prop where
  keeps : Keeps g g'
  labels : ∀ x, m.goal x = false → isSolved g' x = true → isSolved g x = true

theorem Next.refl (g : Dict σ (Node α)) : Next m g g := ⟨Keeps.refl g, fun _ _ h => h⟩

theorem Next.trans {g g' g'' : Dict σ (Node α)} (h : Next m g g') (h' : Next m g' g'') : Next m g g'' :=
  ⟨h.keeps.trans h'.keeps, fun x hx hs => h.labels x hx (h'.labels x hx hs)⟩

/-- A node that is there and not labelled. -/
def Live (g : Dict σ (Node α)) (x : σ) : Prop := ∃ n, g.get? x = some n ∧ n.solved = false

/-- Moreover it has a best action. -/
def Done (g : Dict σ (Node α)) (x : σ) : Prop := Live g x ∧ ∃ n, g.get? x = some n ∧ n.best.isSome = true

theorem Live.isSolved {g : Dict σ (Node α)} {x : σ} (h : Live g x) : isSolved g x = false := by
  obtain ⟨n, hn, hs⟩ := h
  rw [isSolved_of hn, hs]

theorem live_iff {g : Dict σ (Node α)} {x : σ} : Live g x ↔ (g.get? x).isSome ∧ isSolved g x = false := by
  unfold Live Lrtdp.isSolved
  cases g.get? x <;> simp

theorem Live.goal {P : σ → Rat → Prop} {g : Dict σ (Node α)} (hi : Inv m c P g) {x : σ} (h : Live g x) : m.goal x = false := by
  obtain ⟨n, hn, hs⟩ := h
  cases hg : m.goal x with
  | false => rfl
  | true => have := (hi.goal x n hn hg).2.2; rw [hs] at this; cases this

theorem Live.next {P : σ → Rat → Prop} {g g' : Dict σ (Node α)} (hi : Inv m c P g) {x : σ} (h : Live g x) (hn : Next m g g') :
    Live g' x := by
  have hg := h.goal hi
  have hs := h.isSolved
  obtain ⟨n, e, -⟩ := h
  obtain ⟨n', e', -⟩ := hn.keeps x n e
  rw [live_iff]
  refine ⟨by rw [e']; rfl, ?_⟩
  cases h' : Lrtdp.isSolved g' x with
  | false => rfl
  | true => rw [hn.labels x hg h'] at hs; cases hs

theorem Done.next {P : σ → Rat → Prop} {g g' : Dict σ (Node α)} (hi : Inv m c P g) {x : σ} (h : Done g x) (hn : Next m g g') :
    Done g' x := by
  obtain ⟨h1, n, e, hb⟩ := h
  obtain ⟨n', e', -, b⟩ := hn.keeps x n e
  exact ⟨h1.next hi hn, n', e', b hb⟩

theorem Adds.next {g g' : Dict σ (Node α)} (h : Adds m c g g') : Next m g g' :=
  ⟨h.keeps, fun _ => adds_unsolved h⟩

theorem modify_next {g : Dict σ (Node α)} {s : σ} (hs : isSolved g s = false) (f : Node α → Node α)
    (hf : ∀ n, (f n).solved = n.solved) (hb : ∀ n, (f n).best.isSome = true) : Next m g (modify g s f) := by
  refine ⟨keeps_modify hs f hb, fun x _ h => ?_⟩
  have : isSolved (modify g s f) x = isSolved g x := by
    unfold isSolved
    rw [get?_modify]
    split
    · rename_i h; subst h
      cases g.get? x <;> simp [hf]
    · rfl
  rwa [this] at h

theorem update_spec {P : σ → Rat → Prop} (hP : Holds m c P) {st st' : St σ α} {s : σ} (hi : Inv m c P st.graph)
    (hl : Live st.graph s) (h : update m c st s = .ok st') :
    Inv m c P st'.graph ∧ Next m st.graph st'.graph ∧ st'.clock = st.clock ∧
    ∃ n a, st'.graph.get? s = some n ∧ n.best = some a ∧ a ∈ m.actions s ∧
      ∀ o ∈ m.outcomes s a, (st'.graph.get? o.2.2).isSome := by
  unfold update at h
  have hg := hl.goal hi
  have hx := expand_spec (m := m) (c := c) st.graph s
  have hl' := hl.next hi hx.1.next
  cases e : greedyAction m c (expand m c st.graph s) s with
  | none => simp only [e] at h; cases h
  | some av =>
    obtain ⟨a, v⟩ := av
    simp only [e] at h
    cases h
    obtain ⟨ha, hv, -⟩ := Mdp.greedy_some e
    refine ⟨modify_inv (adds_inv hP hx.1 hi) hg _ (fun _ => rfl) (fun n hn => greedy_holds hP hi hg e) ha (fun _ => rfl),
      hx.1.next.trans (modify_next hl'.isSolved _ (fun _ => rfl) fun _ => rfl), rfl, ?_⟩
    obtain ⟨n, hn, -⟩ := hl'
    refine ⟨{ n with best := some a, value := v }, a, ?_, rfl, ha, ?_⟩
    · rw [get?_modify, if_pos rfl, hn]; rfl
    · intro o ho
      have := hx.2 a ha o ho
      rw [get?_modify]
      split
      · rw [hn]; rfl
      · exact this

theorem residual_spec {P : σ → Rat → Prop} (hP : Holds m c P) {st st' : St σ α} {s : σ} (hi : Inv m c P st.graph)
    (hl : Live st.graph s) {a : α} {r : Rat} (h : residual m c st s = .ok (a, r, st')) :
    Inv m c P st'.graph ∧ Next m st.graph st'.graph ∧ st'.clock = st.clock ∧
    ∃ n, st'.graph.get? s = some n ∧ n.best.isSome = true := by
  unfold residual at h
  have hg := hl.goal hi
  have hx := expand_spec (m := m) (c := c) st.graph s
  have hl' := hl.next hi hx.1.next
  cases e : greedyAction m c (expand m c st.graph s) s with
  | none => simp only [e] at h; cases h
  | some av =>
    obtain ⟨a, v⟩ := av
    simp only [e] at h
    cases h
    have hi' := adds_inv hP hx.1 hi
    exact ⟨modify_inv hi' hg _ (fun _ => rfl) (fun n hn => hi'.upper s n hn hg) (Mdp.greedy_some e).1 (fun _ => rfl),
      hx.1.next.trans (modify_next hl'.isSolved _ (fun _ => rfl) fun _ => rfl), rfl, by
        obtain ⟨n, hn, -⟩ := hl'
        exact ⟨{ n with best := some a }, by rw [get?_modify, if_pos rfl, hn]; rfl, rfl⟩⟩

theorem push_eq (g : Dict σ (Node α)) (visited : List σ) (os : List (Rat × Rat × σ)) (rest : List σ) :
    os.foldl (fun op o => if !isSolved g o.2.2 && !decide (o.2.2 ∈ visited) then o.2.2 :: op else op) rest =
    ((os.map fun o => o.2.2).filter fun x => !isSolved g x && !decide (x ∈ visited)).reverse ++ rest := by
  induction os generalizing rest with
  | nil => rfl
  | cons o os ih =>
    rw [List.foldl_cons, ih, List.map_cons, List.filter_cons]
    split <;> simp

theorem residual_out {st st' : St σ α} {s : σ} {a : α} {r : Rat} (h : residual m c st s = .ok (a, r, st'))
    (hs : (st.graph.get? s).isSome) :
    a ∈ m.actions s ∧ ∀ b ∈ m.actions s, ∀ o ∈ m.outcomes s b, (st'.graph.get? o.2.2).isSome := by
  unfold residual at h
  have hx := expand_spec (m := m) (c := c) st.graph s
  have hs' := isSome_adds hx.1 hs
  cases e : greedyAction m c (expand m c st.graph s) s with
  | none => simp only [e] at h; cases h
  | some av =>
    obtain ⟨a, v⟩ := av
    simp only [e] at h
    cases h
    refine ⟨(Mdp.greedy_some e).1, fun b hb o ho => ?_⟩
    rw [get?_modify]
    split
    · simpa using hs'
    · exact hx.2 b hb o ho

/-- The state after a time check. -/
def St.later (st : St σ α) : St σ α := { st with clock := st.clock + 1 }

theorem updateAll_cons (s : σ) (closed : List σ) (st : St σ α) :
    updateAll m c (s :: closed) st = if c.left st.clock = true then
      update m c st.later s >>= fun st => updateAll m c closed st else .ok st.later := by
  simp only [updateAll, tick]
  rfl

theorem checkLoop_nil (n : Nat) {k : Check σ α} (h : k.open_ = []) : checkLoop m c n k = .ok k := by
  unfold checkLoop
  rw [h]

theorem checkLoop_late (n : Nat) {k : Check σ α} {cs : σ} {rest : List σ} (h : k.open_ = cs :: rest)
    (hl : c.left k.st.clock = false) : checkLoop m c n k = .ok { k with st := k.st.later } := by
  unfold checkLoop
  rw [h]
  show (if (!c.left k.st.clock) = true then _ else _) = _
  rw [if_pos (by simp [hl])]
  rfl

theorem checkLoop_deep {k : Check σ α} {cs : σ} {rest : List σ} (h : k.open_ = cs :: rest)
    (hl : c.left k.st.clock = true) : checkLoop m c 0 k = .ok { k with st := k.st.later } := by
  unfold checkLoop
  rw [h]
  show (if (!c.left k.st.clock) = true then _ else _) = _
  rw [if_neg (by simp [hl])]
  rfl

/-- A round of the loop of `check_solved`. -/
def Check.pop (k : Check σ α) (cs : σ) (st : St σ α) (rv : Bool) (open_ : List σ) : Check σ α :=
  { open_ := open_, closed := cs :: k.closed, visited := cs :: k.visited, rv := rv, st := st }

theorem checkLoop_succ (n : Nat) {k : Check σ α} {cs : σ} {rest : List σ} (h : k.open_ = cs :: rest)
    (hl : c.left k.st.clock = true) : checkLoop m c (n + 1) k =
      residual m c k.st.later cs >>= fun r =>
        if c.epsilon < r.2.1 then checkLoop m c n (k.pop cs r.2.2 false rest)
        else checkLoop m c n (k.pop cs r.2.2 k.rv
          ((((m.outcomes cs r.1).map fun o => o.2.2).filter fun x =>
            !isSolved r.2.2.graph x && !decide (x ∈ cs :: k.visited)).reverse ++ rest)) := by
  obtain ⟨op, cl, vi, rv, st⟩ := k
  subst h
  rw [checkLoop.eq_def]
  show (if (!c.left st.clock) = true then _ else _) = _
  rw [if_neg (by simpa using hl)]
  show (residual m c st.later cs >>= _) = (residual m c st.later cs >>= _)
  congr 1
  funext r
  obtain ⟨a, res, st⟩ := r
  dsimp only
  rw [push_eq]
  rfl

theorem checkLoop_spec {P : σ → Rat → Prop} (hP : Holds m c P) (n : Nat) (k : Check σ α) {k' : Check σ α}
    (hi : Inv m c P k.st.graph) (ho : ∀ x ∈ k.open_, Live k.st.graph x) (hc : ∀ x ∈ k.closed, Done k.st.graph x)
    (h : checkLoop m c n k = .ok k') :
    Inv m c P k'.st.graph ∧ Next m k.st.graph k'.st.graph ∧ ∀ x ∈ k'.closed, Done k'.st.graph x := by
  induction n generalizing k with
  | zero =>
    cases eo : k.open_ with
    | nil => rw [checkLoop_nil _ eo] at h; cases h; exact ⟨hi, Next.refl _, hc⟩
    | cons cs rest =>
      cases hl : c.left k.st.clock with
      | false => rw [checkLoop_late _ eo hl] at h; cases h; exact ⟨hi, Next.refl _, hc⟩
      | true => rw [checkLoop_deep eo hl] at h; cases h; exact ⟨hi, Next.refl _, hc⟩
  | succ n ih =>
    cases eo : k.open_ with
    | nil => rw [checkLoop_nil _ eo] at h; cases h; exact ⟨hi, Next.refl _, hc⟩
    | cons cs rest =>
      cases hleft : c.left k.st.clock with
      | false => rw [checkLoop_late _ eo hleft] at h; cases h; exact ⟨hi, Next.refl _, hc⟩
      | true =>
        rw [checkLoop_succ n eo hleft] at h
        obtain ⟨⟨a, r, st⟩, h1, h2⟩ := bind_eq_ok.1 h
        have hl : Live k.st.graph cs := ho cs (by rw [eo]; exact List.mem_cons_self)
        obtain ⟨i1, i2, -, i3⟩ := residual_spec hP (st := k.st.later) hi hl h1
        have out := residual_out h1 (live_iff.1 hl).1
        have hc' : ∀ x ∈ cs :: k.closed, Done st.graph x := by
          intro x hx
          rcases List.mem_cons.1 hx with rfl | hx
          · exact ⟨hl.next hi i2, i3⟩
          · exact (hc x hx).next hi i2
        have ho' : ∀ x ∈ rest, Live st.graph x := fun x hx =>
          (ho x (by rw [eo]; exact List.mem_cons_of_mem _ hx)).next hi i2
        dsimp only at h2
        split at h2
        · obtain ⟨j1, j2, j3⟩ := ih _ i1 ho' hc' h2
          exact ⟨j1, i2.trans j2, j3⟩
        · obtain ⟨j1, j2, j3⟩ := ih _ i1 (by
            intro x hx
            simp only [Check.pop, List.mem_append, List.mem_reverse, List.mem_filter, List.mem_map] at hx
            rcases hx with ⟨⟨o, h3, rfl⟩, h4⟩ | hx
            · refine live_iff.2 ⟨out.2 a out.1 o h3, ?_⟩
              simp only [Bool.and_eq_true, Bool.not_eq_true'] at h4
              exact h4.1
            · exact ho' x hx) hc' h2
          exact ⟨j1, i2.trans j2, j3⟩

theorem get?_labelAll (closed : List σ) (g : Dict σ (Node α)) (x : σ) :
    (labelAll g closed).get? x = (g.get? x).map fun n => if x ∈ closed then { n with solved := true } else n := by
  induction closed generalizing g with
  | nil => simp [labelAll]
  | cons s closed ih =>
    have : labelAll g (s :: closed) = labelAll (modify g s fun n => { n with solved := true }) closed := rfl
    rw [this, ih, get?_modify]
    by_cases hx : x = s
    · subst hx
      cases g.get? x <;> simp
    · rw [if_neg hx]
      simp [hx]

theorem labelAll_inv {P : σ → Rat → Prop} {g : Dict σ (Node α)} (hi : Inv m c P g) (closed : List σ)
    (hc : ∀ x ∈ closed, Done g x) : Inv m c P (labelAll g closed) := by
  refine ⟨?_, ?_, ?_, ?_⟩ <;> intro x n e hx <;> rw [get?_labelAll] at e <;>
    cases h : g.get? x with
    | none => rw [h] at e; cases e
    | some n0 => ?_
  · obtain ⟨h1, h2, h3⟩ := hi.goal x n0 h hx
    rw [h] at e; cases e
    dsimp only
    split
    · exact ⟨h1, h2, rfl⟩
    · exact ⟨h1, h2, h3⟩
  · have := hi.other x n0 h hx
    rw [h] at e; cases e
    dsimp only
    split <;> exact this
  · have := hi.upper x n0 h hx
    rw [h] at e; cases e
    dsimp only
    split <;> exact this
  · have := hi.act x n0 h hx
    rw [h] at e; cases e
    dsimp only
    split
    · rename_i hxc
      obtain ⟨-, n1, e1, hb⟩ := hc x hxc
      rw [h] at e1; cases e1
      exact ⟨this.1, fun _ => hb⟩
    · exact this

theorem labelAll_keeps {g : Dict σ (Node α)} {closed : List σ} (hc : ∀ x ∈ closed, Done g x) : Keeps g (labelAll g closed) := by
  intro x n e
  refine ⟨_, by rw [get?_labelAll, e]; rfl, fun hs => ?_, fun hb => ?_⟩
  swap
  · show (if x ∈ closed then _ else n : Node α).best.isSome = true
    split <;> exact hb
  show (if x ∈ closed then _ else n) = n
  rw [if_neg]
  intro hx
  obtain ⟨⟨n', e', hs'⟩, -⟩ := hc x hx
  rw [e] at e'; cases e'
  rw [hs] at hs'; cases hs'

theorem updateAll_spec {P : σ → Rat → Prop} (hP : Holds m c P) (closed : List σ) (st : St σ α) {st' : St σ α}
    (hi : Inv m c P st.graph) (hc : ∀ x ∈ closed, Done st.graph x) (h : updateAll m c closed st = .ok st') :
    Inv m c P st'.graph ∧ Next m st.graph st'.graph := by
  induction closed generalizing st with
  | nil => cases h; exact ⟨hi, Next.refl _⟩
  | cons s closed ih =>
    rw [updateAll_cons] at h
    by_cases hleft : c.left st.clock = true
    · rw [if_pos hleft] at h
      obtain ⟨st1, h1, h2⟩ := bind_eq_ok.1 h
      obtain ⟨i1, i2, -⟩ := update_spec hP (st := st.later) hi (hc s List.mem_cons_self).1 h1
      obtain ⟨j1, j2⟩ := ih st1 i1 (fun x hx => (hc x (List.mem_cons_of_mem _ hx)).next hi i2) h2
      exact ⟨j1, i2.trans j2⟩
    · rw [if_neg hleft] at h
      cases h; exact ⟨hi, Next.refl _⟩


/-! ### The labels -/

/-- Time that is over stays over, and the depth is enough for every check among the states `S`,
which no action leaves: `B` bounds the numbers of outcomes. -/
structure Deep (m : Mdp σ α) (c : Config σ) (S : List σ) (B : σ → Nat) : Prop where
  time : ∀ k, c.left (k + 1) = true → c.left k = true
  closed : ∀ s ∈ S, ∀ a ∈ m.actions s, ∀ o ∈ m.outcomes s a, o.2.2 ∈ S
  bound : ∀ s ∈ S, ∀ a ∈ m.actions s, (m.outcomes s a).length ≤ B s
  depth : 1 + (S.map B).sum ≤ c.maxDepth

/-- A state whose residual was small: greedy action, with labels `lab` on its outcomes. -/
def Checked (m : Mdp σ α) (c : Config σ) (g : Dict σ (Node α)) (lab : σ → Prop) (s : σ) : Prop :=
  ∃ n a v, g.get? s = some n ∧ n.best = some a ∧ greedyAction m c g s = some (a, v) ∧
    |n.value - v| ≤ c.epsilon ∧ (∀ b ∈ m.actions s, ∀ o ∈ m.outcomes s b, (g.get? o.2.2).isSome) ∧
    ∀ o ∈ m.outcomes s a, lab o.2.2

theorem Checked.good {g : Dict σ (Node α)} {lab : σ → Prop} {s : σ} (h : Checked m c g lab s) : Good m c g lab s := by
  obtain ⟨n, a, v, h1, h2, h3, h4, h5, h6⟩ := h
  obtain ⟨ha, hv, -⟩ := Mdp.greedy_some h3
  exact ⟨n, a, h1, h2, ha, hv ▸ h4, fun o ho => ⟨h5 a ha o ho, h6 o ho⟩⟩

theorem greedyAction_congr {g g' : Dict σ (Node α)} {s : σ}
    (h : ∀ b ∈ m.actions s, ∀ o ∈ m.outcomes s b, value g' o.2.2 = value g o.2.2) :
    greedyAction m c g' s = greedyAction m c g s := by
  exact Mdp.greedy_congr fun a ha => m.q_congr c.discount fun o ho => h a ha o ho

theorem Checked.mono {g g' : Dict σ (Node α)} {lab lab' : σ → Prop} {s : σ} (h : Checked m c g lab s)
    (hs : g'.get? s = g.get? s)
    (hv : ∀ x, (g.get? x).isSome → value g' x = value g x ∧ (g'.get? x).isSome)
    (hl : ∀ x, lab x → lab' x) : Checked m c g' lab' s := by
  obtain ⟨n, a, v, h1, h2, h3, h4, h5, h6⟩ := h
  refine ⟨n, a, v, hs.trans h1, h2, ?_, h4, fun b hb o ho => (hv _ (h5 b hb o ho)).2, fun o ho => hl _ (h6 o ho)⟩
  rw [greedyAction_congr fun b hb o ho => (hv _ (h5 b hb o ho)).1]
  exact h3

/-- What `residual` does to the graph. -/
theorem residual_eq {st st' : St σ α} {s : σ} {a : α} {r : Rat} (h : residual m c st s = .ok (a, r, st'))
    (hs : (st.graph.get? s).isSome) :
    ∃ n v, st.graph.get? s = some n ∧ st'.graph.get? s = some { n with best := some a } ∧
      greedyAction m c st'.graph s = some (a, v) ∧ r = |n.value - v| ∧
      (∀ x, x ≠ s → (st.graph.get? x).isSome → st'.graph.get? x = st.graph.get? x) ∧
      (∀ x, (st.graph.get? x).isSome → value st'.graph x = value st.graph x ∧ (st'.graph.get? x).isSome) := by
  have out := residual_out h hs
  unfold residual at h
  have hx := expand_spec (m := m) (c := c) st.graph s
  obtain ⟨n, hn⟩ := Option.isSome_iff_exists.1 hs
  have hn' := hx.1.some hn
  cases e : greedyAction m c (expand m c st.graph s) s with
  | none => simp only [e] at h; cases h
  | some av =>
    obtain ⟨a, v⟩ := av
    simp only [e] at h
    cases h
    have hval : ∀ x, value (modify (expand m c st.graph s) s fun n => { n with best := some a }) x =
        value (expand m c st.graph s) x := by
      intro x
      unfold value
      rw [get?_modify]
      split
      · rename_i hx; subst hx
        cases (expand m c st.graph x).get? x <;> rfl
      · rfl
    refine ⟨n, v, hn, ?_, ?_, ?_, ?_, ?_⟩
    · rw [get?_modify, if_pos rfl, hn']; rfl
    · rw [greedyAction_congr fun b _ o _ => hval o.2.2]; exact e
    · rw [value_of hn']
      split
      · rename_i h; rw [abs_of_neg h]
      · rename_i h; rw [abs_of_nonneg (not_lt.1 h)]
    · intro x hxs hx'
      obtain ⟨n', hn'⟩ := Option.isSome_iff_exists.1 hx'
      rw [get?_modify, if_neg hxs, hx.1.some hn', hn']
    · intro x hx'
      obtain ⟨n', hy⟩ := Option.isSome_iff_exists.1 hx'
      have hy' := hx.1.some hy
      refine ⟨?_, ?_⟩
      · rw [hval, value_of hy', value_of hy]
      · rw [get?_modify]
        split
        · rw [hn']; rfl
        · rw [hy']; rfl

/-- What is still to come for the states that were not closed. -/
def pending (S : List σ) (B : σ → Nat) (closed : List σ) : Nat := ((S.filter fun s => !decide (s ∈ closed)).map B).sum

theorem pending_cons_le (S : List σ) (B : σ → Nat) (closed : List σ) (x : σ) :
    pending S B (x :: closed) ≤ pending S B closed := by
  induction S with
  | nil => simp [pending]
  | cons s S ih =>
    unfold pending at ih ⊢
    simp only [List.filter_cons]
    by_cases h1 : s ∈ closed
    · simp only [h1, List.mem_cons, or_true, decide_true, Bool.not_true, Bool.false_eq_true, ↓reduceIte]
      simp only [List.mem_cons] at ih
      exact ih
    · by_cases h2 : s = x
      · subst h2
        simp only [h1, List.mem_cons, true_or, decide_true, Bool.not_true, Bool.false_eq_true, ↓reduceIte, decide_false,
          Bool.not_false, List.map_cons, List.sum_cons]
        simp only [List.mem_cons] at ih
        omega
      · simp only [h1, h2, List.mem_cons, or_self, decide_false, Bool.not_false, ↓reduceIte, List.map_cons, List.sum_cons]
        simp only [List.mem_cons] at ih
        omega

theorem pending_cons (S : List σ) (B : σ → Nat) (closed : List σ) {x : σ} (hx : x ∈ S) (hc : x ∉ closed) :
    pending S B (x :: closed) + B x ≤ pending S B closed := by
  induction S with
  | nil => cases hx
  | cons s S ih =>
    by_cases h2 : s = x
    · subst h2
      have := pending_cons_le S B closed s
      unfold pending at this ⊢
      simp only [List.filter_cons]
      simp only [hc, List.mem_cons, true_or, decide_true, Bool.not_true, Bool.false_eq_true, ↓reduceIte, decide_false,
          Bool.not_false, List.map_cons, List.sum_cons]
      simp only [List.mem_cons] at this
      omega
    · have := ih (by rcases List.mem_cons.1 hx with e | e; exact absurd e.symm h2; exact e)
      unfold pending at this ⊢
      simp only [List.filter_cons]
      simp only [List.mem_cons] at this
      by_cases h1 : s ∈ closed
      · simp only [h1, List.mem_cons, or_true, decide_true, Bool.not_true, Bool.false_eq_true, ↓reduceIte]
        exact this
      · simp only [h1, h2, List.mem_cons, or_self, decide_false, Bool.not_false, ↓reduceIte, List.map_cons, List.sum_cons]
        omega

/-- The invariant of the loop of `check_solved` with `n` rounds left. -/
structure CInv (m : Mdp σ α) (c : Config σ) (S : List σ) (B : σ → Nat) (n : Nat) (k : Check σ α) : Prop where
  mem : ∀ x ∈ k.open_, x ∈ S
  all : ∀ x ∈ k.closed, Checked m c k.st.graph
    (fun y => isSolved k.st.graph y = true ∨ y ∈ k.closed ∨ y ∈ k.open_) x
  stack : ∀ above x below, k.open_ = above ++ x :: below → x ∈ k.closed →
    Checked m c k.st.graph (fun y => isSolved k.st.graph y = true ∨ y ∈ k.closed ∨ y ∈ above) x
  seen : ∀ x, x ∈ k.visited ↔ x ∈ k.closed ∨ (k.closed = [] ∧ k.open_ = [x])
  rounds : k.open_.length + pending S B k.closed ≤ n


/-- One round of the loop keeps the invariant when the residual is small. -/
theorem CInv.step {S : List σ} {B : σ → Nat} (hd : Deep m c S B) {n : Nat} {k : Check σ α}
    (hk : CInv m c S B (n + 1) k) (ho : ∀ x ∈ k.open_, Live k.st.graph x) {cs : σ} {rest : List σ}
    (eo : k.open_ = cs :: rest) {a : α} {r : Rat} {st : St σ α}
    (h1 : residual m c k.st.later cs = .ok (a, r, st)) (hr : ¬ c.epsilon < r)
    (hsol : ∀ x, isSolved k.st.graph x = true → isSolved st.graph x = true) :
    CInv m c S B n (k.pop cs st k.rv
          ((((m.outcomes cs a).map fun o => o.2.2).filter fun x =>
            !isSolved st.graph x && !decide (x ∈ cs :: k.visited)).reverse ++ rest)) := by
  have hmem : cs ∈ k.open_ := by rw [eo]; exact List.mem_cons_self
  have hS := hk.mem cs hmem
  have hsome : (k.st.later.graph.get? cs).isSome := (live_iff.1 (ho cs hmem)).1
  obtain ⟨n0, v, e0, e1, e2, e3, e4, e5⟩ := residual_eq h1 hsome
  obtain ⟨ha, hout⟩ := residual_out h1 hsome
  -- the visited states are the closed ones
  have hseen : ∀ x, x ∈ cs :: k.visited ↔ x ∈ cs :: k.closed := by
    intro x
    simp only [List.mem_cons, hk.seen x]
    constructor
    · rintro (h | h | ⟨-, h⟩)
      · exact .inl h
      · exact .inr h
      · rw [eo] at h; cases h; exact .inl rfl
    · rintro (h | h)
      · exact .inl h
      · exact .inr (.inl h)
  generalize hp : (((m.outcomes cs a).map fun o => o.2.2).filter fun x =>
            !isSolved st.graph x && !decide (x ∈ cs :: k.visited)).reverse = pushed
  have hpm : ∀ x, x ∈ pushed ↔ (∃ o ∈ m.outcomes cs a, o.2.2 = x) ∧ isSolved st.graph x = false ∧ x ∉ cs :: k.closed := by
    intro x
    rw [← hp]
    simp only [List.mem_reverse, List.mem_filter, List.mem_map, Bool.and_eq_true, Bool.not_eq_true',
      decide_eq_false_iff_not, hseen x]
  -- the state itself
  have hcs : Checked m c st.graph (fun y => isSolved st.graph y = true ∨ y ∈ cs :: k.closed ∨ y ∈ pushed) cs := by
    refine ⟨_, a, v, e1, rfl, e2, ?_, hout, ?_⟩
    · have : |n0.value - v| ≤ c.epsilon := by rw [← e3]; exact not_lt.1 hr
      exact this
    · intro o ho
      by_cases hs : isSolved st.graph o.2.2 = true
      · exact .inl hs
      · by_cases hc : o.2.2 ∈ cs :: k.closed
        · exact .inr (.inl hc)
        · exact .inr (.inr ((hpm _).2 ⟨⟨o, ho, rfl⟩, by simpa using hs, hc⟩))
  -- the others
  have hold : ∀ (lab lab' : σ → Prop) x, x ≠ cs → Checked m c k.st.graph lab x → (∀ y, lab y → lab' y) →
      Checked m c st.graph lab' x := by
    intro lab lab' x hx h hl
    refine h.mono (e4 x hx ?_) e5 hl
    obtain ⟨n, _, _, hn, -⟩ := h
    show (k.st.graph.get? x).isSome
    rw [hn]; rfl
  refine ⟨?_, ?_, ?_, ?_, ?_⟩
  · intro x hx
    rcases List.mem_append.1 hx with hx | hx
    · obtain ⟨⟨o, ho, rfl⟩, -⟩ := (hpm x).1 hx
      exact hd.closed cs hS a ha o ho
    · exact hk.mem x (by rw [eo]; exact List.mem_cons_of_mem _ hx)
  · intro x hx
    by_cases hxc : x = cs
    · subst hxc
      refine hcs.mono rfl (fun y hy => ⟨rfl, hy⟩) ?_
      rintro y (h | h | h)
      · exact .inl h
      · exact .inr (.inl h)
      · exact .inr (.inr (List.mem_append_left _ h))
    · refine hold _ _ x hxc (hk.all x ?_) ?_
      · rcases List.mem_cons.1 hx with h | h
        · exact absurd h hxc
        · exact h
      · rintro y (h | h | h)
        · exact .inl (hsol y h)
        · exact .inr (.inl (List.mem_cons_of_mem _ h))
        · rw [eo] at h
          rcases List.mem_cons.1 h with rfl | h
          · exact .inr (.inl List.mem_cons_self)
          · exact .inr (.inr (List.mem_append_right _ h))
  · intro above x below h hx
    change pushed ++ rest = above ++ x :: below at h
    rcases List.append_eq_append_iff.1 h with ⟨as, h2, h3⟩ | ⟨bs, h2, h3⟩
    · -- below the new states
      by_cases hxc : x = cs
      · subst hxc
        refine hcs.mono rfl (fun y hy => ⟨rfl, hy⟩) ?_
        rintro y (h | h | h)
        · exact .inl h
        · exact .inr (.inl h)
        · exact .inr (.inr (by rw [h2]; exact List.mem_append_left _ h))
      · refine hold _ _ x hxc (hk.stack (cs :: as) x below (by rw [eo, h3]; rfl) ?_) ?_
        · rcases List.mem_cons.1 hx with h | h
          · exact absurd h hxc
          · exact h
        · rintro y (h | h | h)
          · exact .inl (hsol y h)
          · exact .inr (.inl (List.mem_cons_of_mem _ h))
          · rcases List.mem_cons.1 h with rfl | h
            · exact .inr (.inl List.mem_cons_self)
            · exact .inr (.inr (by rw [h2]; exact List.mem_append_right _ h))
    · -- among the new states
      cases bs with
      | nil =>
        rw [List.append_nil] at h2
        rw [List.nil_append] at h3
        by_cases hxc : x = cs
        · subst hxc
          refine hcs.mono rfl (fun y hy => ⟨rfl, hy⟩) ?_
          rintro y (h | h | h)
          · exact .inl h
          · exact .inr (.inl h)
          · exact .inr (.inr (by rw [← h2]; exact h))
        · refine hold _ _ x hxc (hk.stack [cs] x below (by rw [eo, ← h3]; rfl) ?_) ?_
          · rcases List.mem_cons.1 hx with h | h
            · exact absurd h hxc
            · exact h
          · rintro y (h | h | h)
            · exact .inl (hsol y h)
            · exact .inr (.inl (List.mem_cons_of_mem _ h))
            · rcases List.mem_cons.1 h with rfl | h
              · exact .inr (.inl List.mem_cons_self)
              · cases h
      | cons b bs =>
        have hb : x = b := by rw [List.cons_append] at h3; exact (List.cons.inj h3).1
        have : x ∈ pushed := by rw [h2, hb]; simp
        exact absurd hx ((hpm x).1 this).2.2
  · intro x
    refine (hseen x).trans ⟨.inl, ?_⟩
    rintro (h | ⟨h, -⟩)
    · exact h
    · cases h
  · show (pushed ++ rest).length + pending S B (cs :: k.closed) ≤ n
    have hr := hk.rounds
    rw [eo] at hr
    rw [List.length_append]
    rw [List.length_cons] at hr
    by_cases hc : cs ∈ k.closed
    · have hnil : pushed = [] := by
        obtain ⟨n1, a1, v1, f1, f2, f3, f4, f5, f6⟩ := hk.stack [] cs rest eo hc
        have : greedyAction m c st.graph cs = greedyAction m c k.st.graph cs :=
          greedyAction_congr fun b hb o ho => (e5 _ (f5 b hb o ho)).1
        rw [e2, f3] at this
        cases this
        rw [List.eq_nil_iff_forall_not_mem]
        intro y hy
        obtain ⟨⟨o, ho, rfl⟩, g1, g2⟩ := (hpm y).1 hy
        rcases f6 o ho with h | h | h
        · rw [hsol _ h] at g1; cases g1
        · exact g2 (List.mem_cons_of_mem _ h)
        · cases h
      have := pending_cons_le S B k.closed cs
      rw [hnil, List.length_nil]
      omega
    · have h2 := pending_cons S B k.closed hS hc
      have h3 : pushed.length ≤ B cs := by
        rw [← hp, List.length_reverse]
        refine (List.length_filter_le _ _).trans ?_
        rw [List.length_map]
        exact hd.bound cs hS a ha
      omega

/-- The loop ends with an empty stack, unless the check fails or the time is over. -/
theorem checkLoop_labels {P : σ → Rat → Prop} (hP : Holds m c P) {S : List σ} {B : σ → Nat} (hd : Deep m c S B)
    (n : Nat) (k : Check σ α) {k' : Check σ α}
    (hi : Inv m c P k.st.graph) (ho : ∀ x ∈ k.open_, Live k.st.graph x)
    (hk : k.rv = true → CInv m c S B n k) (h : checkLoop m c n k = .ok k') (hrv : k'.rv = true) :
    (k'.open_ = [] ∨ c.left k'.st.clock = false) ∧
    ∀ x ∈ k'.closed, Checked m c k'.st.graph
      (fun y => isSolved k'.st.graph y = true ∨ y ∈ k'.closed ∨ y ∈ k'.open_) x := by
  induction n generalizing k with
  | zero =>
    cases eo : k.open_ with
    | nil => rw [checkLoop_nil _ eo] at h; cases h; exact ⟨.inl eo, (hk hrv).all⟩
    | cons cs rest =>
      cases hl : c.left k.st.clock with
      | false =>
        rw [checkLoop_late _ eo hl] at h; cases h
        refine ⟨.inr ?_, (hk hrv).all⟩
        cases h' : c.left (k.st.clock + 1) with
        | false => exact h'
        | true => rw [hd.time _ h'] at hl; cases hl
      | true =>
        rw [checkLoop_deep eo hl] at h; cases h
        have := (hk hrv).rounds
        rw [eo, List.length_cons] at this
        omega
  | succ n ih =>
    cases eo : k.open_ with
    | nil => rw [checkLoop_nil _ eo] at h; cases h; exact ⟨.inl eo, (hk hrv).all⟩
    | cons cs rest =>
      cases hleft : c.left k.st.clock with
      | false =>
        rw [checkLoop_late _ eo hleft] at h; cases h
        refine ⟨.inr ?_, (hk hrv).all⟩
        cases h' : c.left (k.st.clock + 1) with
        | false => exact h'
        | true => rw [hd.time _ h'] at hleft; cases hleft
      | true =>
        rw [checkLoop_succ n eo hleft] at h
        obtain ⟨⟨a, r, st⟩, h1, h2⟩ := bind_eq_ok.1 h
        have hl : Live k.st.graph cs := ho cs (by rw [eo]; exact List.mem_cons_self)
        obtain ⟨i1, i2, -⟩ := residual_spec hP (st := k.st.later) hi hl h1
        have out := residual_out h1 (live_iff.1 hl).1
        have ho' : ∀ x ∈ rest, Live st.graph x := fun x hx =>
          (ho x (by rw [eo]; exact List.mem_cons_of_mem _ hx)).next hi i2
        dsimp only at h2
        split at h2
        · exact ih _ i1 ho' (fun h => by cases h) h2
        · rename_i hr
          refine ih (k.pop cs st k.rv _) i1 ?_ (fun hrv => (hk hrv).step hd ho eo h1 hr fun x hx => (i2.keeps.solved hx).1) h2
          intro x hx
          simp only [Check.pop, List.mem_append, List.mem_reverse, List.mem_filter, List.mem_map] at hx
          rcases hx with ⟨⟨o, h3, rfl⟩, h4⟩ | hx
          · refine live_iff.2 ⟨out.2 a out.1 o h3, ?_⟩
            simp only [Bool.and_eq_true, Bool.not_eq_true'] at h4
            exact h4.1
          · exact ho' x hx


/-! ### The whole solver -/

/-- What a part of the solver does with the graph: values stay good, labelled nodes stay as they
are, and the labels stay right if the depth suffices. -/
structure Post (m : Mdp σ α) (c : Config σ) (P : σ → Rat → Prop) (S : List σ) (B : σ → Nat)
    (g g' : Dict σ (Node α)) : Prop where
  inv : Inv m c P g'
  keeps : Keeps g g'
  labels : Deep m c S B → Labels m c g → Labels m c g'

theorem Post.refl {P : σ → Rat → Prop} {S : List σ} {B : σ → Nat} {g : Dict σ (Node α)} (h : Inv m c P g) :
    Post m c P S B g g := ⟨h, Keeps.refl g, fun _ h => h⟩

theorem Post.trans {P : σ → Rat → Prop} {S : List σ} {B : σ → Nat} {g g' g'' : Dict σ (Node α)}
    (h : Post m c P S B g g') (h' : Post m c P S B g' g'') : Post m c P S B g g'' :=
  ⟨h'.inv, h.keeps.trans h'.keeps, fun hd hl => h'.labels hd (h.labels hd hl)⟩

theorem Next.post {P : σ → Rat → Prop} {S : List σ} {B : σ → Nat} {g g' : Dict σ (Node α)}
    (h : Next m g g') (hi : Inv m c P g') : Post m c P S B g g' :=
  ⟨hi, h.keeps, fun _ hl => hl.keeps h.keeps h.labels⟩

theorem checkSolved_eq (st : St σ α) (s : σ) :
    checkSolved m c st s =
    (checkLoop m c c.maxDepth ⟨if !isSolved st.graph s then [s] else [], [],
        if !isSolved st.graph s then [s] else [], true, st⟩) >>= fun k =>
      if (k.rv && (c.left k.st.clock || k.open_.isEmpty)) = true then
        .ok (true, { k.st.later with graph := labelAll k.st.graph k.closed })
      else updateAll m c k.closed k.st.later >>= fun st => .ok (false, st) := by
  unfold checkSolved
  rfl

theorem checkSolved_spec {P : σ → Rat → Prop} (hP : Holds m c P) {S : List σ} {B : σ → Nat}
    {st st' : St σ α} {s : σ} {b : Bool} (hi : Inv m c P st.graph) (hs : (st.graph.get? s).isSome) (hS : Deep m c S B → s ∈ S)
    (h : checkSolved m c st s = .ok (b, st')) : Post m c P S B st.graph st'.graph := by
  rw [checkSolved_eq] at h
  obtain ⟨k, h1, h2⟩ := bind_eq_ok.1 h
  have hopen : ∀ x ∈ (if (!isSolved st.graph s) = true then [s] else []), Live st.graph x := by
    intro x hx
    split at hx
    · rename_i h
      cases List.mem_singleton.1 hx
      exact live_iff.2 ⟨hs, by simpa using h⟩
    · cases hx
  obtain ⟨i1, i2, i3⟩ := checkLoop_spec hP _ _ hi hopen (by intro x hx; cases hx) h1
  by_cases hrv : (k.rv && (c.left k.st.clock || k.open_.isEmpty)) = true
  · rw [if_pos hrv] at h2
    cases h2
    refine ⟨labelAll_inv i1 _ i3, i2.keeps.trans (labelAll_keeps i3), fun hd hl => ?_⟩
    simp only [Bool.and_eq_true, Bool.or_eq_true, List.isEmpty_iff] at hrv
    obtain ⟨j1, j2⟩ := checkLoop_labels hP hd _ _ hi hopen (by
      intro _
      refine ⟨?_, ?_, ?_, ?_, ?_⟩
      · intro x hx
        dsimp only at hx
        split at hx
        · cases List.mem_singleton.1 hx; exact hS hd
        · cases hx
      · intro x hx; cases hx
      · intro _ x _ _ hx; cases hx
      · intro x
        dsimp only
        by_cases hss : isSolved st.graph s = true
        · simp [hss]
        · simp [hss, eq_comm]
      · show (if (!isSolved st.graph s) = true then [s] else []).length + pending S B [] ≤ c.maxDepth
        have h1 : pending S B [] = (S.map B).sum := by simp [pending]
        have h2 := hd.depth
        have h3 : (if (!isSolved st.graph s) = true then [s] else []).length ≤ 1 := by split <;> simp
        omega) h1 hrv.1
    have hop : k.open_ = [] := by
      rcases j1 with j1 | j1
      · exact j1
      · rcases hrv.2 with h | h
        · rw [j1] at h; cases h
        · exact h
    rw [hop] at j2
    have hl' : Labels m c k.st.graph := hl.keeps i2.keeps i2.labels
    intro x hx hg
    have hval : ∀ y, value (labelAll k.st.graph k.closed) y = value k.st.graph y := by
      intro y
      unfold value
      rw [get?_labelAll]
      cases k.st.graph.get? y with
      | none => rfl
      | some n =>
        simp only [Option.map_some, Option.getD_some]
        split <;> rfl
    have hsm : ∀ y, (k.st.graph.get? y).isSome → ((labelAll k.st.graph k.closed).get? y).isSome := by
      intro y hy
      rw [get?_labelAll]; simpa using hy
    have hsol : ∀ y, isSolved k.st.graph y = true → isSolved (labelAll k.st.graph k.closed) y = true := fun y hy =>
      ((labelAll_keeps i3).solved hy).1
    by_cases hxc : x ∈ k.closed
    · obtain ⟨n, a, f1, f2, f3, f4, f5⟩ := (j2 x hxc).good
      refine ⟨{ n with solved := true }, a, ?_, f2, f3, ?_, ?_⟩
      · show (labelAll k.st.graph k.closed).get? x = _
        rw [get?_labelAll, f1]
        show some (if x ∈ k.closed then _ else n) = _
        rw [if_pos hxc]
      · rw [m.q_congr c.discount (fun o _ => hval o.2.2)]
        exact f4
      · intro o ho
        obtain ⟨g1, g2⟩ := f5 o ho
        refine ⟨hsm _ g1, ?_⟩
        rcases g2 with g2 | g2 | g2
        · exact hsol _ g2
        · obtain ⟨n', hn'⟩ := Option.isSome_iff_exists.1 g1
          rw [isSolved_iff]
          refine ⟨{ n' with solved := true }, ?_, rfl⟩
          show (labelAll k.st.graph k.closed).get? _ = _
          rw [get?_labelAll, hn']
          show some (if o.2.2 ∈ k.closed then _ else n') = _
          rw [if_pos g2]
        · cases g2
    · have hx' : (labelAll k.st.graph k.closed).get? x = k.st.graph.get? x := by
        rw [get?_labelAll]
        simp only [hxc, if_false, Option.map_id']
      have : isSolved k.st.graph x = true := by
        have : isSolved (labelAll k.st.graph k.closed) x = true := hx
        simpa [isSolved, hx'] using this
      refine (hl' x this hg).mono hx' ?_
      intro y hy hy'
      exact ⟨hval y, hsm y hy', hsol y hy⟩
  · rw [if_neg hrv] at h2
    obtain ⟨st1, h3, h4⟩ := bind_eq_ok.1 h2
    cases h4
    obtain ⟨j1, j2⟩ := updateAll_spec hP _ k.st.later i1 i3 h3
    exact (i2.trans j2).post j1

theorem labelLoop_cons (s : σ) (visited : List σ) (st : St σ α) :
    labelLoop m c (s :: visited) st = if c.left st.clock = true then
      checkSolved m c st.later s >>= fun r => if r.1 = true then labelLoop m c visited r.2 else .ok r.2
    else .ok st.later := by
  rw [labelLoop.eq_def]
  show (if (!c.left st.clock) = true then _ else _) = _
  by_cases h : c.left st.clock = true
  · rw [if_neg (by simp [h]), if_pos h]
    rfl
  · rw [if_pos (by simp [h]), if_neg h]
    rfl

theorem labelLoop_spec {P : σ → Rat → Prop} (hP : Holds m c P) {S : List σ} {B : σ → Nat} (visited : List σ)
    (st : St σ α) {st' : St σ α} (hi : Inv m c P st.graph) (hs : ∀ s ∈ visited, (st.graph.get? s).isSome ∧ (Deep m c S B → s ∈ S))
    (h : labelLoop m c visited st = .ok st') : Post m c P S B st.graph st'.graph := by
  induction visited generalizing st with
  | nil => cases h; exact Post.refl hi
  | cons s visited ih =>
    rw [labelLoop_cons] at h
    split at h
    · obtain ⟨⟨b, st1⟩, h1, h2⟩ := bind_eq_ok.1 h
      have p := checkSolved_spec (S := S) (B := B) hP (st := st.later) hi (hs s List.mem_cons_self).1
        (hs s List.mem_cons_self).2 h1
      dsimp only at h2
      split at h2
      · refine p.trans (ih st1 p.inv ?_ h2)
        intro x hx
        have := hs x (List.mem_cons_of_mem _ hx)
        obtain ⟨n, hn⟩ := Option.isSome_iff_exists.1 this.1
        obtain ⟨n', hn', -⟩ := p.keeps x n hn
        exact ⟨by rw [hn']; rfl, this.2⟩
      · cases h2; exact p
    · cases h; exact Post.refl hi

theorem trialLoop_stop (n : Nat) {cs : σ} {found : Bool} {visited : List σ} {st : St σ α}
    (h : ((!c.useLabels || !isSolved st.graph cs) && !found) = false) :
    trialLoop m c n cs found visited st = .ok (visited, st) := by
  unfold trialLoop
  rw [if_neg (by simp [h])]

theorem trialLoop_late (n : Nat) {cs : σ} {found : Bool} {visited : List σ} {st : St σ α}
    (h : ((!c.useLabels || !isSolved st.graph cs) && !found) = true) (hl : n = 0 ∨ c.left st.clock = false) :
    trialLoop m c n cs found visited st = .ok (visited, st.later) := by
  rw [trialLoop.eq_def]
  show (if _ then (if (!c.left st.clock) = true then _ else _) else _) = _
  rw [if_pos h]
  by_cases h' : c.left st.clock = true
  · rw [if_neg (by simp [h'])]
    rcases hl with rfl | hl
    · rfl
    · rw [hl] at h'; cases h'
  · rw [if_pos (by simp [h'])]
    rfl

theorem trialLoop_succ (n : Nat) {cs : σ} {found : Bool} {visited : List σ} {st : St σ α}
    (h : ((!c.useLabels || !isSolved st.graph cs) && !found) = true) (hl : c.left st.clock = true) :
    trialLoop m c (n + 1) cs found visited st =
      update m c st.later cs >>= fun st1 =>
        match (st1.graph.get? cs).bind Node.best with
        | none => .error .attributeError
        | some a => pickNext m c st1 cs a >>= fun r =>
          trialLoop m c n r.1 (((st.graph.get? cs).map Node.goal).getD false) (cs :: visited) r.2 := by
  rw [trialLoop.eq_def]
  show (if _ then (if (!c.left st.clock) = true then _ else _) else _) = _
  rw [if_pos h, if_neg (by simp [hl])]
  rfl

omit [DecidableEq σ] in
theorem pickNext_ok {st st' : St σ α} {s ns : σ} {a : α} (h : pickNext m c st s a = .ok (ns, st')) :
    st'.graph = st.graph ∧ ∃ o ∈ m.outcomes s a, o.2.2 = ns := by
  unfold pickNext at h
  split at h
  · cases h
  · rename_i o ho
    cases h
    exact ⟨rfl, o, List.mem_of_getElem? ho, rfl⟩

theorem trialLoop_spec {P : σ → Rat → Prop} (hP : Holds m c P) {S : List σ} {B : σ → Nat}
    (hlab : c.useLabels = true) (n : Nat) (cs : σ) (found : Bool) (visited : List σ) (st : St σ α) {st' : St σ α}
    {visited' : List σ} (hi : Inv m c P st.graph) (hs : ∀ s ∈ cs :: visited, (st.graph.get? s).isSome ∧ (Deep m c S B → s ∈ S))
    (h : trialLoop m c n cs found visited st = .ok (visited', st')) :
    Post m c P S B st.graph st'.graph ∧ ∀ s ∈ visited', (st'.graph.get? s).isSome ∧ (Deep m c S B → s ∈ S) := by
  induction n generalizing cs found visited st with
  | zero =>
    by_cases hc : ((!c.useLabels || !isSolved st.graph cs) && !found) = true
    · rw [trialLoop_late 0 hc (.inl rfl)] at h; cases h
      exact ⟨Post.refl hi, fun x hx => hs x (List.mem_cons_of_mem _ hx)⟩
    · rw [trialLoop_stop 0 (by simpa using hc)] at h; cases h
      exact ⟨Post.refl hi, fun x hx => hs x (List.mem_cons_of_mem _ hx)⟩
  | succ n ih =>
    by_cases hc : ((!c.useLabels || !isSolved st.graph cs) && !found) = true
    swap
    · rw [trialLoop_stop _ (by simpa using hc)] at h; cases h
      exact ⟨Post.refl hi, fun x hx => hs x (List.mem_cons_of_mem _ hx)⟩
    · cases hleft : c.left st.clock with
      | false =>
        rw [trialLoop_late _ hc (.inr hleft)] at h; cases h
        exact ⟨Post.refl hi, fun x hx => hs x (List.mem_cons_of_mem _ hx)⟩
      | true =>
        rw [trialLoop_succ n hc hleft] at h
        obtain ⟨st1, h1, h2⟩ := bind_eq_ok.1 h
        have hl : Live st.graph cs := by
          refine live_iff.2 ⟨(hs cs List.mem_cons_self).1, ?_⟩
          rw [hlab] at hc
          simpa using (by simpa using hc : _ ∧ _).1
        obtain ⟨i1, i2, -, nd, a, e1, e2, ha, hout⟩ := update_spec hP (st := st.later) hi hl h1
        have i2' : Next m st.graph st1.graph := i2
        rw [e1] at h2
        simp only [Option.bind_some, e2] at h2
        obtain ⟨⟨ns, st2⟩, h3, h4⟩ := bind_eq_ok.1 h2
        obtain ⟨eg, o, ho, rfl⟩ := pickNext_ok h3
        have key : ∀ x, (st.graph.get? x).isSome → (st2.graph.get? x).isSome := by
          intro x hx
          obtain ⟨nx, hn⟩ := Option.isSome_iff_exists.1 hx
          obtain ⟨n', hn', -⟩ := i2'.keeps x nx hn
          rw [eg, hn']; rfl
        have p : Post m c P S B st.graph st2.graph := by rw [eg]; exact i2'.post i1
        obtain ⟨j1, j2⟩ := ih _ _ _ _ p.inv (by
          intro x hx
          rcases List.mem_cons.1 hx with rfl | hx
          · exact ⟨by rw [eg]; exact hout o ho, fun hd => hd.closed cs ((hs cs List.mem_cons_self).2 hd) a ha o ho⟩
          · exact ⟨key x (hs x hx).1, (hs x hx).2⟩) h4
        exact ⟨p.trans j1, j2⟩

theorem trial_spec {P : σ → Rat → Prop} (hP : Holds m c P) {S : List σ} {B : σ → Nat}
    (hlab : c.useLabels = true) {st st' : St σ α} {s : σ} (hi : Inv m c P st.graph)
    (hs : (st.graph.get? s).isSome) (hS : Deep m c S B → s ∈ S) (h : trial m c st s = .ok st') :
    Post m c P S B st.graph st'.graph := by
  unfold trial at h
  obtain ⟨⟨visited, st1⟩, h1, h2⟩ := bind_eq_ok.1 h
  obtain ⟨p, hv⟩ := trialLoop_spec (B := B) hP hlab _ s false [] st hi (by
    intro x hx
    cases List.mem_singleton.1 hx
    exact ⟨hs, hS⟩) h1
  dsimp only at h2
  rw [if_pos hlab] at h2
  exact p.trans (labelLoop_spec hP visited st1 p.inv hv h2)

theorem rolloutLoop_stop (n : Nat) {s : σ} {st : St σ α} (h : (!c.useLabels || !isSolved st.graph s) = false) :
    rolloutLoop m c s n st = .ok st := by
  unfold rolloutLoop
  rw [if_neg (by simp [h])]

theorem rolloutLoop_late (n : Nat) {s : σ} {st : St σ α} (h : (!c.useLabels || !isSolved st.graph s) = true)
    (hl : n = 0 ∨ c.left st.clock = false) : rolloutLoop m c s n st = .ok st.later := by
  rw [rolloutLoop.eq_def]
  show (if _ then (if (!c.left st.clock) = true then _ else _) else _) = _
  rw [if_pos h]
  by_cases h' : c.left st.clock = true
  · rw [if_neg (by simp [h'])]
    rcases hl with rfl | hl
    · rfl
    · rw [hl] at h'; cases h'
  · rw [if_pos (by simp [h'])]
    rfl

theorem rolloutLoop_succ (n : Nat) {s : σ} {st : St σ α} (h : (!c.useLabels || !isSolved st.graph s) = true)
    (hl : c.left st.clock = true) :
    rolloutLoop m c s (n + 1) st = trial m c st.later s >>= fun st => rolloutLoop m c s n st := by
  rw [rolloutLoop.eq_def]
  show (if _ then (if (!c.left st.clock) = true then _ else _) else _) = _
  rw [if_pos h, if_neg (by simp [hl])]
  rfl

theorem rolloutLoop_spec {P : σ → Rat → Prop} (hP : Holds m c P) {S : List σ} {B : σ → Nat}
    (hlab : c.useLabels = true) (n : Nat) (st : St σ α) {st' : St σ α} {s : σ} (hi : Inv m c P st.graph)
    (hs : (st.graph.get? s).isSome) (hS : Deep m c S B → s ∈ S) (h : rolloutLoop m c s n st = .ok st') :
    Post m c P S B st.graph st'.graph := by
  induction n generalizing st with
  | zero =>
    by_cases hc : (!c.useLabels || !isSolved st.graph s) = true
    · rw [rolloutLoop_late 0 hc (.inl rfl)] at h; cases h; exact Post.refl hi
    · rw [rolloutLoop_stop 0 (by simpa using hc)] at h; cases h; exact Post.refl hi
  | succ n ih =>
    by_cases hc : (!c.useLabels || !isSolved st.graph s) = true
    swap
    · rw [rolloutLoop_stop _ (by simpa using hc)] at h; cases h; exact Post.refl hi
    · cases hleft : c.left st.clock with
      | false => rw [rolloutLoop_late _ hc (.inr hleft)] at h; cases h; exact Post.refl hi
      | true =>
        rw [rolloutLoop_succ n hc hleft] at h
        obtain ⟨st1, h1, h2⟩ := bind_eq_ok.1 h
        have p := trial_spec (B := B) hP hlab (st := st.later) hi hs hS h1
        obtain ⟨n0, hn⟩ := Option.isSome_iff_exists.1 hs
        obtain ⟨n', hn', -⟩ := p.keeps s n0 hn
        exact Post.trans p (ih st1 p.inv (by rw [hn']; rfl) h2)

/-- The root node is there. -/
def rooted (c : Config σ) (st : St σ α) (s : σ) : St σ α :=
  if st.graph.contains s then st else { st with graph := st.graph.set s { value := c.h s } }

theorem rooted_adds (st : St σ α) (s : σ) (hg : m.goal s = false) :
    Adds m c st.graph (rooted c st s).graph ∧ ((rooted c st s).graph.get? s).isSome := by
  have : (rooted c st s).graph = addNode m c st.graph s := by
    unfold rooted addNode
    split
    · rfl
    · rw [if_neg (by simp [hg])]
  rw [this]
  exact ⟨addNode_adds _ _, addNode_has _ _⟩

theorem solve_spec {P : σ → Rat → Prop} (hP : Holds m c P) {S : List σ} {B : σ → Nat}
    (hlab : c.useLabels = true) {st st' : St σ α} {s : σ} (hi : Inv m c P st.graph) (hS : Deep m c S B → s ∈ S)
    (hg : m.goal s = false) (h : solve m c st s = .ok st') : Post m c P S B st.graph st'.graph := by
  obtain ⟨h1, h2⟩ := rooted_adds (m := m) (c := c) st s hg
  have hi' := adds_inv hP h1 hi
  have p : Post m c P S B st.graph (rooted c st s).graph := h1.next.post hi'
  have h' : (if (isSolved (rooted c st s).graph s || m.goal s) = true then .ok (rooted c st s)
    else rolloutLoop m c s c.rollouts (rooted c st s)) = Except.ok st' := h
  split at h'
  · cases h'; exact p
  · exact p.trans (rolloutLoop_spec hP hlab _ _ hi' h2 hS h')


/-! ### No crash -/

/-- Every state that is no goal has an action, and every action an outcome. -/
def Alive (m : Mdp σ α) : Prop :=
  ∀ s, m.goal s = false → m.actions s ≠ [] ∧ ∀ a ∈ m.actions s, m.outcomes s a ≠ []

theorem update_total (ha : Alive m) (st : St σ α) {s : σ} (hg : m.goal s = false) : ∃ st', update m c st s = .ok st' := by
  unfold update
  cases e : greedyAction m c (expand m c st.graph s) s with
  | none => exact absurd (Mdp.greedy_none e) (ha s hg).1
  | some av => simp only [e]; exact ⟨_, rfl⟩

theorem residual_total (ha : Alive m) (st : St σ α) {s : σ} (hg : m.goal s = false) : ∃ r, residual m c st s = .ok r := by
  unfold residual
  cases e : greedyAction m c (expand m c st.graph s) s with
  | none => exact absurd (Mdp.greedy_none e) (ha s hg).1
  | some av => simp only [e]; exact ⟨_, rfl⟩

theorem checkLoop_total {P : σ → Rat → Prop} (hP : Holds m c P) (ha : Alive m) (n : Nat) (k : Check σ α)
    (hi : Inv m c P k.st.graph) (ho : ∀ x ∈ k.open_, Live k.st.graph x) : ∃ k', checkLoop m c n k = .ok k' := by
  induction n generalizing k with
  | zero =>
    cases eo : k.open_ with
    | nil => exact ⟨_, checkLoop_nil _ eo⟩
    | cons cs rest =>
      cases hl : c.left k.st.clock with
      | false => exact ⟨_, checkLoop_late _ eo hl⟩
      | true => exact ⟨_, checkLoop_deep eo hl⟩
  | succ n ih =>
    cases eo : k.open_ with
    | nil => exact ⟨_, checkLoop_nil _ eo⟩
    | cons cs rest =>
      cases hleft : c.left k.st.clock with
      | false => exact ⟨_, checkLoop_late _ eo hleft⟩
      | true =>
        rw [checkLoop_succ n eo hleft]
        have hl : Live k.st.graph cs := ho cs (by rw [eo]; exact List.mem_cons_self)
        obtain ⟨⟨a, r, st⟩, h1⟩ := residual_total (c := c) ha k.st.later (hl.goal hi)
        obtain ⟨i1, i2, -⟩ := residual_spec hP (st := k.st.later) hi hl h1
        have out := residual_out h1 (live_iff.1 hl).1
        have ho' : ∀ x ∈ rest, Live st.graph x := fun x hx =>
          (ho x (by rw [eo]; exact List.mem_cons_of_mem _ hx)).next hi i2
        rw [h1, bind_ok]
        dsimp only
        split
        · exact ih _ i1 ho'
        · refine ih (k.pop cs st k.rv _) i1 ?_
          intro x hx
          simp only [Check.pop, List.mem_append, List.mem_reverse, List.mem_filter, List.mem_map] at hx
          rcases hx with ⟨⟨o, h3, rfl⟩, h4⟩ | hx
          · refine live_iff.2 ⟨out.2 a out.1 o h3, ?_⟩
            simp only [Bool.and_eq_true, Bool.not_eq_true'] at h4
            exact h4.1
          · exact ho' x hx

theorem updateAll_total {P : σ → Rat → Prop} (hP : Holds m c P) (ha : Alive m) (closed : List σ) (st : St σ α)
    (hi : Inv m c P st.graph) (hc : ∀ x ∈ closed, Done st.graph x) : ∃ st', updateAll m c closed st = .ok st' := by
  induction closed generalizing st with
  | nil => exact ⟨_, rfl⟩
  | cons s closed ih =>
    rw [updateAll_cons]
    split
    · obtain ⟨st1, h1⟩ := update_total (c := c) ha st.later ((hc s List.mem_cons_self).1.goal hi)
      obtain ⟨i1, i2, -⟩ := update_spec hP (st := st.later) hi (hc s List.mem_cons_self).1 h1
      rw [h1, bind_ok]
      exact ih st1 i1 (fun x hx => (hc x (List.mem_cons_of_mem _ hx)).next hi i2)
    · exact ⟨_, rfl⟩

theorem checkSolved_total {P : σ → Rat → Prop} (hP : Holds m c P) (ha : Alive m) (st : St σ α) {s : σ}
    (hi : Inv m c P st.graph) (hs : (st.graph.get? s).isSome) : ∃ r, checkSolved m c st s = .ok r := by
  rw [checkSolved_eq]
  have hopen : ∀ x ∈ (if (!isSolved st.graph s) = true then [s] else []), Live st.graph x := by
    intro x hx
    split at hx
    · rename_i h
      cases List.mem_singleton.1 hx
      exact live_iff.2 ⟨hs, by simpa using h⟩
    · cases hx
  obtain ⟨k, h1⟩ := checkLoop_total hP ha c.maxDepth
    ⟨if !isSolved st.graph s then [s] else [], [], if !isSolved st.graph s then [s] else [], true, st⟩ hi hopen
  obtain ⟨i1, i2, i3⟩ := checkLoop_spec hP _ _ hi hopen (by intro x hx; cases hx) h1
  rw [h1, bind_ok]
  split
  · exact ⟨_, rfl⟩
  · obtain ⟨st', h2⟩ := updateAll_total hP ha k.closed k.st.later i1 i3
    rw [h2]
    exact ⟨_, rfl⟩

theorem labelLoop_total {P : σ → Rat → Prop} (hP : Holds m c P) (ha : Alive m) (visited : List σ) (st : St σ α)
    (hi : Inv m c P st.graph) (hs : ∀ s ∈ visited, (st.graph.get? s).isSome) :
    ∃ st', labelLoop m c visited st = .ok st' := by
  induction visited generalizing st with
  | nil => exact ⟨_, rfl⟩
  | cons s visited ih =>
    rw [labelLoop_cons]
    split
    · obtain ⟨⟨b, st1⟩, h1⟩ := checkSolved_total hP ha st.later hi (hs s List.mem_cons_self)
      have p := checkSolved_spec (S := [s]) (B := fun _ => 0) hP (st := st.later) hi (hs s List.mem_cons_self)
        (fun _ => List.mem_cons_self) h1
      rw [h1, bind_ok]
      split
      · refine ih st1 p.inv ?_
        intro x hx
        obtain ⟨n, hn⟩ := Option.isSome_iff_exists.1 (hs x (List.mem_cons_of_mem _ hx))
        obtain ⟨n', hn', -⟩ := p.keeps x n hn
        rw [hn']; rfl
      · exact ⟨_, rfl⟩
    · exact ⟨_, rfl⟩

omit [DecidableEq σ] in
theorem pickNext_total (st : St σ α) {s : σ} {a : α} (h : m.outcomes s a ≠ []) : ∃ r, pickNext m c st s a = .ok r := by
  unfold pickNext
  have : c.draw st.draws % (m.outcomes s a).length < (m.outcomes s a).length :=
    Nat.mod_lt _ (List.length_pos_of_ne_nil h)
  rw [List.getElem?_eq_getElem this]
  exact ⟨_, rfl⟩

theorem trialLoop_total {P : σ → Rat → Prop} (hP : Holds m c P) (ha : Alive m)
    (hlab : c.useLabels = true) (n : Nat) (cs : σ) (found : Bool) (visited : List σ) (st : St σ α)
    (hi : Inv m c P st.graph) (hs : (st.graph.get? cs).isSome) :
    ∃ r, trialLoop m c n cs found visited st = .ok r := by
  induction n generalizing cs found visited st with
  | zero =>
    by_cases hc : ((!c.useLabels || !isSolved st.graph cs) && !found) = true
    · exact ⟨_, trialLoop_late 0 hc (.inl rfl)⟩
    · exact ⟨_, trialLoop_stop 0 (by simpa using hc)⟩
  | succ n ih =>
    by_cases hc : ((!c.useLabels || !isSolved st.graph cs) && !found) = true
    swap
    · exact ⟨_, trialLoop_stop _ (by simpa using hc)⟩
    · cases hleft : c.left st.clock with
      | false => exact ⟨_, trialLoop_late _ hc (.inr hleft)⟩
      | true =>
        rw [trialLoop_succ n hc hleft]
        have hl : Live st.graph cs := by
          refine live_iff.2 ⟨hs, ?_⟩
          rw [hlab] at hc
          simpa using (by simpa using hc : _ ∧ _).1
        obtain ⟨st1, h1⟩ := update_total (c := c) ha st.later (hl.goal hi)
        obtain ⟨i1, i2, -, nd, a, e1, e2, hact, hout⟩ := update_spec hP (st := st.later) hi hl h1
        rw [h1, bind_ok, e1]
        simp only [Option.bind_some, e2]
        obtain ⟨⟨ns, st2⟩, h3⟩ := pickNext_total (c := c) st1 ((ha cs (hl.goal hi)).2 a hact)
        obtain ⟨eg, o, ho, rfl⟩ := pickNext_ok h3
        rw [h3, bind_ok]
        exact ih _ _ _ _ (by rw [eg]; exact i1) (by rw [eg]; exact hout o ho)

theorem rolloutLoop_total {P : σ → Rat → Prop} (hP : Holds m c P) (ha : Alive m)
    (hlab : c.useLabels = true) (n : Nat) (st : St σ α) {s : σ} (hi : Inv m c P st.graph)
    (hs : (st.graph.get? s).isSome) : ∃ st', rolloutLoop m c s n st = .ok st' := by
  induction n generalizing st with
  | zero =>
    by_cases hc : (!c.useLabels || !isSolved st.graph s) = true
    · exact ⟨_, rolloutLoop_late 0 hc (.inl rfl)⟩
    · exact ⟨_, rolloutLoop_stop 0 (by simpa using hc)⟩
  | succ n ih =>
    by_cases hc : (!c.useLabels || !isSolved st.graph s) = true
    swap
    · exact ⟨_, rolloutLoop_stop _ (by simpa using hc)⟩
    · cases hleft : c.left st.clock with
      | false => exact ⟨_, rolloutLoop_late _ hc (.inr hleft)⟩
      | true =>
        rw [rolloutLoop_succ n hc hleft]
        have ht : ∃ st1, trial m c st.later s = .ok st1 := by
          unfold trial
          obtain ⟨⟨visited, st1⟩, h1⟩ := trialLoop_total hP ha hlab c.maxDepth s false [] st.later hi hs
          obtain ⟨p, hv⟩ := trialLoop_spec (S := [s]) (B := fun _ => c.maxDepth) hP hlab _ s false [] st.later hi (by
            intro x hx
            cases List.mem_singleton.1 hx
            exact ⟨hs, fun _ => List.mem_cons_self⟩) h1
          rw [h1, bind_ok]
          dsimp only
          rw [if_pos hlab]
          exact labelLoop_total hP ha visited st1 p.inv fun x hx => (hv x hx).1
        obtain ⟨st1, h1⟩ := ht
        have p := trial_spec (S := [s]) (B := fun _ => 0) hP hlab (st := st.later) hi hs (fun _ => List.mem_cons_self) h1
        rw [h1, bind_ok]
        obtain ⟨n0, hn⟩ := Option.isSome_iff_exists.1 hs
        obtain ⟨n', hn', -⟩ := p.keeps s n0 hn
        exact ih st1 p.inv (by rw [hn']; rfl)

theorem solve_total {P : σ → Rat → Prop} (hP : Holds m c P) (ha : Alive m)
    (hlab : c.useLabels = true) (st : St σ α) {s : σ} (hi : Inv m c P st.graph)
    (hg : m.goal s = false) : ∃ st', solve m c st s = .ok st' := by
  obtain ⟨h1, h2⟩ := rooted_adds (m := m) (c := c) st s hg
  have hi' := adds_inv hP h1 hi
  show ∃ st', (if (isSolved (rooted c st s).graph s || m.goal s) = true then .ok (rooted c st s)
    else rolloutLoop m c s c.rollouts (rooted c st s)) = Except.ok st'
  split
  · exact ⟨_, rfl⟩
  · exact rolloutLoop_total hP ha hlab _ _ hi' h2


/-! ### A best action -/

theorem rolloutLoop_best {P : σ → Rat → Prop} (hP : Holds m c P)
    (hlab : c.useLabels = true) (n : Nat) (st : St σ α) {st' : St σ α} {s : σ} (hi : Inv m c P st.graph)
    (hs : Live st.graph s) (hl1 : c.left st.clock = true) (hl2 : c.left (st.clock + 1) = true) (hn : c.maxDepth ≠ 0)
    (h : rolloutLoop m c s (n + 1) st = .ok st') : ∃ nd, st'.graph.get? s = some nd ∧ nd.best.isSome = true := by
  have hu := hs.isSolved
  rw [rolloutLoop_succ n (by simp [hu]) hl1] at h
  obtain ⟨st1, h1, h2⟩ := bind_eq_ok.1 h
  have hsome := (live_iff.1 hs).1
  have p1 := trial_spec (S := [s]) (B := fun _ => 0) hP hlab (st := st.later) hi hsome (fun _ => List.mem_cons_self) h1
  have hb : ∃ nd, st1.graph.get? s = some nd ∧ nd.best.isSome = true := by
    unfold trial at h1
    obtain ⟨⟨visited, st2⟩, h3, h4⟩ := bind_eq_ok.1 h1
    dsimp only at h4
    rw [if_pos hlab] at h4
    obtain ⟨d, hd⟩ := Nat.exists_eq_succ_of_ne_zero hn
    obtain ⟨p2, hv⟩ := trialLoop_spec (S := [s]) (B := fun _ => c.maxDepth) hP hlab _ s false [] st.later hi (by
      intro x hx
      cases List.mem_singleton.1 hx
      exact ⟨hsome, fun _ => List.mem_cons_self⟩) h3
    have hb2 : ∃ nd, st2.graph.get? s = some nd ∧ nd.best.isSome = true := by
      rw [hd, trialLoop_succ (st := st.later) d (by
        have : isSolved st.later.graph s = false := hu
        simp [this]) hl2] at h3
      obtain ⟨st3, h5, h6⟩ := bind_eq_ok.1 h3
      obtain ⟨i1, i2, -, nd, a, e1, e2, hact, hout⟩ := update_spec hP (st := st.later.later) hi hs h5
      rw [e1] at h6
      simp only [Option.bind_some, e2] at h6
      obtain ⟨⟨ns, st4⟩, h7, h8⟩ := bind_eq_ok.1 h6
      obtain ⟨eg, o, ho, rfl⟩ := pickNext_ok h7
      have key : ∀ x ∈ [o.2.2, s], (st4.graph.get? x).isSome := by
        intro x hx
        rw [eg]
        rcases List.mem_cons.1 hx with rfl | hx
        · exact hout o ho
        · cases List.mem_singleton.1 hx; rw [e1]; rfl
      obtain ⟨p3, -⟩ := trialLoop_spec (S := [s]) (B := fun _ => c.maxDepth) hP hlab d o.2.2 _ [s] st4
        (by rw [eg]; exact i1) (fun x hx => ⟨key x hx, fun hdd => by
          have := hdd.depth
          simp at this⟩) h8
      obtain ⟨n', f1, -, f2⟩ := p3.keeps s nd (by rw [eg]; exact e1)
      exact ⟨n', f1, f2 (by rw [e2]; rfl)⟩
    obtain ⟨nd, f1, f2⟩ := hb2
    have p4 := labelLoop_spec (S := [s]) (B := fun _ => c.maxDepth) hP visited st2 p2.inv hv h4
    obtain ⟨n', g1, -, g2⟩ := p4.keeps s nd f1
    exact ⟨n', g1, g2 f2⟩
  obtain ⟨nd, f1, f2⟩ := hb
  have p2 := rolloutLoop_spec (S := [s]) (B := fun _ => 0) hP hlab n st1 p1.inv (by rw [f1]; rfl)
    (fun _ => List.mem_cons_self) h2
  obtain ⟨n', g1, -, g2⟩ := p2.keeps s nd f1
  exact ⟨n', g1, g2 f2⟩

theorem solve_best {P : σ → Rat → Prop} (hP : Holds m c P)
    (hlab : c.useLabels = true) (st : St σ α) {st' : St σ α} {s : σ} (hi : Inv m c P st.graph) (hg : m.goal s = false)
    (hl1 : c.left st.clock = true) (hl2 : c.left (st.clock + 1) = true) (hn : c.maxDepth ≠ 0) (hr : c.rollouts ≠ 0)
    (h : solve m c st s = .ok st') : ∃ nd, st'.graph.get? s = some nd ∧ nd.best.isSome = true := by
  obtain ⟨h1, h2⟩ := rooted_adds (m := m) (c := c) st s hg
  have hi' := adds_inv hP h1 hi
  have h' : (if (isSolved (rooted c st s).graph s || m.goal s) = true then .ok (rooted c st s)
    else rolloutLoop m c s c.rollouts (rooted c st s)) = Except.ok st' := h
  split at h'
  · rename_i hs
    cases h'
    simp only [hg, Bool.or_false] at hs
    obtain ⟨n, e, hsn⟩ := isSolved_iff.1 hs
    exact ⟨n, e, (hi'.act s n e hg).2 hsn⟩
  · rename_i hs
    obtain ⟨d, hd⟩ := Nat.exists_eq_succ_of_ne_zero hr
    rw [hd] at h'
    have hc : (rooted c st s).clock = st.clock := by unfold rooted; split <;> rfl
    refine rolloutLoop_best hP hlab d (rooted c st s) hi' (live_iff.2 ⟨h2, ?_⟩) (by rw [hc]; exact hl1)
      (by rw [hc]; exact hl2) hn h'
    simpa [hg] using hs

/-! ### Values along labelled states -/

omit [DecidableEq σ] in
theorem exists_max (D : σ → Rat) (l : List σ) (h : l ≠ []) : ∃ s ∈ l, ∀ t ∈ l, D t ≤ D s := by
  induction l with
  | nil => exact absurd rfl h
  | cons x l ih =>
    by_cases hl : l = []
    · subst hl
      exact ⟨x, List.mem_cons_self, fun t ht => by cases List.mem_singleton.1 ht; exact le_refl _⟩
    · obtain ⟨s, hs, hmax⟩ := ih hl
      by_cases hx : D s ≤ D x
      · refine ⟨x, List.mem_cons_self, fun t ht => ?_⟩
        rcases List.mem_cons.1 ht with rfl | ht
        · exact le_refl _
        · exact (hmax t ht).trans hx
      · refine ⟨s, List.mem_cons_of_mem _ hs, fun t ht => ?_⟩
        rcases List.mem_cons.1 ht with rfl | ht
        · exact (not_le.1 hx).le
        · exact hmax t ht

end Lrtdp
end Verif
