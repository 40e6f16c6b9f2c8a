import Verif.Lemmas.Ilao
import Mathlib.Algebra.Order.Field.Basic

/-! The phases of the main loop of ilaostar.hh. -/
namespace Verif.Ilao
variable [DecidableEq σ] {m : Mdp σ α} {c : Config σ} {U : σ → Option Rat}

theorem expand_contains (hU : CostBound m c U) {g : Graph σ α} (h : Inv m c U g) {s : σ} (t : σ) (ht : g.contains t = true) :
    (update m c (expand m c g s) s).contains t = true := by
  obtain ⟨_, h2, _⟩ := addAll hU h s (m.actions s)
  rw [update, expand]
  simp only
  rw [contains_set, contains_set, (h2 t ht).1]
  simp

/-! ### Searching for tips -/

theorem dfs_good (hU : CostBound m c U) {root : σ} (n : Nat) (op visited : List σ) (g : Graph σ α) (h : Inv m c U g)
    (hr : g.contains root = true) (hop : ∀ x ∈ op, g.contains x = true) :
    Good (NoDeadEnd m) (fun g' => Inv m c U g' ∧ ∀ t, g.contains t = true → g'.contains t = true) (dfs m c root n op visited g) := by
  induction n generalizing op visited g with
  | zero =>
    cases op with
    | nil => exact ⟨h, fun _ h => h⟩
    | cons x op => trivial
  | succ n ih =>
    cases op with
    | nil => rw [dfs]; exact ⟨h, fun _ h => h⟩
    | cons cs rest =>
      have hcs := hop cs (by simp)
      have hrest : ∀ x ∈ rest, g.contains x = true := fun x hx => hop x (List.mem_cons_of_mem _ hx)
      rw [dfs]
      split
      · exact ih rest visited g h hr hrest
      · rename_i hsol
        have hng : m.goal cs = false := by
          cases hg : m.goal cs with
          | false => rfl
          | true => exact absurd (h.goal cs hcs hg).2.1 hsol
        split
        · rename_i hg
          rw [h.nogoal cs hg] at hng
          cases hng
        · split
          · have e := same_reach (m := m) hr true (fun _ _ => rfl)
            have h' := h.same e
            have hmono : ∀ t, g.contains t = true → (update m c (expand m c (g.set root { node g root with reach := true }) cs) cs).contains t = true :=
              fun t ht => expand_contains hU h' t (by rw [e.contains]; exact ht)
            exact (ih rest visited _ (expand_update_inv hU h' (by rw [e.contains]; exact hcs) hng) (hmono _ hr) (fun x hx => hmono x (hrest x hx))).mono
              fun g' hg' => ⟨hg'.1, fun t ht => hg'.2 t (hmono t ht)⟩
          · rename_i hemp
            have hexp : (node g cs).expanded = true := by
              cases hx : (node g cs).expanded with
              | true => rfl
              | false => rw [isEmpty, hx] at hemp; simp at hemp
            split
            · have hcon := fun t => (update_flags (m := m) (c := c) g cs t).2.2.2 hcs
              exact (ih rest visited _ (update_inv hU h hexp) (by rw [hcon]; exact hr) (fun x hx => by rw [hcon]; exact hrest x hx)).mono
                fun g' hg' => ⟨hg'.1, fun t ht => hg'.2 t (by rw [hcon]; exact ht)⟩
            · split
              · rename_i hb
                exact fun hL => (h.live hL cs hcs).2 hexp hb
              · rename_i a hb
                refine ih _ _ g h hr fun x hx => ?_
                have key : ∀ (os : List (Rat × Rat × σ)) (V l : List σ), (∀ o ∈ os, g.contains o.2.2 = true) → (∀ y ∈ l, g.contains y = true) →
                    ∀ y ∈ os.foldl (fun op o => if o.2.2 ∈ V then op else o.2.2 :: op) l, g.contains y = true := by
                  intro os V
                  induction os with
                  | nil => intro l _ hl y hy; exact hl y hy
                  | cons o os ih =>
                    intro l ho hl y hy
                    refine ih _ (fun p hp => ho p (List.mem_cons_of_mem _ hp)) ?_ y hy
                    intro z hz
                    by_cases hv : o.2.2 ∈ V
                    · simp only [hv, if_true] at hz; exact hl z hz
                    · simp only [hv, if_false] at hz
                      rcases List.mem_cons.1 hz with rfl | hz
                      · exact ho o (by simp)
                      · exact hl z hz
                exact key _ _ _ ((h.exp cs hexp).2.2 a (h.best cs a hb).2) hop x hx

theorem same_of_eq {g g' : Graph σ α} (h1 : ∀ t, Dict.contains g' t = Dict.contains g t) (h2 : ∀ t, node g' t = node g t) : Same m g g' :=
  ⟨h1, fun t => by rw [h2], fun t => by rw [h2], fun t => by rw [h2], fun t => by rw [h2], fun t _ => by rw [h2], fun t _ _ h => by rw [h2]; exact h⟩

theorem dfsAll_good (hU : CostBound m c U) {root : σ} (hng : m.goal root = false) (inner n : Nat) (g : Graph σ α) (h : Inv m c U g)
    (hr : g.contains root = true) :
    Good (NoDeadEnd m) (fun g' => Inv m c U g' ∧ (∀ t, g.contains t = true → g'.contains t = true) ∧ (node g' root).reach = false)
      (dfsAll m c root inner n g) := by
  induction n generalizing g with
  | zero =>
    rw [dfsAll]
    split
    · trivial
    · rename_i hx; exact ⟨h, fun _ h => h, by simpa using hx⟩
  | succ n ih =>
    rw [dfsAll]
    split
    · have one : Good (NoDeadEnd m) (fun g' => Inv m c U g' ∧ ∀ t, g.contains t = true → g'.contains t = true)
          (dfs m c root inner [root] [] (g.set root { node g root with reach := false })) := by
        by_cases hexp : (node g root).expanded = true
        · have e := same_reach (m := m) hr false (fun hx => by rw [hexp] at hx; cases hx)
          exact (dfs_good hU inner [root] [] _ (h.same e) (by rw [e.contains]; exact hr) (by simpa [e.contains] using hr)).mono
            fun g' hg' => ⟨hg'.1, fun t ht => hg'.2 t (by rw [e.contains]; exact ht)⟩
        · have hexp : (node g root).expanded = false := by simpa using hexp
          obtain ⟨t1, t2⟩ := h.tip root hexp hng
          have t3 : (node g root).goal = false := by
            cases hx : (node g root).goal with
            | false => rfl
            | true => rw [h.nogoal root hx] at hng; cases hng
          cases inner with
          | zero => trivial
          | succ inner =>
            rw [dfs]
            have hn : node (g.set root { node g root with reach := false }) root = { node g root with reach := false } := by rw [node_set, if_pos rfl]
            have hemp : isEmpty m (g.set root { node g root with reach := false }) root = true := by
              rw [isEmpty, hn]
              simp [hexp]
            rw [if_neg (by rw [hn]; simp [t2]), if_neg (by rw [hn]; simp [t3]), if_pos hemp, hn]
            have e : Same m g ((g.set root { node g root with reach := false }).set root { node g root with reach := true }) := by
              refine same_of_eq (fun t => ?_) (fun t => ?_)
              · rw [contains_set, contains_set]
                by_cases ht : t = root
                · subst ht; simp [hr]
                · simp [ht]
              · rw [node_set]
                split
                · rename_i ht; subst ht; rw [← t1]
                · rename_i ht; rw [node_set, if_neg ht]
            have h' := h.same e
            have hmono : ∀ t, g.contains t = true →
                (update m c (expand m c ((g.set root { node g root with reach := false }).set root { node g root with reach := true }) root) root).contains t = true :=
              fun t ht => expand_contains hU h' t (by rw [e.contains]; exact ht)
            exact (dfs_good hU inner [] [] _ (expand_update_inv hU h' (by rw [e.contains]; exact hr) hng) (hmono _ hr) (by simp)).mono
              fun g' hg' => ⟨hg'.1, fun t ht => hg'.2 t (hmono t ht)⟩
      refine one.bind fun g' hg' => (ih g' hg'.1 (hg'.2 _ hr)).mono fun g'' hg'' => ⟨hg''.1, fun t ht => hg''.2.1 t (hg'.2 t ht), hg''.2.2⟩
    · rename_i hx; exact ⟨h, fun _ h => h, by simpa using hx⟩

/-! ### The best solution graph -/

/-- The state while the best solution graph is being computed from `g0`. -/
structure Walk (m : Mdp σ α) (g0 : Graph σ α) (root : σ) (r : Graph σ α × List σ × List σ) : Prop where
  same : Same m g0 r.1
  exp : ∀ x ∈ r.2.1, (node g0 x).expanded = true
  nodup : r.2.1.Nodup
  sub : ∀ x ∈ r.2.2, x ∈ r.2.1
  root : root ∈ r.2.1

theorem visit_walk {g0 : Graph σ α} {root : σ} (h : Inv m c U g0) {r : Graph σ α × List σ × List σ} (hw : Walk m g0 root r) {t : σ} (ht : g0.contains t = true) :
    Walk m g0 root (visit m r t) := by
  obtain ⟨g, best, nf⟩ := r
  have hg := h.same hw.same
  have hct : g.contains t = true := by rw [hw.same.contains]; exact ht
  rw [visit]
  simp only
  split
  · rename_i hs
    refine { hw with same := hw.same.trans (same_reach hct false fun hx hn => ?_) }
    obtain ⟨_, t2⟩ := hg.tip t hx hn
    have t3 : (node g t).goal = false := by
      cases hy : (node g t).goal with
      | false => rfl
      | true => rw [hg.nogoal t hy] at hn; cases hn
    rw [t2, t3] at hs
    cases hs
  · split
    · exact { hw with same := hw.same.trans (same_reach hct true fun _ _ => rfl) }
    · rename_i hemp
      have hexp : (node g t).expanded = true := by
        cases hx : (node g t).expanded with
        | true => rfl
        | false => rw [isEmpty, hx] at hemp; simp at hemp
      split
      · exact hw
      · rename_i hnb
        refine ⟨hw.same.trans (same_reach hct false fun hx => by rw [hexp] at hx; cases hx), ?_, ?_, ?_, by simp [hw.root]⟩
        · intro x hx
          rcases List.mem_append.1 hx with hx | hx
          · exact hw.exp x hx
          · rw [List.mem_singleton.1 hx, ← hw.same.expanded]; exact hexp
        · exact List.nodup_append.2 ⟨hw.nodup, by simp, by rintro a ha b hb rfl; rw [List.mem_singleton.1 hb] at ha; exact hnb ha⟩
        · intro x hx
          rcases List.mem_append.1 hx with hx | hx
          · exact List.mem_append_left _ (hw.sub x hx)
          · exact List.mem_append_right _ hx

theorem frontier_walk {g0 : Graph σ α} {root : σ} (h : Inv m c U g0) {r : Graph σ α × List σ × List σ} (hw : Walk m g0 root r) (fs : σ) :
    Walk m g0 root (frontier m r fs) := by
  rw [frontier]
  split
  · exact hw
  · rename_i a hb
    rw [hw.same.best] at hb
    obtain ⟨h1, h2⟩ := h.best fs a hb
    have hout := (h.exp fs h1).2.2 a h2
    have key : ∀ (l : List σ), (∀ t ∈ l, g0.contains t = true) → ∀ r, Walk m g0 root r → Walk m g0 root (l.foldl (visit m) r) := by
      intro l
      induction l with
      | nil => intro _ r hw; exact hw
      | cons t l ih => intro hl r hw; exact ih (fun t ht => hl t (List.mem_cons_of_mem _ ht)) _ (visit_walk h hw (hl t (by simp)))
    refine key _ ?_ r hw
    intro t ht
    obtain ⟨o, ho, rfl⟩ := List.mem_map.1 ht
    exact hout o ho

/-- A state about which the walk is done: it is in the graph, solved, a goal, or a reached tip. -/
def Ok (g : Graph σ α) (best : List σ) (y : σ) : Prop :=
  y ∈ best ∨ (node g y).solved = true ∨ (node g y).goal = true ∨ (node g y).reach = true

/-- The states of the graph that are neither new nor waiting have only done successors. -/
def Cover (m : Mdp σ α) (g0 : Graph σ α) (r : Graph σ α × List σ × List σ) (rem : List σ) : Prop :=
  ∀ x ∈ r.2.1, x ∈ r.2.2 ∨ x ∈ rem ∨ ∀ a, (node g0 x).best = some a → ∀ o ∈ m.outcomes x a, Ok r.1 r.2.1 o.2.2

theorem reach_set (g : Graph σ α) (t : σ) (b : Bool) (y : σ) :
    (node (g.set t { node g t with reach := b }) y).solved = (node g y).solved ∧ (node (g.set t { node g t with reach := b }) y).goal = (node g y).goal ∧
      (node (g.set t { node g t with reach := b }) y).reach = if y = t then b else (node g y).reach := by
  rw [node_set]
  split
  · rename_i h; subst h; exact ⟨rfl, rfl, rfl⟩
  · exact ⟨rfl, rfl, rfl⟩

theorem visit_ok (r : Graph σ α × List σ × List σ) (t : σ) :
    (∀ y, (node (visit m r t).1 y).solved = (node r.1 y).solved) ∧ Ok (visit m r t).1 (visit m r t).2.1 t ∧
      (∀ y, Ok r.1 r.2.1 y → Ok (visit m r t).1 (visit m r t).2.1 y) ∧
      (∀ x ∈ (visit m r t).2.1, x ∈ (visit m r t).2.2 ∨ x ∈ r.2.1) ∧ (∀ x ∈ r.2.2, x ∈ (visit m r t).2.2) := by
  obtain ⟨g, best, nf⟩ := r
  have hset : ∀ b, (node g t).solved = true ∨ (node g t).goal = true ∨ b = true →
      (∀ y, Ok g best y → Ok (g.set t { node g t with reach := b }) best y) ∧ Ok (g.set t { node g t with reach := b }) best t := by
    intro b hb
    have ht : Ok (g.set t { node g t with reach := b }) best t := by
      obtain ⟨h1, h2, h3⟩ := reach_set g t b t
      rw [Ok, h1, h2, h3, if_pos rfl]
      exact .inr hb
    refine ⟨fun y hy => ?_, ht⟩
    by_cases hyt : y = t
    · subst hyt; exact ht
    · obtain ⟨h1, h2, h3⟩ := reach_set g t b y
      rw [if_neg hyt] at h3
      rw [Ok, h1, h2, h3]; exact hy
  rw [visit]
  simp only
  split
  · rename_i hs
    obtain ⟨h1, h2⟩ := hset false (by rw [Bool.or_eq_true] at hs; rcases hs with h | h <;> simp [h])
    exact ⟨fun y => (reach_set g t _ y).1, h2, h1, fun x hx => .inr hx, fun x hx => hx⟩
  · split
    · obtain ⟨h1, h2⟩ := hset true (by simp)
      exact ⟨fun y => (reach_set g t _ y).1, h2, h1, fun x hx => .inr hx, fun x hx => hx⟩
    · split
      · rename_i hb
        exact ⟨fun _ => rfl, .inl hb, fun y hy => hy, fun x hx => .inr hx, fun x hx => hx⟩
      · refine ⟨fun y => (reach_set g t _ y).1, .inl (by simp), fun y hy => ?_, fun x hx => ?_, fun x hx => List.mem_append_left _ hx⟩
        · by_cases hyt : y = t
          · subst hyt; exact .inl (by simp)
          · obtain ⟨h1, h2, h3⟩ := reach_set g t false y
            rw [if_neg hyt] at h3
            simp only [Ok] at hy ⊢
            rw [h1, h2, h3]
            rcases hy with hy | hy
            · exact .inl (List.mem_append_left _ hy)
            · exact .inr hy
        · rcases List.mem_append.1 hx with hx | hx
          · exact .inr hx
          · exact .inl (List.mem_append_right _ hx)

theorem visits_ok (l : List σ) (r : Graph σ α × List σ × List σ) :
    (∀ y, (node (l.foldl (visit m) r).1 y).solved = (node r.1 y).solved) ∧ (∀ t ∈ l, Ok (l.foldl (visit m) r).1 (l.foldl (visit m) r).2.1 t) ∧
      (∀ y, Ok r.1 r.2.1 y → Ok (l.foldl (visit m) r).1 (l.foldl (visit m) r).2.1 y) ∧
      (∀ x ∈ (l.foldl (visit m) r).2.1, x ∈ (l.foldl (visit m) r).2.2 ∨ x ∈ r.2.1) ∧ (∀ x ∈ r.2.2, x ∈ (l.foldl (visit m) r).2.2) := by
  induction l generalizing r with
  | nil => exact ⟨fun _ => rfl, by simp, fun _ h => h, fun _ h => .inr h, fun _ h => h⟩
  | cons t l ih =>
    obtain ⟨a1, a2, a3, a4, a5⟩ := visit_ok (m := m) r t
    obtain ⟨b1, b2, b3, b4, b5⟩ := ih (visit m r t)
    refine ⟨fun y => (b1 y).trans (a1 y), fun y hy => ?_, fun y hy => b3 y (a3 y hy), fun x hx => ?_, fun x hx => b5 x (a5 x hx)⟩
    · rcases List.mem_cons.1 hy with rfl | hy
      · exact b3 _ a2
      · exact b2 y hy
    · rcases b4 x hx with h | h
      · exact .inl h
      · exact (a4 x h).imp (b5 x) id

theorem frontier_cover {g0 : Graph σ α} {root : σ} {r : Graph σ α × List σ × List σ} (hw : Walk m g0 root r) (fs : σ) {rem : List σ}
    (hc : Cover m g0 r (fs :: rem)) : Cover m g0 (frontier m r fs) rem ∧ ∀ y, (node (frontier m r fs).1 y).solved = (node r.1 y).solved := by
  rw [frontier]
  split
  · rename_i hb
    refine ⟨fun x hx => ?_, fun _ => rfl⟩
    rcases hc x hx with h | h | h
    · exact .inl h
    · rcases List.mem_cons.1 h with rfl | h
      · refine .inr (.inr fun a ha => ?_)
        rw [← hw.same.best, hb] at ha
        cases ha
      · exact .inr (.inl h)
    · exact .inr (.inr h)
  · rename_i a hb
    obtain ⟨b1, b2, b3, b4, b5⟩ := visits_ok (m := m) ((m.outcomes fs a).map fun o => o.2.2) r
    refine ⟨fun x hx => ?_, b1⟩
    rcases b4 x hx with h | h
    · exact .inl h
    · rcases hc x h with h | h | h
      · exact .inl (b5 x h)
      · rcases List.mem_cons.1 h with rfl | h
        · refine .inr (.inr fun a' ha o ho => ?_)
          rw [← hw.same.best, hb] at ha
          cases ha
          exact b2 _ (List.mem_map.2 ⟨o, ho, rfl⟩)
        · exact .inr (.inl h)
      · exact .inr (.inr fun a' ha o ho => b3 _ (h a' ha o ho))

theorem bestGraph_good {g0 : Graph σ α} {root : σ} (h : Inv m c U g0) (harr : ∀ l, (c.arrange l).Perm l) (L : Prop) (n : Nat) (fr best : List σ) (g : Graph σ α)
    (hw : Walk m g0 root (g, best, fr)) (hc : Cover m g0 (g, best, fr) []) (hl : ∀ y, (node g y).solved = (node g0 y).solved) :
    Good L (fun r => Walk m g0 root (r.1, r.2, []) ∧ Cover m g0 (r.1, r.2, []) [] ∧ ∀ y, (node r.1 y).solved = (node g0 y).solved) (bestGraph m c n fr best g) := by
  induction n generalizing fr best g with
  | zero =>
    cases fr with
    | nil => exact ⟨hw, hc, hl⟩
    | cons f fr => trivial
  | succ n ih =>
    cases fr with
    | nil => rw [bestGraph]; exact ⟨hw, hc, hl⟩
    | cons f fr =>
      rw [bestGraph]
      have key : ∀ (l : List σ) r, Walk m g0 root r → Cover m g0 r l → (∀ y, (node r.1 y).solved = (node g0 y).solved) →
          Walk m g0 root (l.foldl (frontier m) r) ∧ Cover m g0 (l.foldl (frontier m) r) [] ∧ ∀ y, (node (l.foldl (frontier m) r).1 y).solved = (node g0 y).solved := by
        intro l
        induction l with
        | nil => intro r hw hc hl; exact ⟨hw, hc, hl⟩
        | cons t l ih =>
          intro r hw hc hl
          obtain ⟨h1, h2⟩ := frontier_cover hw t hc
          exact ih _ (frontier_walk h hw t) h1 fun y => (h2 y).trans (hl y)
      obtain ⟨k1, k2, k3⟩ := key (c.arrange (f :: fr)) (g, best, []) { hw with sub := by simp } (by
        intro x hx
        rcases hc x hx with h | h | h
        · exact .inr (.inl ((harr _).mem_iff.2 h))
        · cases h
        · exact .inr (.inr h)) hl
      exact ih _ _ _ k1 k2 k3

theorem bestGraph_start {g : Graph σ α} {root : σ} (h : Inv m c U g) (harr : ∀ l, (c.arrange l).Perm l) (L : Prop) (n : Nat) (hr : (node g root).expanded = true) :
    Good L (fun r => Same m g r.1 ∧ (∀ x ∈ r.2, (node r.1 x).expanded = true) ∧ r.2.Nodup ∧ root ∈ r.2 ∧
      ∀ x ∈ r.2, ∀ a, (node r.1 x).best = some a → ∀ o ∈ m.outcomes x a, Ok r.1 r.2 o.2.2) (bestGraph m c n [root] [root] g) := by
  refine (bestGraph_good h harr L n [root] [root] g ⟨Same.refl g, by simpa using hr, by simp, fun _ h => h, List.mem_singleton_self root⟩
    (fun x hx => .inl hx) fun _ => rfl).mono ?_
  intro r ⟨hw, hc, _⟩
  refine ⟨hw.same, fun x hx => by rw [hw.same.expanded]; exact hw.exp x hx, hw.nodup, hw.root, fun x hx a ha => ?_⟩
  rcases hc x hx with h | h | h
  · cases h
  · cases h
  · exact h a (by rw [← hw.same.best]; exact ha)

/-! ### Value iteration -/

/-- The values as numbers. -/
def val (g : Graph σ α) (s : σ) : Rat := (node g s).value.getD 0

/-- What a sweep over `l` with residuals at most `e` does. -/
structure Swept (m : Mdp σ α) (c : Config σ) (l : List σ) (e : Rat) (g g' : Graph σ α) : Prop where
  other : ∀ y, y ∉ l → node g' y = node g y
  moved : ∀ y ∈ l, |val g' y - val g y| ≤ e
  mixed : ∀ x ∈ l, ∃ a V, (node g' x).best = some a ∧ (node g' x).value = some (m.q c.discount V x a) ∧
    (∀ b ∈ m.actions x, m.q c.discount V x a ≤ m.q c.discount V x b) ∧ ∀ y, |val g' y - V y| ≤ e

theorem exceeds_larger {x y : Option Rat} {e : Rat} (h : exceeds (larger x y) e = false) : exceeds x e = false ∧ exceeds y e = false := by
  cases x with
  | none => cases y <;> simp [larger, exceeds] at h
  | some x =>
    cases y with
    | none => simp [larger, exceeds] at h
    | some y =>
      simp only [larger, exceeds, decide_eq_false_iff_not, not_lt] at h ⊢
      split at h
      · exact ⟨by linarith, h⟩
      · rename_i hxy; exact ⟨h, by linarith [not_lt.1 hxy]⟩

theorem sweep_fold (l : List σ) (g : Graph σ α) (r0 : Option Rat) {e : Rat} :
    let f := fun (r : Graph σ α × Option Rat) s => let g := update m c r.1 s; (g, larger r.2 (node g s).residual)
    exceeds (l.foldl f (g, r0)).2 e = false → exceeds r0 e = false := by
  induction l generalizing g r0 with
  | nil => exact fun h => h
  | cons s l ih =>
    intro f h
    exact (exceeds_larger (ih _ _ h)).1

theorem sweep_swept (hU : CostBound m c U) (hL : NoDeadEnd m) {e : Rat} (he : 0 ≤ e) (l : List σ) (hl : l.Nodup) (g : Graph σ α) (r0 : Option Rat) (h : Inv m c U g)
    (hexp : ∀ x ∈ l, (node g x).expanded = true) :
    let f := fun (r : Graph σ α × Option Rat) s => let g := update m c r.1 s; (g, larger r.2 (node g s).residual)
    exceeds (l.foldl f (g, r0)).2 e = false → Swept m c l e g (l.foldl f (g, r0)).1 := by
  induction l generalizing g r0 with
  | nil => exact fun _ => ⟨fun _ _ => rfl, by simp, by simp⟩
  | cons s l ih =>
    intro f hres
    obtain ⟨hsl, hl⟩ := List.nodup_cons.1 hl
    have hse := hexp s (by simp)
    obtain ⟨e1, e2, e3⟩ := h.exp s hse
    obtain ⟨r, hr, u1, _, u3⟩ := update_val hU e2 hse (fun a ha o ho => h.below _ (e3 a ha o ho)) (fun hL a ha o ho => (h.live hL _ (e3 a ha o ho)).1)
    have h1 := update_inv hU h hse
    have hfl := fun t => update_flags (m := m) (c := c) g s t
    have htail := ih hl (update m c g s) (larger r0 (node (update m c g s) s).residual) h1 (fun x hx => by rw [(hfl x).1]; exact hexp x (List.mem_cons_of_mem _ hx)) hres
    have hfold : (s :: l).foldl f (g, r0) = l.foldl f (update m c g s, larger r0 (node (update m c g s) s).residual) := rfl
    rw [hfold] at hres ⊢
    obtain ⟨_, hs⟩ := exceeds_larger (sweep_fold l _ _ hres)
    generalize (l.foldl f (update m c g s, larger r0 (node (update m c g s) s).residual)).1 = g' at htail ⊢
    obtain ⟨⟨a, v⟩, rfl⟩ := Option.ne_none_iff_exists'.1 (u3 hL)
    obtain ⟨u4, u5, u6⟩ := u1 a v rfl
    have hns : node (update m c g s) s = { node g s with best := some a, value := some v, residual := distance (some v) (node g s).value } := by
      rw [hr, node_set, if_pos rfl]; rfl
    have hno : ∀ t, t ≠ s → node (update m c g s) t = node g t := fun t ht => by rw [hr, node_set, if_neg ht]
    obtain ⟨w, hw⟩ := Option.ne_none_iff_exists'.1 (h.live hL s e1).1
    have hdist : |v - w| ≤ e := by
      rw [hns] at hs
      simp only [hw, distance, exceeds, decide_eq_false_iff_not, not_lt] at hs
      rw [abs_le]
      split at hs
      · constructor <;> linarith
      · constructor <;> linarith
    have hg's : node g' s = node (update m c g s) s := htail.other s hsl
    have hmv : ∀ y, |val g' y - val g y| ≤ e := by
      intro y
      by_cases hys : y = s
      · subst hys
        rw [val, val, hg's, hns, hw]; exact hdist
      · by_cases hyl : y ∈ l
        · have := htail.moved y hyl
          rw [val, val, hno y hys] at this
          exact this
        · rw [val, val, htail.other y hyl, hno y hys, sub_self, abs_zero]; exact he
    refine ⟨?_, fun y _ => hmv y, ?_⟩
    · intro y hy
      rw [htail.other y fun hyl => hy (List.mem_cons_of_mem _ hyl), hno y fun hys => hy (by rw [hys]; simp)]
    · intro x hx
      rcases List.mem_cons.1 hx with rfl | hx
      · refine ⟨a, val g, by rw [hg's, hns], by rw [hg's, hns, u5]; rfl, fun b hb => ?_, hmv⟩
        have := u6 b hb (by
          rw [finite, List.all_eq_true]
          intro o ho
          obtain ⟨w, hw⟩ := Option.ne_none_iff_exists'.1 (h.live hL _ (e3 b hb o ho)).1
          rw [hw]; rfl)
        rw [u5] at this
        exact this
      · exact htail.mixed x hx

/-- The updated states after a sweep. -/
theorem sweep_inv (hU : CostBound m c U) (l : List σ) (g : Graph σ α) (r0 : Option Rat) (h : Inv m c U g) (hexp : ∀ x ∈ l, (node g x).expanded = true) :
    let g' := (l.foldl (fun (r : Graph σ α × Option Rat) s => let g := update m c r.1 s; (g, larger r.2 (node g s).residual)) (g, r0)).1
    Inv m c U g' ∧ ∀ t, (node g' t).expanded = (node g t).expanded ∧ (node g' t).solved = (node g t).solved ∧ (node g' t).reach = (node g t).reach ∧
      g'.contains t = g.contains t := by
  induction l generalizing g r0 with
  | nil => exact ⟨h, fun t => ⟨rfl, rfl, rfl, rfl⟩⟩
  | cons s l ih =>
    have hse := hexp s (by simp)
    have hfl := fun t => update_flags (m := m) (c := c) g s t
    obtain ⟨h1, h2⟩ := ih (update m c g s) (larger r0 (node (update m c g s) s).residual) (update_inv hU h hse) (fun x hx => by rw [(hfl x).1]; exact hexp x (List.mem_cons_of_mem _ hx))
    refine ⟨h1, fun t => ?_⟩
    obtain ⟨a1, a2, a3, a4⟩ := h2 t
    obtain ⟨b1, b2, b3, b4⟩ := hfl t
    exact ⟨a1.trans b1, a2.trans b2, a3.trans b3, a4.trans (b4 (h.exp s hse).1)⟩

theorem valueIteration_good (hU : CostBound m c U) (he : 0 ≤ c.epsilon) (l : List σ) (hl : l.Nodup) (n : Nat) (g : Graph σ α) (h : Inv m c U g)
    (hexp : ∀ x ∈ l, (node g x).expanded = true) (L : Prop) :
    Good L (fun g' => Inv m c U g' ∧ (∀ t, (node g' t).expanded = (node g t).expanded ∧ (node g' t).solved = (node g t).solved ∧
      (node g' t).reach = (node g t).reach ∧ g'.contains t = g.contains t) ∧
      (NoDeadEnd m → ∃ g1, Swept m c l c.epsilon g1 g')) (valueIteration m c l n g) := by
  induction n generalizing g with
  | zero => trivial
  | succ n ih =>
    rw [valueIteration]
    obtain ⟨h1, h2⟩ := sweep_inv hU l g (some 0) h hexp
    split
    · refine (ih (sweep m c l g).1 h1 (fun x hx => by rw [sweep, (h2 x).1]; exact hexp x hx)).mono fun g' hg' => ⟨hg'.1, fun t => ?_, hg'.2.2⟩
      obtain ⟨a1, a2, a3, a4⟩ := hg'.2.1 t
      obtain ⟨b1, b2, b3, b4⟩ := h2 t
      exact ⟨a1.trans b1, a2.trans b2, a3.trans b3, a4.trans b4⟩
    · rename_i hx
      exact ⟨h1, h2, fun hL => ⟨g, sweep_swept hU hL he l hl g (some 0) h hexp (Bool.eq_false_iff.2 hx)⟩⟩

/-! ### Reachability, passage times and labels -/

theorem updateReach_good {g : Graph σ α} (h : Inv m c U g) {s : σ} (hs : (node g s).expanded = true) :
    Good (NoDeadEnd m) (fun r => Same m g r.1 ∧ ((∀ t, (node r.1 t).solved = (node g t).solved) ∧ ∀ t, t ≠ s → node r.1 t = node g t) ∧
      (r.2 = false → (∀ t, node r.1 t = node g t) ∧
      ∀ a, (node g s).best = some a → (node g s).reach = (m.outcomes s a).any fun o => (node g o.2.2).reach)) (updateReach m g s) := by
  rw [updateReach]
  split
  · rename_i hb
    exact fun hL => (h.live hL s (h.exp s hs).1).2 hs hb
  · rename_i a hb
    refine ⟨same_reach (h.exp s hs).1 _ (fun hx => by rw [hs] at hx; cases hx), ⟨fun t => (reach_set g s _ t).1, fun t ht => by rw [node_set, if_neg ht]⟩, fun hr => ?_⟩
    simp only [bne_eq_false_iff_eq] at hr
    refine ⟨fun t => ?_, fun b hb' => ?_⟩
    · rw [node_set]; split
      · rename_i ht; subst ht; rw [← hr]
      · rfl
    · rw [hb] at hb'; cases hb'; exact hr

theorem reachSweep_good (l : List σ) (g : Graph σ α) (ch : Bool) (h : Inv m c U g) (hexp : ∀ x ∈ l, (node g x).expanded = true) :
    Good (NoDeadEnd m) (fun r => Same m g r.1 ∧ ((∀ t, (node r.1 t).solved = (node g t).solved) ∧ ∀ t, t ∉ l → node r.1 t = node g t) ∧ (r.2 = false → ch = false ∧ (∀ t, node r.1 t = node g t) ∧
      ∀ s ∈ l, ∀ a, (node g s).best = some a → (node g s).reach = (m.outcomes s a).any fun o => (node g o.2.2).reach)) (reachSweep m l g ch) := by
  induction l generalizing g ch with
  | nil => exact ⟨Same.refl g, ⟨fun _ => rfl, fun _ _ => rfl⟩, fun hr => ⟨hr, fun _ => rfl, by simp⟩⟩
  | cons s l ih =>
    rw [reachSweep]
    refine (updateReach_good h (hexp s (by simp))).bind fun r hr => ?_
    obtain ⟨g1, ch1⟩ := r
    obtain ⟨e1, ⟨e3, e4⟩, e2⟩ := hr
    refine (ih g1 (ch1 || ch) (h.same e1) (fun x hx => by rw [e1.expanded]; exact hexp x (List.mem_cons_of_mem _ hx))).mono ?_
    intro r' ⟨f1, ⟨f3, f4⟩, f2⟩
    refine ⟨e1.trans f1, ⟨fun t => (f3 t).trans (e3 t), fun t ht => ?_⟩, fun hr' => ?_⟩
    · simp only [List.mem_cons, not_or] at ht
      exact (f4 t ht.2).trans (e4 t ht.1)
    obtain ⟨p1, p2, p3⟩ := f2 hr'
    rw [Bool.or_eq_false_iff] at p1
    obtain ⟨q1, q2⟩ := e2 p1.1
    refine ⟨p1.2, fun t => (p2 t).trans (q1 t), fun x hx a ha => ?_⟩
    rcases List.mem_cons.1 hx with rfl | hx
    · exact q2 a ha
    · have := p3 x hx a (by rw [q1 x]; exact ha)
      simp only [q1] at this
      exact this

theorem reachability_good (l : List σ) (n : Nat) (g : Graph σ α) (h : Inv m c U g) (hexp : ∀ x ∈ l, (node g x).expanded = true) :
    Good (NoDeadEnd m) (fun g' => Same m g g' ∧ ((∀ t, (node g' t).solved = (node g t).solved) ∧ ∀ t, t ∉ l → node g' t = node g t) ∧
      ∀ s ∈ l, ∀ a, (node g' s).best = some a →
      (node g' s).reach = (m.outcomes s a).any fun o => (node g' o.2.2).reach) (reachability m l n g) := by
  induction n generalizing g with
  | zero => trivial
  | succ n ih =>
    rw [reachability]
    refine (reachSweep_good l g false h hexp).bind fun r hr => ?_
    obtain ⟨g1, ch⟩ := r
    obtain ⟨e1, ⟨e3, e4⟩, e2⟩ := hr
    simp only at e1 e2 e3 e4 ⊢
    by_cases hch : ch = true
    · rw [if_pos hch]
      exact (ih g1 (h.same e1) (fun x hx => by rw [e1.expanded]; exact hexp x hx)).mono
        fun g' hg' => ⟨e1.trans hg'.1, ⟨fun t => (hg'.2.1.1 t).trans (e3 t), fun t ht => (hg'.2.1.2 t ht).trans (e4 t ht)⟩, hg'.2.2⟩
    · rw [if_neg hch]
      obtain ⟨_, q1, q2⟩ := e2 (by simpa using hch)
      refine ⟨e1, ⟨e3, e4⟩, fun s hs a ha => ?_⟩
      simp only [q1] at ha ⊢
      exact q2 s hs a ha

theorem same_fpt {g : Graph σ α} {s : σ} (hc : g.contains s = true) (t : Rat) :
    Same m g (g.set s { node g s with fpt := t }) ∧ ∀ x, (node (g.set s { node g s with fpt := t }) x).reach = (node g x).reach ∧
      (node (g.set s { node g s with fpt := t }) x).solved = (node g x).solved := by
  refine ⟨⟨contains_set_same hc _, ?_, ?_, ?_, ?_, ?_, ?_⟩, ?_⟩
  · intro t; rw [node_set]; split
    · rename_i h; subst h; rfl
    · rfl
  · intro t; rw [node_set]; split
    · rename_i h; subst h; rfl
    · rfl
  · intro t; rw [node_set]; split
    · rename_i h; subst h; rfl
    · rfl
  · intro t; rw [node_set]; split
    · rename_i h; subst h; rfl
    · rfl
  · intro t _; rw [node_set]; split
    · rename_i h; subst h; rfl
    · rfl
  · intro t h1 h2 h3; rw [node_set]; split
    · rename_i h; subst h; exact h3
    · exact h3
  · intro t; rw [node_set]; split
    · rename_i h; subst h; exact ⟨rfl, rfl⟩
    · exact ⟨rfl, rfl⟩

theorem fptSweep_good (l : List σ) (g : Graph σ α) (d : Rat) (h : Inv m c U g) (hexp : ∀ x ∈ l, (node g x).expanded = true) :
    Good (NoDeadEnd m) (fun r => Same m g r.1 ∧ ∀ x, (node r.1 x).reach = (node g x).reach ∧ (node r.1 x).solved = (node g x).solved) (fptSweep m l g d) := by
  induction l generalizing g d with
  | nil => exact ⟨Same.refl g, fun _ => ⟨rfl, rfl⟩⟩
  | cons s l ih =>
    have hs := hexp s (by simp)
    have one : Good (NoDeadEnd m) (fun r => Same m g r.1 ∧ ∀ x, (node r.1 x).reach = (node g x).reach ∧ (node r.1 x).solved = (node g x).solved) (updateFpt m g s) := by
      rw [updateFpt]
      split
      · rename_i hb
        exact fun hL => (h.live hL s (h.exp s hs).1).2 hs hb
      · exact same_fpt (h.exp s hs).1 _
    rw [fptSweep]
    refine one.bind fun r hr => ?_
    obtain ⟨g1, d1⟩ := r
    obtain ⟨e1, e2⟩ := hr
    exact (ih g1 _ (h.same e1) (fun x hx => by rw [e1.expanded]; exact hexp x (List.mem_cons_of_mem _ hx))).mono
      fun r' hr' => ⟨e1.trans hr'.1, fun x => ⟨(hr'.2 x).1.trans (e2 x).1, (hr'.2 x).2.trans (e2 x).2⟩⟩

theorem passageTimes_good (l : List σ) (n : Nat) (g : Graph σ α) (h : Inv m c U g) (hexp : ∀ x ∈ l, (node g x).expanded = true) :
    Good (NoDeadEnd m) (fun g' => Same m g g' ∧ ∀ x, (node g' x).reach = (node g x).reach ∧ (node g' x).solved = (node g x).solved) (passageTimes m c l n g) := by
  induction n generalizing g with
  | zero => trivial
  | succ n ih =>
    rw [passageTimes]
    refine (fptSweep_good l g 0 h hexp).bind fun r hr => ?_
    obtain ⟨g1, d⟩ := r
    obtain ⟨e1, e2⟩ := hr
    simp only at e1 e2 ⊢
    by_cases hd : c.epsilon < d
    · rw [if_pos hd]
      exact (ih g1 (h.same e1) (fun x hx => by rw [e1.expanded]; exact hexp x hx)).mono fun g' hg' => ⟨e1.trans hg'.1, fun x => ⟨(hg'.2 x).1.trans (e2 x).1, (hg'.2 x).2.trans (e2 x).2⟩⟩
    · rw [if_neg hd]; exact ⟨e1, e2⟩

theorem solvedBits_keep {x : σ} (l : List σ) (g : Graph σ α) (hx : x ∉ l) : (node (solvedBits c l g) x).solved = (node g x).solved := by
  induction l generalizing g with
  | nil => rfl
  | cons y l ih =>
    simp only [List.mem_cons, not_or] at hx
    rw [show solvedBits c (y :: l) g = solvedBits c l (g.set y { node g y with solved := !(node g y).reach && match (node g y).residual with
      | some r => decide ((node g y).fpt * r < c.epsilon)
      | none => false }) from rfl, ih _ hx.2, node_set, if_neg hx.1]

theorem solvedBits_same (l : List σ) (g : Graph σ α) (h : Inv m c U g) (hexp : ∀ x ∈ l, (node g x).expanded = true) :
    Same m g (solvedBits c l g) ∧ (∀ x, (node (solvedBits c l g) x).reach = (node g x).reach) ∧
      ∀ x ∈ l, (node (solvedBits c l g) x).solved = true → (node g x).reach = false := by
  induction l generalizing g with
  | nil => exact ⟨Same.refl g, fun _ => rfl, by simp⟩
  | cons s l ih =>
    have hs := hexp s (by simp)
    obtain ⟨e1, e2, e3⟩ := h.exp s hs
    have one : ∀ b : Bool, Same m g (g.set s { node g s with solved := b }) ∧ ∀ x, (node (g.set s { node g s with solved := b }) x).reach = (node g x).reach := by
      intro b
      refine ⟨⟨contains_set_same e1 _, ?_, ?_, ?_, ?_, ?_, ?_⟩, ?_⟩
      · intro t; rw [node_set]; split
        · rename_i h; subst h; rfl
        · rfl
      · intro t; rw [node_set]; split
        · rename_i h; subst h; rfl
        · rfl
      · intro t; rw [node_set]; split
        · rename_i h; subst h; rfl
        · rfl
      · intro t; rw [node_set]; split
        · rename_i h; subst h; rfl
        · rfl
      · intro t ht; rw [node_set]; split
        · rename_i h; subst h; rw [e2] at ht; cases ht
        · rfl
      · intro t h1 h2 h3; rw [node_set]; split
        · rename_i h; subst h; rw [hs] at h1; cases h1
        · exact h3
      · intro t; rw [node_set]; split
        · rename_i h; subst h; rfl
        · rfl
    have hstep : solvedBits c (s :: l) g = solvedBits c l (g.set s { node g s with solved := !(node g s).reach && match (node g s).residual with
      | some r => decide ((node g s).fpt * r < c.epsilon)
      | none => false }) := rfl
    rw [hstep]
    generalize hb : (!(node g s).reach && match (node g s).residual with
      | some r => decide ((node g s).fpt * r < c.epsilon)
      | none => false) = b
    obtain ⟨o1, o2⟩ := one b
    obtain ⟨i1, i2, i3⟩ := ih (g.set s { node g s with solved := b }) (h.same o1) (fun x hx => by rw [o1.expanded]; exact hexp x (List.mem_cons_of_mem _ hx))
    refine ⟨o1.trans i1, fun x => (i2 x).trans (o2 x), fun x hx hsol => ?_⟩
    by_cases hxl : x ∈ l
    · rw [← o2 x]; exact i3 x hxl hsol
    · have hxs : x = s := (List.mem_cons.1 hx).resolve_right hxl
      subst hxs
      rw [solvedBits_keep l _ hxl, node_set, if_pos rfl] at hsol
      simp only at hsol
      rw [hsol, Bool.and_eq_true] at hb
      simpa using hb.1

/-! ### Rounds -/

/-- What is known of the root after a round, if there are no dead ends. -/
structure Settled (m : Mdp σ α) (c : Config σ) (root : σ) (g : Graph σ α) : Prop where
  expanded : (node g root).expanded = true
  mixed : ∃ a V, (node g root).best = some a ∧ (node g root).value = some (m.q c.discount V root a) ∧
    (∀ b ∈ m.actions root, m.q c.discount V root a ≤ m.q c.discount V root b) ∧ ∀ y, |val g y - V y| ≤ c.epsilon
  closed : (node g root).solved = true → ∃ B : List σ, root ∈ B ∧ ∀ x ∈ B, ∃ a, (node g x).best = some a ∧
    ∀ o ∈ m.outcomes x a, o.2.2 ∈ B ∨ (node g o.2.2).solved = true

theorem round_good (hU : CostBound m c U) (he : 0 ≤ c.epsilon) (harr : ∀ l, (c.arrange l).Perm l) {root : σ} (hng : m.goal root = false) (fuel : Nat) (g : Graph σ α)
    (h : Inv m c U g) (hr : g.contains root = true) :
    Good (NoDeadEnd m) (fun g' => Inv m c U g' ∧ (∀ t, g.contains t = true → g'.contains t = true) ∧ (NoDeadEnd m → Settled m c root g')) (round m c fuel root g) := by
  rw [round]
  refine (dfsAll_good hU hng fuel fuel g h hr).bind fun g1 ⟨h1, c1, hr1⟩ => ?_
  have hexp1 : (node g1 root).expanded = true := by
    cases hx : (node g1 root).expanded with
    | true => rfl
    | false => rw [(h1.tip root hx hng).1] at hr1; cases hr1
  refine (bestGraph_start h1 harr (NoDeadEnd m) fuel hexp1).bind fun r2 ⟨e2, x2, n2, m2, _⟩ => ?_
  obtain ⟨g2, b2⟩ := r2
  have h2 := h1.same e2
  refine (valueIteration_good hU he (c.arrange b2) ((harr b2).nodup_iff.2 n2) fuel g2 h2 (fun x hx => x2 x ((harr b2).mem_iff.1 hx)) _).bind fun g3 ⟨h3, f3, s3⟩ => ?_
  have hexp3 : (node g3 root).expanded = true := by rw [(f3 root).1, e2.expanded]; exact hexp1
  refine (bestGraph_start h3 harr (NoDeadEnd m) fuel hexp3).bind fun r4 ⟨e4, x4, n4, m4, ok4⟩ => ?_
  obtain ⟨g4, b4⟩ := r4
  simp only at e4 x4 n4 m4 ok4 ⊢
  have h4 := h3.same e4
  have hmem : ∀ x, x ∈ c.arrange b4 ↔ x ∈ b4 := fun x => (harr b4).mem_iff
  have x4' : ∀ x ∈ c.arrange b4, (node g4 x).expanded = true := fun x hx => x4 x ((hmem x).1 hx)
  refine (reachability_good (c.arrange b4) fuel g4 h4 x4').bind fun g5 ⟨e5, ⟨l5, k5⟩, r5⟩ => ?_
  have h5 := h4.same e5
  have x5 : ∀ x ∈ c.arrange b4, (node g5 x).expanded = true := fun x hx => by rw [e5.expanded]; exact x4' x hx
  refine (passageTimes_good (c.arrange b4) fuel g5 h5 x5).bind fun g6 ⟨e6, r6⟩ => ?_
  have h6 := h5.same e6
  have x6 : ∀ x ∈ c.arrange b4, (node g6 x).expanded = true := fun x hx => by rw [e6.expanded]; exact x5 x hx
  obtain ⟨e7, r7, l7⟩ := solvedBits_same (c.arrange b4) g6 h6 x6
  have e37 : Same m g3 (solvedBits c (c.arrange b4) g6) := ((e4.trans e5).trans e6).trans e7
  have h7 := h6.same e7
  have c37 : ∀ t, g.contains t = true → (solvedBits c (c.arrange b4) g6).contains t = true := fun t ht => by
    rw [e37.contains, (f3 t).2.2.2, e2.contains]; exact c1 t ht
  refine ⟨h7, c37, fun hL => ⟨by rw [e37.expanded]; exact hexp3, ?_, ?_⟩⟩
  · obtain ⟨g0, hs⟩ := s3 hL
    obtain ⟨a, V, v1, v2, v3, v4⟩ := hs.mixed root ((harr b2).mem_iff.2 m2)
    exact ⟨a, V, by rw [e37.best]; exact v1, by rw [e37.value]; exact v2, v3, fun y => by rw [val, e37.value]; exact v4 y⟩
  · intro hsol
    have hrr := l7 root ((hmem root).2 m4) hsol
    rw [(r6 root).1] at hrr
    refine ⟨b4.filter fun x => !(node g5 x).reach, by simp [m4, hrr], fun x hx => ?_⟩
    obtain ⟨hx4, hxr⟩ := List.mem_filter.1 hx
    have hxr : (node g5 x).reach = false := by simpa using hxr
    have hxe := x6 x ((hmem x).2 hx4)
    obtain ⟨a, ha⟩ := Option.ne_none_iff_exists'.1 ((h6.live hL x (h6.exp x hxe).1).2 hxe)
    refine ⟨a, by rw [e7.best]; exact ha, fun o ho => ?_⟩
    have ha5 : (node g5 x).best = some a := by rw [← e6.best]; exact ha
    have hany := r5 x ((hmem x).2 hx4) a ha5
    rw [hxr] at hany
    have hor : (node g5 o.2.2).reach = false := by simpa using (List.any_eq_false.1 hany.symm) o ho
    by_cases hob : o.2.2 ∈ b4
    · exact .inl (List.mem_filter.2 ⟨hob, by simp [hor]⟩)
    · have hnb : o.2.2 ∉ c.arrange b4 := fun hx => hob ((hmem _).1 hx)
      refine .inr ?_
      rw [solvedBits_keep _ _ hnb, (r6 _).2, l5]
      rcases ok4 x hx4 a (by rw [← e5.best]; exact ha5) o ho with h | h | h | h
      · exact absurd h hob
      · exact h
      · refine (h4.goal _ ?_ (h4.nogoal _ h)).2.1
        exact (h4.exp x (x4 x hx4)).2.2 a (h4.best x a (by rw [← e5.best]; exact ha5)).2 o ho
      · rw [k5 _ hnb, h] at hor
        cases hor

theorem rounds_good (hU : CostBound m c U) (he : 0 ≤ c.epsilon) (harr : ∀ l, (c.arrange l).Perm l) {root : σ} (hng : m.goal root = false) (fuel n : Nat) (g : Graph σ α)
    (h : Inv m c U g) (hr : g.contains root = true) (hset : (node g root).solved = true → NoDeadEnd m → Settled m c root g) :
    Good (NoDeadEnd m) (fun g' => Inv m c U g' ∧ (∀ t, g.contains t = true → g'.contains t = true) ∧ (node g' root).solved = true ∧
      (NoDeadEnd m → Settled m c root g')) (rounds m c fuel root n g) := by
  induction n generalizing g with
  | zero =>
    rw [rounds]
    split
    · rename_i hs; exact ⟨h, fun _ h => h, hs, hset hs⟩
    · trivial
  | succ n ih =>
    rw [rounds]
    split
    · rename_i hs; exact ⟨h, fun _ h => h, hs, hset hs⟩
    · refine (round_good hU he harr hng fuel g h hr).bind fun g1 ⟨h1, c1, s1⟩ => ?_
      exact (ih g1 h1 (c1 _ hr) (fun _ => s1)).mono fun g' hg' => ⟨hg'.1, fun t ht => hg'.2.1 t (c1 t ht), hg'.2.2⟩

end Verif.Ilao
