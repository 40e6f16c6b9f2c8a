import Verif.Model.PolicyEval
import Mathlib.Tactic.Linarith
import Mathlib.Algebra.BigOperators.Group.List.Basic

namespace Verif.PolicyEval
open Verif

variable {σ α : Type}

/-- The states that the policy reaches with a probability that is not zero; terminal states are not left. -/
inductive Reach (d : Domain σ α) (pol : σ → α) : σ → Prop
  | init : Reach d pol d.init
  | next {s s' : σ} {p : Rat} : Reach d pol s → d.terminal s = false → (s', p) ∈ d.dist s (pol s) → p ≠ 0 → Reach d pol s'

/-- A step that the policy may take. -/
def Step (d : Domain σ α) (pol : σ → α) (s s' : σ) : Prop := ∃ p : Rat, (s', p) ∈ d.dist s (pol s) ∧ p ≠ 0

section
variable [DecidableEq σ]

theorem mem_insertNew {l : List σ} {x y : σ} : y ∈ insertNew l x ↔ y ∈ l ∨ y = x := by
  unfold insertNew
  split
  · constructor
    · exact Or.inl
    · rintro (h | rfl)
      · exact h
      · assumption
  · simp

theorem nodup_insertNew {l : List σ} {x : σ} (h : l.Nodup) : (insertNew l x).Nodup := by
  unfold insertNew
  split
  · exact h
  · rename_i hx
    rw [List.nodup_append]
    refine ⟨h, by simp, ?_⟩
    intro a ha b hb
    simp at hb
    rw [hb]
    intro e
    rw [e] at ha
    exact hx ha

theorem mem_insertAll {m l : List σ} {y : σ} : y ∈ m.foldl insertNew l ↔ y ∈ l ∨ y ∈ m := by
  induction m generalizing l with
  | nil => simp
  | cons x m ih => rw [List.foldl_cons, ih, mem_insertNew, List.mem_cons, or_assoc]

theorem nodup_insertAll {m l : List σ} (h : l.Nodup) : (m.foldl insertNew l).Nodup := by
  induction m generalizing l with
  | nil => exact h
  | cons x m ih => exact ih (nodup_insertNew h)

theorem at_set {preds : Dict σ (List σ)} {x y : σ} {l : List σ} : at_ (preds.set x l) y = if y = x then l else at_ preds y := by
  unfold at_
  rw [Dict.get?_set]
  by_cases h : y = x
  · simp [h]
  · rw [if_neg h, if_neg h]

/-- The successors are pushed. -/
theorem push_fold (s : σ) : ∀ (l : List (σ × Rat)) (b : Build σ α),
    (l.foldl (push s) b).policy = b.policy ∧ (l.foldl (push s) b).succs = b.succs ∧
    (l.foldl (push s) b).stack = b.stack ++ (l.filter fun x => decide (x.2 ≠ 0)).map (·.1) ∧
    (∀ q x, q ∈ at_ (l.foldl (push s) b).preds x ↔ q ∈ at_ b.preds x ∨ (q = s ∧ ∃ p : Rat, (x, p) ∈ l ∧ p ≠ 0)) ∧
    (∀ x, (l.foldl (push s) b).preds.contains x = true ↔ b.preds.contains x = true ∨ ∃ p : Rat, (x, p) ∈ l ∧ p ≠ 0) := by
  intro l
  induction l with
  | nil => intro b; simp
  | cons y l ih =>
    intro b
    obtain ⟨y, p⟩ := y
    rw [List.foldl_cons]
    obtain ⟨h1, h2, h3, h4, h5⟩ := ih (push s b (y, p))
    by_cases hp : p = 0
    · have e : push s b (y, p) = b := by simp [push, hp]
      rw [e] at h1 h2 h3 h4 h5 ⊢
      refine ⟨h1, h2, by rw [h3]; simp [hp], ?_, ?_⟩
      · intro q x
        rw [h4]
        subst hp
        constructor
        · rintro (h | ⟨rfl, p', hm, hp'⟩)
          · exact Or.inl h
          · exact Or.inr ⟨rfl, p', List.mem_cons_of_mem _ hm, hp'⟩
        · rintro (h | ⟨rfl, p', hm, hp'⟩)
          · exact Or.inl h
          · rcases List.mem_cons.1 hm with e | hm
            · simp only [Prod.mk.injEq] at e
              exact absurd e.2 hp'
            · exact Or.inr ⟨rfl, p', hm, hp'⟩
      · intro x
        rw [h5]
        subst hp
        constructor
        · rintro (h | ⟨p', hm, hp'⟩)
          · exact Or.inl h
          · exact Or.inr ⟨p', List.mem_cons_of_mem _ hm, hp'⟩
        · rintro (h | ⟨p', hm, hp'⟩)
          · exact Or.inl h
          · rcases List.mem_cons.1 hm with e | hm
            · simp only [Prod.mk.injEq] at e
              exact absurd e.2 hp'
            · exact Or.inr ⟨p', hm, hp'⟩
    · have e : push s b (y, p) = { b with stack := b.stack ++ [y], preds := b.preds.set y (insertNew (at_ b.preds y) s) } := by simp [push, hp]
      rw [e] at h1 h2 h3 h4 h5 ⊢
      refine ⟨h1, h2, by rw [h3]; simp [hp], ?_, ?_⟩
      · intro q x
        rw [h4, at_set]
        constructor
        · rintro (h | ⟨rfl, p', hm, hp'⟩)
          · split at h
            · rename_i hxy
              rcases mem_insertNew.1 h with h | rfl
              · left; rw [hxy]; exact h
              · right; exact ⟨rfl, p, by rw [hxy]; exact List.mem_cons_self, hp⟩
            · exact Or.inl h
          · exact Or.inr ⟨rfl, p', List.mem_cons_of_mem _ hm, hp'⟩
        · rintro (h | ⟨rfl, p', hm, hp'⟩)
          · left
            split
            · rename_i hxy
              rw [hxy] at h
              exact mem_insertNew.2 (Or.inl h)
            · exact h
          · rcases List.mem_cons.1 hm with e | hm
            · simp only [Prod.mk.injEq] at e
              left
              rw [if_pos e.1]
              exact mem_insertNew.2 (Or.inr rfl)
            · exact Or.inr ⟨rfl, p', hm, hp'⟩
      · intro x
        rw [h5, Dict.contains_iff, Dict.contains_iff, Dict.get?_set]
        constructor
        · rintro (h | ⟨p', hm, hp'⟩)
          · by_cases hxy : x = y
            · right; exact ⟨p, by rw [hxy]; exact List.mem_cons_self, hp⟩
            · left; rw [if_neg hxy] at h; exact h
          · exact Or.inr ⟨p', List.mem_cons_of_mem _ hm, hp'⟩
        · rintro (h | ⟨p', hm, hp'⟩)
          · left
            split
            · rfl
            · exact h
          · rcases List.mem_cons.1 hm with e | hm
            · simp only [Prod.mk.injEq] at e
              left
              rw [if_pos e.1]
              rfl
            · exact Or.inr ⟨p', hm, hp'⟩

/-- The invariant of `construct_dict_policy`; `pend` are the states that are still to be looked at. -/
structure Inv (d : Domain σ α) (pol : σ → α) (b : Build σ α) (pend : List σ) : Prop where
  sound : ∀ s a, b.policy.get? s = some a → Reach d pol s ∧ d.terminal s = false ∧ a = pol s
  succ : ∀ s, b.succs.get? s = if b.policy.contains s then some (d.dist s (pol s)) else none
  pred : ∀ q x, q ∈ at_ b.preds x ↔ b.policy.contains q = true ∧ Step d pol q x
  keys : ∀ x, b.preds.contains x = true ↔ ∃ q, b.policy.contains q = true ∧ Step d pol q x
  reach : ∀ s ∈ pend, Reach d pol s
  done : ∀ x, (x = d.init ∨ ∃ q, b.policy.contains q = true ∧ Step d pol q x) → d.terminal x = true ∨ b.policy.contains x = true ∨ x ∈ pend
  nodup : b.policy.keys.Nodup
  nodup' : b.succs.keys.Nodup

theorem Inv.visit {d : Domain σ α} {pol : σ → α} {b : Build σ α} {s : σ} {pend : List σ} (h : Inv d pol b (pend ++ [s])) (hst : b.stack = pend) :
    Inv d pol (visit d pol b s) (visit d pol b s).stack := by
  unfold PolicyEval.visit
  split
  · rename_i hc
    refine ⟨h.sound, h.succ, h.pred, h.keys, ?_, ?_, h.nodup, h.nodup'⟩
    · intro x hx
      rw [hst] at hx
      exact h.reach x (List.mem_append_left _ hx)
    · intro x hx
      rcases h.done x hx with h1 | h1 | h1
      · exact Or.inl h1
      · exact Or.inr (Or.inl h1)
      · rcases List.mem_append.1 h1 with h1 | h1
        · right; right; rw [hst]; exact h1
        · simp only [List.mem_singleton] at h1
          rw [h1]
          rcases (Bool.or_eq_true_iff).1 hc with hc | hc
          · exact Or.inl hc
          · exact Or.inr (Or.inl hc)
  · rename_i hc
    have hc' : d.terminal s = false ∧ b.policy.contains s = false := by
      simpa using hc
    dsimp only
    obtain ⟨e1, e2, e3, e4, e5⟩ := push_fold s (d.dist s (pol s)) ({ b with policy := b.policy.set s (pol s), succs := b.succs.set s (d.dist s (pol s)) } : Build σ α)
    have hreach : Reach d pol s := h.reach s (List.mem_append_right _ (List.mem_singleton.2 rfl))
    have hcont : ∀ q, (b.policy.set s (pol s)).contains q = true ↔ b.policy.contains q = true ∨ q = s := by
      intro q
      rw [Dict.contains_iff, Dict.contains_iff, Dict.get?_set]
      by_cases hqs : q = s
      · simp [hqs]
      · rw [if_neg hqs]
        simp [hqs]
    generalize hb' : (d.dist s (pol s)).foldl (push s) ({ b with policy := b.policy.set s (pol s), succs := b.succs.set s (d.dist s (pol s)) } : Build σ α) = b' at *
    dsimp only at e1 e2 e3 e4 e5
    refine ⟨?_, ?_, ?_, ?_, ?_, ?_, ?_, ?_⟩
    · intro x a hx
      rw [e1, Dict.get?_set] at hx
      split at hx
      · rename_i hxs
        simp only [Option.some.injEq] at hx
        rw [hxs]
        exact ⟨hreach, hc'.1, hx.symm⟩
      · exact h.sound x a hx
    · intro x
      rw [e2, e1, Dict.get?_set]
      by_cases hxs : x = s
      · rw [if_pos hxs, if_pos ((hcont x).2 (Or.inr hxs)), hxs]
      · rw [if_neg hxs, h.succ x]
        by_cases hx : b.policy.contains x = true
        · rw [if_pos hx, if_pos ((hcont x).2 (Or.inl hx))]
        · rw [if_neg hx, if_neg]
          intro hx'
          rcases (hcont x).1 hx' with h1 | h1
          · exact hx h1
          · exact hxs h1
    · intro q x
      rw [e4, e1, hcont, h.pred]
      constructor
      · rintro (⟨h1, h2⟩ | ⟨rfl, h2⟩)
        · exact ⟨Or.inl h1, h2⟩
        · exact ⟨Or.inr rfl, h2⟩
      · rintro ⟨h1 | rfl, h2⟩
        · exact Or.inl ⟨h1, h2⟩
        · exact Or.inr ⟨rfl, h2⟩
    · intro x
      rw [e5, h.keys, e1]
      constructor
      · rintro (⟨q, h1, h2⟩ | h2)
        · exact ⟨q, (hcont q).2 (Or.inl h1), h2⟩
        · exact ⟨s, (hcont s).2 (Or.inr rfl), h2⟩
      · rintro ⟨q, h1, h2⟩
        rcases (hcont q).1 h1 with h1 | rfl
        · exact Or.inl ⟨q, h1, h2⟩
        · exact Or.inr h2
    · intro x hx
      rw [e3, hst] at hx
      rcases List.mem_append.1 hx with hx | hx
      · exact h.reach x (List.mem_append_left _ hx)
      · obtain ⟨⟨x', p⟩, hm, rfl⟩ := List.mem_map.1 hx
        rw [List.mem_filter] at hm
        exact .next hreach hc'.1 hm.1 (by simpa using hm.2)
    · intro x hx
      rw [e1, e3]
      have hcase : (x = d.init ∨ ∃ q, b.policy.contains q = true ∧ Step d pol q x) ∨ Step d pol s x := by
        rcases hx with hx | ⟨q, h1, h2⟩
        · exact Or.inl (Or.inl hx)
        · rw [e1] at h1
          rcases (hcont q).1 h1 with h1 | rfl
          · exact Or.inl (Or.inr ⟨q, h1, h2⟩)
          · exact Or.inr h2
      rcases hcase with hx | ⟨p, hm, hp⟩
      · rcases h.done x hx with h1 | h1 | h1
        · exact Or.inl h1
        · exact Or.inr (Or.inl ((hcont x).2 (Or.inl h1)))
        · rcases List.mem_append.1 h1 with h1 | h1
          · right; right; rw [hst]; exact List.mem_append_left _ h1
          · simp only [List.mem_singleton] at h1
            exact Or.inr (Or.inl ((hcont x).2 (Or.inr h1)))
      · right; right
        refine List.mem_append_right _ (List.mem_map.2 ⟨(x, p), ?_, rfl⟩)
        rw [List.mem_filter]
        exact ⟨hm, by simpa using hp⟩
    · rw [e1]; exact Dict.nodup_keys_set _ _ h.nodup
    · rw [e2]; exact Dict.nodup_keys_set _ _ h.nodup'

theorem Inv.loop {d : Domain σ α} {pol : σ → α} : ∀ (fuel : Nat) (b b' : Build σ α), Inv d pol b b.stack → buildLoop d pol fuel b = some b' → Inv d pol b' [] := by
  intro fuel
  induction fuel with
  | zero => intro b b' _ h; simp [buildLoop] at h
  | succ fuel ih =>
    intro b b' hi h
    unfold buildLoop at h
    cases hl : b.stack.getLast? with
    | none =>
      rw [hl] at h
      simp only [Option.some.injEq] at h
      rw [← h]
      rw [List.getLast?_eq_none_iff.1 hl] at hi
      exact hi
    | some s =>
      rw [hl] at h
      have hst : b.stack = b.stack.dropLast ++ [s] := by
        rw [List.dropLast_append_getLast? s hl]
      refine ih _ _ ?_ h
      refine Inv.visit (pend := b.stack.dropLast) ?_ rfl
      rw [hst] at hi
      have e : (b.stack.dropLast ++ [s]).dropLast = b.stack.dropLast := by simp
      exact ⟨hi.sound, hi.succ, hi.pred, hi.keys, hi.reach, hi.done, hi.nodup, hi.nodup'⟩

theorem Inv.start (d : Domain σ α) (pol : σ → α) : Inv d pol ({ stack := [d.init] } : Build σ α) [d.init] := by
  refine ⟨by simp, by simp [Dict.contains], ?_, ?_, ?_, ?_, List.nodup_nil, List.nodup_nil⟩
  · intro q x
    simp [at_, Dict.contains]
  · intro x
    simp [Dict.contains]
  · intro s hs
    simp only [List.mem_singleton] at hs
    rw [hs]; exact .init
  · rintro x (rfl | ⟨q, h, _⟩)
    · exact Or.inr (Or.inr (List.mem_singleton.2 rfl))
    · simp [Dict.contains] at h

/-- At the end of the loop exactly the states that are reached have been looked at. -/
theorem Inv.full {d : Domain σ α} {pol : σ → α} {b : Build σ α} (h : Inv d pol b []) {s : σ} (hr : Reach d pol s) : d.terminal s = true ∨ b.policy.contains s = true := by
  induction hr with
  | init => simpa using h.done d.init (Or.inl rfl)
  | @next s s' p _ ht hm hp ih =>
    rcases ih with ih | ih
    · rw [ht] at ih; simp at ih
    · simpa using h.done s' (Or.inr ⟨s, ih, p, hm, hp⟩)

theorem Inv.contains_iff {d : Domain σ α} {pol : σ → α} {b : Build σ α} (h : Inv d pol b []) (s : σ) : b.policy.contains s = true ↔ Reach d pol s ∧ d.terminal s = false := by
  constructor
  · intro hc
    rw [Dict.contains_iff, Option.isSome_iff_exists] at hc
    obtain ⟨a, ha⟩ := hc
    exact ⟨(h.sound s a ha).1, (h.sound s a ha).2.1⟩
  · rintro ⟨hr, ht⟩
    rcases h.full hr with h1 | h1
    · rw [ht] at h1; simp at h1
    · exact h1

/-! ### The assertion -/

theorem sane_iff {d : Domain σ α} {pol : σ → α} {b : Build σ α} (h : Inv d pol b []) :
    sane b = true ↔ ∀ s x (p : Rat), Reach d pol s → d.terminal s = false → (x, p) ∈ d.dist s (pol s) → Step d pol s x := by
  unfold sane
  rw [List.all_eq_true]
  constructor
  · intro hs s x p hr ht hm
    have hc := (h.contains_iff s).2 ⟨hr, ht⟩
    have hg := h.succ s
    rw [if_pos hc] at hg
    have h1 := hs _ (Dict.mem_of_get? hg)
    rw [List.all_eq_true] at h1
    have h2 := h1 _ hm
    exact ((h.pred s x).1 (by simpa using h2)).2
  · rintro hs ⟨s, l⟩ hx
    rw [List.all_eq_true]
    rintro ⟨x, p⟩ hm
    have hg := Dict.get?_of_mem h.nodup' hx
    rw [h.succ s] at hg
    split at hg
    · rename_i hc
      simp only [Option.some.injEq] at hg
      have hr := (h.contains_iff s).1 hc
      dsimp only at hm
      rw [← hg] at hm
      simpa using (h.pred s x).2 ⟨hc, hs s x p hr.1 hr.2 hm⟩
    · simp at hg

/-! ### The loop ends -/

theorem filter_lt {L : List σ} {f g : σ → Bool} {s : σ} (hs : s ∈ L) (hf : f s = true) (hg : g s = false) (hle : ∀ x, g x = true → f x = true) :
    (L.filter g).length < (L.filter f).length := by
  induction L with
  | nil => simp at hs
  | cons x L ih =>
    have hall : (L.filter g).length ≤ (L.filter f).length := by
      rw [← List.countP_eq_length_filter, ← List.countP_eq_length_filter]
      exact List.countP_mono_left fun y _ hy => hle y hy
    rcases List.mem_cons.1 hs with rfl | hs
    · rw [List.filter_cons_of_pos hf, List.filter_cons_of_neg (by simp [hg])]
      simp only [List.length_cons]
      omega
    · have := ih hs
      by_cases hgx : g x = true
      · rw [List.filter_cons_of_pos hgx, List.filter_cons_of_pos (hle x hgx)]
        simp only [List.length_cons]
        omega
      · rw [List.filter_cons_of_neg hgx]
        by_cases hfx : f x = true
        · rw [List.filter_cons_of_pos hfx]
          simp only [List.length_cons]
          omega
        · rw [List.filter_cons_of_neg hfx]
          exact this

theorem Inv.drop {d : Domain σ α} {pol : σ → α} {b : Build σ α} {s : σ} (hi : Inv d pol b b.stack) (hl : b.stack.getLast? = some s) :
    Inv d pol (PolicyEval.visit d pol { b with stack := b.stack.dropLast } s) (PolicyEval.visit d pol { b with stack := b.stack.dropLast } s).stack := by
  have hst : b.stack = b.stack.dropLast ++ [s] := by
    rw [List.dropLast_append_getLast? s hl]
  refine Inv.visit (pend := b.stack.dropLast) ?_ rfl
  rw [hst] at hi
  exact ⟨hi.sound, hi.succ, hi.pred, hi.keys, hi.reach, hi.done, hi.nodup, hi.nodup'⟩

theorem buildLoop_ends {d : Domain σ α} {pol : σ → α} {L : List σ} (hL : ∀ s, Reach d pol s → s ∈ L) {M : Nat} (hM : ∀ s ∈ L, (d.dist s (pol s)).length ≤ M) :
    ∀ (fuel : Nat) (b : Build σ α), Inv d pol b b.stack → b.stack.length + (L.filter fun x => !b.policy.contains x).length * (M + 1) < fuel →
      ∃ b', buildLoop d pol fuel b = some b' := by
  intro fuel
  induction fuel with
  | zero => intro b _ h; omega
  | succ fuel ih =>
    intro b hi hf
    unfold buildLoop
    cases hl : b.stack.getLast? with
    | none => exact ⟨b, rfl⟩
    | some s =>
      refine ih _ (hi.drop hl) ?_
      have hst : b.stack = b.stack.dropLast ++ [s] := by
        rw [List.dropLast_append_getLast? s hl]
      have hlen : b.stack.length = b.stack.dropLast.length + 1 := by
        rw [hst]; simp
      unfold PolicyEval.visit
      split
      · dsimp only
        omega
      · rename_i hc
        have hc' : d.terminal s = false ∧ b.policy.contains s = false := by simpa using hc
        obtain ⟨e1, e2, e3, -, -⟩ := push_fold s (d.dist s (pol s)) ({ b with stack := b.stack.dropLast, policy := b.policy.set s (pol s), succs := b.succs.set s (d.dist s (pol s)) } : Build σ α)
        dsimp only at e1 e2 e3 ⊢
        rw [e1, e3]
        have hs : s ∈ L := hL s (hi.reach s (by rw [hst]; simp))
        have h1 : ((d.dist s (pol s)).filter fun x => decide (x.2 ≠ 0)).length ≤ M := Nat.le_trans (List.length_filter_le _ _) (hM s hs)
        have h2 : (L.filter fun x => !(b.policy.set s (pol s)).contains x).length < (L.filter fun x => !b.policy.contains x).length := by
          refine filter_lt hs (by simp [hc'.2]) (by simp [Dict.contains_eq, Dict.get?_set_self]) ?_
          intro x hx
          rw [Dict.contains_eq, Dict.get?_set] at hx
          rw [Dict.contains_eq]
          split at hx
          · simp at hx
          · exact hx
        rw [List.length_append, List.length_map]
        have h3 : ((L.filter fun x => !(b.policy.set s (pol s)).contains x).length + 1) * (M + 1) ≤ (L.filter fun x => !b.policy.contains x).length * (M + 1) := Nat.mul_le_mul_right _ h2
        rw [Nat.add_mul] at h3
        omega

theorem construct_cases {d : Domain σ α} {pol : σ → α} {fuel : Nat} {r : Except PyErr (Build σ α)} (h : construct d pol fuel = some r) :
    ∃ b, Inv d pol b [] ∧ r = if sane b then .ok b else .error .assertionError := by
  unfold construct at h
  split at h
  · simp at h
  · rename_i b hb
    simp only [Option.some.injEq] at h
    exact ⟨b, Inv.loop _ _ _ (Inv.start d pol) hb, h.symm⟩

theorem construct_ok {d : Domain σ α} {pol : σ → α} {fuel : Nat} {b : Build σ α} (h : construct d pol fuel = some (.ok b)) :
    Inv d pol b [] ∧ sane b = true := by
  obtain ⟨b', hb, e⟩ := construct_cases h
  by_cases hs : sane b' = true
  · rw [if_pos hs] at e
    simp only [Except.ok.injEq] at e
    rw [e]; exact ⟨hb, hs⟩
  · rw [if_neg hs] at e
    simp at e

end
end Verif.PolicyEval
