import Verif.Lemmas.PolicyEval
import Mathlib.Tactic.Ring
import Mathlib.Data.List.Perm.Subperm

namespace Verif.PolicyEval
open Verif

variable {σ α : Type}

/-- The probability that the policy has reached a goal within `n` steps from `s`; a goal is not left. -/
def hit (d : Domain σ α) (pol : σ → α) : Nat → σ → Rat
  | 0, s => if d.goal s then 1 else 0
  | n + 1, s => if d.goal s then 1 else if d.terminal s then 0 else ((d.dist s (pol s)).map fun x => x.2 * hit d pol n x.1).sum

/-- The expected cost of the first `n` steps of the policy from `s`, until a goal or a terminal state. -/
def spend (d : Domain σ α) (pol : σ → α) : Nat → σ → Rat
  | 0, _ => 0
  | n + 1, s => if d.goal s then 0 else if d.terminal s then 0 else ((d.dist s (pol s)).map fun x => x.2 * (d.cost s (pol s) x.1 + spend d pol n x.1)).sum

/-- The numbers of the distributions are probabilities. -/
structure Probs (d : Domain σ α) (pol : σ → α) : Prop where
  pos : ∀ s, d.terminal s = false → ∀ x ∈ d.dist s (pol s), 0 ≤ x.2
  one : ∀ s, d.terminal s = false → ((d.dist s (pol s)).map (·.2)).sum = 1

/-- The goal is surely reached within finitely many steps, and `v` is the expected cost of doing so. -/
def Sure (d : Domain σ α) (pol : σ → α) (s : σ) (v : Rat) : Prop := ∃ N, ∀ n, N ≤ n → hit d pol n s = 1 ∧ spend d pol n s = v

theorem hit_goal {d : Domain σ α} {pol : σ → α} {s : σ} (h : d.goal s = true) (n : Nat) : hit d pol n s = 1 := by
  cases n <;> simp [hit, h]

theorem spend_goal {d : Domain σ α} {pol : σ → α} {s : σ} (h : d.goal s = true) (n : Nat) : spend d pol n s = 0 := by
  cases n <;> simp [spend, h]

theorem Sure.unique {d : Domain σ α} {pol : σ → α} {s : σ} {v w : Rat} (h : Sure d pol s v) (h' : Sure d pol s w) : v = w := by
  obtain ⟨n, h⟩ := h
  obtain ⟨m, h'⟩ := h'
  rw [← (h (n + m) (by omega)).2, ← (h' (n + m) (by omega)).2]

theorem weighted_le {l : List (σ × Rat)} {f : σ → Rat} (hp : ∀ x ∈ l, 0 ≤ x.2) (hf : ∀ x ∈ l, f x.1 ≤ 1) :
    (l.map fun x => x.2 * f x.1).sum ≤ (l.map (·.2)).sum := by
  induction l with
  | nil => simp
  | cons x l ih =>
    simp only [List.map_cons, List.sum_cons]
    have h1 := ih (fun y hy => hp y (List.mem_cons_of_mem _ hy)) (fun y hy => hf y (List.mem_cons_of_mem _ hy))
    have h2 := mul_le_mul_of_nonneg_left (hf x List.mem_cons_self) (hp x List.mem_cons_self)
    linarith

theorem weighted_eq {l : List (σ × Rat)} {f : σ → Rat} (hp : ∀ x ∈ l, 0 ≤ x.2) (hf : ∀ x ∈ l, f x.1 ≤ 1)
    (h : (l.map fun x => x.2 * f x.1).sum = (l.map (·.2)).sum) : ∀ x ∈ l, x.2 ≠ 0 → f x.1 = 1 := by
  induction l with
  | nil => simp
  | cons x l ih =>
    simp only [List.map_cons, List.sum_cons] at h
    have hp' := fun y hy => hp y (List.mem_cons_of_mem x hy)
    have hf' := fun y hy => hf y (List.mem_cons_of_mem x hy)
    have h1 := weighted_le hp' hf'
    have h2 := mul_le_mul_of_nonneg_left (hf x List.mem_cons_self) (hp x List.mem_cons_self)
    have h3 : (l.map fun x => x.2 * f x.1).sum = (l.map (·.2)).sum := by linarith
    have h4 : x.2 * f x.1 = x.2 * 1 := by linarith
    intro y hy hy0
    rcases List.mem_cons.1 hy with rfl | hy
    · exact mul_left_cancel₀ hy0 h4
    · exact ih hp' hf' h3 y hy hy0

theorem hit_le {d : Domain σ α} {pol : σ → α} (hP : Probs d pol) : ∀ (n : Nat) (s : σ), hit d pol n s ≤ 1 := by
  intro n
  induction n with
  | zero => intro s; unfold hit; split <;> norm_num
  | succ n ih =>
    intro s
    unfold hit
    split
    · exact le_refl _
    · split
      · norm_num
      · rename_i ht
        have ht' : d.terminal s = false := by simpa using ht
        rw [← hP.one s ht']
        exact weighted_le (hP.pos s ht') fun x _ => ih x.1

section
variable [DecidableEq σ]

theorem backup_sure {d : Domain σ α} {pol : σ → α} {s : σ} {a : α} {val : Dict σ Rat} (hV : ∀ s v, val.get? s = some v → Sure d pol s v) :
    ∀ (l : List (σ × Rat)) (v : Rat), backup d s a val l = .ok v →
      ∃ N, ∀ n, N ≤ n → (l.map fun x => x.2 * (d.cost s a x.1 + spend d pol n x.1)).sum = v ∧ (l.map fun x => x.2 * hit d pol n x.1).sum = (l.map (·.2)).sum := by
  intro l
  induction l with
  | nil =>
    intro v h
    simp only [backup, Except.ok.injEq] at h
    exact ⟨0, fun n _ => by simp [h]⟩
  | cons x l ih =>
    intro v h
    obtain ⟨s', p⟩ := x
    unfold backup at h
    obtain ⟨w, hw, h⟩ := bind_eq_ok.1 h
    obtain ⟨r, hr, h⟩ := bind_eq_ok.1 h
    simp only [pure, Except.pure, Except.ok.injEq] at h
    obtain ⟨N, hN⟩ := ih r hr
    have hw' : val.get? s' = some w := by
      unfold Dict.get at hw
      split at hw
      · simp only [Except.ok.injEq] at hw
        rw [← hw]; assumption
      · simp at hw
    obtain ⟨M, hM⟩ := hV s' w hw'
    refine ⟨N + M, fun n hn => ?_⟩
    obtain ⟨h1, h2⟩ := hN n (by omega)
    obtain ⟨h3, h4⟩ := hM n (by omega)
    simp only [List.map_cons, List.sum_cons]
    rw [h1, h2, h3, h4, ← h]
    exact ⟨rfl, by ring⟩

theorem backup_ok {d : Domain σ α} {s : σ} {a : α} {val : Dict σ Rat} : ∀ (l : List (σ × Rat)), (∀ x ∈ l, val.contains x.1 = true) → ∃ v, backup d s a val l = .ok v := by
  intro l
  induction l with
  | nil => intro _; exact ⟨0, rfl⟩
  | cons x l ih =>
    intro h
    obtain ⟨s', p⟩ := x
    obtain ⟨r, hr⟩ := ih fun y hy => h y (List.mem_cons_of_mem _ hy)
    have hc := h (s', p) List.mem_cons_self
    rw [Dict.contains_iff, Option.isSome_iff_exists] at hc
    obtain ⟨w, hw⟩ := hc
    dsimp only at hw
    refine ⟨p * (d.cost s a s' + w) + r, ?_⟩
    unfold backup
    rw [show val.get s' = .ok w by unfold Dict.get; rw [hw], bind_ok, hr, bind_ok]
    rfl

theorem known_iff {l : List (σ × Rat)} {val : Dict σ Rat} : known l val = true ↔ ∀ x (p : Rat), (x, p) ∈ l → p ≠ 0 → val.contains x = true := by
  unfold known
  rw [List.all_eq_true]
  constructor
  · intro h x p hm hp
    have := h _ hm
    simpa [hp] using this
  · rintro h ⟨x, p⟩ hm
    by_cases hp : p = 0
    · simp [hp]
    · simp [h x p hm hp]

/-- The invariant of the loop of `expected_costs_for_policy`. -/
structure Costs (d : Domain σ α) (pol : σ → α) (b : Build σ α) (val : Dict σ Rat) (stack : List σ) : Prop where
  goal : ∀ s, b.preds.contains s = true → d.goal s = true → val.contains s = true
  mem : ∀ s, val.contains s = true → b.preds.contains s = true ∨ b.policy.contains s = true
  pend : ∀ s, b.policy.contains s = true → val.contains s = false → known (d.dist s (pol s)) val = true → s ∈ stack
  sub : ∀ s ∈ stack, b.policy.contains s = true
  nodup : stack.Nodup

theorem goals_fold {d : Domain σ α} {b : Build σ α} : ∀ (ks : List σ) (r : Dict σ Rat × List σ), r.2.Nodup →
    let r' := ks.foldl (fun r s => if d.goal s then (r.1.set s 0, (at_ b.preds s).foldl insertNew r.2) else r) r
    (∀ s v, r'.1.get? s = some v → r.1.get? s = some v ∨ (s ∈ ks ∧ d.goal s = true ∧ v = 0)) ∧
    (∀ s, r.1.contains s = true ∨ (s ∈ ks ∧ d.goal s = true) → r'.1.contains s = true) ∧
    (∀ s, s ∈ r'.2 ↔ s ∈ r.2 ∨ ∃ g ∈ ks, d.goal g = true ∧ s ∈ at_ b.preds g) ∧ r'.2.Nodup := by
  intro ks
  induction ks with
  | nil => intro r hn; simp [hn]
  | cons k ks ih =>
    intro r hn
    rw [List.foldl_cons]
    by_cases hk : d.goal k = true
    · rw [if_pos hk]
      obtain ⟨h1, h2, h3, h4⟩ := ih (r.1.set k 0, (at_ b.preds k).foldl insertNew r.2) (nodup_insertAll hn)
      refine ⟨?_, ?_, ?_, h4⟩
      · intro s v hv
        rcases h1 s v hv with h | ⟨h, hg, e⟩
        · dsimp only at h
          rw [Dict.get?_set] at h
          split at h
          · rename_i e
            simp only [Option.some.injEq] at h
            exact Or.inr ⟨by simp [e], by rw [e]; exact hk, h.symm⟩
          · exact Or.inl h
        · exact Or.inr ⟨List.mem_cons_of_mem _ h, hg, e⟩
      · intro s hs
        apply h2
        dsimp only
        rw [Dict.contains_iff, Dict.get?_set]
        rcases hs with hs | ⟨hs, hg⟩
        · left
          split
          · rfl
          · exact (Dict.contains_iff _ _).1 hs
        · rcases List.mem_cons.1 hs with e | hs
          · left; rw [if_pos e]; rfl
          · exact Or.inr ⟨hs, hg⟩
      · intro s
        rw [h3, mem_insertAll]
        constructor
        · rintro ((h | h) | ⟨g, h, h'⟩)
          · exact Or.inl h
          · exact Or.inr ⟨k, List.mem_cons_self, hk, h⟩
          · exact Or.inr ⟨g, List.mem_cons_of_mem _ h, h'⟩
        · rintro (h | ⟨g, h, hg, h'⟩)
          · exact Or.inl (Or.inl h)
          · rcases List.mem_cons.1 h with e | h
            · left; right; rw [← e]; exact h'
            · exact Or.inr ⟨g, h, hg, h'⟩
    · rw [if_neg hk]
      obtain ⟨h1, h2, h3, h4⟩ := ih r hn
      refine ⟨?_, ?_, ?_, h4⟩
      · intro s v hv
        rcases h1 s v hv with h | ⟨h, hg, e⟩
        · exact Or.inl h
        · exact Or.inr ⟨List.mem_cons_of_mem _ h, hg, e⟩
      · intro s hs
        apply h2
        rcases hs with hs | ⟨hs, hg⟩
        · exact Or.inl hs
        · rcases List.mem_cons.1 hs with e | hs
          · rw [e] at hg; exact absurd hg hk
          · exact Or.inr ⟨hs, hg⟩
      · intro s
        rw [h3]
        constructor
        · rintro (h | ⟨g, h, h'⟩)
          · exact Or.inl h
          · exact Or.inr ⟨g, List.mem_cons_of_mem _ h, h'⟩
        · rintro (h | ⟨g, h, hg, h'⟩)
          · exact Or.inl h
          · rcases List.mem_cons.1 h with e | h
            · rw [e] at hg; exact absurd hg hk
            · exact Or.inr ⟨g, h, hg, h'⟩

theorem mem_preds_keys {b : Build σ α} {s : σ} : s ∈ b.preds.keys ↔ b.preds.contains s = true := by
  rw [Dict.contains_iff, Dict.get?_isSome_iff_mem_keys]

theorem goals_sure {d : Domain σ α} {pol : σ → α} {b : Build σ α} {s : σ} {v : Rat} (h : (goals d b).1.get? s = some v) : Sure d pol s v := by
  obtain ⟨h1, -, -, -⟩ := goals_fold (d := d) (b := b) b.preds.keys ([], []) List.nodup_nil
  rcases h1 s v h with h | ⟨-, hg, rfl⟩
  · simp at h
  · exact ⟨0, fun n _ => ⟨hit_goal hg n, spend_goal hg n⟩⟩

theorem Probs.some_step {d : Domain σ α} {pol : σ → α} (hP : Probs d pol) {s : σ} (ht : d.terminal s = false) : ∃ x, Step d pol s x := by
  apply Classical.byContradiction
  intro h
  have h0 : ∀ x ∈ d.dist s (pol s), x.2 = 0 := by
    intro x hx
    apply Classical.byContradiction
    intro h'
    exact h ⟨x.1, x.2, hx, h'⟩
  have h1 := hP.one s ht
  have : ∀ (l : List (σ × Rat)), (∀ x ∈ l, x.2 = 0) → (l.map (·.2)).sum = 0 := by
    intro l
    induction l with
    | nil => simp
    | cons y l ih =>
      intro hl
      simp only [List.map_cons, List.sum_cons]
      rw [ih fun x hx => hl x (List.mem_cons_of_mem _ hx), hl y List.mem_cons_self]
      norm_num
  rw [this _ h0] at h1
  norm_num at h1

theorem goals_costs {d : Domain σ α} {pol : σ → α} {b : Build σ α} (hb : Inv d pol b []) (hP : Probs d pol) : Costs d pol b (goals d b).1 (goals d b).2 := by
  obtain ⟨h1, h2, h3, h4⟩ := goals_fold (d := d) (b := b) b.preds.keys ([], []) List.nodup_nil
  have hmem : ∀ s, (goals d b).1.contains s = true → b.preds.contains s = true ∧ d.goal s = true := by
    intro s hs
    rw [Dict.contains_iff, Option.isSome_iff_exists] at hs
    obtain ⟨v, hv⟩ := hs
    rcases h1 s v hv with h | ⟨h, hg, -⟩
    · simp at h
    · exact ⟨mem_preds_keys.1 h, hg⟩
  refine ⟨?_, ?_, ?_, ?_, h4⟩
  · intro s hs hg
    exact h2 s (Or.inr ⟨mem_preds_keys.2 hs, hg⟩)
  · intro s hs
    exact Or.inl (hmem s hs).1
  · intro s hs _ hk
    obtain ⟨x, p, hm, hp⟩ := hP.some_step ((hb.contains_iff s).1 hs).2
    obtain ⟨h5, h6⟩ := hmem x (known_iff.1 hk x p hm hp)
    exact (h3 s).2 (Or.inr ⟨x, mem_preds_keys.2 h5, h6, (hb.pred s x).2 ⟨hs, p, hm, hp⟩⟩)
  · intro s hs
    rcases (h3 s).1 hs with h | ⟨g, _, _, h⟩
    · simp at h
    · exact ((hb.pred s g).1 h).1

theorem contains_set {val : Dict σ Rat} {s x : σ} {v : Rat} : (val.set s v).contains x = true ↔ x = s ∨ val.contains x = true := by
  rw [Dict.contains_iff, Dict.contains_iff, Dict.get?_set]
  by_cases h : x = s
  · simp [h]
  · simp [h]

theorem Costs.skip {d : Domain σ α} {pol : σ → α} {b : Build σ α} {val : Dict σ Rat} {stack : List σ} {s : σ} (h : Costs d pol b val stack)
    (hs : val.contains s = true ∨ known (d.dist s (pol s)) val = false) : Costs d pol b val (stack.erase s) := by
  refine ⟨h.goal, h.mem, ?_, ?_, h.nodup.erase s⟩
  · intro x hx hv hk
    have hne : x ≠ s := by
      rintro rfl
      rcases hs with hs | hs
      · rw [hs] at hv; simp at hv
      · rw [hs] at hk; simp at hk
    exact (List.mem_erase_of_ne hne).2 (h.pend x hx hv hk)
  · intro x hx
    exact h.sub x (List.mem_of_mem_erase hx)

theorem Costs.value {d : Domain σ α} {pol : σ → α} {b : Build σ α} {val : Dict σ Rat} {stack : List σ} {s : σ} (hb : Inv d pol b []) (h : Costs d pol b val stack)
    (hs : s ∈ stack) (v : Rat) : Costs d pol b (val.set s v) ((at_ b.preds s).foldl insertNew (stack.erase s)) := by
  refine ⟨?_, ?_, ?_, ?_, nodup_insertAll (h.nodup.erase s)⟩
  · intro x h1 h2
    exact contains_set.2 (Or.inr (h.goal x h1 h2))
  · intro x hx
    rcases contains_set.1 hx with rfl | hx
    · exact Or.inr (h.sub x hs)
    · exact h.mem x hx
  · intro x hx hv hk
    rw [mem_insertAll]
    have hv' : ¬(x = s ∨ val.contains x = true) := by
      rw [← contains_set (v := v), hv]; simp
    have hne : x ≠ s := fun e => hv' (Or.inl e)
    by_cases hstep : Step d pol x s
    · exact Or.inr ((hb.pred x s).2 ⟨hx, hstep⟩)
    · left
      rw [List.mem_erase_of_ne hne]
      refine h.pend x hx (by simpa using fun e => hv' (Or.inr e)) ?_
      rw [known_iff] at hk ⊢
      intro y p hm hp
      rcases contains_set.1 (hk y p hm hp) with rfl | hy
      · exact absurd ⟨p, hm, hp⟩ hstep
      · exact hy
  · intro x hx
    rcases mem_insertAll.1 hx with hx | hx
    · exact h.sub x (List.mem_of_mem_erase hx)
    · exact ((hb.pred x s).1 hx).1

/-- What is read for a state of the stack. -/
theorem Inv.look {d : Domain σ α} {pol : σ → α} {b : Build σ α} (hb : Inv d pol b []) {s : σ} (hs : b.policy.contains s = true) :
    b.succs.get? s = some (d.dist s (pol s)) ∧ b.policy.get? s = some (pol s) := by
  have h1 := hb.succ s
  rw [if_pos hs] at h1
  refine ⟨h1, ?_⟩
  rw [Dict.contains_iff, Option.isSome_iff_exists] at hs
  obtain ⟨a, ha⟩ := hs
  rw [ha, (hb.sound s a ha).2.2]

theorem pick_mem {stack : List σ} {k : Nat} {s : σ} (h : stack[k % stack.length]? = some s) : s ∈ stack := List.mem_of_getElem? h

theorem pick_none {stack : List σ} {k : Nat} (h : stack[k % stack.length]? = none) : stack = [] := by
  cases stack with
  | nil => rfl
  | cons x l =>
    rw [List.getElem?_eq_none_iff] at h
    have := Nat.mod_lt k (show (x :: l).length > 0 by simp)
    omega

/-- The loop does not raise, and its answer is right and complete. -/
theorem costLoop_spec {d : Domain σ α} {pol : σ → α} {b : Build σ α} (hb : Inv d pol b []) (hP : Probs d pol) (hs : sane b = true)
    (hg : d.goal d.init = true → d.terminal d.init = true) (pick : Nat → Nat) :
    ∀ (fuel : Nat) (val : Dict σ Rat) (stack : List σ) (r : Except PyErr (Dict σ Rat)), Costs d pol b val stack → (∀ s v, val.get? s = some v → Sure d pol s v) →
      costLoop d b pick fuel val stack = some r → ∃ val', r = .ok val' ∧ Costs d pol b val' [] ∧ ∀ s v, val'.get? s = some v → Sure d pol s v := by
  intro fuel
  induction fuel with
  | zero => intro val stack r _ _ h; simp [costLoop] at h
  | succ fuel ih =>
    intro val stack r hc hV h
    unfold costLoop at h
    split at h
    · rename_i hp
      simp only [Option.some.injEq] at h
      rw [pick_none hp] at hc
      exact ⟨val, h.symm, hc, hV⟩
    · rename_i s hp
      have hmem := pick_mem hp
      dsimp only at h
      split at h
      · rename_i hv
        exact ih _ _ _ (hc.skip (Or.inl hv)) hV h
      · rename_i hv
        have hin := hc.sub s hmem
        obtain ⟨e1, e2⟩ := hb.look hin
        rw [e1, e2] at h
        dsimp only at h
        split at h
        · rename_i hk
          exact ih _ _ _ (hc.skip (Or.inr (by simpa using hk))) hV h
        · rename_i hk
          have hk' : known (d.dist s (pol s)) val = true := by simpa using hk
          obtain ⟨hr, ht⟩ := (hb.contains_iff s).1 hin
          have hall : ∀ x ∈ d.dist s (pol s), val.contains x.1 = true := by
            rintro ⟨x, p⟩ hx
            obtain ⟨q, hm, hq⟩ := (sane_iff hb).1 hs s x p hr ht hx
            exact known_iff.1 hk' x q hm hq
          obtain ⟨v, hv'⟩ := backup_ok (d := d) (s := s) (a := pol s) _ hall
          rw [hv'] at h
          dsimp only at h
          refine ih _ _ _ (hc.value hb hmem v) ?_ h
          intro x w hx
          rw [Dict.get?_set] at hx
          split at hx
          · rename_i e
            simp only [Option.some.injEq] at hx
            rw [e, ← hx]
            have hng : d.goal s = false := by
              apply Classical.byContradiction
              intro hgs
              have hgs' : d.goal s = true := by simpa using hgs
              have : s = d.init ∨ b.preds.contains s = true := by
                cases hr with
                | init => exact Or.inl rfl
                | next h1 h2 h3 h4 => exact Or.inr ((hb.keys s).2 ⟨_, (hb.contains_iff _).2 ⟨h1, h2⟩, _, h3, h4⟩)
              rcases this with h1 | h1
              · rw [h1] at hgs' ht
                rw [hg hgs'] at ht
                simp at ht
              · exact hv (hc.goal s h1 hgs')
            obtain ⟨N, hN⟩ := backup_sure hV _ _ hv'
            refine ⟨N + 1, fun n hn => ?_⟩
            obtain ⟨m, rfl⟩ : ∃ m, n = m + 1 := ⟨n - 1, by omega⟩
            obtain ⟨h1, h2⟩ := hN m (by omega)
            unfold hit spend
            simp only [hng, ht, Bool.false_eq_true, if_false]
            exact ⟨by rw [h2, hP.one s ht], h1⟩
          · exact hV x w hx

/-- What is surely reached has a value in the end. -/
theorem Costs.complete {d : Domain σ α} {pol : σ → α} {b : Build σ α} {val : Dict σ Rat} (hb : Inv d pol b []) (hP : Probs d pol) (hc : Costs d pol b val []) :
    ∀ (n : Nat) (s : σ), Reach d pol s → (d.goal s = true → b.preds.contains s = true) → hit d pol n s = 1 → val.contains s = true := by
  intro n
  induction n with
  | zero =>
    intro s hr hg h
    unfold hit at h
    split at h
    · rename_i hgs
      exact hc.goal s (hg hgs) hgs
    · norm_num at h
  | succ n ih =>
    intro s hr hg h
    unfold hit at h
    split at h
    · rename_i hgs
      exact hc.goal s (hg hgs) hgs
    · split at h
      · norm_num at h
      · rename_i ht
        have ht' : d.terminal s = false := by simpa using ht
        rw [← hP.one s ht'] at h
        have h1 := weighted_eq (hP.pos s ht') (fun x _ => hit_le hP n x.1) h
        apply Classical.byContradiction
        intro hv
        have := hc.pend s ((hb.contains_iff s).2 ⟨hr, ht'⟩) (by simpa using hv) ?_
        · simp at this
        · rw [known_iff]
          intro x p hm hp
          refine ih x (.next hr ht' hm hp) ?_ (h1 (x, p) hm hp)
          intro _
          exact (hb.keys x).2 ⟨s, (hb.contains_iff s).2 ⟨hr, ht'⟩, p, hm, hp⟩

/-- The loop ends. -/
theorem costLoop_ends {d : Domain σ α} {pol : σ → α} {b : Build σ α} (hb : Inv d pol b []) (pick : Nat → Nat) :
    ∀ (fuel : Nat) (val : Dict σ Rat) (stack : List σ), Costs d pol b val stack →
      stack.length + (b.policy.keys.filter fun x => !val.contains x).length * (b.policy.keys.length + 1) < fuel → ∃ r, costLoop d b pick fuel val stack = some r := by
  intro fuel
  induction fuel with
  | zero => intro val stack _ h; omega
  | succ fuel ih =>
    intro val stack hc hf
    unfold costLoop
    split
    · exact ⟨_, rfl⟩
    · rename_i s hp
      have hmem := pick_mem hp
      have hlen : (stack.erase s).length + 1 = stack.length := by
        rw [List.length_erase_of_mem hmem]
        have : 0 < stack.length := List.length_pos_of_mem hmem
        omega
      dsimp only
      split
      · rename_i hv
        exact ih _ _ (hc.skip (Or.inl hv)) (by omega)
      · rename_i hv
        have hin := hc.sub s hmem
        obtain ⟨e1, e2⟩ := hb.look hin
        rw [e1, e2]
        dsimp only
        split
        · rename_i hk
          exact ih _ _ (hc.skip (Or.inr (by simpa using hk))) (by omega)
        · split
          · exact ⟨_, rfl⟩
          · rename_i v _
            have hc' := hc.value hb hmem v
            refine ih _ _ hc' ?_
            have h1 : ((at_ b.preds s).foldl insertNew (stack.erase s)).length ≤ b.policy.keys.length := by
              refine (List.Nodup.subperm hc'.nodup ?_).length_le
              intro x hx
              have := hc'.sub x hx
              rwa [Dict.contains_iff, Dict.get?_isSome_iff_mem_keys] at this
            have h2 : (b.policy.keys.filter fun x => !(val.set s v).contains x).length < (b.policy.keys.filter fun x => !val.contains x).length := by
              refine filter_lt (s := s) ?_ ?_ ?_ ?_
              · rwa [Dict.contains_iff, Dict.get?_isSome_iff_mem_keys] at hin
              · simpa using hv
              · simp [contains_set]
              · intro x hx
                cases hxv : val.contains x with
                | false => rfl
                | true =>
                  have : (val.set s v).contains x = true := contains_set.2 (Or.inr hxv)
                  rw [this] at hx
                  simp at hx
            have h3 : ((b.policy.keys.filter fun x => !(val.set s v).contains x).length + 1) * (b.policy.keys.length + 1) ≤ (b.policy.keys.filter fun x => !val.contains x).length * (b.policy.keys.length + 1) := Nat.mul_le_mul_right _ h2
            rw [Nat.add_mul] at h3
            omega

end
end Verif.PolicyEval
