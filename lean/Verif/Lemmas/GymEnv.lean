import Verif.Model.GymEnv
import Verif.Lemmas.Gym

/-! Helper lemmas about the domains that wrap Gym environments. -/
namespace Verif.GymEnv
open Verif.Gym

variable {S O A X : Type}

/-! ### What a sequence of actions leads to -/

/-- Observation, last transition and value of the environment after the actions (the last one first) from the
observation and value after `reset`. -/
def after (E : Env S O A) (start : O × S) : List A → O × Option (O × A × Out O) × S
  | [] => (start.1, none, start.2)
  | a :: rp =>
    let q := after E start rp
    let r := E.step q.2.2 a
    (r.1.obs, some (q.1, a, r.1), r.2)

/-- The sum of the rewards of these actions. -/
def total (E : Env S O A) (start : O × S) : List A → Rat
  | [] => 0
  | a :: rp => total E start rp + (E.step (after E start rp).2.2 a).1.reward

/-- `set_state` sets what `get_state` returns, and the environment depends on that only. -/
structure Lawful (E : Env S O A) (ac : Access S X) : Prop where
  get_set : ∀ s x, ac.get (ac.set s x) = x
  out : ∀ s s' a, ac.get s = ac.get s' → (E.step s a).1 = (E.step s' a).1
  nxt : ∀ s s' a, ac.get s = ac.get s' → ac.get (E.step s a).2 = ac.get (E.step s' a).2

theorem store_self (heap : Nat → S) (r : Nat) (s : S) : store heap r s r = s := by simp [store]
theorem store_ne {heap : Nat → S} {r i : Nat} {s : S} (h : i ≠ r) : store heap r s i = heap i := by simp [store, h]

/-! ### `DeterministicGymDomain` -/

variable [DecidableEq X]
set_option linter.unusedSectionVars false

/-- The domain after some calls, with the states returned so far and the actions that led to them: the initial
state first, then successors of any returned states in any order. -/
inductive Reach (E : Env S O A) (ac : Option (Access S X)) (d0 : Dom S) : Dom S → List (Proxy O A X × List A) → Prop where
  | init : Reach E ac d0 (initial E ac d0).2 [((initial E ac d0).1, [])]
  | next {d d' : Dom S} {ps : List (Proxy O A X × List A)} {m p : Proxy O A X} {rp : List A} (a : A) (h : Reach E ac d0 d ps)
      (hm : (m, rp) ∈ ps) (e : next E ac d m a = .ok (p, d')) : Reach E ac d0 d' ((p, a :: rp) :: ps)

theorem reach_copy {E : Env S O A} {d0 d : Dom S} {ps : List (Proxy O A X × List A)} (hd : d0.env < d0.fresh)
    (h : Reach E none d0 d ps) : ∀ q ∈ ps, q.1.env < d.fresh ∧ q.1.obs = (after E (E.reset (d0.heap d0.env)) q.2).1 ∧
      q.1.last = (after E (E.reset (d0.heap d0.env)) q.2).2.1 ∧ d.heap q.1.env = (after E (E.reset (d0.heap d0.env)) q.2).2.2 := by
  induction h with
  | init =>
    intro q hq
    rw [List.mem_singleton.mp hq]
    exact ⟨hd, rfl, rfl, store_self _ _ _⟩
  | next a h hm e ih =>
    simp only [next, Except.ok.injEq, Prod.mk.injEq] at e
    obtain ⟨rfl, rfl⟩ := e
    obtain ⟨m1, m2, m3, m4⟩ := ih _ hm
    intro q hq
    rcases List.mem_cons.mp hq with rfl | hq
    · simp only at m2 m4
      simp only [after, m2, m4]
      exact ⟨by omega, trivial, trivial, store_self _ _ _⟩
    · obtain ⟨h1, h2, h3, h4⟩ := ih q hq
      refine ⟨by simp only; omega, h2, h3, ?_⟩
      simp only
      rw [store_ne (by omega), h4]

theorem reach_access {E : Env S O A} {ac : Access S X} (hl : Lawful E ac) {d0 d : Dom S} {ps : List (Proxy O A X × List A)}
    (h : Reach E (some ac) d0 d ps) : ∀ q ∈ ps, q.1.obs = (after E (E.reset (d0.heap d0.env)) q.2).1 ∧
      q.1.last = (after E (E.reset (d0.heap d0.env)) q.2).2.1 ∧ q.1.saved = some (ac.get (after E (E.reset (d0.heap d0.env)) q.2).2.2) := by
  induction h with
  | init =>
    intro q hq
    rw [List.mem_singleton.mp hq]
    exact ⟨rfl, rfl, rfl⟩
  | @next d d' ps m p rp a h hm e ih =>
    obtain ⟨m1, m2, m3⟩ := ih _ hm
    simp only at m1 m2 m3
    simp only [next, m3, Except.ok.injEq, Prod.mk.injEq] at e
    obtain ⟨rfl, rfl⟩ := e
    intro q hq
    rcases List.mem_cons.mp hq with rfl | hq
    · have hg : ∀ s x, ac.get (if x ≠ ac.get s then ac.set s x else s) = x := by
        intro s x
        split
        · exact hl.get_set s x
        · next h => exact (not_not.mp h).symm
      have ho := hl.out _ _ a (hg (d.heap m.env) (ac.get (after E (E.reset (d0.heap d0.env)) rp).2.2))
      have hn := hl.nxt _ _ a (hg (d.heap m.env) (ac.get (after E (E.reset (d0.heap d0.env)) rp).2.2))
      simp only [after]
      rw [ho, hn, m1]
      exact ⟨rfl, rfl, rfl⟩
    · exact ih q hq

/-- What is known of the returned states, with copies or with lawful access. -/
theorem reach_spec {E : Env S O A} {ac : Option (Access S X)} {d0 d : Dom S} {ps : List (Proxy O A X × List A)} (hd : d0.env < d0.fresh)
    (hl : ∀ a, ac = some a → Lawful E a) (h : Reach E ac d0 d ps) : ∀ q ∈ ps, q.1.obs = (after E (E.reset (d0.heap d0.env)) q.2).1 ∧
      q.1.last = (after E (E.reset (d0.heap d0.env)) q.2).2.1 := by
  intro q hq
  cases ac with
  | none => exact ⟨(reach_copy hd h q hq).2.1, (reach_copy hd h q hq).2.2.1⟩
  | some ac => exact ⟨(reach_access (hl ac rfl) h q hq).1, (reach_access (hl ac rfl) h q hq).2.1⟩

/-- Successors of returned states are always found. -/
theorem reach_next {E : Env S O A} {ac : Option (Access S X)} {d0 d : Dom S} {ps : List (Proxy O A X × List A)}
    (hl : ∀ a, ac = some a → Lawful E a) (h : Reach E ac d0 d ps) {m : Proxy O A X} {rp : List A} (hm : (m, rp) ∈ ps) (a : A) :
    ∃ p d', next E ac d m a = .ok (p, d') := by
  cases ac with
  | none => exact ⟨_, _, rfl⟩
  | some ac =>
    obtain ⟨-, -, h3⟩ := reach_access (hl ac rfl) h _ hm
    simp only at h3
    simp only [next, h3]
    exact ⟨_, _, rfl⟩

/-! ### `GymPlanningDomain` -/

/-- The same for the planning domain. -/
inductive PReach (E : Env S O A) (ac : Option (Access S X)) (same : O → O → Except PyErr Bool) (d0 : PDom S O A X) :
    PDom S O A X → List (PProxy O A X × List A) → Prop where
  | init : PReach E ac same d0 (pInitial E ac d0).2 [((pInitial E ac d0).1, [])]
  | next {d d' : PDom S O A X} {ps : List (PProxy O A X × List A)} {m p : PProxy O A X} {rp : List A} (a : A)
      (h : PReach E ac same d0 d ps) (hm : (m, rp) ∈ ps) (e : pNext E ac same d m a = .ok (p, d')) :
      PReach E ac same d0 d' ((p, a :: rp) :: ps)

theorem PReach.base {E : Env S O A} {ac : Option (Access S X)} {same : O → O → Except PyErr Bool} {d0 d : PDom S O A X}
    {ps : List (PProxy O A X × List A)} (h : PReach E ac same d0 d ps) :
    Reach E ac d0.dom d.dom (ps.map (fun q => (q.1.base, q.2))) := by
  induction h with
  | init => exact .init
  | @next d d' ps m p rp a h hm e ih =>
    simp only [pNext] at e
    split at e
    · simp at e
    · split at e
      · simp at e
      · next p' dom hn =>
        simp only [Except.ok.injEq, Prod.mk.injEq] at e
        obtain ⟨rfl, rfl⟩ := e
        exact .next a ih (List.mem_map.mpr ⟨_, hm, rfl⟩) hn

theorem preach_spec {E : Env S O A} {ac : Option (Access S X)} {same : O → O → Except PyErr Bool} {d0 d : PDom S O A X}
    {ps : List (PProxy O A X × List A)} (hd : d0.dom.env < d0.dom.fresh) (hl : ∀ a, ac = some a → Lawful E a)
    (h : PReach E ac same d0 d ps) : ∀ q ∈ ps, q.1.depth = q.2.length ∧
      q.1.acc = total E (E.reset (d0.dom.heap d0.dom.env)) q.2.tail := by
  induction h with
  | init =>
    intro q hq
    rw [List.mem_singleton.mp hq]
    exact ⟨rfl, rfl⟩
  | @next d d' ps m p rp a h hm e ih =>
    have hb := (reach_spec hd hl h.base _ (List.mem_map.mpr ⟨_, hm, rfl⟩)).2
    obtain ⟨m1, m2⟩ := ih _ hm
    simp only at hb m1 m2
    simp only [pNext] at e
    split at e
    · simp at e
    · split at e
      · simp at e
      · simp only [Except.ok.injEq, Prod.mk.injEq] at e
        obtain ⟨rfl, rfl⟩ := e
        intro q hq
        rcases List.mem_cons.mp hq with rfl | hq
        · refine ⟨by simp [m1], ?_⟩
          simp only [List.tail_cons]
          cases rp with
          | nil =>
            simp only [after] at hb
            simp only [hb, m2]
            rfl
          | cons b rp =>
            simp only [after] at hb
            simp only [hb, m2, List.tail_cons, total]
        · exact ih q hq

/-! ### `_are_same` -/

mutual
/-- No multi-discrete part. -/
def noMulti : Space → Bool
  | .multiDiscrete _ => false
  | .tuple sp => noMultiL sp
  | .dict _ sp => noMultiL sp
  | _ => true
/-- In none of them. -/
def noMultiL : List Space → Bool
  | [] => true
  | s :: sp => noMulti s && noMultiL sp
end

mutual
theorem areSame_ok : (s : Space) → (a b : Elem Rat) → Fits (fun _ => True) s a → Fits (fun _ => True) s b → noMulti s = true →
    ∃ r, areSame s a b = .ok r ∧ (r = true ↔ a = b)
  | .box _ _, .array l, .array m, _, _, _ => ⟨decide (l = m), by simp only [areSame], by simp⟩
  | .discrete _, .int l, .int m, _, _, _ => ⟨decide (l = m), by simp only [areSame], by simp⟩
  | .multiBinary _, .ints l, .ints m, _, _, _ => ⟨decide (l = m), by simp only [areSame], by simp⟩
  | .multiDiscrete _, .ints _, .ints _, _, _, h => by simp [noMulti] at h
  | .tuple sp, .tuple l, .tuple m, hf, hf', h => by
    simp only [Fits] at hf hf'
    simp only [noMulti] at h
    obtain ⟨r, e, hr⟩ := areSameL_ok sp l m hf hf' h
    exact ⟨r, by simp only [areSame, e], by rw [hr]; simp⟩
  | .dict ks sp, .dict k1 l, .dict k2 m, hf, hf', h => by
    simp only [Fits] at hf hf'
    simp only [noMulti] at h
    obtain ⟨r, e, hr⟩ := areSameL_ok sp l m hf.2.2 hf'.2.2 h
    refine ⟨r, ?_, ?_⟩
    · simp only [areSame]
      rw [if_pos ⟨hf.1.trans hf'.1.symm, hf'.1⟩, e]
    · rw [hr, hf.1, hf'.1]
      simp
  | .box _ _, .int _, _, hf, _, _ => by simp [Fits] at hf
  | .box _ _, .ints _, _, hf, _, _ => by simp [Fits] at hf
  | .box _ _, .tuple _, _, hf, _, _ => by simp [Fits] at hf
  | .box _ _, .dict _ _, _, hf, _, _ => by simp [Fits] at hf
  | .box _ _, .array _, .int _, _, hf, _ => by simp [Fits] at hf
  | .box _ _, .array _, .ints _, _, hf, _ => by simp [Fits] at hf
  | .box _ _, .array _, .tuple _, _, hf, _ => by simp [Fits] at hf
  | .box _ _, .array _, .dict _ _, _, hf, _ => by simp [Fits] at hf
  | .discrete _, .array _, _, hf, _, _ => by simp [Fits] at hf
  | .discrete _, .ints _, _, hf, _, _ => by simp [Fits] at hf
  | .discrete _, .tuple _, _, hf, _, _ => by simp [Fits] at hf
  | .discrete _, .dict _ _, _, hf, _, _ => by simp [Fits] at hf
  | .discrete _, .int _, .array _, _, hf, _ => by simp [Fits] at hf
  | .discrete _, .int _, .ints _, _, hf, _ => by simp [Fits] at hf
  | .discrete _, .int _, .tuple _, _, hf, _ => by simp [Fits] at hf
  | .discrete _, .int _, .dict _ _, _, hf, _ => by simp [Fits] at hf
  | .multiDiscrete _, .array _, _, hf, _, _ => by simp [Fits] at hf
  | .multiDiscrete _, .int _, _, hf, _, _ => by simp [Fits] at hf
  | .multiDiscrete _, .tuple _, _, hf, _, _ => by simp [Fits] at hf
  | .multiDiscrete _, .dict _ _, _, hf, _, _ => by simp [Fits] at hf
  | .multiDiscrete _, .ints _, .array _, _, hf, _ => by simp [Fits] at hf
  | .multiDiscrete _, .ints _, .int _, _, hf, _ => by simp [Fits] at hf
  | .multiDiscrete _, .ints _, .tuple _, _, hf, _ => by simp [Fits] at hf
  | .multiDiscrete _, .ints _, .dict _ _, _, hf, _ => by simp [Fits] at hf
  | .multiBinary _, .array _, _, hf, _, _ => by simp [Fits] at hf
  | .multiBinary _, .int _, _, hf, _, _ => by simp [Fits] at hf
  | .multiBinary _, .tuple _, _, hf, _, _ => by simp [Fits] at hf
  | .multiBinary _, .dict _ _, _, hf, _, _ => by simp [Fits] at hf
  | .multiBinary _, .ints _, .array _, _, hf, _ => by simp [Fits] at hf
  | .multiBinary _, .ints _, .int _, _, hf, _ => by simp [Fits] at hf
  | .multiBinary _, .ints _, .tuple _, _, hf, _ => by simp [Fits] at hf
  | .multiBinary _, .ints _, .dict _ _, _, hf, _ => by simp [Fits] at hf
  | .tuple _, .array _, _, hf, _, _ => by simp [Fits] at hf
  | .tuple _, .int _, _, hf, _, _ => by simp [Fits] at hf
  | .tuple _, .ints _, _, hf, _, _ => by simp [Fits] at hf
  | .tuple _, .dict _ _, _, hf, _, _ => by simp [Fits] at hf
  | .tuple _, .tuple _, .array _, _, hf, _ => by simp [Fits] at hf
  | .tuple _, .tuple _, .int _, _, hf, _ => by simp [Fits] at hf
  | .tuple _, .tuple _, .ints _, _, hf, _ => by simp [Fits] at hf
  | .tuple _, .tuple _, .dict _ _, _, hf, _ => by simp [Fits] at hf
  | .dict _ _, .array _, _, hf, _, _ => by simp [Fits] at hf
  | .dict _ _, .int _, _, hf, _, _ => by simp [Fits] at hf
  | .dict _ _, .ints _, _, hf, _, _ => by simp [Fits] at hf
  | .dict _ _, .tuple _, _, hf, _, _ => by simp [Fits] at hf
  | .dict _ _, .dict _ _, .array _, _, hf, _ => by simp [Fits] at hf
  | .dict _ _, .dict _ _, .int _, _, hf, _ => by simp [Fits] at hf
  | .dict _ _, .dict _ _, .ints _, _, hf, _ => by simp [Fits] at hf
  | .dict _ _, .dict _ _, .tuple _, _, hf, _ => by simp [Fits] at hf
theorem areSameL_ok : (sp : List Space) → (l m : List (Elem Rat)) → FitsL (fun _ => True) sp l → FitsL (fun _ => True) sp m → noMultiL sp = true →
    ∃ r, areSameL sp l m = .ok r ∧ (r = true ↔ l = m)
  | [], [], [], _, _, _ => ⟨true, by simp only [areSameL], by simp⟩
  | [], _ :: _, _, hf, _, _ => by simp [FitsL] at hf
  | [], [], _ :: _, _, hf, _ => by simp [FitsL] at hf
  | _ :: _, [], _, hf, _, _ => by simp [FitsL] at hf
  | _ :: _, _ :: _, [], _, hf, _ => by simp [FitsL] at hf
  | s :: sp, a :: l, b :: m, hf, hf', h => by
    simp only [FitsL] at hf hf'
    simp only [noMultiL, Bool.and_eq_true] at h
    obtain ⟨r1, e1, h1⟩ := areSame_ok s a b hf.1 hf'.1 h.1
    obtain ⟨r2, e2, h2⟩ := areSameL_ok sp l m hf.2 hf'.2 h.2
    cases r1 with
    | false => exact ⟨false, by simp only [areSameL, e1], by simp at h1; simp [h1]⟩
    | true => exact ⟨r2, by simp only [areSameL, e1, e2], by rw [h2]; simp [h1.mp rfl]⟩
end

/-! ### `DeterministicInitializedGymDomain` -/

/-- Several steps. -/
def steps (E : Env S O A) : IDom S O X → List A → List (Out O) × IDom S O X
  | d, [] => ([], d)
  | d, a :: l =>
    let r := stateStep E d a
    let q := steps E r.2 l
    (r.1.1 :: q.1, q.2)

/-- What the environment itself returns for these actions. -/
def outs (E : Env S O A) : S → List A → List (Out O)
  | _, [] => []
  | s, a :: l => (E.step s a).1 :: outs E (E.step s a).2 l

theorem steps_outs_copy (E : Env S O A) (l : List A) (d : IDom S O X) : (steps E d l).1 = outs E (d.heap d.env) l := by
  induction l generalizing d with
  | nil => rfl
  | cons a l ih =>
    simp only [steps, outs, ih, stateStep, store_self]

theorem outs_lawful {E : Env S O A} {ac : Access S X} (hl : Lawful E ac) (l : List A) {s s' : S} (h : ac.get s = ac.get s') :
    outs E s l = outs E s' l := by
  induction l generalizing s s' with
  | nil => rfl
  | cons a l ih => rw [outs, outs, hl.out s s' a h, ih (hl.nxt s s' a h)]

/-- Calls of the domain: `true` for `reset`, actions for `step`. -/
inductive IReach (E : Env S O A) (ac : Option (Access S X)) (d0 : IDom S O X) : IDom S O X → Prop where
  | first {p : IProxy O X} {d : IDom S O X} (e : stateReset E ac d0 = .ok (p, d)) : IReach E ac d0 d
  | reset {d d' : IDom S O X} {p : IProxy O X} (h : IReach E ac d0 d) (e : stateReset E ac d = .ok (p, d')) : IReach E ac d0 d'
  | step {d : IDom S O X} (h : IReach E ac d0 d) (a : A) : IReach E ac d0 (stateStep E d a).2

theorem ireach_copy {E : Env S O A} {d0 d : IDom S O X} (h0 : d0.initState = none) (hd : d0.env < d0.fresh) (h : IReach E none d0 d) :
    ∃ r, d.initEnv = .env r ∧ d.initState = some ⟨(E.reset (d0.heap d0.env)).1, .env d0.fresh⟩ ∧
      d.heap r = (E.reset (d0.heap d0.env)).2 ∧ r ≠ d.env ∧ r < d.fresh ∧ d.env < d.fresh := by
  induction h with
  | first e =>
    simp only [stateReset, h0, Except.ok.injEq, Prod.mk.injEq] at e
    obtain ⟨-, rfl⟩ := e
    refine ⟨d0.fresh, rfl, rfl, store_self _ _ _, ?_, ?_, ?_⟩ <;> simp only <;> omega
  | reset h e ih =>
    obtain ⟨r, h1, h2, h3, h4, h5, h6⟩ := ih
    simp only [stateReset, h2, h1, restore, Except.ok.injEq, Prod.mk.injEq] at e
    obtain ⟨-, rfl⟩ := e
    refine ⟨r, rfl, rfl, ?_, ?_, ?_, ?_⟩
    · simp only
      rw [store_ne (by omega), h3]
    · simp only; omega
    · simp only; omega
    · simp only; omega
  | step h a ih =>
    obtain ⟨r, h1, h2, h3, h4, h5, h6⟩ := ih
    refine ⟨r, h1, h2, ?_, h4, h5, h6⟩
    simp only [stateStep]
    rw [store_ne h4, h3]

theorem ireach_access {E : Env S O A} {ac : Access S X} {d0 d : IDom S O X} (h0 : d0.initState = none) (h : IReach E (some ac) d0 d) :
    d.initEnv = .saved (ac.get (E.reset (d0.heap d0.env)).2) ∧
      d.initState = some ⟨(E.reset (d0.heap d0.env)).1, .saved (ac.get (E.reset (d0.heap d0.env)).2)⟩ := by
  induction h with
  | first e =>
    simp only [stateReset, h0, Except.ok.injEq, Prod.mk.injEq] at e
    obtain ⟨-, rfl⟩ := e
    exact ⟨rfl, rfl⟩
  | reset h e ih =>
    obtain ⟨h1, h2⟩ := ih
    simp only [stateReset, h2, h1, restore, Except.ok.injEq, Prod.mk.injEq] at e
    obtain ⟨-, rfl⟩ := e
    exact ⟨rfl, rfl⟩
  | step h a ih => exact ih

end Verif.GymEnv
