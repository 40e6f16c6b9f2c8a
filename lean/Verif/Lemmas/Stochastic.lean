import Verif.Model.Stochastic
import Verif.Lemmas.BindingPlan
import Verif.Props.Durations

/-! Lemmas about random durations and projects drawn. -/
namespace Verif.Binding
open Verif.Durations (intRange mem_intRange)

theorem noisyModes_ok {noise : Bool} {ds : Dict Nat Nat} : ∀ (l : List Nat), (∀ m ∈ l, m ∈ ds.keys) →
    ∃ r, noisyModes noise ds l = .ok r ∧ r.keys = l ∧ ∀ m ∈ l, r.get? m = (ds.get? m).map (noisy noise) := by
  intro l
  induction l with
  | nil => intro _; exact ⟨[], rfl, rfl, fun m hm => by simp at hm⟩
  | cons m l ih =>
    intro h
    obtain ⟨d, hd⟩ := Option.isSome_iff_exists.1 ((Dict.get?_isSome_iff_mem_keys _ _).2 (h m (by simp)))
    obtain ⟨r, h1, h2, h3⟩ := ih fun x hx => h x (by simp [hx])
    refine ⟨(m, noisy noise d) :: r, ?_, by simp [Dict.keys, ← h2], ?_⟩
    · simp only [noisyModes, Dict.get, hd, bind_ok, h1]; rfl
    · intro x hx
      simp only [Dict.get?]
      split
      · rename_i e; subst e; rw [hd]; rfl
      · rename_i hne
        rcases List.mem_cons.1 hx with e | e
        · exact absurd e.symm hne
        · exact h3 x e

theorem noisyTasks_ok {P : Project} (hc : Complete P) {noise : Option (List Nat)} : ∀ (l : List Nat), (∀ t ∈ l, t ∈ P.tasks) →
    ∃ r, noisyTasks P noise l = .ok r ∧ r.keys = l ∧
      ∀ t ∈ l, ∀ k needs, P.need? t k = some needs → ((Dict.get? r t).bind fun d => d.get? k) = (P.dur? t k).map (noisy (gets noise t)) := by
  intro l
  induction l with
  | nil => intro _; exact ⟨[], rfl, rfl, fun m hm => by simp at hm⟩
  | cons t l ih =>
    intro h
    obtain ⟨ms, hms⟩ := Option.isSome_iff_exists.1 ((Dict.get?_isSome_iff_mem_keys _ _).2 ((hc.modes.2 t).2 (h t (by simp))))
    obtain ⟨n1, hn1⟩ := hc.first t (h t (by simp))
    obtain ⟨d1, hd1⟩ := hc.durations t 1 n1 hn1
    obtain ⟨ds, hds, _⟩ := Option.bind_eq_some_iff.1 hd1
    obtain ⟨dm, k1, k2, k3⟩ := noisyModes_ok (noise := gets noise t) (ds := ds) ms.keys (fun m hm => by
      obtain ⟨nd, hnd⟩ := Option.isSome_iff_exists.1 ((Dict.get?_isSome_iff_mem_keys _ _).2 hm)
      obtain ⟨d, hd⟩ := hc.durations t m nd (by unfold Project.need?; rw [hms]; exact hnd)
      unfold Project.dur? at hd
      rw [hds, Option.bind_some] at hd
      exact (Dict.get?_isSome_iff_mem_keys _ _).1 (by rw [hd]; rfl))
    obtain ⟨r, h1, h2, h3⟩ := ih fun x hx => h x (by simp [hx])
    refine ⟨(t, dm) :: r, ?_, by simp [Dict.keys, ← h2], ?_⟩
    · simp only [noisyTasks, Dict.get, hms, hds, bind_ok, h1, k1]
      rfl
    · intro x hx k needs hk
      simp only [Dict.get?]
      split
      · rename_i e; subst e
        have hmem : k ∈ ms.keys := by
          unfold Project.need? at hk
          rw [hms, Option.bind_some] at hk
          exact (Dict.get?_isSome_iff_mem_keys _ _).1 (by rw [hk]; rfl)
        rw [Option.bind_some, k3 k hmem]
        unfold Project.dur?
        rw [hds, Option.bind_some]
      · rename_i hne
        rcases List.mem_cons.1 hx with e | e
        · exact absurd e.symm hne
        · exact h3 x e k needs hk

/-- The distribution of a task in a mode. -/
def Stochastic.dist? (S : Stochastic) (t k : Nat) : Option (List (Nat × Rat)) := (S.dist.get? t).bind fun d => d.get? k

theorem drawModes_ok {S : Stochastic} {draw : Nat → Nat → Nat} {t : Nat} : ∀ (l : Dict Nat (Dict String Int)),
    (∀ m needs, (m, needs) ∈ l → ∃ d, S.sample draw t m = .ok d) →
    ∃ r, drawModes S draw t l = .ok r ∧ r.keys = l.keys ∧
      ∀ k, Dict.get? r k = (l.get? k).bind fun needs => match S.sample draw t k with | .ok d => some ⟨d, needs⟩ | .error _ => none := by
  intro l
  induction l with
  | nil => intro _; exact ⟨[], rfl, rfl, fun _ => rfl⟩
  | cons p l ih =>
    obtain ⟨m, needs⟩ := p
    intro h
    obtain ⟨d, hd⟩ := h m needs (by simp)
    obtain ⟨r, h1, h2, h3⟩ := ih fun x n hx => h x n (by simp [hx])
    refine ⟨(m, ⟨d, needs⟩) :: r, ?_, by simp only [Dict.keys, List.map_cons] at h2 ⊢; rw [h2], ?_⟩
    · simp only [drawModes, hd, bind_ok, h1]; rfl
    · intro k
      simp only [Dict.get?]
      split
      · rename_i e; subst e; simp [hd]
      · exact h3 k

theorem drawTasks_ok {S : Stochastic} {draw : Nat → Nat → Nat} : ∀ (l : Dict Nat (Dict Nat (Dict String Int))),
    (∀ t ms, (t, ms) ∈ l → ∀ m needs, (m, needs) ∈ ms → ∃ d, S.sample draw t m = .ok d) →
    ∃ r, drawTasks S draw l = .ok r ∧ r.keys = l.keys ∧
      ∀ t k, ((Dict.get? r t).bind fun d => d.get? k) =
        ((Dict.get? l t).bind fun d => d.get? k).bind fun needs => match S.sample draw t k with | .ok d => some ⟨d, needs⟩ | .error _ => none := by
  intro l
  induction l with
  | nil => intro _; exact ⟨[], rfl, rfl, fun _ _ => rfl⟩
  | cons p l ih =>
    obtain ⟨t, ms⟩ := p
    intro h
    obtain ⟨d, hd, hd2, hd3⟩ := drawModes_ok ms (h t ms (by simp))
    obtain ⟨r, h1, h2, h3⟩ := ih fun x n hx => h x n (by simp [hx])
    refine ⟨(t, d) :: r, ?_, by simp only [Dict.keys, List.map_cons] at h2 ⊢; rw [h2], ?_⟩
    · simp only [drawTasks, hd, bind_ok, h1]; rfl
    · intro x k
      simp only [Dict.get?]
      split
      · rename_i e; subst e
        rw [Option.bind_some, Option.bind_some, hd3 k]
      · exact h3 x k

theorem keys_drawModes {S : Stochastic} {draw : Nat → Nat → Nat} {t : Nat} : ∀ (l : Dict Nat (Dict String Int)) {r},
    drawModes S draw t l = .ok r → r.map (fun e => (e.1, e.2.needs)) = l := by
  intro l
  induction l with
  | nil => intro r h; cases h; rfl
  | cons p l ih =>
    obtain ⟨m, needs⟩ := p
    intro r h
    simp only [drawModes] at h
    obtain ⟨d, _, h⟩ := (bind_eq_ok ..).1 h
    obtain ⟨q, hq, h⟩ := (bind_eq_ok ..).1 h
    cases h
    simp only [List.map_cons, ih hq]

theorem keys_drawTasks {S : Stochastic} {draw : Nat → Nat → Nat} : ∀ (l : Dict Nat (Dict Nat (Dict String Int))) {r},
    drawTasks S draw l = .ok r → r.map (fun e => (e.1, e.2.map fun q => (q.1, q.2.needs))) = l := by
  intro l
  induction l with
  | nil => intro r h; cases h; rfl
  | cons p l ih =>
    obtain ⟨m, needs⟩ := p
    intro r h
    simp only [drawTasks] at h
    obtain ⟨d, hd, h⟩ := (bind_eq_ok ..).1 h
    obtain ⟨q, hq, h⟩ := (bind_eq_ok ..).1 h
    cases h
    simp only [List.map_cons, ih hq, keys_drawModes _ hd]

theorem amounts_ok {avail : Dict String Int} : ∀ (l : List String), (∀ r ∈ l, ∃ c, avail.get? r = some c) →
    ∃ d, amounts avail l = .ok d ∧ ∀ r ∈ l, d.get? r = avail.get? r := by
  intro l
  induction l with
  | nil => intro _; exact ⟨[], rfl, fun r hr => by simp at hr⟩
  | cons x l ih =>
    intro h
    obtain ⟨c, hc⟩ := h x (by simp)
    obtain ⟨d, h1, h2⟩ := ih fun r hr => h r (by simp [hr])
    refine ⟨(x, c) :: d, ?_, ?_⟩
    · simp only [amounts, Dict.get, hc, bind_ok, h1]; rfl
    · intro r hr
      simp only [Dict.get?]
      split
      · rename_i e; subst e; rw [hc]
      · rename_i hne
        rcases List.mem_cons.1 hr with e | e
        · exact absurd e.symm hne
        · exact h2 r e

theorem noisy_pos (b : Bool) (d : Nat) : 0 < (noisy b d).length := by
  unfold noisy
  split
  · simp
  · simp [intRange]

theorem noisyModes_pos {b : Bool} {ds : Dict Nat Nat} : ∀ (l : List Nat) {r}, noisyModes b ds l = .ok r → ∀ m v, Dict.get? r m = some v → 0 < v.length := by
  intro l
  induction l with
  | nil => intro r h; cases h; intro m v hv; cases hv
  | cons x l ih =>
    intro r h m v hv
    simp only [noisyModes] at h
    obtain ⟨d, _, h⟩ := (bind_eq_ok ..).1 h
    obtain ⟨q, hq, h⟩ := (bind_eq_ok ..).1 h
    cases h
    simp only [Dict.get?] at hv
    split at hv
    · cases hv; exact noisy_pos _ _
    · exact ih hq m v hv

theorem noisyTasks_pos {P : Project} {noise : Option (List Nat)} : ∀ {l : List Nat} {r}, noisyTasks P noise l = .ok r →
    ∀ {t k v}, ((Dict.get? r t).bind fun d => d.get? k) = some v → 0 < v.length := by
  intro l
  induction l with
  | nil => intro r h; cases h; intro t k v hv; cases hv
  | cons x l ih =>
    intro r h t k v hv
    simp only [noisyTasks] at h
    obtain ⟨ms, _, h⟩ := (bind_eq_ok ..).1 h
    obtain ⟨ds, _, h⟩ := (bind_eq_ok ..).1 h
    obtain ⟨d, hd, h⟩ := (bind_eq_ok ..).1 h
    obtain ⟨q, hq, h⟩ := (bind_eq_ok ..).1 h
    cases h
    simp only [Dict.get?] at hv
    split at hv
    · exact noisyModes_pos _ hd k v hv
    · exact ih hq hv

theorem sum_filter_le (l : List Nat) (p : Nat → Bool) (f : Nat → Int) (h : ∀ x ∈ l, 0 ≤ f x) :
    ((l.filter p).map f).sum ≤ (l.map f).sum := by
  induction l with
  | nil => simp
  | cons x l ih =>
    have := ih fun y hy => h y (by simp [hy])
    have h0 := h x (by simp)
    by_cases hp : p x
    · simp only [List.filter_cons, hp, if_true, List.map_cons, List.sum_cons]; omega
    · simp only [List.filter_cons, hp, Bool.false_eq_true, if_false, List.map_cons, List.sum_cons]; omega

end Verif.Binding
