import Verif.Lemmas.Binding
import Mathlib.Data.List.Perm.Subperm

/-! Complete projects and the problems that describe the same project. -/
namespace Verif.Binding
open Verif.Rcpsp (Problem Capacity capOf load total runsAt NeedTable Instance)
open Verif.Sched (sadd Dom Policy Plan needOf Ordinary)

/-- What the project says a task needs in a mode. -/
def Project.need? (P : Project) (x k : Nat) : Option (Dict String Int) := (P.modes.get? x).bind fun d => d.get? k

/-- How long the project says a task lasts in a mode. -/
def Project.dur? (P : Project) (x k : Nat) : Option Nat := (P.durations.get? x).bind fun d => d.get? k

/-- The mode of an activity of a problem. -/
def mode? (pb : Problem) (x k : Nat) : Option Rcpsp.Mode := (pb.modes.get? x).bind fun d => d.get? k

/-- A completely described project: tasks 1 to n (n ≥ 2), every task has a mode 1, every mode has a duration
and a non-negative need for every resource and for nothing else, every resource has a non-negative capacity
and is said to be renewable or not, precedence is between tasks and without cycles. -/
structure Complete (P : Project) : Prop where
  resources : P.resources.Nodup
  caps : ∀ r ∈ P.resources, ∃ c, P.avail.get? r = some c ∧ 0 ≤ c
  renewable : P.renewable.keys.Nodup ∧ ∀ r, r ∈ P.renewable.keys ↔ r ∈ P.resources
  tasks : P.tasks.Nodup
  numbered : ∀ x, x ∈ P.tasks ↔ 1 ≤ x ∧ x ≤ P.tasks.length
  two : 2 ≤ P.tasks.length
  modes : P.modes.keys.Nodup ∧ ∀ x, x ∈ P.modes.keys ↔ x ∈ P.tasks
  first : ∀ x ∈ P.tasks, ∃ d, P.need? x 1 = some d
  inner : ∀ x d, (x, d) ∈ P.modes → d.keys.Nodup
  needs : ∀ x k d, P.need? x k = some d → d.keys.Nodup ∧ (∀ r ∈ P.resources, ∃ n, d.get? r = some n ∧ 0 ≤ n) ∧ ∀ r ∈ d.keys, r ∈ P.resources
  durations : ∀ x k d, P.need? x k = some d → ∃ t, P.dur? x k = some t
  succKeys : P.successors.keys.Nodup ∧ ∀ x, x ∈ P.successors.keys ↔ x ∈ P.tasks
  succs : ∀ a ss, (a, ss) ∈ P.successors → ∀ b ∈ ss, b ∈ P.tasks
  preds : ∀ x ∈ P.tasks, ∀ q, q ∈ (P.preds.get? x).getD [] ↔ ∃ ss, (q, ss) ∈ P.successors ∧ x ∈ ss
  acyclic : ∃ rank : Nat → Nat, ∀ a ss, (a, ss) ∈ P.successors → ∀ b ∈ ss, rank a < rank b

/-- The problem and the project describe the same tasks, precedence, modes and resources. -/
structure Agree (pb : Problem) (P : Project) : Prop where
  resources : pb.resources.keys = P.resources
  caps : ∀ r c, pb.resources.get? r = some c → ∃ v, c = .const v ∧ P.avail.get? r = some v
  renewable : ∀ r ∈ P.resources, P.renewable.get? r = some (!pb.nonRenewable.contains r)
  nonRenewable : ∀ r ∈ pb.nonRenewable, r ∈ P.resources
  size : pb.modes.length = P.tasks.length
  modes : ∀ x k, P.need? x k = (mode? pb x k).map fun m => m.needs.filter fun e => decide (e.1 ∈ P.resources)
  durations : ∀ x k m, mode? pb x k = some m → P.dur? x k = some m.duration
  succKeys : ∀ x, x ∈ pb.successors.keys ↔ x ∈ P.tasks
  preds : ∀ x ∈ P.tasks, ∀ q, q ∈ (P.preds.get? x).getD [] ↔ ∃ ss, (q, ss) ∈ pb.successors ∧ x ∈ ss
  horizon : pb.horizon = P.horizon

/-! ### From a project to a problem -/

theorem modesDo_ok {durations : Dict Nat (Dict Nat Nat)} {t : Nat} : ∀ (l : Dict Nat (Dict String Int)),
    (∀ m needs, (m, needs) ∈ l → ∃ ds d, durations.get? t = some ds ∧ ds.get? m = some d) →
    ∃ r, modesDo durations t l = .ok r ∧ r.keys = l.keys ∧
      (∀ k, r.get? k = (l.get? k).bind fun needs => ((durations.get? t).bind fun ds => ds.get? k).map fun d => ⟨d, needs⟩) := by
  intro l
  induction l with
  | nil => intro _; exact ⟨[], rfl, rfl, fun _ => rfl⟩
  | cons p l ih =>
    obtain ⟨m, needs⟩ := p
    intro h
    obtain ⟨r, hr, hk, hg⟩ := ih fun m n hm => h m n (by simp [hm])
    obtain ⟨ds, d, h1, h2⟩ := h m needs (by simp)
    refine ⟨(m, ⟨d, needs⟩) :: r, ?_, ?_, ?_⟩
    · simp only [modesDo, Dict.get, h1, h2, hr, bind_ok]
      rfl
    · simp only [Dict.keys, List.map_cons] at hk ⊢
      rw [hk]
    · intro k
      simp only [Dict.get?]
      by_cases hmk : m = k
      · subst hmk
        simp [h1, h2]
      · simp only [hmk, if_false]
        exact hg k

theorem detailsDo_ok {durations : Dict Nat (Dict Nat Nat)} : ∀ (l : Dict Nat (Dict Nat (Dict String Int))),
    (∀ t ms, (t, ms) ∈ l → ∀ m needs, (m, needs) ∈ ms → ∃ ds d, durations.get? t = some ds ∧ ds.get? m = some d) →
    ∃ r, detailsDo durations l = .ok r ∧ r.keys = l.keys ∧
      ∀ t, (∀ d, r.get? t = some d → ∃ ms, l.get? t = some ms ∧ d.keys = ms.keys) ∧ ∀ k, ((r.get? t).bind fun d => d.get? k) = ((l.get? t).bind fun ms => ms.get? k).bind
        fun needs => ((durations.get? t).bind fun ds => ds.get? k).map fun d => ⟨d, needs⟩ := by
  intro l
  induction l with
  | nil => intro _; exact ⟨[], rfl, rfl, fun _ => ⟨fun d h => by simp [Dict.get?] at h, fun _ => rfl⟩⟩
  | cons p l ih =>
    obtain ⟨t, ms⟩ := p
    intro h
    obtain ⟨r, hr, hk, hg⟩ := ih fun t ms hm => h t ms (by simp [hm])
    obtain ⟨d, h1, h2, h3⟩ := modesDo_ok ms (h t ms (by simp))
    refine ⟨(t, d) :: r, ?_, ?_, ?_⟩
    · simp only [detailsDo, h1, hr, bind_ok]
      rfl
    · simp only [Dict.keys, List.map_cons] at hk ⊢
      rw [hk]
    · intro x
      simp only [Dict.get?]
      by_cases hx : t = x
      · subst hx
        simp only [if_true]
        refine ⟨fun d' e => ⟨ms, rfl, ?_⟩, fun k => ?_⟩
        · cases e; exact h2
        · simp only [Option.bind_some]
          exact h3 k
      · simp only [hx, if_false]
        exact hg x

theorem resourcesDo_ok {avail : Dict String Int} : ∀ (l : List String), (∀ r ∈ l, ∃ c, avail.get? r = some c) →
    ∃ res, resourcesDo avail l = .ok res ∧ res.keys = l ∧ ∀ r c, res.get? r = some c → ∃ v, c = .const v ∧ avail.get? r = some v := by
  intro l
  induction l with
  | nil => intro _; exact ⟨[], rfl, rfl, fun r c h => by simp [Dict.get?] at h⟩
  | cons r l ih =>
    intro h
    obtain ⟨res, h1, h2, h3⟩ := ih fun r hr => h r (by simp [hr])
    obtain ⟨c, hc⟩ := h r (by simp)
    refine ⟨(r, .const c) :: res, ?_, ?_, ?_⟩
    · simp only [resourcesDo, Dict.get, hc, h1, bind_ok]
      rfl
    · simp only [Dict.keys, List.map_cons] at h2 ⊢
      rw [h2]
    · intro r' c' hg
      simp only [Dict.get?] at hg
      split at hg
      · rename_i e
        subst e
        cases hg
        exact ⟨c, rfl, hc⟩
      · exact h3 r' c' hg

theorem nodup_length_eq {l1 l2 : List Nat} (h1 : l1.Nodup) (h2 : l2.Nodup) (h : ∀ x, x ∈ l1 ↔ x ∈ l2) : l1.length = l2.length :=
  ((List.perm_ext_iff_of_nodup h1 h2).2 h).length_eq

theorem need?_of_mem {P : Project} (hc : Complete P) {x k : Nat} {ms : Dict Nat (Dict String Int)} {d : Dict String Int}
    (h1 : (x, ms) ∈ P.modes) (h2 : (k, d) ∈ ms) : P.need? x k = some d := by
  unfold Project.need?
  rw [Dict.get?_of_mem hc.modes.1 h1]
  exact Dict.get?_of_mem (hc.inner x ms h1) h2

theorem filter_keys_self {d : Dict String Int} {l : List String} (h : ∀ r ∈ d.keys, r ∈ l) :
    (d.filter fun e => decide (e.1 ∈ l)) = d := by
  refine List.filter_eq_self.2 fun e he => ?_
  exact decide_eq_true (h e.1 (List.mem_map.2 ⟨e, he, rfl⟩))

/-- A completely described project is turned into a problem that describes the same project and is well formed. -/
theorem buildDo_agree {P : Project} (hc : Complete P) : ∃ pb, buildDo P = .ok pb ∧ Agree pb P ∧ Instance pb ∧ pb.multiplier = 1 ∧
    (∀ x ∈ pb.modes.keys, x ∈ P.tasks) := by
  obtain ⟨md, h1, h2, h3⟩ := detailsDo_ok (durations := P.durations) P.modes (by
    intro t ms ht m needs hm
    obtain ⟨d, hd⟩ := hc.durations t m needs (need?_of_mem hc ht hm)
    unfold Project.dur? at hd
    cases hg : P.durations.get? t with
    | none => rw [hg] at hd; simp at hd
    | some ds => rw [hg] at hd; exact ⟨ds, d, rfl, hd⟩)
  obtain ⟨res, r1, r2, r3⟩ := resourcesDo_ok (avail := P.avail) P.resources (fun r hr => by
    obtain ⟨c, h, _⟩ := hc.caps r hr; exact ⟨c, h⟩)
  have hlen : md.length = P.tasks.length := by
    have : md.keys.length = P.tasks.length := by
      rw [h2]; exact nodup_length_eq hc.modes.1 hc.tasks hc.modes.2
    simpa [Dict.keys] using this
  have hren : ∀ r ∈ P.resources, P.renewable.get? r = some (!(((P.renewable.filter fun e => !e.2).map (·.1)).contains r)) := by
    intro r hr
    obtain ⟨b, hb⟩ := Option.isSome_iff_exists.1 ((Dict.get?_isSome_iff_mem_keys _ _).2 ((hc.renewable.2 r).2 hr))
    rw [hb]
    congr 1
    have hiff : ((P.renewable.filter fun e => !e.2).map (·.1)).contains r = true ↔ b = false := by
      rw [List.contains_iff_mem, List.mem_map]
      constructor
      · rintro ⟨e, he, rfl⟩
        obtain ⟨he1, he2⟩ := List.mem_filter.1 he
        have := Dict.get?_of_mem hc.renewable.1 (k := e.1) (v := e.2) he1
        rw [hb] at this
        rw [Option.some.inj this]
        simpa using he2
      · rintro rfl
        exact ⟨(r, false), List.mem_filter.2 ⟨Dict.mem_of_get? hb, rfl⟩, rfl⟩
    cases b
    · rw [hiff.2 rfl]; rfl
    · cases hx : ((P.renewable.filter fun e => !e.2).map (·.1)).contains r
      · rfl
      · simpa using hiff.1 hx
  refine ⟨⟨res, (P.renewable.filter fun e => !e.2).map (·.1), md, P.successors, P.horizon, 1⟩, ?_, ?_, ?_, rfl, ?_⟩
  · unfold buildDo
    rw [h1, bind_ok, r1, bind_ok]
    rfl
  · refine ⟨r2, r3, hren, ?_, hlen, ?_, ?_, hc.succKeys.2, hc.preds, rfl⟩
    · intro r hr
      obtain ⟨e, he, rfl⟩ := List.mem_map.1 hr
      exact (hc.renewable.2 e.1).1 (List.mem_map.2 ⟨e, (List.mem_filter.1 he).1, rfl⟩)
    · intro x k
      unfold mode?
      rw [(h3 x).2 k]
      cases hn : P.need? x k with
      | none =>
        unfold Project.need? at hn
        rw [hn]; rfl
      | some d =>
        obtain ⟨t, ht⟩ := hc.durations x k d hn
        have hn' := hn
        unfold Project.need? at hn'
        unfold Project.dur? at ht
        rw [hn', ht]
        simp only [Option.bind_some, Option.map_some, Option.some.injEq]
        exact (filter_keys_self (hc.needs x k d hn).2.2).symm
    · intro x k m hm
      unfold mode? at hm
      rw [(h3 x).2 k] at hm
      obtain ⟨d, hd1, hd2⟩ := Option.bind_eq_some_iff.1 hm
      obtain ⟨t, ht1, ht2⟩ := Option.map_eq_some_iff.1 hd2
      unfold Project.dur?
      rw [ht1, ← ht2]
  · refine ⟨by rw [hlen]; exact hc.two, ?_, by rw [r2]; exact hc.resources, ?_, ?_, hc.acyclic⟩
    · intro a ha1 ha2
      have ha2 : a ≤ md.length := ha2
      have hat : a ∈ P.tasks := (hc.numbered a).2 ⟨ha1, by omega⟩
      have hmk : a ∈ md.keys := by rw [h2]; exact (hc.modes.2 a).2 hat
      obtain ⟨d, hd⟩ := Option.isSome_iff_exists.1 ((Dict.get?_isSome_iff_mem_keys _ _).2 hmk)
      refine ⟨d, hd, ?_, ?_⟩
      · obtain ⟨ms, hms, hk⟩ := (h3 a).1 d hd
        rw [hk]
        obtain ⟨d1, hd1⟩ := hc.first a hat
        unfold Project.need? at hd1
        rw [hms] at hd1
        exact (Dict.get?_isSome_iff_mem_keys _ _).1 (by rw [show ms.get? 1 = some d1 from hd1]; rfl)
      · intro k m hm r hr
        have hr : r ∈ P.resources := by rw [← r2]; exact hr
        have := (h3 a).2 k
        rw [hd] at this
        simp only [Option.bind_some] at this
        rw [hm] at this
        obtain ⟨needs, g1, g2⟩ := Option.bind_eq_some_iff.1 this.symm
        obtain ⟨t, _, g3⟩ := Option.map_eq_some_iff.1 g2
        subst g3
        obtain ⟨n, hn, _⟩ := (hc.needs a k needs g1).2.1 r hr
        exact ⟨n, hn⟩
    · intro r c hrc t _
      obtain ⟨v, rfl, _⟩ := r3 r c hrc
      exact ⟨v, rfl⟩
    · refine ⟨hc.succKeys.1, fun a => ?_, fun a ss h b hb => ?_⟩
      · show a ∈ P.successors.keys ↔ 1 ≤ a ∧ a ≤ md.length
        rw [hc.succKeys.2, hc.numbered, hlen]
      · show 1 ≤ b ∧ b ≤ md.length
        rw [hlen]
        exact (hc.numbered b).1 (hc.succs a ss h b hb)
  · intro x hx
    have hx : x ∈ md.keys := hx
    rw [h2] at hx
    exact (hc.modes.2 x).1 hx

end Verif.Binding
