import Mathlib.Data.List.Nodup
import Mathlib.Algebra.Order.Ring.Rat
import Mathlib.Algebra.BigOperators.Group.List.Basic
import Verif.Model.MsLp
import Verif.Lemmas.Milp
import Verif.Props.MultiSkillCheck
/- The program for multi-skill project scheduling: which assignments are feasible. -/
namespace Verif.MsLp
open Verif.Milp Verif.MultiSkill
open Verif.Rcpsp (Mode total dict_get_ok)

/-- The dictionaries have distinct keys, and the successors are listed for the tasks. -/
structure Wf (pb : Problem) : Prop where
  dicts : Dicts pb
  tasks : pb.modes.keys.Nodup
  modes : ∀ k d, pb.modes.get? k = some d → d.keys.Nodup
  succ : pb.successors.keys.Nodup ∧ ∀ k, k ∈ pb.successors.keys ↔ k ∈ pb.modes.keys

/-- Worker `e` can be used for skill `s` of a task in this mode. -/
def Fits (pb : Problem) (e k m : Nat) (s : String) : Prop :=
  0 < levelOf pb e s ∧ s ∈ pb.skills ∧ ∃ n, (theMode pb k m).needs.get? s = some n ∧ 0 < n

theorem mapE_mem {α β : Type} {f : α → Except PyErr β} {l : List α} {ys : List β} (h : mapE f l = .ok ys) :
    (∀ y, y ∈ ys ↔ ∃ x, x ∈ l ∧ f x = .ok y) ∧ ∀ x, x ∈ l → ∃ y, f x = .ok y := by
  induction l generalizing ys with
  | nil => cases h; simp
  | cons x l ih =>
    unfold mapE at h
    obtain ⟨y, hy, h⟩ := (bind_eq_ok ..).1 h
    obtain ⟨zs, hz, h⟩ := (bind_eq_ok ..).1 h
    cases h
    obtain ⟨h1, h2⟩ := ih hz
    constructor
    · intro w
      simp only [List.mem_cons, h1]
      constructor
      · rintro (rfl | ⟨x', hx', e⟩)
        · exact ⟨x, .inl rfl, hy⟩
        · exact ⟨x', .inr hx', e⟩
      · rintro ⟨x', rfl | hx', e⟩
        · rw [hy] at e; cases e; exact .inl rfl
        · exact .inr ⟨x', hx', e⟩
    · intro x' hx'
      rcases List.mem_cons.1 hx' with rfl | hx'
      · exact ⟨y, hy⟩
      · exact h2 x' hx'

theorem modesOf_nodup {pb : Problem} (w : Wf pb) (k : Nat) : (modesOf pb k).keys.Nodup := by
  unfold modesOf
  cases hg : pb.modes.get? k with
  | none => simp [Dict.keys]
  | some d => exact w.modes k d hg

theorem modesOf_get {pb : Problem} {k : Nat} (hk : k ∈ pb.modes.keys) : pb.modes.get? k = some (modesOf pb k) := by
  rw [← Dict.get?_isSome_iff_mem_keys] at hk
  unfold modesOf
  cases hg : pb.modes.get? k with
  | none => rw [hg] at hk; simp at hk
  | some d => rfl

theorem theMode_get {pb : Problem} {k m : Nat} (hm : m ∈ (modesOf pb k).keys) : (modesOf pb k).get? m = some (theMode pb k m) := by
  rw [← Dict.get?_isSome_iff_mem_keys] at hm
  unfold theMode
  cases hg : (modesOf pb k).get? m with
  | none => rw [hg] at hm; simp at hm
  | some d => rfl

theorem task_of_mode {pb : Problem} {k m : Nat} (hm : m ∈ (modesOf pb k).keys) : k ∈ pb.modes.keys := by
  rw [← Dict.get?_isSome_iff_mem_keys]
  unfold modesOf at hm
  cases hg : pb.modes.get? k with
  | none => rw [hg] at hm; simp [Dict.keys] at hm
  | some d => rfl

theorem needs_nodup {pb : Problem} (w : Wf pb) {k m : Nat} (hm : m ∈ (modesOf pb k).keys) : (theMode pb k m).needs.keys.Nodup :=
  w.dicts.needs k _ m _ (modesOf_get (task_of_mode hm)) (theMode_get hm)

theorem mem_slots {pb : Problem} {T k : Nat} {q : Nat × Nat} : q ∈ slots pb T k ↔ q.1 ∈ (modesOf pb k).keys ∧ q.2 < T := by
  obtain ⟨m, t⟩ := q
  simp only [slots, List.mem_flatMap, List.mem_map, List.mem_range, Prod.mk.injEq]
  constructor
  · rintro ⟨m', hm, t', ht, rfl, rfl⟩; exact ⟨hm, ht⟩
  · rintro ⟨hm, ht⟩; exact ⟨m, hm, t, ht, rfl, rfl⟩

theorem slots_nodup {pb : Problem} (w : Wf pb) (T k : Nat) : (slots pb T k).Nodup := by
  unfold slots
  rw [List.nodup_flatMap]
  constructor
  · intro m _
    refine List.Nodup.map ?_ List.nodup_range
    intro a b h; simpa using h
  · refine List.Pairwise.imp ?_ (modesOf_nodup w k)
    intro m m' hne
    simp only [Function.onFun, List.disjoint_left, List.mem_map, List.mem_range]
    rintro q ⟨t, _, rfl⟩ ⟨t', _, h⟩
    simp only [Prod.mk.injEq] at h
    exact hne h.1.symm

theorem mem_required_keys {pb : Problem} {m : Mode} (hn : m.needs.keys.Nodup) {s : String} :
    s ∈ (required pb m).keys ↔ s ∈ pb.skills ∧ ∃ n, m.needs.get? s = some n ∧ 0 < n := by
  unfold Dict.keys
  rw [List.mem_map]
  constructor
  · rintro ⟨⟨s', n⟩, h, rfl⟩
    obtain ⟨h1, h2, h3⟩ := (required_iff hn _ _).1 h
    exact ⟨h1, n, h2, h3⟩
  · rintro ⟨h1, n, h2, h3⟩
    exact ⟨(s, n), (required_iff hn _ _).2 ⟨h1, h2, h3⟩, rfl⟩

theorem levelOf_eq {pb : Problem} {e : Nat} {emp : Employee} (h : pb.employees.get? e = some emp) (s : String) :
    levelOf pb e s = (emp.skills.get? s).getD 0 := by
  unfold levelOf; rw [h]; rfl

theorem emp_of_level {pb : Problem} {e : Nat} {s : String} (h : 0 < levelOf pb e s) : ∃ emp, pb.employees.get? e = some emp := by
  unfold levelOf at h
  cases hg : pb.employees.get? e with
  | none => rw [hg] at h; exact absurd h (lt_irrefl _)
  | some emp => exact ⟨emp, rfl⟩

theorem mem_uses {pb : Problem} (w : Wf pb) {T : Nat} {x : Use} :
    x ∈ uses pb T ↔ x.mode ∈ (modesOf pb x.task).keys ∧ x.time < T ∧ Fits pb x.emp x.task x.mode x.skill := by
  obtain ⟨e, k, m, t, s⟩ := x
  simp only [uses, List.mem_flatMap, List.mem_map, List.mem_range, skillsFor, List.mem_filter, decide_eq_true_eq, Use.mk.injEq, mem_tasks]
  constructor
  · rintro ⟨⟨e', emp⟩, he, k', hk, ⟨m', md⟩, hm, s', ⟨hs, hl⟩, t', ht, rfl, rfl, rfl, rfl, rfl⟩
    have hm' : m' ∈ (modesOf pb k').keys := List.mem_map.2 ⟨_, hm, rfl⟩
    have hg := Dict.get?_of_mem (modesOf_nodup w k') hm
    rw [theMode_get hm'] at hg
    cases hg
    have := (mem_required_keys (needs_nodup w hm')).1 hs
    refine ⟨hm', ht, ?_, this⟩
    rw [levelOf_eq (Dict.get?_of_mem w.dicts.employees he)]; exact hl
  · rintro ⟨hm, ht, hl, hs⟩
    obtain ⟨emp, he⟩ := emp_of_level hl
    rw [levelOf_eq he] at hl
    exact ⟨(e, emp), Dict.mem_of_get? he, k, task_of_mode hm, (m, theMode pb k m), Dict.mem_of_get? (theMode_get hm), s,
      ⟨(mem_required_keys (needs_nodup w hm)).2 hs, hl⟩, t, ht, rfl, rfl, rfl, rfl, rfl⟩

theorem required_nodup {pb : Problem} {m : Mode} (hn : m.needs.keys.Nodup) : (required pb m).keys.Nodup :=
  hn.sublist (List.Sublist.map _ List.filter_sublist)

theorem nodup_of_keys {κ α : Type} {d : Dict κ α} (h : d.keys.Nodup) : List.Pairwise (fun p q : κ × α => p.1 ≠ q.1) d :=
  List.pairwise_map.1 h

theorem uses_nodup {pb : Problem} (w : Wf pb) (T : Nat) : (uses pb T).Nodup := by
  unfold uses
  rw [List.nodup_flatMap]
  constructor
  · rintro ⟨e, emp⟩ _
    rw [List.nodup_flatMap]
    constructor
    · intro k _
      rw [List.nodup_flatMap]
      constructor
      · rintro ⟨m, md⟩ hm
        rw [List.nodup_flatMap]
        constructor
        · intro s _
          refine List.Nodup.map ?_ List.nodup_range
          intro a b h; simpa using h
        · have hm' : m ∈ (modesOf pb k).keys := List.mem_map.2 ⟨_, hm, rfl⟩
          have hg := Dict.get?_of_mem (modesOf_nodup w k) hm
          rw [theMode_get hm'] at hg
          cases hg
          refine List.Pairwise.imp ?_ ((required_nodup (pb := pb) (needs_nodup w hm')).sublist List.filter_sublist)
          intro s s' hne
          simp only [Function.onFun, List.disjoint_left, List.mem_map, List.mem_range]
          rintro q ⟨t, _, rfl⟩ ⟨t', _, h⟩
          simp only [Use.mk.injEq] at h
          exact hne h.2.2.2.2.symm
      · refine List.Pairwise.imp ?_ (nodup_of_keys (modesOf_nodup w k))
        intro q q' hne
        simp only [Function.onFun, List.disjoint_left, List.mem_flatMap, List.mem_map, List.mem_range]
        rintro x ⟨s, _, t, _, rfl⟩ ⟨s', _, t', _, h⟩
        simp only [Use.mk.injEq] at h
        exact hne h.2.2.1.symm
    · refine List.Pairwise.imp ?_ ((tasks_perm pb).nodup_iff.2 w.tasks)
      intro q q' hne
      simp only [Function.onFun, List.disjoint_left, List.mem_flatMap, List.mem_map, List.mem_range]
      rintro x ⟨m, _, s, _, t, _, rfl⟩ ⟨m', _, s', _, t', _, h⟩
      simp only [Use.mk.injEq] at h
      exact hne h.2.1.symm
  · refine List.Pairwise.imp ?_ (nodup_of_keys w.dicts.employees)
    intro q q' hne
    simp only [Function.onFun, List.disjoint_left, List.mem_flatMap, List.mem_map, List.mem_range]
    rintro x ⟨k, _, m, _, s, _, t, _, rfl⟩ ⟨k', _, m', _, s', _, t', _, h⟩
    simp only [Use.mk.injEq] at h
    exact hne h.1.symm

/-- The requirement of mode `m` of task `k`. -/
def needIn (pb : Problem) (r : String) (k m : Nat) : Int := ((theMode pb k m).needs.get? r).getD 0

/-- The requirements are listed where they are looked up, and the terms are as they should be. -/
theorem needTerms_eq {pb : Problem} {T : Nat} {r : String} {f : Nat → Nat × Nat → Bool} {ts : Lin Var} (h : needTerms pb T r f = .ok ts) :
    ts = pb.modes.keys.flatMap (fun k => ((slots pb T k).filter (f k)).map (fun q => (needIn pb r k q.1, Var.start k q.1 q.2))) := by
  unfold needTerms at h
  obtain ⟨zs, hz, h⟩ := (bind_eq_ok ..).1 h
  cases h
  rw [List.flatMap_def]
  refine congrArg _ (mapE_inv ?_ hz).1
  intro k y hy
  refine (mapE_inv ?_ hy).1
  intro q y hy
  obtain ⟨n, hn, hy⟩ := (bind_eq_ok ..).1 hy
  cases hy
  unfold needIn
  rw [dict_get_ok.1 hn]; rfl

/-- What a built program consists of. -/
structure Built (pb : Problem) (p : Prog) (D : Nat) : Prop where
  max : maxDuration pb = .ok D
  nonRenewable : ∀ r, r ∈ pb.nonRenewable → ∃ row c, pb.resources.get? r = some row ∧ row[0]? = some c
  succ : ∀ k, k ∈ pb.modes.keys → ∃ ss, pb.successors.get? k = some ss ∧ ∀ s, s ∈ ss → s ∈ pb.modes.keys
  cal : ∀ x, x ∈ uses pb (D + 1) → ∃ e b, pb.employees.get? x.emp = some e ∧ allTrue e.calendar (durOf pb x.task x.mode) x.time = .ok b
  cap : ∀ r row, pb.resources.get? r = some row → r ∉ pb.nonRenewable → ∀ t, t ≤ D → ∃ c, row[t]? = some c
  objective : ∃ last, last ∈ pb.modes.keys ∧ (∀ k, k ∈ pb.modes.keys → k ≤ last) ∧ p.base.objective = [(1, .startT last)]
  feasible : ∀ a, p.Feasible a ↔ (∀ v k, (v, k) ∈ vars pb (D + 1) → k.Allows (a v)) ∧ (∀ r, r ∈ taskRows pb (D + 1) → r.Holds a) ∧
    (∀ x, x ∈ uses pb (D + 1) → ∀ rs, useRows pb x = .ok rs → ∀ r, r ∈ rs → r.Holds a) ∧
    (∀ e t, t ≤ D → (busyRow pb (uses pb (D + 1)) (e, t)).Holds a) ∧
    (∀ r row c t, pb.resources.get? r = some row → r ∉ pb.nonRenewable → t ≤ D → row[t]? = some c →
      Row.Holds ⟨pb.modes.keys.flatMap (fun k => ((slots pb (D + 1) k).filter (fun q => covers q.2 t (durOf pb k q.1))).map
        (fun q => (needIn pb r k q.1, Var.start k q.1 q.2))), .le, c⟩ a) ∧
    (∀ r row c, r ∈ pb.nonRenewable → pb.resources.get? r = some row → row[0]? = some c →
      Row.Holds ⟨pb.modes.keys.flatMap (fun k => (slots pb (D + 1) k).map (fun q => (needIn pb r k q.1, Var.start k q.1 q.2))), .le, c⟩ a) ∧
    (∀ k ss s, pb.successors.get? k = some ss → k ∈ pb.modes.keys → s ∈ ss → Row.Holds ⟨[(1, Var.startT s), (-1, .endT k)], .ge, 0⟩ a) ∧
    (∀ q, q ∈ taskSkills pb → 0 ≤ (skillRow pb (uses pb (D + 1)) q).value a)

theorem pyGet_ok {α : Type} {l : List α} {i : Nat} {x : α} : pyGet l i = .ok x ↔ l[i]? = some x := by
  unfold pyGet; cases l[i]? <;> simp

theorem foldl_max_spec (l : List Nat) : ∀ x, x ≤ l.foldl max x ∧ (∀ y, y ∈ l → y ≤ l.foldl max x) ∧ (l.foldl max x = x ∨ l.foldl max x ∈ l) := by
  induction l with
  | nil => intro x; simp
  | cons y l ih =>
    intro x
    obtain ⟨h1, h2, h3⟩ := ih (max x y)
    rw [List.foldl_cons]
    refine ⟨by omega, ?_, ?_⟩
    · intro z hz
      rcases List.mem_cons.1 hz with rfl | hz
      · omega
      · exact h2 z hz
    · rcases h3 with h3 | h3
      · rw [h3]
        rcases Nat.le_total x y with h | h
        · exact .inr (by rw [Nat.max_eq_right h]; simp)
        · exact .inl (by rw [Nat.max_eq_left h])
      · exact .inr (List.mem_cons_of_mem _ h3)

theorem maxOf_ok {l : List Nat} {x : Nat} (h : maxOf l = .ok x) : x ∈ l ∧ ∀ y, y ∈ l → y ≤ x := by
  cases l with
  | nil => cases h
  | cons z l =>
    simp only [maxOf, Except.ok.injEq] at h
    subst h
    obtain ⟨h1, h2, h3⟩ := foldl_max_spec l z
    refine ⟨?_, ?_⟩
    · rcases h3 with h3 | h3
      · rw [h3]; simp
      · exact List.mem_cons_of_mem _ h3
    · intro y hy
      rcases List.mem_cons.1 hy with rfl | hy
      · exact h1
      · exact h2 y hy

theorem covers_iff {s t d : Nat} : covers s t d = true ↔ s ≤ t ∧ t < s + d := by
  simp [covers]

theorem built {pb : Problem} (w : Wf pb) {p : Prog} (hb : build pb = .ok p) : ∃ D, Built pb p D := by
  unfold build at hb
  obtain ⟨D, hD, hb⟩ := (bind_eq_ok ..).1 hb
  obtain ⟨nrl, hnr, hb⟩ := (bind_eq_ok ..).1 hb
  obtain ⟨es, hes, hb⟩ := (bind_eq_ok ..).1 hb
  obtain ⟨ur, hur, hb⟩ := (bind_eq_ok ..).1 hb
  obtain ⟨rr, hrr, hb⟩ := (bind_eq_ok ..).1 hb
  obtain ⟨nr, hnrr, hb⟩ := (bind_eq_ok ..).1 hb
  obtain ⟨pr, hpr, hb⟩ := (bind_eq_ok ..).1 hb
  obtain ⟨last, hlast, hb⟩ := (bind_eq_ok ..).1 hb
  cases hb
  unfold edges at hes
  obtain ⟨es', hes', hes⟩ := (bind_eq_ok ..).1 hes
  cases hes
  obtain ⟨ur1, ur2⟩ := mapE_mem hur
  obtain ⟨rr1, rr2⟩ := mapE_mem hrr
  obtain ⟨nr1, nr2⟩ := mapE_mem hnrr
  obtain ⟨pr1, pr2⟩ := mapE_mem hpr
  obtain ⟨es1, es2⟩ := mapE_mem hes'
  have hed : ∀ k ss s, pb.successors.get? k = some ss → k ∈ pb.modes.keys → s ∈ ss → (k, s) ∈ es'.flatten := by
    intro k ss s h1 h2 h3
    refine List.mem_flatten.2 ⟨ss.map (fun s => (k, s)), (es1 _).2 ⟨k, mem_tasks.2 h2, ?_⟩, List.mem_map.2 ⟨s, h3, rfl⟩⟩
    rw [dict_get_ok.2 h1, bind_ok]
  have hed' : ∀ q, q ∈ es'.flatten → ∃ ss, pb.successors.get? q.1 = some ss ∧ q.1 ∈ pb.modes.keys ∧ q.2 ∈ ss := by
    intro q hq
    obtain ⟨l, hl, hq⟩ := List.mem_flatten.1 hq
    obtain ⟨k, hk, hkl⟩ := (es1 l).1 hl
    obtain ⟨ss, hss, hkl⟩ := (bind_eq_ok ..).1 hkl
    cases hkl
    obtain ⟨s, hs, rfl⟩ := List.mem_map.1 hq
    exact ⟨ss, dict_get_ok.1 hss, mem_tasks.1 hk, hs⟩
  have hrt : ∀ r t, (r, t) ∈ (renewables pb).flatMap (fun r => (List.range (D + 1)).map (fun t => (r, t))) ↔
      (r ∈ pb.resources.keys ∧ r ∉ pb.nonRenewable) ∧ t ≤ D := by
    intro r t
    simp only [List.mem_flatMap, renewables, List.mem_filter, List.mem_map, List.mem_range, Prod.mk.injEq, Bool.not_eq_true',
      List.contains_eq_mem, decide_eq_false_iff_not]
    constructor
    · rintro ⟨r', h1, t', h2, rfl, rfl⟩; exact ⟨h1, by omega⟩
    · rintro ⟨h1, h2⟩; exact ⟨r, h1, t, by omega, rfl, rfl⟩
  have hrow : ∀ r t y, renewableRow pb (D + 1) (r, t) = .ok y → ∃ row c, pb.resources.get? r = some row ∧ row[t]? = some c ∧
      y = ⟨pb.modes.keys.flatMap (fun k => ((slots pb (D + 1) k).filter (fun q => covers q.2 t (durOf pb k q.1))).map
        (fun q => (needIn pb r k q.1, Var.start k q.1 q.2))), .le, c⟩ := by
    intro r t y hy
    unfold renewableRow at hy
    obtain ⟨ts, h1, hy⟩ := (bind_eq_ok ..).1 hy
    obtain ⟨row, h2, hy⟩ := (bind_eq_ok ..).1 hy
    obtain ⟨c, h3, hy⟩ := (bind_eq_ok ..).1 hy
    cases hy
    rw [needTerms_eq h1]
    exact ⟨row, c, dict_get_ok.1 h2, pyGet_ok.1 h3, rfl⟩
  have hnrow : ∀ r y, nonRenewableRow pb (D + 1) r = .ok y → ∃ row c, pb.resources.get? r = some row ∧ row[0]? = some c ∧
      y = ⟨pb.modes.keys.flatMap (fun k => (slots pb (D + 1) k).map (fun q => (needIn pb r k q.1, Var.start k q.1 q.2))), .le, c⟩ := by
    intro r y hy
    unfold nonRenewableRow at hy
    obtain ⟨ts, h1, hy⟩ := (bind_eq_ok ..).1 hy
    obtain ⟨row, h2, hy⟩ := (bind_eq_ok ..).1 hy
    obtain ⟨c, h3, hy⟩ := (bind_eq_ok ..).1 hy
    cases hy
    rw [needTerms_eq h1]
    exact ⟨row, c, dict_get_ok.1 h2, pyGet_ok.1 h3, by simp⟩
  refine ⟨D, hD, ?_, ?_, ?_, ?_, ⟨last, (maxOf_ok hlast).1, (maxOf_ok hlast).2, rfl⟩, ?_⟩
  · intro r hr
    obtain ⟨y, hy⟩ := nr2 r hr
    obtain ⟨row, c, h1, h2, _⟩ := hnrow r y hy
    exact ⟨row, c, h1, h2⟩
  · intro k hk
    obtain ⟨y, hy⟩ := es2 k (mem_tasks.2 hk)
    obtain ⟨ss, hss, -⟩ := (bind_eq_ok ..).1 hy
    refine ⟨ss, dict_get_ok.1 hss, fun s hs => ?_⟩
    obtain ⟨y, hy⟩ := pr2 _ (hed k ss s (dict_get_ok.1 hss) hk hs)
    unfold precRow at hy
    split at hy
    · assumption
    · cases hy
  · intro x hx
    obtain ⟨y, hy⟩ := ur2 x hx
    unfold useRows at hy
    obtain ⟨e, he, hy⟩ := (bind_eq_ok ..).1 hy
    obtain ⟨b, hbb, hy⟩ := (bind_eq_ok ..).1 hy
    exact ⟨e, b, dict_get_ok.1 he, hbb⟩
  · intro r row hr hnn t ht
    have hk : r ∈ pb.resources.keys := by rw [← Dict.get?_isSome_iff_mem_keys, hr]; rfl
    obtain ⟨y, hy⟩ := rr2 (r, t) ((hrt r t).2 ⟨⟨hk, hnn⟩, ht⟩)
    obtain ⟨row', c, h1, h2, _⟩ := hrow r t y hy
    rw [hr] at h1; cases h1
    exact ⟨c, h2⟩
  · intro a
    unfold Prog.Feasible Program.Feasible
    simp only [List.mem_append, List.mem_flatten, List.mem_map, forall_exists_index, and_imp]
    constructor
    · rintro ⟨⟨hv, hr⟩, hs⟩
      refine ⟨hv, fun r h => hr r (.inl (.inl (.inl (.inl (.inl h))))), ?_, ?_, ?_, ?_, ?_, ?_⟩
      · intro x hx rs hrs r hrr'
        exact hr r (.inl (.inl (.inl (.inl (.inr ⟨rs, (ur1 rs).2 ⟨x, hx, hrs⟩, hrr'⟩)))))
      · intro e t ht
        by_cases he : ∃ x, x ∈ uses pb (D + 1) ∧ x.emp = e
        · refine hr _ (.inl (.inl (.inl (.inr ?_))))
          refine List.mem_flatMap.2 ⟨e, ?_, List.mem_map.2 ⟨t, List.mem_range.2 (by omega), rfl⟩⟩
          obtain ⟨x, hx, rfl⟩ := he
          refine List.mem_filter.2 ⟨?_, List.any_eq_true.2 ⟨x, hx, by simp⟩⟩
          obtain ⟨emp, he⟩ := emp_of_level ((mem_uses w).1 hx).2.2.1
          rw [← Dict.get?_isSome_iff_mem_keys, he]; rfl
        · have : (uses pb (D + 1)).filter (fun x => decide (x.emp = e) && covers x.time t (durOf pb x.task x.mode)) = [] := by
            rw [List.filter_eq_nil_iff]
            intro x hx h
            simp only [Bool.and_eq_true, decide_eq_true_eq] at h
            exact he ⟨x, hx, h.1⟩
          simp [Row.Holds, busyRow, this, value_nil]
      · intro r row c t h1 h2 h3 h4
        have hk : r ∈ pb.resources.keys := by rw [← Dict.get?_isSome_iff_mem_keys, h1]; rfl
        have hm := (hrt r t).2 ⟨⟨hk, h2⟩, h3⟩
        obtain ⟨y, hy⟩ := rr2 (r, t) hm
        obtain ⟨row', c', g1, g2, g3⟩ := hrow r t y hy
        rw [h1] at g1; cases g1; rw [h4] at g2; cases g2
        rw [← g3]
        exact hr y (.inl (.inl (.inr ((rr1 y).2 ⟨_, hm, hy⟩))))
      · intro r row c h1 h2 h3
        obtain ⟨y, hy⟩ := nr2 r h1
        obtain ⟨row', c', g1, g2, g3⟩ := hnrow r y hy
        rw [h2] at g1; cases g1; rw [h3] at g2; cases g2
        rw [← g3]
        exact hr y (.inl (.inr ((nr1 y).2 ⟨_, h1, hy⟩)))
      · intro k ss s h1 h2 h3
        have hm := hed k ss s h1 h2 h3
        obtain ⟨y, hy⟩ := pr2 _ hm
        have hy' := hy
        unfold precRow at hy
        split at hy
        · cases hy
          exact hr _ (.inr ((pr1 _).2 ⟨_, hm, hy'⟩))
        · cases hy
      · intro q hq
        exact hs _ q hq rfl
    · rintro ⟨hv, h1, h2, h3, h4, h5, h6, h7⟩
      refine ⟨⟨hv, ?_⟩, ?_⟩
      · rintro r (((((h | ⟨rs, h, h'⟩) | h) | h) | h) | h)
        · exact h1 r h
        · obtain ⟨x, hx, hrs⟩ := (ur1 rs).1 h
          exact h2 x hx rs hrs r h'
        · obtain ⟨e, he, h⟩ := List.mem_flatMap.1 h
          obtain ⟨t, ht, rfl⟩ := List.mem_map.1 h
          have := List.mem_range.1 ht
          exact h3 e t (by omega)
        · obtain ⟨⟨r', t⟩, hm, hy⟩ := (rr1 r).1 h
          obtain ⟨⟨_, hnn⟩, ht⟩ := (hrt r' t).1 hm
          obtain ⟨row, c, g1, g2, rfl⟩ := hrow r' t r hy
          exact h4 r' row c t g1 hnn ht g2
        · obtain ⟨r', hm, hy⟩ := (nr1 r).1 h
          obtain ⟨row, c, g1, g2, rfl⟩ := hnrow r' r hy
          exact h5 r' row c hm g1 g2
        · obtain ⟨q, hm, hy⟩ := (pr1 r).1 h
          obtain ⟨ss, g1, g2, g3⟩ := hed' q hm
          unfold precRow at hy
          split at hy
          · cases hy; exact h6 q.1 ss q.2 g1 g2 g3
          · cases hy
      · rintro l q hq rfl
        exact h7 q hq

end Verif.MsLp
