import Verif.Model.SchedUnits
import Verif.Lemmas.SchedSafe
import Verif.Lemmas.SchedLive
import Mathlib.Algebra.Order.BigOperators.Group.List
import Mathlib.Algebra.Order.Ring.Int
import Mathlib.Data.List.Perm.Subperm
import Mathlib.Algebra.BigOperators.Group.List.Basic

namespace Verif.Sched

open scoped List

/-- The level of a skill of a resource. -/
def skillLevel (dom : Dom) (r : Res) (s : Skill) : Int := (((dom.resSkills.get? r).getD []).get? s).getD 0

/-- One more unit of the resource is available. -/
def Free (st : State) (r : Res) : Prop := ∃ u a, st.used.get? r = some u ∧ st.avail.get? r = some a ∧ u + 1 ≤ a

/-- The skills that the task needs in the mode. -/
def needs (dom : Dom) (t : TaskId) (m : ModeId) : Dict Skill Int := match skillsOfTask dom t (some m) with | .ok l => l | .error _ => []

theorem freeUnit_ok {st : State} {r : Res} {b : Bool} (h : freeUnit st r = .ok b) : b = true ↔ Free st r := by
  unfold freeUnit at h
  simp only [bind_eq_ok, Dict.get_ok_iff] at h
  obtain ⟨u, h1, a, h2, h⟩ := h
  have := Except.ok.inj h
  subst this
  rw [decide_eq_true_iff]
  constructor
  · intro h; exact ⟨u, a, h1, h2, h⟩
  · rintro ⟨u', a', g1, g2, g⟩
    rw [h1] at g1; rw [h2] at g2; cases g1; cases g2; exact g

theorem alone_ok {dom : Dom} {need : Dict Skill Int} {r : Res} {b : Bool} (h : alone dom need r = .ok b) :
    b = true ↔ ∀ p ∈ need, p.2 ≤ skillLevel dom r p.1 := by
  unfold alone at h
  simp only [bind_eq_ok, Dict.get_ok_iff] at h
  obtain ⟨sk, h1, h⟩ := h
  have := Except.ok.inj h
  subst this
  simp only [List.all_eq_true, decide_eq_true_iff, skillLevel, h1, Option.getD_some, ge_iff_le]

theorem aloneIn_mem {dom : Dom} {need : Dict Skill Int} : ∀ {rs l : List Res}, aloneIn dom need rs = .ok l →
    ∀ r, r ∈ l ↔ r ∈ rs ∧ ∀ p ∈ need, p.2 ≤ skillLevel dom r p.1 := by
  intro rs
  induction rs with
  | nil => intro l h; cases h; simp
  | cons r0 rs ih =>
    intro l h r
    simp only [aloneIn] at h
    obtain ⟨b, h1, h⟩ := bind_eq_ok.1 h
    obtain ⟨l1, h2, h⟩ := bind_eq_ok.1 h
    have := (Except.ok.inj h).symm; subst this
    have e := alone_ok h1
    cases b with
    | true =>
      have e := e.1 rfl
      simp only [if_true, List.mem_cons, ih h2]
      constructor
      · rintro (rfl | ⟨g1, g2⟩)
        · exact ⟨.inl rfl, e⟩
        · exact ⟨.inr g1, g2⟩
      · rintro ⟨rfl | g1, g2⟩
        · exact .inl rfl
        · exact .inr ⟨g1, g2⟩
    | false =>
      simp only [Bool.false_eq_true, if_false, List.mem_cons, ih h2]
      constructor
      · rintro ⟨g1, g2⟩; exact ⟨.inr g1, g2⟩
      · rintro ⟨rfl | g1, g2⟩
        · exact absurd (e.2 g2) (by decide)
        · exact ⟨g1, g2⟩

/-- Which units an action may name: none when no skill is needed, otherwise one free resource that has all the skills. -/
def CanDo (dom : Dom) (st : State) (t : TaskId) (m : ModeId) (us : Option (List Res)) : Prop :=
  (needs dom t m = [] ∧ us = none) ∨
  (needs dom t m ≠ [] ∧ ∃ r, us = some [r] ∧ r ∈ dom.resSkills.keys ∧ Free st r ∧ ∀ p ∈ needs dom t m, p.2 ≤ skillLevel dom r p.1)

theorem unitActions_mem {st : State} {t : TaskId} {m : ModeId} : ∀ {us : List (Option Res)} {l : List Action},
    unitActions st t m us = .ok l → ∀ a, a ∈ l ↔ (none ∈ us ∧ a = ⟨some t, .start, some m, false, none⟩) ∨
      ∃ r, some r ∈ us ∧ Free st r ∧ a = ⟨some t, .start, some m, false, some [r]⟩ := by
  intro us
  induction us with
  | nil => intro l h; cases h; simp
  | cons o us ih =>
    intro l h a
    cases o with
    | none =>
      simp only [unitActions] at h
      obtain ⟨l1, h2, h⟩ := bind_eq_ok.1 h
      have := (Except.ok.inj h).symm; subst this
      simp only [List.mem_cons, ih h2, true_or, true_and, reduceCtorEq, false_or]
      constructor
      · rintro (g | ⟨_, g⟩ | g)
        · exact .inl g
        · exact .inl g
        · exact .inr g
      · rintro (g | g)
        · exact .inl g
        · exact .inr (.inr g)
    | some r0 =>
      simp only [unitActions] at h
      obtain ⟨b, h1, h⟩ := bind_eq_ok.1 h
      obtain ⟨l1, h2, h⟩ := bind_eq_ok.1 h
      have := (Except.ok.inj h).symm; subst this
      have e := freeUnit_ok h1
      simp only [List.mem_cons, reduceCtorEq, false_or, Option.some.injEq]
      cases b with
      | true =>
        have e := e.1 rfl
        simp only [if_true, List.mem_cons, ih h2]
        constructor
        · rintro (g | g | ⟨r, g1, g2⟩)
          · exact .inr ⟨r0, .inl rfl, e, g⟩
          · exact .inl g
          · exact .inr ⟨r, .inr g1, g2⟩
        · rintro (g | ⟨r, rfl | g1, g2⟩)
          · exact .inr (.inl g)
          · exact .inl g2.2
          · exact .inr (.inr ⟨r, g1, g2⟩)
      | false =>
        simp only [Bool.false_eq_true, if_false, ih h2]
        constructor
        · rintro (g | ⟨r, g1, g2⟩)
          · exact .inl g
          · exact .inr ⟨r, .inr g1, g2⟩
        · rintro (g | ⟨r, rfl | g1, g2⟩)
          · exact .inl g
          · exact absurd (e.2 g2.1) (by decide)
          · exact .inr ⟨r, g1, g2⟩

theorem oneUnit_actions {dom : Dom} {st : State} {t : TaskId} {m : ModeId} {us : List (Option Res)} {l : List Action}
    (h1 : oneUnit dom t m = .ok us) (h2 : unitActions st t m us = .ok l) (a : Action) :
    a ∈ l ↔ ∃ u, CanDo dom st t m u ∧ a = ⟨some t, .start, some m, false, u⟩ := by
  rw [unitActions_mem h2]
  unfold oneUnit at h1
  obtain ⟨need, g1, h1⟩ := bind_eq_ok.1 h1
  have hn : needs dom t m = need := by unfold needs; rw [g1]
  by_cases hz : need = []
  · rw [if_pos hz] at h1
    have := (Except.ok.inj h1).symm; subst this
    unfold CanDo
    rw [hn]
    constructor
    · rintro (⟨_, g⟩ | ⟨r, g, _⟩)
      · exact ⟨none, .inl ⟨hz, rfl⟩, g⟩
      · simp at g
    · rintro ⟨u, ⟨_, rfl⟩ | ⟨g, _⟩, rfl⟩
      · exact .inl ⟨by simp, rfl⟩
      · exact absurd hz g
  · rw [if_neg hz] at h1
    obtain ⟨l1, g2, h1⟩ := bind_eq_ok.1 h1
    have := (Except.ok.inj h1).symm; subst this
    unfold CanDo
    rw [hn]
    have hm := aloneIn_mem g2
    constructor
    · rintro (⟨g, _⟩ | ⟨r, g, hf, rfl⟩)
      · simp at g
      · obtain ⟨r', g', e⟩ := List.mem_map.1 g
        cases e
        obtain ⟨k1, k2⟩ := (hm r).1 g'
        exact ⟨_, .inr ⟨hz, r, rfl, k1, hf, k2⟩, rfl⟩
    · rintro ⟨u, ⟨g, _⟩ | ⟨_, r, rfl, k1, hf, k2⟩, rfl⟩
      · exact absurd g hz
      · exact .inr ⟨r, List.mem_map.2 ⟨r, (hm r).2 ⟨k1, k2⟩, rfl⟩, hf, rfl⟩

theorem unitStarts_mem {dom : Dom} {st : State} : ∀ {d : Dict TaskId ModeId} {l : List Action}, unitStarts dom st d = .ok l →
    ∀ a, a ∈ l ↔ ∃ t m u, (t, m) ∈ d ∧ CanDo dom st t m u ∧ a = ⟨some t, .start, some m, false, u⟩ := by
  intro d
  induction d with
  | nil => intro l h; cases h; simp
  | cons q d ih =>
    intro l h a
    obtain ⟨t, m⟩ := q
    simp only [unitStarts] at h
    obtain ⟨us, h1, h⟩ := bind_eq_ok.1 h
    obtain ⟨l1, h2, h⟩ := bind_eq_ok.1 h
    obtain ⟨l2, h3, h⟩ := bind_eq_ok.1 h
    have := (Except.ok.inj h).symm; subst this
    rw [List.mem_append, oneUnit_actions h1 h2, ih h3]
    constructor
    · rintro (⟨u, g1, g2⟩ | ⟨t', m', u, g1, g2, g3⟩)
      · exact ⟨t, m, u, List.mem_cons_self .., g1, g2⟩
      · exact ⟨t', m', u, List.mem_cons_of_mem _ g1, g2, g3⟩
    · rintro ⟨t', m', u, g1, g2, g3⟩
      rcases List.mem_cons.1 g1 with e | e
      · cases e; exact .inl ⟨u, g2, g3⟩
      · exact .inr ⟨t', m', u, e, g2, g3⟩

theorem unitResumes_mem {dom : Dom} {st : State} : ∀ {d : List TaskId} {l : List Action}, unitResumes dom st d = .ok l →
    ∀ a, a ∈ l ↔ ∃ t m u, (t ∈ d ∧ st.mode.get? t = some m) ∧ CanDo dom st t m u ∧ a = ⟨some t, .start, some m, false, u⟩ := by
  intro d
  induction d with
  | nil => intro l h; cases h; simp
  | cons t d ih =>
    intro l h a
    simp only [unitResumes] at h
    obtain ⟨m, h0, h⟩ := bind_eq_ok.1 h
    have h0 := Dict.get_ok_iff.1 h0
    obtain ⟨us, h1, h⟩ := bind_eq_ok.1 h
    obtain ⟨l1, h2, h⟩ := bind_eq_ok.1 h
    obtain ⟨l2, h3, h⟩ := bind_eq_ok.1 h
    have := (Except.ok.inj h).symm; subst this
    rw [List.mem_append, oneUnit_actions h1 h2, ih h3]
    constructor
    · rintro (⟨u, g1, g2⟩ | ⟨t', m', u, ⟨g0, g1⟩, g2, g3⟩)
      · exact ⟨t, m, u, ⟨List.mem_cons_self .., h0⟩, g1, g2⟩
      · exact ⟨t', m', u, ⟨List.mem_cons_of_mem _ g0, g1⟩, g2, g3⟩
    · rintro ⟨t', m', u, ⟨g0, g1⟩, g2, g3⟩
      rcases List.mem_cons.1 g0 with e | e
      · subst e
        rw [h0] at g1
        cases g1
        exact .inl ⟨u, g2, g3⟩
      · exact .inr ⟨t', m', u, ⟨e, g1⟩, g2, g3⟩

/-! ### Acceptance -/

theorem map_get? (d : Dict Skill Int) (f : Skill → Int) (s : Skill) :
    Dict.get? (d.map fun p => (p.1, p.2 + f p.1)) s = (d.get? s).map (· + f s) := by
  induction d with
  | nil => rfl
  | cons p d ih =>
    by_cases e : p.1 = s
    · subst e; simp [Dict.get?]
    · simp only [List.map_cons, Dict.get?, e, if_false]; exact ih

theorem addSkills_get? {dom : Dom} : ∀ {l : List Res} {acc x : Dict Skill Int}, addSkills dom l acc = .ok x →
    ∀ s, x.get? s = (acc.get? s).map (· + (l.map fun r => skillLevel dom r s).sum) := by
  intro l
  induction l with
  | nil => intro acc x h s; cases h; simp
  | cons r l ih =>
    intro acc x h s
    simp only [addSkills] at h
    obtain ⟨sk, h1, h⟩ := bind_eq_ok.1 h
    rw [ih h s, map_get? acc (fun s => (sk.get? s).getD 0)]
    have : skillLevel dom r s = (sk.get? s).getD 0 := by unfold skillLevel; rw [Dict.get_ok_iff.1 h1]; rfl
    rw [List.map_cons, List.sum_cons, this, Option.map_map]
    congr 1
    funext y
    simp only [Function.comp]
    omega

theorem zero_get? {need : Dict Skill Int} {p : Skill × Int} (h : p ∈ need) : Dict.get? (need.map fun p => (p.1, (0 : Int))) p.1 = some 0 := by
  induction need with
  | nil => cases h
  | cons q need ih =>
    by_cases e : q.1 = p.1
    · simp [Dict.get?, e]
    · rcases List.mem_cons.1 h with e' | e'
      · exact absurd (by rw [e']) e
      · simp only [List.map_cons, Dict.get?, e, if_false]; exact ih e'

theorem accepted_with_units {dom : Dom} {st : State} {x : TaskId} {m : ModeId} (hm : HasMode dom x m) (he : Enough dom st x m)
    {info : Info} (hi : st.details.get? x = some info) (hs : info.start = none) {us : Option (List Res)} (hn : (us.getD []).Nodup)
    (hf : ∀ r ∈ us.getD [], Free st r) (hsk : ∃ l, skillsOfTask dom x (some m) = .ok l)
    (hlev : dom.taskSkills ≠ none → ∀ r, r ∈ dom.resTypes ∨ r ∈ us.getD [] → r ∈ dom.resSkills.keys ∧ ∀ s, 0 ≤ skillLevel dom r s)
    (hsum : ∀ p ∈ needs dom x m, p.2 ≤ ((us.getD []).map fun r => skillLevel dom r p.1).sum) :
    ∃ use, checkStart dom st ⟨some x, .start, some m, false, us⟩ = .ok (true, use) := by
  obtain ⟨use0, h0⟩ := usedTypes_def hm 0 dom.resTypes []
  have hu : ∃ use, resourceUsed dom x (some m) us 0 = .ok use := ⟨_, by unfold resourceUsed; rw [h0, bind_ok]; rfl⟩
  obtain ⟨use, hu⟩ := hu
  obtain ⟨u1, u2, u3, u4⟩ := resourceUsed_ok hu
  have hmem : ∀ r n, (r, n) ∈ use → use.get? r = some n := fun r n h => Dict.get?_of_mem u1 h
  have hl : lacking st use = .ok false := by
    refine lacking_enough fun r n hrn => ?_
    have hg := hmem r n hrn
    by_cases h1 : r ∈ us.getD []
    · obtain ⟨u, a, g1, g2, g3⟩ := hf r h1
      rw [u2 r h1] at hg
      cases hg
      exact ⟨a, u, g2, g1, by omega⟩
    · by_cases h2 : r ∈ dom.resTypes
      · obtain ⟨ms, m', md, n', e1, e2, e3, e4, e5⟩ := u3 r h2 h1
        cases e1
        rw [e5] at hg
        cases hg
        obtain ⟨a, u, ms', md', need, k1, k2, k3, k4, k5, k6⟩ := he r h2
        rw [e2] at k3; cases k3
        rw [e3] at k4; cases k4
        obtain ⟨ms'', dd, q1, q2⟩ := hm
        rw [e2] at q1; cases q1
        rw [e3] at q2; cases q2
        rw [need_constant] at e4 k5
        rw [k5] at e4
        cases e4
        exact ⟨a, u, k1, k2, k6⟩
      · rw [u4 r h2 h1] at hg
        cases hg
  have hk : skillsOk dom x (some m) use = .ok true := by
    unfold skillsOk
    cases ht : dom.taskSkills with
    | none => rfl
    | some ts =>
      obtain ⟨need, hneed⟩ := hsk
      have hneeds : needs dom x m = need := by unfold needs; rw [hneed]
      simp only [hneed, bind_ok]
      by_cases hz : need = []
      · rw [if_pos hz]; rfl
      · rw [if_neg hz]
        have hlev := hlev (by rw [ht]; simp)
        have hkey : ∀ r ∈ use.keys, r ∈ dom.resTypes ∨ r ∈ us.getD [] := by
          intro r hr
          apply Classical.byContradiction
          intro hc
          have := u4 r (fun h => hc (.inl h)) (fun h => hc (.inr h))
          have h2 := (Dict.get?_isSome_iff_mem_keys use r).2 hr
          rw [this] at h2
          cases h2
        obtain ⟨y, hy⟩ := addSkills_def (dom := dom) (l := use.keys) (need.map fun p => (p.1, 0)) fun r hr =>
          (Dict.get?_isSome_iff_mem_keys _ _).2 (hlev r (hkey r hr)).1
        rw [hy, bind_ok]
        show Except.ok _ = _
        congr 1
        rw [List.all_eq_true]
        intro p hp
        rw [decide_eq_true_iff, addSkills_get? hy, zero_get? hp]
        simp only [Option.map_some, Option.getD_some, Int.zero_add]
        have hle := hsum p (by rw [hneeds]; exact hp)
        refine ge_iff_le.2 (Int.le_trans hle ?_)
        have hsub : us.getD [] ⊆ use.keys := by
          intro r hr
          exact (Dict.get?_isSome_iff_mem_keys use r).1 (by rw [u2 r hr]; rfl)
        obtain ⟨l, hp1, hp2⟩ := hn.subperm hsub
        rw [← (hp1.map fun r => skillLevel dom r p.1).sum_eq]
        refine (hp2.map _).sum_le_sum ?_
        intro v hv
        obtain ⟨r, hr, rfl⟩ := List.mem_map.1 hv
        exact (hlev r (hkey r hr)).2 _
  refine ⟨use, ?_⟩
  unfold checkStart
  rw [if_pos (Or.inl rfl)]
  have ha : info.activeTime st.t = .ok 0 := by unfold Info.activeTime; rw [hs]
  simp only [dgetO, Dict.get_ok_iff.2 hi, bind_ok, ha, hu, hl, hk]
  rfl

/-! ### Gathering -/

/-- the skills of a team -/
def team (dom : Dom) (us : List Res) (s : Skill) : Int := (us.map fun r => skillLevel dom r s).sum

theorem gather_spec {dom : Dom} {st : State} {need : Dict Skill Int} : ∀ {ord got : List Res} {cur : Dict Skill Int} {o : Option (List Res)},
    gather dom st need ord got cur = .ok o →
    (∀ p ∈ need, cur.get? p.1 = some (team dom got p.1)) →
    (∀ us, o = some us → ∃ mid r, us = got ++ mid ++ [r] ∧ (mid ++ [r]) <+ ord ∧
      (∀ q ∈ mid ++ [r], Free st q ∧ q ∈ dom.resSkills.keys ∧ ∃ p ∈ need, 0 < skillLevel dom q p.1) ∧
      (∀ p ∈ need, p.2 ≤ team dom us p.1) ∧
      (mid = [] ∨ ∃ p ∈ need, team dom (got ++ mid) p.1 < p.2)) ∧
    (o = none → (∃ p ∈ need, team dom got p.1 < p.2) → ∃ ex, (∀ q, q ∈ ex ↔ q ∈ ord ∧ Free st q ∧ ∃ p ∈ need, 0 < skillLevel dom q p.1) ∧
      ex <+ ord ∧ ∃ p ∈ need, team dom (got ++ ex) p.1 < p.2) := by
  intro ord
  induction ord with
  | nil =>
    intro got cur o h hc
    cases h
    refine ⟨fun _ h => (by cases h), fun _ h => ⟨[], by simp, List.Sublist.refl _, by simpa using h⟩⟩
  | cons r ord ih =>
    intro got cur o h hc
    simp only [gather] at h
    obtain ⟨b, h1, h⟩ := bind_eq_ok.1 h
    have e := freeUnit_ok h1
    have skip : ∀ {o}, (¬ Free st r ∨ ¬ ∃ p ∈ need, 0 < skillLevel dom r p.1) → gather dom st need ord got cur = .ok o → _ := fun {o} hno h =>
      show (∀ us, o = some us → ∃ mid r', us = got ++ mid ++ [r'] ∧ (mid ++ [r']) <+ r :: ord ∧
        (∀ q ∈ mid ++ [r'], Free st q ∧ q ∈ dom.resSkills.keys ∧ ∃ p ∈ need, 0 < skillLevel dom q p.1) ∧
        (∀ p ∈ need, p.2 ≤ team dom us p.1) ∧
        (mid = [] ∨ ∃ p ∈ need, team dom (got ++ mid) p.1 < p.2)) ∧
      (o = none → (∃ p ∈ need, team dom got p.1 < p.2) → ∃ ex, (∀ q, q ∈ ex ↔ q ∈ r :: ord ∧ Free st q ∧ ∃ p ∈ need, 0 < skillLevel dom q p.1) ∧
        ex <+ r :: ord ∧ ∃ p ∈ need, team dom (got ++ ex) p.1 < p.2) by
        obtain ⟨g1, g2⟩ := ih h hc
        constructor
        · intro us hus
          obtain ⟨mid, r', k1, k2, k3⟩ := g1 us hus
          exact ⟨mid, r', k1, k2.cons _, k3⟩
        · intro ho hne
          obtain ⟨ex, k1, k2, k3⟩ := g2 ho hne
          refine ⟨ex, fun q => ?_, k2.cons _, k3⟩
          rw [k1, List.mem_cons]
          constructor
          · rintro ⟨a1, a2⟩; exact ⟨.inr a1, a2⟩
          · rintro ⟨rfl | a1, a2, a3⟩
            · rcases hno with h | h
              · exact absurd a2 h
              · exact absurd a3 h
            · exact ⟨a1, a2, a3⟩
    cases b with
    | false =>
      simp only [Bool.false_eq_true, if_false] at h
      exact skip (.inl fun hf => absurd (e.2 hf) (by decide)) h
    | true =>
      have hfree := e.1 rfl
      simp only [if_true] at h
      obtain ⟨sk, h2, h⟩ := bind_eq_ok.1 h
      have h2 := Dict.get_ok_iff.1 h2
      have hlv : ∀ s, skillLevel dom r s = (sk.get? s).getD 0 := fun s => by unfold skillLevel; rw [h2]; rfl
      have hkey : r ∈ dom.resSkills.keys := (Dict.get?_isSome_iff_mem_keys _ _).1 (by rw [h2]; rfl)
      by_cases hany : (need.any fun p => decide ((sk.get? p.1).getD 0 > 0)) = true
      · rw [if_pos hany] at h
        have hsome : ∃ p ∈ need, 0 < skillLevel dom r p.1 := by
          obtain ⟨p, hp, hd⟩ := List.any_eq_true.1 hany
          exact ⟨p, hp, by rw [hlv]; exact of_decide_eq_true hd⟩
        have hteam : ∀ s, team dom (got ++ [r]) s = team dom got s + (sk.get? s).getD 0 := by
          intro s; unfold team; rw [List.map_append, List.sum_append]; simp [hlv]
        have hc' : ∀ p ∈ need, Dict.get? (cur.map fun p => (p.1, p.2 + (sk.get? p.1).getD 0)) p.1 = some (team dom (got ++ [r]) p.1) := by
          intro p hp
          rw [map_get? cur (fun s => (sk.get? s).getD 0), hc p hp, hteam]
          rfl
        by_cases hall : (need.all fun p => decide ((Dict.get? (cur.map fun p => (p.1, p.2 + (sk.get? p.1).getD 0)) p.1).getD 0 ≥ p.2)) = true
        · rw [if_pos hall] at h
          have := (Except.ok.inj h).symm; subst this
          refine ⟨fun us hus => ?_, fun h => by cases h⟩
          cases hus
          refine ⟨[], r, by simp, by simp, ?_, ?_, .inl rfl⟩
          · intro q hq
            rw [List.nil_append, List.mem_singleton] at hq
            subst hq
            exact ⟨hfree, hkey, hsome⟩
          · intro p hp
            have := of_decide_eq_true (List.all_eq_true.1 hall p hp)
            rw [hc' p hp] at this
            exact this
        · rw [if_neg hall] at h
          have hlack : ∃ p ∈ need, team dom (got ++ [r]) p.1 < p.2 := by
            apply Classical.byContradiction
            intro hno
            apply hall
            rw [List.all_eq_true]
            intro p hp
            rw [decide_eq_true_iff, hc' p hp]
            simp only [Option.getD_some]
            apply Classical.byContradiction
            intro hlt
            exact hno ⟨p, hp, by omega⟩
          obtain ⟨g1, g2⟩ := ih h hc'
          constructor
          · intro us hus
            obtain ⟨mid, r', k1, k2, k3, k4, k5⟩ := g1 us hus
            refine ⟨r :: mid, r', by rw [k1]; simp, by simpa using k2.cons_cons r, ?_, k4, .inr ?_⟩
            · intro q hq
              rcases List.mem_cons.1 hq with e' | e'
              · subst e'; exact ⟨hfree, hkey, hsome⟩
              · exact k3 q e'
            · rcases k5 with rfl | k5
              · exact hlack
              · simpa [List.append_assoc] using k5
          · intro ho _
            obtain ⟨ex, k1, k2, k3⟩ := g2 ho hlack
            refine ⟨r :: ex, fun q => ?_, k2.cons_cons r, by simpa [List.append_assoc] using k3⟩
            rw [List.mem_cons, List.mem_cons, k1]
            constructor
            · rintro (rfl | ⟨a1, a2⟩)
              · exact ⟨.inl rfl, hfree, hsome⟩
              · exact ⟨.inr a1, a2⟩
            · rintro ⟨rfl | a1, a2⟩
              · exact .inl rfl
              · exact .inr ⟨a1, a2⟩
      · rw [if_neg hany] at h
        refine skip (.inr ?_) h
        rintro ⟨p, hp, hl⟩
        exact hany (List.any_eq_true.2 ⟨p, hp, decide_eq_true (by rw [← hlv]; exact hl)⟩)

/-! ### Paused tasks -/

theorem paused_stay {dom : Dom} {d : Draw} {st st' : State} {a : Action} (hk : a.kind ≠ .resume) (h : nextState dom d st a = .ok st')
    {x : TaskId} (hx : x ∈ st.paused) : x ∈ st'.paused := by
  obtain ⟨s1, s2, s3, s4, s5, h1, h2, h3, h4, h5, rfl⟩ := nextState_ok h
  have e1 : x ∈ s1.paused := by
    rcases updatePause_ok h1 with ⟨_, e⟩ | ⟨_, task, uf, used, info, _, _, _, _, _, e⟩
    · rw [e]; exact hx
    · rw [e]
      show x ∈ sadd st.paused task
      unfold sadd
      split
      · exact hx
      · exact List.mem_append.2 (.inl hx)
  have e2 : x ∈ s2.paused := by
    rcases updateResume_ok h2 with ⟨_, e⟩ | ⟨e, _⟩
    · rw [e]; exact e1
    · exact absurd e hk
  have e3 : x ∈ s3.paused := by
    rcases updateStart_ok h3 with ⟨_, e⟩ | ⟨_, b, use, _, ⟨_, e⟩ | ⟨_, task, mode, info, used, _, _, _, _, _, e⟩⟩
    · rw [e]; exact e2
    · rw [e]; exact e2
    · rw [e]; exact e2
  have e4 : x ∈ s4.paused := by
    rcases updateDummy_ok h4 with ⟨_, e⟩ | ⟨_, task, info, _, _, ⟨_, e⟩ | ⟨_, _, _, e⟩⟩
    · rw [e]; exact e3
    · rw [e]; exact e3
    · rw [e]; exact e3
  have e5 : x ∈ s5.paused := by
    rcases updateTime_ok h5 with ⟨_, e⟩ | ⟨_, pr, usedFor, used, st2, _, _, hc, e⟩
    · rw [e]; exact e4
    · rw [e]
      show x ∈ st2.paused
      obtain ⟨done, _, hf⟩ := updateComplete_ok hc
      have : st2.paused = s4.paused := by
        refine completions_invariant (fun s => s.paused = s4.paused) ?_ ?_ hf
        · intro s s' task hs hc
          obtain ⟨uf, used, info, hm, _, _, _, rfl⟩ := completeOne_ok hc
          exact hs
        · rfl
      rw [this]; exact e4
  have : (updateAvail dom d s5 a).paused = s5.paused := by unfold updateAvail; split <;> rfl
  rw [this]; exact e5

end Verif.Sched
