import Verif.Lemmas.Uncertain
import Verif.Props.Robust

/-!
C179: laws of uncertain projects.
-/
namespace Verif.Robust
open Rcpsp Milp

/-- Dictionaries have one entry per key, and no resource is called `duration`. -/
structure Tidy (pb : Problem) : Prop where
  acts : pb.modes.keys.Nodup
  modes : ∀ q ∈ pb.modes, q.2.keys.Nodup
  needs : ∀ q ∈ pb.modes, ∀ p ∈ q.2, p.2.needs.keys.Nodup ∧ "duration" ∉ p.2.needs.keys

theorem get?_mapkv {κ α β : Type} [DecidableEq κ] (f : κ → α → β) : ∀ (d : Dict κ α) (k : κ),
    Dict.get? (d.map (fun p => (p.1, f p.1 p.2))) k = (d.get? k).map (f k)
  | [], k => rfl
  | (k0, v) :: d, k => by
    simp only [List.map_cons, get?_cons]
    by_cases h : k0 = k
    · subst h; simp
    · rw [if_neg h, if_neg h]; exact get?_mapkv f d k

theorem keys_mapkv {κ α β : Type} (f : κ → α → β) (d : Dict κ α) :
    Dict.keys (d.map (fun p => (p.1, f p.1 p.2))) = d.keys := by
  simp [Dict.keys, List.map_map]

/-- The law of a duration. -/
def durLaw (fixed : Prop) [Decidable fixed] (range d : Int) : Law :=
  if fixed then ⟨d, d, d⟩ else ⟨max 1 (d - range), d, d + range⟩

def durOne (pb : Problem) (range : Int) (j : Nat) (_ : Nat) (m : Mode) : Dict String Law :=
  [("duration", durLaw (j = 1 ∨ j = pb.sink) range (m.duration : Int))]

def durAct (pb : Problem) (range : Int) (j : Nat) (ms : Dict Nat Mode) : Dict Nat (Dict String Law) :=
  ms.map (fun k => (k.1, durOne pb range j k.1 k.2))

theorem durationLaws_eq (pb : Problem) (range : Int) : durationLaws pb range =
    pb.modes.map (fun j => (j.1, durAct pb range j.1 j.2)) := by
  unfold durationLaws durAct durOne durLaw
  refine List.map_congr_left (fun j _ => ?_)
  refine congrArg (Prod.mk j.1) (List.map_congr_left (fun k _ => ?_))
  dsimp only
  split <;> rfl

theorem lawOf_durations (pb : Problem) (range : Int) (j k : Nat) (key : String) :
    lawOf (durationLaws pb range) j k key =
      if key = "duration" then (durOf pb j k).map (durLaw (j = 1 ∨ j = pb.sink) range) else none := by
  unfold lawOf durOf
  rw [durationLaws_eq, get?_mapkv (durAct pb range)]
  cases pb.modes.get? j with
  | none => simp
  | some ms =>
    simp only [Option.map_some, Option.bind_some]
    unfold durAct
    rw [get?_mapkv (durOne pb range j)]
    cases ms.get? k with
    | none => simp
    | some m =>
      simp only [Option.map_some, Option.bind_some, durOne, get?_cons]
      by_cases h : key = "duration"
      · subst h; simp
      · rw [if_neg (Ne.symm h), if_neg h]; rfl

theorem durationLaws_tidy {pb : Problem} (h : Tidy pb) (range : Int) : (durationLaws pb range).keys.Nodup ∧
    ∀ q ∈ durationLaws pb range, q.2.keys.Nodup ∧ ∀ p ∈ q.2, p.2.keys.Nodup := by
  rw [durationLaws_eq]
  refine ⟨?_, ?_⟩
  · rw [keys_mapkv (durAct pb range)]; exact h.acts
  · intro q hq
    obtain ⟨j, hj, rfl⟩ := List.mem_map.1 hq
    refine ⟨?_, ?_⟩
    · show (Dict.keys (List.map (fun k => (k.1, durOne pb range j.1 k.1 k.2)) j.2)).Nodup
      rw [keys_mapkv (durOne pb range j.1)]; exact h.modes j hj
    · intro p hp
      obtain ⟨k, hk, rfl⟩ := List.mem_map.1 hp
      simp [Dict.keys, durOne]

/-- The law of a requirement. -/
def resLaw (pb : Problem) (fixed : Bool) (range : Int) (r : String) (c : Int) : Option Law :=
  if fixed then some ⟨c, c, c⟩
  else match pb.resources.get? r with
    | some (.const cap) => some ⟨max 0 (c - range), c, min (c + range) cap⟩
    | _ => none

theorem resourceLaw_spec {pb : Problem} {range : Int} {fixed : Bool} : ∀ {ns : Dict String Int} {l : Dict String Law},
    resourceLaw pb range fixed ns = .ok l → (∀ r, r ∈ l.keys → r ∈ ns.keys) ∧ (ns.keys.Nodup → l.keys.Nodup) ∧
      ∀ r, ns.keys.Nodup → (pb.nonRenewable.contains r = true → l.get? r = none) ∧
        (pb.nonRenewable.contains r = false → (ns.get? r = none → l.get? r = none) ∧
          ∀ c, ns.get? r = some c → ∃ law, resLaw pb fixed range r c = some law ∧ l.get? r = some law)
  | [], l, h => by
    simp only [resourceLaw, Except.ok.injEq] at h
    subst h
    exact ⟨fun r h => h, fun h => h, fun r _ => ⟨fun _ => rfl, fun _ => ⟨fun _ => rfl, fun c hc => by simp [Dict.get?] at hc⟩⟩⟩
  | (r0, c0) :: ns, l, h => by
    unfold resourceLaw at h
    by_cases hr : pb.nonRenewable.contains r0 = true
    · rw [if_pos hr] at h
      obtain ⟨i1, i2, i3⟩ := resourceLaw_spec h
      refine ⟨fun r hr => List.mem_cons_of_mem _ (i1 r hr), fun hn => i2 (List.nodup_cons.1 hn).2, ?_⟩
      intro r hn
      have hn : r0 ∉ Dict.keys ns ∧ (Dict.keys ns).Nodup := List.nodup_cons.1 hn
      obtain ⟨j1, j2⟩ := i3 r hn.2
      refine ⟨j1, fun hc => ?_⟩
      have hne : r0 ≠ r := by rintro rfl; rw [hr] at hc; cases hc
      rw [get?_cons, if_neg hne]
      exact j2 hc
    · rw [if_neg hr] at h
      simp only [bind_eq_ok, Except.ok.injEq] at h
      obtain ⟨law, hlaw, others, ho, rfl⟩ := h
      have hl : resLaw pb fixed range r0 c0 = some law := by
        unfold resLaw
        cases fixed with
        | true =>
          simp only [if_true, Except.ok.injEq] at hlaw
          subst hlaw; rfl
        | false =>
          simp only [Bool.false_eq_true, if_false, bind_eq_ok] at hlaw ⊢
          obtain ⟨cap, e1, e2⟩ := hlaw
          rw [get_eq e1]
          cases cap with
          | const c => simp only [Except.ok.injEq] at e2; subst e2; rfl
          | calendar c => cases e2
      obtain ⟨i1, i2, i3⟩ := resourceLaw_spec ho
      refine ⟨?_, ?_, ?_⟩
      · intro r hm
        rcases List.mem_cons.1 hm with rfl | hm
        · exact List.mem_cons_self ..
        · exact List.mem_cons_of_mem _ (i1 r hm)
      · intro hn
        have hn : r0 ∉ Dict.keys ns ∧ (Dict.keys ns).Nodup := List.nodup_cons.1 hn
        exact List.nodup_cons.2 ⟨fun hm => hn.1 (i1 r0 hm), i2 hn.2⟩
      · intro r hn
        have hn : r0 ∉ Dict.keys ns ∧ (Dict.keys ns).Nodup := List.nodup_cons.1 hn
        obtain ⟨j1, j2⟩ := i3 r hn.2
        refine ⟨fun hc => ?_, fun hc => ⟨fun h0 => ?_, fun c hg => ?_⟩⟩
        · rw [get?_cons, if_neg (by rintro rfl; exact hr hc)]; exact j1 hc
        · rw [get?_cons] at h0 ⊢
          split at h0
          · cases h0
          · rename_i hne; rw [if_neg hne]; exact (j2 hc).1 h0
        · rw [get?_cons] at hg ⊢
          split at hg
          · rename_i he
            subst he
            have hg := Option.some.inj hg; subst hg
            exact ⟨law, hl, by rw [if_pos rfl]⟩
          · rename_i hne; rw [if_neg hne]; exact (j2 hc).2 c hg

theorem resourceLaws_spec {pb : Problem} {range : Int} {laws : Laws} (ht : Tidy pb) (h : resourceLaws pb range = .ok laws) :
    laws.keys.Nodup ∧ (∀ q ∈ laws, q.2.keys.Nodup ∧ ∀ p ∈ q.2, p.2.keys.Nodup) ∧
      ∀ j k r, (pb.nonRenewable.contains r = true → lawOf laws j k r = none) ∧
        (pb.nonRenewable.contains r = false → (needOf pb j k r = none → lawOf laws j k r = none) ∧
          ∀ c, needOf pb j k r = some c → ∃ law, resLaw pb (decide (j = 1 ∨ j = pb.sink)) range r c = some law ∧
            lawOf laws j k r = some law) := by
  obtain ⟨g1, g2, g3⟩ := mapD_inv h
  have hnd : laws.keys.Nodup := by rw [g1]; exact ht.acts
  refine ⟨hnd, ?_, ?_⟩
  · intro q hq
    have hg : laws.get? q.1 = some q.2 := Dict.get?_of_mem hnd hq
    cases hm : pb.modes.get? q.1 with
    | none => rw [g3 _ hm] at hg; cases hg
    | some ms =>
      obtain ⟨l, e1, e2⟩ := g2 _ ms hm
      have : l = q.2 := Option.some.inj (e2.symm.trans hg)
      subst this
      obtain ⟨f1, f2, f3⟩ := mapD_inv e1
      have hmem := Dict.mem_of_get? hm
      have hn2 : (Dict.keys q.2).Nodup := by rw [f1]; exact ht.modes _ hmem
      refine ⟨hn2, ?_⟩
      intro p hp
      have hg2 : Dict.get? q.2 p.1 = some p.2 := Dict.get?_of_mem hn2 hp
      cases hm2 : ms.get? p.1 with
      | none => rw [f3 _ hm2] at hg2; cases hg2
      | some m =>
        obtain ⟨l, e3, e4⟩ := f2 _ m hm2
        have : l = p.2 := Option.some.inj (e4.symm.trans hg2)
        subst this
        exact (resourceLaw_spec e3).2.1 (ht.needs _ hmem _ (Dict.mem_of_get? hm2)).1
  · intro j k r
    unfold lawOf needOf
    cases hm : pb.modes.get? j with
    | none =>
      rw [g3 _ hm]
      exact ⟨fun _ => rfl, fun _ => ⟨fun _ => rfl, fun c hc => by cases hc⟩⟩
    | some ms =>
      obtain ⟨l, e1, e2⟩ := g2 _ ms hm
      rw [e2]
      simp only [Option.bind_some]
      obtain ⟨f1, f2, f3⟩ := mapD_inv e1
      cases hm2 : ms.get? k with
      | none =>
        rw [f3 _ hm2]
        exact ⟨fun _ => rfl, fun _ => ⟨fun _ => rfl, fun c hc => by cases hc⟩⟩
      | some m =>
        obtain ⟨l', e3, e4⟩ := f2 _ m hm2
        rw [e4]
        simp only [Option.bind_some]
        exact (resourceLaw_spec e3).2.2 r (ht.needs _ (Dict.mem_of_get? hm) _ (Dict.mem_of_get? hm2)).1

/-- All laws at once. -/
theorem laws_all {pb : Problem} {rr rd : Int} {doRes doDur : Bool} {t : Laws} (ht : Tidy pb)
    (h : makeLaws pb rr rd doRes doDur = .ok t) : ∃ res : Laws, (doRes = true → resourceLaws pb rr = .ok res) ∧
      ∀ j k key, lawOf t j k key = ((if doRes then lawOf res j k key else none) : Option Law).or
        (if doDur then lawOf (durationLaws pb rd) j k key else none) := by
  have hd := durationLaws_tidy ht rd
  have hdur : ∀ j k key, lawOf (if doDur then plantAll [] (durationLaws pb rd) else []) j k key =
      if doDur then lawOf (durationLaws pb rd) j k key else none := by
    intro j k key
    cases doDur with
    | false => rfl
    | true =>
      simp only [if_true]
      rw [lawOf_plantAll j k key _ _ hd.1 hd.2]
      simp [lawOf, Dict.get?]
  unfold makeLaws at h
  cases doRes with
  | false =>
    simp only [Bool.false_eq_true, if_false, Except.ok.injEq] at h
    subst h
    exact ⟨[], fun h => (by cases h), fun j k key => by rw [hdur]; simp⟩
  | true =>
    simp only [if_true, bind_eq_ok, Except.ok.injEq] at h
    obtain ⟨res, hr, rfl⟩ := h
    obtain ⟨r1, r2, -⟩ := resourceLaws_spec ht hr
    refine ⟨res, fun _ => hr, fun j k key => ?_⟩
    rw [lawOf_plantAll j k key _ _ r1 r2, hdur]
    simp

theorem need_duration {pb : Problem} (ht : Tidy pb) (j k : Nat) : needOf pb j k "duration" = none := by
  unfold needOf
  cases hm : pb.modes.get? j with
  | none => rfl
  | some ms =>
    simp only [Option.bind_some]
    cases hm2 : ms.get? k with
    | none => rfl
    | some m =>
      simp only [Option.bind_some]
      exact get?_none_of_notMem (ht.needs _ (Dict.mem_of_get? hm) _ (Dict.mem_of_get? hm2)).2

/-- C179: when durations are uncertain, the law of a duration is the duration for source and sink, otherwise the duration
and the range around it, cut at 1; when they are not, there is none. -/
theorem C179_durations {pb : Problem} {rr rd : Int} {doRes doDur : Bool} {t : Laws} (ht : Tidy pb)
    (h : makeLaws pb rr rd doRes doDur = .ok t) (j k : Nat) : lawOf t j k "duration" =
      if doDur then (durOf pb j k).map (fun d =>
        if j = 1 ∨ j = pb.sink then ⟨d, d, d⟩ else ⟨max 1 (d - rd), d, d + rd⟩) else none := by
  obtain ⟨res, hr, hl⟩ := laws_all ht h
  rw [hl]
  have : (if doRes then lawOf res j k "duration" else none : Option Law) = none := by
    cases doRes with
    | false => rfl
    | true =>
      have hs := (resourceLaws_spec ht (hr rfl)).2.2 j k "duration"
      simp only [if_true]
      cases hc : pb.nonRenewable.contains "duration" with
      | true => exact hs.1 hc
      | false => exact (hs.2 hc).1 (need_duration ht j k)
  rw [this, Option.none_or, lawOf_durations, if_pos rfl]
  rfl

/-- C179: when requirements are uncertain, the law of what an activity requires of a renewable resource is the requirement
for source and sink, otherwise the requirement and the range around it, between 0 and the capacity; there is no law for
other resources, nor when requirements are certain. -/
theorem C179_requirements {pb : Problem} {rr rd : Int} {doRes doDur : Bool} {t : Laws} (ht : Tidy pb)
    (h : makeLaws pb rr rd doRes doDur = .ok t) {r : String} (hr : r ≠ "duration") (j k : Nat) :
    (doRes = false ∨ r ∈ pb.nonRenewable ∨ needOf pb j k r = none → lawOf t j k r = none) ∧
    ∀ c, doRes = true → r ∉ pb.nonRenewable → needOf pb j k r = some c →
      (j = 1 ∨ j = pb.sink → lawOf t j k r = some ⟨c, c, c⟩) ∧
      (¬ (j = 1 ∨ j = pb.sink) → ∃ cap, pb.resources.get? r = some (.const cap) ∧
        lawOf t j k r = some ⟨max 0 (c - rr), c, min (c + rr) cap⟩) := by
  obtain ⟨res, hres, hl⟩ := laws_all ht h
  have hd : (if doDur then lawOf (durationLaws pb rd) j k r else none : Option Law) = none := by
    rw [lawOf_durations, if_neg hr]; simp
  rw [hl, hd]
  refine ⟨?_, ?_⟩
  · intro hcase
    cases doRes with
    | false => rfl
    | true =>
      have hs := (resourceLaws_spec ht (hres rfl)).2.2 j k r
      simp only [if_true, Option.or_none]
      cases hc : pb.nonRenewable.contains r with
      | true => exact hs.1 hc
      | false =>
        rcases hcase with hcase | hcase | hcase
        · cases hcase
        · rw [List.contains_iff_mem.2 hcase] at hc; cases hc
        · exact (hs.2 hc).1 hcase
  · intro c hdo hn hg
    subst hdo
    have hs := (resourceLaws_spec ht (hres rfl)).2.2 j k r
    have hc : pb.nonRenewable.contains r = false := by
      cases hc : pb.nonRenewable.contains r with
      | false => rfl
      | true => exact absurd (List.contains_iff_mem.1 hc) hn
    obtain ⟨law, e1, e2⟩ := (hs.2 hc).2 c hg
    simp only [if_true, Option.or_none, e2]
    refine ⟨fun hj => ?_, fun hj => ?_⟩
    · unfold resLaw at e1
      rw [if_pos (by simpa using hj)] at e1
      rw [← e1]
    · unfold resLaw at e1
      rw [if_neg (by simpa using hj)] at e1
      split at e1
      · rename_i cap hcap
        exact ⟨cap, hcap, by rw [← e1]⟩
      · cases e1

/-- C179: laws contain what the project says, when no activity other than source and sink is shorter than 1 and none
requires more than there is. -/
theorem C179_contain {pb : Problem} {rr rd : Int} {doRes doDur : Bool} {t : Laws} (ht : Tidy pb)
    (h : makeLaws pb rr rd doRes doDur = .ok t) (h1 : 0 ≤ rr) (h2 : 0 ≤ rd)
    (hdur : ∀ j k d, ¬ (j = 1 ∨ j = pb.sink) → durOf pb j k = some d → 1 ≤ d)
    (hneed : ∀ j k r c cap, needOf pb j k r = some c → 0 ≤ c ∧ (pb.resources.get? r = some (.const cap) → c ≤ cap))
    {j k : Nat} {key : String} {l : Law} (hl : lawOf t j k key = some l) :
    0 ≤ l.lo ∧ l.lo ≤ l.mid ∧ l.mid ≤ l.hi ∧
      (if key = "duration" then durOf pb j k else needOf pb j k key) = some l.mid := by
  by_cases hk : key = "duration"
  · subst hk
    rw [C179_durations ht h] at hl
    rw [if_pos rfl]
    split at hl
    · rw [Option.map_eq_some_iff] at hl
      obtain ⟨d, e1, e2⟩ := hl
      have hd0 : 0 ≤ d := by
        simp only [durOf, Option.map_eq_some_iff] at e1
        obtain ⟨m, -, rfl⟩ := e1
        omega
      split at e2
      · subst e2; exact ⟨hd0, le_refl _, le_refl _, e1⟩
      · rename_i hj
        have := hdur j k d hj e1
        subst e2; dsimp only; exact ⟨by omega, by omega, by omega, e1⟩
    · cases hl
  · rw [if_neg hk]
    obtain ⟨g1, g2⟩ := C179_requirements ht h hk j k
    cases hdo : doRes with
    | false => rw [g1 (.inl hdo)] at hl; cases hl
    | true =>
      by_cases hn : key ∈ pb.nonRenewable
      · rw [g1 (.inr (.inl hn))] at hl; cases hl
      · cases hg : needOf pb j k key with
        | none => rw [g1 (.inr (.inr hg))] at hl; cases hl
        | some c =>
          obtain ⟨i1, i2⟩ := g2 c hdo hn hg
          by_cases hj : j = 1 ∨ j = pb.sink
          · rw [i1 hj] at hl
            have hl := Option.some.inj hl; subst hl
            exact ⟨(hneed j k key c 0 hg).1, le_refl _, le_refl _, rfl⟩
          · obtain ⟨cap, e1, e2⟩ := i2 hj
            rw [e2] at hl
            have hl := Option.some.inj hl; subst hl
            have := hneed j k key c cap hg
            have := this.2 e1
            dsimp only; exact ⟨by omega, by omega, by omega, rfl⟩

theorem trio_tidy (d : Nat) : Tidy (trio d) := by
  have h : ∀ q ∈ (trio d).modes, q.2.keys.Nodup ∧ ∀ p ∈ q.2, p.2.needs.keys.Nodup ∧ "duration" ∉ p.2.needs.keys := by
    intro q hq
    have : q = (1, one 0 0) ∨ q = (2, one d 1) ∨ q = (3, one 2 1) ∨ q = (4, one 1 2) ∨ q = (5, one 0 0) := by
      simpa [trio] using hq
    rcases this with rfl | rfl | rfl | rfl | rfl <;>
      simp [one, Dict.keys]
  exact ⟨by show [1, 2, 3, 4, 5].Nodup; decide, fun q hq => (h q hq).1, fun q hq => (h q hq).2⟩

example : ∃ t, makeLaws (trio 4) 1 3 true true = .ok t ∧ lawOf t 2 1 "duration" = some ⟨1, 4, 7⟩ ∧
    lawOf t 4 1 "duration" = some ⟨1, 1, 4⟩ ∧ lawOf t 5 1 "duration" = some ⟨0, 0, 0⟩ ∧
    lawOf t 2 1 "R1" = some ⟨0, 1, 2⟩ ∧ lawOf t 4 1 "R1" = some ⟨1, 2, 2⟩ ∧ lawOf t 2 1 "R2" = none := by
  obtain ⟨t, ht, h⟩ := okAnd_spec (e := makeLaws (trio 4) 1 3 true true) (p := fun t => decide (
    lawOf t 2 1 "duration" = some ⟨1, 4, 7⟩ ∧
    lawOf t 4 1 "duration" = some ⟨1, 1, 4⟩ ∧ lawOf t 5 1 "duration" = some ⟨0, 0, 0⟩ ∧
    lawOf t 2 1 "R1" = some ⟨0, 1, 2⟩ ∧ lawOf t 4 1 "R1" = some ⟨1, 2, 2⟩ ∧ lawOf t 2 1 "R2" = none)) (by decide +kernel)
  exact ⟨t, ht, of_decide_eq_true h⟩

/-- C179 refuted: the law of an activity without duration (a milestone other than source and sink) does not contain its
duration: its shortest duration is 1; and with range 0 it contains nothing, so that the uncertain project cannot be made. -/
theorem C179_milestone_refuted : ∃ pb : Problem, Tidy pb ∧ durOf pb 2 1 = some 0 ∧
    ((makeLaws pb 1 3 true true).toOption.bind (fun t => lawOf t 2 1 "duration")) = some ⟨1, 0, 3⟩ ∧
    ((makeLaws pb 1 0 true true).toOption.bind (fun t => (create pb t true .average).toOption.map (·.horizon))) = none := by
  exact ⟨trio 0, trio_tidy 0, by decide +kernel, by decide +kernel, by decide +kernel⟩

/-- C179 refuted: projects with calendars have no laws for requirements (`TypeError`). -/
theorem C179_calendar_refuted :
    (makeLaws { trio 2 with resources := [("R1", .calendar [2, 2, 2, 2])] } 1 3 true true).map (·.keys) = .error .typeError := by
  decide +kernel

end Verif.Robust
