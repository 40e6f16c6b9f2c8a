import Verif.Lemmas.MultiSkillSpec
import Verif.Lemmas.RcpspCheck
/- What the parts of the check of a multi-skill schedule mean. -/
namespace Verif.MultiSkill
open Verif.Rcpsp (Mode dict_get_ok total addNeeds_eq withinCaps_iff)

theorem allM_iff (f : α → Except PyErr Bool) (l : List α) : allM f l = .ok true ↔ ∀ x ∈ l, f x = .ok true := by
  induction l with
  | nil => simp [allM]
  | cons x l ih =>
    simp only [allM, List.forall_mem_cons]
    constructor
    · intro h
      obtain ⟨b, hb, h⟩ := bind_eq_ok.1 h
      cases b with
      | false => cases h
      | true => exact ⟨hb, ih.1 h⟩
    · rintro ⟨h1, h2⟩
      rw [h1, bind_ok, if_pos rfl]
      exact ih.2 h2

theorem sumM_iff {f : α → Except PyErr Rat} (l : List α) (v : Rat) : sumM f l = .ok v ↔ ∃ g : α → Rat, (∀ x ∈ l, f x = .ok (g x)) ∧ v = (l.map g).sum := by
  constructor
  · intro h
    refine ⟨fun x => match f x with | .ok y => y | .error _ => 0, ?_⟩
    induction l generalizing v with
    | nil => cases h; exact ⟨fun x hx => (by cases hx), rfl⟩
    | cons x l ih =>
      simp only [sumM] at h
      obtain ⟨y, hy, h⟩ := bind_eq_ok.1 h
      obtain ⟨z, hz, h⟩ := bind_eq_ok.1 h
      cases h
      obtain ⟨h1, h2⟩ := ih z hz
      refine ⟨fun x' hx' => ?_, ?_⟩
      · rcases List.mem_cons.1 hx' with rfl | hx'
        · simp only [hy]
        · exact h1 x' hx'
      · simp only [List.map_cons, List.sum_cons, hy, ← h2]
  · rintro ⟨g, h1, h2⟩
    subst h2
    induction l with
    | nil => rfl
    | cons x l ih =>
      simp only [sumM, h1 x (by simp), bind_ok, ih (fun x hx => h1 x (by simp [hx])), List.map_cons, List.sum_cons]

/-- The workers for whom skill `s` is noted. -/
def notedFor (us : Dict Nat (List String)) (s : String) : List Nat := (us.filter (fun q => q.2.contains s)).map (·.1)

theorem skillOf_ok {pb : Problem} {s : String} {w : Nat} : (∃ v, skillOf pb s w = .ok v) ↔ HasSkill pb w s := by
  unfold skillOf HasSkill
  constructor
  · rintro ⟨v, h⟩
    obtain ⟨e, he, h⟩ := bind_eq_ok.1 h
    exact ⟨e, dict_get_ok.1 he, (Dict.get?_isSome_iff_mem_keys _ _).1 (by rw [dict_get_ok.1 h]; rfl)⟩
  · rintro ⟨e, he, hs⟩
    obtain ⟨v, hv⟩ := Option.isSome_iff_exists.1 ((Dict.get?_isSome_iff_mem_keys _ _).2 hs)
    exact ⟨v, by rw [dict_get_ok.2 he, bind_ok, dict_get_ok.2 hv]⟩

theorem skillOf_value {pb : Problem} {s : String} {w : Nat} {v : Rat} (h : skillOf pb s w = .ok v) : v = skillValue pb w s := by
  unfold skillOf at h
  obtain ⟨e, he, h⟩ := bind_eq_ok.1 h
  simp [skillValue, dict_get_ok.1 he, dict_get_ok.1 h]

theorem skillMet_iff {pb : Problem} {sol : Solution} {task : Nat} {s : String} {n : Int} : skillMet pb sol task (s, n) = .ok true ↔
    ∃ us, sol.usage.get? task = some us ∧ (∀ w ∈ notedFor us s, HasSkill pb w s) ∧ (n : Rat) ≤ teamLevel pb (notedFor us s) s := by
  unfold skillMet
  have hsum : ∀ us : Dict Nat (List String), (∀ w ∈ notedFor us s, HasSkill pb w s) →
      sumM (fun q => skillOf pb s q.1) (us.filter (fun q => q.2.contains s)) = .ok (teamLevel pb (notedFor us s) s) := by
    intro us h
    rw [sumM_iff]
    refine ⟨fun q => skillValue pb q.1 s, fun q hq => ?_, by simp [teamLevel, notedFor, Function.comp_def]⟩
    obtain ⟨v, hv⟩ := skillOf_ok.2 (h q.1 (List.mem_map.2 ⟨q, hq, rfl⟩))
    rw [hv, skillOf_value hv]
  constructor
  · intro h
    obtain ⟨us, hus, h⟩ := bind_eq_ok.1 h
    obtain ⟨v, hv, h⟩ := bind_eq_ok.1 h
    have hall : ∀ w ∈ notedFor us s, HasSkill pb w s := by
      intro w hw
      obtain ⟨q, hq, rfl⟩ := List.mem_map.1 hw
      obtain ⟨g, hg, _⟩ := (sumM_iff _ _).1 hv
      exact skillOf_ok.1 ⟨_, hg q hq⟩
    refine ⟨us, dict_get_ok.1 hus, hall, ?_⟩
    have := hsum us hall
    rw [show (fun q : Nat × List String => skillOf pb (s, n).1 q.1) = (fun q => skillOf pb s q.1) from rfl] at hv
    simp only at hv
    rw [this] at hv
    cases hv
    simpa using Except.ok.inj h
  · rintro ⟨us, hus, hall, hle⟩
    simp only [dict_get_ok.2 hus, bind_ok, hsum us hall]
    simpa using hle

theorem allTrue_iff (cal : List Bool) (n c : Nat) : allTrue cal n c = .ok true ↔ ∀ t, c ≤ t → t < c + n → cal[t]? = some true := by
  constructor
  · intro h; exact (allTrue_spec cal n c true h).1 rfl
  · induction n generalizing c with
    | zero => intro _; rfl
    | succ n ih =>
      intro h
      simp only [allTrue, pyGet_ok_iff.2 (h c (Nat.le_refl _) (by omega)), bind_ok, ↓reduceIte]
      exact ih (c + 1) (fun t t1 t2 => h t (by omega) (by omega))

theorem workerFree_iff {pb : Problem} {sol : Solution} {task w : Nat} : workerFree pb sol task w = .ok true ↔
    ∃ s e, sol.schedule.get? task = some (s, e) ∧ (s < e → ∃ emp, pb.employees.get? w = some emp ∧ ∀ t, s ≤ t → t < e → emp.calendar[t]? = some true) := by
  unfold workerFree
  constructor
  · intro h
    obtain ⟨⟨s, e⟩, hp, h⟩ := bind_eq_ok.1 h
    refine ⟨s, e, dict_get_ok.1 hp, fun hlt => ?_⟩
    simp only [hlt, ↓reduceIte] at h
    obtain ⟨emp, hemp, h⟩ := bind_eq_ok.1 h
    obtain ⟨b, hb, h⟩ := bind_eq_ok.1 h
    cases b with
    | false =>
      simp only [Bool.false_eq_true, ↓reduceIte] at h
      obtain ⟨_, _, h⟩ := bind_eq_ok.1 h
      cases h
    | true =>
      refine ⟨emp, dict_get_ok.1 hemp, fun t t1 t2 => (allTrue_iff _ _ _).1 hb t t1 (by omega)⟩
  · rintro ⟨s, e, hp, h⟩
    simp only [dict_get_ok.2 hp, bind_ok]
    by_cases hlt : s < e
    · obtain ⟨emp, hemp, hcal⟩ := h hlt
      simp only [hlt, ↓reduceIte, dict_get_ok.2 hemp, bind_ok]
      rw [(allTrue_iff _ _ _).2 (fun t t1 t2 => hcal t t1 (by omega)), bind_ok, if_pos rfl]
    · simp only [hlt, ↓reduceIte, bind_ok, show e - s = 0 by omega]
      rfl

theorem overlap_iff {sol : Solution} {t1 t2 : Nat} {b : Bool} : overlap sol t1 t2 = .ok b ↔
    (t1 < t2 → ∃ x y, sol.schedule.get? t1 = some x ∧ sol.schedule.get? t2 = some y ∧ b = intersects x y) ∧ (¬ t1 < t2 → b = false) := by
  unfold overlap
  split
  · rename_i hlt
    constructor
    · intro h
      obtain ⟨x, hx, h⟩ := bind_eq_ok.1 h
      obtain ⟨y, hy, h⟩ := bind_eq_ok.1 h
      cases h
      exact ⟨fun _ => ⟨x, y, dict_get_ok.1 hx, dict_get_ok.1 hy, rfl⟩, fun h => absurd hlt h⟩
    · rintro ⟨h, _⟩
      obtain ⟨x, y, hx, hy, rfl⟩ := h hlt
      rw [dict_get_ok.2 hx, bind_ok, dict_get_ok.2 hy, bind_ok]
  · rename_i hlt
    constructor
    · intro h; cases h; exact ⟨fun h => absurd h hlt, fun _ => rfl⟩
    · rintro ⟨_, h⟩; rw [h hlt]

theorem overlapsFrom_ok {sol : Solution} {t1 : Nat} : ∀ (all : List Nat) (r : List (Nat × Nat)), overlapsFrom sol t1 all = .ok r →
    (∀ t2 ∈ all, ∃ b, overlap sol t1 t2 = .ok b) ∧ ∀ p, p ∈ r ↔ p.1 = t1 ∧ p.2 ∈ all ∧ overlap sol t1 p.2 = .ok true := by
  intro all
  induction all with
  | nil => intro r h; cases h; simp
  | cons t2 all ih =>
    intro r h
    simp only [overlapsFrom] at h
    obtain ⟨b, hb, h⟩ := bind_eq_ok.1 h
    obtain ⟨r', hr', h⟩ := bind_eq_ok.1 h
    cases h
    obtain ⟨h1, h2⟩ := ih r' hr'
    refine ⟨fun t ht => ?_, fun p => ?_⟩
    · rcases List.mem_cons.1 ht with rfl | ht
      · exact ⟨b, hb⟩
      · exact h1 t ht
    · obtain ⟨p1, p2⟩ := p
      cases b with
      | true =>
        simp only [↓reduceIte, List.mem_cons, Prod.mk.injEq, h2]
        constructor
        · rintro (⟨rfl, rfl⟩ | ⟨g1, g2, g3⟩)
          · exact ⟨rfl, .inl rfl, hb⟩
          · exact ⟨g1, .inr g2, g3⟩
        · rintro ⟨g1, g2 | g2, g3⟩
          · exact .inl ⟨g1, g2⟩
          · exact .inr ⟨g1, g2, g3⟩
      | false =>
        simp only [Bool.false_eq_true, ↓reduceIte, List.mem_cons, h2]
        constructor
        · rintro ⟨g1, g2, g3⟩; exact ⟨g1, .inr g2, g3⟩
        · rintro ⟨g1, g2 | g2, g3⟩
          · subst g2; rw [hb] at g3; cases g3
          · exact ⟨g1, g2, g3⟩

theorem overlapsFrom_total {sol : Solution} {t1 : Nat} : ∀ (all : List Nat), (∀ t2 ∈ all, ∃ b, overlap sol t1 t2 = .ok b) → ∃ r, overlapsFrom sol t1 all = .ok r := by
  intro all
  induction all with
  | nil => intro _; exact ⟨_, rfl⟩
  | cons t2 all ih =>
    intro h
    obtain ⟨b, hb⟩ := h t2 (by simp)
    obtain ⟨r, hr⟩ := ih (fun t ht => h t (by simp [ht]))
    exact ⟨_, by simp only [overlapsFrom, hb, bind_ok, hr]; rfl⟩

theorem overlaps_ok {sol : Solution} {all : List Nat} : ∀ (l : List Nat) (r : List (Nat × Nat)), overlaps sol all l = .ok r →
    (∀ t1 ∈ l, ∀ t2 ∈ all, ∃ b, overlap sol t1 t2 = .ok b) ∧ ∀ p, p ∈ r ↔ p.1 ∈ l ∧ p.2 ∈ all ∧ overlap sol p.1 p.2 = .ok true := by
  intro l
  induction l with
  | nil => intro r h; cases h; simp
  | cons t1 l ih =>
    intro r h
    simp only [overlaps] at h
    obtain ⟨a, ha, h⟩ := bind_eq_ok.1 h
    obtain ⟨r', hr', h⟩ := bind_eq_ok.1 h
    cases h
    obtain ⟨h1, h2⟩ := ih r' hr'
    obtain ⟨k1, k2⟩ := overlapsFrom_ok _ _ ha
    refine ⟨fun t ht => ?_, fun p => ?_⟩
    · rcases List.mem_cons.1 ht with rfl | ht
      · exact k1
      · exact h1 t ht
    · obtain ⟨p1, p2⟩ := p
      simp only [List.mem_append, k2, h2, List.mem_cons]
      constructor
      · rintro (⟨rfl, g2, g3⟩ | ⟨g1, g2, g3⟩)
        · exact ⟨.inl rfl, g2, g3⟩
        · exact ⟨.inr g1, g2, g3⟩
      · rintro ⟨rfl | g1, g2, g3⟩
        · exact .inl ⟨rfl, g2, g3⟩
        · exact .inr ⟨g1, g2, g3⟩

theorem overlaps_total {sol : Solution} {all : List Nat} : ∀ (l : List Nat), (∀ t1 ∈ l, ∀ t2 ∈ all, ∃ b, overlap sol t1 t2 = .ok b) →
    ∃ r, overlaps sol all l = .ok r := by
  intro l
  induction l with
  | nil => intro _; exact ⟨_, rfl⟩
  | cons t1 l ih =>
    intro h
    obtain ⟨a, ha⟩ := overlapsFrom_total all (h t1 (by simp))
    obtain ⟨r, hr⟩ := ih (fun t ht => h t (by simp [ht]))
    exact ⟨_, by simp only [overlaps, ha, bind_ok, hr]; rfl⟩

/-- No worker is noted for both activities. -/
def Apart (sol : Solution) (a b : Nat) : Prop := ∀ w us vs, sol.usage.get? a = some us → sol.usage.get? b = some vs → w ∈ us.keys → w ∉ vs.keys

theorem apart_iff {sol : Solution} {a b : Nat} : apart sol (a, b) = true ↔ Apart sol a b := by
  unfold apart Apart
  simp only [Bool.not_eq_eq_eq_not, Bool.not_true, List.any_eq_false]
  constructor
  · intro h w us vs h1 h2 h3 h4
    apply h w (by rw [h1]; exact h3)
    rw [h2, Dict.contains_iff, Dict.get?_isSome_iff_mem_keys]; exact h4
  · intro h w hw hc
    rw [Dict.contains_iff, Dict.get?_isSome_iff_mem_keys] at hc
    rcases h1 : sol.usage.get? a with _ | us
    · rw [h1] at hw; cases hw
    · rcases h2 : sol.usage.get? b with _ | vs
      · rw [h2] at hc; cases hc
      · rw [h1] at hw; rw [h2] at hc
        exact h w us vs h1 h2 hw hc

/-- Does the activity run at time `t`? -/
def runsAt (sch : Schedule) (t a : Nat) : Bool :=
  match sch.get? a with
  | some p => decide (p.1 ≤ t) && decide (t < p.2)
  | none => false

theorem usageAt_eq {pb : Problem} {sol : Solution} {t : Nat} {need : String → Nat → Int} : ∀ (acts : List Nat)
    (u : Dict String Int), (∀ a ∈ acts, (∃ p, sol.schedule.get? a = some p) ∧ ∃ k, sol.modes.get? a = some k ∧ ∀ res ∈ u.keys, ∃ d m, pb.modes.get? a = some d ∧
      d.get? k = some m ∧ m.needs.get? res = some (need res a)) →
    usageAt pb sol t acts u = .ok (u.map (fun p => (p.1, p.2 + total (need p.1) (acts.filter (runsAt sol.schedule t))))) := by
  intro acts
  induction acts with
  | nil => intro u _; simp [usageAt, total]
  | cons a acts ih =>
    intro u h
    obtain ⟨⟨p, hp⟩, k, hk, hn⟩ := h a (by simp)
    simp only [usageAt, dict_get_ok.2 hp, bind_ok, dict_get_ok.2 hk]
    by_cases hc : p.1 ≤ t ∧ t < p.2
    · rw [if_pos hc, addNeeds_eq (pb := pb.base) (need := need) u hn, bind_ok, ih]
      · simp only [List.map_map, Except.ok.injEq]
        apply List.map_congr_left
        intro q _
        have : runsAt sol.schedule t a = true := by simp [runsAt, hp, hc]
        simp only [Function.comp, List.filter_cons, this, ↓reduceIte, total, List.map_cons, List.sum_cons]
        congr 1; omega
      · intro b hb
        obtain ⟨g1, k', g2, g3⟩ := h b (by simp [hb])
        refine ⟨g1, k', g2, fun res hr => g3 res ?_⟩
        simpa [Dict.keys] using hr
    · rw [if_neg hc, ih]
      · simp only [Except.ok.injEq]
        apply List.map_congr_left
        intro q _
        have : runsAt sol.schedule t a = false := by
          simp only [runsAt, hp, Bool.and_eq_false_iff, decide_eq_false_iff_not]
          omega
        simp only [List.filter_cons, this, Bool.false_eq_true, ↓reduceIte]
      · intro b hb
        exact h b (by simp [hb])

theorem sumInt_eq {f : α → Except PyErr Int} {g : α → Int} (l : List α) (h : ∀ x ∈ l, f x = .ok (g x)) : sumM f l = .ok (l.map g).sum := by
  induction l with
  | nil => rfl
  | cons x l ih => simp only [sumM, h x (by simp), bind_ok, ih (fun x hx => h x (by simp [hx])), List.map_cons, List.sum_cons]

theorem get?_zero (f : String → Int) (res : String) : ∀ d : Dict String (List Int), res ∈ d.keys →
    Dict.get? ((d.map (fun p => (p.1, (0 : Int)))).map (fun p => (p.1, p.2 + f p.1))) res = some (f res) := by
  intro d
  induction d with
  | nil => intro h; simp [Dict.keys] at h
  | cons p d ih =>
    intro h
    obtain ⟨k, x⟩ := p
    simp only [List.map_cons, Dict.get?]
    split
    · rename_i e; subst e; simp
    · rename_i e
      apply ih
      simp only [Dict.keys, List.map_cons, List.mem_cons] at h ⊢
      rcases h with g | g
      · exact absurd g.symm e
      · exact g

theorem checkSuccs_iff {sol : Solution} {a : Nat} {ss : List Nat} : checkSuccs sol (a, ss) = .ok true ↔
    ∀ b ∈ ss, ∃ sa ea sb eb, sol.schedule.get? a = some (sa, ea) ∧ sol.schedule.get? b = some (sb, eb) ∧ ea ≤ sb := by
  unfold checkSuccs
  rw [allM_iff]
  constructor
  · intro h b hb
    have := h b hb
    obtain ⟨⟨sb, eb⟩, h1, this⟩ := bind_eq_ok.1 this
    obtain ⟨⟨sa, ea⟩, h2, this⟩ := bind_eq_ok.1 this
    exact ⟨sa, ea, sb, eb, dict_get_ok.1 h2, dict_get_ok.1 h1, by simpa using Except.ok.inj this⟩
  · intro h b hb
    obtain ⟨sa, ea, sb, eb, h1, h2, h3⟩ := h b hb
    simp only [dict_get_ok.2 h1, dict_get_ok.2 h2, bind_ok]
    simpa using h3

end Verif.MultiSkill
