import Verif.Props.RcpspContinue
import Verif.Lemmas.RcpspRegen
import Verif.Lemmas.RcpspInside
/-
Properties of schedule generation from the permutation of a schedule
(`skdecide/builders/discrete_optimization/rcpsp/rcpsp_model.py`, `generate_permutation_from_schedule` and
`generate_schedule_from_permutation_serial_sgs`).
-/
namespace Verif.Rcpsp

/-- A feasible schedule, every activity `a` being done in the mode at place `a - 1` of `ext`. -/
structure Feasible (pb : Problem) (ext : List Nat) (sch : Dict Nat (Int × Int)) : Prop where
  activities : sch.keys.Perm (List.range' 1 pb.modes.length)
  times : ∀ a s e, sch.get? a = some (s, e) → ∃ d k m, pb.modes.get? a = some d ∧ ext[a - 1]? = some k ∧ d.get? k = some m ∧
    0 ≤ s ∧ e = s + m.duration ∧ e ≤ (pb.horizon * pb.multiplier : Nat)
  precedence : ∀ a ss, (a, ss) ∈ pb.successors → ∀ b ∈ ss, ∀ sa ea sb eb, sch.get? a = some (sa, ea) → sch.get? b = some (sb, eb) → ea ≤ sb
  renewable : ∀ res cap, pb.resources.get? res = some cap → res ∉ pb.nonRenewable → ∀ need : Nat → Int,
    (∀ a d k m n, pb.modes.get? a = some d → ext[a - 1]? = some k → d.get? k = some m → m.needs.get? res = some n → need a = n) →
    ∀ (t : Nat) c, t < pb.horizon * pb.multiplier → capOf cap t = some c → load need sch t sch.keys ≤ c
  nonRenewable : ∀ res cap, pb.resources.get? res = some cap → res ∈ pb.nonRenewable → ∀ need : Nat → Int,
    (∀ a d k m n, pb.modes.get? a = some d → ext[a - 1]? = some k → d.get? k = some m → m.needs.get? res = some n → need a = n) →
    ∀ (t : Nat) c, t < pb.horizon * pb.multiplier → capOf cap t = some c → total need (sch.keys.filter (takesTime sch)) ≤ c

/-- Nothing starts before the source or after the sink. -/
def Framed (pb : Problem) (sch : Dict Nat (Int × Int)) : Prop :=
  ∀ a p, sch.get? a = some p → (∀ q, sch.get? 1 = some q → q.1 ≤ p.1) ∧ ∀ q, sch.get? pb.modes.length = some q → p.1 ≤ q.1

theorem isNeed_of {pb : Problem} {ext : List Nat} {res : String} {need : Nat → Int}
    (h : ∀ a d k m n, pb.modes.get? a = some d → ext[a - 1]? = some k → d.get? k = some m → m.needs.get? res = some n → need a = n) :
    IsNeed pb ext res need := by
  intro a m n hd hn
  obtain ⟨d, k, h1, h2, h3⟩ := details_ok hd
  exact h a d k m n h1 h2 h3 hn

theorem details_of {pb : Problem} {ext : List Nat} {a k : Nat} {d : Dict Nat Mode} {m : Mode} (h1 : pb.modes.get? a = some d)
    (h2 : ext[a - 1]? = some k) (h3 : d.get? k = some m) : details pb ext a = .ok m := by
  simp only [details, dict_get_ok.2 h1, bind_ok, pyGet_ok_iff.2 h2, dict_get_ok.2 h3]

theorem regen_core {pb : Problem} {modes ext : List Nat} {sch : Dict Nat (Int × Int)} (inst : Instance pb) (hm : modes.length + 2 = pb.modes.length)
    (hext : fixModes pb 0 (1 :: modes ++ [1]) = .ok ext) (hf : Feasible pb ext sch) (hfr : Framed pb sch)
    (hneeds : ∀ a d k m res n, pb.modes.get? a = some d → d.get? k = some m → m.needs.get? res = some n → 0 ≤ n) :
    ∃ (l : List Nat) (S : Nat → Nat) (r : Result), permOf sch = .ok (l.map Int.ofNat) ∧ l.Perm (List.range (pb.modes.length - 2)) ∧
      (∀ a, 1 ≤ a → a ≤ pb.modes.length → sch.get? a = some ((S a : Int), ((S a + dur pb ext a : Nat) : Int))) ∧
      Target pb ext (extended pb l) S ∧ sgs pb l modes = .ok r ∧ r.feasible = true ∧
      ∃ st, Inv pb (fun _ => 0) ext (extended pb l) st ∧ st.flag = false ∧ st.perm = [] ∧ r.schedule = placed pb ext st.ends ∧
        ∀ a e, (a, e) ∈ st.ends → e ≤ S a + dur pb ext a := by
  have hnd : sch.keys.Nodup := hf.activities.nodup_iff.2 List.nodup_range'
  have hkeys : ∀ a, a ∈ sch.keys ↔ 1 ≤ a ∧ a ≤ pb.modes.length := fun a => by
    rw [hf.activities.mem_iff, List.mem_range'_1]; omega
  obtain ⟨li, hperm, hlp, hls⟩ := C58_permutation inst.two hf.activities
  have hli : (li.map Int.toNat).map Int.ofNat = li := by
    rw [List.map_map]
    conv => rhs; rw [← List.map_id li]
    apply List.map_congr_left
    intro x hx
    obtain ⟨y, _, rfl⟩ := List.mem_map.1 (hlp.mem_iff.1 hx)
    simp
  have hl : (li.map Int.toNat).Perm (List.range (pb.modes.length - 2)) := by
    have := hlp.map Int.toNat
    rw [List.map_map] at this
    have e : (List.range (pb.modes.length - 2)).map (Int.toNat ∘ Int.ofNat) = List.range (pb.modes.length - 2) := by
      conv => rhs; rw [← List.map_id (List.range (pb.modes.length - 2))]
      apply List.map_congr_left
      intro x _; simp
    rwa [e] at this
  have hget : ∀ a, 1 ≤ a → a ≤ pb.modes.length → ∃ s e, sch.get? a = some (s, e) := by
    intro a h1 h2
    obtain ⟨⟨s, e⟩, h⟩ := Option.isSome_iff_exists.1 ((Dict.get?_isSome_iff_mem_keys _ _).2 ((hkeys a).2 ⟨h1, h2⟩))
    exact ⟨s, e, h⟩
  have hS : ∀ a, 1 ≤ a → a ≤ pb.modes.length → sch.get? a = some ((((sch.get? a).getD (0, 0)).1.toNat : Int),
      ((((sch.get? a).getD (0, 0)).1.toNat + dur pb ext a : Nat) : Int)) ∧ ((sch.get? a).getD (0, 0)).1.toNat + dur pb ext a ≤ pb.newHorizon := by
    intro a h1 h2
    obtain ⟨s, e, h⟩ := hget a h1 h2
    obtain ⟨d, k, m, g1, g2, g3, g4, g5, g6⟩ := hf.times a s e h
    have hd : dur pb ext a = m.duration := by simp [dur, details_of g1 g2 g3]
    rw [h]
    simp only [Option.getD_some, Option.some.injEq, Prod.mk.injEq, Problem.newHorizon, hd]
    omega
  obtain ⟨hE, hmemE⟩ := extended_nodup inst.two hl
  have wf := wf_of_instance inst hl hm hext
  let S : Nat → Nat := fun a => ((sch.get? a).getD (0, 0)).1.toNat
  have hruns : ∀ a ∈ extended pb (li.map Int.toNat), ∀ t : Nat, runsAt sch t a = decide (S a ≤ t ∧ t < S a + dur pb ext a) := by
    intro a ha t
    obtain ⟨h1, h2⟩ := (hmemE a).1 ha
    unfold runsAt
    rw [(hS a h1 h2).1]
    simp only [decide_eq_decide]
    show ((S a : Int) ≤ t ∧ (t : Int) < ((S a + dur pb ext a : Nat) : Int)) ↔ _
    omega
  have htakes : ∀ a ∈ extended pb (li.map Int.toNat), takesTime sch a = decide (0 < dur pb ext a) := by
    intro a ha
    obtain ⟨h1, h2⟩ := (hmemE a).1 ha
    unfold takesTime
    rw [(hS a h1 h2).1]
    simp only [decide_eq_decide]
    show ((S a : Int) < ((S a + dur pb ext a : Nat) : Int)) ↔ _
    omega
  have hEk : (extended pb (li.map Int.toNat)).Perm sch.keys := by
    rw [List.perm_ext_iff_of_nodup hE hnd]
    intro a; rw [hmemE, hkeys]
  have tg : Target pb ext (extended pb (li.map Int.toNat)) S := by
    refine ⟨?_, ?_, ?_, ?_⟩
    · intro a ha
      obtain ⟨h1, h2⟩ := (hmemE a).1 ha
      exact (hS a h1 h2).2
    · intro a ss hss b hb ha hbE
      obtain ⟨h1, h2⟩ := (hmemE a).1 ha
      obtain ⟨h3, h4⟩ := (hmemE b).1 hbE
      have := hf.precedence a ss hss b hb _ _ _ _ (hS a h1 h2).1 (hS b h3 h4).1
      show S a + _ ≤ S b
      have : ((S a + dur pb ext a : Nat) : Int) ≤ (S b : Int) := this
      omega
    · have hle : ∀ a b p q, sch.get? a = some p → sch.get? b = some q → p.1 ≤ q.1 → S a ≤ S b := by
        intro a b p q h1 h2 h3
        show ((sch.get? a).getD (0, 0)).1.toNat ≤ ((sch.get? b).getD (0, 0)).1.toNat
        rw [h1, h2]
        simp only [Option.getD_some]
        omega
      have hin : ∀ x ∈ (li.map Int.toNat).map (· + 2), ∃ p, sch.get? x = some p := by
        intro x hx
        obtain ⟨y, hy, rfl⟩ := List.mem_map.1 hx
        have := List.mem_range.1 (hl.mem_iff.1 hy)
        obtain ⟨s, e, h⟩ := hget (y + 2) (by omega) (by omega)
        exact ⟨_, h⟩
      obtain ⟨s1, e1, g1⟩ := hget 1 (by omega) (by have := inst.two; omega)
      obtain ⟨s2, e2, g2⟩ := hget pb.modes.length (by have := inst.two; omega) (by omega)
      unfold extended
      rw [List.cons_append, List.pairwise_cons]
      constructor
      · intro a ha
        have : ∃ p, sch.get? a = some p := by
          rcases List.mem_append.1 ha with h | h
          · exact hin a h
          · rw [List.mem_singleton.1 h]; exact ⟨_, g2⟩
        obtain ⟨p, hp⟩ := this
        exact hle 1 a _ _ g1 hp ((hfr a p hp).1 _ g1)
      · rw [List.pairwise_append]
        refine ⟨?_, by simp, ?_⟩
        · rw [List.pairwise_map, List.pairwise_map]
          refine hls.imp_of_mem ?_
          intro x y hx hy h
          obtain ⟨x', hx', rfl⟩ := List.mem_map.1 (hlp.mem_iff.1 hx)
          obtain ⟨y', hy', rfl⟩ := List.mem_map.1 (hlp.mem_iff.1 hy)
          rw [List.mem_range] at hx' hy'
          obtain ⟨sx, ex, hgx⟩ := hget (x' + 2) (by omega) (by omega)
          obtain ⟨sy, ey, hgy⟩ := hget (y' + 2) (by omega) (by omega)
          refine hle _ _ (sx, ex) (sy, ey) (by simpa using hgx) (by simpa using hgy) ?_
          apply h
          · rw [show (Int.ofNat x' + 2).toNat = x' + 2 by simp; omega]; exact hgx
          · rw [show (Int.ofNat y' + 2).toNat = y' + 2 by simp; omega]; exact hgy
        · intro a ha b hb
          rw [List.mem_singleton.1 hb]
          obtain ⟨p, hp⟩ := hin a ha
          exact hle a _ _ _ hp g2 ((hfr a p hp).2 _ g2)
    · intro res cap hcap
      refine ⟨fun a => match details pb ext a with | .ok m => (m.needs.get? res).getD 0 | .error _ => 0, ?_⟩
      have hneed : ∀ a d k m n, pb.modes.get? a = some d → ext[a - 1]? = some k → d.get? k = some m → m.needs.get? res = some n →
          (match details pb ext a with | .ok m => (m.needs.get? res).getD 0 | .error _ => 0) = n := by
        intro a d k m n h1 h2 h3 h4
        rw [details_of h1 h2 h3]
        simp [h4]
      refine ⟨isNeed_of hneed, ?_, ?_, ?_⟩
      · intro a _
        cases h : details pb ext a with
        | error e => exact Int.le_refl _
        | ok m =>
          simp only
          cases h2 : m.needs.get? res with
          | none => exact Int.le_refl _
          | some n =>
            obtain ⟨d, k, g1, g2, g3⟩ := details_ok h
            exact hneeds a d k m res n g1 g3 h2
      · intro hnr t ht c hc
        have := hf.nonRenewable res cap hcap (by simpa using hnr) _ hneed t c ht hc
        refine Int.le_trans (Int.le_of_eq ?_) this
        unfold total
        rw [← (List.Perm.map _ (hEk.filter (takesTime sch))).sum_eq, List.filter_congr htakes]
      · intro hnr t ht c hc
        have := hf.renewable res cap hcap (by simpa using hnr) _ hneed t c ht hc
        refine Int.le_trans (Int.le_of_eq ?_) this
        unfold load total
        rw [← (List.Perm.map _ (hEk.filter (runsAt sch t))).sum_eq, List.filter_congr (fun a ha => hruns a ha t)]
  obtain ⟨r, hr⟩ := sgs_ok hE inst.resources hext wf
  have hr' := hr
  simp only [sgs, hext, bind_ok] at hr
  obtain ⟨st, hst, hr⟩ := bind_eq_ok.1 hr
  obtain ⟨sch', hsch, hr⟩ := bind_eq_ok.1 hr
  obtain ⟨⟨s2, f2⟩, hfin, hr⟩ := bind_eq_ok.1 hr
  have inv0 := init_inv pb (fun _ => 0) ext (extended pb (li.map Int.toNat))
  obtain ⟨hfl, hends⟩ := regen_loop hE inst.resources wf tg _ _ st inv0 (by simp [initFrom, Dict.keys]) rfl (by intro a e h; simp [initFrom] at h) hst
  obtain ⟨inv, hend⟩ := loop_inv hE inst.resources _ _ _ inv0 (Nat.le_refl _) hst
  rw [hfl] at hfin
  cases hfin
  cases hr
  refine ⟨li.map Int.toNat, S, _, by rw [hli]; exact hperm, hl, fun a h1 h2 => (hS a h1 h2).1, tg, hr', rfl, st, inv, hfl, ?_, times_spec _ _ hsch, hends⟩
  rcases hend with g | g
  · rw [hfl] at g; cases g
  · exact g

/-! ### C96: generation from the order of a schedule -/

/-- The permutation of a feasible schedule, given to schedule generation with the same modes, leads to a feasible schedule in which no activity
is later. -/
theorem C96_never_later {pb : Problem} {modes : List Nat} {sch : Dict Nat (Int × Int)} (inst : Instance pb) (hm : modes.length + 2 = pb.modes.length)
    (hf : Feasible pb (1 :: modes ++ [1]) sch) (hfr : Framed pb sch)
    (hneeds : ∀ a d k m res n, pb.modes.get? a = some d → d.get? k = some m → m.needs.get? res = some n → 0 ≤ n) :
    ∃ (l : List Nat) (r : Result), permOf sch = .ok (l.map Int.ofNat) ∧ sgs pb l modes = .ok r ∧ r.feasible = true ∧
      ∀ a s e, sch.get? a = some (s, e) → ∃ s' e', r.schedule.get? a = some (s', e') ∧ s' ≤ s ∧ e' ≤ e := by
  obtain ⟨ext, hext⟩ := fix_of_instance inst hm
  have hkeys : ∀ a, a ∈ sch.keys ↔ 1 ≤ a ∧ a ≤ pb.modes.length := fun a => by
    rw [hf.activities.mem_iff, List.mem_range'_1]; omega
  have hee : ext = 1 :: modes ++ [1] := by
    obtain ⟨h1, h2⟩ := fixModes_spec pb _ _ _ hext
    apply List.ext_getElem? 
    intro j
    by_cases hj : j < (1 :: modes ++ [1]).length
    · obtain ⟨d, g1, g2⟩ := h2 j _ (List.getElem?_eq_getElem hj)
      obtain ⟨⟨s, e⟩, hse⟩ := Option.isSome_iff_exists.1 ((Dict.get?_isSome_iff_mem_keys _ _).2 ((hkeys (0 + j + 1)).2 (by simp at hj; omega)))
      obtain ⟨d', k, m, k1, k2, k3, _⟩ := hf.times _ s e hse
      rw [g1] at k1; cases k1
      rw [show 0 + j + 1 - 1 = j by omega, List.getElem?_eq_getElem hj] at k2
      have hk : k ∈ d.keys := (Dict.get?_isSome_iff_mem_keys _ _).1 (by rw [k3]; rfl)
      rw [g2, List.getElem?_eq_getElem hj, Option.some.inj k2, if_pos hk]
    · rw [List.getElem?_eq_none_iff.2 (by omega), List.getElem?_eq_none_iff.2 (by omega)]
  rw [← hee] at hf
  obtain ⟨l, S, r, h1, h2, h3, h4, h5, h6, st, inv, _, hp, hsch, hle⟩ := regen_core inst hm hext hf hfr hneeds
  refine ⟨l, r, h1, h5, h6, fun a s e ha => ?_⟩
  have hr := (hkeys a).1 ((Dict.get?_isSome_iff_mem_keys _ _).1 (by rw [ha]; rfl))
  rw [h3 a hr.1 hr.2] at ha
  cases ha
  have hae : a ∈ st.ends.keys := (all_placed inv hp a).2 (((extended_nodup inst.two h2).2 a).2 hr)
  obtain ⟨⟨a', e⟩, hm', rfl⟩ := List.mem_map.1 hae
  have hle' := hle a' e hm'
  have hns : r.schedule.keys.Nodup := by rw [hsch, placed_keys]; exact inv.nodup
  refine ⟨_, _, Dict.get?_of_mem hns (show (a', ((e : Int) - dur pb ext a', (e : Int))) ∈ r.schedule by rw [hsch]; exact mem_placed.2 ⟨e, hm', rfl, rfl⟩), ?_, ?_⟩ <;>
  simp only at * <;> omega

theorem total_pos {need : Nat → Int} {l : List Nat} (h : ∀ a ∈ l, 0 ≤ need a) : 0 ≤ total need l := by
  unfold total
  induction l with
  | nil => exact Int.le_refl _
  | cons a l ih =>
    have := h a (by simp)
    have := ih (fun a ha => h a (by simp [ha]))
    simp only [List.map_cons, List.sum_cons]; omega

/-- A generated schedule is feasible. -/
theorem feasible_generated {pb : Problem} {perm modes : List Nat} {r : Result} (inst : Instance pb) (hp : perm.Perm (List.range (pb.modes.length - 2)))
    (h : sgs pb perm modes = .ok r) (hf : r.feasible = true)
    (hpos : ∀ res cap, pb.resources.get? res = some cap → ∀ t c, capOf cap t = some c → 0 ≤ c)
    (hconst : ∀ res cap, pb.resources.get? res = some cap → res ∈ pb.nonRenewable → ∃ c, cap = .const c)
    (hin : ∀ a s e, (a, (s, e)) ∈ r.schedule → e ≤ (pb.horizon * pb.multiplier : Nat)) : Feasible pb r.ext r.schedule := by
  obtain ⟨hE, hmemE⟩ := extended_nodup inst.two hp
  obtain ⟨hnd, hkeys⟩ := C26_activities hE inst.resources h hf
  refine ⟨?_, ?_, ?_, ?_, ?_⟩
  · rw [List.perm_ext_iff_of_nodup hnd List.nodup_range']
    intro a
    rw [hkeys, List.mem_range'_1]
    have := hmemE a
    simp only [extended, List.cons_append, List.mem_cons, List.mem_append, List.mem_map, List.not_mem_nil, or_false, Problem.sink] at this
    constructor
    · intro g
      have := this.1 (by
        rcases g with g | ⟨x, hx, g⟩ | g
        · exact .inl g
        · exact .inr (.inl ⟨x, hx, g.symm⟩)
        · exact .inr (.inr g))
      omega
    · intro g
      rcases this.2 (by omega) with g | ⟨x, hx, g⟩ | g
      · exact .inl g
      · exact .inr (.inl ⟨x, hx, g.symm⟩)
      · exact .inr (.inr g)
  · intro a s e ha
    have hm := Dict.mem_of_get? ha
    obtain ⟨d, k, m, h1, h2, h3, h4, h5⟩ := C26_durations hE inst.resources h hf a s e hm
    exact ⟨d, k, m, h1, h2, h3, h4, h5, hin a s e hm⟩
  · intro a ss hss b hb sa ea sb eb ha hb'
    exact C26_precedence hE inst.resources inst.successors.1 h hf a ss b hss hb sa ea sb eb (Dict.mem_of_get? ha) (Dict.mem_of_get? hb')
  · intro res cap hcap hr need hneed t c _ hc
    exact C26_renewable hE inst.resources h hf hcap (hpos res cap hcap) hr hneed t c hc
  · intro res cap hcap hr need hneed t c _ hc
    obtain ⟨c', rfl⟩ := hconst res cap hcap hr
    rw [show c = c' from (Option.some.inj hc).symm]
    exact C26_nonrenewable_partial hE inst.resources h hf hcap (hpos res _ hcap) hr hneed c' rfl

/-- The permutation of a schedule made by schedule generation leads back to it: with the same modes, every activity gets the same times. -/
theorem C96_fixed_point {pb : Problem} {perm modes : List Nat} {r0 : Result} (inst : Instance pb) (hp : perm.Perm (List.range (pb.modes.length - 2)))
    (hm : modes.length + 2 = pb.modes.length) (h0 : sgs pb perm modes = .ok r0) (hf0 : r0.feasible = true) (hfr : Framed pb r0.schedule)
    (hpos : ∀ res cap, pb.resources.get? res = some cap → ∀ t c, capOf cap t = some c → 0 ≤ c)
    (hconst : ∀ res cap, pb.resources.get? res = some cap → res ∈ pb.nonRenewable → ∃ c, cap = .const c)
    (hneeds : ∀ a d k m res n, pb.modes.get? a = some d → d.get? k = some m → m.needs.get? res = some n → 0 ≤ n)
    (hin : pb.resources = [] → ∀ a s e, (a, (s, e)) ∈ r0.schedule → e ≤ (pb.horizon * pb.multiplier : Nat)) :
    ∃ (l : List Nat) (r : Result), permOf r0.schedule = .ok (l.map Int.ofNat) ∧ sgs pb l modes = .ok r ∧ r.feasible = true ∧
      ∀ a, r.schedule.get? a = r0.schedule.get? a := by
  obtain ⟨hE0, hmemE0⟩ := extended_nodup inst.two hp
  have hin : ∀ a s e, (a, (s, e)) ∈ r0.schedule → e ≤ (pb.horizon * pb.multiplier : Nat) := by
    by_cases hr : pb.resources = []
    · exact hin hr
    · exact generated_inside hE0 inst.resources hr h0 hf0
  have hfe := feasible_generated inst hp h0 hf0 hpos hconst hin
  obtain ⟨st0, inv0, hext, hfl0, hend0⟩ := sgs_inv hE0 inst.resources h0
  obtain ⟨hp0, hsch0⟩ := hend0 (by rw [hf0] at hfl0; simpa using hfl0.symm)
  obtain ⟨l, S, r, h1, h2, h3, tg, h5, h6, st, inv, hflag, hpn, hsch, hle⟩ := regen_core inst hm hext hfe hfr hneeds
  obtain ⟨hE, hmemE⟩ := extended_nodup inst.two h2
  have wf := wf_of_instance inst h2 hm hext
  -- the ends of the schedule given
  have hS0 : ∀ a e, (a, e) ∈ st0.ends → e = S a + dur pb r0.ext a := by
    intro a e hae
    have hr := (hmemE0 a).1 (inv0.sub a (List.mem_map.2 ⟨_, hae, rfl⟩))
    have hns : r0.schedule.keys.Nodup := by rw [hsch0, placed_keys]; exact inv0.nodup
    have hg := Dict.get?_of_mem hns (show (a, ((e : Int) - dur pb r0.ext a, (e : Int))) ∈ r0.schedule by rw [hsch0]; exact mem_placed.2 ⟨e, hae, rfl, rfl⟩)
    rw [h3 a hr.1 hr.2] at hg
    have := (Prod.mk.inj (Option.some.inj hg)).2
    omega
  have hEE : ∀ a, a ∈ extended pb l ↔ a ∈ extended pb perm := fun a => by rw [hmemE, hmemE0]
  have key : ∀ (n : Nat) (pre post : Dict Nat Nat), pre.length = n → st.ends = pre ++ post → ∀ a e, (a, e) ∈ pre → e = S a + dur pb r0.ext a := by
    intro n
    induction n with
    | zero => intro pre post hl _ a e ha; rw [List.length_eq_zero_iff.1 hl] at ha; cases ha
    | succ n ih =>
      intro pre post hl hsplit a e ha
      rcases List.eq_nil_or_concat pre with rfl | ⟨pre', ⟨b, eb⟩, rfl⟩
      · cases ha
      rw [List.concat_eq_append] at *
      have hl' : pre'.length = n := by simpa using hl
      have hsplit' : st.ends = pre' ++ (b, eb) :: post := by rw [hsplit]; simp
      have ih' := ih pre' ((b, eb) :: post) hl' hsplit'
      rcases List.mem_append.1 ha with g | g
      · exact ih' a e g
      simp only [List.mem_singleton, Prod.mk.injEq] at g
      obtain ⟨rfl, rfl⟩ := g
      have hae : (a, e) ∈ st.ends := by rw [hsplit']; simp
      have hle' := hle a e hae
      apply Nat.le_antisymm hle'
      apply Nat.le_of_not_lt
      intro hlt
      have gr := inv.greedy pre' a e post hsplit'
      obtain ⟨m, hdm, hme, _⟩ := gr.mode
      have hdur : dur pb r0.ext a = m.duration := by simp [dur, hdm]
      have haE : a ∈ extended pb l := inv.sub a (List.mem_map.2 ⟨_, hae, rfl⟩)
      have hin' := tg.inside a haE
      obtain ⟨⟨a', e0⟩, hae0, e1⟩ := List.mem_map.1 ((all_placed inv0 hp0 a).2 ((hEE a).1 haE))
      simp only at e1
      subst e1
      have he0 := hS0 a' e0 hae0
      obtain ⟨pre0, post0, hsplit0⟩ := List.append_of_mem hae0
      have gr0 := inv0.greedy pre0 a' e0 post0 hsplit0
      obtain ⟨m0, hdm0, hme0, hshort⟩ := gr0.mode
      rw [hdm] at hdm0
      cases hdm0
      have hn0 : (Dict.keys pre0 ++ a' :: Dict.keys post0).Nodup := by
        have := inv0.nodup
        rw [hsplit0, keys_append] at this
        exact this
      have hmem0 : ∀ y ey, (y, ey) ∈ pre0 → (y, ey) ∈ st0.ends := fun y ey h => by rw [hsplit0]; simp [h]
      have hfirst := picked_first tg wf.acyclic gr.first
      obtain ⟨_, _, _, hready, _⟩ := gr.first
      obtain ⟨t, t1, t2, tH, res, cap, c, nn, hcap, hrow, hnn, hsh⟩ := hshort (e - m.duration) (Nat.zero_le _) (by omega) (by
        intro y ey hy ss hss hbs
        have hyE : y ∈ extended pb l := (hEE y).2 (inv0.sub y (List.mem_map.2 ⟨_, hmem0 y ey hy, rfl⟩))
        obtain ⟨⟨y', ey'⟩, hy', e1⟩ := List.mem_map.1 (hready y ss (Dict.mem_of_get? hss) hbs hyE)
        simp only at e1
        subst e1
        have h1 := ih' y' ey' hy'
        have h2 := hS0 y' ey (hmem0 _ _ hy)
        have h3 := gr.after y' ey' hy' ss hss hbs
        omega)
      obtain ⟨need, rm⟩ := tg.room res cap hcap
      have hsh := hsh need rm.isNeed
      have hc := capOf_initRow tH hrow
      have hna : need a' = nn := rm.isNeed a' m nn hdm hnn
      have hsub0 : ∀ y ey, (y, ey) ∈ pre0 → y ∈ extended pb l := fun y ey hy =>
        (hEE y).2 (inv0.sub y (List.mem_map.2 ⟨_, hmem0 y ey hy, rfl⟩))
      have hpre0n : Dict.keys pre0 |>.Nodup := (List.nodup_append.1 hn0).1
      have hap0 : a' ∉ Dict.keys pre0 := fun h => (List.nodup_append.1 hn0).2.2 a' h a' (by simp) rfl
      cases hr : pb.nonRenewable.contains res with
      | true =>
        rw [hr] at hsh
        have := used_add_le (nr := true) (need := need) (pb := pb) (ext := r0.ext) (t := (t : Int)) hpre0n
          ((extended pb l).filter (fun a => decide (0 < dur pb r0.ext a))) hap0
          (by simp only [List.mem_filter, decide_eq_true_eq]; exact ⟨haE, by omega⟩)
          (fun y ey hy hch => by
            simp only [charged, ↓reduceIte, decide_eq_true_eq] at hch
            simp only [List.mem_filter, decide_eq_true_eq]
            exact ⟨hsub0 y ey hy, by omega⟩)
          (fun y hy => rm.pos y (List.mem_filter.1 hy).1)
        have := rm.all hr t tH c hc
        omega
      | false =>
        rw [hr] at hsh
        by_cases hts : S a' ≤ t
        · have := used_add_le (nr := false) (need := need) (pb := pb) (ext := r0.ext) (t := (t : Int)) hpre0n
            ((extended pb l).filter (fun a => decide (S a ≤ t ∧ t < S a + dur pb r0.ext a))) hap0
            (by simp only [List.mem_filter, decide_eq_true_eq]; exact ⟨haE, by omega⟩)
            (fun y ey hy hch => by
              have := hS0 y ey (hmem0 _ _ hy)
              simp only [charged, Bool.false_eq_true, ↓reduceIte, decide_eq_true_eq] at hch
              simp only [List.mem_filter, decide_eq_true_eq]
              exact ⟨hsub0 y ey hy, by omega⟩)
            (fun y hy => rm.pos y (List.mem_filter.1 hy).1)
          have := rm.now hr t tH c hc
          omega
        · -- all that runs at `t` was placed before, with the same times
          obtain ⟨row, r1, r2, r3, r4⟩ := inv.row res cap hcap
          have hrw := r3 need rm.isNeed t tH c hrow
          rw [hr] at hrw
          have hnn0 := r4 hflag (fun t ht c hc => hpos res cap hcap t c (capOf_initRow ht hc)) t tH _ hrw
          rw [hsplit', placed_append, used_append] at hnn0
          have hcons : placed pb r0.ext ((a', e) :: post) = placed pb r0.ext [(a', e)] ++ placed pb r0.ext post := by simp [placed]
          rw [hcons, used_append] at hnn0
          have hone : used false need (placed pb r0.ext [(a', e)]) t = nn := by
            rw [used_placed]
            have : charged false ((e : Int) - dur pb r0.ext a') e t = true := by
              simp only [charged, Bool.false_eq_true, ↓reduceIte, decide_eq_true_eq]; omega
            simp [this, hna]
          have hpost : 0 ≤ used false need (placed pb r0.ext post) t := by
            rw [used_placed]
            apply total_pos
            intro y hy
            obtain ⟨p, hp', rfl⟩ := List.mem_map.1 hy
            exact rm.pos p.1 (inv.sub p.1 (List.mem_map.2 ⟨p, by rw [hsplit']; simp [(List.mem_filter.1 hp').1], rfl⟩))
          have hcmp : used false need (placed pb r0.ext pre0) t ≤ used false need (placed pb r0.ext pre') t := by
            rw [used_placed pb r0.ext false need pre']
            refine used_le hpre0n _ (fun y ey hy hch => ?_) (fun y hy => ?_)
            · have h1 := hS0 y ey (hmem0 _ _ hy)
              have hch' := hch
              simp only [charged, Bool.false_eq_true, ↓reduceIte, decide_eq_true_eq] at hch
              have hyp : y ∈ Dict.keys pre' := by
                apply Classical.byContradiction
                intro hn
                have := hfirst y (hsub0 y ey hy) hn
                omega
              obtain ⟨⟨y', ey'⟩, hy', e1⟩ := List.mem_map.1 hyp
              simp only at e1
              subst e1
              have h2 := ih' y' ey' hy'
              refine List.mem_map.2 ⟨(y', ey'), List.mem_filter.2 ⟨hy', ?_⟩, rfl⟩
              simp only
              rw [show ey' = ey by omega]; exact hch'
            · obtain ⟨p, hp', rfl⟩ := List.mem_map.1 hy
              exact rm.pos p.1 (inv.sub p.1 (List.mem_map.2 ⟨p, by rw [hsplit']; simp [(List.mem_filter.1 hp').1], rfl⟩))
          omega
  refine ⟨l, r, h1, h5, h6, fun a => ?_⟩
  have hns : r.schedule.keys.Nodup := by rw [hsch, placed_keys]; exact inv.nodup
  by_cases hr : 1 ≤ a ∧ a ≤ pb.modes.length
  · rw [h3 a hr.1 hr.2]
    obtain ⟨⟨a', e⟩, hae, e1⟩ := List.mem_map.1 ((all_placed inv hpn a).2 ((hmemE a).2 hr))
    simp only at e1
    subst e1
    have := key _ st.ends [] rfl (by simp) a' e hae
    rw [Dict.get?_of_mem hns (show (a', ((e : Int) - dur pb r0.ext a', (e : Int))) ∈ r.schedule by rw [hsch]; exact mem_placed.2 ⟨e, hae, rfl, rfl⟩)]
    rw [this, show ((S a' + dur pb r0.ext a' : Nat) : Int) - dur pb r0.ext a' = S a' by omega]
  · have hno : ∀ {d : Dict Nat (Int × Int)}, a ∉ d.keys → d.get? a = none := by
      intro d hd
      rcases hg : d.get? a with _ | x
      · rfl
      · exact absurd ((Dict.get?_isSome_iff_mem_keys _ _).1 (by rw [hg]; rfl)) hd
    rw [hno (d := r.schedule), hno (d := r0.schedule)]
    · rw [hsch0, placed_keys]; exact fun h => hr ((hmemE0 a).1 (inv0.sub a h))
    · rw [hsch, placed_keys]; exact fun h => hr ((hmemE a).1 (inv.sub a h))

/-! ### Examples -/

/-- A schedule of `demo` with idle times. -/
def loose : Dict Nat (Int × Int) := [(1, (0, 0)), (2, (4, 7)), (3, (1, 3)), (4, (9, 9))]

/-- The permutation of `loose` leads to an earlier schedule, whose permutation leads back to it. -/
example : permOf loose = .ok [1, 0] ∧
    sgs demo [1, 0] [1, 1] = .ok ⟨[(1, (0, 0)), (3, (0, 2)), (2, (2, 5)), (4, (5, 5))], true, [1, 1, 1, 1]⟩ ∧
    permOf [(1, (0, 0)), (3, (0, 2)), (2, (2, 5)), (4, (5, 5))] = .ok [1, 0] := by decide +kernel

/-- `loose` is framed and `demo` has no negative requirements. -/
example : Framed demo loose ∧ ∀ a d k m res n, demo.modes.get? a = some d → d.get? k = some m → m.needs.get? res = some n → 0 ≤ n := by
  constructor
  · intro a p ha
    have := Dict.mem_of_get? ha
    simp only [loose, List.mem_cons, Prod.mk.injEq, List.not_mem_nil, or_false] at this
    rcases this with ⟨rfl, rfl⟩ | ⟨rfl, rfl⟩ | ⟨rfl, rfl⟩ | ⟨rfl, rfl⟩ <;>
    exact ⟨fun q hq => by cases hq; decide, fun q hq => by cases hq; decide⟩
  · have k1 : ∀ p ∈ demo.modes, ∀ q ∈ p.2, ∀ x ∈ q.2.needs, 0 ≤ x.2 := by decide
    intro a d k m res n h1 h2 h3
    exact k1 (a, d) (Dict.mem_of_get? h1) (k, m) (Dict.mem_of_get? h2) (res, n) (Dict.mem_of_get? h3)

theorem loose_feasible : Feasible demo [1, 1, 1, 1] loose := by
  have hc : ∀ res cap, demo.resources.get? res = some cap → (res = "machine" ∧ cap = .const 1) ∨ (res = "tool" ∧ cap = .const 2) := by
    intro res cap h
    have := Dict.mem_of_get? h
    simpa only [demo, List.mem_cons, Prod.mk.injEq, List.not_mem_nil, or_false] using this
  refine ⟨by decide, ?_, ?_, ?_, ?_⟩
  · intro a s e h
    have := Dict.mem_of_get? h
    simp only [loose, List.mem_cons, Prod.mk.injEq, List.not_mem_nil, or_false] at this
    rcases this with ⟨rfl, rfl, rfl⟩ | ⟨rfl, rfl, rfl⟩ | ⟨rfl, rfl, rfl⟩ | ⟨rfl, rfl, rfl⟩ <;>
    exact ⟨_, _, _, rfl, rfl, rfl, by decide, by decide, by decide⟩
  · have k : ∀ p ∈ demo.successors, ∀ b ∈ p.2, ∃ x y, loose.get? p.1 = some x ∧ loose.get? b = some y ∧ x.2 ≤ y.1 := by
      intro p hp b hb
      simp only [demo, List.mem_cons, List.not_mem_nil, or_false] at hp
      rcases hp with rfl | rfl | rfl | rfl <;> simp only [List.mem_cons, List.not_mem_nil, or_false] at hb
      · rcases hb with rfl | rfl <;> exact ⟨_, _, rfl, rfl, by decide⟩
      · subst hb; exact ⟨_, _, rfl, rfl, by decide⟩
      · subst hb; exact ⟨_, _, rfl, rfl, by decide⟩
    intro a ss hss b hb sa ea sb eb h1 h2
    obtain ⟨x, y, g1, g2, g3⟩ := k (a, ss) hss b hb
    rw [h1] at g1; rw [h2] at g2
    cases g1; cases g2
    exact g3
  · intro res cap hcap hr need hneed t c _ hct
    rcases hc res cap hcap with ⟨rfl, rfl⟩ | ⟨rfl, rfl⟩
    · cases hct
      have n1 := hneed 1 _ _ _ 0 rfl rfl rfl rfl
      have n2 := hneed 2 _ _ _ 1 rfl rfl rfl rfl
      have n3 := hneed 3 _ _ _ 1 rfl rfl rfl rfl
      have n4 := hneed 4 _ _ _ 0 rfl rfl rfl rfl
      simp only [load, total, loose, Dict.keys, List.map_cons, List.map_nil, List.filter_cons, List.filter_nil, runsAt, Dict.get?]
      simp only [reduceCtorEq, Nat.reduceEqDiff, ↓reduceIte, decide_eq_true_eq, OfNat.ofNat_ne_one, OfNat.one_ne_ofNat]
      split <;> split <;> split <;> split <;> simp [n1, n2, n3, n4] <;> omega
    · exact absurd (by decide) hr
  · intro res cap hcap hr need hneed t c _ hct
    rcases hc res cap hcap with ⟨rfl, rfl⟩ | ⟨rfl, rfl⟩
    · exact absurd hr (by decide)
    · cases hct
      have n2 := hneed 2 _ _ _ 1 rfl rfl rfl rfl
      have n3 := hneed 3 _ _ _ 1 rfl rfl rfl rfl
      show total need [2, 3] ≤ 2
      simp [total, n2, n3]

/-- A project in which nothing has to precede the sink, which needs the machine for itself. -/
def unframed : Problem :=
  ⟨[("machine", .const 1)], [], [(1, [(1, ⟨0, [("machine", 0)]⟩)]), (2, [(1, ⟨1, [("machine", 1)]⟩)]), (3, [(1, ⟨1, [("machine", 1)]⟩)]),
    (4, [(1, ⟨1, [("machine", 1)]⟩)])], [(1, [2]), (2, [3]), (3, []), (4, [])], 9, 1⟩

/-- Without the frame the claim fails: the check accepts the schedule in which the sink comes first, but the sink is always placed last, and
then finds the machine taken. -/
theorem C96_unframed_refuted : satisfy unframed none [1, 1] [(1, (0, 0)), (2, (1, 2)), (3, (2, 3)), (4, (0, 1))] = .ok true ∧
    permOf [(1, (0, 0)), (2, (1, 2)), (3, (2, 3)), (4, (0, 1))] = .ok [0, 1] ∧
    sgs unframed [0, 1] [1, 1] = .ok ⟨[(1, (0, 0)), (2, (0, 1)), (3, (1, 2)), (4, (2, 3))], true, [1, 1, 1, 1]⟩ := by decide +kernel

end Verif.Rcpsp
