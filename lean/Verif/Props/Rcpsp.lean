import Verif.Lemmas.RcpspTotal
import Verif.Lemmas.RcpspCheck
/-
Properties of serial schedule generation (C26, C27) and of the check of schedules (C28).
-/
namespace Verif.Rcpsp

/-! ## C26: a schedule reported as feasible is feasible -/

/-- Whatever the instance, the priority list and the modes: when schedule generation returns a schedule flagged as
feasible, then every activity (the source 1, the activities of the list and the sink) occurs exactly once. -/
theorem C26_activities {pb : Problem} {perm modes : List Nat} {r : Result} (hE : (1 :: perm.map (· + 2) ++ [pb.modes.length]).Nodup)
    (hres : pb.resources.keys.Nodup) (h : sgs pb perm modes = .ok r) (hf : r.feasible = true) :
    r.schedule.keys.Nodup ∧ ∀ a, a ∈ r.schedule.keys ↔ a = 1 ∨ (∃ x ∈ perm, a = x + 2) ∨ a = pb.modes.length := by
  obtain ⟨st, inv, hext, hfl, hend⟩ := sgs_inv hE hres h
  obtain ⟨hp, hs⟩ := hend (by rw [hf] at hfl; simpa using hfl)
  rw [hs, placed_keys]
  refine ⟨inv.nodup, fun a => ?_⟩
  rw [all_placed inv hp a]
  simp only [extended, Problem.sink, List.cons_append, List.mem_cons, List.mem_append, List.mem_map, List.not_mem_nil, or_false]
  grind

/-- … the modes used are the modes given, with mode 1 in place of a mode that the activity does not have … -/
theorem C26_modes {pb : Problem} {perm modes : List Nat} {r : Result} (h : sgs pb perm modes = .ok r) :
    r.ext.length = modes.length + 2 ∧ ∀ (i m : Nat), (1 :: modes ++ [1])[i]? = some m →
      ∃ d, pb.modes.get? (i + 1) = some d ∧ r.ext[i]? = some (if m ∈ d.keys then m else 1) := by
  simp only [sgs] at h
  obtain ⟨ext, hext, h⟩ := bind_eq_ok.1 h
  obtain ⟨st, hst, h⟩ := bind_eq_ok.1 h
  obtain ⟨sch, hsch, h⟩ := bind_eq_ok.1 h
  obtain ⟨⟨s2, f2⟩, hfin, h⟩ := bind_eq_ok.1 h
  cases h
  obtain ⟨h1, h2⟩ := fixModes_spec pb _ _ _ hext
  refine ⟨by rw [h1]; simp, fun i m hm => ?_⟩
  obtain ⟨d, hd, he⟩ := h2 i m hm
  exact ⟨d, by rw [← hd]; congr 1; omega, he⟩

/-- … every activity starts at time 0 or later and lasts as long as its mode says … -/
theorem C26_durations {pb : Problem} {perm modes : List Nat} {r : Result} (hE : (1 :: perm.map (· + 2) ++ [pb.modes.length]).Nodup)
    (hres : pb.resources.keys.Nodup) (h : sgs pb perm modes = .ok r) (hf : r.feasible = true) :
    ∀ a s e, (a, (s, e)) ∈ r.schedule → ∃ d k m, pb.modes.get? a = some d ∧ r.ext[a - 1]? = some k ∧ d.get? k = some m ∧
      0 ≤ s ∧ e = s + m.duration := by
  obtain ⟨st, inv, hext, hfl, hend⟩ := sgs_inv hE hres h
  obtain ⟨hp, hs⟩ := hend (by rw [hf] at hfl; simpa using hfl)
  intro a s e hm
  rw [hs] at hm
  obtain ⟨e', he', rfl, rfl⟩ := mem_placed.1 hm
  obtain ⟨l1, l2, hl⟩ := List.append_of_mem he'
  obtain ⟨⟨m, hm, hle, _⟩, _, _, _, _⟩ := inv.greedy l1 a e' l2 hl
  obtain ⟨d, k, h1, h2, h3⟩ := details_ok hm
  have hd : dur pb r.ext a = m.duration := by simp [dur, hm]
  exact ⟨d, k, m, h1, h2, h3, by omega, by omega⟩

/-- … no activity starts before the end of one that precedes it … -/
theorem C26_precedence {pb : Problem} {perm modes : List Nat} {r : Result} (hE : (1 :: perm.map (· + 2) ++ [pb.modes.length]).Nodup)
    (hres : pb.resources.keys.Nodup) (hsucc : pb.successors.keys.Nodup) (h : sgs pb perm modes = .ok r) (hf : r.feasible = true) :
    ∀ a ss b, (a, ss) ∈ pb.successors → b ∈ ss → ∀ sa ea sb eb, (a, (sa, ea)) ∈ r.schedule → (b, (sb, eb)) ∈ r.schedule → ea ≤ sb := by
  obtain ⟨st, inv, hext, hfl, hend⟩ := sgs_inv hE hres h
  obtain ⟨hp, hs⟩ := hend (by rw [hf] at hfl; simpa using hfl)
  intro a ss b hm hb sa ea sb eb ha hb'
  rw [hs] at ha hb'
  obtain ⟨e1, h1, rfl, rfl⟩ := mem_placed.1 ha
  obtain ⟨e2, h2, rfl, rfl⟩ := mem_placed.1 hb'
  obtain ⟨pre, post, hl⟩ := List.append_of_mem h2
  obtain ⟨_, ⟨l1, l2, _, hready, _⟩, hafter, _, _⟩ := inv.greedy pre b e2 post hl
  have haE : a ∈ extended pb perm := inv.sub a (List.mem_map.2 ⟨_, h1, rfl⟩)
  have hpre := hready a ss hm hb haE
  obtain ⟨⟨a', e'⟩, hmem, rfl⟩ := List.mem_map.1 hpre
  have : e' = e1 := by
    have g1 := Dict.get?_of_mem inv.nodup h1
    have g2 := Dict.get?_of_mem inv.nodup (v := e') (k := a') (by rw [hl]; exact List.mem_append_left _ hmem)
    rw [g1] at g2; exact (Option.some.inj g2).symm
  subst this
  have := hafter a' e' hmem ss (Dict.get?_of_mem hsucc hm) hb
  omega

/-- … at no time the activities that run need more of a resource than there is … -/
theorem C26_renewable {pb : Problem} {perm modes : List Nat} {r : Result} (hE : (1 :: perm.map (· + 2) ++ [pb.modes.length]).Nodup)
    (hres : pb.resources.keys.Nodup) (h : sgs pb perm modes = .ok r) (hf : r.feasible = true)
    {res : String} {cap : Capacity} (hcap : pb.resources.get? res = some cap) (hpos : ∀ t c, capOf cap t = some c → 0 ≤ c)
    (hr : res ∉ pb.nonRenewable) {need : Nat → Int} (hneed : ∀ a d k m n, pb.modes.get? a = some d → r.ext[a - 1]? = some k →
      d.get? k = some m → m.needs.get? res = some n → need a = n) :
    ∀ (t : Nat) c, capOf cap t = some c → load need r.schedule t r.schedule.keys ≤ c := by
  obtain ⟨st, inv, hext, hfl, hend⟩ := sgs_inv hE hres h
  have hflag : st.flag = false := by rw [hf] at hfl; simpa using hfl
  obtain ⟨hp, hs⟩ := hend hflag
  intro t c hc
  have hnodup : r.schedule.keys.Nodup := by rw [hs, placed_keys]; exact inv.nodup
  have hn : IsNeed pb r.ext res need := by
    intro a m n hm hmn
    obtain ⟨d, k, h1, h2, h3⟩ := details_ok hm
    exact hneed a d k m n h1 h2 h3 hmn
  rw [← used_eq_load _ hnodup, hs]
  have hnr : pb.nonRenewable.contains res = false := by simpa using hr
  by_cases ht : t < pb.newHorizon
  · obtain ⟨row, r1, r2, r3, r4⟩ := inv.row res cap hcap
    have hi := initRow_some ht hc
    have := r3 need hn t ht c hi
    have := r4 hflag (fun t' ht' c' hc' => hpos t' c' (capOf_initRow ht' hc')) t ht _ this
    rw [hnr] at this
    omega
  · have : used false need (placed pb r.ext st.ends) t = 0 := by
      apply used_zero
      intro p hmem
      obtain ⟨a, s, e⟩ := p
      obtain ⟨e', he', rfl, rfl⟩ := mem_placed.1 hmem
      obtain ⟨l1, l2, hl⟩ := List.append_of_mem he'
      have hin := (inv.greedy l1 a e' l2 hl).inside
      simp only [charged, Bool.false_eq_true, ↓reduceIte, decide_eq_false_iff_not]
      rcases hin with g | g | g
      · rw [g] at hcap; cases hcap
      · rw [g]; omega
      · omega
    rw [this]
    exact hpos t c hc

/-- … and the activities that take time need no more of a non-renewable resource than there is (at the last time
before the horizon). -/
theorem C26_nonrenewable_partial {pb : Problem} {perm modes : List Nat} {r : Result} (hE : (1 :: perm.map (· + 2) ++ [pb.modes.length]).Nodup)
    (hres : pb.resources.keys.Nodup) (h : sgs pb perm modes = .ok r) (hf : r.feasible = true)
    {res : String} {cap : Capacity} (hcap : pb.resources.get? res = some cap) (hpos : ∀ t c, capOf cap t = some c → 0 ≤ c)
    (hr : res ∈ pb.nonRenewable) {need : Nat → Int} (hneed : ∀ a d k m n, pb.modes.get? a = some d → r.ext[a - 1]? = some k →
      d.get? k = some m → m.needs.get? res = some n → need a = n) :
    ∀ c, capOf cap (pb.horizon * pb.multiplier - 1) = some c → total need (r.schedule.keys.filter (takesTime r.schedule)) ≤ c := by
  obtain ⟨st, inv, hext, hfl, hend⟩ := sgs_inv hE hres h
  have hflag : st.flag = false := by rw [hf] at hfl; simpa using hfl
  obtain ⟨hp, hs⟩ := hend hflag
  intro c hc
  have hnodup : r.schedule.keys.Nodup := by rw [hs, placed_keys]; exact inv.nodup
  have hn : IsNeed pb r.ext res need := by
    intro a m n hm hmn
    obtain ⟨d, k, h1, h2, h3⟩ := details_ok hm
    exact hneed a d k m n h1 h2 h3 hmn
  have hnr : pb.nonRenewable.contains res = true := by simpa using hr
  have hin : ∀ a s e, (a, (s, e)) ∈ r.schedule → 0 ≤ s ∧ (s < e → e ≤ pb.newHorizon) := by
    intro a s e hm
    obtain ⟨d, k, m, _, _, _, h0, _⟩ := C26_durations hE hres h hf a s e hm
    refine ⟨h0, fun hlt => ?_⟩
    rw [hs] at hm
    obtain ⟨e', he', rfl, rfl⟩ := mem_placed.1 hm
    obtain ⟨l1, l2, hl⟩ := List.append_of_mem he'
    rcases (inv.greedy l1 a e' l2 hl).inside with g | g | g
    · rw [g] at hcap; cases hcap
    · rw [g] at hlt; omega
    · omega
  rw [← used_eq_total need hnodup (t := ((pb.newHorizon - 1 : Nat) : Int)) (by
    intro a s e hm hlt
    have := hin a s e hm
    omega), hs]
  by_cases ht : 0 < pb.newHorizon
  · obtain ⟨row, r1, r2, r3, r4⟩ := inv.row res cap hcap
    have ht' : pb.newHorizon - 1 < pb.newHorizon := by omega
    have hi := initRow_some ht' hc
    have := r3 need hn (pb.newHorizon - 1) ht' c hi
    have := r4 hflag (fun t' ht' c' hc' => hpos t' c' (capOf_initRow ht' hc')) _ ht' _ this
    rw [hnr] at this
    omega
  · rw [used_zero]
    · exact hpos _ c hc
    · intro p hmem
      obtain ⟨a, s, e⟩ := p
      rw [← hs] at hmem
      have := hin a s e hmem
      simp only [charged, ↓reduceIte, decide_eq_false_iff_not]
      omega

/-- A well-formed instance with activities 1 to `n`: every activity has a mode 1, every mode lists a requirement for every
resource, calendars reach the horizon, successors are activities and there is no cycle. -/
structure Instance (pb : Problem) : Prop where
  two : 2 ≤ pb.modes.length
  activities : ∀ a, 1 ≤ a → a ≤ pb.modes.length → ∃ d, pb.modes.get? a = some d ∧ 1 ∈ d.keys ∧
    ∀ k m, d.get? k = some m → ∀ res ∈ pb.resources.keys, ∃ n, m.needs.get? res = some n
  resources : pb.resources.keys.Nodup
  calendars : ∀ res cap, pb.resources.get? res = some cap → ∀ t, t < pb.horizon * pb.multiplier → ∃ c, capOf cap t = some c
  successors : pb.successors.keys.Nodup ∧ (∀ a, a ∈ pb.successors.keys ↔ 1 ≤ a ∧ a ≤ pb.modes.length) ∧
    ∀ a ss, (a, ss) ∈ pb.successors → ∀ b ∈ ss, 1 ≤ b ∧ b ≤ pb.modes.length
  acyclic : ∃ rank : Nat → Nat, ∀ a ss, (a, ss) ∈ pb.successors → ∀ b ∈ ss, rank a < rank b

theorem extended_nodup {pb : Problem} {perm : List Nat} (h2 : 2 ≤ pb.modes.length) (hp : perm.Perm (List.range (pb.modes.length - 2))) :
    (extended pb perm).Nodup ∧ ∀ a, a ∈ extended pb perm ↔ 1 ≤ a ∧ a ≤ pb.modes.length := by
  have hmem : ∀ x, x ∈ perm ↔ x < pb.modes.length - 2 := fun x => by rw [hp.mem_iff, List.mem_range]
  have hn : perm.Nodup := hp.nodup_iff.2 List.nodup_range
  constructor
  · simp only [extended, List.cons_append, List.nodup_cons, List.mem_append, List.mem_map, List.mem_singleton, Problem.sink, not_or]
    refine ⟨⟨by rintro ⟨x, _, h⟩; omega, by omega⟩, ?_⟩
    rw [List.nodup_append]
    refine ⟨List.Pairwise.map _ (fun a b h => by omega) hn, by simp, ?_⟩
    intro a ha b hb
    obtain ⟨x, hx, rfl⟩ := List.mem_map.1 ha
    have := (hmem x).1 hx
    simp only [List.mem_singleton] at hb
    omega
  · intro a
    simp only [extended, List.cons_append, List.mem_cons, List.mem_append, List.mem_map, List.not_mem_nil, or_false, Problem.sink]
    constructor
    · rintro (rfl | ⟨x, hx, rfl⟩ | rfl)
      · omega
      · have := (hmem x).1 hx; omega
      · omega
    · intro h
      by_cases h1 : a = 1
      · exact .inl h1
      · by_cases h3 : a = pb.modes.length
        · exact .inr (.inr h3)
        · exact .inr (.inl ⟨a - 2, (hmem _).2 (by omega), by omega⟩)

theorem wf_of_instance {pb : Problem} {perm modes ext : List Nat} (inst : Instance pb) (hp : perm.Perm (List.range (pb.modes.length - 2)))
    (hm : modes.length + 2 = pb.modes.length) (hext : fixModes pb 0 (1 :: modes ++ [1]) = .ok ext) : Wf pb (extended pb perm) ext := by
  have hmem := (extended_nodup inst.two hp).2
  refine ⟨fun a ha => ?_, fun a ha => ?_, inst.calendars, inst.acyclic⟩
  · have hr := (hmem a).1 ha
    obtain ⟨d, hd, h1, hneeds⟩ := inst.activities a hr.1 hr.2
    obtain ⟨_, h2⟩ := fixModes_spec pb _ _ _ hext
    have hlt : a - 1 < (1 :: modes ++ [1]).length := by simp; omega
    obtain ⟨d', hd', he⟩ := h2 (a - 1) _ (List.getElem?_eq_getElem hlt)
    rw [show 0 + (a - 1) + 1 = a from by omega, hd] at hd'
    cases hd'
    have hk : (if (1 :: modes ++ [1])[a - 1] ∈ d.keys then (1 :: modes ++ [1])[a - 1] else 1) ∈ d.keys := by
      split
      · assumption
      · exact h1
    obtain ⟨m, hmm⟩ := Option.isSome_iff_exists.1 ((Dict.get?_isSome_iff_mem_keys _ _).2 hk)
    refine ⟨m, ?_, hneeds _ m hmm⟩
    simp only [details, dict_get_ok.2 hd, bind_ok, pyGet_ok_iff.2 he, dict_get_ok.2 hmm]
  · have hr := (hmem a).1 ha
    obtain ⟨ss, hss⟩ := Option.isSome_iff_exists.1 ((Dict.get?_isSome_iff_mem_keys _ _).2 ((inst.successors.2.1 a).2 hr))
    exact ⟨ss, hss, fun b hb => (inst.successors.2.1 b).2 (inst.successors.2.2 a ss (Dict.mem_of_get? hss) b hb)⟩

theorem fix_of_instance {pb : Problem} {modes : List Nat} (inst : Instance pb) (hm : modes.length + 2 = pb.modes.length) :
    ∃ ext, fixModes pb 0 (1 :: modes ++ [1]) = .ok ext := by
  apply fixModes_ok
  intro j hj
  simp at hj
  obtain ⟨d, hd, _⟩ := inst.activities (0 + j + 1) (by omega) (by omega)
  exact (Dict.get?_isSome_iff_mem_keys _ _).1 (by rw [hd]; rfl)

/-- On a well-formed instance schedule generation never raises, whatever the priority list and the modes (also modes that do
not exist). -/
theorem C26_never_raises {pb : Problem} {perm modes : List Nat} (inst : Instance pb) (hp : perm.Perm (List.range (pb.modes.length - 2)))
    (hm : modes.length + 2 = pb.modes.length) : ∃ r, sgs pb perm modes = .ok r := by
  obtain ⟨ext, hext⟩ := fix_of_instance inst hm
  exact sgs_ok (extended_nodup inst.two hp).1 inst.resources hext (wf_of_instance inst hp hm hext)

/-- When all resources are renewable, no activity needs more than there is, and the horizon is at least the sum of the longest
durations, then every priority list gives a feasible schedule, and nothing ends later than that sum. -/
theorem C26_feasible_with_room {pb : Problem} {perm modes : List Nat} (inst : Instance pb) (hp : perm.Perm (List.range (pb.modes.length - 2)))
    (hm : modes.length + 2 = pb.modes.length) (hnr : ∀ res ∈ pb.resources.keys, res ∉ pb.nonRenewable)
    (hcap : ∀ res cap, pb.resources.get? res = some cap → ∀ a d k m n, pb.modes.get? a = some d → d.get? k = some m → m.needs.get? res = some n →
      ∀ t c, capOf cap t = some c → n ≤ c)
    {longest : Nat → Nat} (hl : ∀ a d k m, pb.modes.get? a = some d → d.get? k = some m → m.duration ≤ longest a)
    (hroom : ((List.range' 1 pb.modes.length).map longest).sum ≤ pb.horizon * pb.multiplier) :
    ∃ r, sgs pb perm modes = .ok r ∧ r.feasible = true ∧
      ∀ a s e, (a, (s, e)) ∈ r.schedule → e ≤ ((List.range' 1 pb.modes.length).map longest).sum := by
  obtain ⟨hE, hmem⟩ := extended_nodup inst.two hp
  obtain ⟨ext, hext⟩ := fix_of_instance inst hm
  have wf := wf_of_instance inst hp hm hext
  obtain ⟨r, hr⟩ := sgs_ok hE inst.resources hext wf
  have hr' := hr
  simp only [sgs, hext, bind_ok] at hr
  obtain ⟨st, hst, hr⟩ := bind_eq_ok.1 hr
  obtain ⟨sch, hsch, hr⟩ := bind_eq_ok.1 hr
  obtain ⟨⟨s2, f2⟩, hfin, hr⟩ := bind_eq_ok.1 hr
  have hwork : work pb ext (extended pb perm) ≤ ((List.range' 1 pb.modes.length).map longest).sum := by
    have h1 : work pb ext (extended pb perm) ≤ ((extended pb perm).map longest).sum := by
      unfold work
      have : ∀ l : List Nat, (∀ a ∈ l, dur pb ext a ≤ longest a) → (l.map (dur pb ext)).sum ≤ (l.map longest).sum := by
        intro l
        induction l with
        | nil => intro _; exact Nat.le_refl _
        | cons a l ih =>
          intro h
          have := h a (by simp)
          have := ih (fun a ha => h a (by simp [ha]))
          simp only [List.map_cons, List.sum_cons]; omega
      apply this
      intro a ha
      obtain ⟨m, hmm, _⟩ := wf.modes a ha
      obtain ⟨d, k, g1, g2, g3⟩ := details_ok hmm
      simp only [dur, hmm]
      exact hl a d k m g1 g3
    have hperm : (extended pb perm).Perm (List.range' 1 pb.modes.length) := by
      rw [List.perm_ext_iff_of_nodup hE (List.nodup_range')]
      intro a
      rw [hmem, List.mem_range'_1]; omega
    have h2 : ((extended pb perm).map longest).sum = ((List.range' 1 pb.modes.length).map longest).sum := (hperm.map longest).sum_nat
    omega
  obtain ⟨hf, hends⟩ := room_loop hE inst.resources wf hnr (fun res cap hc a _ m n hd hn t c hct => by
      obtain ⟨d, k, g1, g2, g3⟩ := details_ok hd
      exact hcap res cap hc a d k m n g1 g3 hn t c hct) _ _ st 0 (init_inv pb (fun _ => 0) ext (extended pb perm)) (by simp [initFrom, Dict.keys]) rfl (fun _ => Nat.le_refl _)
      (by intro a e h; simp [initFrom] at h) (by show 0 + work pb ext (extended pb perm) ≤ pb.horizon * pb.multiplier; omega) hst
  have hends : ∀ a e, (a, e) ∈ st.ends → e ≤ 0 + work pb ext (extended pb perm) := hends
  rw [hf] at hfin
  cases hfin
  cases hr
  refine ⟨_, hr', rfl, fun a s e h => ?_⟩
  rw [times_spec _ _ hsch] at h
  obtain ⟨e', he', _, rfl⟩ := mem_placed.1 h
  have := hends a e' he'
  omega

/-! ### Examples, and what fails -/

/-- Source, two activities that share one machine, sink; a tool that is used up. -/
def demo : Problem where
  resources := [("machine", .const 1), ("tool", .const 2)]
  nonRenewable := ["tool"]
  modes := [(1, [(1, ⟨0, [("machine", 0), ("tool", 0)]⟩)]), (2, [(1, ⟨3, [("machine", 1), ("tool", 1)]⟩), (2, ⟨1, [("machine", 1), ("tool", 2)]⟩)]),
    (3, [(1, ⟨2, [("machine", 1), ("tool", 1)]⟩)]), (4, [(1, ⟨0, [("machine", 0), ("tool", 0)]⟩)])]
  successors := [(1, [2, 3]), (2, [4]), (3, [4]), (4, [])]
  horizon := 10
  multiplier := 1

/-- The list puts activity 3 first; mode 7 of activity 3 does not exist and becomes mode 1. -/
example : sgs demo [1, 0] [1, 7] = .ok ⟨[(1, (0, 0)), (3, (0, 2)), (2, (2, 5)), (4, (5, 5))], true, [1, 1, 1, 1]⟩ := by decide +kernel

/-- In its second mode activity 2 takes both tools: the last activity is not placed and gets a sentinel that ends before it starts. -/
example : sgs demo [1, 0] [2, 1] = .ok ⟨[(1, (0, 0)), (3, (0, 2)), (4, (99999999, 9999999))], false, [1, 2, 1, 1]⟩ := by decide +kernel

example : (1 :: [1, 0].map (· + 2) ++ [demo.modes.length]).Nodup ∧ demo.resources.keys.Nodup ∧ demo.successors.keys.Nodup := by decide

theorem demo_instance : Instance demo := by
  have k1 : ∀ p ∈ demo.modes, 1 ∈ Dict.keys p.2 ∧ ∀ q ∈ p.2, ∀ res ∈ demo.resources.keys, (q.2.needs.get? res).isSome = true := by decide
  have k2 : ∀ p ∈ demo.successors, ∀ b ∈ p.2, 1 ≤ b ∧ b ≤ demo.modes.length := by decide
  have k3 : ∀ p ∈ demo.successors, ∀ b ∈ p.2, p.1 < b := by decide
  have k4 : ∀ a, a ∈ [1, 2, 3, 4] ↔ 1 ≤ a ∧ a ≤ 4 := by
    intro a
    simp only [List.mem_cons, List.not_mem_nil, or_false]
    omega
  refine ⟨by decide, ?_, by decide, ?_, ⟨by decide, k4, fun a ss h => k2 (a, ss) h⟩, ⟨id, fun a ss h => k3 (a, ss) h⟩⟩
  · intro a h1 h2
    have ha : a ∈ demo.modes.keys := (k4 a).2 ⟨h1, h2⟩
    obtain ⟨d, hd⟩ := Option.isSome_iff_exists.1 ((Dict.get?_isSome_iff_mem_keys _ _).2 ha)
    have := k1 (a, d) (Dict.mem_of_get? hd)
    exact ⟨d, hd, this.1, fun k m hm res hr => Option.isSome_iff_exists.1 (this.2 (k, m) (Dict.mem_of_get? hm) res hr)⟩
  · intro res cap h t _
    have := Dict.mem_of_get? h
    simp only [demo, List.mem_cons, Prod.mk.injEq, List.not_mem_nil, or_false] at this
    rcases this with ⟨_, rfl⟩ | ⟨_, rfl⟩ <;> exact ⟨_, rfl⟩

/-- An activity without duration that needs more tools than there are. -/
def instant : Problem where
  resources := [("tool", .const 1)]
  nonRenewable := ["tool"]
  modes := [(1, [(1, ⟨0, [("tool", 0)]⟩)]), (2, [(1, ⟨0, [("tool", 5)]⟩)]), (3, [(1, ⟨0, [("tool", 0)]⟩)])]
  successors := [(1, [2]), (2, [3]), (3, [])]
  horizon := 10
  multiplier := 1

/-- Why the claim on non-renewable resources is restricted to activities that take time: the requirements of the others are
never charged.  Here the schedule is reported as feasible although five tools are needed and there is one. -/
theorem C26_instant_activities_not_charged : sgs instant [0] [1] = .ok ⟨[(1, (0, 0)), (2, (0, 0)), (3, (0, 0))], true, [1, 1, 1]⟩ ∧
    instant.resources.get? "tool" = some (.const 1) ∧
    (instant.modes.get? 2).bind (fun d => (d.get? 1).bind (fun m => m.needs.get? "tool")) = some 5 := by
  refine ⟨by decide +kernel, rfl, rfl⟩

/-- A calendar shorter than the horizon raises an exception instead of a report of infeasibility. -/
theorem C26_short_calendar_raises : sgs { demo with resources := [("machine", .calendar [1, 1, 1]), ("tool", .const 2)] } [0, 1] [1, 1] = .error .indexError := by
  decide +kernel

/-- With a cycle the variable of the inner loop is stale, and its removal raises `ValueError`. -/
theorem C26_cycle_raises : sgs { demo with successors := [(1, [2]), (2, [3]), (3, [2]), (4, [])] } [0, 1] [1, 1] = .error .valueError := by
  decide +kernel

/-! ## C27: priority and earliest start -/

/-- The schedule lists the activities in the order of placement.  When an activity is placed, all its predecessors have been
placed, and every activity that comes earlier in the priority list and is not yet placed has a predecessor that is not placed. -/
theorem C27_priority {pb : Problem} {perm modes : List Nat} {r : Result} (hE : (1 :: perm.map (· + 2) ++ [pb.modes.length]).Nodup)
    (hres : pb.resources.keys.Nodup) (h : sgs pb perm modes = .ok r) (hf : r.feasible = true)
    (pre post : Dict Nat (Int × Int)) (b : Nat) (p : Int × Int) (hsplit : r.schedule = pre ++ (b, p) :: post) :
    (∀ a ss, (a, ss) ∈ pb.successors → b ∈ ss → a ∈ 1 :: perm.map (· + 2) ++ [pb.modes.length] → a ∈ pre.keys) ∧
    ∃ l1 l2, 1 :: perm.map (· + 2) ++ [pb.modes.length] = l1 ++ b :: l2 ∧ ∀ x ∈ l1, x ∉ pre.keys →
      ∃ a ss, (a, ss) ∈ pb.successors ∧ x ∈ ss ∧ a ∈ 1 :: perm.map (· + 2) ++ [pb.modes.length] ∧ a ∉ pre.keys := by
  obtain ⟨st, inv, hext, hfl, hend⟩ := sgs_inv hE hres h
  obtain ⟨hp, hs⟩ := hend (by rw [hf] at hfl; simpa using hfl)
  rw [hs, placed] at hsplit
  obtain ⟨l1, l2, hl, rfl, h2⟩ := List.map_eq_append_iff.1 hsplit
  obtain ⟨⟨b', e⟩, l3, rfl, h3, rfl⟩ := List.map_eq_cons_iff.1 h2
  cases h3
  obtain ⟨_, ⟨k1, k2, hk, hready, hfirst⟩, _, _, _⟩ := inv.greedy l1 b' e l3 hl
  have hkeys : Dict.keys (l1.map (fun p => (p.1, ((p.2 : Int) - dur pb r.ext p.1, (p.2 : Int))))) = Dict.keys l1 := by simp [Dict.keys]
  rw [hkeys]
  refine ⟨hready, k1, k2, hk, fun x hx hxp => ?_⟩
  have := hfirst x hx hxp
  unfold Ready at this
  simp only [Classical.not_forall] at this
  obtain ⟨a, ss, hm, hxs, haE, ha⟩ := this
  exact ⟨a, ss, hm, hxs, haE, ha⟩

/-- An activity starts as early as possible: at every earlier time `s'` at which its predecessors have ended, some resource would run
short during its execution, given what was placed before it. -/
theorem C27_earliest {pb : Problem} {perm modes : List Nat} {r : Result} (hE : (1 :: perm.map (· + 2) ++ [pb.modes.length]).Nodup)
    (hres : pb.resources.keys.Nodup) (h : sgs pb perm modes = .ok r) (hf : r.feasible = true)
    (pre post : Dict Nat (Int × Int)) (b : Nat) (s e : Int) (hsplit : r.schedule = pre ++ (b, (s, e)) :: post) (s' : Nat) (hs' : (s' : Int) < s)
    (hpred : ∀ a sa ea, (a, (sa, ea)) ∈ pre → ∀ ss, pb.successors.get? a = some ss → b ∈ ss → ea ≤ s') :
    ∃ d k m, pb.modes.get? b = some d ∧ r.ext[b - 1]? = some k ∧ d.get? k = some m ∧
    ∃ t : Nat, s' ≤ t ∧ t < s' + m.duration ∧ t < pb.horizon * pb.multiplier ∧ ∃ res cap c n, pb.resources.get? res = some cap ∧
      capOf cap t = some c ∧ m.needs.get? res = some n ∧
      ∀ need : Nat → Int, (∀ a d k m n, pb.modes.get? a = some d → r.ext[a - 1]? = some k → d.get? k = some m → m.needs.get? res = some n → need a = n) →
        c - (if res ∈ pb.nonRenewable then total need (pre.keys.filter (fun a => takesTime pre a && startedBy pre t a)) else load need pre t pre.keys) < n := by
  obtain ⟨st, inv, hext, hfl, hend⟩ := sgs_inv hE hres h
  obtain ⟨hp, hs⟩ := hend (by rw [hf] at hfl; simpa using hfl)
  rw [hs, placed] at hsplit
  obtain ⟨l1, l2, hl, hpre, h2⟩ := List.map_eq_append_iff.1 hsplit
  obtain ⟨⟨b', e'⟩, l3, rfl, h3, rfl⟩ := List.map_eq_cons_iff.1 h2
  cases h3
  obtain ⟨⟨m, hm, hle, hmin⟩, _, _, _, _⟩ := inv.greedy l1 b' e' l3 hl
  have hd : dur pb r.ext b' = m.duration := by simp [dur, hm]
  obtain ⟨d, k, g1, g2, g3⟩ := details_ok hm
  change placed pb r.ext l1 = pre at hpre
  have hnd : pre.keys.Nodup := by
    rw [← hpre, placed_keys]
    have := inv.nodup
    rw [hl, keys_append] at this
    exact (List.nodup_append.1 this).1
  obtain ⟨t, t1, t2, t3, res, cap, c, n, k1, k2, k3, k4⟩ := hmin s' (Nat.zero_le _) (by simp only at hs'; omega) (fun a ea ha ss hss hb => by
    have := hpred a ((ea : Int) - dur pb r.ext a) ea (by rw [← hpre]; exact mem_placed.2 ⟨ea, ha, rfl, rfl⟩) ss hss hb
    omega)
  refine ⟨d, k, m, g1, g2, g3, t, t1, t2, t3, res, cap, c, n, k1, capOf_initRow t3 k2, k3, fun need hneed => ?_⟩
  have := k4 need (fun a m n hm hmn => by
    obtain ⟨d, k, h1, h2, h3⟩ := details_ok hm
    exact hneed a d k m n h1 h2 h3 hmn)
  rw [hpre] at this
  by_cases hr : res ∈ pb.nonRenewable
  · rw [if_pos hr]
    rw [show pb.nonRenewable.contains res = true by simpa using hr, used_eq_started need hnd] at this
    exact this
  · rw [if_neg hr]
    rw [show pb.nonRenewable.contains res = false by simpa using hr, used_eq_load need hnd] at this
    exact this

/-- Activity 2 could not start before 2: at time 0 the machine is taken by activity 3. -/
example : (sgs demo [1, 0] [1, 1]).toOption.map (·.schedule) = some ([(1, (0, 0)), (3, (0, 2))] ++ (2, (2, 5)) :: [(4, (5, 5))]) := by decide +kernel

/-! ## C28: the check of a schedule -/

/-- For a schedule that contains all activities and a table of requirements that has an entry for each of them, the check accepts
exactly when the schedule is not flagged as infeasible, the running activities need no more than there is at every time before the end
of the last activity, the totals of non-renewable resources stay within their capacity (at time 0), and precedences are respected.
Times before 0 and after the end of the last activity, and the durations, are not checked. -/
theorem C28_accepts_iff_partial {pb : Problem} {modes : List Nat} {sch : Dict Nat (Int × Int)} {need : String → Nat → Int} {last : Nat} {p : Int × Int}
    (flag : Option Bool) (hlast : sch.get? last = some p) (hmax : ∀ a ∈ sch.keys, a ≤ last) (hres : pb.resources.keys.Nodup)
    (hall : ∀ a ∈ pb.successors.keys, a ∈ sch.keys ∧ a ≤ modes.length + 2) (hneed : NeedTable pb (1 :: modes ++ [1]) need) :
    satisfy pb flag modes sch = .ok true ↔ flag ≠ some false ∧
      (∀ res cap, pb.resources.get? res = some cap → ∀ t : Nat, (t : Int) < p.2 →
        ∃ c, capOf cap t = some c ∧ load (need res) sch t pb.successors.keys ≤ c) ∧
      (∀ res ∈ pb.nonRenewable, ∃ cap c, pb.resources.get? res = some cap ∧ capOf cap 0 = some c ∧ total (need res) pb.successors.keys ≤ c) ∧
      (∀ a ss, (a, ss) ∈ pb.successors → ∀ b ∈ ss, ∃ sa ea sb eb, sch.get? a = some (sa, ea) ∧ sch.get? b = some (sb, eb) ∧ ea ≤ sb) := by
  by_cases hf : flag = some false
  · simp [satisfy, hf]
  have hs : satisfy pb flag modes sch = .ok true ↔ checkTimes pb (1 :: modes ++ [1]) sch p.2.toNat 0 = .ok true ∧
      checkNonRenewable pb (1 :: modes ++ [1]) (decide (0 < p.2)) pb.nonRenewable = .ok true ∧ checkPrecedence sch pb.successors = .ok true := by
    simp only [satisfy, if_neg hf, makespan_eq hlast hmax, bind_ok]
    constructor
    · intro h
      obtain ⟨ok1, h1, h⟩ := bind_eq_ok.1 h
      cases ok1 with
      | false => simp at h
      | true =>
        simp only [Bool.not_true, Bool.false_eq_true, ↓reduceIte] at h
        obtain ⟨ok2, h2, h⟩ := bind_eq_ok.1 h
        cases ok2 with
        | false => simp at h
        | true => exact ⟨h1, h2, by simpa using h⟩
    · rintro ⟨h1, h2, h3⟩
      rw [h1, bind_ok]
      simp only [Bool.not_true, Bool.false_eq_true, ↓reduceIte]
      rw [h2, bind_ok]
      simpa using h3
  rw [hs, checkTimes_iff, checkNonRenewable_iff, checkPrecedence_iff]
  have husage : ∀ t : Nat, usageLoop pb (1 :: modes ++ [1]) sch t pb.successors.keys (pb.resources.map (fun p => (p.1, (0 : Int)))) =
      .ok ((pb.resources.map (fun p => (p.1, (0 : Int)))).map (fun p => (p.1, p.2 + load (need p.1) sch t pb.successors.keys))) := by
    intro t
    apply usageLoop_eq
    intro a ha
    obtain ⟨h1, h2⟩ := hall a ha
    refine ⟨Option.isSome_iff_exists.1 ((Dict.get?_isSome_iff_mem_keys _ _).2 h1), ?_, ?_⟩
    · exact ⟨_, List.getElem?_eq_getElem (by simp; omega)⟩
    · intro res hr
      exact hneed a ha res (by simpa [Dict.keys] using hr)
  refine ⟨fun ⟨h1, h2, h3⟩ => ⟨hf, ?_, ?_, ?_⟩, fun ⟨_, h1, h2, h3⟩ => ⟨?_, ?_, ?_⟩⟩
  · intro res cap hc t ht
    obtain ⟨u, hu, hw⟩ := h1 t (by omega) (by omega)
    rw [husage] at hu
    cases hu
    obtain ⟨u, c, g1, g2, g3⟩ := (withinCaps_iff _ _ _).1 hw (res, cap) (Dict.mem_of_get? hc)
    rw [get?_map_zero (fun r => load (need r) sch t pb.successors.keys) res pb.resources
      ((Dict.get?_isSome_iff_mem_keys _ _).1 (by rw [hc]; rfl))] at g1
    cases g1
    exact ⟨c, g2, g3⟩
  · intro res hr
    obtain ⟨u, cap, c, g1, g2, g3, g4⟩ := h2 res hr
    rw [totalNeed_eq (need := need res) _ (fun a ha => hneed a ha res ((Dict.get?_isSome_iff_mem_keys _ _).1 (by rw [g2]; rfl)))] at g1
    cases g1
    exact ⟨cap, c, g2, g3, g4⟩
  · intro a ss hm b hb
    obtain ⟨⟨sa, ea⟩, ⟨sb, eb⟩, g1, g2, g3⟩ := h3 a ss hm b hb
    exact ⟨sa, ea, sb, eb, g1, g2, g3⟩
  · intro t _ ht
    refine ⟨_, husage t, (withinCaps_iff _ _ _).2 ?_⟩
    rintro ⟨res, cap⟩ hm
    have hc := Dict.get?_of_mem hres hm
    obtain ⟨c, g1, g2⟩ := h1 res cap hc t (by omega)
    exact ⟨_, c, get?_map_zero (fun r => load (need r) sch t pb.successors.keys) res pb.resources
      ((Dict.get?_isSome_iff_mem_keys _ _).1 (by rw [hc]; rfl)), g1, g2⟩
  · intro res hr
    obtain ⟨cap, c, g2, g3, g4⟩ := h2 res hr
    exact ⟨_, cap, c, totalNeed_eq (need := need res) _ (fun a ha => hneed a ha res ((Dict.get?_isSome_iff_mem_keys _ _).1 (by rw [g2]; rfl))), g2, g3, g4⟩
  · intro a ss hm b hb
    obtain ⟨sa, ea, sb, eb, g1, g2, g3⟩ := h3 a ss hm b hb
    exact ⟨(sa, ea), (sb, eb), g1, g2, g3⟩

/-- For schedules in which nothing runs before 0 or after the end of the last activity the restriction to times in between is none: the
check then accepts only if the capacity is respected at every time at which it is given and non-negative. -/
theorem C28_sound_all_times {pb : Problem} {modes : List Nat} {sch : Dict Nat (Int × Int)} {need : String → Nat → Int} {last : Nat} {p : Int × Int}
    {flag : Option Bool} (hlast : sch.get? last = some p) (hmax : ∀ a ∈ sch.keys, a ≤ last) (hres : pb.resources.keys.Nodup)
    (hall : ∀ a ∈ pb.successors.keys, a ∈ sch.keys ∧ a ≤ modes.length + 2) (hneed : NeedTable pb (1 :: modes ++ [1]) need)
    (hend : ∀ a s e, sch.get? a = some (s, e) → e ≤ p.2) (h : satisfy pb flag modes sch = .ok true) :
    ∀ res cap, pb.resources.get? res = some cap → ∀ (t : Nat) c, capOf cap t = some c → 0 ≤ c → load (need res) sch t pb.successors.keys ≤ c := by
  intro res cap hc t c hct hpos
  obtain ⟨_, h1, _, _⟩ := (C28_accepts_iff_partial flag hlast hmax hres hall hneed).1 h
  by_cases ht : (t : Int) < p.2
  · obtain ⟨c', g1, g2⟩ := h1 res cap hc t ht
    rw [hct] at g1; cases g1
    exact g2
  · have : pb.successors.keys.filter (runsAt sch t) = [] := by
      rw [List.filter_eq_nil_iff]
      intro a _
      unfold runsAt
      split
      · rename_i q hq
        have := hend a q.1 q.2 hq
        simp only [decide_eq_true_eq, not_and]
        omega
      · simp
    simp only [load, this, total, List.map_nil, List.sum_nil]
    exact hpos

theorem ext_ends {pb : Problem} {modes ext : List Nat} (h : fixModes pb 0 (1 :: modes ++ [1]) = .ok ext) : ∃ mid, ext = 1 :: mid ++ [1] := by
  obtain ⟨hl, hi⟩ := fixModes_spec pb _ _ _ h
  obtain ⟨d, _, h0⟩ := hi 0 1 (by simp)
  obtain ⟨d', _, h1⟩ := hi (modes.length + 1) 1 (by simp)
  simp only [ite_self] at h0 h1
  cases ext with
  | nil => simp at hl
  | cons x ext =>
    simp only [List.getElem?_cons_zero, Option.some.injEq] at h0
    simp only [List.getElem?_cons_succ] at h1
    have hl' : ext.length = modes.length + 1 := by simpa using hl
    subst h0
    have hne : ext ≠ [] := by intro e; rw [e] at hl'; simp at hl'
    refine ⟨ext.dropLast, ?_⟩
    rw [List.cons_append]
    congr 1
    rw [show (1 : Nat) = ext.getLast hne from ?_, List.dropLast_concat_getLast]
    rw [List.getLast_eq_getElem]
    have : ext[ext.length - 1]? = some 1 := by rw [hl']; simpa using h1
    rw [List.getElem?_eq_getElem (by omega)] at this
    exact (Option.some.inj this).symm

theorem total_perm {need : Nat → Int} {l1 l2 : List Nat} (h : l1.Perm l2) : total need l1 = total need l2 := perm_sum (h.map need)

theorem total_filter_le {need : Nat → Int} (f g : Nat → Bool) : ∀ l : List Nat, (∀ a ∈ l, 0 ≤ need a) → (∀ a ∈ l, f a = true → g a = true ∨ need a = 0) →
    total need (l.filter f) ≤ total need (l.filter g) := by
  intro l
  induction l with
  | nil => intro _ _; exact Int.le_refl _
  | cons a l ih =>
    intro h1 h2
    have := ih (fun a ha => h1 a (by simp [ha])) (fun a ha => h2 a (by simp [ha]))
    have h0 := h1 a (by simp)
    have h3 := h2 a (by simp)
    simp only [List.filter_cons]
    cases hf : f a <;> cases hg : g a <;> simp only [Bool.false_eq_true, ↓reduceIte, total, List.map_cons, List.sum_cons] at *
    · exact this
    · omega
    · have := h3 hf; rw [hg] at this; simp at this; omega
    · omega

/-- On a well-formed instance with constant capacities, a schedule reported as feasible is accepted by the check, provided that no
requirement is negative and that activities without duration need no non-renewable resource. -/
theorem C28_accepts_generated {pb : Problem} {perm modes : List Nat} {r : Result} (inst : Instance pb) (hp : perm.Perm (List.range (pb.modes.length - 2)))
    (hm : modes.length + 2 = pb.modes.length) (h : sgs pb perm modes = .ok r) (hf : r.feasible = true)
    (hconst : ∀ res cap, pb.resources.get? res = some cap → ∃ c, cap = .const c ∧ 0 ≤ c) (hnonren : ∀ res ∈ pb.nonRenewable, res ∈ pb.resources.keys)
    (hneeds : ∀ a d k m res n, pb.modes.get? a = some d → d.get? k = some m → m.needs.get? res = some n →
      0 ≤ n ∧ (res ∈ pb.nonRenewable → m.duration = 0 → n = 0)) :
    ∃ mid, r.ext = 1 :: mid ++ [1] ∧ satisfy pb (some true) mid r.schedule = .ok true := by
  obtain ⟨hE, hmemE⟩ := extended_nodup inst.two hp
  obtain ⟨st, _, hext, _, _⟩ := sgs_inv hE inst.resources h
  obtain ⟨mid, hmid⟩ := ext_ends hext
  refine ⟨mid, hmid, ?_⟩
  obtain ⟨hnd, hkeys⟩ := C26_activities hE inst.resources h hf
  have hkeys : ∀ a, a ∈ r.schedule.keys ↔ 1 ≤ a ∧ a ≤ pb.modes.length := by
    intro a
    rw [hkeys, ← hmemE]
    simp only [extended, List.cons_append, List.mem_cons, List.mem_append, List.mem_map, List.not_mem_nil, or_false, Problem.sink]
    grind
  have hsink : pb.modes.length ∈ r.schedule.keys := (hkeys _).2 ⟨by have := inst.two; omega, Nat.le_refl _⟩
  obtain ⟨q, hq⟩ := Option.isSome_iff_exists.1 ((Dict.get?_isSome_iff_mem_keys _ _).2 hsink)
  have hmidlen : mid.length = modes.length := by
    have := (C26_modes h).1
    rw [hmid] at this; simp at this; omega
  have wf := wf_of_instance inst hp hm hext
  -- the requirements
  have hneedex : ∃ need : String → Nat → Int, ∀ a m res n, details pb r.ext a = .ok m → m.needs.get? res = some n → need res a = n := by
    refine ⟨fun res a => match details pb r.ext a with | .ok m => (m.needs.get? res).getD 0 | .error _ => 0, ?_⟩
    intro a m res n h1 h2
    simp [h1, h2]
  obtain ⟨need, hneed⟩ := hneedex
  have hneed' : ∀ res, ∀ a d k m n, pb.modes.get? a = some d → r.ext[a - 1]? = some k → d.get? k = some m → m.needs.get? res = some n → need res a = n := by
    intro res a d k m n h1 h2 h3 h4
    apply hneed a m res n _ h4
    simp only [details, dict_get_ok.2 h1, bind_ok, pyGet_ok_iff.2 h2, dict_get_ok.2 h3]
  have hdet : ∀ a, 1 ≤ a → a ≤ pb.modes.length → ∃ d k m, pb.modes.get? a = some d ∧ r.ext[a - 1]? = some k ∧ d.get? k = some m ∧
      ∀ res ∈ pb.resources.keys, m.needs.get? res = some (need res a) := by
    intro a h1 h2
    obtain ⟨m, hd, hr⟩ := wf.modes a ((hmemE a).2 ⟨h1, h2⟩)
    obtain ⟨d, k, g1, g2, g3⟩ := details_ok hd
    refine ⟨d, k, m, g1, g2, g3, fun res hres => ?_⟩
    obtain ⟨n, hn⟩ := hr res hres
    rw [hn, hneed a m res n hd hn]
  have htab : NeedTable pb (1 :: mid ++ [1]) need := by
    intro a ha res hr
    rw [← hmid]
    have := (inst.successors.2.1 a).1 ha
    obtain ⟨d, k, m, g1, g2, g3, g4⟩ := hdet a this.1 this.2
    exact ⟨d, k, m, g1, g2, g3, g4 res hr⟩
  have hperm : pb.successors.keys.Perm r.schedule.keys := by
    rw [List.perm_ext_iff_of_nodup inst.successors.1 hnd]
    intro a
    rw [inst.successors.2.1, hkeys]
  have hnn : ∀ res ∈ pb.resources.keys, ∀ a ∈ r.schedule.keys, 0 ≤ need res a := by
    intro res hr a ha
    have := (hkeys a).1 ha
    obtain ⟨d, k, m, g1, g2, g3, g4⟩ := hdet a this.1 this.2
    exact (hneeds a d k m res _ g1 g3 (g4 res hr)).1
  have hmain : ∀ res c, pb.resources.get? res = some (.const c) → 0 ≤ c → ∀ t : Nat, load (need res) r.schedule t r.schedule.keys ≤ c := by
    intro res c hc hpos t
    have hk : res ∈ pb.resources.keys := (Dict.get?_isSome_iff_mem_keys _ _).1 (by rw [hc]; rfl)
    have hcp : ∀ t c', capOf (.const c) t = some c' → 0 ≤ c' := by intro t c' h; cases h; exact hpos
    by_cases hr : res ∈ pb.nonRenewable
    · have := C26_nonrenewable_partial hE inst.resources h hf hc hcp hr (hneed' res) c rfl
      refine Int.le_trans (total_filter_le _ _ _ (hnn res hk) ?_) this
      intro a _ hrun
      left
      unfold runsAt at hrun
      unfold takesTime
      split at hrun
      · rename_i q' hq'
        simp only [decide_eq_true_eq] at hrun ⊢
        omega
      · cases hrun
    · exact C26_renewable hE inst.resources h hf hc hcp hr (hneed' res) t c rfl
  apply (C28_accepts_iff_partial (some true) hq (fun a ha => ((hkeys a).1 ha).2) inst.resources (fun a ha => by
    have := (inst.successors.2.1 a).1 ha
    exact ⟨(hkeys a).2 this, by omega⟩) htab).2
  refine ⟨by simp, ?_, ?_, ?_⟩
  · intro res cap hc t _
    obtain ⟨c, rfl, hpos⟩ := hconst res cap hc
    refine ⟨c, rfl, ?_⟩
    have := hmain res c hc hpos t
    unfold load at this ⊢
    rw [total_perm (hperm.filter _)]
    exact this
  · intro res hr
    have hk := hnonren res hr
    obtain ⟨cap, hc⟩ := Option.isSome_iff_exists.1 ((Dict.get?_isSome_iff_mem_keys _ _).2 hk)
    obtain ⟨c, rfl, hpos⟩ := hconst res cap hc
    refine ⟨_, c, hc, rfl, ?_⟩
    have hcp : ∀ t c', capOf (.const c) t = some c' → 0 ≤ c' := by intro t c' h; cases h; exact hpos
    have := C26_nonrenewable_partial hE inst.resources h hf hc hcp hr (hneed' res) c rfl
    rw [total_perm hperm]
    refine Int.le_trans ?_ this
    have := total_filter_le (need := need res) (fun _ => true) (takesTime r.schedule) r.schedule.keys (hnn res hk) (fun a ha _ => by
      have hr2 := (hkeys a).1 ha
      obtain ⟨d, k, m, g1, g2, g3, g4⟩ := hdet a hr2.1 hr2.2
      obtain ⟨⟨s, e⟩, hse⟩ := Option.isSome_iff_exists.1 ((Dict.get?_isSome_iff_mem_keys _ _).2 ha)
      obtain ⟨d', k', m', g1', g2', g3', _, g5⟩ := C26_durations hE inst.resources h hf a s e (Dict.mem_of_get? hse)
      rw [g1] at g1'; cases g1'
      rw [g2] at g2'; cases g2'
      rw [g3] at g3'; cases g3'
      by_cases hz : m.duration = 0
      · right; exact (hneeds a d k m res _ g1 g3 (g4 res hk)).2 hr hz
      · left; simp only [takesTime, hse, decide_eq_true_eq]; omega)
    rw [List.filter_eq_self.2 (fun _ _ => rfl)] at this
    exact this
  · intro a ss hmem b hb
    have ha : a ∈ r.schedule.keys := (hkeys a).2 ((inst.successors.2.1 a).1 (List.mem_map.2 ⟨_, hmem, rfl⟩))
    have hb' : b ∈ r.schedule.keys := (hkeys b).2 (inst.successors.2.2 a ss hmem b hb)
    obtain ⟨⟨sa, ea⟩, h1⟩ := Option.isSome_iff_exists.1 ((Dict.get?_isSome_iff_mem_keys _ _).2 ha)
    obtain ⟨⟨sb, eb⟩, h2⟩ := Option.isSome_iff_exists.1 ((Dict.get?_isSome_iff_mem_keys _ _).2 hb')
    exact ⟨sa, ea, sb, eb, h1, h2, C26_precedence hE inst.resources inst.successors.1 h hf a ss b hmem hb sa ea sb eb
      (Dict.mem_of_get? h1) (Dict.mem_of_get? h2)⟩

/-- The hypotheses hold for the schedule of the example, which is accepted; with the two activities overlapping it is rejected. -/
example : satisfy demo none [1, 1] [(1, (0, 0)), (3, (0, 2)), (2, (2, 5)), (4, (5, 5))] = .ok true := by decide +kernel
example : satisfy demo none [1, 1] [(1, (0, 0)), (3, (0, 2)), (2, (1, 4)), (4, (4, 4))] = .ok false := by decide +kernel
example : ∃ need, NeedTable demo (1 :: [1, 1] ++ [1]) need := by
  refine ⟨fun res a => if a = 2 ∨ a = 3 then 1 else 0, ?_⟩
  have k : ∀ a ∈ demo.successors.keys, ∀ res ∈ demo.resources.keys, (demo.modes.get? a).bind (fun d => ((1 :: [1, 1] ++ [1] : List Nat)[a - 1]?).bind (fun k =>
    (d.get? k).bind (fun m => m.needs.get? res))) = some (if a = 2 ∨ a = 3 then 1 else 0) := by decide
  intro a ha res hr
  have := k a ha res hr
  obtain ⟨d, h1, this⟩ := Option.bind_eq_some_iff.1 this
  obtain ⟨k, h2, this⟩ := Option.bind_eq_some_iff.1 this
  obtain ⟨m, h3, this⟩ := Option.bind_eq_some_iff.1 this
  exact ⟨d, k, m, h1, h2, h3, this⟩

/-- Durations are not checked: the schedule in which every activity starts and ends at 0 is accepted whatever the durations. -/
theorem C28_durations_unchecked : satisfy demo none [1, 1] [(1, (0, 0)), (2, (0, 0)), (3, (0, 0)), (4, (0, 0))] = .ok true ∧
    (demo.modes.get? 2).bind (fun d => (d.get? 1).map (·.duration)) = some 3 := by
  refine ⟨by decide +kernel, by decide⟩

/-- Nothing is checked after the end of the last activity: two activities share one machine at times 7 and 8. -/
theorem C28_late_overload_accepted : satisfy { demo with successors := [(1, [2, 3]), (2, []), (3, []), (4, [])] } none [1, 1]
    [(1, (0, 0)), (2, (6, 9)), (3, (7, 9)), (4, (2, 2))] = .ok true := by decide +kernel

/-- Nor before time 0. -/
theorem C28_negative_overload_accepted : satisfy demo none [1, 1] [(1, (-9, -9)), (2, (-5, -2)), (3, (-4, -2)), (4, (0, 0))] = .ok true := by decide +kernel

/-- A schedule that misses an activity is not rejected: the check raises `KeyError`. -/
theorem C28_missing_activity_raises : satisfy demo none [1, 1] [(1, (0, 0)), (2, (0, 3)), (4, (3, 3))] = .error .keyError := by decide +kernel

/-- A violated total with an empty time range is not rejected either: the message of the rejection uses an unbound variable. -/
theorem C28_total_violation_raises : satisfy instant none [1] [(1, (0, 0)), (2, (0, 0)), (3, (0, 0))] = .error .nameError := by decide +kernel

end Verif.Rcpsp
