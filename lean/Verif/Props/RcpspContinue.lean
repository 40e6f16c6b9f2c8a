import Verif.Props.Rcpsp
/-
Properties of the schedule generation that continues a partly executed schedule (C57) and of the permutation of a schedule (C58).
-/
namespace Verif.Rcpsp

/-! ## C57: continuing a schedule -/

/-- The schedule consists of the completed tasks, with the times given, and of all other activities, once each. -/
theorem C57_activities {pb : Problem} {perm modes : List Nat} {now : Nat} {done : Dict Nat (Int × Int)} {started : Dict Nat Nat} {r : Result}
    (hE : (1 :: perm.map (· + 2) ++ [pb.modes.length]).Nodup) (hres : pb.resources.keys.Nodup) (hdone : done.keys.Nodup)
    (h : sgs2 pb perm modes now done started = .ok r) (hf : r.feasible = true) :
    r.schedule.keys.Nodup ∧ (∀ a p, done.get? a = some p → r.schedule.get? a = some p) ∧
    ∀ a, a ∈ r.schedule.keys ↔ a ∈ done.keys ∨ a ∈ 1 :: perm.map (· + 2) ++ [pb.modes.length] := by
  obtain ⟨st, inv, hfl, hend⟩ := sgs2_inv hE hres h
  obtain ⟨hp, hs⟩ := hend (by rw [hf] at hfl; simpa using hfl)
  have hdis : ∀ a ∈ done.keys, a ∉ (placed pb r.ext st.ends).keys := by
    intro a ha hm
    rw [placed_keys] at hm
    have := inv.sub a hm
    simp only [List.mem_filter, List.contains_eq_mem] at this
    have := this.2
    simp [ha] at this
  rw [addCompleted_eq done _ hdone hdis] at hs
  have hnd : r.schedule.keys.Nodup := by
    rw [hs]
    simp only [Dict.keys, List.map_append]
    rw [List.nodup_append]
    refine ⟨?_, hdone, ?_⟩
    · have := inv.nodup
      rw [← placed_keys pb r.ext] at this
      exact this
    · intro a ha b hb e
      subst e
      exact hdis a hb ha
  refine ⟨hnd, fun a p hp => ?_, fun a => ?_⟩
  · apply Dict.get?_of_mem hnd
    rw [hs]
    exact List.mem_append_right _ (Dict.mem_of_get? hp)
  · have : a ∈ r.schedule.keys ↔ a ∈ st.ends.keys ∨ a ∈ done.keys := by
      rw [hs, ← placed_keys pb r.ext]
      simp [Dict.keys]
    rw [this, all_placed inv hp]
    simp only [List.mem_filter, List.contains_eq_mem, extended, Problem.sink]
    by_cases hd : a ∈ done.keys
    · simp [hd]
    · simp [hd]

/-- An activity that is not completed lasts as long as its mode says; it starts at its given start or later when one is given, and
at the current time or later otherwise. -/
theorem C57_durations {pb : Problem} {perm modes : List Nat} {now : Nat} {done : Dict Nat (Int × Int)} {started : Dict Nat Nat} {r : Result}
    (hE : (1 :: perm.map (· + 2) ++ [pb.modes.length]).Nodup) (hres : pb.resources.keys.Nodup) (hdone : done.keys.Nodup)
    (h : sgs2 pb perm modes now done started = .ok r) (hf : r.feasible = true) :
    ∀ a s e, (a, (s, e)) ∈ r.schedule → a ∉ done.keys → ∃ d k m, pb.modes.get? a = some d ∧ r.ext[a - 1]? = some k ∧ d.get? k = some m ∧
      e = s + m.duration ∧ (∀ s0, started.get? a = some s0 → (s0 : Int) ≤ s) ∧ (a ∉ started.keys → (now : Int) ≤ s) := by
  obtain ⟨st, inv, hfl, hend⟩ := sgs2_inv hE hres h
  obtain ⟨hp, hs⟩ := hend (by rw [hf] at hfl; simpa using hfl)
  have hdis : ∀ a ∈ done.keys, a ∉ (placed pb r.ext st.ends).keys := by
    intro a ha hm
    rw [placed_keys] at hm
    have := inv.sub a hm
    simp only [List.mem_filter, List.contains_eq_mem] at this
    have := this.2
    simp [ha] at this
  rw [addCompleted_eq done _ hdone hdis] at hs
  intro a s e hm hnd
  rw [hs] at hm
  rcases List.mem_append.1 hm with hm | hm
  · obtain ⟨e', he', rfl, rfl⟩ := mem_placed.1 hm
    obtain ⟨l1, l2, hl⟩ := List.append_of_mem he'
    obtain ⟨⟨m, hm, hle, _⟩, _, _, hlate, _⟩ := inv.greedy l1 a e' l2 hl
    obtain ⟨d, k, h1, h2, h3⟩ := details_ok hm
    have hd : dur pb r.ext a = m.duration := by simp [dur, hm]
    refine ⟨d, k, m, h1, h2, h3, by omega, fun s0 h0 => ?_, fun h0 => ?_⟩
    · have : baseOf now started a = s0 := by simp [baseOf, h0]
      omega
    · have : baseOf now started a = now := by
        unfold baseOf
        split
        · rename_i s0 hs0
          exact absurd ((Dict.get?_isSome_iff_mem_keys _ _).1 (by rw [hs0]; rfl)) h0
        · rfl
      omega
  · exact absurd (List.mem_map.2 ⟨_, hm, rfl⟩) hnd

/-- No activity starts before the end of a predecessor, when neither is completed, or when the predecessor was completed by now and the
activity had not started. -/
theorem C57_precedence_partial {pb : Problem} {perm modes : List Nat} {now : Nat} {done : Dict Nat (Int × Int)} {started : Dict Nat Nat} {r : Result}
    (hE : (1 :: perm.map (· + 2) ++ [pb.modes.length]).Nodup) (hres : pb.resources.keys.Nodup) (hsucc : pb.successors.keys.Nodup) (hdone : done.keys.Nodup)
    (h : sgs2 pb perm modes now done started = .ok r) (hf : r.feasible = true) :
    ∀ a ss b, (a, ss) ∈ pb.successors → b ∈ ss → b ∉ done.keys → ∀ sa ea sb eb, (a, (sa, ea)) ∈ r.schedule → (b, (sb, eb)) ∈ r.schedule →
      (a ∈ done.keys → ea ≤ now ∧ b ∉ started.keys) → ea ≤ sb := by
  intro a ss b hm hb hbd sa ea sb eb ha hb' hcase
  by_cases had : a ∈ done.keys
  · obtain ⟨_, _, _, _, _, _, _, _, h2⟩ := C57_durations hE hres hdone h hf b sb eb hb' hbd
    have := hcase had
    have := h2 this.2
    omega
  obtain ⟨st, inv, hfl, hend⟩ := sgs2_inv hE hres h
  obtain ⟨hp, hs⟩ := hend (by rw [hf] at hfl; simpa using hfl)
  have hdis : ∀ a ∈ done.keys, a ∉ (placed pb r.ext st.ends).keys := by
    intro a ha hm
    rw [placed_keys] at hm
    have := inv.sub a hm
    simp only [List.mem_filter, List.contains_eq_mem] at this
    have := this.2
    simp [ha] at this
  rw [addCompleted_eq done _ hdone hdis] at hs
  rw [hs] at ha hb'
  rcases List.mem_append.1 ha with ha | ha
  · rcases List.mem_append.1 hb' with hb' | hb'
    · obtain ⟨e1, h1, rfl, rfl⟩ := mem_placed.1 ha
      obtain ⟨e2, h2, rfl, rfl⟩ := mem_placed.1 hb'
      obtain ⟨pre, post, hl⟩ := List.append_of_mem h2
      obtain ⟨_, ⟨l1, l2, _, hready, _⟩, hafter, _, _⟩ := inv.greedy pre b e2 post hl
      have hpre := hready a ss hm hb (inv.sub a (List.mem_map.2 ⟨_, h1, rfl⟩))
      obtain ⟨⟨a', e'⟩, hmem, rfl⟩ := List.mem_map.1 hpre
      have : e' = e1 := by
        have g1 := Dict.get?_of_mem inv.nodup h1
        have g2 := Dict.get?_of_mem inv.nodup (v := e') (k := a') (by rw [hl]; exact List.mem_append_left _ hmem)
        rw [g1] at g2; exact (Option.some.inj g2).symm
      subst this
      have := hafter a' e' hmem ss (Dict.get?_of_mem hsucc hm) hb
      omega
    · exact absurd (List.mem_map.2 ⟨_, hb', rfl⟩) hbd
  · exact absurd (List.mem_map.2 ⟨_, ha, rfl⟩) had

/-- The activities that are not completed never need more of a renewable resource than there is. -/
theorem C57_renewable_partial {pb : Problem} {perm modes : List Nat} {now : Nat} {done : Dict Nat (Int × Int)} {started : Dict Nat Nat} {r : Result}
    (hE : (1 :: perm.map (· + 2) ++ [pb.modes.length]).Nodup) (hres : pb.resources.keys.Nodup) (hdone : done.keys.Nodup)
    (h : sgs2 pb perm modes now done started = .ok r) (hf : r.feasible = true)
    {res : String} {cap : Capacity} (hcap : pb.resources.get? res = some cap) (hpos : ∀ t c, capOf cap t = some c → 0 ≤ c)
    (hr : res ∉ pb.nonRenewable) {need : Nat → Int} (hneed : ∀ a d k m n, pb.modes.get? a = some d → r.ext[a - 1]? = some k →
      d.get? k = some m → m.needs.get? res = some n → need a = n) :
    ∀ (t : Nat) c, capOf cap t = some c → load need r.schedule t (r.schedule.keys.filter (fun a => !done.keys.contains a)) ≤ c := by
  have hndk := (C57_activities hE hres hdone h hf).1
  obtain ⟨st, inv, hfl, hend⟩ := sgs2_inv hE hres h
  have hflag : st.flag = false := by rw [hf] at hfl; simpa using hfl
  obtain ⟨hp, hs⟩ := hend hflag
  have hdis : ∀ a ∈ done.keys, a ∉ (placed pb r.ext st.ends).keys := by
    intro a ha hm
    rw [placed_keys] at hm
    have := inv.sub a hm
    simp only [List.mem_filter, List.contains_eq_mem] at this
    have := this.2
    simp [ha] at this
  rw [addCompleted_eq done _ hdone hdis] at hs
  intro t c hc
  have hnodup : (placed pb r.ext st.ends).keys.Nodup := by rw [placed_keys]; exact inv.nodup
  have hn : IsNeed pb r.ext res need := by
    intro a m n hm hmn
    obtain ⟨d, k, h1, h2, h3⟩ := details_ok hm
    exact hneed a d k m n h1 h2 h3 hmn
  have hkeys : r.schedule.keys.filter (fun a => !done.keys.contains a) = (placed pb r.ext st.ends).keys := by
    rw [hs]
    simp only [Dict.keys, List.map_append, List.filter_append]
    rw [List.filter_eq_self.2, List.filter_eq_nil_iff.2, List.append_nil]
    · intro a ha; simpa using ha
    · intro a ha
      simp only [List.contains_eq_mem, Bool.not_eq_eq_eq_not, Bool.not_true, decide_eq_false_iff_not]
      exact fun hd => hdis a hd ha
  have hload : load need r.schedule t (r.schedule.keys.filter (fun a => !done.keys.contains a)) =
      load need (placed pb r.ext st.ends) t (placed pb r.ext st.ends).keys := by
    rw [hkeys]
    unfold load
    congr 1
    apply List.filter_congr
    intro a ha
    obtain ⟨q, hq⟩ := Option.isSome_iff_exists.1 ((Dict.get?_isSome_iff_mem_keys _ _).2 ha)
    have : r.schedule.get? a = some q := Dict.get?_of_mem hndk (by rw [hs]; exact List.mem_append_left _ (Dict.mem_of_get? hq))
    simp only [runsAt, hq, this]
  rw [hload, ← used_eq_load _ hnodup]
  have hnr : pb.nonRenewable.contains res = false := by simpa using hr
  by_cases ht : t < pb.newHorizon
  · obtain ⟨row, r1, r2, r3, r4⟩ := inv.row res cap hcap
    have := r3 need hn t ht c (initRow_some ht hc)
    have := r4 hflag (fun t' ht' c' hc' => hpos t' c' (capOf_initRow ht' hc')) t ht _ this
    rw [hnr] at this
    omega
  · have : used false need (placed pb r.ext st.ends) t = 0 := by
      apply used_zero
      intro p hmem
      obtain ⟨a, s, e⟩ := p
      obtain ⟨e', he', rfl, rfl⟩ := mem_placed.1 hmem
      obtain ⟨l1, l2, hl⟩ := List.append_of_mem he'
      have hin := (inv.greedy l1 a e' l2 hl).inside
      simp only [charged, Bool.false_eq_true, ↓reduceIte, decide_eq_false_iff_not]
      rcases hin with g | g | g
      · rw [g] at hcap; cases hcap
      · rw [g]; omega
      · omega
    rw [this]
    exact hpos t c hc

/-- Activity 3 is completed; activity 2 goes on from the current time. -/
example : sgs2 demo [1, 0] [1, 1] 2 [(1, (0, 0)), (3, (0, 2))] [] =
    .ok ⟨[(2, (2, 5)), (4, (5, 5)), (1, (0, 0)), (3, (0, 2))], true, [1, 1, 1, 1]⟩ := by decide +kernel

/-- A task that runs does not keep its start: activity 2 has started at 0, but activity 3 comes first in the list and takes the machine at
the current time 1, so that activity 2 is moved to time 3. -/
theorem C57_started_task_moved : sgs2 demo [1, 0] [1, 1] 1 [(1, (0, 0))] [(2, 0)] =
    .ok ⟨[(3, (1, 3)), (2, (3, 6)), (4, (6, 6)), (1, (0, 0))], true, [1, 1, 1, 1]⟩ := by decide +kernel

/-- What completed tasks have used up is forgotten: activity 2 has taken both tools, activity 3 takes a third one, and the schedule is
reported as feasible although the check rejects it. -/
theorem C57_consumption_forgotten : sgs2 demo [0, 1] [2, 1] 1 [(1, (0, 0)), (2, (0, 1))] [] =
      .ok ⟨[(3, (1, 3)), (4, (3, 3)), (1, (0, 0)), (2, (0, 1))], true, [1, 2, 1, 1]⟩ ∧
    satisfy demo (some true) [2, 1] [(3, (1, 3)), (4, (3, 3)), (1, (0, 0)), (2, (0, 1))] = .ok false := by decide +kernel

/-! ## C58: the permutation of a schedule -/

/-- For a schedule of the activities 1 to `n`, numbered from -1 to `n - 2`, the list contains each number from 0 to `n - 3` once and is
sorted by start time. -/
theorem C58_permutation {sch : Dict Nat (Int × Int)} {n : Nat} (hn : 2 ≤ n) (hk : sch.keys.Perm (List.range' 1 n)) :
    ∃ l, permOf sch = .ok l ∧ l.Perm ((List.range (n - 2)).map Int.ofNat) ∧
      l.Pairwise (fun x y => ∀ p q, sch.get? (x + 2).toNat = some p → sch.get? (y + 2).toNat = some q → p.1 ≤ q.1) := by
  have hnd : sch.keys.Nodup := hk.nodup_iff.2 List.nodup_range'
  let sorted := (sortBy (fun p : Nat × (Int × Int) => p.2.1) sch).map (fun p => (p.1 : Int) - 2)
  have hperm : sorted.Perm ((List.range' 1 n).map (fun a : Nat => (a : Int) - 2)) := by
    have h1 : sorted.Perm (sch.map (fun p => (p.1 : Int) - 2)) := (sortBy_perm _ sch).map _
    have h2 : (sch.keys.map (fun a : Nat => (a : Int) - 2)).Perm ((List.range' 1 n).map (fun a : Nat => (a : Int) - 2)) := hk.map _
    have h3 : sch.keys.map (fun a : Nat => (a : Int) - 2) = sch.map (fun p => (p.1 : Int) - 2) := by simp [Dict.keys, Function.comp_def]
    rw [h3] at h2
    exact h1.trans h2
  have hmem : ∀ x, x ∈ sorted ↔ -1 ≤ x ∧ x ≤ (n : Int) - 2 := by
    intro x
    rw [hperm.mem_iff, List.mem_map]
    constructor
    · rintro ⟨a, ha, rfl⟩
      rw [List.mem_range'_1] at ha
      omega
    · intro h
      exact ⟨(x + 2).toNat, by rw [List.mem_range'_1]; omega, by omega⟩
  have hsnd : sorted.Nodup := by
    rw [hperm.nodup_iff]
    exact List.Pairwise.map _ (fun a b h => by omega) (List.nodup_range' (s := 1) (n := n))
  have hsorted : sorted.Pairwise (fun x y => ∀ p q, sch.get? (x + 2).toNat = some p → sch.get? (y + 2).toNat = some q → p.1 ≤ q.1) := by
    have h := sortBy_sorted (fun p : Nat × (Int × Int) => p.2.1) sch
    rw [List.pairwise_map]
    refine h.imp_of_mem ?_
    intro a b ha hb hab p q hp hq
    have ga := Dict.get?_of_mem hnd (k := a.1) (v := a.2) (mem_sortBy.1 ha)
    have gb := Dict.get?_of_mem hnd (k := b.1) (v := b.2) (mem_sortBy.1 hb)
    rw [show ((a.1 : Int) - 2 + 2).toNat = a.1 by omega, ga] at hp
    rw [show ((b.1 : Int) - 2 + 2).toNat = b.1 by omega, gb] at hq
    cases hp; cases hq
    exact hab
  have h1 : (-1 : Int) ∈ sorted := (hmem _).2 (by omega)
  have hmax : (sorted.erase (-1)).max? = some ((n : Int) - 2) := by
    rw [List.max?_eq_some_iff]
    refine ⟨hsnd.mem_erase_iff.2 ⟨by omega, (hmem _).2 (by omega)⟩, fun b hb => ?_⟩
    exact ((hmem b).1 (hsnd.mem_erase_iff.1 hb).2).2
  have hres : permOf sch = .ok ((sorted.erase (-1)).erase ((n : Int) - 2)) := by
    simp only [permOf]
    rw [if_pos h1]
    show (match (sorted.erase (-1)).max? with | some x => _ | none => _) = _
    rw [hmax]
  refine ⟨_, hres, ?_, ?_⟩
  · have hnd2 : (sorted.erase (-1)).Nodup := hsnd.sublist List.erase_sublist
    rw [List.perm_ext_iff_of_nodup (hnd2.sublist List.erase_sublist)
      (List.Pairwise.map _ (fun a b h => by simp only [Int.ofNat_eq_natCast, ne_eq]; omega) (List.nodup_range (n := n - 2)))]
    intro x
    rw [hnd2.mem_erase_iff, hsnd.mem_erase_iff, hmem, List.mem_map]
    constructor
    · intro h
      exact ⟨x.toNat, by rw [List.mem_range]; omega, by simp; omega⟩
    · rintro ⟨a, ha, rfl⟩
      rw [List.mem_range] at ha
      simp; omega
  · exact hsorted.sublist (List.erase_sublist.trans List.erase_sublist)

example : permOf [(1, (0, 0)), (3, (0, 2)), (2, (2, 5)), (4, (5, 5))] = .ok [1, 0] := by decide +kernel

/-- Ties: the list follows the order of the dictionary, so that two equal schedules may give different permutations. -/
example : permOf [(1, (0, 0)), (2, (0, 2)), (3, (0, 2)), (4, (2, 2))] = .ok [0, 1] ∧
    permOf [(1, (0, 0)), (3, (0, 2)), (2, (0, 2)), (4, (2, 2))] = .ok [1, 0] := by decide +kernel

/-- A schedule cut short by an infeasibility may lack the activities in between: then the largest number removed is that of the sentinel. -/
example : permOf [(1, (0, 0)), (3, (0, 2)), (4, (99999999, 9999999))] = .ok [1] := by decide +kernel

end Verif.Rcpsp
