import Verif.Lemmas.CpModes
import Verif.Props.CpMulti
/- Property C187: the constraint program that only chooses modes. -/
namespace Verif.CpModes
open Rcpsp Milp CpRcpsp CpMulti Robust

/-- Specification: the capacity a choice of modes is held against: the number, or the greatest of the calendar. -/
def capacity : Capacity → Option Int
  | .const c => some c
  | .calendar l => l.max?

/-- Specification: existing modes whose requirements fit: in total for what is not renewed, one by one for the rest. -/
structure Fits (pb : Problem) (md : Nat → Nat) : Prop where
  modes : ∀ a, 1 ≤ a → a ≤ pb.modes.length → ∃ d, durOf pb a (md a) = some d
  total : ∀ r c x, r ∈ pb.nonRenewable → pb.resources.get? r = some c → capacity c = some x → CpMulti.total pb md r ≤ x
  each : ∀ r c x, r ∉ pb.nonRenewable → pb.resources.get? r = some c → capacity c = some x →
    ∀ a y, 1 ≤ a → a ≤ pb.modes.length → needOf pb a (md a) r = some y → y ≤ x

/-- The modes of every activity are numbered 1, 2, … in this order. -/
def PlainModes (pb : Problem) : Prop := ∀ a ms, pb.modes.get? a = some ms → ∃ k, ms.keys = List.range' 1 (k + 1)

/-- What the data of the program are. -/
structure Info (pb : Problem) (D : Data) (bs : List (Nat × List Nat)) : Prop where
  len : bs.length = pb.modes.length
  get : ∀ i, i < bs.length → ∃ ms, pb.modes.get? (i + 1) = some ms ∧ bs[i]? = some (i + 1, ms.keys)
  modes : D.modes = modeSets 1 bs
  idx : ∀ (i : Nat) (p : Nat × Nat), (flat bs)[i]? = some p → D.idx.get? (i + 1) = some p
  nOpt : D.nOpt = (flat bs).length
  nres : D.rcap.length = pb.resources.length
  cap : ∀ (r : Nat) (p : String × Capacity), pb.resources[r]? = some p → capacity p.2 = some (el D.rcap r)
  need : ∀ (r : Nat) (p : String × Capacity), pb.resources[r]? = some p → ∀ (j a k : Nat), (flat bs)[j]? = some (a, k) →
    needOf pb a k p.1 = some (el2 D.rreq r j)
  rtype : ∀ (r : Nat) (p : String × Capacity), pb.resources[r]? = some p → D.rtype[r]? = some (if p.1 ∈ pb.nonRenewable then 2 else 1)

theorem caps_inv {pb : Problem} {rcap : List Int} (h : caps pb = .ok rcap) : rcap.length = pb.resources.length ∧
    ∀ (r : Nat) (p : String × Capacity), pb.resources[r]? = some p → capacity p.2 = some (el rcap r) := by
  have key : ∀ (f : Capacity → Except PyErr Int), (∀ c x, f c = .ok x → capacity c = some x) →
      mapE (fun p : String × Capacity => f p.2) pb.resources = .ok rcap → rcap.length = pb.resources.length ∧
      ∀ (r : Nat) (p : String × Capacity), pb.resources[r]? = some p → capacity p.2 = some (el rcap r) := by
    intro f hf hm
    obtain ⟨l, g⟩ := mapE_get hm
    refine ⟨l, ?_⟩
    intro r p hp
    obtain ⟨b, e1, e2⟩ := g r p hp
    rw [el_of e1]
    exact hf _ _ e2
  unfold caps at h
  split at h
  · cases h
  · refine key greatest ?_ h
    intro c x hc
    cases c with
    | const c => cases hc
    | calendar l =>
      simp only [greatest] at hc
      simp only [capacity]
      split at hc
      · rename_i e; rw [e, Except.ok.inj hc]
      · cases hc
  · refine key number ?_ h
    intro c x hc
    cases c with
    | const c => simp only [number] at hc; rw [capacity, Except.ok.inj hc]
    | calendar l => cases hc

theorem init_info {pb : Problem} {D : Data} (hn : Numbered pb) (hp : PlainModes pb) (h : init pb = .ok D) : ∃ bs, Info pb D bs := by
  simp only [init, bind_eq_ok, Except.ok.injEq] at h
  obtain ⟨bs, h0, r, h1, rreq, h2, rcap, h3, rfl⟩ := h
  rw [blocks, tasks_eq hn] at h0
  obtain ⟨l0, g0⟩ := mapE_get h0
  rw [List.length_range'] at l0
  have hget : ∀ i, i < bs.length → ∃ ms, pb.modes.get? (i + 1) = some ms ∧ bs[i]? = some (i + 1, ms.keys) := by
    intro i hi
    obtain ⟨b, e1, e2⟩ := g0 i (i + 1) (range'_get (by omega))
    simp only [bind_eq_ok, Except.ok.injEq] at e2
    obtain ⟨ms, e2, rfl⟩ := e2
    exact ⟨ms, get_eq e2, e1⟩
  have hplain : Plain bs := by
    intro b hb
    obtain ⟨i, hi, rfl⟩ := List.mem_iff_getElem.1 hb
    obtain ⟨ms, e1, e2⟩ := hget i hi
    rw [List.getElem?_eq_getElem hi] at e2
    rw [Option.some.inj e2]
    exact hp _ _ e1
  obtain ⟨idx, n1, -, n2⟩ := numberModes_ok bs 0 [] hplain
  rw [n1] at h1
  obtain rfl := Except.ok.inj h1
  obtain ⟨c1, c2⟩ := caps_inv h3
  obtain ⟨l2, g2⟩ := mapE_get h2
  refine ⟨bs, l0, hget, rfl, ?_, rfl, c1, c2, ?_, ?_⟩
  · intro i p hi
    have := n2 i p hi
    rw [← this]; show idx.get? (i + 1) = _; congr 1; omega
  · intro r p hp j a k hj
    have hk : pb.resources.keys[r]? = some p.1 := by simp [Dict.keys, hp]
    obtain ⟨row, e1, e2⟩ := g2 r p.1 hk
    obtain ⟨l5, g5⟩ := mapE_get e2
    obtain ⟨b, e3, e4⟩ := g5 j (a, k) hj
    simp only [bind_eq_ok] at e4
    obtain ⟨m, e4, e5⟩ := e4
    have : el2 rreq r j = b := by
      unfold el2
      have : rreq.getD r [] = row := by simp [List.getD, e1]
      rw [this, el_of e3]
    show needOf pb a k p.1 = some (el2 rreq r j)
    rw [this, needOf, modeAt_ok e4, Option.bind_some, get_eq e5]
  · intro r p hp
    show (pb.resources.keys.map (fun r => if r ∈ pb.nonRenewable then 2 else 1))[r]? = _
    simp [Dict.keys, hp]

theorem Info.total_eq {pb : Problem} {D : Data} {bs : List (Nat × List Nat)} (hn : Numbered pb) (hi : Info pb D bs) {mi md : Nat → Nat}
    (hmi : ∀ i, i < bs.length → (flat bs)[mi i - 1]? = some (i + 1, md (i + 1))) {r : Nat} {p : String × Capacity}
    (hp : pb.resources[r]? = some p) : CpMulti.total pb md p.1 = ((List.range bs.length).map (fun i => el2 D.rreq r (mi i - 1))).sum := by
  unfold CpMulti.total
  have hperm : pb.modes.keys.Perm ((List.range bs.length).map (· + 1)) := by
    refine hn.acts.trans (List.Perm.of_eq ?_)
    rw [hi.len, List.range'_eq_map_range]
    exact List.map_congr_left (fun i _ => by omega)
  rw [(hperm.map _).sum_eq, List.map_map]
  congr 1
  refine List.map_congr_left (fun i h => ?_)
  simp only [Function.comp_apply, hi.need r p hp _ _ _ (hmi i (List.mem_range.1 h)), Option.getD_some]

/-- The modes of the sets are those of their activity. -/
theorem Info.set_get {pb : Problem} {D : Data} {bs : List (Nat × List Nat)} (hi : Info pb D bs) {i : Nat} (hl : i < bs.length) :
    ∃ ms o, pb.modes.get? (i + 1) = some ms ∧ D.modes.getD i [] = List.range' (1 + o) ms.keys.length ∧
      ∀ (j k : Nat), ms.keys[j]? = some k → (flat bs)[o + j]? = some (i + 1, k) := by
  obtain ⟨ms, e1, e2⟩ := hi.get i hl
  obtain ⟨o, e3, e4⟩ := block_get bs 1 i _ _ e2
  refine ⟨ms, o, e1, ?_, e4⟩
  rw [hi.modes]
  simp [List.getD, e3]

theorem durOf_mode {pb : Problem} {a k : Nat} {ms : Dict Nat Mode} (h : pb.modes.get? a = some ms) : (∃ d, durOf pb a k = some d) ↔ k ∈ ms.keys := by
  rw [← Dict.get?_isSome_iff_mem_keys, durOf, h, Option.bind_some]
  cases ms.get? k <;> simp

/-- The modes read off are those of the numbers chosen. -/
theorem read_ok {pb : Problem} {D : Data} {bs : List (Nat × List Nat)} (hi : Info pb D bs)
    (hends : ∀ a ms, a = 1 ∨ a = pb.modes.length → pb.modes.get? a = some ms → ms.keys = [1])
    {mi : Nat → Nat} {mrun : List Bool} (hs : Solves D mi mrun) {md : Nat → Nat}
    (hmd : ∀ i, i < bs.length → (flat bs)[mi i - 1]? = some (i + 1, md (i + 1))) :
    retrieve pb D mrun = .ok ((List.range' 1 pb.modes.length).map md) := by
  have hml : D.modes.length = bs.length := by rw [hi.modes, modeSets_length]
  have hrun : ∀ i, (true, i) ∈ mrun.zipIdx → D.idx.get? (i + 1) = some ((flat bs)[i]?.getD (0, 0)) ∧
      1 ≤ ((flat bs)[i]?.getD (0, 0)).1 ∧ ((flat bs)[i]?.getD (0, 0)).1 ≤ pb.modes.length ∧
      ((flat bs)[i]?.getD (0, 0)).2 = md ((flat bs)[i]?.getD (0, 0)).1 := by
    intro i hmem
    have hget : mrun[i]? = some true := by
      have := List.mk_mem_zipIdx_iff_getElem?.1 hmem
      simpa using this
    have hlt : i < (flat bs).length := by
      rw [← hi.nOpt, ← hs.len]; exact (List.getElem?_eq_some_iff.1 hget).1
    rcases hfi : (flat bs)[i]? with _ | ⟨t, k⟩
    · rw [List.getElem?_eq_none_iff] at hfi; omega
    · obtain ⟨b, ks, S, f1, f2, f3⟩ := flat_mem bs 1 i t k hfi
      have hb : b < bs.length := (List.getElem?_eq_some_iff.1 f1).1
      obtain ⟨ms, e1, e2⟩ := hi.get b hb
      rw [f1] at e2
      have et : t = b + 1 := (Prod.mk.inj (Option.some.inj e2)).1
      have hS : D.modes.getD b [] = S := by rw [hi.modes]; simp [List.getD, f2]
      have hone := hs.mode b (by omega)
      rw [hS] at hone
      have heq : 1 + i = mi b := by
        refine countP_one hone.2.2 f3 hone.1 ?_ hone.2.1
        have e5 : 1 + i - 1 = i := by omega
        rw [runs, e5]
        simp [List.getD, hget]
      have hm := hmd b hb
      rw [← heq] at hm
      have e6 : 1 + i - 1 = i := by omega
      rw [e6, hfi] at hm
      have hk := (Prod.mk.inj (Option.some.inj hm)).2
      refine ⟨hi.idx i _ hfi, ?_, ?_, ?_⟩
      · show 1 ≤ t; omega
      · show t ≤ _; rw [← hi.len]; omega
      · show k = md t; rw [hk, et]
  obtain ⟨out, h1, h2, h3⟩ := retrieveLoop_ok pb.modes.length D.idx (fun i => (flat bs)[i]?.getD (0, 0)) md mrun.zipIdx
    (List.replicate pb.modes.length 1) (by simp) hrun
  rw [retrieve, h1]
  congr 1
  apply List.ext_getElem?
  intro j
  by_cases hj : j < pb.modes.length
  · have hjb : j < bs.length := by rw [hi.len]; exact hj
    rw [List.getElem?_map, range'_get hj, Option.map_some]
    obtain ⟨h4, h5⟩ := h3 j hj
    by_cases hin : j ≠ 0 ∧ j + 1 ≠ pb.modes.length
    · apply h4
      refine ⟨hin.1, hin.2, mi j - 1, ?_, ?_⟩
      · obtain ⟨hm1, hm2, -⟩ := hs.mode j (by omega)
        rw [List.mk_mem_zipIdx_iff_getElem?]
        rw [runs, List.getD] at hm2
        cases hg : mrun[mi j - 1]? with
        | none => rw [hg] at hm2; cases hm2
        | some v => rw [hg] at hm2; simp at hm2; rw [hm2]
      · rw [hmd j hjb]; rfl
    · rw [h5 (fun hh => hin ⟨hh.1, hh.2.1⟩)]
      rw [List.getElem?_replicate, if_pos hj]
      obtain ⟨ms, e1, e2⟩ := hi.get j hjb
      have hk := hends (j + 1) ms (by omega) e1
      obtain ⟨ms', o, g1, g2, g3⟩ := hi.set_get hjb
      rw [e1] at g1
      obtain rfl := Option.some.inj g1
      rw [hk] at g2 g3
      have hm := (hs.mode j (by omega)).1
      rw [g2, List.mem_range'_1] at hm
      have e7 : mi j - 1 = o + 0 := by simp at hm; omega
      have := hmd j hjb
      rw [e7, g3 0 1 rfl] at this
      exact congrArg some (Prod.mk.inj (Option.some.inj this)).2
  · rw [List.getElem?_eq_none (by omega), List.getElem?_eq_none (by simp; omega)]

/-- C187: whatever the solver answers, the modes read off exist and fit: every resource that is not renewed suffices for all activities
together, every other for each of them.  Source and sink have mode 1 only. -/
theorem C187_sound {pb : Problem} {D : Data} (hn : Numbered pb) (hp : PlainModes pb)
    (hends : ∀ a ms, a = 1 ∨ a = pb.modes.length → pb.modes.get? a = some ms → ms.keys = [1])
    (h : init pb = .ok D) {mi : Nat → Nat} {mrun : List Bool} (hs : Solves D mi mrun) :
    ∃ md, retrieve pb D mrun = .ok ((List.range' 1 pb.modes.length).map md) ∧ Fits pb md := by
  obtain ⟨bs, hi⟩ := init_info hn hp h
  have hml : D.modes.length = bs.length := by rw [hi.modes, modeSets_length]
  have hmode : ∀ i, i < bs.length → ∃ k, (flat bs)[mi i - 1]? = some (i + 1, k) ∧ 1 ≤ mi i := by
    intro i hl
    obtain ⟨ms, o, e1, e2, e3⟩ := hi.set_get hl
    have hm := (hs.mode i (by omega)).1
    rw [e2, List.mem_range'_1] at hm
    have hj : mi i - 1 - o < ms.keys.length := by omega
    refine ⟨ms.keys[mi i - 1 - o], ?_, by omega⟩
    have := e3 _ _ (List.getElem?_eq_getElem hj)
    rw [← this]
    congr 1
    omega
  have hmd : ∃ md : Nat → Nat, ∀ i, i < bs.length → (flat bs)[mi i - 1]? = some (i + 1, md (i + 1)) := by
    refine ⟨fun a => ((flat bs)[mi (a - 1) - 1]?.getD (0, 0)).2, ?_⟩
    intro i hl
    obtain ⟨k, hk, -⟩ := hmode i hl
    simp [hk]
  obtain ⟨md, hmd⟩ := hmd
  refine ⟨md, ?_, ?_, ?_, ?_⟩
  · exact read_ok hi hends hs hmd
  · intro a h1 h2
    have hl : a - 1 < bs.length := by rw [hi.len]; omega
    obtain ⟨ms, o, e1, e2, e3⟩ := hi.set_get hl
    have ea : a - 1 + 1 = a := by omega
    rw [ea] at e1 e3
    rw [durOf_mode e1]
    have hm := (hs.mode (a - 1) (by omega)).1
    rw [e2, List.mem_range'_1] at hm
    have hj : mi (a - 1) - 1 - o < ms.keys.length := by omega
    have e4 := e3 _ _ (List.getElem?_eq_getElem hj)
    have e5 : o + (mi (a - 1) - 1 - o) = mi (a - 1) - 1 := by omega
    have e6 := hmd (a - 1) hl
    rw [e5] at e4
    rw [e4, ea] at e6
    rw [← (Prod.mk.inj (Option.some.inj e6)).2]
    exact List.getElem_mem hj
  · intro r c x hr hc hx
    obtain ⟨i, hri⟩ := List.mem_iff_getElem?.1 (Dict.mem_of_get? hc)
    have hil : i < D.rcap.length := by rw [hi.nres]; exact (List.getElem?_eq_some_iff.1 hri).1
    have h1 := hi.cap i _ hri
    have h2 := hi.rtype i _ hri
    rw [if_pos hr] at h2
    have h3 := hs.total i hil h2
    have h4 := hi.total_eq hn hmd hri
    simp only at h4 h1
    rw [hx] at h1
    rw [h4, Option.some.inj h1, ← hml]
    exact h3
  · intro r c x hr hc hx a y h1 h2 hy
    obtain ⟨i, hri⟩ := List.mem_iff_getElem?.1 (Dict.mem_of_get? hc)
    have hil : i < D.rcap.length := by rw [hi.nres]; exact (List.getElem?_eq_some_iff.1 hri).1
    have h3 := hi.cap i _ hri
    have h4 := hi.rtype i _ hri
    rw [if_neg hr] at h4
    have hl : a - 1 < bs.length := by rw [hi.len]; omega
    have h5 := hs.fits i hil h4 (a - 1) (by omega)
    have h6 := hi.need i _ hri _ _ _ (hmd (a - 1) hl)
    have ea : a - 1 + 1 = a := by omega
    rw [ea] at h6
    simp only at h6 h3
    rw [hy] at h6
    rw [hx] at h3
    rw [Option.some.inj h6, Option.some.inj h3]
    exact h5

/-- C187: every choice of modes that fits is read off a solution. -/
theorem C187_complete {pb : Problem} {D : Data} (hn : Numbered pb) (hp : PlainModes pb)
    (hends : ∀ a ms, a = 1 ∨ a = pb.modes.length → pb.modes.get? a = some ms → ms.keys = [1])
    (h : init pb = .ok D) {md : Nat → Nat} (hf : Fits pb md) :
    ∃ mi mrun, Solves D mi mrun ∧ retrieve pb D mrun = .ok ((List.range' 1 pb.modes.length).map md) := by
  obtain ⟨bs, hi⟩ := init_info hn hp h
  have hml : D.modes.length = bs.length := by rw [hi.modes, modeSets_length]
  obtain ⟨mrun, hmr⟩ : ∃ mrun : List Bool, mrun = (flat bs).map (fun p => decide (p.2 = md p.1)) := ⟨_, rfl⟩
  have hrl : mrun.length = (flat bs).length := by rw [hmr]; simp
  have hex : ∀ i, i < bs.length → ∃ m, m ∈ D.modes.getD i [] ∧ runs mrun m = true ∧ (D.modes.getD i []).countP (runs mrun) = 1 ∧
      (flat bs)[m - 1]? = some (i + 1, md (i + 1)) := by
    intro i hl
    obtain ⟨ms, o, e1, e2, e3⟩ := hi.set_get hl
    obtain ⟨k, hk⟩ := hp _ _ e1
    have hmem := (durOf_mode e1).1 (hf.modes (i + 1) (by omega) (by rw [← hi.len]; omega))
    have hklen : ms.keys.length = k + 1 := by rw [hk]; simp
    rw [hk, List.mem_range'_1] at hmem
    have hrun : ∀ j, j < k + 1 → (runs mrun (1 + o + j) = true ↔ 1 + o + j = o + md (i + 1)) := by
      intro j hj
      have hkj : ms.keys[j]? = some (j + 1) := by rw [hk, range'_get hj]
      have e4 := e3 j _ hkj
      have e5 : 1 + o + j - 1 = o + j := by omega
      rw [runs, e5, hmr, List.getD, List.getElem?_map, e4]
      simp
      omega
    have hat : (flat bs)[o + md (i + 1) - 1]? = some (i + 1, md (i + 1)) := by
      have hkj : ms.keys[md (i + 1) - 1]? = some (md (i + 1)) := by
        rw [hk, range'_get (by omega)]; congr 1; omega
      rw [← e3 _ _ hkj]
      congr 1
      omega
    refine ⟨o + md (i + 1), ?_, ?_, ?_, hat⟩
    · rw [e2, List.mem_range'_1, hklen]; omega
    · have := (hrun (md (i + 1) - 1) (by omega)).2 (by omega)
      have e6 : 1 + o + (md (i + 1) - 1) = o + md (i + 1) := by omega
      rw [e6] at this
      exact this
    · rw [e2, hklen]
      have : (List.range' (1 + o) (k + 1)).countP (runs mrun) = (List.range' (1 + o) (k + 1)).count (o + md (i + 1)) := by
        rw [List.count]
        apply List.countP_congr
        intro m hm
        rw [List.mem_range'_1] at hm
        have := hrun (m - (1 + o)) (by omega)
        have e6 : 1 + o + (m - (1 + o)) = m := by omega
        rw [e6] at this
        rw [this]
        simp
      rw [this]
      exact List.count_eq_one_of_mem List.nodup_range' (by rw [List.mem_range'_1]; omega)
  have hmi : ∃ mi : Nat → Nat, ∀ i, i < bs.length → mi i ∈ D.modes.getD i [] ∧ runs mrun (mi i) = true ∧
      (D.modes.getD i []).countP (runs mrun) = 1 ∧ (flat bs)[mi i - 1]? = some (i + 1, md (i + 1)) := by
    classical
    refine ⟨fun i => if hi : i < bs.length then (hex i hi).choose else 0, ?_⟩
    intro i hl
    simp only [hl, dif_pos]
    exact (hex i hl).choose_spec
  obtain ⟨mi, hmi⟩ := hmi
  have hat := fun i hl => (hmi i hl).2.2.2
  have hs : Solves D mi mrun := by
    refine ⟨?_, by rw [hrl, hi.nOpt], ?_, ?_, ?_⟩
    · intro S hS m hm
      rw [hi.modes] at hS
      have := modeSets_lt bs 1 S hS m hm
      rw [hi.nOpt]
      omega
    · intro i hl
      obtain ⟨a, b, c, -⟩ := hmi i (by omega)
      exact ⟨a, b, c⟩
    · intro k hk ht
      have hkl : k < pb.resources.length := by rw [← hi.nres]; exact hk
      obtain ⟨p, hpk⟩ : ∃ p, pb.resources[k]? = some p := ⟨_, List.getElem?_eq_getElem hkl⟩
      have h1 := hi.rtype k p hpk
      rw [ht] at h1
      have hr : p.1 ∈ pb.nonRenewable := by
        by_cases hh : p.1 ∈ pb.nonRenewable
        · exact hh
        · rw [if_neg hh] at h1; simp at h1
      have hg : pb.resources.get? p.1 = some p.2 := Dict.get?_of_mem hn.res (List.mem_of_getElem? hpk)
      have := hf.total p.1 p.2 _ hr hg (hi.cap k p hpk)
      rw [hi.total_eq hn hat hpk] at this
      rw [hml]
      exact this
    · intro k hk ht i hl
      have hkl : k < pb.resources.length := by rw [← hi.nres]; exact hk
      obtain ⟨p, hpk⟩ : ∃ p, pb.resources[k]? = some p := ⟨_, List.getElem?_eq_getElem hkl⟩
      have h1 := hi.rtype k p hpk
      rw [ht] at h1
      have hr : p.1 ∉ pb.nonRenewable := by
        intro hh
        rw [if_pos hh] at h1; simp at h1
      have hg : pb.resources.get? p.1 = some p.2 := Dict.get?_of_mem hn.res (List.mem_of_getElem? hpk)
      have hil : i < bs.length := by omega
      exact hf.each p.1 p.2 _ hr hg (hi.cap k p hpk) (i + 1) _ (by omega) (by rw [← hi.len]; omega) (hi.need k p hpk _ _ _ (hat i hil))
  exact ⟨mi, mrun, hs, read_ok hi hends hs hat⟩

/-- C187: the first resource decides how all capacities are read: without resources, with an activity without modes, or with numbers
beside calendars nothing can be solved. -/
theorem C187_errors {pb : Problem} :
    (pb.resources = [] → ∀ D, init pb ≠ .ok D) ∧
    (∀ a, (∃ ms, pb.modes.get? a = some ms ∧ ms.keys = []) → ∀ D, init pb ≠ .ok D) ∧
    (∀ r l rest r' c, pb.resources = (r, .calendar l) :: rest → (r', .const c) ∈ rest → ∀ D, init pb ≠ .ok D) ∧
    (∀ r c rest r' l, pb.resources = (r, .const c) :: rest → (r', .calendar l) ∈ rest → ∀ D, init pb ≠ .ok D) := by
  refine ⟨?_, ?_, ?_, ?_⟩
  · intro he D h
    simp only [init, bind_eq_ok] at h
    obtain ⟨bs, h0, r, h1, rreq, h2, rcap, h3, -⟩ := h
    rw [caps, he] at h3
    cases h3
  · rintro a ⟨ms, hg, hk⟩ D h
    simp only [init, bind_eq_ok] at h
    obtain ⟨bs, h0, r, h1, -⟩ := h
    have hmem : a ∈ tasks pb := by
      rw [tasks, mem_sortBy]
      exact (Dict.get?_isSome_iff_mem_keys _ _).1 (by rw [hg]; rfl)
    obtain ⟨i, hi⟩ := List.mem_iff_getElem?.1 hmem
    obtain ⟨b, e1, e2⟩ := (mapE_get h0).2 i a hi
    simp only [bind_eq_ok, Except.ok.injEq] at e2
    obtain ⟨ms', e2, rfl⟩ := e2
    have e2 := get_eq e2
    rw [hg] at e2
    obtain rfl := Option.some.inj e2
    rw [hk] at e1
    exact numberModes_none bs 0 [] (List.mem_of_getElem? e1) r h1
  · intro r l rest r' c he hm D h
    simp only [init, bind_eq_ok] at h
    obtain ⟨bs, h0, q, h1, rreq, h2, rcap, h3, -⟩ := h
    rw [caps, he] at h3
    obtain ⟨i, hi⟩ := List.mem_iff_getElem?.1 (List.mem_cons_of_mem (r, Capacity.calendar l) hm)
    obtain ⟨b, e1, e2⟩ := (mapE_get h3).2 i _ hi
    cases e2
  · intro r c rest r' l he hm D h
    simp only [init, bind_eq_ok] at h
    obtain ⟨bs, h0, q, h1, rreq, h2, rcap, h3, -⟩ := h
    rw [caps, he] at h3
    obtain ⟨i, hi⟩ := List.mem_iff_getElem?.1 (List.mem_cons_of_mem (r, Capacity.const c) hm)
    obtain ⟨b, e1, e2⟩ := (mapE_get h3).2 i _ hi
    cases e2

/-- The data for `duo`, whose second activity lists mode 2 before mode 1: the number 3 stands for two modes. -/
def duoData : Data :=
  ⟨[(1, 1, 1), (3, 3, 1), (2, 2, 1), (4, 4, 1)], 5, [[1], [3, 2], [3], [4]], [[0, 2, 1, 1, 0], [0, 3, 2, 2, 0]], [2, 5], [1, 2]⟩

/-- C187 (refuted without the order of the modes): a project whose modes fit, for which the program has no solution. -/
theorem C187_order_refuted : ∃ pb D md, Numbered pb ∧ init pb = .ok D ∧ Fits pb md ∧ ∀ mi mrun, ¬ Solves D mi mrun := by
  refine ⟨duo 2 [(1, idle)], duoData, fun _ => 1, duo_numbered _ _, by decide +kernel, ⟨?_, ?_, ?_⟩, ?_⟩
  · intro a h1 h2
    have : a ≤ 4 := h2
    have : a = 1 ∨ a = 2 ∨ a = 3 ∨ a = 4 := by omega
    rcases this with rfl | rfl | rfl | rfl
    · exact ⟨0, by decide +kernel⟩
    · exact ⟨3, by decide +kernel⟩
    · exact ⟨2, by decide +kernel⟩
    · exact ⟨0, by decide +kernel⟩
  · intro r c x hr hc hx
    have : r = "N" := by simpa [duo] using hr
    subst this
    have e : (duo 2 [(1, idle)]).resources.get? "N" = some (.const 5) := by decide +kernel
    rw [e] at hc
    obtain rfl := Option.some.inj hc
    obtain rfl := Option.some.inj hx
    decide +kernel
  · intro r c x hr hc hx a y h1 h2 hy
    have hm := Dict.mem_of_get? hc
    have : r = "R1" := by
      simp only [duo, List.mem_cons, Prod.mk.injEq, List.not_mem_nil, or_false] at hm hr
      rcases hm with h | h
      · exact h.1
      · exact absurd h.1 hr
    subst this
    have e : (duo 2 [(1, idle)]).resources.get? "R1" = some (.const 2) := by decide +kernel
    rw [e] at hc
    obtain rfl := Option.some.inj hc
    obtain rfl := Option.some.inj hx
    have : a ≤ 4 := h2
    have : a = 1 ∨ a = 2 ∨ a = 3 ∨ a = 4 := by omega
    have key : ∀ v, needOf (duo 2 [(1, idle)]) a 1 "R1" = some v → v ≤ 1 → y ≤ 2 := by
      intro v hv hle
      rw [hv] at hy
      rw [← Option.some.inj hy]; omega
    rcases this with rfl | rfl | rfl | rfl
    · exact key 0 (by decide +kernel) (by decide)
    · exact key 1 (by decide +kernel) (by decide)
    · exact key 1 (by decide +kernel) (by decide)
    · exact key 0 (by decide +kernel) (by decide)
  · intro mi mrun hs
    have m0 := (hs.mode 0 (by decide)).1
    have m1 := hs.mode 1 (by decide)
    have m2 := hs.mode 2 (by decide)
    have m3 := (hs.mode 3 (by decide)).1
    have e0 : mi 0 = 1 := by simpa [duoData] using m0
    have e2 : mi 2 = 3 := by simpa [duoData] using m2.1
    have e3 : mi 3 = 4 := by simpa [duoData] using m3
    have e1 : mi 1 = 3 := by
      refine countP_one m1.2.2 m1.1 (by decide) m1.2.1 ?_
      have := m2.2.1
      rw [e2] at this
      exact this
    have ht := hs.total 1 (by decide) (by decide)
    have el4 : (List.range duoData.modes.length) = [0, 1, 2, 3] := by decide
    rw [el4] at ht
    simp only [List.map_cons, List.map_nil, e0, e1, e2, e3] at ht
    revert ht
    decide

/-- Two activities listing mode 2, which needs nothing, before mode 1. -/
def swapped : Problem :=
  ⟨[("N", .const 5)], ["N"],
    [(1, [(1, ⟨0, [("N", 0)]⟩)]), (2, [(2, ⟨1, [("N", 0)]⟩), (1, ⟨3, [("N", 4)]⟩)]), (3, [(2, ⟨1, [("N", 0)]⟩), (1, ⟨3, [("N", 4)]⟩)]),
      (4, [(1, ⟨0, [("N", 0)]⟩)])],
    [(1, [2, 3]), (2, [4]), (3, [4]), (4, [])], 20, 1⟩

def swappedData : Data :=
  ⟨[(1, 1, 1), (3, 3, 1), (2, 2, 1), (4, 4, 1)], 6, [[1], [3, 2], [4, 3], [4]], [[0, 0, 4, 0, 4, 0]], [5], [2]⟩

/-- C187 (refuted without the order of the modes): the modes read off a solution need more than there is. -/
theorem C187_order_unsound_refuted : ∃ pb D mi mrun modes, Numbered pb ∧ init pb = .ok D ∧ Solves D mi mrun ∧
    retrieve pb D mrun = .ok modes ∧ ∃ r c, r ∈ pb.nonRenewable ∧ pb.resources.get? r = some (.const c) ∧
      c < CpMulti.total pb (fun a => modes.getD (a - 1) 0) r := by
  refine ⟨swapped, swappedData, fun i => [1, 2, 4, 4].getD i 0, [true, true, false, true, false, false], [1, 1, 1, 1],
    ⟨by show [1, 2, 3, 4].Perm [1, 2, 3, 4]; exact List.Perm.refl _, by show ["N"].Nodup; decide⟩, by decide +kernel, ?_, by decide +kernel,
    "N", 5, by decide +kernel, by decide +kernel, by decide +kernel⟩
  refine ⟨by decide, by decide, ?_, ?_, ?_⟩
  · intro i hi
    have : i < 4 := hi
    have : i = 0 ∨ i = 1 ∨ i = 2 ∨ i = 3 := by omega
    rcases this with rfl | rfl | rfl | rfl <;> decide
  · intro k hk ht
    have : k < 1 := hk
    have : k = 0 := by omega
    subst this
    decide
  · intro k hk ht i hi
    have : k < 1 := hk
    have : k = 0 := by omega
    subst this
    exact absurd ht (by decide)

/-- Modes in order; the second activity cannot afford both costly modes. -/
def tidy : Problem :=
  ⟨[("N", .calendar [5, 3]), ("R", .calendar [2, 0])], ["N"],
    [(1, [(1, ⟨0, [("N", 0), ("R", 0)]⟩)]), (2, [(1, ⟨3, [("N", 4), ("R", 1)]⟩), (2, ⟨1, [("N", 1), ("R", 2)]⟩)]),
      (3, [(1, ⟨3, [("N", 4), ("R", 1)]⟩), (2, ⟨1, [("N", 0), ("R", 3)]⟩)]), (4, [(1, ⟨0, [("N", 0), ("R", 0)]⟩)])],
    [(1, [2, 3]), (2, [4]), (3, [4]), (4, [])], 20, 1⟩

def tidyData : Data :=
  ⟨[(1, 1, 1), (2, 2, 1), (3, 2, 2), (4, 3, 1), (5, 3, 2), (6, 4, 1)], 6, [[1], [2, 3], [4, 5], [6]],
    [[0, 4, 1, 4, 0, 0], [0, 1, 2, 1, 3, 0]], [5, 2], [2, 1]⟩

theorem tidy_modes : PlainModes tidy := by
  intro a ms h
  have hm := Dict.mem_of_get? h
  simp only [tidy, List.mem_cons, Prod.mk.injEq, List.not_mem_nil, or_false] at hm
  rcases hm with ⟨-, rfl⟩ | ⟨-, rfl⟩ | ⟨-, rfl⟩ | ⟨-, rfl⟩
  · exact ⟨0, rfl⟩
  · exact ⟨1, rfl⟩
  · exact ⟨1, rfl⟩
  · exact ⟨0, rfl⟩

theorem tidy_ends : ∀ a ms, a = 1 ∨ a = tidy.modes.length → tidy.modes.get? a = some ms → ms.keys = [1] := by
  intro a ms ha h
  rcases ha with rfl | rfl
  · have e : tidy.modes.get? 1 = some [(1, ⟨0, [("N", 0), ("R", 0)]⟩)] := by decide +kernel
    rw [e] at h; rw [← Option.some.inj h]; rfl
  · have e : tidy.modes.get? tidy.modes.length = some [(1, ⟨0, [("N", 0), ("R", 0)]⟩)] := by decide +kernel
    rw [e] at h; rw [← Option.some.inj h]; rfl

theorem tidy_numbered : Numbered tidy :=
  ⟨by show [1, 2, 3, 4].Perm [1, 2, 3, 4]; exact List.Perm.refl _, by show ["N", "R"].Nodup; decide⟩

theorem tidy_init : init tidy = .ok tidyData := by decide +kernel

/-- A solution of the program: the only one, the capacities being the greatest of the calendars. -/
theorem tidy_solves : Solves tidyData (fun i => [1, 3, 4, 6].getD i 0) [true, false, true, true, false, true] := by
  refine ⟨by decide, by decide, ?_, ?_, ?_⟩
  · intro i hi
    have : i < 4 := hi
    have : i = 0 ∨ i = 1 ∨ i = 2 ∨ i = 3 := by omega
    rcases this with rfl | rfl | rfl | rfl <;> decide
  · intro k hk ht
    have : k < 2 := hk
    have : k = 0 ∨ k = 1 := by omega
    rcases this with rfl | rfl
    · decide
    · exact absurd ht (by decide)
  · intro k hk ht i hi
    have : k < 2 := hk
    have hk2 : k = 0 ∨ k = 1 := by omega
    have : i < 4 := hi
    have hi4 : i = 0 ∨ i = 1 ∨ i = 2 ∨ i = 3 := by omega
    rcases hk2 with rfl | rfl
    · exact absurd ht (by decide)
    · rcases hi4 with rfl | rfl | rfl | rfl <;> decide

example : retrieve tidy tidyData [true, false, true, true, false, true] = .ok [1, 2, 1, 1] := by decide +kernel

example : ∃ md, retrieve tidy tidyData [true, false, true, true, false, true] = .ok ((List.range' 1 4).map md) ∧ Fits tidy md :=
  C187_sound tidy_numbered tidy_modes tidy_ends tidy_init tidy_solves

example : ∃ md mi mrun, Fits tidy md ∧ Solves tidyData mi mrun ∧ retrieve tidy tidyData mrun = .ok ((List.range' 1 4).map md) := by
  obtain ⟨md, -, hf⟩ := C187_sound tidy_numbered tidy_modes tidy_ends tidy_init tidy_solves
  obtain ⟨mi, mrun, hs, hr⟩ := C187_complete tidy_numbered tidy_modes tidy_ends tidy_init hf
  exact ⟨md, mi, mrun, hf, hs, hr⟩

/-- Numbers beside calendars raise. -/
example : init { tidy with resources := [("N", .const 5), ("R", .calendar [2, 0])] } = .error .typeError ∧
    init { tidy with resources := [("N", .calendar [5]), ("R", .const 2)] } = .error .typeError ∧
    init { tidy with resources := [] } = .error .indexError ∧
    init { tidy with modes := tidy.modes.set 2 [] } = .error .indexError :=
  ⟨by decide +kernel, by decide +kernel, by decide +kernel, by decide +kernel⟩

end Verif.CpModes
