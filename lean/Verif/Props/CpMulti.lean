import Verif.Lemmas.CpMulti
import Verif.Props.CpRcpsp

/-!
C182: the constraint program of projects with several modes.
-/
namespace Verif.CpMulti
open Rcpsp Milp Robust CpRcpsp

/-- What all activities together require of `r` in the modes `md`. -/
def total (pb : Problem) (md : Nat → Nat) (r : String) : Int :=
  (pb.modes.keys.map (fun a => (needOf pb a (md a) r).getD 0)).sum

/-- Modes and schedules of the project: precedences and capacities at every time, totals of what is not renewed. -/
structure Feasible (pb : Problem) (md : Nat → Nat) (start : Nat → Int) : Prop where
  modes : ∀ a, 1 ≤ a → a ≤ pb.modes.length → ∃ d, durOf pb a (md a) = some d
  valid : Valid pb md start
  totals : ∀ r c, r ∈ pb.nonRenewable → pb.resources.get? r = some (.const c) → total pb md r ≤ c

theorem total_eq {pb : Problem} {D : Multi} (hn : Numbered pb) (hd : Data pb D) {mi md : Nat → Nat}
    (hmi : ∀ i, i < D.modes.length → D.idx[mi i - 1]? = some (i + 1, md (i + 1))) {r : Nat} {p : String × Capacity}
    (hp : pb.resources[r]? = some p) : total pb md p.1 = ((List.range D.modes.length).map (fun i => el2 D.rreq r (mi i - 1))).sum := by
  unfold total
  have hperm : pb.modes.keys.Perm ((List.range D.modes.length).map (· + 1)) := by
    refine hn.acts.trans (List.Perm.of_eq ?_)
    rw [← hd.n, List.range'_eq_map_range]
    exact List.map_congr_left (fun i _ => by omega)
  rw [(hperm.map _).sum_eq, List.map_map]
  congr 1
  refine List.map_congr_left (fun i hi => ?_)
  simp only [Function.comp_apply, hd.need r p hp _ _ _ (hmi i (List.mem_range.1 hi)), Option.getD_some]

/-- C182: every solution of the constraint program is retrieved, as a schedule of all activities and the modes of the
inner ones that keep precedences, capacities and totals, start at 0 or later and end at the objective; source and sink
have mode 1 only. -/
theorem C182_sound {pb : Problem} {D : Multi} {mi : Nat → Nat} {mrun : List Bool} {s : List Int} {obj : Int} (hn : Numbered pb)
    (hends : ∀ a ms, a = 1 ∨ a = pb.modes.length → pb.modes.get? a = some ms → ms.keys = [1])
    (h : multi pb = .ok D) (hs : Solves D mi mrun s obj) (hneed : ∀ a k r x, needOf pb a k r = some x → 0 ≤ x)
    (hsuc : ∀ a l b, pb.successors.get? a = some l → b ∈ l → 1 ≤ b ∧ b ≤ pb.modes.length)
    (hkeys : ∀ a l, pb.successors.get? a = some l → 1 ≤ a ∧ a ≤ pb.modes.length) :
    ∃ sch ms md, retrieve pb D mrun s = .ok (sch, ms) ∧ ms = (List.range' 2 (pb.modes.length - 2)).map md ∧
      sch.keys = List.range' 1 pb.modes.length ∧
      (∀ a x y, sch.get? a = some (x, y) → 0 ≤ x ∧ ∃ d, durOf pb a (md a) = some d ∧ y = x + d) ∧
      Feasible pb md (startIn sch) ∧
      (∀ a x y, sch.get? a = some (x, y) → pb.successors.get? a = some [] → y ≤ obj) ∧
      ∃ a x, pb.successors.get? a = some [] ∧ sch.get? a = some (x, obj) := by
  have hd := multi_data hn h
  obtain ⟨bs, h0, hidx, hmodes, hlen⟩ : ∃ bs, blocks pb = .ok bs ∧ D.idx = flat bs ∧ D.modes = modeSets 1 bs ∧
      D.dur.length = (flat bs).length := by
    simp only [multi, bind_eq_ok, Except.ok.injEq] at h
    obtain ⟨bs, h0, dur, h1, rreq, h2, rcap, h3, succ, h4, rfl⟩ := h
    exact ⟨bs, h0, rfl, rfl, (mapE_get h1).1⟩
  obtain ⟨b1, b2⟩ := blocks_get hn h0
  have hN : D.modes.length = pb.modes.length := hd.n
  -- the modes
  have hblocks : ∀ b ∈ bs, b.1 = 1 ∨ b.1 = pb.modes.length → b.2 = [1] := by
    intro b hb he
    obtain ⟨i, hi⟩ := List.mem_iff_getElem?.1 hb
    have hil : i < bs.length := by
      by_contra hge
      rw [List.getElem?_eq_none (by omega)] at hi; cases hi
    obtain ⟨ms, e1, e2⟩ := b2 i hil
    rw [e2] at hi
    obtain rfl := Option.some.inj hi
    have := hends (i + 1) ms he e1
    show sortBy (fun k : Nat => (k : Int)) ms.keys = [1]
    rw [this]; rfl
  obtain ⟨r1, r2⟩ := retrieve_blocks pb.modes.length bs 1 mrun (by rw [hs.len, hlen]) hblocks (by
    intro S hS
    obtain ⟨i, hi⟩ := List.mem_iff_getElem?.1 hS
    rw [← hmodes] at hi
    have hil : i < D.modes.length := by
      by_contra hge
      rw [List.getElem?_eq_none (by omega)] at hi; cases hi
    have := (hs.mode i hil).2.2
    have e : modesOf D i = S := by simp [modesOf, List.getD, hi]
    rw [e] at this
    exact this)
  have hml : retrieveModes pb.modes.length D.idx mrun = (mrun.zip (flat bs)).filterMap (keep pb.modes.length) := by rw [hidx]; rfl
  obtain ⟨L, hL⟩ : ∃ L, L = retrieveModes pb.modes.length D.idx mrun := ⟨_, rfl⟩
  have hLl : L.length = D.modes.length := by rw [hL, hml, r1, b1, hN]
  have hLi : ∀ i, i < D.modes.length → D.idx[mi i - 1]? = some (i + 1, L.getD i 0) := by
    intro i hi
    obtain ⟨m1, m2, m3⟩ := hs.mode i hi
    obtain ⟨k, hk⟩ := hd.mode i hi _ m1
    have e0 : (modeSets 1 bs)[i]? = some (modesOf D i) := by
      rw [← hmodes, modesOf, List.getD, List.getElem?_eq_getElem hi]; rfl
    obtain ⟨t, k', e1, e2⟩ := r2 i (mi i) (modesOf D i) e0 m1 m2
    rw [hidx] at hk ⊢
    rw [e1] at hk
    obtain ⟨rfl, rfl⟩ := Prod.mk.inj (Option.some.inj hk)
    rw [e1, hL, hml, List.getD, e2]; rfl
  obtain ⟨md, hmd⟩ : ∃ md : Nat → Nat, md = fun a => L.getD (a - 1) 0 := ⟨_, rfl⟩
  have hmi : ∀ i, i < D.modes.length → D.idx[mi i - 1]? = some (i + 1, md (i + 1)) := by
    intro i hi; rw [hLi i hi, hmd]; rfl
  have hdur : ∀ i, i < D.modes.length → durOf pb (i + 1) (md (i + 1)) = some (el D.dur (mi i - 1)) := fun i hi => hd.dur _ _ _ (hmi i hi)
  -- the schedule
  obtain ⟨sch, hsch⟩ : ∃ sch, retrieveSchedule pb L s = .ok sch := by
    refine mapE_total ?_
    rintro ⟨x, i⟩ hxi
    have hi : i < D.modes.length := by
      have := (List.mem_zipIdx hxi).2.1
      rw [← hs.slen]; omega
    have e1 : pyGet L i = .ok (md (i + 1)) := by
      unfold pyGet
      rw [List.getElem?_eq_getElem (by omega), hmd]
      simp [List.getD, hLl, hi]
    have e2 := hdur i hi
    rw [durOf] at e2
    cases hg : (pb.modes.get? (i + 1)).bind (fun ms => ms.get? (md (i + 1))) with
    | none => rw [hg] at e2; cases e2
    | some m =>
      obtain ⟨ms, g1, g2⟩ := Option.bind_eq_some_iff.1 hg
      refine ⟨(i + 1, (x, x + (m.duration : Int))), ?_⟩
      simp only [e1, bind_ok, modeAt, get_of g1, get_of g2]
  obtain ⟨l1, g1⟩ := mapE_get hsch
  rw [List.length_zipIdx, hs.slen] at l1
  have hgi : ∀ i, i < D.modes.length → sch[i]? = some (i + 1, (el s i, el s i + el D.dur (mi i - 1))) := by
    intro i hi
    have hx : s[i]? = some (el s i) := by
      have hi' : i < s.length := by rw [hs.slen]; exact hi
      rw [List.getElem?_eq_getElem hi', el_of (List.getElem?_eq_getElem hi')]
    obtain ⟨b, e1, e2⟩ := g1 i (el s i, i) (by simp [List.getElem?_zipIdx, hx])
    simp only [bind_eq_ok, Except.ok.injEq] at e2
    obtain ⟨k, e2, m, e3, rfl⟩ := e2
    rw [e1]
    have hk : k = md (i + 1) := by
      unfold pyGet at e2
      rw [List.getElem?_eq_getElem (by omega)] at e2
      rw [hmd, ← Except.ok.inj e2]
      simp [List.getD, hLl, hi]
    rw [hk] at e3
    have := hdur i hi
    rw [durOf, modeAt_ok e3] at this
    rw [← Option.some.inj this]
  have hk : sch.keys = List.range' 1 pb.modes.length := by
    rw [← hN]
    refine List.ext_getElem? (fun i => ?_)
    by_cases hi : i < D.modes.length
    · rw [range'_get hi]
      simp [Dict.keys, hgi i hi]
    · rw [List.getElem?_eq_none (by rw [Dict.keys, List.length_map]; omega), List.getElem?_eq_none (by rw [List.length_range']; omega)]
  have hget : ∀ i, i < D.modes.length → sch.get? (i + 1) = some (el s i, el s i + el D.dur (mi i - 1)) := by
    intro i hi
    refine Dict.get?_of_mem ?_ (List.mem_of_getElem? (hgi i hi))
    rw [hk]; exact List.nodup_range'
  have hst : ∀ i, i < D.modes.length → startIn sch (i + 1) = el s i := by
    intro i hi; rw [startIn, hget i hi]; rfl
  have hin : ∀ a x y, sch.get? a = some (x, y) → ∃ i, i < D.modes.length ∧ a = i + 1 ∧ x = el s i ∧ y = el s i + el D.dur (mi i - 1) := by
    intro a x y hp
    have hm : a ∈ sch.keys := (Dict.get?_isSome_iff_mem_keys _ _).1 (by rw [hp]; rfl)
    rw [hk, List.mem_range'_1] at hm
    obtain ⟨i, rfl⟩ : ∃ i, a = i + 1 := ⟨a - 1, by omega⟩
    have hi : i < D.modes.length := by omega
    rw [hget i hi] at hp
    obtain ⟨rfl, rfl⟩ := Prod.mk.inj (Option.some.inj hp)
    exact ⟨i, hi, rfl, rfl, rfl⟩
  have hres : ∀ r c, pb.resources.get? r = some (.const c) → ∃ k, pb.resources[k]? = some (r, .const c) ∧ k < D.rcap.length ∧ c = el D.rcap k := by
    intro r c hc
    obtain ⟨k, hk⟩ := List.mem_iff_getElem?.1 (Dict.mem_of_get? hc)
    refine ⟨k, hk, ?_, Capacity.const.inj (hd.cap k _ hk)⟩
    rw [hd.nres]
    by_contra hge
    rw [List.getElem?_eq_none (by omega)] at hk; cases hk
  have hrr : ∀ (k : Nat) (p : String × Capacity), pb.resources[k]? = some p → ∀ i ∈ List.range D.modes.length, 0 ≤ el2 D.rreq k (mi i - 1) :=
    fun k p hp i hi => hneed _ _ _ _ (hd.need k p hp _ _ _ (hmi i (List.mem_range.1 hi)))
  refine ⟨sch, (L.drop 1).dropLast, md, ?_, ?_, hk, ?_, ⟨?_, ⟨?_, ?_⟩, ?_⟩, ?_, ?_⟩
  · unfold retrieve
    simp only
    rw [← hL, hsch, bind_ok]
  · refine List.ext_getElem? (fun i => ?_)
    rw [List.getElem?_dropLast, List.length_drop, List.getElem?_map, hLl, hN]
    by_cases hi : i < pb.modes.length - 2
    · rw [if_pos (by omega), List.getElem?_drop, List.getElem?_range' hi, List.getElem?_eq_getElem (by omega), hmd]
      simp only [Option.map_some, Option.some.injEq]
      rw [List.getD, List.getElem?_eq_getElem (by omega), Option.getD_some]
      congr 1; omega
    · rw [if_neg (by omega), List.getElem?_eq_none (by rw [List.length_range']; omega)]; rfl
  · intro a x y hxy
    obtain ⟨i, hi, rfl, rfl, rfl⟩ := hin a x y hxy
    exact ⟨(hs.times i hi).1, _, hdur i hi, rfl⟩
  · intro a h1 h2
    obtain ⟨i, rfl⟩ : ∃ i, a = i + 1 := ⟨a - 1, by omega⟩
    exact ⟨_, hdur i (by omega)⟩
  · intro a l b hl hb
    obtain ⟨ha1, ha2⟩ := hkeys a l hl
    obtain ⟨hb1, hb2⟩ := hsuc a l b hl hb
    obtain ⟨i, rfl⟩ : ∃ i, a = i + 1 := ⟨a - 1, by omega⟩
    obtain ⟨j, rfl⟩ : ∃ j, b = j + 1 := ⟨b - 1, by omega⟩
    have hi : i < D.modes.length := by omega
    rw [hst i hi, hst j (by omega), hdur i hi, Option.getD_some]
    have hsu := hd.suc i hi
    rw [hl] at hsu
    have := hs.prec i hi (j + 1) (by rw [← Option.some.inj hsu]; exact hb)
    simpa using this
  · intro r c hc t
    obtain ⟨k, hkr, hkl, rfl⟩ := hres r c hc
    rw [required_eq hn hd hmi hkr t]
    have e1 : (List.range D.modes.length).filter (fun i => decide (startIn sch (i + 1) ≤ t ∧ t < startIn sch (i + 1) + el D.dur (mi i - 1))) =
        (List.range D.modes.length).filter (fun i => decide (el s i ≤ t ∧ t < el s i + el D.dur (mi i - 1))) :=
      List.filter_congr (fun i hi => by rw [hst i (List.mem_range.1 hi)])
    rw [e1]
    have ht := hd.type k _ hkr
    by_cases hr : r ∈ pb.nonRenewable
    · rw [if_pos hr] at ht
      exact le_trans (sum_filter_nonneg _ (hrr k _ hkr)).1 (hs.nonRenewable k hkl ht)
    · rw [if_neg hr] at ht
      exact hs.renewable k ⟨hkl, ht⟩ t
  · intro r c hr hc
    obtain ⟨k, hkr, hkl, rfl⟩ := hres r c hc
    have ht := hd.type k _ hkr
    rw [if_pos hr] at ht
    rw [total_eq hn hd hmi hkr]
    exact hs.nonRenewable k hkl ht
  · intro a x y hxy hnil
    obtain ⟨i, hi, rfl, rfl, rfl⟩ := hin a x y hxy
    have hsu := hd.suc i hi
    rw [hnil] at hsu
    exact hs.ends i hi (Option.some.inj hsu).symm
  · obtain ⟨i, hi, e1, e2⟩ := hs.last
    exact ⟨i + 1, el s i, by rw [hd.suc i hi, e1], by rw [hget i hi, e2]⟩

/-- C182 (partial: activities without duration require nothing): modes and starting times up to the sum of the longest
durations that keep precedences, capacities and totals solve the program; the objective is their makespan. -/
theorem C182_complete_partial {pb : Problem} {D : Multi} {md : Nat → Nat} {start : Nat → Int} {obj : Int} (hn : Numbered pb)
    (hm : ∀ a ms, pb.modes.get? a = some ms → ms.keys.Nodup) (h : multi pb = .ok D) (hf : Feasible pb md start)
    (hcap : ∀ r c, pb.resources.get? r = some (.const c) → 0 ≤ c) (hneed : ∀ a k r x, needOf pb a k r = some x → 0 ≤ x)
    (hzero : ∀ a k r x, durOf pb a k = some 0 → needOf pb a k r = some x → x = 0)
    (hsuc : ∀ a l b, pb.successors.get? a = some l → b ∈ l → 1 ≤ b ∧ b ≤ pb.modes.length)
    (hkeys : ∀ a l, pb.successors.get? a = some l → 1 ≤ a ∧ a ≤ pb.modes.length)
    (h0 : ∀ a, 1 ≤ a → a ≤ pb.modes.length → 0 ≤ start a ∧ start a ≤ ub D) (hobj : 0 ≤ obj ∧ obj ≤ ub D)
    (hend : ∀ a d, pb.successors.get? a = some [] → durOf pb a (md a) = some d → start a + d ≤ obj)
    (hlast : ∃ a d, pb.successors.get? a = some [] ∧ durOf pb a (md a) = some d ∧ start a + d = obj) :
    ∃ mi, Solves D mi (D.idx.map (fun p => decide (p.2 = md p.1))) ((List.range D.modes.length).map (fun i => start (i + 1))) obj ∧
      ∀ i, i < D.modes.length → D.idx[mi i - 1]? = some (i + 1, md (i + 1)) := by
  have hd := multi_data hn h
  have hN : D.modes.length = pb.modes.length := hd.n
  obtain ⟨mi, hmis⟩ := multi_modes hn hm h hf.modes
  have hmi : ∀ i, i < D.modes.length → D.idx[mi i - 1]? = some (i + 1, md (i + 1)) := fun i hi => (hmis i hi).2.1
  have hdl : D.dur.length = D.idx.length := by
    simp only [multi, bind_eq_ok, Except.ok.injEq] at h
    obtain ⟨bs, h0, dur, h1, rreq, h2, rcap, h3, succ, h4, rfl⟩ := h
    exact (mapE_get h1).1
  have hdur : ∀ i, i < D.modes.length → durOf pb (i + 1) (md (i + 1)) = some (el D.dur (mi i - 1)) := fun i hi => hd.dur _ _ _ (hmi i hi)
  have hel : ∀ i, i < D.modes.length → el ((List.range D.modes.length).map (fun i => start (i + 1))) i = start (i + 1) :=
    fun i hi => el_of (by simp [hi])
  have hdn : ∀ i, i < D.modes.length → 0 ≤ el D.dur (mi i - 1) := by
    intro i hi
    have := hdur i hi
    simp only [durOf, Option.map_eq_some_iff] at this
    obtain ⟨m, -, hm⟩ := this
    omega
  have hres : ∀ r, r < D.rcap.length → ∃ p, pb.resources[r]? = some p ∧ pb.resources.get? p.1 = some (.const (el D.rcap r)) := by
    intro r hr
    rw [hd.nres] at hr
    refine ⟨_, List.getElem?_eq_getElem hr, ?_⟩
    have hc := hd.cap r _ (List.getElem?_eq_getElem hr)
    rw [← hc]
    exact Dict.get?_of_mem hn.res (List.getElem_mem hr)
  have hload : ∀ r, r < D.rcap.length → ∀ t, (((List.range D.modes.length).filter
      (fun i => decide (start (i + 1) ≤ t ∧ t < start (i + 1) + el D.dur (mi i - 1)))).map (fun i => el2 D.rreq r (mi i - 1))).sum ≤ el D.rcap r := by
    intro r hr t
    obtain ⟨p, hp, hg⟩ := hres r hr
    rw [← required_eq hn hd hmi hp t]
    exact hf.valid.res p.1 _ hg t
  have hrr : ∀ r, r < D.rcap.length → ∀ i, i < D.modes.length → 0 ≤ el2 D.rreq r (mi i - 1) ∧
      (el D.dur (mi i - 1) = 0 → el2 D.rreq r (mi i - 1) = 0) := by
    intro r hr i hi
    obtain ⟨p, hp, hg⟩ := hres r hr
    have e := hd.need r p hp _ _ _ (hmi i hi)
    refine ⟨hneed _ _ _ _ e, fun hz => hzero _ _ p.1 _ ?_ e⟩
    rw [hdur i hi, hz]
  have hone : ∀ r, r < D.rcap.length → ∀ i, i < D.modes.length → el2 D.rreq r (mi i - 1) ≤ el D.rcap r := by
    intro r hr i hi
    obtain ⟨hn1, hn2⟩ := hrr r hr i hi
    by_cases hz : el D.dur (mi i - 1) = 0
    · obtain ⟨p, hp, hg⟩ := hres r hr
      have := hcap _ _ hg
      have := hn2 hz
      omega
    · have := hdn i hi
      refine le_trans ?_ (hload r hr (start (i + 1)))
      refine single_le_sum (r := fun i => el2 D.rreq r (mi i - 1)) ?_ i ?_
      · intro j hj
        exact (hrr r hr j (List.mem_range.1 (List.mem_filter.1 hj).1)).1
      · rw [List.mem_filter, List.mem_range]
        exact ⟨hi, by simp only [decide_eq_true_eq]; omega⟩
  have happart : ∀ i j, i < j → j < D.modes.length → (∃ r, r < D.rcap.length ∧ el2 D.rreq r (mi i - 1) + el2 D.rreq r (mi j - 1) > el D.rcap r) →
      start (i + 1) + el D.dur (mi i - 1) ≤ start (j + 1) ∨ start (j + 1) + el D.dur (mi j - 1) ≤ start (i + 1) := by
    rintro i j hij hj ⟨r, hr, hgt⟩
    have hi : i < D.modes.length := by omega
    by_contra hc
    have h1 := hdn i hi
    have h2 := hdn j hj
    obtain ⟨a1, a2⟩ := hrr r hr i hi
    obtain ⟨b1, b2⟩ := hrr r hr j hj
    by_cases hz : el D.dur (mi i - 1) = 0
    · have := hone r hr j hj; have := a2 hz; omega
    by_cases hz' : el D.dur (mi j - 1) = 0
    · have := hone r hr i hi; have := b2 hz'; omega
    have hl := hload r hr (max (start (i + 1)) (start (j + 1)))
    have := pair_le_sum (r := fun i => el2 D.rreq r (mi i - 1)) (l := (List.range D.modes.length).filter
      (fun k => decide (start (k + 1) ≤ max (start (i + 1)) (start (j + 1)) ∧ max (start (i + 1)) (start (j + 1)) < start (k + 1) + el D.dur (mi k - 1))))
      (fun k hk => (hrr r hr k (List.mem_range.1 (List.mem_filter.1 hk).1)).1)
      i (by rw [List.mem_filter, List.mem_range]; exact ⟨hi, by simp only [decide_eq_true_eq]; omega⟩)
      j (by rw [List.mem_filter, List.mem_range]; exact ⟨hj, by simp only [decide_eq_true_eq]; omega⟩) (by omega)
    omega
  refine ⟨mi, ⟨by rw [List.length_map, hdl], by simp, ?_, hobj, ?_, ?_, ?_, ?_, ?_, ?_, ?_, ?_, ?_⟩, hmi⟩
  · intro i hi
    rw [hel i hi]
    exact h0 (i + 1) (by omega) (by omega)
  · intro i hi
    obtain ⟨m1, m2, m3⟩ := hmis i hi
    refine ⟨m1, ?_, m3⟩
    simp [runs, List.getD, m2]
  · intro i hi j hj
    have hb := hsuc _ _ j (hd.suc i hi) hj
    obtain ⟨k, rfl⟩ : ∃ k, j = k + 1 := ⟨j - 1, by omega⟩
    have hp := hf.valid.prec (i + 1) _ (k + 1) (hd.suc i hi) hj
    rw [hdur i hi, Option.getD_some] at hp
    rw [hel i hi, Nat.add_sub_cancel, hel k (by omega)]
    exact hp
  · intro i hi k hk
    exact hone k hk i hi
  · intro k hk t
    have e1 : (List.range D.modes.length).filter (fun i => decide (el ((List.range D.modes.length).map (fun i => start (i + 1))) i ≤ t ∧
        t < el ((List.range D.modes.length).map (fun i => start (i + 1))) i + el D.dur (mi i - 1))) =
        (List.range D.modes.length).filter (fun i => decide (start (i + 1) ≤ t ∧ t < start (i + 1) + el D.dur (mi i - 1))) :=
      List.filter_congr (fun i hi => by rw [hel i (List.mem_range.1 hi)])
    rw [e1]
    exact hload k hk.1 t
  · intro k hk ht
    obtain ⟨p, hp, hg⟩ := hres k hk
    have ht' := hd.type k p hp
    rw [ht] at ht'
    have hr : p.1 ∈ pb.nonRenewable := by
      by_contra hr
      rw [if_neg hr] at ht'
      cases ht'
    rw [← total_eq hn hd hmi hp]
    exact hf.totals p.1 _ hr hg
  · intro i hi hnil
    rw [hel i hi]
    exact hend (i + 1) _ (by rw [hd.suc i hi, hnil]) (hdur i hi)
  · obtain ⟨a, d, e1, e2, e3⟩ := hlast
    obtain ⟨k1, k2⟩ := hkeys a _ e1
    obtain ⟨i, rfl⟩ : ∃ i, a = i + 1 := ⟨a - 1, by omega⟩
    have hi : i < D.modes.length := by omega
    refine ⟨i, hi, ?_, ?_⟩
    · have hsu := hd.suc i hi
      rw [e1] at hsu
      exact (Option.some.inj hsu).symm
    · rw [hel i hi, ← e3]
      have := hdur i hi
      rw [e2] at this
      rw [Option.some.inj this]
  · intro i j hij hj hall _
    rw [hel i (by omega), hel j hj]
    obtain ⟨k, hk, hgt⟩ := hall _ (hmis i (by omega)).1 _ (hmis j hj).1
    exact happart i j hij hj ⟨k, hk.1, hgt⟩
  · intro i j hij hj _ k hk _ hgt
    rw [hel i (by omega), hel j hj]
    exact happart i j hij hj ⟨k, hk.1, hgt⟩

/-- What source and sink require. -/
def idle : Mode := ⟨0, [("R1", 0), ("N", 0)]⟩

/-- An activity with a slow and a fast mode beside one with a single mode; the fast mode spends more of `N`. -/
def duo (cap : Int) (src : Dict Nat Mode) : Problem :=
  ⟨[("R1", .const cap), ("N", .const 5)], ["N"],
    [(1, src), (2, [(2, ⟨1, [("R1", 2), ("N", 3)]⟩), (1, ⟨3, [("R1", 1), ("N", 2)]⟩)]), (3, [(1, ⟨2, [("R1", 1), ("N", 2)]⟩)]), (4, [(1, idle)])],
    [(1, [2, 3]), (2, [4]), (3, [4]), (4, [])], 20, 1⟩

theorem duo_numbered (cap : Int) (src : Dict Nat Mode) : Numbered (duo cap src) :=
  ⟨by show [1, 2, 3, 4].Perm [1, 2, 3, 4]; exact List.Perm.refl _, by show ["R1", "N"].Nodup; decide⟩

theorem duo_mode {cap : Int} {src : Dict Nat Mode} {P : Mode → Prop} (hs : ∀ p ∈ src, P p.2)
    (h : P ⟨1, [("R1", 2), ("N", 3)]⟩ ∧ P ⟨3, [("R1", 1), ("N", 2)]⟩ ∧ P ⟨2, [("R1", 1), ("N", 2)]⟩ ∧ P idle) {a k : Nat} {m : Mode}
    (hg : ((duo cap src).modes.get? a).bind (fun ms => ms.get? k) = some m) : P m := by
  obtain ⟨ms, h3, h4⟩ := Option.bind_eq_some_iff.1 hg
  have h3 := Dict.mem_of_get? h3
  have h4 := Dict.mem_of_get? h4
  simp only [duo, List.mem_cons, List.not_mem_nil, or_false] at h3
  rcases h3 with h | h | h | h
  · obtain ⟨rfl, rfl⟩ := Prod.mk.inj h; exact hs _ h4
  · obtain ⟨rfl, rfl⟩ := Prod.mk.inj h
    simp only [List.mem_cons, List.not_mem_nil, or_false] at h4
    rcases h4 with h4 | h4 <;> (obtain ⟨rfl, rfl⟩ := Prod.mk.inj h4; tauto)
  · obtain ⟨rfl, rfl⟩ := Prod.mk.inj h
    simp only [List.mem_cons, List.not_mem_nil, or_false] at h4
    obtain ⟨rfl, rfl⟩ := Prod.mk.inj h4; tauto
  · obtain ⟨rfl, rfl⟩ := Prod.mk.inj h
    simp only [List.mem_cons, List.not_mem_nil, or_false] at h4
    obtain ⟨rfl, rfl⟩ := Prod.mk.inj h4; tauto

theorem duo_nonneg {cap : Int} {src : Dict Nat Mode} (hs : ∀ p ∈ src, p.2 = idle) :
    ∀ a k r x, needOf (duo cap src) a k r = some x → 0 ≤ x := by
  intro a k r x h
  obtain ⟨m, h1, h2⟩ := Option.bind_eq_some_iff.1 h
  have h2 := Dict.mem_of_get? h2
  have : ∀ n ∈ m.needs, 0 ≤ n.2 := duo_mode (P := fun m => ∀ n ∈ m.needs, 0 ≤ n.2) (fun p hp => by rw [hs p hp]; decide) (by decide) h1
  exact this _ h2

theorem duo_zero {cap : Int} {src : Dict Nat Mode} (hs : ∀ p ∈ src, p.2 = idle) :
    ∀ a k r x, durOf (duo cap src) a k = some 0 → needOf (duo cap src) a k r = some x → x = 0 := by
  intro a k r x h1 h2
  obtain ⟨m, h3, h4⟩ := Option.bind_eq_some_iff.1 h2
  rw [durOf, h3] at h1
  have h1 : m.duration = 0 := by simpa using h1
  have : m.duration = 0 → ∀ n ∈ m.needs, n.2 = 0 := duo_mode (P := fun m => m.duration = 0 → ∀ n ∈ m.needs, n.2 = 0)
    (fun p hp => by rw [hs p hp]; decide) (by decide) h3
  exact this h1 _ (Dict.mem_of_get? h4)

theorem duo_suc (cap : Int) (src : Dict Nat Mode) :
    ∀ a l b, (duo cap src).successors.get? a = some l → b ∈ l → 1 ≤ b ∧ b ≤ (duo cap src).modes.length := by
  intro a l b h hb
  have : ∀ q ∈ (duo 0 []).successors, ∀ b ∈ q.2, 1 ≤ b ∧ b ≤ 4 := by decide +kernel
  exact this _ (Dict.mem_of_get? h) b hb

theorem duo_keys (cap : Int) (src : Dict Nat Mode) : ∀ a l, (duo cap src).successors.get? a = some l → 1 ≤ a ∧ a ≤ (duo cap src).modes.length := by
  intro a l h
  have : ∀ q ∈ (duo 0 []).successors, 1 ≤ q.1 ∧ q.1 ≤ 4 := by decide +kernel
  exact this _ (Dict.mem_of_get? h)

theorem duo_cap {cap : Int} {src : Dict Nat Mode} (hc : 0 ≤ cap) : ∀ r c, (duo cap src).resources.get? r = some (.const c) → 0 ≤ c := by
  intro r c h
  have h := Dict.mem_of_get? h
  simp only [duo, List.mem_cons, List.not_mem_nil, or_false, Prod.mk.injEq, Capacity.const.injEq] at h
  omega

/-- Modes whose totals fit, all activities from 0, the sink at `e`. -/
theorem duo_feasible {cap : Int} {src : Dict Nat Mode} {md : Nat → Nat} {e : Int} (hs : ∀ p ∈ src, p.2 = idle)
    (hm : ∀ a ∈ [1, 2, 3, 4], (durOf (duo cap src) a (md a)).isSome = true)
    (hp : ∀ q ∈ (duo 0 []).successors, ∀ b ∈ q.2, (if q.1 = 4 then e else 0) + (durOf (duo cap src) q.1 (md q.1)).getD 0 ≤ (if b = 4 then e else 0))
    (h1 : total (duo cap src) md "R1" ≤ cap) (h2 : total (duo cap src) md "N" ≤ 5) :
    Feasible (duo cap src) md (fun a => if a = 4 then e else 0) := by
  have hres : ∀ r c, (duo cap src).resources.get? r = some (.const c) → total (duo cap src) md r ≤ c := by
    intro r c h
    have h := Dict.mem_of_get? h
    simp only [duo, List.mem_cons, List.not_mem_nil, or_false, Prod.mk.injEq, Capacity.const.injEq] at h
    rcases h with ⟨rfl, rfl⟩ | ⟨rfl, rfl⟩
    · exact h1
    · exact h2
  refine ⟨?_, ⟨?_, ?_⟩, ?_⟩
  · intro a h1 h2
    have h2 : a ≤ 4 := h2
    exact Option.isSome_iff_exists.1 (hm a (by simp; omega))
  · intro a l b h hb
    exact hp _ (Dict.mem_of_get? h) b hb
  · intro r c h t
    refine le_trans (sum_filter_nonneg _ ?_).1 (hres r c h)
    intro a _
    cases hx : needOf (duo cap src) a (md a) r with
    | none => simp
    | some x => exact duo_nonneg hs _ _ _ _ hx
  · intro r c _ h
    exact hres r c h

/-- The program of `duo` when the source has one mode. -/
def duoData : Multi := ⟨[(1, 1), (2, 1), (2, 2), (3, 1), (4, 1)], [[1], [2, 3], [4], [5]], [0, 3, 1, 2, 0], [[0, 1, 2, 1, 0], [0, 2, 3, 2, 0]],
  [2, 5], [1, 2], [[2, 3], [4], [4], []]⟩

theorem duo_multi : multi (duo 2 [(1, idle)]) = .ok duoData := by decide +kernel

theorem duo_solves : ∃ mi, Solves duoData mi [true, true, false, true, true] [0, 0, 0, 3] 3 := by
  have hs : ∀ p ∈ ([(1, idle)] : Dict Nat Mode), p.2 = idle := by decide
  obtain ⟨mi, h, -⟩ := C182_complete_partial (obj := 3) (duo_numbered _ _) (by
      intro a ms h
      have : ∀ q ∈ (duo 2 [(1, idle)]).modes, q.2.keys.Nodup := by decide +kernel
      exact this _ (Dict.mem_of_get? h)) duo_multi
      (duo_feasible (md := fun _ => 1) (e := 3) hs (by decide +kernel) (by decide +kernel) (by decide +kernel) (by decide +kernel))
      (duo_cap (by decide)) (duo_nonneg hs) (duo_zero hs) (duo_suc _ _) (duo_keys _ _) (by
      intro a h1 h2
      have h2 : a ≤ 4 := h2
      have : ∀ a ∈ [1, 2, 3, 4], (0 : Int) ≤ (if a = 4 then 3 else 0) ∧ (if a = 4 then 3 else 0) ≤ ub duoData := by decide +kernel
      exact this a (by simp; omega)) (by decide +kernel) (by
      intro a d h1 h2
      have : ∀ q ∈ (duo 0 []).successors, q.2 = [] → (if q.1 = 4 then 3 else 0) + (durOf (duo 2 [(1, idle)]) q.1 1).getD 0 ≤ 3 := by decide +kernel
      have := this _ (Dict.mem_of_get? h1) rfl
      rw [h2] at this
      exact this) ⟨4, 0, by decide +kernel, by decide +kernel, by decide⟩
  exact ⟨mi, h⟩

example : ∃ sch ms md, retrieve (duo 2 [(1, idle)]) duoData [true, true, false, true, true] [0, 0, 0, 3] = .ok (sch, ms) ∧
    Feasible (duo 2 [(1, idle)]) md (startIn sch) := by
  obtain ⟨mi, h⟩ := duo_solves
  obtain ⟨sch, ms, md, h1, -, -, -, h2, -⟩ := C182_sound (duo_numbered _ _) (by
    intro a ms ha hg
    have : ∀ q ∈ (duo 2 [(1, idle)]).modes, q.1 = 1 ∨ q.1 = 4 → q.2.keys = [1] := by decide +kernel
    exact this _ (Dict.mem_of_get? hg) ha) duo_multi h (duo_nonneg (by decide)) (duo_suc _ _) (duo_keys _ _)
  exact ⟨sch, ms, md, h1, h2⟩

/-- C182 refuted: retrieval takes each mode of the source for a mode of an activity.  When the source has two modes,
the solution that runs activity 2 in mode 2 is read with activity 2 in mode 1 and activity 3 in mode 2, which it does
not have: `KeyError`. -/
theorem C182_source_refuted : ∃ D mi, multi (duo 3 [(1, idle), (2, idle)]) = .ok D ∧
    Solves D mi [true, false, false, true, true, true] [0, 0, 0, 2] 2 ∧
    retrieveModes 4 D.idx [true, false, false, true, true, true] = [1, 1, 2, 1, 1] ∧
    (retrieve (duo 3 [(1, idle), (2, idle)]) D [true, false, false, true, true, true] [0, 0, 0, 2]).map (·.2) = .error .keyError := by
  have hs : ∀ p ∈ ([(1, idle), (2, idle)] : Dict Nat Mode), p.2 = idle := by decide
  obtain ⟨D, h, hD⟩ := okAnd_spec (e := multi (duo 3 [(1, idle), (2, idle)])) (p := fun D => decide
    (D = ⟨[(1, 1), (1, 2), (2, 1), (2, 2), (3, 1), (4, 1)], [[1, 2], [3, 4], [5], [6]], [0, 0, 3, 1, 2, 0],
      [[0, 0, 1, 2, 1, 0], [0, 0, 2, 3, 2, 0]], [3, 5], [1, 2], [[2, 3], [4], [4], []]⟩)) (by decide +kernel)
  have hD := of_decide_eq_true hD
  subst hD
  obtain ⟨mi, hsol, -⟩ := C182_complete_partial (obj := 2) (duo_numbered _ _) (by
      intro a ms h
      have : ∀ q ∈ (duo 3 [(1, idle), (2, idle)]).modes, q.2.keys.Nodup := by decide +kernel
      exact this _ (Dict.mem_of_get? h)) h
      (duo_feasible (md := fun a => if a = 2 then 2 else 1) (e := 2) hs (by decide +kernel) (by decide +kernel) (by decide +kernel) (by decide +kernel))
      (duo_cap (by decide)) (duo_nonneg hs) (duo_zero hs) (duo_suc _ _) (duo_keys _ _) (by
      intro a h1 h2
      have h2 : a ≤ 4 := h2
      have : ∀ a ∈ [1, 2, 3, 4], (0 : Int) ≤ (if a = 4 then 2 else 0) ∧ ((if a = 4 then 2 else 0) : Int) ≤ 5 := by decide +kernel
      exact this a (by simp; omega)) (by decide +kernel) (by
      intro a d h1 h2
      have : ∀ q ∈ (duo 0 []).successors, q.2 = [] → (if q.1 = 4 then 2 else 0) + (durOf (duo 3 [(1, idle), (2, idle)]) q.1 (if q.1 = 2 then 2 else 1)).getD 0 ≤ 2 := by
        decide +kernel
      have := this _ (Dict.mem_of_get? h1) rfl
      rw [h2] at this
      exact this) ⟨4, 0, by decide +kernel, by decide +kernel, by decide⟩
  exact ⟨_, mi, h, hsol, by decide +kernel, by decide +kernel⟩

end Verif.CpMulti
