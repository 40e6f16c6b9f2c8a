import Verif.Model.CpMulti
import Verif.Lemmas.CpRcpsp

namespace Verif.CpMulti
open Rcpsp Milp Robust CpRcpsp

/-! ### Numbers of modes -/

theorem modeSets_length : ∀ (bs : List (Nat × List Nat)) (c : Nat), (modeSets c bs).length = bs.length
  | [], _ => rfl
  | (_, ks) :: rest, c => by simp [modeSets, modeSets_length rest]

/-- Where the modes of the `i`-th activity are. -/
theorem block_get : ∀ (bs : List (Nat × List Nat)) (c i t : Nat) (ks : List Nat), bs[i]? = some (t, ks) →
    ∃ o, (modeSets c bs)[i]? = some (List.range' (c + o) ks.length) ∧
      ∀ (j k : Nat), ks[j]? = some k → (flat bs)[o + j]? = some (t, k)
  | [], _, _, _, _, h => by simp at h
  | (t0, ks0) :: rest, c, 0, t, ks, h => by
    simp only [List.getElem?_cons_zero, Option.some.injEq, Prod.mk.injEq] at h
    obtain ⟨rfl, rfl⟩ := h
    refine ⟨0, by simp [modeSets], ?_⟩
    intro j k hk
    have hj : j < ks0.length := by
      by_contra hge
      rw [List.getElem?_eq_none (by omega)] at hk; cases hk
    rw [flat, List.flatMap_cons, List.getElem?_append_left (by simpa using hj)]
    simp [hk]
  | (t0, ks0) :: rest, c, i + 1, t, ks, h => by
    simp only [List.getElem?_cons_succ] at h
    obtain ⟨o, h1, h2⟩ := block_get rest (c + ks0.length) i t ks h
    refine ⟨ks0.length + o, ?_, ?_⟩
    · rw [modeSets, List.getElem?_cons_succ, h1]; congr 2; omega
    · intro j k hk
      have := h2 j k hk
      rw [flat, List.flatMap_cons, List.getElem?_append_right (by simp; omega)]
      rw [← this]; congr 1; simp; omega

theorem mem_modeSets : ∀ (bs : List (Nat × List Nat)) (c : Nat) (S : List Nat), S ∈ modeSets c bs → ∀ m ∈ S, c ≤ m
  | (_, ks) :: rest, c, S, h, m, hm => by
    rw [modeSets, List.mem_cons] at h
    rcases h with rfl | h
    · exact (List.mem_range'_1.1 hm).1
    · have := mem_modeSets rest _ S h m hm; omega

/-- What `retrieve_solutions` does with one mode. -/
def keep (n : Nat) (p : Bool × (Nat × Nat)) : Option Nat :=
  if p.1 = true ∧ p.2.1 ≠ 1 ∧ p.2.1 ≠ n then some p.2.2
  else if p.2.1 = 1 ∨ p.2.1 = n then some 1 else none

theorem keep_none (n t : Nat) (h1 : t ≠ 1) (h2 : t ≠ n) : ∀ (ks : List Nat) (bs : List Bool), (∀ b ∈ bs, b = false) →
    (bs.zip (ks.map (fun k => (t, k)))).filterMap (keep n) = []
  | [], bs, _ => by simp
  | _ :: _, [], _ => by simp
  | k :: ks, b :: bs, h => by
    have hb := h b (by simp)
    subst hb
    rw [List.map_cons, List.zip_cons_cons, List.filterMap_cons_none (by simp [keep, h1, h2])]
    exact keep_none n t h1 h2 ks bs (fun b hb => h b (List.mem_cons_of_mem _ hb))

/-- Of the modes of an activity between source and sink the one that runs is kept. -/
theorem keep_one (n t : Nat) (h1 : t ≠ 1) (h2 : t ≠ n) : ∀ (ks : List Nat) (bs : List Bool) (j : Nat), bs.length = ks.length →
    bs.countP id = 1 → bs[j]? = some true → ∃ k, ks[j]? = some k ∧ (bs.zip (ks.map (fun k => (t, k)))).filterMap (keep n) = [k]
  | _, [], j, _, _, hj => by simp at hj
  | [], _ :: _, _, hl, _, _ => by simp at hl
  | k :: ks, true :: bs, 0, hl, hc, _ => by
    refine ⟨k, rfl, ?_⟩
    rw [List.map_cons, List.zip_cons_cons, List.filterMap_cons_some (b := k) (by simp [keep, h1, h2])]
    rw [keep_none n t h1 h2]
    intro b hb
    have : bs.countP id = 0 := by simpa using hc
    have := List.countP_eq_zero.1 this b hb
    simpa using this
  | k :: ks, true :: bs, j + 1, hl, hc, hj => by
    exfalso
    have : bs.countP id = 0 := by simpa using hc
    have := List.countP_eq_zero.1 this true (List.mem_of_getElem? (by simpa using hj))
    simp at this
  | k :: ks, false :: bs, 0, _, _, hj => by simp at hj
  | k :: ks, false :: bs, j + 1, hl, hc, hj => by
    obtain ⟨k', e1, e2⟩ := keep_one n t h1 h2 ks bs j (by simpa using hl) (by simpa using hc) (by simpa using hj)
    refine ⟨k', by simpa using e1, ?_⟩
    rw [List.map_cons, List.zip_cons_cons, List.filterMap_cons_none (by simp [keep, h1, h2])]
    exact e2

theorem countP_range (mr : List Bool) (c : Nat) : ∀ (len : Nat), len ≤ mr.length →
    (List.range' c len).countP (fun m => mr.getD (m - c) false) = (mr.take len).countP id
  | 0, _ => by simp
  | len + 1, h => by
    have ih := countP_range mr c len (by omega)
    rw [List.range'_1_concat, List.countP_append, ih, List.take_succ_eq_append_getElem (by omega), List.countP_append]
    congr 1
    simp [List.getD, List.getElem?_eq_getElem (show len < mr.length by omega)]

/-- The modes found by `retrieve_solutions` are the running ones, one for each activity, when source and sink have
mode 1 only. -/
theorem retrieve_blocks (n : Nat) : ∀ (bs : List (Nat × List Nat)) (c : Nat) (mr : List Bool), mr.length = (flat bs).length →
    (∀ b ∈ bs, b.1 = 1 ∨ b.1 = n → b.2 = [1]) →
    (∀ S ∈ modeSets c bs, S.countP (fun m => mr.getD (m - c) false) = 1) →
    ((mr.zip (flat bs)).filterMap (keep n)).length = bs.length ∧
      ∀ (i m : Nat) (S : List Nat), (modeSets c bs)[i]? = some S → m ∈ S → mr.getD (m - c) false = true →
        ∃ t k, (flat bs)[m - c]? = some (t, k) ∧ ((mr.zip (flat bs)).filterMap (keep n))[i]? = some k
  | [], c, mr, _, _, _ => by simp [flat, modeSets]
  | (t, ks) :: rest, c, mr, hl, he, hc => by
    have hfl : flat ((t, ks) :: rest) = ks.map (fun k => (t, k)) ++ flat rest := by simp [flat]
    rw [hfl] at hl ⊢
    rw [List.length_append, List.length_map] at hl
    have hsplit : mr = mr.take ks.length ++ mr.drop ks.length := (List.take_append_drop _ _).symm
    have htl : (mr.take ks.length).length = (ks.map (fun k => (t, k))).length := by
      rw [List.length_take, List.length_map]; omega
    have hz : (mr.zip (ks.map (fun k => (t, k)) ++ flat rest)).filterMap (keep n) =
        ((mr.take ks.length).zip (ks.map (fun k => (t, k)))).filterMap (keep n) ++
          ((mr.drop ks.length).zip (flat rest)).filterMap (keep n) := by
      conv_lhs => rw [hsplit]
      rw [List.zip_append htl, List.filterMap_append]
    have hdrop : ∀ m, c + ks.length ≤ m → (mr.drop ks.length).getD (m - (c + ks.length)) false = mr.getD (m - c) false := by
      intro m hm
      simp only [List.getD, List.getElem?_drop]
      congr 2; omega
    obtain ⟨r1, r2⟩ := retrieve_blocks n rest (c + ks.length) (mr.drop ks.length) (by rw [List.length_drop]; omega)
      (fun b hb => he b (List.mem_cons_of_mem _ hb)) (by
        intro S hS
        rw [List.countP_congr (q := fun m => mr.getD (m - c) false) (by
          intro m hm
          rw [hdrop m (mem_modeSets _ _ S hS m hm)])]
        exact hc S (by rw [modeSets]; exact List.mem_cons_of_mem _ hS))
    have hc0 := hc (List.range' c ks.length) (by simp [modeSets])
    rw [countP_range mr c ks.length (by omega)] at hc0
    -- the first activity
    have hfirst : ∀ j : Nat, (mr.take ks.length)[j]? = some true → ∃ k, ks[j]? = some k ∧
        ((mr.take ks.length).zip (ks.map (fun k => (t, k)))).filterMap (keep n) = [k] := by
      intro j hj
      by_cases hend : t = 1 ∨ t = n
      · have hks : ks = [1] := he (t, ks) (by simp) hend
        subst hks
        have hjl : j < (mr.take 1).length := by
          by_contra hge
          have hj : (List.take 1 mr)[j]? = some true := hj
          rw [List.getElem?_eq_none (Nat.le_of_not_lt hge)] at hj; cases hj
        rw [List.length_take] at hjl
        have hj0 : j = 0 := by omega
        subst hj0
        refine ⟨1, rfl, ?_⟩
        cases mr with
        | nil => simp at hjl
        | cons b mr =>
          have : ¬ (t ≠ 1 ∧ t ≠ n) := by tauto
          simp [keep, this, hend]
      · have h1 : t ≠ 1 := fun h => hend (.inl h)
        have h2 : t ≠ n := fun h => hend (.inr h)
        exact keep_one n t h1 h2 ks _ j (by rw [List.length_take]; omega) hc0 hj
    have hlen1 : (((mr.take ks.length).zip (ks.map (fun k => (t, k)))).filterMap (keep n)).length = 1 := by
      have hpos : 0 < (mr.take ks.length).countP id := by omega
      obtain ⟨b, hb, hbt⟩ := List.countP_pos_iff.1 hpos
      obtain ⟨j, hj⟩ := List.mem_iff_getElem?.1 hb
      have hbt : b = true := hbt
      subst hbt
      obtain ⟨k, -, e2⟩ := hfirst j hj
      rw [e2]; rfl
    rw [hz]
    refine ⟨by rw [List.length_append, hlen1, r1, List.length_cons]; omega, ?_⟩
    intro i m S hS hm hrun
    cases i with
    | zero =>
      rw [modeSets, List.getElem?_cons_zero, Option.some.injEq] at hS
      subst hS
      rw [List.mem_range'_1] at hm
      have hj : (mr.take ks.length)[m - c]? = some true := by
        rw [List.getElem?_take_of_lt (by omega)]
        rw [List.getD] at hrun
        cases hx : mr[m - c]? with
        | none => rw [hx] at hrun; cases hrun
        | some b => rw [hx] at hrun; exact congrArg some hrun
      obtain ⟨k, e1, e2⟩ := hfirst _ hj
      refine ⟨t, k, ?_, by rw [e2]; rfl⟩
      rw [List.getElem?_append_left (by rw [List.length_map]; omega), List.getElem?_map, e1]; rfl
    | succ i =>
      rw [modeSets, List.getElem?_cons_succ] at hS
      have hge := mem_modeSets _ _ S (List.mem_of_getElem? hS) m hm
      obtain ⟨t', k, e1, e2⟩ := r2 i m S hS hm (by rw [hdrop m hge]; exact hrun)
      refine ⟨t', k, ?_, ?_⟩
      · rw [List.getElem?_append_right (by rw [List.length_map]; omega), List.length_map, ← e1]
        congr 1; omega
      · rw [List.getElem?_append_right (by rw [hlen1]; omega), hlen1]
        exact e2

/-! ### Data -/

/-- The data are those of the project. -/
structure Data (pb : Problem) (D : Multi) : Prop where
  n : D.modes.length = pb.modes.length
  mode : ∀ i, i < D.modes.length → ∀ m ∈ modesOf D i, ∃ k, D.idx[m - 1]? = some (i + 1, k)
  dur : ∀ (j a k : Nat), D.idx[j]? = some (a, k) → durOf pb a k = some (el D.dur j)
  nres : D.rcap.length = pb.resources.length
  cap : ∀ (r : Nat) (p : String × Capacity), pb.resources[r]? = some p → p.2 = .const (el D.rcap r)
  need : ∀ (r : Nat) (p : String × Capacity), pb.resources[r]? = some p → ∀ (j a k : Nat), D.idx[j]? = some (a, k) →
    needOf pb a k p.1 = some (el2 D.rreq r j)
  suc : ∀ i, i < D.modes.length → pb.successors.get? (i + 1) = some (D.succ.getD i [])
  type : ∀ (r : Nat) (p : String × Capacity), pb.resources[r]? = some p → D.rtype[r]? = some (if p.1 ∈ pb.nonRenewable then 2 else 1)

theorem blocks_get {pb : Problem} {bs : List (Nat × List Nat)} (hn : Numbered pb) (h : blocks pb = .ok bs) :
    bs.length = pb.modes.length ∧ ∀ i, i < bs.length → ∃ ms, pb.modes.get? (i + 1) = some ms ∧
      bs[i]? = some (i + 1, sortBy (fun k : Nat => (k : Int)) ms.keys) := by
  unfold blocks at h
  rw [tasks_eq hn] at h
  obtain ⟨l, g⟩ := mapE_get h
  rw [List.length_range'] at l
  refine ⟨l, ?_⟩
  intro i hi
  obtain ⟨b, e1, e2⟩ := g i (i + 1) (range'_get (by omega))
  simp only [bind_eq_ok, Except.ok.injEq] at e2
  obtain ⟨ms, e2, rfl⟩ := e2
  exact ⟨ms, get_eq e2, e1⟩

theorem multi_data {pb : Problem} {D : Multi} (hn : Numbered pb) (h : multi pb = .ok D) : Data pb D := by
  simp only [multi, bind_eq_ok, Except.ok.injEq] at h
  obtain ⟨bs, h0, dur, h1, rreq, h2, rcap, h3, succ, h4, rfl⟩ := h
  obtain ⟨l0, g0⟩ := blocks_get hn h0
  rw [tasks_eq hn] at h4
  obtain ⟨l1, g1⟩ := mapE_get h1
  obtain ⟨l2, g2⟩ := mapE_get h2
  obtain ⟨l3, g3⟩ := mapE_get h3
  obtain ⟨l4, g4⟩ := mapE_get h4
  have hlen : (modeSets 1 bs).length = pb.modes.length := by rw [modeSets_length, l0]
  refine ⟨hlen, ?_, ?_, l3, ?_, ?_, ?_, ?_⟩
  · intro i hi m hm
    have hi' : i < bs.length := by rw [modeSets_length] at hi; exact hi
    obtain ⟨ms, e1, e2⟩ := g0 i hi'
    obtain ⟨o, e3, e4⟩ := block_get bs 1 i _ _ e2
    have e5 : (modeSets 1 bs).getD i [] = List.range' (1 + o) (sortBy (fun k : Nat => (k : Int)) ms.keys).length := by
      simp [List.getD, e3]
    have hm : m ∈ (modeSets 1 bs).getD i [] := hm
    rw [e5, List.mem_range'_1] at hm
    have hj : m - 1 - o < (sortBy (fun k : Nat => (k : Int)) ms.keys).length := by omega
    refine ⟨_, (?_ : (flat bs)[m - 1]? = some (i + 1, (sortBy (fun k : Nat => (k : Int)) ms.keys)[m - 1 - o]))⟩
    rw [← e4 (m - 1 - o) _ (List.getElem?_eq_getElem hj)]
    congr 1; omega
  · intro j a k hj
    obtain ⟨b, e1, e2⟩ := g1 j (a, k) hj
    simp only [bind_eq_ok, Except.ok.injEq] at e2
    obtain ⟨m, e2, e3⟩ := e2
    show durOf pb a k = some (el dur j)
    rw [el_of e1, durOf, modeAt_ok e2, ← e3]; rfl
  · intro r p hp
    obtain ⟨b, e1, e2⟩ := g3 r p hp
    show p.2 = .const (el rcap r)
    rw [el_of e1]
    unfold number at e2
    split at e2
    · rename_i c hc; rw [hc, Except.ok.inj e2]
    · cases e2
  · intro r p hp j a k hj
    have hk : pb.resources.keys[r]? = some p.1 := by simp [Dict.keys, hp]
    obtain ⟨row, e1, e2⟩ := g2 r p.1 hk
    obtain ⟨l5, g5⟩ := mapE_get e2
    obtain ⟨b, e3, e4⟩ := g5 j (a, k) hj
    simp only [bind_eq_ok] at e4
    obtain ⟨m, e4, e5⟩ := e4
    show needOf pb a k p.1 = some (el2 rreq r j)
    have : el2 rreq r j = b := by
      unfold el2
      have : rreq.getD r [] = row := by simp [List.getD, e1]
      rw [this, el_of e3]
    rw [this, needOf, modeAt_ok e4, Option.bind_some, get_eq e5]
  · intro i hi
    obtain ⟨b, e1, e2⟩ := g4 i (i + 1) (range'_get (by rw [← hlen]; exact hi))
    show pb.successors.get? (i + 1) = some (succ.getD i [])
    have : succ.getD i [] = b := by simp [List.getD, e1]
    rw [this, get_eq e2]
  · intro r p hp
    show (pb.resources.keys.map (fun r => if r ∈ pb.nonRenewable then 2 else 1))[r]? = _
    simp [Dict.keys, hp]

/-- The modes of an activity have numbers, each of which one. -/
theorem multi_modes {pb : Problem} {D : Multi} (hn : Numbered pb) (hm : ∀ a ms, pb.modes.get? a = some ms → ms.keys.Nodup)
    (h : multi pb = .ok D) {md : Nat → Nat} (hmd : ∀ a, 1 ≤ a → a ≤ pb.modes.length → ∃ d, durOf pb a (md a) = some d) :
    ∃ mi : Nat → Nat, ∀ i, i < D.modes.length → mi i ∈ modesOf D i ∧ D.idx[mi i - 1]? = some (i + 1, md (i + 1)) ∧
      (modesOf D i).countP (runs (D.idx.map (fun p => decide (p.2 = md p.1)))) = 1 := by
  have hd := multi_data hn h
  simp only [multi, bind_eq_ok, Except.ok.injEq] at h
  obtain ⟨bs, h0, dur, h1, rreq, h2, rcap, h3, succ, h4, rfl⟩ := h
  obtain ⟨l0, g0⟩ := blocks_get hn h0
  have hex : ∀ i, i < (modeSets 1 bs).length → ∃ m, m ∈ (modeSets 1 bs).getD i [] ∧ (flat bs)[m - 1]? = some (i + 1, md (i + 1)) ∧
      ((modeSets 1 bs).getD i []).countP (runs ((flat bs).map (fun p => decide (p.2 = md p.1)))) = 1 := by
    intro i hi
    rw [modeSets_length] at hi
    obtain ⟨ms, e1, e2⟩ := g0 i hi
    obtain ⟨o, e3, e4⟩ := block_get bs 1 i _ _ e2
    have e5 : (modeSets 1 bs).getD i [] = List.range' (1 + o) (sortBy (fun k : Nat => (k : Int)) ms.keys).length := by
      simp [List.getD, e3]
    rw [e5]
    generalize hks : sortBy (fun k : Nat => (k : Int)) ms.keys = ks at e2 e4 e5 ⊢
    have hperm : ks.Perm ms.keys := by rw [← hks]; exact sortBy_perm _ _
    have hnd : ks.Nodup := hperm.nodup_iff.2 (hm _ _ e1)
    obtain ⟨d, hdur⟩ := hmd (i + 1) (by omega) (by omega)
    have hin : md (i + 1) ∈ ks := by
      rw [hperm.mem_iff]
      refine (Dict.get?_isSome_iff_mem_keys _ _).1 ?_
      rw [durOf, e1, Option.bind_some] at hdur
      cases hg : ms.get? (md (i + 1)) with
      | none => rw [hg] at hdur; cases hdur
      | some m => rfl
    obtain ⟨j, hj⟩ := List.mem_iff_getElem?.1 hin
    have hjl : j < ks.length := by
      by_contra hge
      rw [List.getElem?_eq_none (by omega)] at hj; cases hj
    refine ⟨1 + o + j, ?_, ?_, ?_⟩
    · rw [List.mem_range'_1]; omega
    · rw [← e4 j _ hj]; congr 1; omega
    · have hc : (List.range' (1 + o) ks.length).countP (runs ((flat bs).map (fun p => decide (p.2 = md p.1)))) =
          (List.range ks.length).countP (fun j => decide (ks.getD j 0 = md (i + 1))) := by
        rw [List.range'_eq_map_range, List.countP_map]
        refine List.countP_congr (fun j hj => ?_)
        have hj := List.mem_range.1 hj
        have e6 := e4 j _ (List.getElem?_eq_getElem hj)
        have e7 : 1 + o + j - 1 = o + j := by omega
        simp only [Function.comp_apply, runs, e7, List.getD, List.getElem?_map, e6, List.getElem?_eq_getElem hj]
        simp
      have hc2 : (List.range ks.length).countP (fun j => decide (ks.getD j 0 = md (i + 1))) = ks.countP (fun k => decide (k = md (i + 1))) := by
        have : ks = (List.range ks.length).map (fun j => ks.getD j 0) := by
          refine List.ext_getElem? (fun j => ?_)
          by_cases hj : j < ks.length
          · simp [List.getD, hj]
          · rw [List.getElem?_eq_none (by omega), List.getElem?_eq_none (by simp; omega)]
        conv_rhs => rw [this]
        rw [List.countP_map]; rfl
      rw [hc, hc2]
      have : ks.countP (fun k => decide (k = md (i + 1))) = ks.count (md (i + 1)) := by
        rw [List.count]; exact List.countP_congr (fun k _ => by simp)
      rw [this]
      exact List.count_eq_one_of_mem hnd hin
  classical
  refine ⟨fun i => if hi : i < (modeSets 1 bs).length then (hex i hi).choose else 0, ?_⟩
  intro i hi
  have hi : i < (modeSets 1 bs).length := hi
  simp only [hi, dif_pos]
  exact (hex i hi).choose_spec

/-! ### Loads -/

theorem required_eq {pb : Problem} {D : Multi} (hn : Numbered pb) (hd : Data pb D) {mi md : Nat → Nat}
    (hmi : ∀ i, i < D.modes.length → D.idx[mi i - 1]? = some (i + 1, md (i + 1))) {start : Nat → Int} {r : Nat} {p : String × Capacity}
    (hp : pb.resources[r]? = some p) (t : Int) : required pb md start p.1 t =
      (((List.range D.modes.length).filter (fun i => decide (start (i + 1) ≤ t ∧ t < start (i + 1) + el D.dur (mi i - 1)))).map
        (fun i => el2 D.rreq r (mi i - 1))).sum := by
  unfold required
  have hperm : pb.modes.keys.Perm ((List.range D.modes.length).map (· + 1)) := by
    refine hn.acts.trans (List.Perm.of_eq ?_)
    rw [← hd.n, List.range'_eq_map_range]
    exact List.map_congr_left (fun i _ => by omega)
  rw [((hperm.filter _).map _).sum_eq, List.filter_map, List.map_map]
  congr 1
  have e1 : ∀ i ∈ List.range D.modes.length, ((fun a => decide (start a ≤ t ∧ t < start a + (durOf pb a (md a)).getD 0)) ∘ (· + 1)) i =
      decide (start (i + 1) ≤ t ∧ t < start (i + 1) + el D.dur (mi i - 1)) := by
    intro i hi
    simp only [Function.comp_apply, hd.dur _ _ _ (hmi i (List.mem_range.1 hi)), Option.getD_some]
  rw [List.filter_congr e1]
  refine List.map_congr_left (fun i hi => ?_)
  have := List.mem_range.1 (List.mem_filter.1 hi).1
  simp only [Function.comp_apply, hd.need r p hp _ _ _ (hmi i this), Option.getD_some]

end Verif.CpMulti
