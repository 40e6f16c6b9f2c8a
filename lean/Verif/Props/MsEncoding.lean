import Verif.Model.MsEncoding
import Verif.Props.MultiSkillCheck
import Verif.Lemmas.Mcts

/-! Claim C97: encodings of multi-skill solutions and the copies of the problem on which they are evaluated. -/

namespace Verif.MultiSkill
open Verif.Rcpsp

variable {pb : Problem} {fx : Fixed} {sol : Solution} {v : Variant}

/-! ### From a schedule to an encoding -/

theorem keys_range (inst : Instance pb) : pb.modes.keys.Perm (List.range' 1 pb.modes.length) := by
  have hsub : List.range' 1 pb.modes.length ⊆ pb.modes.keys := by
    intro a ha
    have := List.mem_range'_1.1 ha
    obtain ⟨d, h1, _⟩ := inst.base.activities a this.1 (by show a ≤ pb.modes.length; omega)
    have h1 : pb.modes.get? a = some d := h1
    exact (Dict.get?_isSome_iff_mem_keys _ _).1 (by rw [h1]; rfl)
  have := (List.subperm_of_subset List.nodup_range' hsub).perm_of_length_le (by simp [Dict.keys])
  exact this.symm

theorem sorted_unique : ∀ {l l' : List Nat}, l.Pairwise (fun a b : Nat => (a : Int) ≤ (b : Int)) → l'.Pairwise (fun a b : Nat => (a : Int) ≤ (b : Int)) → l.Perm l' → l = l' :=
  fun h1 h2 h => List.Perm.eq_of_pairwise (fun a b _ _ h1 h2 => by omega) h1 h2 h

theorem tasks_eq (inst : Instance pb) : pb.tasks = List.range' 1 pb.modes.length := by
  refine sorted_unique (sortBy_sorted _ _) ?_ ((tasks_perm pb).trans (keys_range inst))
  exact (List.pairwise_le_range' (s := 1) (n := pb.modes.length) (step := 1)).imp fun h => by omega

theorem inner_eq (inst : Instance pb) : inner pb = List.range' 2 (pb.modes.length - 2) := by
  unfold inner
  rw [tasks_eq inst]
  have h2 : 2 ≤ pb.modes.length := inst.base.two
  apply List.ext_getElem
  · simp; omega
  · intro i h1 h2
    simp

theorem modesFor_ok : ∀ (l : List Nat), (∀ a ∈ l, ∃ k, sol.modes.get? a = some k) →
    ∃ ms, modesFor sol l = .ok ms ∧ ms.length = l.length ∧ ∀ (i a : Nat), l[i]? = some a → ms[i]? = sol.modes.get? a
  | [], _ => ⟨[], rfl, rfl, by simp⟩
  | a :: l, h => by
    obtain ⟨k, hk⟩ := h a (by simp)
    obtain ⟨ms, h1, h2, h3⟩ := modesFor_ok l fun b hb => h b (by simp [hb])
    refine ⟨k :: ms, ?_, by simp [h2], ?_⟩
    · unfold modesFor
      rw [dict_get_ok.2 hk, bind_ok, h1, bind_ok]
    · intro i b hb
      cases i with
      | zero => simp only [List.getElem?_cons_zero, Option.some.injEq] at hb ⊢; rw [← hb, hk]
      | succ i => simp only [List.getElem?_cons_succ] at hb ⊢; exact h3 i b hb

/-- A solution that places every activity once, has a mode for each inner activity and notes only employees. -/
structure Recorded (pb : Problem) (sol : Solution) : Prop where
  activities : sol.schedule.keys.Perm (List.range' 1 pb.modes.length)
  modes : ∀ a, 2 ≤ a → a < pb.modes.length → ∃ k, sol.modes.get? a = some k
  workers : ∀ a us, sol.usage.get? a = some us → us.keys.Nodup ∧ ∀ w ∈ us.keys, w ∈ pb.employees.keys

theorem workersFor_perm (hd : Dicts pb) (hrec : Recorded pb sol) (a : Nat) : (workersFor pb sol a).Perm pb.employees.keys := by
  have hu : (Dict.keys ((sol.usage.get? a).getD [])).Nodup ∧ ∀ w ∈ Dict.keys ((sol.usage.get? a).getD []), w ∈ pb.employees.keys := by
    cases h : sol.usage.get? a with
    | none => simp [Dict.keys]
    | some us => simpa using hrec.workers a us h
  unfold workersFor
  refine (List.perm_ext_iff_of_nodup ?_ hd.employees).2 ?_
  · rw [List.nodup_append]
    refine ⟨hu.1, hd.employees.filter _, fun x hx y hy => ?_⟩
    rintro rfl
    simp only [List.mem_filter, List.contains_eq_mem, Bool.not_eq_true', decide_eq_false_iff_not] at hy
    exact hy.2 hx
  · intro w
    simp only [List.mem_append, List.mem_filter, List.contains_eq_mem, Bool.not_eq_true', decide_eq_false_iff_not]
    constructor
    · rintro (h | h)
      · exact hu.2 w h
      · exact h.1
    · intro h
      by_cases hw : w ∈ Dict.keys ((sol.usage.get? a).getD [])
      · exact .inl hw
      · exact .inr ⟨h, hw⟩

theorem prioArg_nested {l : List (List Nat)} (hl : l.length + 2 = pb.modes.length) : prioArg pb (some (.nested l)) = .ok (some l) := by
  cases l with
  | nil =>
    have : pb.modes.length - 2 = 0 := by simp at hl; omega
    simp [prioArg, fromPermutation, this, rankLists]
  | cons a l => rfl

theorem build_nested {modes perm : List Nat} {l : List (List Nat)} (hl : l.length + 2 = pb.modes.length) {r : Result} (h : sgs pb perm modes l = .ok r) :
    build pb fx (some modes) none (some perm) (some (.nested l)) =
      .ok { perm := perm, modes := modes, from0 := modes.map (fun x : Nat => (x : Int) - 1), prio := some l, result := r } := by
  unfold build
  rw [prioArg_nested hl, bind_ok]
  simp only [fillModes, bind_ok, fillPerm]
  show (sgs pb perm modes l >>= _) = _
  rw [h, bind_ok]
  rfl

/-- The order of the activities without the first and the last. -/
theorem order_spec (h2 : 2 ≤ pb.modes.length) (hsrc : pb.source = 1) (hsink : pb.sink = pb.modes.length) (hrec : Recorded pb sol) :
    ∃ l l', pyRemove (sortBy (startOf sol.schedule) sol.schedule.keys) pb.source = .ok l ∧ pyRemove l pb.sink = .ok l' ∧
      l'.Perm (List.range' 2 (pb.modes.length - 2)) ∧ l'.Pairwise (fun a b => startOf sol.schedule a ≤ startOf sol.schedule b) := by
  have hp := (sortBy_perm (startOf sol.schedule) sol.schedule.keys).trans hrec.activities
  have hs := sortBy_sorted (startOf sol.schedule) sol.schedule.keys
  generalize hL : sortBy (startOf sol.schedule) sol.schedule.keys = L at hp hs
  have hn : L.Nodup := hp.nodup_iff.2 List.nodup_range'
  have hmem : ∀ a, a ∈ L ↔ 1 ≤ a ∧ a ≤ pb.modes.length := fun a => by
    rw [hp.mem_iff, List.mem_range'_1]; omega
  have m1 : pb.source ∈ L := by rw [hmem, hsrc]; omega
  have m2 : pb.sink ∈ L.erase pb.source := by
    rw [hn.mem_erase_iff, hmem, hsrc, hsink]; omega
  refine ⟨L.erase pb.source, (L.erase pb.source).erase pb.sink, by simp [pyRemove, m1], by simp [pyRemove, m2], ?_, ?_⟩
  · refine (List.perm_ext_iff_of_nodup ((hn.erase _).erase _) List.nodup_range').2 fun a => ?_
    rw [(hn.erase _).mem_erase_iff, hn.mem_erase_iff, hmem, List.mem_range'_1, hsrc, hsink]
    omega
  · exact hs.sublist (List.erase_sublist.trans List.erase_sublist)

theorem toVariant_spec (inst : Instance pb) (hsrc : pb.source = 1) (hsink : pb.sink = pb.modes.length) (hrec : Recorded pb sol) :
    ∃ (l ms : List Nat) (r : Result), toVariant pb fx sol =
        .ok ⟨l.map (· - 2), ms, ms.map (fun x : Nat => (x : Int) - 1), some ((inner pb).map (workersFor pb sol)), r⟩ ∧
      l.Perm (List.range' 2 (pb.modes.length - 2)) ∧ l.Pairwise (fun a b => startOf sol.schedule a ≤ startOf sol.schedule b) ∧
      (l.map (· - 2)).Perm (List.range (pb.modes.length - 2)) ∧
      ms.length + 2 = pb.modes.length ∧ (∀ (i k : Nat), ms[i]? = some k → sol.modes.get? (i + 2) = some k) ∧
      sgs pb (l.map (· - 2)) ms ((inner pb).map (workersFor pb sol)) = .ok r := by
  have h2 : 2 ≤ pb.modes.length := inst.base.two
  obtain ⟨l0, l, e1, e2, hp, hs⟩ := order_spec h2 hsrc hsink hrec
  have hin := inner_eq inst
  obtain ⟨ms, e3, hlen, hms⟩ := modesFor_ok (sol := sol) (inner pb) fun a ha => by
    rw [hin, List.mem_range'_1] at ha
    exact hrec.modes a ha.1 (by omega)
  have hil : (inner pb).length + 2 = pb.modes.length := by rw [hin, List.length_range']; omega
  have hperm : (l.map (· - 2)).Perm (List.range (pb.modes.length - 2)) := by
    have := hp.map (· - 2)
    have e : (List.range' 2 (pb.modes.length - 2)).map (· - 2) = List.range (pb.modes.length - 2) := by
      apply List.ext_getElem <;> simp
    rwa [e] at this
  obtain ⟨r, hr⟩ := C92_never_raises (perm := l.map (· - 2)) (modes := ms) (prio := (inner pb).map (workersFor pb sol)) inst hperm (by omega) (by simpa using hil)
  refine ⟨l, ms, r, ?_, hp, hs, hperm, by omega, ?_, hr⟩
  · unfold toVariant
    rw [e1, bind_ok, e2, bind_ok, e3, bind_ok]
    exact build_nested (by simpa using hil) hr
  · intro i k hk
    have hi : i < ms.length := (List.getElem?_eq_some_iff.1 hk).1
    have hg : (inner pb)[i]? = some (i + 2) := by
      rw [hin, List.getElem?_range' (by omega)]
      simp; omega
    rw [← hms i _ hg, hk]

/-- The encoding of a solution that places every activity: the order has every inner activity once, in the order of the starts; the modes
are those of the solution; for every inner activity the list of workers names every employee once, first those noted for it.  The schedule
of the new solution is generated from these. -/
theorem C97_encoding (inst : Instance pb) (hsrc : pb.source = 1) (hsink : pb.sink = pb.modes.length) (hrec : Recorded pb sol) :
    ∃ v lists, toVariant pb fx sol = .ok v ∧ v.prio = some lists ∧ sgs pb v.perm v.modes lists = .ok v.result ∧
      v.perm.Perm (List.range (pb.modes.length - 2)) ∧
      (∀ (i j x y : Nat) (p q : Nat × Nat), i < j → v.perm[i]? = some x → v.perm[j]? = some y → sol.schedule.get? (x + 2) = some p →
        sol.schedule.get? (y + 2) = some q → p.1 ≤ q.1) ∧
      v.modes.length + 2 = pb.modes.length ∧ (∀ (i k : Nat), v.modes[i]? = some k → sol.modes.get? (i + 2) = some k) ∧
      lists.length + 2 = pb.modes.length ∧ ∀ (i : Nat) l, lists[i]? = some l → l.Perm pb.employees.keys ∧
        ((sol.usage.get? (i + 2)).getD []).keys <+: l := by
  obtain ⟨l, ms, r, hv, hp, hs, hperm, hlen, hms, hr⟩ := toVariant_spec (fx := fx) inst hsrc hsink hrec
  have h2 : 2 ≤ pb.modes.length := inst.base.two
  have hin := inner_eq inst
  refine ⟨_, _, hv, rfl, hr, hperm, ?_, hlen, hms, by simp [hin]; omega, ?_⟩
  · intro i j x y p q hij hx hy hp' hq
    simp only [List.getElem?_map, Option.map_eq_some_iff] at hx hy
    obtain ⟨a, ha, rfl⟩ := hx
    obtain ⟨b, hb, rfl⟩ := hy
    obtain ⟨hi, rfl⟩ := List.getElem?_eq_some_iff.1 ha
    obtain ⟨hj, rfl⟩ := List.getElem?_eq_some_iff.1 hb
    have hle := List.pairwise_iff_getElem.1 hs i j hi hj hij
    have ga := List.mem_range'_1.1 (hp.mem_iff.1 (List.getElem_mem hi))
    have gb := List.mem_range'_1.1 (hp.mem_iff.1 (List.getElem_mem hj))
    rw [Nat.sub_add_cancel ga.1] at hp'
    rw [Nat.sub_add_cancel gb.1] at hq
    simp only [startOf, hp', hq] at hle
    omega
  · intro i l hl
    simp only [List.getElem?_map, Option.map_eq_some_iff] at hl
    obtain ⟨a, ha, rfl⟩ := hl
    obtain ⟨hi, rfl⟩ := List.getElem?_eq_some_iff.1 ha
    refine ⟨workersFor_perm inst.dicts hrec _, ?_⟩
    have e : (inner pb)[i] = i + 2 := by simp only [hin, List.getElem_range']; omega
    rw [e]
    exact List.prefix_append _ _

/-- The new solution is accepted when its schedule is complete (and the conditions of the claim on the check hold). -/
theorem C97_accepted (inst : Instance pb) (hsrc : pb.source = 1) (hsink : pb.sink = pb.modes.length) (hrec : Recorded pb sol)
    (hmodes : ∀ a k, 2 ≤ a → a < pb.modes.length → sol.modes.get? a = some k → ∃ d, pb.modes.get? a = some d ∧ k ∈ d.keys)
    (hmult : 0 < pb.multiplier)
    (hconst : ∀ res row, pb.resources.get? res = some row → ∃ c, 0 ≤ c ∧ ∀ (t : Nat) c', row[t]? = some c' → c' = c)
    (hnonren : ∀ res ∈ pb.nonRenewable, res ∈ pb.resources.keys)
    (hneeds : ∀ a d k m, pb.modes.get? a = some d → d.get? k = some m →
      (∀ res n, m.needs.get? res = some n → 0 ≤ n ∧ (res ∈ pb.nonRenewable → m.duration = 0 → n = 0)) ∧
      (∀ sk n, sk ∈ pb.skills → m.needs.get? sk = some n → 0 < n → 0 < m.duration))
    (h : toVariant pb fx sol = .ok v) (hf : v.result.feasible = true) : satisfy pb ⟨v.result.modes, v.result.schedule, v.result.usage⟩ = .ok true := by
  obtain ⟨v', lists, h', _, hr, hperm, _, hlen, hms, hll, hl⟩ := C97_encoding (fx := fx) inst hsrc hsink hrec
  rw [h] at h'; cases h'
  refine C94_accepts_generated inst hperm hlen ?_ ?_ hmult hsink hconst hnonren hneeds hr hf
  · intro l hm
    obtain ⟨i, hi⟩ := List.getElem?_of_mem hm
    have := (hl i l hi).1
    exact ⟨this.nodup_iff.2 inst.dicts.employees, fun w hw => this.mem_iff.2 hw⟩
  · intro i k hk
    have : i < v.modes.length := (List.getElem?_eq_some_iff.1 hk).1
    exact hmodes (i + 2) k (by omega) (by omega) (hms i k hk)

/-- The first solution (`get_dummy_solution`) never raises, and is accepted when its schedule is complete. -/
theorem C97_dummy (inst : Instance pb) (hsink : pb.sink = pb.modes.length) :
    ∃ v, dummy pb fx = .ok v ∧ v.result.ext = List.replicate pb.modes.length 1 ∧ (0 < pb.multiplier →
      (∀ res row, pb.resources.get? res = some row → ∃ c, 0 ≤ c ∧ ∀ (t : Nat) c', row[t]? = some c' → c' = c) →
      (∀ res ∈ pb.nonRenewable, res ∈ pb.resources.keys) →
      (∀ a d k m, pb.modes.get? a = some d → d.get? k = some m →
        (∀ res n, m.needs.get? res = some n → 0 ≤ n ∧ (res ∈ pb.nonRenewable → m.duration = 0 → n = 0)) ∧
        (∀ sk n, sk ∈ pb.skills → m.needs.get? sk = some n → 0 < n → 0 < m.duration)) →
      v.result.feasible = true → satisfy pb ⟨v.result.modes, v.result.schedule, v.result.usage⟩ = .ok true) := by
  have h2 : 2 ≤ pb.modes.length := inst.base.two
  have hlen : (List.replicate (pb.modes.length - 2) 1).length + 2 = pb.modes.length := by simp; omega
  have hlen' : (List.replicate (pb.modes.length - 2) pb.employees.keys).length + 2 = pb.modes.length := by simp; omega
  obtain ⟨r, hr⟩ := C92_never_raises (perm := List.range (pb.modes.length - 2)) (modes := List.replicate (pb.modes.length - 2) 1)
    (prio := List.replicate (pb.modes.length - 2) pb.employees.keys) inst (List.Perm.refl _) hlen hlen'
  have hE := (Rcpsp.extended_nodup (pb := pb.base) inst.base.two (List.Perm.refl (List.range (pb.modes.length - 2)))).1
  have hone : ∀ i, i < pb.modes.length → ∃ d, pb.modes.get? (i + 1) = some d ∧ 1 ∈ d.keys := fun i hi => by
    obtain ⟨d, g1, g2, _⟩ := inst.base.activities (i + 1) (by omega) (by show i + 1 ≤ pb.modes.length; omega)
    exact ⟨d, g1, g2⟩
  refine ⟨_, build_nested hlen' hr, ?_, fun hmult hconst hnonren hneeds hf => ?_⟩
  · obtain ⟨hl, hm⟩ := C92_modes inst.dicts hE hr
    have hl : r.ext.length = pb.modes.length := by rw [hl]; omega
    apply List.ext_getElem?
    intro i
    by_cases hi : i < pb.modes.length
    · have hone' : (1 :: List.replicate (pb.modes.length - 2) 1 ++ [1])[i]? = some 1 := by
        have : 1 :: List.replicate (pb.modes.length - 2) 1 ++ [1] = List.replicate pb.modes.length 1 := by
          rw [List.cons_append, ← List.replicate_succ', ← List.replicate_succ]
          congr 1; omega
        rw [this, List.getElem?_replicate, if_pos hi]
      obtain ⟨d, g1, g2⟩ := hm i 1 hone'
      simp only [g2, List.getElem?_replicate, if_pos hi]
      split <;> rfl
    · rw [List.getElem?_eq_none (by simp only []; omega), List.getElem?_eq_none (by simp; omega)]
  · refine C94_accepts_generated inst (List.Perm.refl _) hlen ?_ ?_ hmult hsink hconst hnonren hneeds hr hf
    · intro l hl
      rw [(List.mem_replicate.1 hl).2]
      exact ⟨inst.dicts.employees, fun _ h => h⟩
    · intro i k hk
      rw [List.getElem?_replicate] at hk
      split at hk <;> cases hk
      exact hone (i + 1) (by omega)

/-! ### Ranks in place of workers -/

theorem rank_eq {l : List Int} (hn : l.Nodup) {x : Int} (hx : x ∈ l) : rankIn l x = (l.filter (fun y => decide (y < x))).length + 1 := by
  have : (l.filter (fun y => decide (y = x))).length = 1 := by
    have h := List.count_eq_one_of_mem hn hx
    rw [List.count_eq_countP, List.countP_eq_length_filter] at h
    rw [← h]
    congr 1
  unfold rankIn
  rw [this]; omega

theorem rank_lt {l : List Int} (hn : l.Nodup) {x y : Int} (hx : x ∈ l) (hy : y ∈ l) : rankIn l x < rankIn l y ↔ x < y := by
  have key : ∀ {x y : Int}, x ∈ l → x < y → (l.filter (fun z => decide (z < x))).length < (l.filter (fun z => decide (z < y))).length := by
    intro x y hx h
    refine Mcts.filter_length_lt (fun z _ hz => ?_) hx (by simpa using h) (by simp)
    simp only [decide_eq_true_eq] at hz ⊢; omega
  rw [rank_eq hn hx, rank_eq hn hy]
  constructor
  · intro h
    by_contra hc
    rcases Int.lt_or_eq_of_le (Int.not_lt.1 hc) with h' | rfl
    · have := key hy h'; omega
    · omega
  · intro h
    have := key hx h; omega

theorem ranks_perm {l : List Int} (hn : l.Nodup) : (l.map (rankIn l)).Perm (List.range' 1 l.length) := by
  have hnd : (l.map (rankIn l)).Nodup := by
    refine List.Nodup.map_on (fun x hx y hy h => ?_) hn
    have h1 := rank_lt hn hx hy
    have h2 := rank_lt hn hy hx
    omega
  refine (List.subperm_of_subset hnd fun r hr => ?_).perm_of_length_le (by simp)
  obtain ⟨x, hx, rfl⟩ := List.mem_map.1 hr
  have hlt : (l.filter (fun y => decide (y < x))).length < l.length := by
    have := Mcts.filter_length_lt (l := l) (f := fun _ => true) (g := fun y => decide (y < x)) (fun _ _ _ => rfl) hx rfl (by simp)
    simpa using this
  rw [rank_eq hn hx, List.mem_range'_1]; omega

theorem slice_ok {vec : List Int} : ∀ (k s : Nat), s + k ≤ vec.length → slice vec s k = .ok ((vec.drop s).take k)
  | 0, s, _ => by simp [slice]
  | k + 1, s, h => by
    unfold slice
    rw [pyGet_of_lt (by omega), bind_ok, slice_ok k (s + 1) (by omega), bind_ok]
    rw [List.drop_eq_getElem_cons (i := s) (by omega), List.take_succ_cons]

theorem slice_short {vec : List Int} : ∀ (k s : Nat), 0 < k → vec.length < s + k → slice vec s k = .error .indexError
  | 0, s, h, _ => by omega
  | k + 1, s, _, h => by
    unfold slice
    by_cases hs : s < vec.length
    · rw [pyGet_of_lt hs, bind_ok, slice_short k (s + 1) (by omega) (by omega)]; rfl
    · have : pyGet vec s = .error .indexError := by unfold pyGet; rw [List.getElem?_eq_none (by omega)]
      rw [this]; rfl

theorem rankLists_ok {vec : List Int} {k : Nat} : ∀ (n i : Nat), (i + n) * k ≤ vec.length → ∃ ls, rankLists vec k i n = .ok ls ∧ ls.length = n ∧
    ∀ j < n, ls[j]? = some (((vec.drop ((i + j) * k)).take k).map (rankIn ((vec.drop ((i + j) * k)).take k)))
  | 0, i, _ => ⟨[], rfl, rfl, by simp⟩
  | n + 1, i, h => by
    obtain ⟨ls, h1, h2, h3⟩ := rankLists_ok n (i + 1) (by rw [Nat.add_right_comm]; exact h)
    have hle : i * k + k ≤ vec.length := by
      have : (i + 1) * k ≤ (i + (n + 1)) * k := Nat.mul_le_mul_right k (by omega)
      rw [Nat.add_mul, Nat.one_mul] at this; omega
    refine ⟨((vec.drop (i * k)).take k).map (rankIn ((vec.drop (i * k)).take k)) :: ls, ?_, ?_, ?_⟩
    · unfold rankLists
      rw [slice_ok k (i * k) hle, bind_ok, h1, bind_ok]
    · simp [h2]
    · intro j hj
      cases j with
      | zero => simp
      | succ j =>
        rw [List.getElem?_cons_succ, h3 j (by omega)]
        rw [show i + 1 + j = i + (j + 1) by omega]

theorem rankLists_short {vec : List Int} {k : Nat} (hk : 0 < k) : ∀ (n i : Nat), 0 < n → vec.length < (i + n) * k → rankLists vec k i n = .error .indexError
  | 0, i, h, _ => by omega
  | n + 1, i, _, h => by
    unfold rankLists
    by_cases hs : i * k + k ≤ vec.length
    · rw [slice_ok k _ hs, bind_ok]
      have hn : 0 < n := by
        rcases Nat.eq_zero_or_pos n with rfl | hn
        · rw [Nat.add_mul] at h; omega
        · exact hn
      rw [rankLists_short hk n (i + 1) hn (by rw [Nat.add_right_comm]; exact h)]; rfl
    · rw [slice_short k _ hk (by omega)]; rfl

/-- A vector without repeated values that has one value for each worker and inner activity: for every inner activity the list has the
numbers from 1 to the number of workers, in the order of the values. -/
theorem C97_ranks {vec : List Int} (hv : (pb.modes.length - 2) * pb.employees.length ≤ vec.length) (hn : vec.Nodup) :
    ∃ lists, fromPermutation pb vec = .ok lists ∧ lists.length = pb.modes.length - 2 ∧ ∀ (i : Nat) l, lists[i]? = some l →
      l.Perm (List.range' 1 pb.employees.length) ∧ ∀ (a b r s : Nat) (x y : Int), l[a]? = some r → l[b]? = some s →
        vec[i * pb.employees.length + a]? = some x → vec[i * pb.employees.length + b]? = some y → (r < s ↔ x < y) := by
  obtain ⟨ls, h1, h2, h3⟩ := rankLists_ok (vec := vec) (k := pb.employees.length) (pb.modes.length - 2) 0 (by simpa using hv)
  refine ⟨ls, h1, h2, fun i l hl => ?_⟩
  have hi : i < pb.modes.length - 2 := by have := (List.getElem?_eq_some_iff.1 hl).1; omega
  rw [h3 i hi, Option.some.injEq, Nat.zero_add] at hl
  subst hl
  have hlen : i * pb.employees.length + pb.employees.length ≤ vec.length := by
    have : (i + 1) * pb.employees.length ≤ (pb.modes.length - 2) * pb.employees.length := Nat.mul_le_mul_right _ (by omega)
    rw [Nat.add_mul, Nat.one_mul] at this; omega
  have hnd : ((vec.drop (i * pb.employees.length)).take pb.employees.length).Nodup :=
    hn.sublist ((List.take_sublist _ _).trans (List.drop_sublist _ _))
  constructor
  · have := ranks_perm hnd
    rwa [List.length_take, List.length_drop, Nat.min_eq_left (by omega)] at this
  · intro a b r s x y ha hb hx hy
    simp only [List.getElem?_map, Option.map_eq_some_iff] at ha hb
    obtain ⟨x', hx', rfl⟩ := ha
    obtain ⟨y', hy', rfl⟩ := hb
    have e1 := List.mem_of_getElem? hx'
    have e2 := List.mem_of_getElem? hy'
    rw [rank_lt hnd e1 e2]
    rw [List.getElem?_take] at hx' hy'
    split at hx' <;> [skip; cases hx']
    split at hy' <;> [skip; cases hy']
    rw [List.getElem?_drop, hx, Option.some.injEq] at hx'
    rw [List.getElem?_drop, hy, Option.some.injEq] at hy'
    rw [hx', hy']

/-- So every list names every worker when the workers are numbered from 1 to their number. -/
theorem C97_ranks_full {vec : List Int} (hv : (pb.modes.length - 2) * pb.employees.length ≤ vec.length) (hn : vec.Nodup)
    (hids : pb.employees.keys.Perm (List.range' 1 pb.employees.length)) :
    ∃ lists, fromPermutation pb vec = .ok lists ∧ lists.length = pb.modes.length - 2 ∧ ∀ l ∈ lists, l.Perm pb.employees.keys := by
  obtain ⟨ls, h1, h2, h3⟩ := C97_ranks hv hn
  refine ⟨ls, h1, h2, fun l hl => ?_⟩
  obtain ⟨i, hi⟩ := List.getElem?_of_mem hl
  exact (h3 i l hi).1.trans hids.symm

/-- A vector that is too short raises `IndexError`. -/
theorem C97_short_raises {vec : List Int} (hn : 2 < pb.modes.length) (hk : pb.employees ≠ [])
    (hv : vec.length < (pb.modes.length - 2) * pb.employees.length) : fromPermutation pb vec = .error .indexError :=
  rankLists_short (List.length_pos_iff.2 hk) _ 0 (by omega) (by simpa using hv)

/-! ### Fixed attributes and evaluation of vectors -/

theorem build_eq {modes : Option (List Nat)} {from0 : Option (List Int)} {perm : Option (List Nat)} {prio : Option PrioArg}
    (h : build pb fx modes from0 perm prio = .ok v) : sgs pb v.perm v.modes (v.prio.getD []) = .ok v.result := by
  unfold build at h
  obtain ⟨pr, _, h⟩ := bind_eq_ok.1 h
  obtain ⟨mv, _, h⟩ := bind_eq_ok.1 h
  obtain ⟨p, _, h⟩ := bind_eq_ok.1 h
  obtain ⟨r, hr, h⟩ := bind_eq_ok.1 h
  cases h
  exact hr

/-- Fixing the modes, the order and the workers of a solution and evaluating its own vectors gives its own makespan. -/
theorem C97_fixed {modes : Option (List Nat)} {from0 : Option (List Int)} {perm : Option (List Nat)} {prio : Option PrioArg} {fx0 : Fixed}
    (h : build pb fx0 modes from0 perm prio = .ok v) {l : List (List Nat)} (hl : v.prio = some l) (hlen : l.length + 2 = pb.modes.length)
    {em ew : String} (hem : em = "modes_vector" ∨ em = "modes_arrity_fix") (hew : ew = "priority_worker_per_task" ∨ ew = "priority_worker_per_task_perm") :
    ∃ fx1 fx2 fx3, setFixed fx em v = .ok fx1 ∧ setFixed fx1 ew v = .ok fx2 ∧ setFixed fx2 "priority_list_task" v = .ok fx3 ∧
      evaluateFrom pb fx3 v.perm "priority_list_task" = makespan pb v.result.schedule ∧
      evaluateFrom pb fx3 v.modes "modes_vector" = makespan pb v.result.schedule ∧
      ((∀ k ∈ v.modes, 1 ≤ k) → evaluateFrom pb fx3 (v.modes.map (· - 1)) "modes_vector_from0" = makespan pb v.result.schedule) := by
  have hr := build_eq h
  rw [hl] at hr
  refine ⟨{ fx with modes := some v.modes }, { fx with modes := some v.modes, prio := some l }, ⟨some v.modes, some v.perm, some l⟩, ?_, ?_, rfl, ?_, ?_, ?_⟩
  · rcases hem with rfl | rfl <;> rfl
  · rcases hew with rfl | rfl <;> (rw [← hl]; rfl)
  · show (build pb _ (some v.modes) none (some v.perm) (some (.nested l)) >>= _) = _
    rw [build_nested hlen hr]; rfl
  · show (build pb _ (some v.modes) none (some v.perm) (some (.nested l)) >>= _) = _
    rw [build_nested hlen hr]; rfl
  · intro hk
    have e : (v.modes.map (· - 1)).map (· + 1) = v.modes := by
      rw [List.map_map]
      conv => rhs; rw [← List.map_id v.modes]
      refine List.map_congr_left fun k hk' => ?_
      have := hk k hk'
      simp only [Function.comp, id]; omega
    show (build pb _ (some ((v.modes.map (· - 1)).map (· + 1))) none (some v.perm) (some (.nested l)) >>= _) = _
    rw [e, build_nested hlen hr]; rfl

/-- Evaluating an order on fixed modes and workers: the makespan of the schedule generated from them. -/
theorem C97_evaluate {modes perm : List Nat} {l : List (List Nat)} {pm : Option (List Nat)} (hlen : l.length + 2 = pb.modes.length) :
    evaluateFrom pb ⟨some modes, pm, some l⟩ perm "priority_list_task" = (do
      let r ← sgs pb perm modes l
      makespan pb r.schedule) := by
  show (build pb _ (some modes) none (some perm) (some (.nested l)) >>= _) = _
  cases h : sgs pb perm modes l with
  | ok r => rw [build_nested hlen h]; rfl
  | error e =>
    unfold build
    rw [prioArg_nested hlen, bind_ok]
    simp only [fillModes, bind_ok, fillPerm]
    show ((sgs pb perm modes l >>= _) >>= _) = _
    rw [h]; rfl

/-- The makespan of a complete schedule is the end of the last activity, as long after its start as its mode says; its predecessors end
before that start. -/
theorem C97_makespan {perm modes : List Nat} {prio : List (List Nat)} {r : Result} (hd : Dicts pb) (hsink : pb.sink = pb.modes.length)
    (hE : (1 :: perm.map (· + 2) ++ [pb.modes.length]).Nodup) (hsucc : pb.successors.keys.Nodup) (h : sgs pb perm modes prio = .ok r)
    (hf : r.feasible = true) :
    ∃ s e m, makespan pb r.schedule = .ok e ∧ (pb.sink, (s, e)) ∈ r.schedule ∧ ChosenMode pb r.ext pb.sink m ∧ e = s + m.duration ∧
      ∀ a ss, (a, ss) ∈ pb.successors → pb.sink ∈ ss → ∀ sa ea, (a, (sa, ea)) ∈ r.schedule → ea ≤ s := by
  obtain ⟨hn, hk⟩ := C92_activities hd hE h hf
  have hs : pb.sink ∈ r.schedule.keys := (hk _).2 (.inr (.inr hsink))
  obtain ⟨⟨s, e⟩, hg⟩ := Option.isSome_iff_exists.1 ((Dict.get?_isSome_iff_mem_keys _ _).2 hs)
  have hm := Dict.mem_of_get? hg
  obtain ⟨m, h1, h2, _⟩ := C92_durations hd hE h hf _ _ _ hm
  refine ⟨s, e, m, ?_, hm, h1, h2, fun a ss ha hb sa ea hsa => C92_precedence hd hE hsucc h hf a ss _ ha hb _ _ _ _ hsa hm⟩
  unfold makespan
  show (Dict.get r.schedule pb.sink >>= _) = _
  rw [show Dict.get r.schedule pb.sink = .ok (s, e) by unfold Dict.get; rw [hg]]; rfl

/-- Modes counted from 0 stand for the next mode: the solution built from them is the one built from the modes counted from 1. -/
theorem C97_from0 (modes : List Nat) (perm : Option (List Nat)) (prio : Option PrioArg) :
    build pb fx none (some (modes.map (fun k : Nat => (k : Int) - 1))) perm prio = build pb fx (some modes) none perm prio := by
  have : (modes.map (fun k : Nat => (k : Int) - 1)).map (fun x => (x + 1).toNat) = modes := by
    rw [List.map_map]
    conv_rhs => rw [← List.map_id modes]
    refine List.map_congr_left fun a _ => ?_
    simp
  unfold build fillModes
  simp only [this]

example : (build demo ⟨none, none, none⟩ none (some [0, 0]) (some [0, 1]) (some (.nested [[5, 8], [5, 8]]))).toOption.map (·.modes) = some [1, 1] := by
  decide +kernel

/-- The other registered encodings cannot be evaluated; and the encoding for modes counted from 0 that can be evaluated is not registered. -/
theorem C97_unhandled_refuted (pb : Problem) (fx : Fixed) (vec : List Nat) (v : Variant) :
    (∀ e ∈ ["modes_arrity_fix", "modes_arrity_fix_from_0", "priority_worker_per_task_perm", "schedule", "employee_usage"],
      e ∈ register.map Prod.fst ∧ evaluateFrom pb fx vec e = .error .nameError) ∧
    setFixed fx "modes_vector_from0" v = .error .keyError := by
  refine ⟨fun e he => ?_, rfl⟩
  simp only [List.mem_cons, List.not_mem_nil, or_false] at he
  rcases he with rfl | rfl | rfl | rfl | rfl <;> exact ⟨by decide, rfl⟩

/-- Nothing can be evaluated before the order and the modes are fixed. -/
theorem C97_unfixed_raises (pb : Problem) (fx : Fixed) (vec : List Nat) (l : List (List Nat)) (hlen : l.length + 2 = pb.modes.length) :
    evaluateFrom pb ⟨none, fx.perm, some l⟩ vec "priority_list_task" = .error .typeError ∧
    evaluateFrom pb ⟨fx.modes, none, some l⟩ vec "modes_vector" = .error .typeError := by
  constructor
  · show (build pb ⟨none, fx.perm, some l⟩ none none (some vec) (some (.nested l)) >>= _) = _
    unfold build
    rw [prioArg_nested hlen]; rfl
  · show (build pb ⟨fx.modes, none, some l⟩ (some vec) none none (some (.nested l)) >>= _) = _
    unfold build
    rw [prioArg_nested hlen]; rfl

/-! ### Copies of the problem -/

/-- A copy of the problem, and the problem on which encodings are evaluated, equal the problem exactly when there is no limit of one worker
per activity, the first activity has the least number and the last the greatest. -/
theorem C97_copy (hne : pb.modes ≠ []) :
    ∃ pb', rebuilt pb = .ok pb' ∧ toVariantModel pb = .ok pb' ∧ (pb' = pb ↔ pb.oneUnit = false ∧
      (pb.source ∈ pb.modes.keys ∧ ∀ a ∈ pb.modes.keys, pb.source ≤ a) ∧ (pb.sink ∈ pb.modes.keys ∧ ∀ a ∈ pb.modes.keys, a ≤ pb.sink)) := by
  have hk : pb.modes.keys ≠ [] := by
    intro h; apply hne; exact List.map_eq_nil_iff.1 h
  obtain ⟨hi, h1⟩ := Option.ne_none_iff_exists'.1 (fun h => hk (List.max?_eq_none_iff.1 h))
  obtain ⟨lo, h2⟩ := Option.ne_none_iff_exists'.1 (fun h => hk (List.min?_eq_none_iff.1 h))
  refine ⟨{ pb with sink := hi, source := lo, oneUnit := false }, ?_, ?_, ?_⟩
  · unfold rebuilt; rw [h1, h2]
  · unfold toVariantModel rebuilt; rw [h1, h2]
  · rw [List.max?_eq_some_iff] at h1
    rw [List.min?_eq_some_iff] at h2
    constructor
    · intro h
      rw [← h]
      exact ⟨rfl, ⟨h2.1, h2.2⟩, h1.1, h1.2⟩
    · rintro ⟨e1, ⟨e2, e3⟩, e4, e5⟩
      have a1 : hi = pb.sink := Nat.le_antisymm (e5 hi h1.1) (h1.2 _ e4)
      have a2 : lo = pb.source := Nat.le_antisymm (h2.2 _ e2) (e3 lo h2.1)
      rw [a1, a2, ← e1]

/-! ### Examples and what is not true -/

/-- Worker 5 is away at time 0. -/
def away : Problem :=
  { demo with
    employees := [(5, ⟨[("weld", 1)], [false, true, true, true, true, true, true, true, true, true]⟩),
      (8, ⟨[("weld", 1), ("paint", 1)], List.replicate 10 true⟩)]
    modes := [(1, [(1, ⟨0, [("machine", 0)]⟩)]), (2, [(1, ⟨2, [("machine", 0), ("weld", 1)]⟩)]),
      (3, [(1, ⟨4, [("machine", 0), ("paint", 1)]⟩)]), (4, [(1, ⟨0, [("machine", 0)]⟩)])] }

/-- Worker 5 welds, worker 8 paints, both from time 1 on. -/
def awaySol : Solution where
  modes := [(1, 1), (2, 1), (3, 1), (4, 1)]
  schedule := [(1, (0, 0)), (3, (1, 5)), (2, (1, 3)), (4, (5, 5))]
  usage := [(2, [(5, ["weld"])]), (3, [(8, ["paint"])])]

/-- A solution of the example with both workers. -/
def demoSol : Solution where
  modes := [(1, 1), (2, 1), (3, 1), (4, 1)]
  schedule := [(1, (0, 0)), (2, (0, 2)), (3, (4, 5)), (4, (5, 5))]
  usage := [(2, [(8, ["weld"]), (5, ["weld"])]), (3, [(8, ["paint"])])]

theorem demoSol_recorded : Recorded demo demoSol := by
  refine ⟨by decide, fun a h1 h2 => ?_, fun a us h => ?_⟩
  · have : a = 2 ∨ a = 3 := by have : a < 4 := h2; omega
    rcases this with rfl | rfl <;> exact ⟨_, rfl⟩
  · simp only [demoSol, Dict.get?] at h
    split at h
    · cases h; decide
    · split at h
      · cases h; decide
      · cases h

example : ∃ v lists, toVariant demo ⟨none, none, none⟩ demoSol = .ok v ∧ v.prio = some lists ∧ ∀ (i : Nat) l, lists[i]? = some l → l.Perm [5, 8] := by
  obtain ⟨v, lists, h1, h2, _, _, _, _, _, _, h3⟩ := C97_encoding (fx := ⟨none, none, none⟩) demo_instance rfl rfl demoSol_recorded
  exact ⟨v, lists, h1, h2, fun i l h => (h3 i l h).1⟩

theorem awaySol_recorded : Recorded away awaySol := by
  refine ⟨by decide, fun a h1 h2 => ?_, fun a us h => ?_⟩
  · have : a = 2 ∨ a = 3 := by have : a < 4 := h2; omega
    rcases this with rfl | rfl <;> exact ⟨_, rfl⟩
  · simp only [awaySol, Dict.get?] at h
    split at h
    · cases h; decide
    · split at h
      · cases h; decide
      · cases h

/-- The encoding of the solution: the painting comes first in the dictionary, so it keeps its place before the welding. -/
example : toVariant away ⟨none, none, none⟩ awaySol = .ok ⟨[1, 0], [1, 1], [0, 0], some [[5, 8], [8, 5]],
    ⟨[(1, (0, 0)), (3, (0, 4)), (2, (1, 3)), (4, (4, 4))], [1, 1, 1, 1], [(3, [(8, ["paint"])]), (2, [(5, ["weld"])])],
      [(1, 1), (2, 1), (3, 1), (4, 1)], true⟩⟩ := by decide +kernel

/-- The same solution with the dictionary in the order of the activities. -/
def awaySol' : Solution := { awaySol with schedule := [(1, (0, 0)), (2, (1, 3)), (3, (1, 5)), (4, (5, 5))] }

/-- Generating the schedule anew can make an accepted solution longer: the welding goes to worker 8 at time 0, and the painting waits. -/
theorem C97_longer_refuted : satisfy away awaySol' = .ok true ∧ makespan away awaySol'.schedule = .ok 5 ∧
    ∃ v, toVariant away ⟨none, none, none⟩ awaySol' = .ok v ∧ v.result.feasible = true ∧ makespan away v.result.schedule = .ok 6 := by
  refine ⟨by decide +kernel, rfl, ⟨[0, 1], [1, 1], [0, 0], some [[5, 8], [8, 5]],
    ⟨[(1, (0, 0)), (2, (0, 2)), (3, (2, 6)), (4, (6, 6))], [1, 1, 1, 1], [(2, [(8, ["weld"])]), (3, [(8, ["paint"])])],
      [(1, 1), (2, 1), (3, 1), (4, 1)], true⟩⟩, by decide +kernel, rfl, rfl⟩

/-- Ties go to the order of the dictionary; an accepted schedule that ends at the horizon cannot be generated anew. -/
theorem C97_lost_refuted : satisfy (tight 1) ⟨[(1, 1), (2, 1), (3, 1)], [(1, (0, 0)), (2, (0, 3)), (3, (3, 3))], []⟩ = .ok true ∧
    ∃ v, toVariant (tight 1) ⟨none, none, none⟩ ⟨[(1, 1), (2, 1), (3, 1)], [(1, (0, 0)), (2, (0, 3)), (3, (3, 3))], []⟩ = .ok v ∧
      v.result.feasible = false := by
  refine ⟨by decide +kernel, ⟨[0], [1], [0], some [[5, 8]], ⟨[(1, (0, 0)), (3, (99999999, 9999999))], [1, 1, 1], [], [(1, 1), (2, 1), (3, 1)], false⟩⟩, by decide +kernel, rfl⟩

/-- Ranks: the second worker comes first for the first activity. -/
example : fromPermutation demo [7, 3, 1, 5] = .ok [[2, 1], [1, 2]] := by decide

/-- Equal values give the same worker twice. -/
example : fromPermutation demo [7, 7, 1, 5] = .ok [[1, 1], [1, 2]] := by decide

/-- With workers 1 and 2 every list names both. -/
example : ∃ lists, fromPermutation { demo with employees := [(2, ⟨[("weld", 1)], []⟩), (1, ⟨[("paint", 1)], []⟩)] } [7, 3, 1, 5] = .ok lists ∧
    lists.length = 2 ∧ ∀ l ∈ lists, l.Perm [2, 1] :=
  C97_ranks_full (by decide) (by decide) (by decide)

theorem rank_two (x y : Int) : [x, y].map (rankIn [x, y]) = [1, 2] ∨ [x, y].map (rankIn [x, y]) = [2, 1] ∨ [x, y].map (rankIn [x, y]) = [1, 1] := by
  rcases Int.lt_trichotomy x y with h | rfl | h
  · left
    simp [rankIn, h, show ¬ y < x by omega, show ¬ x = y by omega, show ¬ y = x by omega]
  · right; right; simp [rankIn]
  · right; left
    simp [rankIn, h, show ¬ x < y by omega, show ¬ x = y by omega, show ¬ y = x by omega]

/-- In a project whose workers have other numbers (5 and 8) nobody is assigned to anything, whatever the vector; yet the schedule counts as
complete. -/
theorem C97_strangers_refuted (a b c d : Nat) :
    ∃ v, fromEncoding demo ⟨some [1, 1], some [0, 1], none⟩ [a, b, c, d] "priority_worker_per_task" = .ok v ∧
      v.result.feasible = true ∧ v.result.usage = [] ∧ makespan demo v.result.schedule = .ok 2 := by
  have key : ∀ l1 ∈ ([[1, 2], [2, 1], [1, 1]] : List (List Nat)), ∀ l2 ∈ ([[1, 2], [2, 1], [1, 1]] : List (List Nat)),
      sgs demo [0, 1] [1, 1] [l1, l2] = .ok ⟨[(1, (0, 0)), (2, (0, 2)), (3, (0, 1)), (4, (2, 2))], [1, 1, 1, 1], [], [(1, 1), (2, 1), (3, 1), (4, 1)], true⟩ := by
    decide +kernel
  have e : fromPermutation demo ([a, b, c, d].map (fun x : Nat => (x : Int))) =
      .ok [[(a : Int), b].map (rankIn [(a : Int), b]), [(c : Int), d].map (rankIn [(c : Int), d])] := rfl
  have h := key _ (by have := rank_two a b; simp only [List.mem_cons, List.not_mem_nil, or_false]; exact this) _
    (by have := rank_two c d; simp only [List.mem_cons, List.not_mem_nil, or_false]; exact this)
  refine ⟨⟨[0, 1], [1, 1], [0, 0], some [[(a : Int), b].map (rankIn [(a : Int), b]), [(c : Int), d].map (rankIn [(c : Int), d])],
    ⟨[(1, (0, 0)), (2, (0, 2)), (3, (0, 1)), (4, (2, 2))], [1, 1, 1, 1], [], [(1, 1), (2, 1), (3, 1), (4, 1)], true⟩⟩, ?_, rfl, rfl, rfl⟩
  show (fromPermutation demo ([a, b, c, d].map (fun x : Nat => (x : Int))) >>= _) = _
  rw [e, bind_ok]
  exact build_nested (fx := ⟨some [1, 1], some [0, 1], none⟩) rfl h

/-- The welding is much slower in its second mode. -/
def slow : Problem :=
  { demo with
    modes := [(1, [(1, ⟨0, [("machine", 0)]⟩)]), (2, [(1, ⟨2, [("machine", 1), ("weld", 2)]⟩), (2, ⟨5, [("machine", 1), ("weld", 1)]⟩)]),
      (3, [(1, ⟨1, [("machine", 0), ("paint", 1)]⟩)]), (4, [(1, ⟨0, [("machine", 0)]⟩)])] }

/-- Fixing the modes counted from 0 fixes the next modes: the order of the solution gets another makespan than the solution has. -/
theorem C97_from0_refuted : ∃ v fx, dummy slow ⟨none, some [0, 1], some [[5, 8], [5, 8]]⟩ = .ok v ∧ makespan slow v.result.schedule = .ok 3 ∧
    setFixed ⟨none, some [0, 1], some [[5, 8], [5, 8]]⟩ "modes_arrity_fix_from_0" v = .ok fx ∧
    fx.modes = some [2, 2] ∧ evaluateFrom slow fx v.perm "priority_list_task" = .ok 5 := by
  refine ⟨⟨[0, 1], [1, 1], [0, 0], some [[5, 8], [5, 8]], ⟨[(1, (0, 0)), (2, (0, 2)), (3, (2, 3)), (4, (3, 3))], [1, 1, 1, 1],
    [(2, [(5, ["weld"]), (8, ["weld"])]), (3, [(8, ["paint"])])], [(1, 1), (2, 1), (3, 1), (4, 1)], true⟩⟩,
    ⟨some [2, 2], some [0, 1], some [[5, 8], [5, 8]]⟩, by decide +kernel, rfl, rfl, rfl, by decide +kernel⟩

/-- The limit of one worker per activity is lost: two workers are assigned to the welding.  With the limit, no order and no lists give a
complete schedule in these modes. -/
theorem C97_limit_lost_refuted : ∃ pb' r, toVariantModel { demo with oneUnit := true } = .ok pb' ∧
    sgs pb' [0, 1] [1, 1] [[5, 8], [5, 8]] = .ok r ∧ r.feasible = true ∧ r.usage.get? 2 = some [(5, ["weld"]), (8, ["weld"])] ∧
    ∀ perm ∈ [[0, 1], [1, 0]], ∀ l1 ∈ ([[5, 8], [8, 5]] : List (List Nat)), ∀ l2 ∈ ([[5, 8], [8, 5]] : List (List Nat)),
      (sgs { demo with oneUnit := true } perm [1, 1] [l1, l2]).map Result.feasible = .ok false := by
  refine ⟨demo, ⟨[(1, (0, 0)), (2, (0, 2)), (3, (2, 3)), (4, (3, 3))], [1, 1, 1, 1],
    [(2, [(5, ["weld"]), (8, ["weld"])]), (3, [(8, ["paint"])])], [(1, 1), (2, 1), (3, 1), (4, 1)], true⟩, rfl, by decide +kernel, rfl, rfl, by decide +kernel⟩

/-- The conditions of the claims hold together: the first solution of the example. -/
example : ∃ v, dummy demo ⟨none, none, none⟩ = .ok v ∧ v.result.ext = [1, 1, 1, 1] :=
  (C97_dummy (fx := ⟨none, none, none⟩) demo_instance rfl).imp fun _ h => ⟨h.1, h.2.1⟩

end Verif.MultiSkill
