import Verif.Lemmas.BindingPlan
import Verif.Lemmas.RcpspInside
import Verif.Lemmas.SchedKeys
import Verif.Props.Replay

/-! From a generated schedule to the run of the domain and back to a solution. -/
namespace Verif.Binding
open Verif.Rcpsp (Problem Capacity capOf load total runsAt NeedTable Instance extended sgs Result)
open Verif.Sched (sadd Dom Policy Plan needOf Ordinary HasMode ConstantModes)

/-- Tasks of no duration need nothing. -/
def ZeroIdle (P : Project) : Prop := ∀ x k d, P.need? x k = some d → P.dur? x k = some 0 → ∀ r n, d.get? r = some n → n = 0

/-- A schedule reported as feasible is a feasible plan of the domain. -/
theorem generated_feasible {pb : Problem} {P : Project} {num : String → Nat} {cap : Nat → Int} (hc : Complete P) (ha : Agree pb P)
    (hi : Instance pb) (hnum : ∀ r ∈ P.resources, ∀ r' ∈ P.resources, num r = num r' → r = r')
    (hcap : ∀ r ∈ P.resources, P.avail.get? r = some (cap (num r))) (hz : ZeroIdle P)
    {perm modes : List Nat} {r : Result} (hp : perm.Perm (List.range (P.tasks.length - 2))) (hm : modes.length + 2 = P.tasks.length)
    (h : sgs pb perm modes = .ok r) (hf : r.feasible = true) :
    ∃ mid, r.ext = 1 :: mid ++ [1] ∧ Whole P mid r.schedule ∧ (planOf mid r.schedule).Feasible (P.dom num) cap ∧
      ∀ x ∈ P.tasks, ∃ d : Nat, P.dur? x ((planOf mid r.schedule).mode x) = some d ∧ (planOf mid r.schedule).dur x = d := by
  rw [← ha.size] at hp hm
  obtain ⟨hE, hmemE⟩ := Rcpsp.extended_nodup hi.two hp
  obtain ⟨st, _, hext, _, _⟩ := Rcpsp.sgs_inv hE hi.resources h
  obtain ⟨mid, hmid⟩ := Rcpsp.ext_ends hext
  obtain ⟨hnd, hkeys⟩ := Rcpsp.C26_activities hE hi.resources h hf
  have hkeys : ∀ a, a ∈ r.schedule.keys ↔ 1 ≤ a ∧ a ≤ pb.modes.length := by
    intro a
    rw [hkeys, ← hmemE]
    simp only [extended, List.cons_append, List.mem_cons, List.mem_append, List.mem_map, List.not_mem_nil, or_false, Problem.sink]
    grind
  have hmidlen : mid.length = modes.length := by
    have := (Rcpsp.C26_modes h).1
    rw [hmid] at this; simp at this; omega
  have hdur := Rcpsp.C26_durations hE hi.resources h hf
  have hmode : ∀ x k, r.ext[x - 1]? = some k → (1 :: mid ++ [1]).getD (x - 1) 1 = k := by
    intro x k hk
    rw [hmid] at hk
    simp only [List.getD, hk, Option.getD_some]
  have hstep : ∀ x s e, r.schedule.get? x = some (s, e) → ∃ m : Rcpsp.Mode, mode? pb x ((1 :: mid ++ [1]).getD (x - 1) 1) = some m ∧ 0 ≤ s ∧ e = s + m.duration := by
    intro x s e hse
    obtain ⟨d, k, m, g1, g2, g3, g4, g5⟩ := hdur x s e (Dict.mem_of_get? hse)
    refine ⟨m, ?_, g4, g5⟩
    unfold mode?
    rw [hmode x k g2, g1]
    exact g3
  have hkt : ∀ x, x ∈ r.schedule.keys ↔ x ∈ P.tasks := by
    intro x; rw [hkeys, hc.numbered, ha.size]
  have hw : Whole P mid r.schedule := by
    refine ⟨by rw [← ha.size]; omega, hnd, hkt, ?_, ?_⟩
    · intro x s e hse
      obtain ⟨m, _, g1, g2⟩ := hstep x s e hse
      omega
    · intro x hx
      obtain ⟨q, hq⟩ := Option.isSome_iff_exists.1 ((Dict.get?_isSome_iff_mem_keys _ _).2 ((hkt x).2 hx))
      obtain ⟨m, g, _⟩ := hstep x q.1 q.2 hq
      exact ⟨_, by rw [ha.modes, g, Option.map_some]⟩
  have hperm : r.schedule.keys.Perm P.tasks := (List.perm_ext_iff_of_nodup hnd hc.tasks).2 hkt
  have hrget : ∀ r ∈ P.resources, pb.resources.get? r = some (.const (cap (num r))) := by
    intro r hr
    obtain ⟨c, hcr⟩ := Option.isSome_iff_exists.1 ((Dict.get?_isSome_iff_mem_keys _ _).2 (show r ∈ pb.resources.keys by rw [ha.resources]; exact hr))
    obtain ⟨v, rfl, hv⟩ := ha.caps r c hcr
    rw [hcap r hr] at hv
    cases hv
    exact hcr
  have hcap0 : ∀ r ∈ P.resources, 0 ≤ cap (num r) := by
    intro r hr
    obtain ⟨c, h1, h2⟩ := hc.caps r hr
    rw [hcap r hr] at h1
    cases h1; exact h2
  have hneed : ∀ res ∈ P.resources, ∀ a d k m n, pb.modes.get? a = some d → r.ext[a - 1]? = some k →
      d.get? k = some m → m.needs.get? res = some n → planNeed P mid res a = n := by
    intro res hres a d k m n g1 g2 g3 g4
    unfold planNeed
    rw [hmode a k g2, ha.modes]
    unfold mode?
    rw [g1, Option.bind_some, g3, Option.map_some, Option.bind_some,
      get?_filterk (fun s => decide (s ∈ P.resources)) _ (decide_eq_true hres), g4]
    rfl
  refine ⟨mid, hmid, hw, (feasible_char hc ha hi hnum hw).2 ⟨?_, ?_, ?_⟩, ?_⟩
  · intro res hres hnr t
    rw [show load (planNeed P mid res) r.schedule t P.tasks = load (planNeed P mid res) r.schedule t r.schedule.keys from
      (perm_sum ((hperm.filter _).map _)).symm]
    by_cases ht : t < 0
    · have : r.schedule.keys.filter (runsAt r.schedule t) = [] := by
        rw [List.filter_eq_nil_iff]
        intro x hx
        obtain ⟨s, e, hse⟩ := hw.get ((hkt x).1 hx)
        have h1 := hw.times x s e hse
        simp only [runsAt, hse, decide_eq_true_eq, not_and]
        omega
      simp only [load, total, this, List.map_nil, List.sum_nil]
      exact hcap0 res hres
    · have := Rcpsp.C26_renewable hE hi.resources h hf (hrget res hres) (fun t c e => by cases e; exact hcap0 res hres) hnr
        (hneed res hres) t.toNat _ rfl
      rw [show ((t.toNat : Nat) : Int) = t by omega] at this
      exact this
  · intro res hres hnr
    rw [show total (planNeed P mid res) P.tasks = total (planNeed P mid res) r.schedule.keys from (perm_sum (hperm.map _)).symm]
    refine Int.le_trans ?_ (Rcpsp.C26_nonrenewable_partial hE hi.resources h hf (hrget res hres) (fun t c e => by cases e; exact hcap0 res hres) hnr
        (hneed res hres) _ rfl)
    have := Rcpsp.total_filter_le (need := planNeed P mid res) (fun _ => true) (Rcpsp.takesTime r.schedule) r.schedule.keys
      (fun a _ => planNeed_nonneg hc hres a) (by
        intro a hak _
        obtain ⟨s, e, hse⟩ := hw.get ((hkt a).1 hak)
        obtain ⟨m, g1, g2, g3⟩ := hstep a s e hse
        by_cases hd : m.duration = 0
        · right
          unfold planNeed
          obtain ⟨d, hd'⟩ := hw.modes a ((hkt a).1 hak)
          rw [hd', Option.bind_some]
          cases hn : d.get? res with
          | none => rfl
          | some n =>
            have := hz a _ d hd' (by rw [ha.durations a _ m g1, hd]) res n hn
            exact this
        · left
          simp only [Rcpsp.takesTime, hse, decide_eq_true_eq]
          omega)
    simpa using this
  · intro a ss hss b hb
    have hat : a ∈ P.tasks := (ha.succKeys a).1 (List.mem_map.2 ⟨_, hss, rfl⟩)
    have hbt : b ∈ P.tasks := by
      rw [hc.numbered, ← ha.size]
      exact hi.successors.2.2 a ss hss b hb
    obtain ⟨sa, ea, hsa⟩ := hw.get hat
    obtain ⟨sb, eb, hsb⟩ := hw.get hbt
    exact ⟨sa, ea, sb, eb, hsa, hsb, Rcpsp.C26_precedence hE hi.resources hi.successors.1 h hf a ss b hss hb sa ea sb eb
      (Dict.mem_of_get? hsa) (Dict.mem_of_get? hsb)⟩
  · intro x hx
    obtain ⟨s, e, hse⟩ := hw.get hx
    obtain ⟨m, g1, g2, g3⟩ := hstep x s e hse
    refine ⟨m.duration, ha.durations x _ m g1, ?_⟩
    rw [(planOf_get hse).2.2]; omega

/-! ### The policy -/

theorem modesFold_get : ∀ (l : List Nat) (i : Nat) (acc : Dict Nat Nat) (x : Nat),
    ((l.zipIdx i).foldl (fun (d : Dict Nat Nat) e => d.set (e.2 + 2) e.1) acc).get? x =
      if i + 2 ≤ x ∧ x < i + 2 + l.length then l[x - 2 - i]? else acc.get? x := by
  intro l
  induction l with
  | nil =>
    intro i acc x
    rw [if_neg (by simp only [List.length_nil]; omega)]; rfl
  | cons y l ih =>
    intro i acc x
    rw [List.zipIdx_cons, List.foldl_cons, ih]
    simp only [List.length_cons]
    by_cases h1 : i + 2 = x
    · rw [if_neg (by omega), if_pos (by omega), show x - 2 - i = 0 by omega, ← h1, Dict.get?_set_self]
      rfl
    · by_cases h2 : i + 1 + 2 ≤ x ∧ x < i + 1 + 2 + l.length
      · rw [if_pos h2, if_pos (by omega), show x - 2 - i = (x - 2 - (i + 1)) + 1 by omega, List.getElem?_cons_succ]
      · rw [if_neg h2, if_neg (by omega), Dict.get?_set_ne _ _ (fun e => h1 (by omega))]

/-- The policy's modes are those of the solution; the first and the last task are in mode 1. -/
theorem modesPolicy_get {n x : Nat} {modes : List Nat} (hn : modes.length + 2 = n) (h1 : 1 ≤ x) (h2 : x ≤ n) :
    (modesPolicy n modes).get? x = some ((1 :: modes ++ [1]).getD (x - 1) 1) := by
  unfold modesPolicy
  have := modesFold_get modes 0 (Dict.set [(1, 1)] n 1) x
  simp only [Nat.zero_add, Nat.sub_zero] at this
  rw [show modes.zipIdx = modes.zipIdx 0 from rfl, this]
  by_cases hx : 2 ≤ x ∧ x < 2 + modes.length
  · rw [if_pos hx]
    have e : (1 :: modes ++ [1])[x - 1]? = modes[x - 2]? := by
      rw [show x - 1 = (x - 2) + 1 by omega, List.cons_append, List.getElem?_cons_succ, List.getElem?_append_left (by omega)]
    simp only [List.getD, e]
    rw [List.getElem?_eq_getElem (by omega)]; rfl
  · rw [if_neg hx]
    by_cases hx1 : x = 1
    · subst hx1
      rw [Dict.get?_set_ne _ _ (by omega)]; rfl
    · have : x = n := by omega
      subst this
      rw [Dict.get?_set_self]
      simp only [List.getD]
      rw [List.getElem?_append_right (by simp; omega), show x - 1 - (1 :: modes).length = 0 by simp; omega]
      rfl

/-! ### Back to a solution -/

theorem sortedIds_tasks {P : Project} (hc : Complete P) : sortedIds P.tasks = List.range' 1 P.tasks.length := by
  unfold sortedIds
  have hperm : P.tasks.Perm (List.range' 1 P.tasks.length) := by
    rw [List.perm_ext_iff_of_nodup hc.tasks List.nodup_range']
    intro x
    rw [hc.numbered, List.mem_range'_1]; omega
  apply List.Perm.eq_of_pairwise (le := fun a b : Nat => (a : Int) ≤ (b : Int))
  · intro a b _ _ h1 h2; omega
  · exact sortBy_sorted _ _
  · exact (List.pairwise_lt_range' (s := 1) (n := P.tasks.length)).imp fun h => by omega
  · exact (sortBy_perm _ _).trans hperm

theorem modes_back {P : Project} (hc : Complete P) {mid : List Nat} (hm : mid.length + 2 = P.tasks.length) {mode : Dict Nat Nat}
    (h : ∀ x ∈ P.tasks, mode.get? x = some ((1 :: mid ++ [1]).getD (x - 1) 1)) :
    ((sortedIds P.tasks).map fun j => (mode.get? j).getD 1).tail.dropLast = mid := by
  have : (sortedIds P.tasks).map (fun j => (mode.get? j).getD 1) = 1 :: mid ++ [1] := by
    rw [sortedIds_tasks hc]
    apply List.ext_getElem?
    intro i
    rw [List.getElem?_map]
    by_cases hi : i < P.tasks.length
    · rw [List.getElem?_range' hi, Option.map_some, Nat.mul_comm 1 i, Nat.mul_one]
      rw [h (1 + i) ((hc.numbered _).2 ⟨by omega, by omega⟩), show 1 + i - 1 = i by omega]
      have hlt : i < (1 :: mid ++ [1]).length := by simp; omega
      simp only [List.getD, List.getElem?_eq_getElem hlt, Option.getD_some]
    · rw [List.getElem?_eq_none (by simp; omega), List.getElem?_eq_none (by simp; omega)]; rfl
  rw [this]
  simp

theorem recorded_ok : ∀ (d : Dict Nat Sched.Info), (∀ x i, (x, i) ∈ d → ∃ s e, i.start = some s ∧ i.finish = some e) →
    ∃ sch, recorded d = .ok sch ∧ sch.keys = d.keys ∧
      ∀ x i s e, d.get? x = some i → i.start = some s → i.finish = some e → sch.get? x = some (s, e) := by
  intro d
  induction d with
  | nil => intro _; exact ⟨[], rfl, rfl, fun x i s e h => by simp [Dict.get?] at h⟩
  | cons p d ih =>
    obtain ⟨x, i⟩ := p
    intro h
    obtain ⟨sch, h1, h2, h3⟩ := ih fun x i hm => h x i (by simp [hm])
    obtain ⟨s, e, g1, g2⟩ := h x i (by simp)
    refine ⟨(x, (s, e)) :: sch, ?_, ?_, ?_⟩
    · simp only [recorded, g1, g2, h1, bind_ok]
      rfl
    · simp only [Dict.keys, List.map_cons] at h2 ⊢
      rw [h2]
    · intro x' i' s' e' k1 k2 k3
      simp only [Dict.get?] at k1 ⊢
      split
      · rename_i hx
        rw [if_pos hx] at k1
        cases k1
        rw [g1] at k2; rw [g2] at k3
        cases k2; cases k3; rfl
      · rename_i hx
        rw [if_neg hx] at k1
        exact h3 x' i' s' e' k1 k2 k3

theorem permOf_ok {sch : Dict Nat (Int × Int)} (h1 : 1 ∈ sch.keys) (h2 : 2 ≤ sch.length) : ∃ perm, Rcpsp.permOf sch = .ok perm := by
  unfold Rcpsp.permOf
  obtain ⟨e, he, h1⟩ := List.mem_map.1 h1
  have hmem : (-1 : Int) ∈ (sortBy (fun p : Nat × (Int × Int) => p.2.1) sch).map (fun p => (p.1 : Int) - 2) :=
    List.mem_map.2 ⟨e, mem_sortBy.2 he, by rw [h1]; rfl⟩
  simp only [hmem, if_true]
  have hlen : 1 ≤ (((sortBy (fun p : Nat × (Int × Int) => p.2.1) sch).map (fun p => (p.1 : Int) - 2)).erase (-1)).length := by
    rw [List.length_erase_of_mem hmem, List.length_map, (sortBy_perm _ sch).length_eq]; omega
  cases hmax : (((sortBy (fun p : Nat × (Int × Int) => p.2.1) sch).map (fun p => (p.1 : Int) - 2)).erase (-1)).max? with
  | some v => exact ⟨_, rfl⟩
  | none =>
    rw [List.max?_eq_none_iff] at hmax
    rw [hmax] at hlen
    simp at hlen

/-- The record of a run in which every task has started and ended as in a schedule gives the schedule back. -/
theorem toSolution_ok {P : Project} {pb : Problem} (hc : Complete P) (hb : buildDo P = .ok pb) {mid : List Nat} {sch : Dict Nat (Int × Int)}
    (hw : Whole P mid sch) {st : Sched.State} (hk : st.details.keys = P.tasks)
    (hm : ∀ x ∈ P.tasks, st.mode.get? x = some ((1 :: mid ++ [1]).getD (x - 1) 1))
    (hd : ∀ x ∈ P.tasks, ∃ i s e, st.details.get? x = some i ∧ sch.get? x = some (s, e) ∧ i.start = some s ∧ i.finish = some e) :
    ∃ sol, toSolution P st = .ok sol ∧ sol.problem = pb ∧ sol.modes = mid ∧ (∀ x, sol.schedule.get? x = sch.get? x) ∧ sol.schedule.keys = P.tasks := by
  obtain ⟨sch', h1, h2, h3⟩ := recorded_ok st.details (by
    intro x i hx
    have hxt : x ∈ P.tasks := by rw [← hk]; exact List.mem_map.2 ⟨_, hx, rfl⟩
    obtain ⟨i', s, e, g1, g2, g3, g4⟩ := hd x hxt
    rw [Dict.get?_of_mem (by rw [hk]; exact hc.tasks) hx] at g1
    cases g1
    exact ⟨s, e, g3, g4⟩)
  rw [hk] at h2
  have htwo := hc.two
  obtain ⟨perm, hp⟩ := permOf_ok (sch := sch') (by rw [h2]; exact (hc.numbered 1).2 ⟨by omega, by omega⟩) (by
    have : sch'.keys.length = P.tasks.length := by rw [h2]
    simp only [Dict.keys, List.length_map] at this
    omega)
  refine ⟨⟨pb, perm, mid, sch'⟩, ?_, rfl, rfl, ?_, h2⟩
  · unfold toSolution
    simp only [modes_back hc hw.length hm, hb, bind_ok, h1, hp]
    rfl
  · intro x
    show sch'.get? x = sch.get? x
    by_cases hx : x ∈ P.tasks
    · obtain ⟨i, s, e, g1, g2, g3, g4⟩ := hd x hx
      rw [h3 x i s e g1 g3 g4, g2]
    · have e1 : sch'.get? x = none := by
        cases hg : sch'.get? x with
        | none => rfl
        | some q => exact absurd (by rw [← h2]; exact (Dict.get?_isSome_iff_mem_keys _ _).1 (by rw [hg]; rfl)) hx
      have e2 : sch.get? x = none := by
        cases hg : sch.get? x with
        | none => rfl
        | some q => exact absurd ((hw.keys x).1 ((Dict.get?_isSome_iff_mem_keys _ _).1 (by rw [hg]; rfl))) hx
      rw [e1, e2]

end Verif.Binding
