import Verif.Lemmas.BindingAgree

/-! Projects made by the constructor, and by the binding out of a problem. -/
namespace Verif.Binding
open Verif.Rcpsp (Problem Capacity capOf load total runsAt NeedTable Instance)
open Verif.Sched (sadd Dom Policy Plan needOf Ordinary)

/-- Arguments that describe a project completely: tasks 1 to n (n ≥ 2), every task has a mode 1, every mode
has a non-negative need for every resource, every resource has a non-negative capacity and is said to be
renewable or not, precedence is between tasks and without cycles. -/
structure Described (resources : List String) (tasks : List Nat) (tasksMode : Dict Nat (Dict Nat Rcpsp.Mode))
    (successors : Dict Nat (List Nat)) (avail : Dict String Int) (renewable : Dict String Bool) : Prop where
  distinctRes : resources.Nodup
  caps : ∀ r ∈ resources, ∃ c, avail.get? r = some c ∧ 0 ≤ c
  kinds : renewable.keys.Nodup ∧ ∀ r, r ∈ renewable.keys ↔ r ∈ resources
  distinctTasks : tasks.Nodup
  numbered : ∀ x, x ∈ tasks ↔ 1 ≤ x ∧ x ≤ tasks.length
  two : 2 ≤ tasks.length
  modes : tasksMode.keys.Nodup ∧ ∀ x, x ∈ tasksMode.keys ↔ x ∈ tasks
  inner : ∀ x d, (x, d) ∈ tasksMode → d.keys.Nodup ∧ 1 ∈ d.keys ∧
    ∀ k m, (k, m) ∈ d → m.needs.keys.Nodup ∧ ∀ r ∈ resources, ∃ n, m.needs.get? r = some n ∧ 0 ≤ n
  succs : ∀ a ss, (a, ss) ∈ successors → ∀ b ∈ ss, a ∈ tasks ∧ b ∈ tasks
  acyclic : ∃ rank : Nat → Nat, ∀ a ss, (a, ss) ∈ successors → ∀ b ∈ ss, rank a < rank b

theorem checkTasks_ok {tasksMode : Dict Nat (Dict Nat Rcpsp.Mode)} : ∀ (l : List Nat), (∀ x ∈ l, x ∈ tasksMode.keys) → checkTasks tasksMode l = .ok () := by
  intro l
  induction l with
  | nil => intro _; rfl
  | cons x l ih =>
    intro h
    obtain ⟨d, hd⟩ := Option.isSome_iff_exists.1 ((Dict.get?_isSome_iff_mem_keys _ _).2 (h x (by simp)))
    simp only [checkTasks, Dict.get, hd, bind_ok]
    exact ih fun y hy => h y (by simp [hy])

theorem nodup_keys_filter {d : Dict String Int} (h : d.keys.Nodup) (p : String × Int → Bool) : Dict.keys (d.filter p) |>.Nodup :=
  List.Sublist.nodup (List.Sublist.map _ List.filter_sublist) h

/-- The constructor with arguments that describe a project completely gives a complete project. -/
theorem new_complete {resources : List String} {tasks : List Nat} {tasksMode : Dict Nat (Dict Nat Rcpsp.Mode)}
    {successors : Dict Nat (List Nat)} {avail : Dict String Int} {renewable : Dict String Bool} (horizon : Nat)
    (hd : Described resources tasks tasksMode successors avail renewable) :
    ∃ P, newMrcpsp resources tasks tasksMode successors horizon avail renewable = .ok P ∧ Complete P ∧
      P.resources = resources ∧ P.tasks = tasks ∧ P.horizon = horizon ∧ P.avail = avail ∧ P.renewable = renewable ∧
      (∀ x k, P.need? x k = ((tasksMode.get? x).bind fun d => d.get? k).map fun m => m.needs.filter fun e => decide (e.1 ∈ resources)) ∧
      (∀ x k, P.dur? x k = ((tasksMode.get? x).bind fun d => d.get? k).map fun m => m.duration) ∧
      (∀ x ∈ tasks, ∀ q, q ∈ (P.preds.get? x).getD [] ↔ ∃ ss, (q, ss) ∈ successors ∧ x ∈ ss) := by
  have hneed : ∀ x k, (Dict.get? (tasksMode.map fun p => (p.1, p.2.map fun q => (q.1, q.2.needs.filter fun e => decide (e.1 ∈ resources)))) x).bind
      (fun d => Dict.get? d k) = ((tasksMode.get? x).bind fun d => d.get? k).map fun m => m.needs.filter fun e => decide (e.1 ∈ resources) := by
    intro x k
    rw [get?_mapv (f := fun d : Dict Nat Rcpsp.Mode => d.map fun q => (q.1, q.2.needs.filter fun e => decide (e.1 ∈ resources)))]
    cases tasksMode.get? x with
    | none => rfl
    | some d =>
      simp only [Option.map_some, Option.bind_some]
      exact get?_mapv (f := fun q : Rcpsp.Mode => q.needs.filter fun e => decide (e.1 ∈ resources)) d k
  have hdur : ∀ x k, (Dict.get? (tasksMode.map fun p => (p.1, p.2.map fun q => (q.1, q.2.duration))) x).bind
      (fun d => Dict.get? d k) = ((tasksMode.get? x).bind fun d => d.get? k).map fun m => m.duration := by
    intro x k
    rw [get?_mapv (f := fun d : Dict Nat Rcpsp.Mode => d.map fun q => (q.1, q.2.duration))]
    cases tasksMode.get? x with
    | none => rfl
    | some d =>
      simp only [Option.map_some, Option.bind_some]
      exact get?_mapv (f := fun q : Rcpsp.Mode => q.duration) d k
  have hpred : ∀ x ∈ tasks, ∀ q, q ∈ ((predecessorsMap tasks successors).get? x).getD [] ↔ ∃ ss, (q, ss) ∈ successors ∧ x ∈ ss :=
    fun x hx q => mem_preds hd.distinctTasks hd.succs hx
  have hsub : ∀ a ss, (a, ss) ∈ successorsMap tasks successors → ∀ b ∈ ss, ∃ ss', (a, ss') ∈ successors ∧ b ∈ ss' :=
    fun a ss h b hb => (mem_succs hd.distinctTasks hd.succs).1 ⟨ss, h, hb⟩
  have hkeys : (Dict.keys (tasksMode.map fun p => (p.1, p.2.map fun q => (q.1, q.2.needs.filter fun e => decide (e.1 ∈ resources))))) = tasksMode.keys :=
    keys_mapv (f := fun d : Dict Nat Rcpsp.Mode => d.map fun q => (q.1, q.2.needs.filter fun e => decide (e.1 ∈ resources))) tasksMode
  refine ⟨⟨resources, tasks, _, _, successorsMap tasks successors, predecessorsMap tasks successors, horizon, avail, renewable⟩, ?_, ?_, rfl, rfl, rfl, rfl, rfl, hneed, hdur, hpred⟩
  · unfold newMrcpsp
    rw [checkTasks_ok tasks fun x hx => (hd.modes.2 x).2 hx, bind_ok]
    rfl
  · refine ⟨hd.distinctRes, hd.caps, hd.kinds, hd.distinctTasks, hd.numbered, hd.two, ?_, ?_, ?_, ?_, ?_, ?_, ?_, ?_, ?_⟩
    · show (Dict.keys _).Nodup ∧ _
      rw [hkeys]; exact hd.modes
    · intro x hx
      obtain ⟨d, hdx⟩ := Option.isSome_iff_exists.1 ((Dict.get?_isSome_iff_mem_keys _ _).2 ((hd.modes.2 x).2 hx))
      obtain ⟨_, h1, _⟩ := hd.inner x d (Dict.mem_of_get? hdx)
      obtain ⟨m, hm⟩ := Option.isSome_iff_exists.1 ((Dict.get?_isSome_iff_mem_keys _ _).2 h1)
      refine ⟨m.needs.filter fun e => decide (e.1 ∈ resources), ?_⟩
      refine (hneed x 1).trans ?_
      rw [hdx, Option.bind_some, hm, Option.map_some]
    · intro x d hx
      obtain ⟨⟨x', d'⟩, hm, he⟩ := List.mem_map.1 hx
      cases he
      rw [keys_mapv (f := fun q : Rcpsp.Mode => q.needs.filter fun e => decide (e.1 ∈ resources))]
      exact (hd.inner x' d' hm).1
    · intro x k d hx
      have hx := (hneed x k).symm.trans hx
      obtain ⟨m, hm, rfl⟩ := Option.map_eq_some_iff.1 hx
      obtain ⟨dd, h1, h2⟩ := Option.bind_eq_some_iff.1 hm
      obtain ⟨h3, h4⟩ := (hd.inner x dd (Dict.mem_of_get? h1)).2.2 k m (Dict.mem_of_get? h2)
      refine ⟨nodup_keys_filter h3 _, fun r hr => ?_, fun r hr => ?_⟩
      · rw [get?_filterk (fun s => decide (s ∈ resources)) _ (decide_eq_true hr)]
        exact h4 r hr
      · obtain ⟨e, he, rfl⟩ := List.mem_map.1 hr
        simpa using (List.mem_filter.1 he).2
    · intro x k d hx
      have hx := (hneed x k).symm.trans hx
      obtain ⟨m, hm, rfl⟩ := Option.map_eq_some_iff.1 hx
      exact ⟨m.duration, (hdur x k).trans (by rw [hm]; rfl)⟩
    · show (successorsMap tasks successors).keys.Nodup ∧ _
      simp only [keys_succs hd.distinctTasks hd.succs]
      exact ⟨hd.distinctTasks, fun _ => trivial⟩
    · intro a ss h b hb
      obtain ⟨ss', h1, h2⟩ := hsub a ss h b hb
      exact (hd.succs a ss' h1 b h2).2
    · intro x hx q
      rw [show (q ∈ (Dict.get? (predecessorsMap tasks successors) x).getD [] ↔ _) from hpred x hx q]
      exact (mem_succs hd.distinctTasks hd.succs).symm
    · obtain ⟨rank, hr⟩ := hd.acyclic
      refine ⟨rank, fun a ss h b hb => ?_⟩
      obtain ⟨ss', h1, h2⟩ := hsub a ss h b hb
      exact hr a ss' h1 b h2

/-! ### From a problem to a project -/

theorem capacitySk_ok : ∀ (l : Dict String Capacity), (∀ r c, (r, c) ∈ l → ∃ v, c = .const v) →
    ∃ d, capacitySk l = .ok d ∧ ∀ r, (l.get? r) = (d.get? r).map .const := by
  intro l
  induction l with
  | nil => intro _; exact ⟨[], rfl, fun _ => rfl⟩
  | cons p l ih =>
    obtain ⟨r, c⟩ := p
    intro h
    obtain ⟨v, rfl⟩ := h r c (by simp)
    obtain ⟨d, h1, h2⟩ := ih fun r c hm => h r c (by simp [hm])
    refine ⟨(r, v) :: d, ?_, ?_⟩
    · simp only [capacitySk, h1, bind_ok]
      rfl
    · intro r'
      simp only [Dict.get?]
      split
      · rfl
      · exact h2 r'

theorem mem_sortedIds {l : List Nat} {x : Nat} : x ∈ sortedIds l ↔ x ∈ l := (sortBy_perm _ l).mem_iff

/-- A problem that the binding can represent: well formed, constant capacities that are not negative, dictionaries
with distinct keys, needs that are not negative, and only resources are called non-renewable. -/
structure Plain (pb : Problem) : Prop where
  inst : Instance pb
  modes : ∀ a d, (a, d) ∈ pb.modes → d.keys.Nodup ∧ ∀ k m, (k, m) ∈ d → m.needs.keys.Nodup ∧ ∀ r n, m.needs.get? r = some n → 0 ≤ n
  caps : ∀ r c, pb.resources.get? r = some c → ∃ v, c = .const v ∧ 0 ≤ v
  nonRenewable : ∀ r ∈ pb.nonRenewable, r ∈ pb.resources.keys

theorem Plain.keys {pb : Problem} (h : Plain pb) : pb.modes.keys.Nodup ∧ ∀ x, x ∈ pb.modes.keys ↔ 1 ≤ x ∧ x ≤ pb.modes.length := by
  have hsub : ∀ x ∈ List.range' 1 pb.modes.length, x ∈ pb.modes.keys := by
    intro x hx
    rw [List.mem_range'_1] at hx
    obtain ⟨d, hd, _⟩ := h.inst.activities x hx.1 (by omega)
    exact (Dict.get?_isSome_iff_mem_keys _ _).1 (by rw [hd]; rfl)
  have hp := List.Nodup.subperm (List.nodup_range' (s := 1) (n := pb.modes.length)) hsub
  have hperm := hp.perm_of_length_le (by simp [Dict.keys])
  refine ⟨hperm.nodup_iff.1 List.nodup_range', fun x => ?_⟩
  rw [← hperm.mem_iff, List.mem_range'_1]
  omega

theorem plain_described {pb : Problem} (h : Plain pb) {avail : Dict String Int}
    (ha : ∀ r, (pb.resources.get? r) = (avail.get? r).map .const) :
    Described pb.resources.keys (sortedIds pb.modes.keys) pb.modes pb.successors avail
      (pb.resources.keys.map fun r => (r, !pb.nonRenewable.contains r)) := by
  have hperm := sortBy_perm (fun n : Nat => (n : Int)) pb.modes.keys
  have hlen : (sortedIds pb.modes.keys).length = pb.modes.length := by
    have := hperm.length_eq
    unfold sortedIds
    rw [this]; simp [Dict.keys]
  have hk := h.keys
  refine ⟨h.inst.resources, ?_, ?_, hperm.nodup_iff.2 hk.1, ?_, ?_, ⟨hk.1, fun x => mem_sortedIds.symm⟩, ?_, ?_, h.inst.acyclic⟩
  · intro r hr
    obtain ⟨c, hc⟩ := Option.isSome_iff_exists.1 ((Dict.get?_isSome_iff_mem_keys _ _).2 hr)
    obtain ⟨v, rfl, hv⟩ := h.caps r c hc
    rw [ha] at hc
    obtain ⟨v', h1, h2⟩ := Option.map_eq_some_iff.1 hc
    cases h2
    exact ⟨v, h1, hv⟩
  · have : Dict.keys (pb.resources.keys.map fun r => (r, !pb.nonRenewable.contains r)) = pb.resources.keys := by
      simp [Dict.keys, Function.comp_def]
    rw [this]
    exact ⟨h.inst.resources, fun _ => Iff.rfl⟩
  · intro x
    rw [mem_sortedIds, hk.2, hlen]
  · rw [hlen]; exact h.inst.two
  · intro x d hx
    obtain ⟨h1, h2⟩ := h.modes x d hx
    have hr := (hk.2 x).1 (List.mem_map.2 ⟨_, hx, rfl⟩)
    obtain ⟨d', hd', g1, g2⟩ := h.inst.activities x hr.1 hr.2
    rw [Dict.get?_of_mem hk.1 hx] at hd'
    cases hd'
    refine ⟨h1, g1, fun k m hm => ?_⟩
    obtain ⟨h3, h4⟩ := h2 k m hm
    refine ⟨h3, fun r hr => ?_⟩
    obtain ⟨n, hn⟩ := g2 k m (Dict.get?_of_mem h1 hm) r hr
    exact ⟨n, hn, h4 r n hn⟩
  · intro a ss hs b hb
    rw [mem_sortedIds, mem_sortedIds, hk.2, hk.2]
    exact ⟨(h.inst.successors.2.1 a).1 (List.mem_map.2 ⟨_, hs, rfl⟩), h.inst.successors.2.2 a ss hs b hb⟩

/-- A plain problem is turned into a complete project that describes the same project. -/
theorem buildSk_agree {pb : Problem} (h : Plain pb) : ∃ P, buildSk pb = .ok P ∧ Complete P ∧ Agree pb P := by
  obtain ⟨avail, h1, h2⟩ := capacitySk_ok pb.resources (fun r c hm => by
    obtain ⟨v, hv, _⟩ := h.caps r c (Dict.get?_of_mem h.inst.resources hm)
    exact ⟨v, hv⟩)
  have hD := plain_described h h2
  obtain ⟨P, g1, g2, g3, g4, g5, g6, g7, g8, g9, g10⟩ := new_complete pb.horizon hD
  have hk := h.keys
  refine ⟨P, ?_, g2, ?_⟩
  · unfold buildSk
    rw [h1, bind_ok]
    exact g1
  · refine ⟨g3.symm, ?_, ?_, ?_, ?_, ?_, ?_, ?_, ?_, g5.symm⟩
    · intro r c hc
      obtain ⟨v, rfl, _⟩ := h.caps r c hc
      rw [h2] at hc
      obtain ⟨v', k1, k2⟩ := Option.map_eq_some_iff.1 hc
      cases k2
      exact ⟨v, rfl, by rw [g6]; exact k1⟩
    · intro r hr
      rw [g3] at hr
      rw [g7]
      have : ∀ l : List String, r ∈ l → Dict.get? (l.map fun r => (r, !pb.nonRenewable.contains r)) r = some (!pb.nonRenewable.contains r) := by
        intro l
        induction l with
        | nil => intro h; simp at h
        | cons y l ih =>
          intro h
          simp only [List.map_cons, Dict.get?]
          by_cases hy : y = r
          · rw [if_pos hy, hy]
          · rw [if_neg hy]
            rcases List.mem_cons.1 h with rfl | h
            · exact absurd rfl hy
            · exact ih h
      exact this _ hr
    · intro r hr
      rw [g3]; exact h.nonRenewable r hr
    · rw [g4]
      have := (sortBy_perm (fun n : Nat => (n : Int)) pb.modes.keys).length_eq
      show _ = (sortBy _ _).length
      rw [this]; simp [Dict.keys]
    · intro x k
      rw [g8, g3]; rfl
    · intro x k m hm
      rw [g9]
      unfold mode? at hm
      rw [hm]; rfl
    · intro x
      rw [g4, mem_sortedIds, hk.2, h.inst.successors.2.1]
    · intro x hx q
      rw [g4] at hx
      exact g10 x hx q

end Verif.Binding
