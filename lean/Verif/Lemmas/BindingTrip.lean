import Verif.Lemmas.BindingNew

/-! From a problem to a project and back. -/
namespace Verif.Binding
open Verif.Rcpsp (Problem Capacity capOf load total runsAt NeedTable Instance)
open Verif.Sched (sadd)

/-- A problem as the binding writes it: besides being plain, the horizon is not multiplied, needs are only for
resources, the successor lists are in the order of the tasks and without repetition, and the non-renewable
resources are in the order of the resources. -/
structure Normal (pb : Problem) : Prop where
  plain : Plain pb
  multiplier : pb.multiplier = 1
  needs : ∀ a d, (a, d) ∈ pb.modes → ∀ k m, (k, m) ∈ d → ∀ r ∈ m.needs.keys, r ∈ pb.resources.keys
  order : pb.successors.keys = sortedIds pb.modes.keys
  succs : ∀ a ss, (a, ss) ∈ pb.successors → ss.Nodup
  nonRenewable : pb.nonRenewable = pb.resources.keys.filter fun r => pb.nonRenewable.contains r

theorem modesDo_trip {durations : Dict Nat (Dict Nat Nat)} {t : Nat} {l : List String} {ds : Dict Nat Nat} (h : durations.get? t = some ds) : ∀ (ms : Dict Nat Rcpsp.Mode),
    (∀ k m, (k, m) ∈ ms → ds.get? k = some m.duration ∧ ∀ r ∈ m.needs.keys, r ∈ l) →
    modesDo durations t (ms.map fun q => (q.1, q.2.needs.filter fun e => decide (e.1 ∈ l))) = .ok ms := by
  intro ms
  induction ms with
  | nil => intro _; rfl
  | cons q ms ih =>
    intro hm
    obtain ⟨k, m⟩ := q
    obtain ⟨h1, h2⟩ := hm k m (by simp)
    have := ih fun k m hx => hm k m (by simp [hx])
    simp only [List.map_cons, modesDo, Dict.get, h, h1, bind_ok, this, filter_keys_self h2]
    rfl

theorem detailsDo_trip {durations : Dict Nat (Dict Nat Nat)} {l : List String} : ∀ (ts : Dict Nat (Dict Nat Rcpsp.Mode)),
    (∀ t ms, (t, ms) ∈ ts → durations.get? t = some (ms.map fun q => (q.1, q.2.duration)) ∧ ms.keys.Nodup ∧ ∀ k m, (k, m) ∈ ms → ∀ r ∈ m.needs.keys, r ∈ l) →
    detailsDo durations (ts.map fun p => (p.1, p.2.map fun q => (q.1, q.2.needs.filter fun e => decide (e.1 ∈ l)))) = .ok ts := by
  intro ts
  induction ts with
  | nil => intro _; rfl
  | cons p ts ih =>
    intro h
    obtain ⟨t, ms⟩ := p
    obtain ⟨h1, h2, h3⟩ := h t ms (by simp)
    have e1 := modesDo_trip (l := l) h1 ms (fun k m hm => ⟨by
      rw [get?_mapv (f := fun q : Rcpsp.Mode => q.duration), Dict.get?_of_mem h2 hm]; rfl, h3 k m hm⟩)
    have e2 := ih fun t ms hm => h t ms (by simp [hm])
    simp only [List.map_cons, detailsDo, e1, e2, bind_ok]
    rfl

theorem edges_of : ∀ (succ : Dict Nat (List Nat)), succ.keys.Nodup → ∀ n ss, (n, ss) ∈ succ →
    ((edges succ).filter fun e => decide (e.1 = n)).map (·.2) = ss := by
  have hone : ∀ (n m : Nat) (l : List Nat), ((l.map fun b => (m, b)).filter fun e => decide (e.1 = n)).map (·.2) = if m = n then l else [] := by
    intro n m l
    by_cases h : m = n
    · rw [if_pos h, List.filter_eq_self.2]
      · simp [Function.comp_def]
      · intro e he
        obtain ⟨b, _, rfl⟩ := List.mem_map.1 he
        simpa using h
    · rw [if_neg h, List.filter_eq_nil_iff.2]
      · rfl
      · intro e he
        obtain ⟨b, _, rfl⟩ := List.mem_map.1 he
        simpa using h
  have hnone : ∀ (succ : Dict Nat (List Nat)) n, n ∉ succ.keys → ((edges succ).filter fun e => decide (e.1 = n)) = [] := by
    intro succ n hn
    rw [List.filter_eq_nil_iff]
    rintro ⟨a, b⟩ he
    obtain ⟨ss, h1, _⟩ := mem_edges.1 he
    simp only [decide_eq_true_eq]
    rintro rfl
    exact hn (List.mem_map.2 ⟨_, h1, rfl⟩)
  intro succ
  induction succ with
  | nil => intro _ n ss h; simp at h
  | cons p succ ih =>
    intro hn n ss h
    obtain ⟨m, l⟩ := p
    simp only [Dict.keys, List.map_cons, List.nodup_cons] at hn
    unfold edges
    rw [List.flatMap_cons, List.filter_append, List.map_append, hone]
    rcases List.mem_cons.1 h with h | h
    · cases h
      have := hnone succ n hn.1
      unfold edges at this
      rw [if_pos rfl, this]
      simp
    · have hne : m ≠ n := by
        rintro rfl
        exact hn.1 (List.mem_map.2 ⟨_, h, rfl⟩)
      rw [if_neg hne]
      exact ih hn.2 n ss h

theorem successorsMap_trip {tasks : List Nat} {succ : Dict Nat (List Nat)} (hk : succ.keys = tasks) (hn : tasks.Nodup)
    (hs : ∀ a ss, (a, ss) ∈ succ → ss.Nodup ∧ ∀ b ∈ ss, a ∈ tasks ∧ b ∈ tasks) : successorsMap tasks succ = succ := by
  unfold successorsMap
  rw [nodes_eq hn fun a ss h b hb => (hs a ss h).2 b hb, ← hk]
  unfold Dict.keys
  rw [List.map_map]
  conv => rhs; rw [← List.map_id succ]
  apply List.map_congr_left
  rintro ⟨a, ss⟩ h
  simp only [Function.comp, id]
  rw [edges_of succ (by rw [hk]; exact hn) a ss h, distinct_nodup (hs a ss h).1]

theorem capacitySk_trip : ∀ (l : Dict String Capacity), (∀ r c, (r, c) ∈ l → ∃ v, c = .const v) → ∃ d, capacitySk l = .ok d ∧
    d.keys = l.keys ∧ ∀ (d' : Dict String Int), (∀ r v, (r, v) ∈ d → d'.get? r = some v) → resourcesDo d' l.keys = .ok l := by
  intro l
  induction l with
  | nil => intro _; exact ⟨[], rfl, rfl, fun _ _ => rfl⟩
  | cons p l ih =>
    obtain ⟨r, c⟩ := p
    intro h
    obtain ⟨v, rfl⟩ := h r c (by simp)
    obtain ⟨d, h1, h2, h3⟩ := ih fun r c hm => h r c (by simp [hm])
    refine ⟨(r, v) :: d, ?_, ?_, ?_⟩
    · simp only [capacitySk, h1, bind_ok]; rfl
    · simp only [Dict.keys, List.map_cons] at h2 ⊢; rw [h2]
    · intro d' hd
      have e := h3 d' fun r v hm => hd r v (by simp [hm])
      unfold Dict.keys at e
      simp only [Dict.keys, List.map_cons, resourcesDo, Dict.get, hd r v (by simp), bind_ok, e]
      rfl

/-- A normal problem comes back unchanged. -/
theorem round_trip {pb : Problem} (h : Normal pb) : (buildSk pb >>= buildDo) = .ok pb := by
  obtain ⟨d, h1, h2, h3⟩ := capacitySk_trip pb.resources (fun r c hm => by
    obtain ⟨v, hv, _⟩ := h.plain.caps r c (Dict.get?_of_mem h.plain.inst.resources hm)
    exact ⟨v, hv⟩)
  have hk := h.plain.keys
  have hperm := sortBy_perm (fun n : Nat => (n : Int)) pb.modes.keys
  have e1 := detailsDo_trip (l := pb.resources.keys) (durations := pb.modes.map fun p => (p.1, p.2.map fun q => (q.1, q.2.duration))) pb.modes (by
    intro t ms hm
    refine ⟨?_, (h.plain.modes t ms hm).1, h.needs t ms hm⟩
    rw [get?_mapv (f := fun d : Dict Nat Rcpsp.Mode => d.map fun q => (q.1, q.2.duration)), Dict.get?_of_mem hk.1 hm]; rfl)
  have e2 := successorsMap_trip (tasks := sortedIds pb.modes.keys) h.order (hperm.nodup_iff.2 hk.1) (fun a ss hs =>
    ⟨h.succs a ss hs, fun b hb => by
      rw [mem_sortedIds, mem_sortedIds, hk.2, hk.2]
      exact ⟨(h.plain.inst.successors.2.1 a).1 (List.mem_map.2 ⟨_, hs, rfl⟩), h.plain.inst.successors.2.2 a ss hs b hb⟩⟩)
  have e3 := h3 d fun r v hm => Dict.get?_of_mem (by rw [h2]; exact h.plain.inst.resources) hm
  have e4 : ((pb.resources.keys.map fun r => (r, !pb.nonRenewable.contains r)).filter fun e => !e.2).map (·.1) = pb.nonRenewable := by
    rw [List.filter_map, List.map_map]
    conv => rhs; rw [h.nonRenewable]
    rw [show ((fun x : String × Bool => x.1) ∘ fun r => (r, !pb.nonRenewable.contains r)) = id from rfl, List.map_id]
    apply List.filter_congr
    intro r _
    simp
  unfold buildSk
  rw [h1, bind_ok]
  unfold newMrcpsp
  rw [checkTasks_ok (sortedIds pb.modes.keys) fun x hx => mem_sortedIds.1 hx, bind_ok]
  show buildDo _ = _
  unfold buildDo
  simp only [e1, e2, e3, e4, bind_ok]
  show Except.ok _ = Except.ok pb
  rw [← h.multiplier]

end Verif.Binding
