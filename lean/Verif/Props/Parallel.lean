import Verif.Lemmas.Parallel
/- Properties of the pipe-based parallel domain: C09. -/
namespace Verif.Par

/-- A counter as domain: the job is added to the state and the new state is the result; job 0 raises. -/
def counter : Sys Nat Nat Nat := { exec := fun d j => if j = 0 then (d, none) else (d + j, some (d + j)), sendable := fun j => j < 100, ipc := false }
def counterIpc : Sys Nat Nat Nat := { counter with ipc := true }

/-- `launch(None, …)` takes the first worker that is not active, and sets its flag only. -/
theorem C09_wake_first {flags flags' : List Bool} {i : Nat} (h : wakeUp flags none = .ok (some (i, flags'))) :
    flags[i]? = some false ∧ (∀ k, k < i → flags[k]? = some true) ∧ flags'[i]? = some true ∧ ∀ k, k ≠ i → flags'[k]? = flags[k]? := by
  simp only [wakeUp, Except.ok.injEq, Option.map_eq_some_iff, Prod.mk.injEq] at h
  obtain ⟨a, ha, rfl, rfl⟩ := h
  obtain ⟨h1, h2⟩ := (firstFree_spec _ _).1 ha
  refine ⟨h1, h2, ?_, fun k hk => by rw [List.getElem?_set_ne (fun e => hk e.symm)]⟩
  have := (List.getElem?_eq_some_iff.1 h1).1
  rw [List.getElem?_set]; simp [this]

/-- It waits exactly as long as all workers are active. -/
theorem C09_wake_waits (flags : List Bool) : wakeUp flags none = .ok none ↔ ∀ v ∈ flags, v = true := by
  simp only [wakeUp, Except.ok.injEq, Option.map_eq_none_iff]
  induction flags with
  | nil => simp [firstFree]
  | cons v l ih =>
    rcases v with _ | _
    · simp [firstFree]
    · simp [firstFree, ih]

example : wakeUp [true, false, true, false] none = .ok (some (1, [true, true, true, false])) := by decide

/-- Asking for a worker by number sets the flag of that worker only, whether it was set or not; a number that no worker has raises. -/
theorem C09_wake_asked (flags : List Bool) (i : Nat) :
    (i < flags.length → ∃ flags', wakeUp flags (some i) = .ok (some (i, flags')) ∧ flags'[i]? = some true ∧ ∀ k, k ≠ i → flags'[k]? = flags[k]?) ∧
    (flags.length ≤ i → wakeUp flags (some i) = .error .indexError) := by
  constructor
  · intro h
    refine ⟨flags.set i true, by simp [wakeUp, h], by simp [h], fun k hk => ?_⟩
    rw [List.getElem?_set_ne (Ne.symm hk)]
  · intro h
    simp [wakeUp, Nat.not_lt.mpr h]

example : wakeUp [true, false] (some 1) = .ok (some (1, [true, true])) ∧ wakeUp [true, false] (some 2) = .error .indexError := by decide

/-- As long as callers only ask for workers that are not active (and always with `i = None`), in every interleaving and at every time the values returned
for a worker are the results of the jobs launched on it, in order: the k-th value is the result of the k-th job on the domain as the earlier jobs left it,
`None` if that call raised.  At most one job is under way on a worker, and on a worker that is not active none is. -/
theorem C09_own_result_partial {p : Sys D J R} {ds : List D} {s : List (Worker D J R)} (h : Reach p true (ds.map Worker.fresh) s)
    {i : Nat} {w : Worker D J R} {d : D} (hw : s[i]? = some w) (hd : ds[i]? = some d) :
    w.returned <+: outs p.exec d w.launched ∧ w.launched.length ≤ w.returned.length + 1 ∧
    (w.active = false → w.returned = outs p.exec d w.launched ∧ w.pending = none) := by
  have hi := (inv_reach h).2 i w d hw hd
  have happ : ∀ (L : List J) (j : J), outs p.exec d L <+: outs p.exec d (L ++ [j]) := fun L j => by
    rw [outs_snoc]; exact List.prefix_append _ _
  have hlen : ∀ (L : List J), (outs p.exec d L).length = L.length := fun L => outs_length p.exec L d
  cases hi with
  | free L => exact ⟨List.prefix_refl _, by simp only [hlen]; omega, fun _ => ⟨rfl, rfl⟩⟩
  | woken L j => exact ⟨List.prefix_refl _, by simp only [hlen]; omega, fun h => by cases h⟩
  | lost L _ => exact ⟨List.prefix_refl _, by simp only [hlen]; omega, fun h => by cases h⟩
  | sent L j => exact ⟨happ L j, by simp [hlen], fun h => by cases h⟩
  | received L j => exact ⟨happ L j, by simp [hlen], fun h => by cases h⟩
  | cleared L j => exact ⟨happ L j, by simp [hlen], fun h => by cases h⟩
  | computed L j r _ => exact ⟨happ L j, by simp [hlen], fun h => by cases h⟩
  | stored L j => exact ⟨happ L j, by simp [hlen], fun h => by cases h⟩
  | failed L j _ => exact ⟨happ L j, by simp [hlen], fun h => by cases h⟩
  | replied L j b => exact ⟨happ L j, by simp [hlen], fun h => by cases h⟩
  | reading L j => exact ⟨happ L j, by simp [hlen], fun h => by cases h⟩
  | took L j => exact ⟨happ L j, by simp [hlen], fun h => by cases h⟩
  | wiped L j => exact ⟨happ L j, by simp [hlen], fun h => by cases h⟩
  | silent L j _ _ => exact ⟨happ L j, by simp [hlen], fun h => by cases h⟩

/-- Two workers; worker 1 (the first is busy) runs job 5 and the result is read. -/
example : ∃ s w, Reach counter true ([10, 20].map Worker.fresh) s ∧ s[1]? = some w ∧ w.launched = [5] ∧ w.returned = [some 25] ∧ w.active = false :=
  ⟨_, _, .tail (.tail (.tail (.tail (.tail (.tail (.tail (.tail (.tail (.tail (.tail (.tail .refl
      (.launchAny (i := 0) (job := 7) rfl rfl)) (.launchAny (i := 1) (job := 5) rfl rfl)) (.inner (i := 1) rfl (.send rfl rfl))) (.inner (i := 1) rfl (.recv rfl rfl)))
      (.inner (i := 1) rfl (.clear rfl))) (.inner (i := 1) rfl (.compute rfl rfl))) (.inner (i := 1) rfl (.store rfl))) (.inner (i := 1) rfl (.reply rfl)))
      (.inner (i := 1) rfl (.getRecv rfl rfl))) (.inner (i := 1) rfl (.getRead rfl))) (.inner (i := 1) rfl (.getClear rfl))) (.inner (i := 1) rfl (.getDone rfl)),
    rfl, rfl, rfl, rfl⟩

/-- Whatever has happened, a launched job can be brought to its end: if all jobs go through the pipe and no notification socket is used, there are steps of the
worker and of `get_result` after which the worker is free again and the result of its last job has been returned. -/
theorem C09_can_finish_partial {p : Sys D J R} {ds : List D} {s : List (Worker D J R)} (h : Reach p true (ds.map Worker.fresh) s)
    (hipc : p.ipc = false) (hsend : ∀ j, p.sendable j = true) {i : Nat} {w : Worker D J R} {d : D} (hw : s[i]? = some w) (hd : ds[i]? = some d) :
    ∃ w', Reach p true (ds.map Worker.fresh) (s.set i w') ∧ w'.active = false ∧ w.launched <+: w'.launched ∧ w'.returned = outs p.exec d w'.launched := by
  obtain ⟨w', h1, h2, _⟩ := finish hipc hsend ((inv_reach h).2 i w d hw hd)
  have hr := steps_sys h1 h hw
  have hlt := (List.getElem?_eq_some_iff.1 hw).1
  exact ⟨w', hr, h2, steps_launched h1, ((C09_own_result_partial hr (by rw [List.getElem?_set]; simp [hlt]) hd).2.2 h2).1⟩

/-- A job that cannot be sent blocks its worker for good: `launch` has set the flag and nobody clears it. -/
theorem C09_failed_send_leaks {p : Sys D J R} {ds : List D} {s s' : List (Worker D J R)} (h : Reach p true (ds.map Worker.fresh) s) {i : Nat} {w : Worker D J R} {d : D}
    (hw : s[i]? = some w) (hd : ds[i]? = some d) {job : J} (hp : w.pending = some job) (hs : Reach p true (s.set i { w with pending := none }) s') :
    ∃ w', s'[i]? = some w' ∧ w'.active = true := by
  have hi := (inv_reach h).2 i w d hw hd
  have hlt := (List.getElem?_eq_some_iff.1 hw).1
  have hx : ∀ X, (s.set i X)[i]? = some X := fun X => by rw [List.getElem?_set]; simp [hlt]
  cases hi <;> simp only [reduceCtorEq] at hp
  exact ⟨_, dead_reach (hx _) ⟨rfl, rfl, rfl, rfl, rfl, rfl⟩ hs, rfl⟩

/-- Such a job exists for the counter: the second half of `launch` fails and the worker is blocked. -/
example : ∃ s w, Reach counter true ([10].map Worker.fresh) s ∧ s[0]? = some w ∧ w.pending = some 200 ∧ Step counter w { w with pending := none } :=
  ⟨_, _, .tail .refl (.launchAny (i := 0) (job := 200) rfl rfl), rfl, rfl, .sendFails rfl rfl⟩

/-- With a notification socket a call that raises sends no message through the pipe, so that `get_result` waits forever and the worker stays active. -/
theorem C09_ipc_failure_hangs {p : Sys D J R} {ds : List D} {s s' : List (Worker D J R)} (h : Reach p true (ds.map Worker.fresh) s) {i : Nat} {w w1 : Worker D J R} {d : D}
    (hw : s[i]? = some w) (hd : ds[i]? = some d) (hipc : p.ipc = true) (hf : w.phase = .failed) (hst : Step p w w1) (hs : Reach p true (s.set i w1) s') :
    ∃ w', s'[i]? = some w' ∧ w'.active = true ∧ w'.outbox = [] ∧ w'.returned = w.returned := by
  have hi := (inv_reach h).2 i w d hw hd
  have hlt := (List.getElem?_eq_some_iff.1 hw).1
  have hx : ∀ X, (s.set i X)[i]? = some X := fun X => by rw [List.getElem?_set]; simp [hlt]
  cases hi <;> simp only [reduceCtorEq] at hf
  cases hst with
  | notifyError _ _ => exact ⟨_, dead_reach (hx _) ⟨rfl, rfl, rfl, rfl, rfl, rfl⟩ hs, rfl, rfl, rfl⟩
  | replyError _ h => rw [hipc] at h; cases h
  | send h _ => cases h
  | sendFails h _ => cases h
  | recv h _ => cases h
  | clear h => cases h
  | compute h _ => cases h
  | raise h _ => cases h
  | store h => cases h
  | reply h => cases h
  | getRecv _ h => cases h
  | getRead h => cases h
  | getClear h => cases h
  | getDone h => cases h

example : ∃ s w, Reach counterIpc true ([10].map Worker.fresh) s ∧ s[0]? = some w ∧ w.phase = .failed ∧ Step counterIpc w { w with phase := .waiting } :=
  ⟨_, _, .tail (.tail (.tail (.tail (.tail .refl (.launchAny (i := 0) (job := 0) rfl rfl)) (.inner (i := 0) rfl (.send rfl rfl))) (.inner (i := 0) rfl (.recv rfl rfl)))
      (.inner (i := 0) rfl (.clear rfl))) (.inner (i := 0) rfl (.raise rfl rfl)), rfl, rfl, .notifyError rfl rfl⟩

/-- A caller that asks for a worker that is active gets wrong results: two jobs are launched on worker 0 and the first `get_result` returns the result of the
second job. -/
theorem C09_busy_launch_mixes : ∃ (s : List (Worker Nat Nat Nat)) (w : Worker Nat Nat Nat), Reach counter false ([10].map Worker.fresh) s ∧ s[0]? = some w ∧
    w.launched = [1, 2] ∧ w.returned = [some 13] ∧ outs counter.exec 10 w.launched = [some 11, some 13] :=
  ⟨_, _, .tail (.tail (.tail (.tail (.tail (.tail (.tail (.tail (.tail (.tail (.tail (.tail (.tail (.tail (.tail (.tail (.tail (.tail .refl
      (.launchOn (i := 0) (job := 1) rfl rfl rfl (by simp))) (.inner (i := 0) rfl (.send rfl rfl))) (.inner (i := 0) rfl (.recv rfl rfl)))
      (.inner (i := 0) rfl (.clear rfl))) (.inner (i := 0) rfl (.compute rfl rfl))) (.inner (i := 0) rfl (.store rfl))) (.inner (i := 0) rfl (.reply rfl)))
      (.launchOn (i := 0) (job := 2) rfl rfl rfl (by simp))) (.inner (i := 0) rfl (.send rfl rfl))) (.inner (i := 0) rfl (.recv rfl rfl)))
      (.inner (i := 0) rfl (.clear rfl))) (.inner (i := 0) rfl (.compute rfl rfl))) (.inner (i := 0) rfl (.store rfl))) (.inner (i := 0) rfl (.reply rfl)))
      (.inner (i := 0) rfl (.getRecv rfl rfl))) (.inner (i := 0) rfl (.getRead rfl))) (.inner (i := 0) rfl (.getClear rfl))) (.inner (i := 0) rfl (.getDone rfl)),
    rfl, rfl, rfl, rfl⟩

/-- Two threads that launch at the same time can be given the same worker, although another one is free. -/
theorem C09_wake_race : ∃ flags, RaceReach ([false, false], [.scanning, .scanning]) (flags, [.got 0, .got 0]) ∧ flags = [true, false] :=
  ⟨_, .tail (.tail (.tail (.tail .refl (.see (k := 0) (j := 0) rfl rfl)) (.see (k := 1) (j := 0) rfl rfl)) (.take (k := 0) (j := 0) rfl)) (.take (k := 1) (j := 0) rfl), rfl⟩

end Verif.Par
