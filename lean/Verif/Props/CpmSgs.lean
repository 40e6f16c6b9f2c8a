import Verif.Lemmas.CpmSgsTime

/-! Properties of the schedule generation of the critical path solver (C144-C146). -/
namespace Verif.CpmSgs

/-! ## C144: schedules built along an order -/

/-- What is asked of the critical path when the order is cut by it: no activity is its own ancestor, and the path goes forward. -/
def Forward (net : Net) (critical : List Nat) : Prop :=
  (∀ c, c ∉ net.anc c) ∧ critical.Pairwise (fun a b => b ≠ a ∧ b ∉ net.anc a)

theorem onOrder_good {net : Net} {avail : Avail} {critical order : List Nat} {b : Bool} {R : Result} (hnet : ∀ j, ∀ i ∈ net.pred j, j ∈ net.desc i)
    (hord : order.Nodup) (hb : b = true → Forward net critical) (h : onOrder net avail critical order b = .ok R) :
    ∃ st, Good net avail st ∧ finish net critical st = .ok R := by
  simp only [onOrder] at h
  split at h
  · next hbt =>
    obtain ⟨hself, hpw⟩ := hb hbt
    split at h
    · cases h
    · split at h
      · cases h
      · next st hst => exact ⟨st, cut_good hnet hself hord hpw (good_start net avail) (by simp [start, Dict.keys]) hst, h⟩
  · split at h
    · cases h
    · next st hst => exact ⟨st, (pass_good hnet (good_start net avail) hord (by simp [start, Dict.keys]) hst).1, h⟩

/-- For every network whose descendants include the direct successors, every availability over time (constant or calendar), every order without
repetitions, cut by the critical path or not: in the schedule that is returned each activity appears once, lasts its duration, does not start before its
earliest date, and starts after the end of all its direct predecessors, which are in the schedule; at each time each resource with a
capacity that is not negative suffices for the activities under way; activities with a duration end within the availability. -/
theorem C144_schedules_respect_precedences_and_capacities {net : Net} {avail : Avail} {critical order : List Nat} {b : Bool} {R : Result}
    (hnet : ∀ j, ∀ i ∈ net.pred j, j ∈ net.desc i) (hord : order.Nodup) (hb : b = true → Forward net critical)
    (h : onOrder net avail critical order b = .ok R) :
    (R.sched.map (·.1)).Nodup ∧
    (∀ j s e, (j, (s, e)) ∈ R.sched → e = s + net.dur j ∧ net.esd j ≤ s ∧ (∀ i ∈ net.pred j, ∃ s' e', (i, (s', e')) ∈ R.sched ∧ e' ≤ s) ∧
      (0 < net.dur j → ∀ x ∈ avail, e ≤ x.2.length)) ∧
    (∀ x ∈ avail, ∀ (t : Nat) (a : Int), x.2[t]? = some a → 0 ≤ a →
      ((R.sched.filter (fun y => decide (y.2.1 ≤ t ∧ t < y.2.2))).map (fun y => net.need y.1 x.1)).sum ≤ a) := by
  obtain ⟨st, g, hf⟩ := onOrder_good hnet hord hb h
  obtain ⟨e1, -⟩ := finish_spec hf
  rw [e1]
  refine ⟨g.inv.nodup, fun j s e hj => ?_, g.inv.fits⟩
  obtain ⟨a1, a2⟩ := g.inv.ends j s e hj
  exact ⟨a1, a2, g.inv.prec j s e hj, fun hd x hx => g.inv.within x hx j s e hj hd⟩

/-- With needs that are not negative the schedule is active: if an activity started at any earlier time that is not before its earliest date and not before the end of an
activity it depends on, then at some time of its run some resource would be short, given what all other activities of the final schedule take. -/
theorem C144_no_activity_can_start_earlier {net : Net} {avail : Avail} {critical order : List Nat} {b : Bool} {R : Result}
    (hnet : ∀ j, ∀ i ∈ net.pred j, j ∈ net.desc i) (hord : order.Nodup) (hb : b = true → Forward net critical) (hn : ∀ j r, 0 ≤ net.need j r)
    (h : onOrder net avail critical order b = .ok R) :
    ∀ j s e, (j, (s, e)) ∈ R.sched → ∀ t, net.esd j ≤ t → t < s → (∀ i s' e', (i, (s', e')) ∈ R.sched → j ∈ net.desc i → e' ≤ t) →
      ∃ x ∈ avail, ∃ (u : Nat) (a : Int), t ≤ u ∧ u < t + net.dur j ∧ x.2[u]? = some a ∧
        a < used net (R.sched.filter (fun y => decide (y.1 ≠ j))) x.1 u + net.need j x.1 := by
  obtain ⟨st, g, hf⟩ := onOrder_good hnet hord hb h
  obtain ⟨e1, -⟩ := finish_spec hf
  rw [e1]
  exact g.active hn

/-- Each link `(j, k)` that is returned joins an activity `j` that starts after its earliest date to an activity `k` of the schedule that is no ancestor of `j`
and uses a resource at a time noted for `j`, at or after the earliest date of `j` and at most five units before its latest date. -/
theorem C144_links_join_delayed_activities_to_users {net : Net} {avail : Avail} {critical order : List Nat} {b : Bool} {R : Result}
    (hnet : ∀ j, ∀ i ∈ net.pred j, j ∈ net.desc i) (hord : order.Nodup) (hb : b = true → Forward net critical)
    (h : onOrder net avail critical order b = .ok R) {j k : Nat} (hl : (j, k) ∈ R.links) :
    (∃ s e, (j, (s, e)) ∈ R.sched ∧ net.esd j < s) ∧ k ∉ net.anc j ∧
      ∃ r u s e, (k, (s, e)) ∈ R.sched ∧ s ≤ u ∧ u < e ∧ 0 < net.need k r ∧ net.esd j ≤ u ∧ net.lsd j - 5 ≤ u := by
  obtain ⟨st, g, hf⟩ := onOrder_good hnet hord hb h
  obtain ⟨e1, -, -, e4, -⟩ := finish_spec hf
  obtain ⟨x, hx, rfl, hk, hlsd, s, e, hs, hlt⟩ := (linksOf_spec e4 j k).mp hl
  obtain ⟨c1, c2⟩ := g.causes x hx
  obtain ⟨c3, s', e', c4, c5, c6, c7⟩ := c2 k hk
  rw [e1]
  exact ⟨⟨s, e, Dict.mem_of_get? hs, hlt⟩, c3, x.res, x.time, s', e', c4, c5, c6, c7, c1, hlsd⟩

/-- A source, three activities on one resource and a sink. -/
def exNet : Net where
  pred := fun j => match j with | 1 => [0] | 2 => [0] | 3 => [1] | 4 => [2, 3] | _ => []
  desc := fun j => match j with | 0 => [1, 2, 3, 4] | 1 => [3, 4] | 2 => [4] | 3 => [4] | _ => []
  anc := fun j => match j with | 1 => [0] | 2 => [0] | 3 => [0, 1] | 4 => [0, 1, 2, 3] | _ => []
  dur := fun j => match j with | 1 => 2 | 2 => 3 | 3 => 1 | _ => 0
  need := fun j r => if r = 0 then (match j with | 1 => 2 | 2 => 2 | 3 => 1 | _ => 0) else 0
  esd := fun j => match j with | 3 => 2 | 4 => 3 | _ => 0
  lsd := fun j => match j with | 3 => 2 | 4 => 3 | _ => 0
  horizon := 8

theorem exNet_desc : ∀ j, ∀ i ∈ exNet.pred j, j ∈ exNet.desc i := by
  intro j i h
  match j with
  | 0 => simp [exNet] at h
  | 1 => simp [exNet] at h; subst h; simp [exNet]
  | 2 => simp [exNet] at h; subst h; simp [exNet]
  | 3 => simp [exNet] at h; subst h; simp [exNet]
  | 4 => simp [exNet] at h; rcases h with rfl | rfl <;> simp [exNet]
  | _ + 5 => simp [exNet] at h

theorem exNet_anc : ∀ c, c ∉ exNet.anc c := by
  intro c
  match c with
  | 0 | 1 | 2 | 3 | 4 => simp [exNet]
  | _ + 5 => simp [exNet]

theorem exNet_forward : Forward exNet [0, 1, 3, 4] := ⟨exNet_anc, by simp [exNet]⟩

theorem exNet_need : ∀ j r, 0 ≤ exNet.need j r := by
  intro j r
  simp only [exNet]
  split
  · match j with
    | 0 | 1 | 2 | 3 | 4 => simp
    | _ + 5 => simp
  · omega

/-- Both modes on the network: cut by the critical path, activity 2 waits until 3 is done; both return, with links from the one that waits. -/
example : (∀ j, ∀ i ∈ exNet.pred j, j ∈ exNet.desc i) ∧ (∀ j r, 0 ≤ exNet.need j r) ∧ [0, 1, 2, 3, 4].Nodup ∧ Forward exNet [0, 1, 3, 4] ∧
    ((onOrder exNet (constant 8 [(0, 3)]) [0, 1, 3, 4] [0, 1, 2, 3, 4] false).map (·.sched)).toOption = some [(0, (0, 0)), (1, (0, 2)), (2, (2, 5)), (3, (2, 3)), (4, (5, 5))] ∧
    ((onOrder exNet (constant 8 [(0, 3)]) [0, 1, 3, 4] [0, 1, 2, 3, 4] false).map (·.links)).toOption = some [(2, 1), (2, 1)] ∧
    ((onOrder exNet (constant 8 [(0, 2)]) [0, 1, 3, 4] [0, 1, 2, 3, 4] true).map (·.sched)).toOption = some [(0, (0, 0)), (1, (0, 2)), (3, (2, 3)), (2, (3, 6)), (4, (6, 6))] ∧
    ((onOrder exNet (constant 8 [(0, 2)]) [0, 1, 3, 4] [0, 1, 2, 3, 4] false).map (·.sched)).toOption = some [(0, (0, 0)), (1, (0, 2)), (2, (2, 5)), (3, (5, 6)), (4, (6, 6))] :=
  ⟨exNet_desc, exNet_need, by decide, exNet_forward, by decide +kernel, by decide +kernel, by decide +kernel, by decide +kernel⟩

/-! ## C145: when everything is placed -/

/-- Constant capacities, each sufficient for each activity alone, no cycles, earliest dates as given by the predecessors, an order that names the predecessors of its activities, and a
horizon beyond the sum of the durations: generation along the order returns; it places exactly the activities of the order, and all end within the sum of the durations. -/
theorem C145_all_activities_are_placed {net : Net} {caps : List (Nat × Int)} {critical order : List Nat} {c : Nat}
    (hdesc : ∀ j, ∀ i ∈ net.pred j, j ∈ net.desc i) (hacyc : ∃ rank : Nat → Nat, ∀ j, ∀ i ∈ net.pred j, rank i < rank j)
    (henough : ∀ j, ∀ x ∈ caps, net.need j x.1 ≤ x.2) (hearly : ∀ j, net.esd j = 0 ∨ ∃ i ∈ net.pred j, net.esd j ≤ net.esd i + net.dur i)
    (hord : order.Nodup) (hcl : ∀ j ∈ order, ∀ i ∈ net.pred j, i ∈ order) (hc : critical.getLast? = some c) (hco : c ∈ order)
    (hh : (order.map net.dur).sum < net.horizon) :
    ∃ R, onOrder net (constant net.horizon caps) critical order false = .ok R ∧ (R.sched.map (·.1)).Perm order ∧
      ∀ j s e, (j, (s, e)) ∈ R.sched → e ≤ (order.map net.dur).sum := by
  obtain ⟨st, e1, g, b, hcz, p⟩ := pass_total ⟨hdesc, henough, hearly⟩ hacyc (n := order.length) (ll := order) (st := start net (constant net.horizon caps)) rfl
    (good_start _ _) (by simp [Short, start]) (by simp [start]) hord (by simp [start, Dict.keys]) (fun j hj i hi => .inr (hcl j hj i hi)) (by simpa [start, Dict.keys, total] using hh)
  have hp : st.sched.keys.Perm order := by simpa [start, Dict.keys] using p
  obtain ⟨R, hR⟩ := finish_total (net := net) hcz hc (hp.mem_iff.mpr hco)
  obtain ⟨e2, -⟩ := finish_spec hR
  refine ⟨R, by simp only [onOrder, Bool.false_eq_true, if_false, e1, hR], by rw [e2]; exact hp, ?_⟩
  intro j s e hj
  rw [e2] at hj
  have := b j s e hj
  rw [total_perm hp] at this
  exact this

/-- The same with the order cut by a critical path that goes forward, when ancestors are closed: all critical activities and all their ancestors are placed, and nothing that the order does not name. With a sink
whose ancestors are all others at the end of the path, this is everything. -/
theorem C145_critical_activities_and_ancestors_are_placed {net : Net} {caps : List (Nat × Int)} {critical order : List Nat}
    (hdesc : ∀ j, ∀ i ∈ net.pred j, j ∈ net.desc i) (hacyc : ∃ rank : Nat → Nat, ∀ j, ∀ i ∈ net.pred j, rank i < rank j)
    (henough : ∀ j, ∀ x ∈ caps, net.need j x.1 ≤ x.2) (hearly : ∀ j, net.esd j = 0 ∨ ∃ i ∈ net.pred j, net.esd j ≤ net.esd i + net.dur i)
    (hanc : ∀ c, ∀ i ∈ net.pred c, i ∈ net.anc c) (hancs : ∀ c, ∀ k ∈ net.anc c, ∀ i ∈ net.pred k, i ∈ net.anc c) (hfw : Forward net critical)
    (hord : order.Nodup) (hin : ∀ c ∈ critical, c ∈ order ∧ ∀ k ∈ net.anc c, k ∈ order) (hne : critical ≠ []) (hh : (order.map net.dur).sum < net.horizon) :
    ∃ R, onOrder net (constant net.horizon caps) critical order true = .ok R ∧ (∀ c ∈ critical, c ∈ R.sched.map (·.1) ∧ ∀ k ∈ net.anc c, k ∈ R.sched.map (·.1)) ∧
      (∀ k ∈ R.sched.map (·.1), k ∈ order) ∧ ∀ j s e, (j, (s, e)) ∈ R.sched → e ≤ (order.map net.dur).sum := by
  obtain ⟨st, e1, b, hcz, hnd, ho, -, hall⟩ := cut_total ⟨hdesc, henough, hearly⟩ hacyc hfw.1 hanc hancs hord hh (critical := critical) (st := start net (constant net.horizon caps)) hfw.2 hin
    (good_start _ _) (by simp [Short, start]) (by simp [start]) (by simp [start, Dict.keys]) (by simp [start, Dict.keys])
  obtain ⟨c, hc⟩ : ∃ c, critical.getLast? = some c := ⟨_, List.getLast?_eq_some_getLast hne⟩
  obtain ⟨R, hR⟩ := finish_total (net := net) hcz hc (hall c (List.mem_of_getLast? hc)).1
  obtain ⟨e2, -⟩ := finish_spec hR
  refine ⟨R, by simp only [onOrder, if_true, if_neg hne, e1, hR], by rw [e2]; exact hall, by rw [e2]; exact ho, ?_⟩
  intro j s e hj
  rw [e2] at hj
  exact Nat.le_trans (b j s e hj) (total_subset hnd ho)

theorem exNet_rank : ∃ rank : Nat → Nat, ∀ j, ∀ i ∈ exNet.pred j, rank i < rank j := by
  refine ⟨fun j => match j with | 0 => 0 | 1 => 1 | 2 => 1 | 3 => 2 | _ => 3, ?_⟩
  intro j i h
  match j with
  | 0 => simp [exNet] at h
  | 1 => simp [exNet] at h; subst h; simp
  | 2 => simp [exNet] at h; subst h; simp
  | 3 => simp [exNet] at h; subst h; simp
  | 4 => simp [exNet] at h; rcases h with rfl | rfl <;> simp
  | _ + 5 => simp [exNet] at h

theorem exNet_enough : ∀ j, ∀ x ∈ ([(0, 2)] : List (Nat × Int)), exNet.need j x.1 ≤ x.2 := by
  intro j x hx
  rw [List.mem_singleton] at hx
  subst hx
  match j with
  | 0 | 1 | 2 | 3 | 4 => simp [exNet]
  | _ + 5 => simp [exNet]

theorem exNet_early : ∀ j, exNet.esd j = 0 ∨ ∃ i ∈ exNet.pred j, exNet.esd j ≤ exNet.esd i + exNet.dur i := by
  intro j
  match j with
  | 0 | 1 | 2 => left; rfl
  | 3 => right; exact ⟨1, by simp [exNet], by simp [exNet]⟩
  | 4 => right; exact ⟨3, by simp [exNet], by simp [exNet]⟩
  | _ + 5 => left; rfl

/-- The network meets the hypotheses of both theorems. -/
example : (∀ j, ∀ i ∈ exNet.pred j, j ∈ exNet.desc i) ∧ (∃ rank : Nat → Nat, ∀ j, ∀ i ∈ exNet.pred j, rank i < rank j) ∧
    (∀ j, ∀ x ∈ ([(0, 2)] : List (Nat × Int)), exNet.need j x.1 ≤ x.2) ∧ (∀ j, exNet.esd j = 0 ∨ ∃ i ∈ exNet.pred j, exNet.esd j ≤ exNet.esd i + exNet.dur i) ∧
    (∀ j ∈ [0, 1, 2, 3, 4], ∀ i ∈ exNet.pred j, i ∈ [0, 1, 2, 3, 4]) ∧ (∀ c, ∀ i ∈ exNet.pred c, i ∈ exNet.anc c) ∧ (∀ c, ∀ k ∈ exNet.anc c, ∀ i ∈ exNet.pred k, i ∈ exNet.anc c) ∧
    Forward exNet [0, 1, 3, 4] ∧ ([0, 1, 2, 3, 4].map exNet.dur).sum < exNet.horizon := by
  refine ⟨exNet_desc, exNet_rank, exNet_enough, exNet_early, by decide, ?_, ?_, exNet_forward, by decide⟩
  · intro c
    match c with
    | 0 | 1 | 2 | 3 | 4 => decide
    | _ + 5 => simp [exNet]
  · intro c
    match c with
    | 0 | 1 | 2 | 3 | 4 => decide
    | _ + 5 => simp [exNet]

/-- Not all activities are placed in general: an activity that needs more than there is gets no time, and its successors are never ready (`StopIteration`); without
successors the analysis of the delays looks for it in the schedule (`KeyError`). An activity whose earliest date is beyond the horizon is left out without any error. A horizon that is shorter than
the work is `IndexError`. -/
theorem C145_all_activities_are_placed_refuted :
    (onOrder exNet (constant 8 [(0, 1)]) [0, 1, 3, 4] [0, 1, 2, 3, 4] false).map (·.sched) = .error .stopIteration ∧
    (onOrder exNet (constant 8 [(0, 1)]) [0] [0, 1] false).map (·.sched) = .error .keyError ∧
    (onOrder { exNet with esd := fun j => if j = 2 then 8 else 0 } (constant 8 [(0, 3)]) [0, 1] [0, 1, 2] false).map (·.sched) = .ok [(0, (0, 0)), (1, (0, 2))] ∧
    (onOrder { exNet with horizon := 4 } (constant 4 [(0, 2)]) [0, 1, 3, 4] [0, 1, 2, 3, 4] false).map (·.sched) = .error .indexError :=
  ⟨by decide +kernel, by decide +kernel, by decide +kernel, by decide +kernel⟩

/-! ## C146: schedules built along time -/

theorem onTime_tinv {net : Net} {caps : List (Nat × Int)} {nodes fuel : Nat} {critical order : List Nat} {R : Result} (hnet : ∀ j, ∀ i ∈ net.pred j, j ∈ net.desc i)
    (hn : ∀ j r, 0 ≤ net.need j r) (h : onTime net nodes (constant net.horizon caps) critical order fuel = .ok (some R)) :
    ∃ st cur, TInv net (constant net.horizon caps) cur order st ∧ nodes ≤ st.sched.length ∧ R.sched = st.sched := by
  simp only [onTime] at h
  split at h
  · cases h
  · cases h
  · next st hst =>
    split at h
    · cases h
    · next R' hR =>
      cases h
      obtain ⟨h1, cur, h2⟩ := timeLoop_spec hnet hn (tinv_start net _ order) hst
      exact ⟨st, cur, h2, h1, (finish_spec hR).1⟩

/-- For constant capacities and needs that are not negative, every schedule that the time loop returns respects the earliest dates, the direct predecessors and the capacities, and when the
order names as many activities as there are, it holds exactly those of the order. -/
theorem C146_time_loop_schedules_are_feasible {net : Net} {caps : List (Nat × Int)} {fuel : Nat} {critical order : List Nat} {R : Result}
    (hnet : ∀ j, ∀ i ∈ net.pred j, j ∈ net.desc i) (hn : ∀ j r, 0 ≤ net.need j r) (hcap : ∀ x ∈ caps, 0 ≤ x.2)
    (h : onTime net order.length (constant net.horizon caps) critical order fuel = .ok (some R)) :
    (R.sched.map (·.1)).Perm order ∧
    (∀ j s e, (j, (s, e)) ∈ R.sched → e = s + net.dur j ∧ net.esd j ≤ s ∧ ∀ i ∈ net.pred j, ∃ s' e', (i, (s', e')) ∈ R.sched ∧ e' ≤ s) ∧
    (∀ x ∈ caps, ∀ t, t < net.horizon → ((R.sched.filter (fun y => decide (y.2.1 ≤ t ∧ t < y.2.2))).map (fun y => net.need y.1 x.1)).sum ≤ x.2) := by
  obtain ⟨st, cur, ti, hlen, e1⟩ := onTime_tinv hnet hn h
  rw [e1]
  refine ⟨all_done ti.inv.nodup ti.among hlen, fun j s e hj => ?_, fun x hx t ht => ?_⟩
  · obtain ⟨a1, a2⟩ := ti.inv.ends j s e hj
    exact ⟨a1, a2, ti.inv.prec j s e hj⟩
  · exact ti.inv.fits (x.1, List.replicate net.horizon x.2) (List.mem_map.mpr ⟨x, hx, rfl⟩) t x.2 (by simp [ht]) (hcap x hx)

/-- At most one activity starts at each time. -/
theorem C146_one_activity_starts_at_a_time {net : Net} {caps : List (Nat × Int)} {nodes fuel : Nat} {critical order : List Nat} {R : Result}
    (hnet : ∀ j, ∀ i ∈ net.pred j, j ∈ net.desc i) (hn : ∀ j r, 0 ≤ net.need j r)
    (h : onTime net nodes (constant net.horizon caps) critical order fuel = .ok (some R)) :
    (R.sched.map (fun x => x.2.1)).Nodup := by
  obtain ⟨st, cur, ti, -, e1⟩ := onTime_tinv hnet hn h
  rw [e1, List.Nodup, List.pairwise_map]
  exact ti.sorted.imp (fun hlt => Nat.ne_of_lt hlt)

/-- With constant capacities that suffice for each activity alone, earliest dates as given by the predecessors and an order that names predecessors first, the loop ends without errors as soon as the
horizon reaches the sum over all activities of their duration, at least one for each; all activities are placed and end within this sum. -/
theorem C146_time_loop_returns {net : Net} {caps : List (Nat × Int)} {critical order : List Nat} {c : Nat}
    (hdesc : ∀ j, ∀ i ∈ net.pred j, j ∈ net.desc i)
    (henough : ∀ j, ∀ x ∈ caps, net.need j x.1 ≤ x.2) (hearly : ∀ j, net.esd j = 0 ∨ ∃ i ∈ net.pred j, net.esd j ≤ net.esd i + net.dur i)
    (hn : ∀ j r, 0 ≤ net.need j r) (hord : order.Nodup) (htop : ∀ l j l', order = l ++ j :: l' → ∀ i ∈ net.pred j, i ∈ l)
    (hc : critical.getLast? = some c) (hco : c ∈ order) (hh : (order.map (fun j => max 1 (net.dur j))).sum ≤ net.horizon) :
    ∃ R, onTime net order.length (constant net.horizon caps) critical order net.horizon = .ok (some R) ∧ (R.sched.map (·.1)).Perm order ∧
      ∀ j s e, (j, (s, e)) ∈ R.sched → e ≤ (order.map (fun j => max 1 (net.dur j))).sum := by
  obtain ⟨st, cur, e1, hb, hcz⟩ := timeLoop_total ⟨hdesc, henough, hearly⟩ hn hord htop hh (fuel := net.horizon) (cur := 0) (tinv_start net (constant net.horizon caps) order)
    ⟨by omega, by simp [start]⟩ (by simp [start]) hh
  obtain ⟨h1, cur', h2⟩ := timeLoop_spec hdesc hn (tinv_start net _ order) e1
  have hp := all_done h2.inv.nodup h2.among h1
  obtain ⟨R, hR⟩ := finish_total (net := net) (fun x hx => hp.mem_iff.mpr (hcz x hx)) hc (hp.mem_iff.mpr hco)
  obtain ⟨e2, -⟩ := finish_spec hR
  refine ⟨R, by simp only [onTime, e1, hR], by rw [e2]; exact hp, ?_⟩
  intro j s e hj
  rw [e2] at hj
  have h3 := hb.ends j s e hj
  rw [total_perm hp] at h3
  have h4 := (h2.inv.ends j s e hj).1
  have h5 : net.dur j ≤ span net j := Nat.le_max_right _ _
  have h6 : total (span net) order = (order.map (fun j => max 1 (net.dur j))).sum := rfl
  omega

/-- The network along time: activities 1 and 3 start at different times although they wait for nothing else. -/
example : ((onTime exNet 5 (constant 8 [(0, 3)]) [0, 1, 3, 4] [0, 1, 2, 3, 4] 20).map (Option.map (·.sched))) =
      .ok (some [(0, (0, 0)), (1, (1, 3)), (2, (3, 6)), (3, (4, 5)), (4, (6, 6))]) ∧
    ([0, 1, 2, 3, 4].map (fun j => max 1 (exNet.dur j))).sum = exNet.horizon :=
  ⟨by decide +kernel, by decide +kernel⟩

/-- Predecessors come first in the order of the example. -/
example : ∀ l j l', [0, 1, 2, 3, 4] = l ++ j :: l' → ∀ i ∈ exNet.pred j, i ∈ l := by
  intro l j l' h i hi
  have : l = [0, 1, 2, 3, 4].take l.length := by rw [h]; simp
  have hj : [0, 1, 2, 3, 4][l.length]? = some j := by rw [h]; simp
  have hlen : l.length < 5 := by have := congrArg List.length h; simp at this; omega
  generalize hm : l.length = m at *
  subst this
  match m, hlen with
  | 0, _ => simp at hj; subst hj; simp [exNet] at hi
  | 1, _ => simp at hj; subst hj; simp [exNet] at hi; simp [hi]
  | 2, _ => simp at hj; subst hj; simp [exNet] at hi; simp [hi]
  | 3, _ => simp at hj; subst hj; simp [exNet] at hi; simp [hi]
  | 4, _ => simp at hj; subst hj; simp [exNet] at hi; rcases hi with rfl | rfl <;> simp

/-- Two activities that start together would fit, but the loop starts them one after the other: it is not active, unlike generation along the order. -/
theorem C146_activities_start_as_early_as_possible_refuted :
    (onTime { exNet with pred := fun _ => [] } 2 (constant 8 [(0, 4)]) [1] [1, 2] 20).map (Option.map (·.sched)) = .ok (some [(1, (0, 2)), (2, (1, 4))]) ∧
    (onOrder { exNet with pred := fun _ => [] } (constant 8 [(0, 4)]) [1] [1, 2] false).map (·.sched) = .ok [(1, (0, 2)), (2, (0, 3))] :=
  ⟨by decide +kernel, by decide +kernel⟩

/-- Only the first time of an activity is compared with what is there (the `break` of line 329): with a calendar that drops later, the schedule takes more than there is. -/
theorem C146_calendars_are_respected_refuted :
    (onTime exNet 2 (calendar 8 [(0, [2, 2, 0, 0, 2, 2, 2, 2])]) [0, 1] [0, 1] 20).map (Option.map (·.sched)) = .ok (some [(0, (0, 0)), (1, (1, 3))]) ∧
    exNet.need 1 0 = 2 ∧ (calendar 8 [(0, [2, 2, 0, 0, 2, 2, 2, 2])])[0]?.bind (fun x => x.2[2]?) = some 0 :=
  ⟨by decide +kernel, by decide +kernel, by decide +kernel⟩

/-- Ten activities that wait for an eleventh. -/
def waitNet : Net where
  pred := fun j => if j < 10 then [10] else []
  desc := fun j => if j = 10 then List.range 10 else []
  anc := fun j => if j < 10 then [10] else []
  dur := fun _ => 0
  need := fun _ _ => 0
  esd := fun _ => 0
  lsd := fun _ => 0
  horizon := 20

/-- Only the first ten activities of the order that are not done are looked at: with an order that begins with ten activities that wait for the eleventh, which could start at
once, the loop never ends. Generation along the same order returns. -/
theorem C146_the_loop_ends_refuted :
    (∀ fuel, (onTime waitNet 11 (constant 20 [(0, 1)]) [10] (List.range 11) fuel).map (Option.map (·.sched)) = .ok none) ∧
    (∃ R, onOrder waitNet (constant 20 [(0, 1)]) [10] (List.range 11) false = .ok R ∧ R.sched.length = 11) := by
  constructor
  · have key : ∀ fuel cur, timeLoop waitNet 11 (List.range 11) fuel cur (start waitNet (constant 20 [(0, 1)])) = .ok none := by
      intro fuel
      induction fuel with
      | zero => intro cur; rfl
      | succ fuel ih =>
        intro cur
        have hstep : tryAll waitNet cur (((List.range 11).filter (fun t => !(start waitNet (constant 20 [(0, 1)])).sched.contains t)).take 10) (start waitNet (constant 20 [(0, 1)])) =
            .ok (start waitNet (constant 20 [(0, 1)])) := by
          have hl : ((List.range 11).filter (fun t => !(start waitNet (constant 20 [(0, 1)])).sched.contains t)).take 10 = List.range 10 := by decide +kernel
          rw [hl]
          have hno : ∀ js : List Nat, (∀ j ∈ js, j < 10) → tryAll waitNet cur js (start waitNet (constant 20 [(0, 1)])) = .ok (start waitNet (constant 20 [(0, 1)])) := by
            intro js
            induction js with
            | nil => intro _; rfl
            | cons j js ih =>
              intro hj
              have hr : ready waitNet (start waitNet (constant 20 [(0, 1)])) cur j = false := by
                simp [ready, waitNet, hj j List.mem_cons_self, start]
              simp only [tryAll, hr, Bool.false_eq_true, if_false]
              exact ih (fun k hk => hj k (List.mem_cons_of_mem _ hk))
          exact hno _ (fun j hj => List.mem_range.mp hj)
        unfold timeLoop
        rw [if_pos (by simp [start])]
        dsimp only
        rw [hstep]
        exact ih (cur + 1)
    intro fuel
    simp only [onTime, key]
    rfl
  · cases h : onOrder waitNet (constant 20 [(0, 1)]) [10] (List.range 11) false with
    | error e =>
      have : (onOrder waitNet (constant 20 [(0, 1)]) [10] (List.range 11) false).map (·.sched.length) = .ok 11 := by decide +kernel
      rw [h] at this
      cases this
    | ok R =>
      have : (onOrder waitNet (constant 20 [(0, 1)]) [10] (List.range 11) false).map (·.sched.length) = .ok 11 := by decide +kernel
      rw [h] at this
      exact ⟨R, rfl, by simpa [Except.map] using this⟩

end Verif.CpmSgs
