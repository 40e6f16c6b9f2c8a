import Verif.Lemmas.SchedReplay
import Verif.Lemmas.SchedTerm

/-! Rolling out the Gantt policy of a feasible plan. -/
namespace Verif.Sched

theorem inv_init {dom : Dom} {p : Plan} {cap : Res → Int} (ho : Ordinary dom) (hp : p.Feasible dom cap)
    (hs : p.Sound dom) (hu : ∀ r ∈ dom.resUnits, 0 ≤ cap r) {d0 : Draw}
    (hd : ∀ r ∈ dom.resTypes ++ dom.resUnits, d0.avail r = cap r) : Inv dom p cap (initState dom d0) := by
  have hi := initState_acc dom d0 ho.nodup
  have hrem : (initState dom d0).remaining = dom.tasks := ho.unconditional
  refine ⟨?_, initState_cap False dom d0 ho.nodup (fun h => h.elim), ?_, ?_, ?_, ?_⟩
  · refine ⟨initState_safe d0 ho.nodup, hi.1, hi.2.1, ?_, rfl, rfl, ?_, ?_, d0.avail, roomy_of ho hp hs hu hd, ?_⟩
    · have hn : ∀ (l : List Res) (m : Dict Res Int), m.keys.Nodup →
          (Dict.keys (l.foldl (fun m r => Dict.set m r (d0.avail r)) m)).Nodup := by
        intro l
        induction l with
        | nil => exact fun m h => h
        | cons r l ih => exact fun m h => ih _ (Dict.nodup_keys_set _ _ h)
      have := hn (dom.resTypes ++ dom.resUnits) [] (by simp [Dict.keys])
      show (List.map _ (List.map _ _)).Nodup
      rw [List.map_map]
      exact this
    · intro x hx; cases hx
    · intro x
      simp [allOf, initState]
    · intro r hr
      rw [(initState_get dom d0 r).1, if_pos hr]
  · intro x hx
    rw [hrem] at hx
    exact hp.start x hx
  · intro x hx hr
    rw [hrem] at hr
    exact absurd hx hr
  · intro r hr
    have hr' : r ∈ dom.resTypes ++ dom.resUnits := List.mem_append_left _ hr
    rw [(initState_get dom d0 r).1, if_pos hr', hd r hr']
  · intro r hr _
    have hr' : r ∈ dom.resTypes ++ dom.resUnits := List.mem_append_left _ hr
    have hb : begun dom (initState dom d0) = [] := by
      refine List.eq_nil_iff_forall_not_mem.2 fun x hx => ?_
      obtain ⟨h1, h2⟩ := mem_begun.1 hx
      rw [hrem] at h2
      exact h2 h1
    rw [hb]
    unfold val
    rw [(initState_get dom d0 r).2, if_pos hr']
    rfl

/-- Every remaining task of the plan still finds its non-renewable resources. -/
theorem Inv.possible {dom : Dom} {p : Plan} {cap : Res → Int} {st : State} (ho : Ordinary dom)
    (hp : p.Feasible dom cap) (hI : Inv dom p cap st) : allTasksPossible dom st = .ok true := by
  obtain ⟨b, h1, h2⟩ := allTasksPossible_spec ho.wf hI.live.safe
    (fun x hx => ⟨_, hp.mode x (hI.live.safe.inTasks x (.inl hx))⟩)
  suffices b = true by rw [h1, this]
  refine h2.2 fun x hx => ?_
  have hxt := hI.live.safe.inTasks x (.inl hx)
  obtain ⟨ms, dd, g1, g2⟩ := hp.mode x hxt
  refine ⟨_, ms, dd, g1, g2, fun r hr hb => ?_⟩
  rw [← needOf_eq g1 g2 r, val_of_get (hI.track.avail r hr), hI.track.consumed r hr hb]
  have h6 := Pile.sum_le_of_subset (f := needOf dom p.mode r)
    (x :: begun dom st) dom.tasks
    (List.nodup_cons.2 ⟨by simp [mem_begun, hx], begun_nodup ho.nodup st⟩) (by
      intro y hy
      rcases List.mem_cons.1 hy with rfl | hy
      · exact hxt
      · exact (mem_begun.1 hy).1) (fun y _ => needOf_nonneg ho.constant p.mode r y)
  rw [List.map_cons, List.sum_cons] at h6
  have := hp.consumed r hr hb
  omega

/-- What is recorded for a task that is complete. -/
theorem Inv.record {dom : Dom} {p : Plan} {cap : Res → Int} {st : State}
    (hp : p.Feasible dom cap) (hs : p.Sound dom) (hI : Inv dom p cap st) {x : TaskId} (hx : x ∈ dom.tasks)
    (hc : x ∈ st.complete) : st.mode.get? x = some (p.mode x) ∧ p.start x + p.dur x ≤ st.t ∧
      ∃ i, st.details.get? x = some i ∧ i.start = some (p.start x) ∧ i.finish = some (p.start x + p.dur x) := by
  have hnr : x ∉ st.remaining := by
    intro h
    have := nodup_count hI.live.safe.nodup x
    rw [count_allOf] at this
    have a1 := List.count_pos_iff.2 h
    have a2 := List.count_pos_iff.2 hc
    omega
  have hno : x ∉ st.ongoing := by
    intro h
    have := nodup_count hI.live.safe.nodup x
    rw [count_allOf] at this
    have a1 := List.count_pos_iff.2 h
    have a2 := List.count_pos_iff.2 hc
    omega
  obtain ⟨h1, h2, h3, h4⟩ := hI.track.past x hx hnr
  have h5 := hp.dur x hx
  have h6 := hs.short x hx
  refine ⟨h2, ?_⟩
  by_cases h0 : p.dur x = 0
  · obtain ⟨_, i, g1, g2, g3⟩ := h3 h0
    exact ⟨by omega, i, g1, g2, by rw [g3, h0, Int.add_zero]⟩
  · rcases h4 (by omega) with ⟨g, _⟩ | ⟨_, e, g1, g2, g3, i, g4, g5, g6⟩
    · exact absurd g hno
    · have he : e = p.dur x := by omega
      subst he
      exact ⟨g3, i, g4, g5, g6⟩

/-- One action of the Gantt policy on the way of the plan. -/
theorem gantt_step {dom : Dom} {p : Plan} {cap : Res → Int} {st : State} (ho : Ordinary dom)
    (hp : p.Feasible dom cap) (hs : p.Sound dom) (hu : ∀ r ∈ dom.resUnits, 0 ≤ cap r) (hI : Inv dom p cap st)
    {pol : Policy} {sched : Dict TaskId Int} (h1 : pol.schedule = some sched) (h2 : pol.alloc = none)
    (h3 : ∀ x ∈ dom.tasks, ∀ s, (x, s) ∈ sched ↔ s = p.start x)
    (h4 : ∀ x ∈ dom.tasks, pol.modes.get? x = some (p.mode x))
    {ord : List TaskId → List TaskId} (hord : ∀ l, (ord l).Perm l) :
    ∃ a, pol.gantt ord dom st = .ok a ∧ ∀ d, Drawn dom p cap a d → ∃ st', nextState dom d st a = .ok st' ∧
      Inv dom p cap st' ∧
      ((∃ x ∈ st.remaining, p.start x = st.t ∧ a = startIn x (p.mode x)) ∧ st'.t = st.t ∧
          st'.remaining.length + 1 = st.remaining.length ∨
       (∀ x ∈ st.remaining, st.t < p.start x) ∧ a = timeAction ∧ st'.t = st.t + 1 ∧
          st'.remaining.length = st.remaining.length) := by
  have hmem : ∀ x, x ∈ ((startingAt ord sched st.t).filter fun x =>
      decide (x ∉ st.ongoing) && decide (x ∉ st.complete) && decide (x ∈ possiblePrecedence dom st)) ↔
      (x ∈ st.remaining ∧ (∀ q ∈ dom.preds x, q ∈ st.complete)) ∧ p.start x = st.t := by
    intro x
    simp only [List.mem_filter, startingAt, (hord _).mem_iff, List.mem_map, Bool.and_eq_true, decide_eq_true_eq,
      possiblePrecedence_mem]
    constructor
    · rintro ⟨⟨⟨y, s⟩, ⟨g1, g2⟩, g3⟩, _, g4⟩
      simp only at g2 g3
      subst g2; subst g3
      exact ⟨g4, ((h3 y (hI.live.safe.inTasks y (.inl g4.1)) _).1 g1).symm⟩
    · rintro ⟨g1, g2⟩
      have hxt := hI.live.safe.inTasks x (.inl g1.1)
      refine ⟨⟨(x, st.t), ⟨(h3 x hxt _).2 g2.symm, rfl⟩, rfl⟩, ⟨notOngoing_of_remaining hI.live.safe.nodup g1.1, ?_⟩, g1⟩
      intro hc
      have := nodup_count hI.live.safe.nodup x
      rw [count_allOf] at this
      have a1 := List.count_pos_iff.2 g1.1
      have a2 := List.count_pos_iff.2 hc
      omega
  cases hc : ((startingAt ord sched st.t).filter fun x =>
      decide (x ∉ st.ongoing) && decide (x ∉ st.complete) && decide (x ∈ possiblePrecedence dom st)) with
  | nil =>
    have e : pol.gantt ord dom st = .ok timeAction := by
      unfold Policy.gantt
      simp only [h1, hc]
    refine ⟨_, e, fun d hd => ?_⟩
    have hx : ∀ x ∈ st.remaining, st.t < p.start x := by
      intro x hx
      have := hI.track.rem x hx
      by_contra hlt
      obtain ⟨y, g1, g2, g3⟩ := ready_exists ho hp hI ⟨x, hx, by omega⟩
      have := (hmem y).2 ⟨⟨g1, g3⟩, g2⟩
      rw [hc] at this
      cases this
    obtain ⟨st', g1, g2, g3, g4⟩ := inv_time ho hp hs hu hI hx hd.2
    exact ⟨st', g1, g2, .inr ⟨hx, rfl, g3, g4⟩⟩
  | cons x rest =>
    obtain ⟨⟨g1, g2⟩, g3⟩ := (hmem x).1 (by rw [hc]; simp)
    have hxt := hI.live.safe.inTasks x (.inl g1)
    have hacc : Accepted dom st (startIn x (p.mode x)) :=
      (inv_start (d := ⟨p.dur x, cap⟩) ho hp hs hI g1 g3 rfl).1
    have e : pol.gantt ord dom st = .ok (startIn x (p.mode x)) := by
      unfold Policy.gantt
      simp only [h1, hc]
      obtain ⟨use, hacc⟩ := hacc
      have e1 : pol.startAction x = .ok (startIn x (p.mode x)) := by
        unfold Policy.startAction
        rw [Dict.get_ok_iff.2 (h4 x hxt), bind_ok, h2]
        rfl
      rw [Policy.tryTasks, e1, bind_ok, hacc, bind_ok]
      rfl
    refine ⟨_, e, fun d hd => ?_⟩
    obtain ⟨st', k1, k2, k3, k4, _⟩ := (inv_start ho hp hs hI g1 g3 (hd.1 x hxt rfl rfl)).2
    exact ⟨st', k1, k2, .inl ⟨⟨x, g1, g3, rfl⟩, k3, k4⟩⟩

theorem follow_plan {dom : Dom} {p : Plan} {cap : Res → Int} (ho : Ordinary dom)
    (hp : p.Feasible dom cap) (hs : p.Sound dom) (hu : ∀ r ∈ dom.resUnits, 0 ≤ cap r)
    {pol : Policy} {sched : Dict TaskId Int} (h1 : pol.schedule = some sched) (h2 : pol.alloc = none)
    (h3 : ∀ x ∈ dom.tasks, ∀ s, (x, s) ∈ sched ↔ s = p.start x)
    (h4 : ∀ x ∈ dom.tasks, pol.modes.get? x = some (p.mode x))
    {ord : List TaskId → List TaskId} (hord : ∀ l, (ord l).Perm l) {draw : State → Action → Draw}
    (hdr : ∀ st a, Drawn dom p cap a (draw st a)) {dT dI T : Int}
    (hT : ∀ x ∈ dom.tasks, p.start x + p.dur x ≤ T) (hT' : ∃ x ∈ dom.tasks, p.start x + p.dur x = T)
    (hH : T ≤ dom.horizon) :
    ∀ (n : Nat) (st : State), Inv dom p cap st → isGoal st = false → st.t ≤ T →
      st.remaining.length + (T - st.t).toNat ≤ n →
      ∃ st', pol.follow .gantt ord dT dI dom draw n st = .ok st' ∧ Inv dom p cap st' ∧ isGoal st' = true ∧ st'.t = T := by
  intro n
  induction n with
  | zero =>
    intro st hI hg ht hn
    exfalso
    have hr : st.remaining = [] := List.length_eq_zero_iff.1 (by omega)
    simp only [isGoal, hr, hI.live.nopause, List.isEmpty_nil, Bool.true_and, Bool.and_true] at hg
    obtain ⟨x, hx⟩ : ∃ x, x ∈ st.ongoing := by
      cases ho : st.ongoing with
      | nil => rw [ho] at hg; cases hg
      | cons x l => exact ⟨x, by simp⟩
    obtain ⟨g1, _, g2, _⟩ := hI.running hp hx
    have := hT x g1
    omega
  | succ n ih =>
    intro st hI hg ht hn
    obtain ⟨a, ha, hstep⟩ := gantt_step ho hp hs hu hI h1 h2 h3 h4 hord
    obtain ⟨st', e, hI', hcase⟩ := hstep (draw st a) (hdr st a)
    have hpos := hI'.possible ho hp
    have hm : st'.t ≤ T ∧ st'.remaining.length + (T - st'.t).toNat ≤ n := by
      rcases hcase with ⟨⟨x, hx, hx2, _⟩, k1, k2⟩ | ⟨hx, _, k1, k2⟩
      · exact ⟨by omega, by rw [k1]; omega⟩
      · have hlt : st.t < T := by
          cases hr : st.remaining with
          | nil =>
            simp only [isGoal, hr, hI.live.nopause, List.isEmpty_nil, Bool.true_and, Bool.and_true] at hg
            obtain ⟨x, hx⟩ : ∃ x, x ∈ st.ongoing := by
              cases ho : st.ongoing with
              | nil => rw [ho] at hg; cases hg
              | cons x l => exact ⟨x, by simp⟩
            obtain ⟨g1, _, g2, _⟩ := hI.running hp hx
            have := hT x g1
            omega
          | cons x l =>
            have hx' : x ∈ st.remaining := by rw [hr]; simp
            have g0 := hx x hx'
            have hxt := hI.live.safe.inTasks x (.inl hx')
            have := hT x hxt
            have := hp.dur x hxt
            omega
        exact ⟨by omega, by rw [k1]; omega⟩
    have hter : isTerminal dom st' = .ok (isGoal st') := by
      unfold isTerminal
      rw [hpos, bind_ok]
      have : ¬ dom.horizon < st'.t := by omega
      simp [this]
      rfl
    have eq : pol.follow .gantt ord dT dI dom draw (n + 1) st =
        if isGoal st' then .ok st' else pol.follow .gantt ord dT dI dom draw n st' := by
      rw [Policy.follow, Policy.next, ha, bind_ok, e, bind_ok, hter, bind_ok]
      rfl
    rw [eq]
    cases hg' : isGoal st' with
    | false =>
      simp only [Bool.false_eq_true, if_false]
      exact ih st' hI' hg' hm.1 hm.2
    | true =>
      simp only [if_true]
      refine ⟨st', rfl, hI', hg', ?_⟩
      obtain ⟨x, hx, hxT⟩ := hT'
      have hc : x ∈ st'.complete := by
        simp only [isGoal, Bool.and_eq_true, List.isEmpty_iff] at hg'
        have hmem := (hI'.live.all x).2 (by rw [ho.unconditional]; exact hx)
        simpa [allOf, hg'.1.1, hg'.1.2, hg'.2] using hmem
      have := (hI'.record hp hs hx hc).2.1
      omega

end Verif.Sched
