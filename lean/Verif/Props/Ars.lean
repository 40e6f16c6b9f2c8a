import Verif.Lemmas.Ars

/-! Properties C167 and C168: augmented random search and its running statistics. -/
namespace Verif.Ars
open Verif.Cgp (Kind Given Result Item normFlat Wide Sound cells Member)

variable {E : Type}

/-! ### C167: augmented random search -/

/-- A domain that answers with the rewards of a list, whatever the actions; an observation of one cell, one of two choices. -/
def scripted : Env (List (Option Rat)) where
  obs := .single (.box [1] [(some (-1), some 1)])
  act := .single (.discrete 2)
  reset := fun e => (e, [1])
  step := fun e _ => match e with
    | [] => ([], [1], some 0, true)
    | r :: rest => (rest, [1], r, false)

/-- A domain of one step whose reward is a function of the action. -/
def oneStep (f : Rat → Rat) : Env Unit where
  obs := .single (.box [1] [(some (-1), some 1)])
  act := .single (.box [1] [(some (-1), some 1)])
  reset := fun _ => ((), [1])
  step := fun _ a => ((), [1], some (match a with
    | .many [.real (some x)] => f x
    | _ => 0), true)

theorem oneStep_fits (f : Rat → Rat) : Fits (oneStep f) where
  flatObs := by intro p hp; simp only [oneStep, Space.parts, List.mem_singleton] at hp; subst hp; rfl
  flatAct := by intro p hp; simp only [oneStep, Space.parts, List.mem_singleton] at hp; subst hp; rfl
  wide := ⟨by intro b hb; simp only [List.mem_singleton] at hb; subst hb; exact ⟨-1, 1, rfl, by norm_num⟩, trivial⟩
  sound := ⟨by intro b hb; simp only [List.mem_singleton] at hb; subst hb; exact ⟨-1, 1, rfl, by norm_num⟩, trivial⟩
  resets := fun _ => rfl
  steps := fun _ _ => rfl

/-- On a domain with spaces that are supported, solving with at least one epoch raises nothing, whatever the rewards and
draws. The policy then gives an action of the space for every observation, and the last reward is at most the number of steps. -/
theorem C167_solve (c : Config) (env : Env E) (h : Fits env) (std : List Rat → Rat) (draws : List (List Mat)) (e : E)
    (ht : c.top ≤ c.directions) (hd : draws ≠ [])
    (hs : ∀ ds ∈ draws, ds.length = c.directions ∧ ∀ d ∈ ds, Shape (cells env.act.given.kinds) (cells env.obs.given.kinds) d) :
    ∃ cols p r e', solve c env std draws e = .ok (cols, p, r, e') ∧ Shape (cells env.act.given.kinds) (cells env.obs.given.kinds) p ∧
      -(c.epochSize : Rat) ≤ r ∧ r ≤ c.epochSize ∧
      ∀ obs : List Rat, obs.length = cells env.obs.given.kinds → ∃ a, action env cols p obs = .ok a ∧
        ∃ items, Member env.act.given.kinds items ∧ (a = .many items ∨ ∃ x, a = .one x ∧ items = [x]) := by
  have key : ∀ (draws : List (List Mat)) (p : Mat) (r : Option Rat) (e : E),
      (∀ ds ∈ draws, ds.length = c.directions ∧ ∀ d ∈ ds, Shape (cells env.act.given.kinds) (cells env.obs.given.kinds) d) →
      Shape (cells env.act.given.kinds) (cells env.obs.given.kinds) p → (draws ≠ [] ∨ ∃ r0, r = some r0 ∧ -(c.epochSize : Rat) ≤ r0 ∧ r0 ≤ c.epochSize) →
      ∃ p' r' e', epochs c env std (cells env.act.given.kinds) (cells env.obs.given.kinds) draws p r e = .ok (p', r', e') ∧
        Shape (cells env.act.given.kinds) (cells env.obs.given.kinds) p' ∧ -(c.epochSize : Rat) ≤ r' ∧ r' ≤ c.epochSize := by
    intro draws
    induction draws with
    | nil =>
      intro p r e _ hp hr
      obtain ⟨r0, rfl, h1, h2⟩ := hr.resolve_left (fun h => h rfl)
      exact ⟨p, r0, e, rfl, hp, h1, h2⟩
    | cons ds rest ih =>
      intro p r e hs hp _
      obtain ⟨hl, hds⟩ := hs ds List.mem_cons_self
      obtain ⟨pos, e1, x1⟩ := explores_ok h c.epochSize (ds.map (fun d => axpy p c.noise d)) e (by
        intro m hm; obtain ⟨d, hd, rfl⟩ := List.mem_map.mp hm; exact hp.axpy (hds d hd) _)
      obtain ⟨neg, e2, x2⟩ := explores_ok h c.epochSize (ds.map (fun d => axpy p (-c.noise) d)) e1 (by
        intro m hm; obtain ⟨d, hd, rfl⟩ := List.mem_map.mp hm; exact hp.axpy (hds d hd) _)
      have hp' := update_shape c hp (chosen c pos neg ds) (chosen_shape c pos neg hl hds) (std (pos ++ neg))
      obtain ⟨r', e3, x3⟩ := explore_ok h hp' c.epochSize e2
      obtain ⟨b1, b2⟩ := explore_bounds x3
      obtain ⟨p2, r2, e4, y1, y2, y3⟩ := ih _ (some r') e3 (fun ds' hds' => hs ds' (List.mem_cons_of_mem _ hds')) hp' (Or.inr ⟨r', rfl, b1, b2⟩)
      exact ⟨p2, r2, e4, by simp only [epochs, epoch, x1, x2, x3, y1], y2, y3⟩
  obtain ⟨p, r, e', k1, k2, k3, k4⟩ := key draws _ none e hs (shape_zeros _ _) (Or.inl hd)
  refine ⟨cells env.obs.given.kinds, p, r, e', ?_, k2, k3, k4, fun obs ho => action_ok h k2 obs ho⟩
  simp only [solve, if_pos ht, space_dim _ h.flatObs, space_dim _ h.flatAct, k1]

/-- The example: rewards grow with the action; two directions, the better one used. -/
example : (solve ⟨1, 2, 1, 1 / 4, 1 / 2, true⟩ (oneStep (fun x => x)) (fun _ => 1 / 4) [[[[1]], [[1 / 2]]]] ()).map (fun r => (r.1, r.2.1, r.2.2.1)) =
    .ok (1, [[1]], 1) := by decide +kernel

/-- One epoch: the policy moves by the perturbations of the directions with the best scores, each weighted with how much
more its positive side earned, times the learning rate over the number of directions and the deviation; not at all when the
deviation is zero. The score of a direction is the better of its two rewards. -/
theorem C167_update (c : Config) (env : Env E) (std : List Rat → Rat) (rows cols : Nat) (deltas : List Mat) (policy policy' : Mat) (e e' : E) (r : Rat)
    (ht : c.top ≤ c.directions) (hl : deltas.length = c.directions) (hd : ∀ d ∈ deltas, Shape rows cols d) (hp : Shape rows cols policy)
    (h : epoch c env std rows cols deltas policy e = .ok (policy', r, e')) :
    ∃ (pos neg : List Rat) (e1 e2 : E) (order : List Nat),
      explores env c.epochSize cols (deltas.map (fun d => axpy policy c.noise d)) e = .ok (pos, e1) ∧
      explores env c.epochSize cols (deltas.map (fun d => axpy policy (-c.noise) d)) e1 = .ok (neg, e2) ∧
      explore env c.epochSize cols policy' e2 = .ok (r, e') ∧
      order.Nodup ∧ order.length = c.top ∧ (∀ k ∈ order, k < c.directions) ∧
      (∀ k ∈ order, ∀ j < c.directions, j ∉ order →
        (c.maximize = true → max (pos.getD j 0) (neg.getD j 0) ≤ max (pos.getD k 0) (neg.getD k 0)) ∧
        (c.maximize = false → max (pos.getD k 0) (neg.getD k 0) ≤ max (pos.getD j 0) (neg.getD j 0))) ∧
      ∀ i < rows, ∀ j < cols, entry policy' i j = entry policy i j +
        (if std (pos ++ neg) = 0 then 0 else c.rate / ((c.top : Rat) * std (pos ++ neg)) *
          (order.map (fun k => (pos.getD k 0 - neg.getD k 0) * entry (deltas.getD k []) i j)).sum) := by
  simp only [epoch] at h
  split at h
  · cases h
  rename_i pos e1 h1
  split at h
  · cases h
  rename_i neg e2 h2
  split at h
  · cases h
  rename_i r' e3 h3
  simp only [Except.ok.injEq, Prod.mk.injEq] at h
  obtain ⟨rfl, rfl, rfl⟩ := h
  obtain ⟨order, o1, o2, o3, o4, o5⟩ := top_best c.maximize (fun k => max (pos.getD k 0) (neg.getD k 0)) c.directions c.top ht
  refine ⟨pos, neg, e1, e2, order, h1, h2, h3, o2, o3, o4, ?_, ?_⟩
  · intro k hk j hj hn
    have := o5 k hk j hj hn
    constructor
    · intro hm; rw [hm] at this; exact this
    · intro hm; rw [hm] at this; exact this
  · intro i hi j hj
    have hc : chosen c pos neg deltas = order.map (fun k => (pos.getD k 0, neg.getD k 0, deltas.getD k [])) := by rw [o1]; rfl
    rw [update_entry c hp _ (chosen_shape c pos neg hl hd) (by rw [hc, List.length_map, o3]) _ hi hj, hc, List.map_map]
    rfl

example : (epoch ⟨1, 2, 1, 1 / 4, 1 / 2, true⟩ (oneStep (fun x => x)) (fun _ => 1 / 4) 1 1 [[[1 / 2]], [[-1]]] [[0]] ()).map (fun r => (r.1, r.2.1)) = .ok ([[1]], 1) ∧
    (epoch ⟨1, 2, 1, 1 / 4, 1 / 2, false⟩ (oneStep (fun x => x)) (fun _ => 1 / 4) 1 1 [[[1 / 2]], [[-1]]] [[0]] ()).map (fun r => (r.1, r.2.1)) = .ok ([[1 / 4]], 1 / 4) :=
  ⟨by decide +kernel, by decide +kernel⟩

/-- Asking for small rewards makes no difference when all directions are used: the policy still moves to the larger
rewards. -/
theorem C167_minimize_refuted (c : Config) (env : Env E) (std : List Rat → Rat) (rows cols : Nat) (deltas : List Mat) (policy : Mat) (e : E)
    (ht : c.top = c.directions) (hl : deltas.length = c.directions) (hd : ∀ d ∈ deltas, Shape rows cols d) (hp : Shape rows cols policy) :
    epoch { c with maximize := false } env std rows cols deltas policy e = epoch { c with maximize := true } env std rows cols deltas policy e := by
  simp only [epoch]
  cases explores env c.epochSize cols (deltas.map (fun d => axpy policy c.noise d)) e with
  | error err => rfl
  | ok x =>
    obtain ⟨pos, e1⟩ := x
    dsimp only
    cases explores env c.epochSize cols (deltas.map (fun d => axpy policy (-c.noise) d)) e1 with
    | error err => rfl
    | ok x =>
      obtain ⟨neg, e2⟩ := x
      dsimp only
      have hlen : ∀ m, (chosen { c with maximize := m } pos neg deltas).length = c.top := by
        intro m
        simp only [chosen, List.length_map, List.length_take, (sortScores_perm _ _ _).length_eq, List.length_range]
        omega
      have hperm : (chosen { c with maximize := false } pos neg deltas).Perm (chosen { c with maximize := true } pos neg deltas) := by
        simp only [chosen]
        refine List.Perm.map _ ?_
        rw [List.take_of_length_le (by rw [(sortScores_perm _ _ _).length_eq, List.length_range]; omega),
          List.take_of_length_le (by rw [(sortScores_perm _ _ _).length_eq, List.length_range]; omega)]
        exact (sortScores_perm _ _ _).trans (sortScores_perm _ _ _).symm
      have : update { c with maximize := false } policy rows cols (chosen { c with maximize := false } pos neg deltas) (std (pos ++ neg)) =
          update { c with maximize := true } policy rows cols (chosen { c with maximize := true } pos neg deltas) (std (pos ++ neg)) := by
        refine Shape.ext (update_shape _ hp _ (chosen_shape { c with maximize := false } pos neg hl hd) _)
          (update_shape _ hp _ (chosen_shape { c with maximize := true } pos neg hl hd) _) ?_
        intro i hi j hj
        rw [update_entry { c with maximize := false } hp _ (chosen_shape { c with maximize := false } pos neg hl hd) (hlen false) _ hi hj,
          update_entry { c with maximize := true } hp _ (chosen_shape { c with maximize := true } pos neg hl hd) (hlen true) _ hi hj]
        rw [(hperm.map (fun r => (r.1 - r.2.1) * entry r.2.2 i j)).sum_eq]
      rw [this]

/-- Small rewards asked for, rewards that grow with the action: the policy goes from reward 0 to reward 1. -/
example : (explore (oneStep (fun x => x)) 1 1 [[0]] ()).map (·.1) = .ok 0 ∧
    (solve ⟨1, 1, 1, 1 / 2, 1 / 2, false⟩ (oneStep (fun x => x)) (fun _ => 1 / 2) [[[[1]]]] ()).map (fun r => (r.2.1, r.2.2.1)) = .ok ([[1]], 1) :=
  ⟨by decide +kernel, by decide +kernel⟩

/-- An episode takes at most as many steps as the size of an epoch: no count that grows by at most one in each step, and
not at the start, grows by more. -/
theorem C167_steps (env : Env E) (count : E → Nat) (hr : ∀ e, count (env.reset e).1 ≤ count e) (hs : ∀ e a, count (env.step e a).1 ≤ count e + 1)
    (steps cols : Nat) (m : Mat) (e e' : E) (r : Rat) (h : explore env steps cols m e = .ok (r, e')) : count e' ≤ count e + steps := by
  have key : ∀ (k : Nat) (e : E) (obs : List Rat) (acc r : Rat) (e' : E), play env cols m k e obs acc = .ok (r, e') → count e' ≤ count e + k := by
    intro k
    induction k with
    | zero => intro e obs acc r e' h; simp only [play, Except.ok.injEq, Prod.mk.injEq] at h; rw [h.2]; omega
    | succ k ih =>
      intro e obs acc r e' h
      simp only [play] at h
      split at h
      · cases h
      · rename_i a _
        have h1 := hs e a
        rcases hout : env.step e a with ⟨e1, o1, r1, d⟩
        simp only [hout] at h h1
        cases d with
        | true =>
          simp only [if_true, Except.ok.injEq, Prod.mk.injEq] at h
          rw [← h.2]; omega
        | false => have := ih _ _ _ _ _ h; omega
  have h1 : count e' ≤ count (env.reset e).1 + steps := key steps _ _ _ _ _ h
  have h2 := hr e
  omega

/-- The reward of an episode: each reward is cut to [-1, 1], those that are no numbers are left out, and the episode stops
at the size of an epoch. -/
theorem C167_rewards (rewards : List (Option Rat)) (steps : Nat) (p : Rat) :
    (explore scripted steps 1 [[p]] rewards).map (·.1) =
      .ok ((((rewards.take steps).filterMap id).map (fun r => if 1 < r then 1 else if r < -1 then -1 else r)).sum) := by
  have hcut : ∀ r : Rat, max (min r 1) (-1) = if 1 < r then 1 else if r < -1 then -1 else r := by
    intro r
    by_cases h1 : 1 < r
    · rw [if_pos h1, min_eq_right (le_of_lt h1)]; decide +kernel
    · rw [if_neg h1, min_eq_left (not_lt.mp h1)]
      by_cases h2 : r < -1
      · rw [if_pos h2, max_eq_right (le_of_lt h2)]
      · rw [if_neg h2, max_eq_left (not_lt.mp h2)]
  have hact : ∃ a, action scripted 1 [[p]] [1] = .ok a := by
    obtain ⟨x, h1, h2, _⟩ := normFlat_ok [.box [(some (-1), some 1)]] [1]
      ⟨by intro b hb; simp only [List.mem_singleton] at hb; subst hb; exact ⟨-1, 1, rfl, by norm_num⟩, trivial⟩ rfl
    obtain ⟨r, h3, _⟩ := denorm_ok (.single (.discrete 2)) [inner [p] x] ⟨by decide, trivial⟩ (Nat.le_refl 1)
    refine ⟨r, ?_⟩
    have h1' : normFlat scripted.obs.given.kinds [1] = .ok x := h1
    have h2' : x.length = 1 := h2
    simp only [action, h1', dot, h2', if_true]
    exact h3
  obtain ⟨a, ha⟩ := hact
  have key : ∀ (steps : Nat) (rewards : List (Option Rat)) (acc : Rat), (play scripted 1 [[p]] steps rewards [1] acc).map (·.1) =
      .ok (acc + (((rewards.take steps).filterMap id).map (fun r => if 1 < r then 1 else if r < -1 then -1 else r)).sum) := by
    intro steps
    induction steps with
    | zero => intro rewards acc; simp [play, Except.map]
    | succ k ih =>
      intro rewards acc
      simp only [play, ha]
      cases rewards with
      | nil =>
        simp only [scripted, if_true, Except.map, List.take_nil, List.filterMap_nil, List.map_nil, List.sum_nil, add_zero, addReward]
        congr 1
        rw [hcut]
        norm_num
      | cons r rest =>
        have hs : scripted.step (r :: rest) a = (rest, [1], r, false) := rfl
        simp only [hs]
        rw [if_neg (by decide), ih]
        cases r with
        | none => simp [addReward]
        | some r =>
          simp only [addReward, hcut, List.take_succ_cons, List.filterMap_cons, id, List.map_cons, List.sum_cons, add_assoc]
  have := key steps rewards 0
  rw [zero_add] at this
  exact this

/-- A reward of 100 counts as one of 1, one that is no number not at all. -/
example : (explore scripted 3 1 [[5]] [some 100, none, some (-1 / 2), some 1]).map (·.1) = .ok (1 / 2) := by decide +kernel

/-- The last policy need not be the best one: here the first policy of all earns 1, the only one kept earns 1/2. -/
theorem C167_best_refuted : let f : Rat → Rat := fun x => if x = 0 then 1 else if 0 < x then 1 / 2 else 0
    (explore (oneStep f) 1 1 [[0]] ()).map (·.1) = .ok 1 ∧
    (solve ⟨1, 1, 1, 1 / 4, 1 / 2, true⟩ (oneStep f) (fun _ => 1 / 4) [[[[1]]]] ()).map (fun r => (r.2.1, r.2.2.1)) = .ok ([[1 / 2]], 1 / 2) :=
  ⟨by decide +kernel, by decide +kernel⟩

/-- Errors: more directions kept than there are, no epoch. -/
theorem C167_setup (c : Config) (env : Env E) (h : Fits env) (std : List Rat → Rat) (draws : List (List Mat)) (e : E) :
    (c.directions < c.top → solve c env std draws e = .error .assertionError) ∧
    (c.top ≤ c.directions → solve c env std [] e = .error .nameError) := by
  constructor
  · intro ht; simp only [solve, if_neg (show ¬ c.top ≤ c.directions by omega)]
  · intro ht
    simp only [solve, if_pos ht, space_dim _ h.flatObs, space_dim _ h.flatAct, epochs]

example : Fits (oneStep (fun x => x)) := oneStep_fits _

/-- Observations from a box of more than one dimension: the policy has as many columns as the first dimension, so the first
action raises ValueError. With a box of no dimension, IndexError. -/
theorem C167_box_refuted (c : Config) (env : Env E) (std : List Rat → Rat) (d : Mat) (ds : List Mat) (rest : List (List Mat)) (e : E)
    (shape : List Nat) (bounds : List (Option Rat × Option Rat)) (hobs : env.obs = .single (.box shape bounds)) (hact : env.act = .single (.discrete 2))
    (hw : Wide [.box bounds]) (hlen : (env.reset e).2.length = bounds.length) (ht : c.top ≤ c.directions) (hn : 0 < c.epochSize) :
    (∀ k more, shape = k :: more → k ≠ bounds.length → solve c env std ((d :: ds) :: rest) e = .error .valueError) ∧
    (shape = [] → solve c env std ((d :: ds) :: rest) e = .error .indexError) := by
  constructor
  · rintro k more rfl hk
    obtain ⟨x, h1, h2, _⟩ := normFlat_ok [.box bounds] (env.reset e).2 hw (by simpa [cells] using hlen)
    have hx : x.length ≠ k := by rw [h2]; simp only [cells]; omega
    obtain ⟨n, hn'⟩ : ∃ n, c.epochSize = n + 1 := ⟨c.epochSize - 1, by omega⟩
    have h1' : normFlat env.obs.given.kinds (env.reset e).2 = .ok x := by rw [hobs]; exact h1
    have hp : ∀ m, explore env c.epochSize k m e = .error .valueError := by
      intro m
      simp only [explore, hn', play, action, h1', dot, if_neg hx]
    simp only [solve, if_pos ht, hobs, hact, Space.dim, Part.dim, epochs, epoch, List.map_cons, explores, hp]
  · rintro rfl
    simp only [solve, if_pos ht, hobs, Space.dim, Part.dim]

/-- A box of two rows of two cells. -/
example : (solve ⟨1, 1, 1, 1, 1, true⟩ ⟨.single (.box [2, 2] (List.replicate 4 (some (-1), some 1))), .single (.discrete 2), fun e => (e, [0, 0, 0, 0]), fun e _ => (e, [0, 0, 0, 0], some 0, true)⟩
    (fun _ => 1) [[[[1, 1]]]] ()).map (·.1) = .error .valueError := by decide +kernel

/-! ### C168: running statistics -/

/-- After observing rows: per component the number of rows, their mean, the sum of squared distances to the mean, and the
variance, at least 1/100. -/
theorem C168_observe (k : Nat) (rows : List (List Rat)) (hne : rows ≠ []) (hr : ∀ r ∈ rows, r.length = k) :
    ∃ s, observeAll (start k) rows = .ok s ∧ s.length = k ∧ ∀ j < k, ∃ c, s[j]? = some c ∧
      c.n = rows.length ∧ c.mean = (column rows j).sum / rows.length ∧
      c.diff = ((column rows j).map (fun x => (x - c.mean) * (x - c.mean))).sum ∧ c.var = max (c.diff / rows.length) (1 / 100) := by
  obtain ⟨s, h1, h2, h3⟩ := observeAll_ok k rows (start k) (by simp [start]) hr
  refine ⟨s, h1, h2, fun j hj => ⟨_, h3 j _ (start_get k j hj), ?_⟩⟩
  have hc : column rows j ≠ [] := by simpa [column] using hne
  have hl : (column rows j).length = rows.length := by simp [column]
  obtain ⟨c1, c2, c3, c4⟩ := cell_stats _ hc
  rw [hl] at c1 c2 c3 c4
  exact ⟨c1, c2, by rw [c2]; exact c3, c4⟩

example : observeAll (start 2) [[1, 5], [3, 5], [5, 5]] = .ok [⟨3, 3, 8, 8 / 3⟩, ⟨3, 5, 0, 1 / 100⟩] := by decide +kernel

/-- The order of the rows does not matter. -/
theorem C168_order (k : Nat) (rows rows' : List (List Rat)) (hp : rows.Perm rows') (hr : ∀ r ∈ rows, r.length = k) :
    observeAll (start k) rows = observeAll (start k) rows' := by
  by_cases hne : rows = []
  · subst hne; rw [List.nil_perm.mp hp]
  obtain ⟨s, a1, a2, a3⟩ := C168_observe k rows hne hr
  obtain ⟨s', b1, b2, b3⟩ := C168_observe k rows' (by rintro rfl; exact hne (List.perm_nil.mp hp)) (fun r h => hr r (hp.mem_iff.mpr h))
  rw [a1, b1]
  congr 1
  refine List.ext_getElem? fun j => ?_
  by_cases hj : j < k
  · obtain ⟨c, c0, c1, c2, c3, c4⟩ := a3 j hj
    obtain ⟨d, d0, d1, d2, d3, d4⟩ := b3 j hj
    have hcol : (column rows j).Perm (column rows' j) := hp.map _
    have hlen : rows.length = rows'.length := hp.length_eq
    have hm : c.mean = d.mean := by rw [c2, d2, hcol.sum_eq, hlen]
    have hd : c.diff = d.diff := by rw [c3, d3, hm, (hcol.map (fun x => (x - d.mean) * (x - d.mean))).sum_eq]
    rw [c0, d0]
    obtain ⟨n, m, df, v⟩ := c
    obtain ⟨n', m', df', v'⟩ := d
    simp only at *
    subst hm hd
    rw [c1, d1, c4, d4, hlen]
  · rw [List.getElem?_eq_none (by omega), List.getElem?_eq_none (by omega)]

/-- Normalising the rows observed, at least two: each component has mean zero, and mean square one unless its variance is
less than 1/100, and then less than one. -/
theorem C168_normalize (sqrt : Rat → Rat) (k : Nat) (rows : List (List Rat)) (s : List Cell) (hr : ∀ r ∈ rows, r.length = k) (hk : 0 < k)
    (h2 : 2 ≤ rows.length) (hs : observeAll (start k) rows = .ok s) (hq : ∀ c ∈ s, 0 < sqrt c.var ∧ sqrt c.var * sqrt c.var = c.var) :
    ∃ out : List (List Rat), rows.map (normalize sqrt s) = out.map .ok ∧ (∀ y ∈ out, y.length = k) ∧ ∀ j < k, (column out j).sum = 0 ∧
      ((column out j).map (fun y => y * y)).sum ≤ rows.length ∧
      (∀ c, s[j]? = some c → 1 / 100 ≤ c.diff / rows.length → ((column out j).map (fun y => y * y)).sum = rows.length) := by
  have hne : rows ≠ [] := by rintro rfl; simp at h2
  obtain ⟨s', a1, a2, a3⟩ := C168_observe k rows hne hr
  rw [hs, Except.ok.injEq] at a1
  subst a1
  have hlen0 : (0 : Rat) < rows.length := by exact_mod_cast (show 0 < rows.length by omega)
  refine ⟨rows.map (fun x => List.zipWith (fun (c : Cell) v => (v - c.mean) / sqrt c.var) s x), ?_, ?_, ?_⟩
  · rw [List.map_map]
    refine List.map_congr_left fun x hx => ?_
    obtain ⟨c, c0, c1, _⟩ := a3 0 hk
    cases s with
    | nil => simp at c0
    | cons c' t =>
      simp only [List.getElem?_cons_zero, Option.some.injEq] at c0
      subst c0
      have : ¬ c'.n ≤ 1 := by
        rw [c1]
        have : ((2 : Nat) : Rat) ≤ rows.length := by exact_mod_cast h2
        push_cast at this; linarith
      simp only [normalize, if_neg this, hr x hx, a2, if_true, Function.comp]
  · intro y hy
    obtain ⟨x, hx, rfl⟩ := List.mem_map.mp hy
    rw [List.length_zipWith, a2, hr x hx, Nat.min_self]
  · intro j hj
    obtain ⟨c, c0, c1, c2, c3, c4⟩ := a3 j hj
    obtain ⟨q1, q2⟩ := hq c (List.mem_of_getElem? c0)
    have hcol : column (rows.map (fun x => List.zipWith (fun (c : Cell) v => (v - c.mean) / sqrt c.var) s x)) j =
        (column rows j).map (fun x => (x - c.mean) / sqrt c.var) := by
      simp only [column, List.map_map]
      refine List.map_congr_left fun x hx => ?_
      have hxj : x[j]? = some (x.getD j 0) := by
        rw [List.getD_eq_getElem?_getD, List.getElem?_eq_getElem (by rw [hr x hx]; exact hj)]; rfl
      simp only [Function.comp, List.getD_eq_getElem?_getD, List.getElem?_zipWith, c0]
      rw [hxj]
      simp
    have hl : (column rows j).length = rows.length := by simp [column]
    generalize column rows j = xs at hcol c2 c3 hl
    rw [hcol]
    have s1 : ∀ (l : List Rat) (m q : Rat), (l.map (fun x => (x - m) / q)).sum = (l.sum - l.length * m) / q := by
      intro l m q
      induction l with
      | nil => simp
      | cons a l ih => simp only [List.map_cons, List.sum_cons, List.length_cons, ih]; push_cast; ring
    have s2 : ((xs.map (fun x => (x - c.mean) / sqrt c.var)).map (fun y => y * y)).sum = c.diff / c.var := by
      have : ∀ (l : List Rat) (q : Rat), (l.map ((fun y => y * y) ∘ fun x => (x - c.mean) / q)).sum = (l.map (fun x => (x - c.mean) * (x - c.mean))).sum / (q * q) := by
        intro l q
        induction l with
        | nil => simp
        | cons a l ih =>
          simp only [List.map_cons, List.sum_cons, Function.comp] at ih ⊢
          rw [ih, div_mul_div_comm, add_div]
      rw [c3, List.map_map, this xs (sqrt c.var), q2]
    have hv : 0 < c.var := by rw [← q2]; exact mul_pos q1 q1
    refine ⟨?_, ?_, ?_⟩
    · rw [s1, c2, hl, mul_div_cancel₀ _ (ne_of_gt hlen0), sub_self, zero_div]
    · rw [s2, div_le_iff₀ hv]
      have : c.diff / rows.length ≤ c.var := by rw [c4]; exact le_max_left _ _
      rw [div_le_iff₀ hlen0] at this
      linarith
    · intro c' hc' hge
      rw [c0, Option.some.injEq] at hc'
      subst hc'
      rw [s2]
      rw [max_eq_left hge] at c4
      rw [c4]
      have hd : c.diff ≠ 0 := by
        intro h0; rw [h0, zero_div] at hge; norm_num at hge
      field_simp

example : (observeAll (start 1) [[1], [3]]).map (fun s => [[1], [3]].map (normalize (fun _ => 1) s)) = .ok [.ok [-1], .ok [1]] ∧
    observeAll (start 1) [[1], [3]] = .ok [⟨2, 2, 2, 1⟩] := ⟨by decide +kernel, by decide +kernel⟩

/-- Before the second observation the inputs come back as they are; without inputs there is an IndexError, and inputs of
another length raise ValueError. -/
theorem C168_errors (sqrt : Rat → Rat) (k : Nat) (x row : List Rat) (hk : 0 < k) (hx : row.length = k) :
    normalize sqrt (start k) x = .ok x ∧ (∃ s, observe (start k) row = .ok s ∧ normalize sqrt s x = .ok x) ∧
    normalize sqrt (start 0) x = .error .indexError ∧ (x.length ≠ k → observe (start k) x = .error .valueError) := by
  obtain ⟨n, rfl⟩ : ∃ n, k = n + 1 := ⟨k - 1, by omega⟩
  refine ⟨?_, ?_, rfl, ?_⟩
  · simp only [start, List.replicate_succ, normalize]
    rw [if_pos (by norm_num)]
  · refine ⟨List.zipWith Cell.observe (start (n + 1)) row, by simp only [observe, start, List.length_replicate, hx, if_true], ?_⟩
    cases row with
    | nil => simp at hx
    | cons v row =>
      simp only [start, List.replicate_succ, List.zipWith_cons_cons, normalize, Cell.observe]
      rw [if_pos (by norm_num)]
  · intro h
    simp only [observe, start, List.length_replicate, if_neg h]

end Verif.Ars
