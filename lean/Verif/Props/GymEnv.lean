import Verif.Lemmas.GymEnv

/-! Properties of the domains that wrap Gym environments, and of domains wrapped as environments (C136-C139). -/
namespace Verif.GymEnv
open Verif.Gym

variable {S O A X : Type} [DecidableEq X]

/-! ### C136: `DeterministicGymDomain` -/

/-- C136: in whatever order successors are asked for, the state returned for a sequence of actions carries the
observation and the last transition that the environment gives for that sequence after `reset`; with copies of
the environment, or with `set_state` and `get_state` that determine the behaviour of the environment. -/
theorem C136_path (E : Env S O A) (ac : Option (Access S X)) (d0 d : Dom S) (ps : List (Proxy O A X × List A))
    (hd : d0.env < d0.fresh) (hl : ∀ a, ac = some a → Lawful E a) (h : Reach E ac d0 d ps)
    (p : Proxy O A X) (rp : List A) (hp : (p, rp) ∈ ps) :
    p.obs = (after E (E.reset (d0.heap d0.env)) rp).1 ∧ p.last = (after E (E.reset (d0.heap d0.env)) rp).2.1 :=
  reach_spec hd hl h _ hp

/-- C136: successors of returned states are always found, and the transition value and the termination are those
of the transition in the environment. -/
theorem C136_next (E : Env S O A) (ac : Option (Access S X)) (d0 d : Dom S) (ps : List (Proxy O A X × List A))
    (hd : d0.env < d0.fresh) (hl : ∀ a, ac = some a → Lawful E a) (h : Reach E ac d0 d ps)
    (m : Proxy O A X) (rp : List A) (hm : (m, rp) ∈ ps) (a : A) :
    ∃ p d', next E ac d m a = .ok (p, d') ∧
      p.obs = (E.step (after E (E.reset (d0.heap d0.env)) rp).2.2 a).1.obs ∧
      transitionValue m a (some p) = .ok (E.step (after E (E.reset (d0.heap d0.env)) rp).2.2 a).1.reward ∧
      isTerminal p = (E.step (after E (E.reset (d0.heap d0.env)) rp).2.2 a).1.done := by
  obtain ⟨p, d', e⟩ := reach_next hl h hm a
  obtain ⟨h1, h2⟩ := reach_spec hd hl (.next a h hm e) (p, a :: rp) List.mem_cons_self
  simp only [after] at h1 h2
  exact ⟨p, d', e, h1, by simp only [transitionValue, h2], by simp only [isTerminal, h2]⟩

/-- C136: with copies no environment of a returned state is changed by later calls. -/
theorem C136_copies (E : Env S O A) (d0 d : Dom S) (ps : List (Proxy O A X × List A)) (hd : d0.env < d0.fresh)
    (h : Reach E none d0 d ps) (m p : Proxy O A X) (rp : List A) (hm : (m, rp) ∈ ps) (a : A) (d' : Dom S)
    (e : next E (none : Option (Access S X)) d m a = .ok (p, d')) (q : Proxy O A X) (rq : List A) (hq : (q, rq) ∈ ps) :
    d'.heap q.env = d.heap q.env ∧ p.env ≠ q.env := by
  obtain ⟨hlt, -⟩ := reach_copy hd h (q, rq) hq
  simp only at hlt
  simp only [next, Except.ok.injEq, Prod.mk.injEq] at e
  obtain ⟨rfl, rfl⟩ := e
  exact ⟨store_ne (by omega), by simp only; omega⟩

/-- An environment that adds up the actions and ends at three. -/
def counter : Env Nat Nat Nat where
  reset _ := (0, 0)
  step s a := (⟨s + a, a, decide (3 ≤ s + a)⟩, s + a)

/-- Reading and writing the sum. -/
def counterAccess : Access Nat Nat := ⟨id, fun _ x => x⟩

theorem counter_lawful : Lawful counter counterAccess where
  get_set _ _ := rfl
  out s s' a h := by cases (show s = s' from h); rfl
  nxt s s' a h := by cases (show s = s' from h); rfl

/-- A new domain. -/
def fresh : Dom Nat := ⟨fun _ => 7, 0, 1⟩

example : ∃ d ps, Reach counter (some counterAccess) fresh d ps ∧ ps.length = 3 :=
  ⟨_, _, .next 1 (.next 2 .init List.mem_cons_self rfl) (List.mem_cons_of_mem _ List.mem_cons_self) rfl, rfl⟩

example : (let r := initial (X := Nat) counter none fresh
    (next counter none r.2 r.1 2).bind fun q => (next counter none q.2 r.1 1).map fun q' => (q.1, q'.1)) =
    .ok (⟨2, 1, some (0, 2, ⟨2, 2, false⟩), none⟩, ⟨1, 2, some (0, 1, ⟨1, 1, false⟩), none⟩) := by decide +kernel

/-- C136: the transition value of an action is that of the last transition of the next state, whatever the
memory and the action; without next state, and for the initial state, it raises. -/
theorem C136_value_refuted :
    ¬ (∀ (E : Env Nat Nat Nat) (d0 d d' d'' : Dom Nat) (ps : List (Proxy Nat Nat Nat × List Nat)) (m p q : Proxy Nat Nat Nat) (rp : List Nat)
        (a b : Nat), d0.env < d0.fresh → Reach E none d0 d ps → (m, rp) ∈ ps → next E (none : Option (Access Nat Nat)) d m a = .ok (p, d') →
        next E (none : Option (Access Nat Nat)) d' m b = .ok (q, d'') → p.obs = q.obs →
        transitionValue m b (some p) = transitionValue m b (some q)) ∧
    (∀ (m : Proxy O A X) (a : A), transitionValue m a none = .error .attributeError) ∧
    (∀ (E : Env S O A) (ac : Option (Access S X)) (d : Dom S) (m : Proxy O A X) (a : A),
      transitionValue m a (some (initial E ac d).1) = .error .attributeError) := by
  refine ⟨fun h => ?_, fun m a => rfl, fun E ac d m a => rfl⟩
  have := h ⟨fun s => (0, s), fun s a => (⟨0, a, false⟩, s)⟩ fresh _ _ _ _ _ _ _ [] 1 2 (by decide) .init List.mem_cons_self rfl rfl rfl
  simp [transitionValue] at this

/-! ### C137: `GymPlanningDomain` -/

/-- C137: the depth of a state is the number of actions that led to it; its accumulated reward is the sum of the
rewards of all of them but the last. -/
theorem C137_depth (E : Env S O A) (ac : Option (Access S X)) (same : O → O → Except PyErr Bool) (d0 d : PDom S O A X)
    (ps : List (PProxy O A X × List A)) (hd : d0.dom.env < d0.dom.fresh) (hl : ∀ a, ac = some a → Lawful E a)
    (h : PReach E ac same d0 d ps) (p : PProxy O A X) (rp : List A) (hp : (p, rp) ∈ ps) :
    p.depth = rp.length ∧ p.acc = total E (E.reset (d0.dom.heap d0.dom.env)) rp.tail := preach_spec hd hl h _ hp

/-- C137: the goals are the states at the maximal depth or below and, if termination is a goal, the terminal ones. -/
theorem C137_goal (E : Env S O A) (ac : Option (Access S X)) (same : O → O → Except PyErr Bool) (d0 d : PDom S O A X)
    (ps : List (PProxy O A X × List A)) (hd : d0.dom.env < d0.dom.fresh) (hl : ∀ a, ac = some a → Lawful E a)
    (h : PReach E ac same d0 d ps) (p : PProxy O A X) (rp : List A) (hp : (p, rp) ∈ ps) (flag : Bool) (maxDepth : Nat) :
    isGoal flag maxDepth p = true ↔ maxDepth ≤ rp.length ∨ (flag = true ∧ ∃ a rest, rp = a :: rest ∧
      (E.step (after E (E.reset (d0.dom.heap d0.dom.env)) rest).2.2 a).1.done = true) := by
  obtain ⟨h1, -⟩ := preach_spec hd hl h _ hp
  have h2 := (reach_spec hd hl h.base _ (List.mem_map.mpr ⟨_, hp, rfl⟩)).2
  simp only at h1 h2
  have key : isTerminal p.base = true ↔ ∃ a rest, rp = a :: rest ∧
      (E.step (after E (E.reset (d0.dom.heap d0.dom.env)) rest).2.2 a).1.done = true := by
    cases rp with
    | nil =>
      simp only [after] at h2
      simp [isTerminal, h2]
    | cons a rest =>
      simp only [after] at h2
      simp only [isTerminal, h2, List.cons.injEq]
      constructor
      · intro h; exact ⟨a, rest, ⟨rfl, rfl⟩, h⟩
      · rintro ⟨a', rest', ⟨rfl, rfl⟩, h⟩; exact h
  rw [isGoal, Bool.or_eq_true_iff, Bool.and_eq_true, decide_eq_true_eq, h1, key]

/-- C137: the comparison with the initial state decides equality for elements of an observation space without
multi-discrete part, so that successors are always found; for a multi-discrete one it always raises. -/
theorem C137_same (s : Space) (a b : Elem Rat) (ha : Fits (fun _ => True) s a) (hb : Fits (fun _ => True) s b) :
    (noMulti s = true → ∃ r, areSame s a b = .ok r ∧ (r = true ↔ a = b)) ∧
    (∀ nv, s = .multiDiscrete nv → areSame s a b = .error .runtimeError) := by
  refine ⟨areSame_ok s a b ha hb, ?_⟩
  rintro nv rfl
  cases a with
  | ints l =>
    cases b with
    | ints m => simp only [areSame]
    | _ => simp [Fits] at hb
  | _ => simp [Fits] at ha

/-- C137: with a multi-discrete observation space no successor is ever found. -/
theorem C137_multi_discrete_refuted (E : Env S (Elem Rat) A) (ac : Option (Access S X)) (d : PDom S (Elem Rat) A X) (nv : List Nat)
    (m : PProxy (Elem Rat) A X) (a : A) (hm : Fits (fun _ => True) (.multiDiscrete nv) m.base.obs)
    (hi : ∀ i, d.init = some i → Fits (fun _ => True) (.multiDiscrete nv) i.base.obs) :
    pNext E ac (areSame (.multiDiscrete nv)) d m a = .error .runtimeError := by
  have key : ∀ o, Fits (fun _ => True) (.multiDiscrete nv) o → areSame (.multiDiscrete nv) m.base.obs o = .error .runtimeError :=
    fun o ho => (C137_same _ _ _ hm ho).2 nv rfl
  cases hd : d.init with
  | none => simp only [pNext, hd, key _ hm]
  | some i => simp only [pNext, hd, key _ (hi i hd)]

/-- C137: the accumulated reward does not include that of the transition to the state. -/
theorem C137_accumulated_refuted :
    ¬ (∀ (E : Env Nat Nat Nat) (d0 d : PDom Nat Nat Nat Nat) (ps : List (PProxy Nat Nat Nat × List Nat)),
        d0.dom.env < d0.dom.fresh → PReach E none (fun a b => .ok (decide (a = b))) d0 d ps →
        ∀ q ∈ ps, q.1.acc = total E (E.reset (d0.dom.heap d0.dom.env)) q.2) := by
  intro h
  have := h counter ⟨fresh, none⟩ _ _ (by decide) (.next 2 .init List.mem_cons_self rfl) _ List.mem_cons_self
  revert this
  decide +kernel

example : ∃ d ps, PReach (X := Nat) counter none (fun a b => .ok (decide (a = b))) ⟨fresh, none⟩ d ps ∧
    ps.map (fun q => (q.1.depth, q.1.acc, q.1.base.obs)) = [(2, 2, 3), (1, 0, 2), (0, 0, 0)] :=
  ⟨_, _, .next 1 (.next 2 .init List.mem_cons_self rfl) List.mem_cons_self rfl, by decide +kernel⟩

/-! ### C138: `DeterministicInitializedGymDomain` -/

/-- C138: once reset, the domain can be reset at any time; it returns the state of the first reset and from then
on behaves like the environment after its first reset. -/
theorem C138_reset (E : Env S O A) (ac : Option (Access S X)) (d0 d : IDom S O X) (h0 : d0.initState = none) (hd : d0.env < d0.fresh)
    (hl : ∀ a, ac = some a → Lawful E a) (h : IReach E ac d0 d) :
    ∃ p d', stateReset E ac d = .ok (p, d') ∧ p.obs = (E.reset (d0.heap d0.env)).1 ∧
      (∃ d1, stateReset E ac d0 = .ok (p, d1)) ∧
      ∀ acts, (steps E d' acts).1 = outs E (E.reset (d0.heap d0.env)).2 acts := by
  cases ac with
  | none =>
    obtain ⟨r, h1, h2, h3, h4, h5, h6⟩ := ireach_copy h0 hd h
    refine ⟨⟨(E.reset (d0.heap d0.env)).1, .env d0.fresh⟩, _, by simp only [stateReset, h2, h1, restore]; rfl, rfl, ?_, ?_⟩
    · simp only [stateReset, h0]
      exact ⟨_, rfl⟩
    · intro acts
      rw [steps_outs_copy]
      simp only [store_self, h3]
  | some ac =>
    obtain ⟨h1, h2⟩ := ireach_access h0 h
    refine ⟨⟨(E.reset (d0.heap d0.env)).1, .saved (ac.get (E.reset (d0.heap d0.env)).2)⟩, _,
      by simp only [stateReset, h2, h1, restore]; rfl, rfl, ?_, ?_⟩
    · simp only [stateReset, h0]
      exact ⟨_, rfl⟩
    · intro acts
      rw [steps_outs_copy]
      refine outs_lawful (hl ac rfl) acts ?_
      simp only [store_self]
      exact (hl ac rfl).get_set _ _

/-- C138: the first reset resets the environment. -/
theorem C138_first (E : Env S O A) (ac : Option (Access S X)) (d0 : IDom S O X) (h0 : d0.initState = none) (hd : d0.env < d0.fresh) :
    ∃ p d, stateReset E ac d0 = .ok (p, d) ∧ p.obs = (E.reset (d0.heap d0.env)).1 ∧ IReach E ac d0 d ∧
      ∀ acts, (steps E d acts).1 = outs E (E.reset (d0.heap d0.env)).2 acts := by
  cases ac with
  | none =>
    have e : stateReset E (none : Option (Access S X)) d0 = .ok (⟨(E.reset (d0.heap d0.env)).1, .env d0.fresh⟩,
      ⟨store (store d0.heap d0.env (E.reset (d0.heap d0.env)).2) d0.fresh (E.reset (d0.heap d0.env)).2, d0.env, d0.fresh + 1, .env d0.fresh,
        some ⟨(E.reset (d0.heap d0.env)).1, .env d0.fresh⟩⟩) := by simp only [stateReset, h0]
    refine ⟨_, _, e, rfl, .first e, fun acts => ?_⟩
    rw [steps_outs_copy]
    simp only
    rw [store_ne (by omega), store_self]
  | some ac =>
    have e : stateReset E (some ac) d0 = .ok (⟨(E.reset (d0.heap d0.env)).1, .saved (ac.get (E.reset (d0.heap d0.env)).2)⟩,
      ⟨store d0.heap d0.env (E.reset (d0.heap d0.env)).2, d0.env, d0.fresh, .saved (ac.get (E.reset (d0.heap d0.env)).2),
        some ⟨(E.reset (d0.heap d0.env)).1, .saved (ac.get (E.reset (d0.heap d0.env)).2)⟩⟩) := by simp only [stateReset, h0]
    refine ⟨_, _, e, rfl, .first e, fun acts => ?_⟩
    rw [steps_outs_copy]
    simp only [store_self]

/-- A new domain of this kind. -/
def freshI : IDom Nat Nat Nat := ⟨fun _ => 7, 0, 1, .none, none⟩

example : ∃ d, IReach counter none freshI d ∧ d.heap d.env = 3 :=
  ⟨_, .step (.step (.reset (.step (.first rfl) 5) rfl) 1) 2, by decide +kernel⟩

/-- C138: `set_memory` with a state that a step has returned leaves the environment in the initial state: the
next reset returns that state, but the next step starts from the initial one. With copies and with `set_state`. -/
theorem C138_set_memory_refuted (ac : Option (Access Nat Nat)) (hac : ac = none ∨ ac = some counterAccess) :
    ¬ (∀ (E : Env Nat Nat Nat) (d0 d1 d3 : IDom Nat Nat Nat) (p0 : IProxy Nat Nat) (a b : Nat), d0.initState = none → d0.env < d0.fresh →
        (∀ x, ac = some x → Lawful E x) → stateReset E ac d0 = .ok (p0, d1) →
        setMemory ac (stateStep E d1 a).2 (stateStep E d1 a).1.2 = .ok d3 →
        (stateStep E d3 b).1.1.obs = (E.step (E.step (E.reset (d0.heap d0.env)).2 a).2 b).1.obs) := by
  intro h
  rcases hac with rfl | rfl
  · have := h counter freshI _ _ _ 2 1 rfl (by decide) (by simp) rfl rfl
    revert this
    decide +kernel
  · have := h counter freshI _ _ _ 2 1 rfl (by decide) (by rintro x ⟨⟩; exact counter_lawful) rfl rfl
    revert this
    decide +kernel

/-! ### C139: `AsGymEnv` -/

/-- C139: a Gym environment wrapped as a domain and wrapped back behaves the same, with empty information for none. -/
theorem C139_round_trip {I : Type} (E : InfoEnv S O A I) (empty : I) (s : S) (a : A) :
    asStep (gymDomain E) .ok .ok empty s a =
      .ok (((E.step s a).1.1, (E.step s a).1.2.1, (E.step s a).1.2.2.1, (E.step s a).1.2.2.2.getD empty), (E.step s a).2) ∧
    asReset (gymDomain E) s = .ok (E.reset s) := ⟨rfl, rfl⟩

/-- C139: with observations and actions of enumerated spaces, a step of the environment takes the number of an
action and returns the number of an observation: both within the range of the unwrapped spaces. -/
theorem C139_step {σ I : Type} [DecidableEq O] (D : SkDomain σ O A I) (obs : List O) (acts : List A) (empty : I) (st st' : σ) (i : Nat)
    (u : Nat) (r : Rat) (t : Bool) (info : I)
    (e : asStep D (fun o => Worlds.indexOf o obs) (fun i : Nat => Worlds.pyAt acts (i : Int)) empty st i = .ok ((u, r, t, info), st')) :
    ∃ a o inf, acts[i]? = some a ∧ D.step st a = .ok ((o, r, t, inf), st') ∧ obs[u]? = some o ∧ u < obs.length ∧ info = inf.getD empty := by
  have hidx : ∀ (o : O) (l : List O) (u : Nat), Worlds.indexOf o l = .ok u → l[u]? = some o ∧ u < l.length := by
    intro o l
    induction l with
    | nil => intro u h; simp [Worlds.indexOf] at h
    | cons y ys ih =>
      intro u h
      simp only [Worlds.indexOf] at h
      split at h
      · next hy =>
        simp only [Except.ok.injEq] at h
        subst h hy
        simp
      · cases hi : Worlds.indexOf o ys with
        | error er => rw [hi] at h; simp [bind, Except.bind] at h
        | ok k =>
          rw [hi] at h
          simp only [bind, Except.bind, pure, Except.pure, Except.ok.injEq] at h
          subst h
          obtain ⟨h1, h2⟩ := ih k hi
          exact ⟨by simpa using h1, by simpa using h2⟩
  simp only [asStep] at e
  have hat : ∀ a, Worlds.pyAt acts (i : Int) = .ok a → acts[i]? = some a := by
    intro a ha
    simp only [Worlds.pyAt, Int.natCast_nonneg, if_true, Int.toNat_natCast, pyGet] at ha
    cases hg : acts[i]? with
    | none => rw [hg] at ha; simp at ha
    | some b => rw [hg] at ha; simpa using ha
  cases ha : Worlds.pyAt acts (i : Int) with
  | error er => rw [ha] at e; simp at e
  | ok a =>
    rw [ha] at e
    simp only at e
    cases hs : D.step st a with
    | error er => rw [hs] at e; simp at e
    | ok q =>
      obtain ⟨⟨o, r', t', inf⟩, s'⟩ := q
      rw [hs] at e
      simp only at e
      cases hu : Worlds.indexOf o obs with
      | error er => rw [hu] at e; simp at e
      | ok u' =>
        rw [hu] at e
        simp only [Except.ok.injEq, Prod.mk.injEq] at e
        obtain ⟨⟨rfl, rfl, rfl, rfl⟩, rfl⟩ := e
        obtain ⟨h1, h2⟩ := hidx o obs u' hu
        exact ⟨a, o, inf, hat a ha, hs, h1, h2, rfl⟩

/-- C139: an action number out of range raises IndexError before anything is done. -/
theorem C139_bad_action {σ I U : Type} (D : SkDomain σ O A I) (toU : O → Except PyErr U) (acts : List A) (empty : I) (st : σ) (i : Nat)
    (h : acts.length ≤ i) : asStep D toU (fun i : Nat => Worlds.pyAt acts (i : Int)) empty st i = .error .indexError := by
  simp [asStep, Worlds.pyAt, pyGet, List.getElem?_eq_none h]

/-- A domain with observations 10 and 20 and one action. -/
def tens : SkDomain Bool Nat Nat Unit where
  reset _ := .ok (10, false)
  step _ _ := .ok ((20, 1, true, none), true)

example : asStep tens (fun o => Worlds.indexOf o [10, 20]) (fun i : Nat => Worlds.pyAt [5] (i : Int)) () false 0 = .ok ((1, 1, true, ()), true) := by
  decide +kernel

/-- C139: with `unwrap_spaces=False` the announced action space is that of the domain, but `step` takes numbers:
actions of the announced space may raise. -/
theorem C139_flag_refuted :
    ¬ (∀ (D : SkDomain Bool Nat Nat Unit) (obs acts : List Nat) (st : Bool) (a : Nat), a ∈ acts → (∀ st o st', D.step st a = .ok (o, st') → o.1 ∈ obs) →
        (asStep D (fun o => Worlds.indexOf o obs) (fun i : Nat => Worlds.pyAt acts (i : Int)) () st a).toBool = true) := by
  intro h
  have := h tens [10, 20] [5] false 5 (by decide) (by intro st o st' e; cases e; decide)
  rw [C139_bad_action tens _ [5] () false 5 (by decide)] at this
  cases this

/-- C139: `reset` returns the observation itself and not its number, so the first observation of an episode need
not belong to the unwrapped observation space that `step` answers in. -/
theorem C139_reset_refuted :
    ¬ (∀ (D : SkDomain Bool Nat Nat Unit) (obs : List Nat) (st st' : Bool) (o : Nat), o ∈ obs → asReset D st = .ok (o, st') → o < obs.length) := by
  intro h
  have := h tens [10, 20] true false 10 (by decide) rfl
  simp at this

end Verif.GymEnv
