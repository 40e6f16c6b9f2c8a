import Verif.Model.Domain
/-
Properties C05, C06, C07, C08: memory of an environment, rollouts, solver matching.
-/
namespace Verif.Domain

/-! ## C05 -/

/-- The `n` most recent elements of a history (oldest first). -/
def lastN (n : Nat) (h : List σ) : List σ := h.drop (h.length - n)

theorem lastN_append (n : Nat) (h : List σ) (s : σ) :
    lastN n (lastN n h ++ [s]) = lastN n (h ++ [s]) := by
  simp only [lastN, List.length_append, List.length_drop, List.length_singleton]
  by_cases hn : h.length ≤ n
  · have : h.length - n = 0 := by omega
    simp [this]
  · cases n with
    | zero => simp
    | succ n =>
      rw [List.drop_append_of_le_length (by simp), List.drop_drop,
        List.drop_append_of_le_length (by omega)]
      congr 2
      omega

theorem go_finite (n : Nat) (hn : n ≠ 1) (dyn : Mem σ → α → σ) (hist : List σ) (acts : List α)
    (h0 : n = 0 → ∀ (m : Mem σ) (s : σ), stepMemory (.finiteHistory n) m s = .ok m) :
    ∃ ss, runMemory.go (.finiteHistory n) dyn (.deque (lastN n hist) (some n)) acts
        = .ok (.deque (lastN n (hist ++ ss)) (some n), ss) ∧ ss.length = acts.length ∧
      ∀ (i : Nat) (h1 : i < ss.length) (h2 : i < acts.length),
        ss[i] = dyn (.deque (lastN n (hist ++ ss.take i)) (some n)) acts[i] := by
  induction acts generalizing hist with
  | nil => exact ⟨[], by simp [runMemory.go], rfl, by simp⟩
  | cons a acts ih =>
    let s := dyn (.deque (lastN n hist) (some n)) a
    have hstep : stepMemory (.finiteHistory n) (.deque (lastN n hist) (some n)) s
        = .ok (.deque (lastN n (hist ++ [s])) (some n)) := by
      by_cases hz : n = 0
      · rw [h0 hz]; subst hz; simp [lastN]
      · have : n > 1 := by omega
        simp only [stepMemory, MemKind.maxlen, hn, if_false, this, if_true, boundRight]
        have := lastN_append n hist s
        unfold lastN at this ⊢
        rw [this]
    obtain ⟨ss, h1, h2, h3⟩ := ih (hist ++ [s])
    refine ⟨s :: ss, ?_, by simp [h2], ?_⟩
    · simp only [runMemory.go]
      change (match stepMemory (.finiteHistory n) (.deque (lastN n hist) (some n)) s with
        | .error e => _ | .ok m' => _) = _
      rw [hstep]
      simp only [h1, List.append_assoc, List.singleton_append]
      rfl
    · intro i k1 k2
      cases i with
      | zero => simp; rfl
      | succ i =>
        have := h3 i (by simpa using k1) (by simpa using k2)
        simpa using this

/-- C05 (bounded history, order `n ≠ 1`): after any run the memory is the deque of the
`n` most recent states, and every state along the run was computed from exactly the
`n` most recent states before it. -/
theorem C05_finite_history_partial (n : Nat) (hn : n ≠ 1) (dyn : Mem σ → α → σ) (s0 : σ)
    (acts : List α) :
    ∃ ss, runMemory (.finiteHistory n) dyn s0 acts
        = .ok (.deque (lastN n (s0 :: ss)) (some n), ss) ∧ ss.length = acts.length ∧
      (lastN n (s0 :: ss)).length = min n (acts.length + 1) ∧
      ∀ (i : Nat) (h1 : i < ss.length) (h2 : i < acts.length),
        ss[i] = dyn (.deque (lastN n (s0 :: ss.take i)) (some n)) acts[i] := by
  obtain ⟨ss, h1, h2, h3⟩ := go_finite n hn dyn [s0] acts
    (by rintro rfl m s; simp [stepMemory, MemKind.maxlen])
  refine ⟨ss, h1, h2, ?_, h3⟩
  simp [lastN, h2]; omega

/-- Order 2, five steps: the memory holds the two most recent states. -/
example : runMemory (.finiteHistory 2)
    (fun m (a : Nat) => match m with | .deque xs _ => xs.foldl (· + ·) a | _ => 0) 1 [1, 1, 1]
    = .ok (.deque [4, 7] (some 2), [2, 4, 7]) := by decide

/-- C05 (Markovian): the memory is always the current state, and each state was
computed from the preceding one. -/
theorem C05_markovian (dyn : Mem σ → α → σ) (s0 : σ) (acts : List α) :
    ∃ ss, runMemory .markovian dyn s0 acts = .ok (.bare ((s0 :: ss).getLast?), ss) ∧
      ss.length = acts.length ∧
      ∀ (i : Nat) (h1 : i < ss.length) (h2 : i < acts.length),
        ss[i] = dyn (.bare (s0 :: ss)[i]?) acts[i] := by
  have key : ∀ (acts : List α) (s0 : σ), ∃ ss, runMemory.go .markovian dyn (.bare (some s0)) acts
      = .ok (.bare ((s0 :: ss).getLast?), ss) ∧ ss.length = acts.length ∧
      ∀ (i : Nat) (h1 : i < ss.length) (h2 : i < acts.length),
        ss[i] = dyn (.bare (s0 :: ss)[i]?) acts[i] := by
    intro acts
    induction acts with
    | nil => intro s0; exact ⟨[], by simp [runMemory.go], rfl, by simp⟩
    | cons a acts ih =>
      intro s0
      obtain ⟨ss, h1, h2, h3⟩ := ih (dyn (.bare (some s0)) a)
      refine ⟨dyn (.bare (some s0)) a :: ss, ?_, by simp [h2], ?_⟩
      · simp only [runMemory.go, stepMemory, MemKind.maxlen, if_true, h1, List.getLast?_cons_cons]
      · intro i k1 k2
        cases i with
        | zero => simp
        | succ i => simpa using h3 i (by simpa using k1) (by simpa using k2)
  exact key acts s0

/-- C05 (memoryless): the memory stays `None`. -/
theorem C05_memoryless (dyn : Mem σ → α → σ) (s0 : σ) (acts : List α) :
    ∃ ss, runMemory .memoryless dyn s0 acts = .ok (.bare none, ss) ∧ ss = acts.map (dyn (.bare none)) := by
  have key : ∀ acts : List α, runMemory.go .memoryless dyn (.bare none) acts
      = .ok (.bare none, acts.map (dyn (.bare none))) := by
    intro acts
    induction acts with
    | nil => rfl
    | cons a acts ih => simp [runMemory.go, stepMemory, MemKind.maxlen, ih]
  exact ⟨_, key acts, rfl⟩

/-- C05 fails for unbounded history: the first step of *every* such domain raises
(`None > 1`, dynamics.py 80), so the promised full history is never available. -/
theorem C05_unbounded_history_raises (dyn : Mem σ → α → σ) (s0 : σ) (a : α) (acts : List α) :
    runMemory .history dyn s0 (a :: acts) = .error .typeError := rfl

/-- C05 fails for a bounded history of order one that is not declared Markovian: after
a step the memory is a bare state instead of a one-element deque (dynamics.py 78-79). -/
theorem C05_order_one_loses_deque (dyn : Mem σ → α → σ) (s0 : σ) (a : α) :
    ∃ s, runMemory (.finiteHistory 1) dyn s0 [a] = .ok (.bare (some s), [s]) ∧
      initMemory (.finiteHistory 1) s0 = .deque [s0] (some 1) :=
  ⟨_, rfl, rfl⟩

/-! ## C06 -/

/-- Specification of a faithful record: the steps are consecutive transitions of the
environment, each with the action the agent chose for the preceding observation. -/
inductive Chain (env : Env ε ω α ν) (ag : Agent ς ω α) :
    ε → ς → ω → List (α × ν × Bool × ω) → ε → ς → Prop where
  | nil {e s o} : Chain env ag e s o [] e s
  | cons {e s o s' a e' o' v t rest e'' s''} :
      ag.act s o = (s', a) → env.step e a = (e', o', v, t) →
      Chain env ag e' s' o' rest e'' s'' →
      Chain env ag e s o ((a, v, t, o') :: rest) e'' s''

/-- C06: the episode loop of `rollout` records a faithful chain of at most `m` steps,
no step but the last is terminal, and it stops early only after a terminal step. -/
theorem C06_rollout_episode_faithful (env : Env ε ω α ν) (ag : Agent ς ω α) (m : Nat) (e : ε)
    (s : ς) (o : ω) :
    ∃ e' s' steps, episodeLoop env ag m e s o = (e', s', steps) ∧
      Chain env ag e s o steps e' s' ∧ steps.length ≤ m ∧
      (∀ (i : Nat) (h : i < steps.length), i + 1 < steps.length → steps[i].2.2.1 = false) ∧
      (steps.length < m → ∃ st, steps.getLast? = some st ∧ st.2.2.1 = true) := by
  induction m generalizing e s o with
  | zero => exact ⟨e, s, [], rfl, .nil, by simp, by simp, by simp⟩
  | succ m ih =>
    rcases hact : ag.act s o with ⟨s', a⟩
    rcases hst : env.step e a with ⟨e', o', v, t⟩
    cases t with
    | true =>
      refine ⟨e', s', [(a, v, true, o')], by simp [episodeLoop, hact, hst], .cons hact hst .nil,
        by simp, ?_, fun _ => ⟨_, rfl, rfl⟩⟩
      intro i h h'
      simp at h'
    | false =>
      obtain ⟨e'', s'', steps, h1, h2, h3, h4, h5⟩ := ih e' s' o'
      refine ⟨e'', s'', (a, v, false, o') :: steps, by simp [episodeLoop, hact, hst, h1],
        .cons hact hst h2, by simp; omega, ?_, ?_⟩
      · intro i h h'
        cases i with
        | zero => rfl
        | succ i => exact h4 i (by simpa using h) (by simpa using h')
      · intro h
        obtain ⟨st, k1, k2⟩ := h5 (by simpa using h)
        exact ⟨st, by cases steps <;> simp_all, k2⟩

/-- A two-step environment that terminates at 2. -/
def countEnv : Env Nat Nat Nat Nat where
  reset _ := (0, 0)
  step e a := (e + a, (e + a, a, decide (e + a ≥ 2)))
  startFrom e := (e, e)
  setMemory _ o := o

/-- An agent that always plays 1. -/
def oneAgent : Agent Unit Nat Nat := ⟨id, fun s _ => (s, 1)⟩

example : (episodeLoop countEnv oneAgent 5 0 () 0).2.2 = [(1, 1, false, 1), (1, 1, true, 2)] := by
  decide

/-- C06 without a step limit: the loop ends exactly when some chain of steps has a terminal step at its end and nowhere
before, and then it records this chain. -/
theorem C06_unlimited (env : Env ε ω α ν) (ag : Agent ς ω α) (e : ε) (s : ς) (o : ω) (r : ε × ς × List (α × ν × Bool × ω)) :
    (∃ fuel, episodeUnlimited env ag fuel e s o = some r) ↔ Chain env ag e s o r.2.2 r.1 r.2.1 ∧
      (∃ st, r.2.2.getLast? = some st ∧ st.2.2.1 = true) ∧
      ∀ (i : Nat) (h : i < r.2.2.length), i + 1 < r.2.2.length → r.2.2[i].2.2.1 = false := by
  constructor
  · rintro ⟨fuel, h⟩
    induction fuel generalizing e s o r with
    | zero => cases h
    | succ fuel ih =>
      rcases hact : ag.act s o with ⟨s', a⟩
      rcases hst : env.step e a with ⟨e', o', v, t⟩
      simp only [episodeUnlimited, hact, hst] at h
      cases t with
      | true =>
        simp only [if_true, Option.some.injEq] at h
        subst h
        exact ⟨.cons hact hst .nil, ⟨_, rfl, rfl⟩, fun i h h' => by simp at h'⟩
      | false =>
        simp only [Bool.false_eq_true, if_false] at h
        obtain ⟨q, hq, rfl⟩ := Option.map_eq_some_iff.1 h
        obtain ⟨h1, ⟨st, h2, h2'⟩, h3⟩ := ih e' s' o' q hq
        refine ⟨.cons hact hst h1, ⟨st, ?_, h2'⟩, fun i h h' => ?_⟩
        · cases hc : q.2.2 with
          | nil => rw [hc] at h2; cases h2
          | cons x l => rw [List.getLast?_cons_cons, ← hc]; exact h2
        · cases i with
          | zero => rfl
          | succ i => exact h3 i (by simpa using h) (by simpa using h')
  · rintro ⟨h1, h2, h3⟩
    obtain ⟨e', s', steps⟩ := r
    simp only at h1 h2 h3
    induction h1 with
    | nil => obtain ⟨st, h, _⟩ := h2; cases h
    | @cons e s o s' a e' o' v t rest e'' s'' hact hst hch ih =>
      cases rest with
      | nil =>
        obtain ⟨st, h, h'⟩ := h2
        simp only [List.getLast?_singleton, Option.some.injEq] at h
        subst h
        simp only at h'
        subst h'
        cases hch
        exact ⟨1, by simp [episodeUnlimited, hact, hst]⟩
      | cons x l =>
        have ht : t = false := h3 0 (by simp) (by simp)
        subst ht
        obtain ⟨fuel, hf⟩ := ih (by simpa [List.getLast?_cons_cons] using h2) fun i h h' =>
          h3 (i + 1) (by simpa using h) (by simpa using h')
        exact ⟨fuel + 1, by simp [episodeUnlimited, hact, hst, hf]⟩

example : episodeUnlimited countEnv oneAgent 2 0 () 0 = some (2, (), [(1, 1, false, 1), (1, 1, true, 2)]) := rfl

/-- C06 for `rollout_episode`, part: when overwriting the memory with the last
observation changes nothing (fully observable Markovian domain: the memory *is* the
observation), the three returned lists are exactly those of the faithful chain of
`rollout`: one more observation than actions and values, in step order.
Missing: domains where the observation is not the memory, see
`C06_rollout_episode_overwrites_memory`. -/
theorem C06_rollout_episode_lists_partial (env : Env ε ω α ν) (ag : Agent ς ω α)
    (n m : Nat) (e : ε) (s : ς) (hn : 0 < n)
    (hstart : ∀ e, env.setMemory (env.startFrom e).1 (env.startFrom e).2 = (env.startFrom e).1)
    (hstep : ∀ e a, env.setMemory (env.step e a).1 (env.step e a).2.1 = (env.step e a).1) :
    ∃ e' s' steps, Chain env ag (env.startFrom e).1 (ag.reset s) (env.startFrom e).2 steps e' s' ∧
      steps.length ≤ m ∧
      (steps.length < m → ∃ st, steps.getLast? = some st ∧ st.2.2.1 = true) ∧
      (∀ (i : Nat) (h : i < steps.length), i + 1 < steps.length → steps[i].2.2.1 = false) ∧
      rolloutEpisode env ag true n m e s = .ok (some
        ((env.startFrom e).2 :: steps.map (·.2.2.2), steps.map (·.1), steps.map (·.2.1),
          steps.map (·.2.2.1))) := by
  have key : ∀ (m : Nat) (e : ε) (s : ς) (o : ω), env.setMemory e o = e →
      episodeLoop2 env ag m e s o =
        ((episodeLoop env ag m e s o).2.2.map (·.2.2.2), (episodeLoop env ag m e s o).2.2.map (·.1),
          (episodeLoop env ag m e s o).2.2.map (·.2.1),
          (episodeLoop env ag m e s o).2.2.map (·.2.2.1)) := by
    intro m
    induction m with
    | zero => intro e s o _; rfl
    | succ m ih =>
      intro e s o he
      rcases hact : ag.act s o with ⟨s', a⟩
      rcases hst : env.step e a with ⟨e', o', v, t⟩
      have he' : env.setMemory e' o' = e' := by have := hstep e a; rwa [hst] at this
      cases t with
      | true => simp [episodeLoop, episodeLoop2, hact, he, hst]
      | false => simp [episodeLoop, episodeLoop2, hact, he, hst, ih e' s' o' he']
  obtain ⟨e', s', steps, h1, h2, h3, h4, h5⟩ :=
    C06_rollout_episode_faithful env ag m (env.startFrom e).1 (ag.reset s) (env.startFrom e).2
  refine ⟨e', s', steps, h2, h3, h5, h4, ?_⟩
  have := key m (env.startFrom e).1 (ag.reset s) (env.startFrom e).2 (hstart e)
  rw [h1] at this
  have hn' : n ≠ 0 := by omega
  simp [rolloutEpisode, hn', this]

example : rolloutEpisode countEnv oneAgent true 1 5 0 ()
    = .ok (some ([0, 1, 2], [1, 1], [1, 1], [false, true])) := by decide

/-- An environment whose observation hides half of its state: the state is a pair and
only the first component is observed; `set_memory` therefore resets the second. -/
def hiddenEnv : Env (Nat × Nat) Nat Unit Nat where
  reset _ := ((0, 0), 0)
  step e _ := ((e.1, e.2 + 1), (e.1, e.2 + 1, decide (e.2 + 1 ≥ 2)))
  startFrom e := (e, e.1)
  setMemory _ o := (o, 0)

/-- C06 fails for `rollout_episode` in general: it overwrites the domain's memory with
the last *observation* before each step (utils.py 329), so the recorded run is not a
run of the environment: here the environment terminates after two steps but the
recorded run never does. -/
theorem C06_rollout_episode_overwrites_memory :
    ∃ (ag : Agent Unit Nat Unit), rolloutEpisode hiddenEnv ag true 1 4 (0, 0) ()
        = .ok (some ([0, 0, 0, 0, 0], [(), (), (), ()], [1, 1, 1, 1], [false, false, false, false])) ∧
      (runEpisode hiddenEnv ag true 4 (0, 0) ()).2.2
        = ⟨0, [((), 1, false, 0), ((), 2, true, 0)]⟩ :=
  ⟨⟨id, fun s _ => (s, ())⟩, rfl, rfl⟩

/-- C06: `rollout_episode` without an explicit starting memory always raises (the
`reset` call is commented out, utils.py 303-304). -/
theorem C06_rollout_episode_requires_memory (env : Env ε ω α ν) (ag : Agent ς ω α) (n m : Nat)
    (e : ε) (s : ς) (hn : 0 < n) : rolloutEpisode env ag false n m e s = .error .nameError := by
  have : n ≠ 0 := by omega
  simp [rolloutEpisode, this]

/-! ## C07 -/

/-- Specification: a list of episodes, each started by a solver reset and an
environment reset (or the given memory) in the state left by the previous one, and stopped
by its first terminal step or the step limit. -/
inductive Episodes (env : Env ε ω α ν) (ag : Agent ς ω α) (fromMemory : Bool) (m : Nat) :
    ε → ς → List (Episode ω α ν) → Prop where
  | nil {e s} : Episodes env ag fromMemory m e s []
  | cons {e s e₀ o e' s' steps rest} :
      (if fromMemory then env.startFrom e else env.reset e) = (e₀, o) →
      Chain env ag e₀ (ag.reset s) o steps e' s' → steps.length ≤ m →
      (∀ (i : Nat) (h : i < steps.length), i + 1 < steps.length → steps[i].2.2.1 = false) →
      (steps.length < m → ∃ st, steps.getLast? = some st ∧ st.2.2.1 = true) →
      Episodes env ag fromMemory m e' s' rest →
      Episodes env ag fromMemory m e s (⟨o, steps⟩ :: rest)

/-- C07, part: without a result directory, `rollout` runs exactly `n` episodes, each one
properly started and faithfully recorded.  Missing: runs with a result directory,
see `C07_save_runs_one_episode`. -/
theorem C07_rollout_runs_n_episodes_partial (env : Env ε ω α ν) (ag : Agent ς ω α) (fm : Bool)
    (m n : Nat) (e : ε) (s : ς) :
    (rollout env ag fm false m n e s).length = n ∧
    Episodes env ag fm m e s (rollout env ag fm false m n e s) := by
  induction n generalizing e s with
  | zero => exact ⟨rfl, .nil⟩
  | succ n ih =>
    rcases h0 : (if fm then env.startFrom e else env.reset e) with ⟨e₀, o⟩
    obtain ⟨e', s', steps, h1, h2, h3, h4, h5⟩ := C06_rollout_episode_faithful env ag m e₀ (ag.reset s) o
    have hrun : runEpisode env ag fm m e s = (e', s', ⟨o, steps⟩) := by
      simp [runEpisode, h0, h1]
    simp only [rollout, hrun, Bool.false_eq_true, if_false, List.length_cons]
    exact ⟨by rw [(ih e' s').1], .cons h0 h2 h3 h4 h5 (ih e' s').2⟩

example : (rollout countEnv oneAgent false false 5 3 0 ()).length = 3 := by decide

/-- C07 fails with a result directory: whatever `n ≥ 1` is asked for, one episode is
run, because `return` is inside the loop (utils.py 237). -/
theorem C07_save_runs_one_episode (env : Env ε ω α ν) (ag : Agent ς ω α) (fm : Bool) (m n : Nat)
    (e : ε) (s : ς) (hn : 0 < n) : (rollout env ag fm true m n e s).length = 1 := by
  cases n with
  | zero => omega
  | succ n => simp [rollout]

/-! ## C08 -/

/-- Specification: `c` is a characteristic class, i.e. its ancestry is a single chain
of single bases up to a root. -/
inductive IsCharacteristic (H : Classes) : Nat → Prop where
  | root {c} : H.bases c = [] → IsCharacteristic H c
  | step {c b} : H.bases c = [b] → IsCharacteristic H b → IsCharacteristic H c

theorem builderChain_isSome (H : Classes) (c : Nat) :
    (builderChain H c).isSome ↔ IsCharacteristic H c := by
  induction c using Nat.strongRecOn with
  | ind c ih =>
    rw [builderChain]
    split
    · rename_i h; simp [IsCharacteristic.root h]
    · rename_i b h
      have := ih b (H.base_lt c b (by simp [h]))
      simp only [Option.isSome_map, this]
      constructor
      · exact .step h
      · intro hc
        cases hc with
        | root h' => simp [h] at h'
        | step h' hb => simp [h] at h'; subst h'; exact hb
    · rename_i h1 h2
      simp only [Option.isSome_none, Bool.false_eq_true, false_iff]
      intro hc
      cases hc with
      | root h => exact h1 h
      | step h _ => exact h2 _ h

/-- Being an instance is inherited along the bases. -/
def InstanceClosed (H : Classes) (inst : Nat → Bool) : Prop :=
  ∀ c b, inst c = true → b ∈ H.bases c → inst b = true

theorem builderChain_closed {H : Classes} {inst : Nat → Bool} (hc : InstanceClosed H inst) :
    ∀ (c : Nat) (anc : List Nat), builderChain H c = some anc → inst c = true →
      ∀ b ∈ anc, inst b = true := by
  intro c
  induction c using Nat.strongRecOn with
  | ind c ih =>
    intro anc h hi
    rw [builderChain] at h
    split at h
    · simp at h; subst h; simp
    · rename_i b hb
      have hib := hc c b hi (by simp [hb])
      cases hbc : builderChain H b with
      | none => simp [hbc] at h
      | some anc' =>
        simp [hbc] at h
        subst h
        intro x hx
        rcases List.mem_cons.1 hx with rfl | hx
        · exact hib
        · exact ih b (H.base_lt c b (by simp [hb])) anc' hbc hib x hx
    · simp at h

theorem mem_without (anc l : List Nat) (x : Nat) : x ∈ without anc l ↔ x ∈ l ∧ x ∉ anc := by
  simp [without]

theorem requirementsLoop_iff {H : Classes} {inst : Nat → Bool} (hc : InstanceClosed H inst)
    (done todo : List Nat) :
    (∀ c ∈ requirementsLoop H done todo, inst c = true) ↔
      (∀ c ∈ done, inst c = true) ∧
      (∀ c ∈ todo, IsCharacteristic H c → inst c = true) := by
  induction hlen : todo.length using Nat.strongRecOn generalizing done todo with
  | ind n ih =>
    subst hlen
    cases todo with
    | nil => simp [requirementsLoop]
    | cons a rest =>
      rw [requirementsLoop]
      cases hb : builderChain H a with
      | none =>
        have hna : ¬ IsCharacteristic H a := by
          rw [← builderChain_isSome, hb]; simp
        simp only
        rw [ih rest.length (by simp) done rest rfl]
        simp [hna]
      | some anc =>
        have ha : IsCharacteristic H a := by
          rw [← builderChain_isSome, hb]; simp
        simp only
        rw [ih (without anc rest).length
          (Nat.lt_succ_of_le (List.length_filter_le _ _)) _ _ rfl]
        constructor
        · rintro ⟨h1, h2⟩
          have hia : inst a = true := h1 a (by simp)
          have hanc := builderChain_closed hc a anc hb hia
          refine ⟨fun c hcd => ?_, fun c hcr hch => ?_⟩
          · by_cases hx : c ∈ anc
            · exact hanc c hx
            · exact h1 c (by simp [mem_without, hcd, hx])
          · rcases List.mem_cons.1 hcr with rfl | hcr
            · exact hia
            · by_cases hx : c ∈ anc
              · exact hanc c hx
              · exact h2 c (by simp [mem_without, hcr, hx]) hch
        · rintro ⟨h1, h2⟩
          refine ⟨fun c hcd => ?_, fun c hcr hch => ?_⟩
          · simp only [List.mem_append, mem_without, List.mem_singleton] at hcd
            rcases hcd with ⟨h, _⟩ | rfl
            · exact h1 c h
            · exact h2 c (by simp) ha
          · rw [mem_without] at hcr
            exact h2 c (by simp [hcr.1]) hch

/-- C08: for a domain whose characteristics are inherited, a solver accepts it exactly
when the domain has *every* characteristic class among the ancestors of the solver's
declared domain type (none is lost by the pruning of requirements) and passes the
solver's additional check; matching returns exactly the accepting candidates, in the
order given, each as often as it was given. -/
theorem C08_match_exact (H : Classes) (isinstance : δ → Nat → Bool)
    (hc : ∀ d, InstanceClosed H (isinstance d)) (candidates : List (SolverClass δ)) (d : δ) :
    (∀ s : SolverClass δ, checkDomain H isinstance s d = true ↔
      (∀ c ∈ s.mro, IsCharacteristic H c → isinstance d c = true) ∧ s.additional d = true) ∧
    matchSolvers H isinstance candidates d
      = candidates.filter (fun s => checkDomain H isinstance s d) := by
  constructor
  · intro s
    have := requirementsLoop_iff (hc d) [] s.mro
    simp only [checkDomain, domainRequirements, Bool.and_eq_true, List.all_eq_true, this]
    simp
  · have : ∀ (l acc : List (SolverClass δ)),
        l.foldl (fun acc s => if checkDomain H isinstance s d then acc ++ [s] else acc) acc
        = acc ++ l.filter (fun s => checkDomain H isinstance s d) := by
      intro l
      induction l with
      | nil => simp
      | cons s l ih =>
        intro acc
        simp only [List.foldl_cons, ih, List.filter_cons]
        split <;> simp
    simpa [matchSolvers] using this candidates []

/-- `0` object, `1` Goals, `2` DeterministicX(1), `3` DomainType(2, other). -/
def demoClasses : Classes where
  bases c := if c = 1 then [0] else if c = 2 then [1] else if c = 4 then [2, 3] else []
  base_lt := by
    intro c b h
    split at h
    · simp at h; omega
    · split at h
      · simp at h; omega
      · split at h
        · simp at h; omega
        · simp at h

/-- The domain type 4 (bases 2 and 3) yields the requirements 2 and 3; the ancestor 1 of
2 is pruned. A domain lacking 3 is refused. -/
example : domainRequirements demoClasses [4, 2, 1, 3] = [2, 3] ∧
    checkDomain demoClasses (fun (_ : Unit) c => decide (c ≤ 2)) ⟨[4, 2, 1, 3], fun _ => true⟩ ()
      = false := by
  have h4 : builderChain demoClasses 4 = none := by rw [builderChain]; simp [demoClasses]
  have h0 : builderChain demoClasses 0 = some [] := by rw [builderChain]; simp [demoClasses]
  have h1 : builderChain demoClasses 1 = some [0] := by
    rw [builderChain]; simp [demoClasses]; exact h0
  have h2 : builderChain demoClasses 2 = some [1, 0] := by
    rw [builderChain]; simp [demoClasses]; exact h1
  have h3 : builderChain demoClasses 3 = some [] := by rw [builderChain]; simp [demoClasses]
  have hr : domainRequirements demoClasses [4, 2, 1, 3] = [2, 3] := by
    unfold domainRequirements
    rw [requirementsLoop]; simp only [h4]
    rw [requirementsLoop]; simp only [h2]
    have w1 : without [1, 0] [] = [] := rfl
    have w2 : without [1, 0] [1, 3] = [3] := rfl
    rw [w1, w2, requirementsLoop]; simp only [h3]
    rw [requirementsLoop.eq_def]
    rfl
  exact ⟨hr, by simp [checkDomain, hr]⟩

end Verif.Domain
