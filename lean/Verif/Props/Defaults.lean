import Verif.Model.Defaults
import Verif.Props.Core
import Verif.Props.Domain
import Mathlib.Algebra.Order.Field.Basic
import Mathlib.Algebra.Order.Ring.Rat
import Mathlib.Tactic.Linarith

/-! Claims C99–C101: the default methods of domains. -/

namespace Verif.Defaults
open Verif.Core Verif.Domain

variable {σ α ω κ ν : Type}

/-! ## C99 -/

/-- Has the value a positive probability? -/
def Dist.Possible : Dist α → α → Prop
  | .discrete l, x => ∃ w, (x, w) ∈ l ∧ 0 < w
  | .single y, x => x = y

/-- No negative weight, and some positive one. -/
def Dist.Proper : Dist α → Prop
  | .discrete l => (∀ p ∈ l, 0 ≤ p.2) ∧ ∃ p ∈ l, 0 < p.2
  | .single _ => True

theorem total_pos {l : List (α × Int)} (h0 : ∀ p ∈ l, 0 ≤ p.2) {p : α × Int} (hp : p ∈ l) (h : 0 < p.2) : 0 < (l.map (·.2)).sum := by
  have hsum : ∀ l : List (α × Int), (∀ p ∈ l, 0 ≤ p.2) → 0 ≤ (l.map (·.2)).sum := by
    intro l hl
    induction l with
    | nil => simp
    | cons p l ih =>
      have := hl p (by simp)
      have := ih fun q hq => hl q (by simp [hq])
      simp only [List.map_cons, List.sum_cons]
      omega
  obtain ⟨l1, l2, rfl⟩ := List.append_of_mem hp
  have h1 := hsum l1 fun q hq => h0 q (by simp [hq])
  have h2 := hsum l2 fun q hq => h0 q (by simp [hq])
  simp only [List.map_append, List.sum_append, List.map_cons, List.sum_cons]
  omega

theorem sample_possible {d : Dist α} (hd : d.Proper) {r : Rat} (h0 : 0 ≤ r) (h1 : r < 1) : ∃ x, d.sample r = .ok x ∧ d.Possible x := by
  cases d with
  | single y => exact ⟨y, rfl, rfl⟩
  | discrete l =>
    obtain ⟨hn, p, hp, hpos⟩ := hd
    have ht := total_pos hn hp hpos
    have ht' : (0 : Rat) < ((l.map (·.2)).sum : Int) := by exact_mod_cast ht
    obtain ⟨x, w, hx, hm, hw⟩ := C04_sample_in_support l ⌊r * ((l.map (·.2)).sum : Int)⌋ hn
      (Int.floor_nonneg.2 (mul_nonneg h0 ht'.le))
      (by rw [Int.floor_lt]; exact mul_lt_of_lt_one_left ht' h1)
    exact ⟨x, hx, w, hm, hw⟩

theorem possible_sample {d : Dist α} (hd : d.Proper) {x : α} (hx : d.Possible x) : ∃ r : Rat, 0 ≤ r ∧ r < 1 ∧ d.sample r = .ok x := by
  cases d with
  | single y => exact ⟨0, le_rfl, zero_lt_one, by cases hx; rfl⟩
  | discrete l =>
    obtain ⟨w, hm, hw⟩ := hx
    obtain ⟨l1, l2, rfl⟩ := List.append_of_mem hm
    have ht := total_pos hd.1 hm hw
    have hsum : ∀ l : List (α × Int), (∀ p ∈ l, 0 ≤ p.2) → 0 ≤ (l.map (·.2)).sum := by
      intro l hl
      induction l with
      | nil => simp
      | cons p l ih =>
        have := hl p (by simp)
        have := ih fun q hq => hl q (by simp [hq])
        simp only [List.map_cons, List.sum_cons]
        omega
    have hl1 := hsum l1 fun q hq => hd.1 q (by simp [hq])
    have hl2 := hsum l2 fun q hq => hd.1 q (by simp [hq])
    have ht' : (0 : Rat) < (((l1 ++ (x, w) :: l2).map (·.2)).sum : Int) := by exact_mod_cast ht
    have hlt : (l1.map (·.2)).sum < ((l1 ++ (x, w) :: l2).map (·.2)).sum := by
      simp only [List.map_append, List.sum_append, List.map_cons, List.sum_cons]
      omega
    refine ⟨((l1.map (·.2)).sum : Int) / (((l1 ++ (x, w) :: l2).map (·.2)).sum : Int), ?_, ?_, ?_⟩
    · exact div_nonneg (by exact_mod_cast hl1) ht'.le
    · rw [div_lt_one ht']; exact_mod_cast hlt
    · simp only [Dist.sample]
      rw [div_mul_cancel₀ _ ht'.ne', Int.floor_intCast]
      exact C04_sample_interval l1 l2 x w _ hd.1 le_rfl (by omega)

/-- What the domain gives to its transition function after the states `h`, the newest last. -/
def recent : MemKind → List σ → Mem σ
  | .history, h => .deque h none
  | .finiteHistory n, h => .deque (lastN n h) (some n)
  | .markovian, h => .bare h.getLast?
  | .memoryless, _ => .bare none

/-- Kinds of memory with which steps keep the recent states (see C05 for the other two). -/
def Kept (k : MemKind) : Prop := k ≠ .history ∧ k ≠ .finiteHistory 1

theorem init_recent {k : MemKind} (hk : Kept k) (s : σ) : initMemory k s = recent k [s] := by
  cases k with
  | history => exact absurd rfl hk.1
  | finiteHistory n => rfl
  | markovian => rfl
  | memoryless => rfl

theorem step_recent {k : MemKind} (hk : Kept k) (h : List σ) (s : σ) : stepMemory k (recent k h) s = .ok (recent k (h ++ [s])) := by
  cases k with
  | history => exact absurd rfl hk.1
  | finiteHistory n =>
    have hn : n ≠ 1 := fun h => hk.2 (by rw [h])
    by_cases h0 : n = 0
    · subst h0; simp [stepMemory, MemKind.maxlen, recent, lastN]
    · have h1 : n > 1 := by omega
      simp only [stepMemory, MemKind.maxlen, hn, if_false, h1, if_true, recent, boundRight]
      have := lastN_append n h s
      unfold lastN at this ⊢
      rw [this]
  | markovian => simp [stepMemory, MemKind.maxlen, recent]
  | memoryless => simp [stepMemory, MemKind.maxlen, recent]

/-- A run of the domain as it is declared: starting after the states `h`, every next state is possible for the recent states and the
action, every observation is possible for the state and the action, and values and terminations are those declared. -/
inductive Path (d : Dom σ α ω) : List σ → List α → List (Out ω) → List σ → Prop where
  | nil {h} : Path d h [] [] h
  | cons {h s a o as os h'} : (d.next (recent d.kind h) a).Possible s → (d.observe s (some a)).Possible o → Path d (h ++ [s]) as os h' →
      Path d h (a :: as) (⟨o, d.value (recent d.kind h) a s, d.terminal s⟩ :: os) h'

/-- All declared distributions are proper. -/
structure Declared (d : Dom σ α ω) : Prop where
  init : d.init.Proper
  next : ∀ m a, (d.next m a).Proper
  observe : ∀ s a, (d.observe s a).Proper

/-- A number that `random.random()` can return. -/
def Draw (r : Rat) : Prop := 0 ≤ r ∧ r < 1

theorem step_ok {d : Dom σ α ω} (hk : Kept d.kind) (hd : Declared d) (h : List σ) (a : α) {r r' : Rat} (hr : Draw r) (hr' : Draw r') :
    ∃ s o, step d (recent d.kind h) a r r' = .ok (recent d.kind (h ++ [s]), ⟨o, d.value (recent d.kind h) a s, d.terminal s⟩) ∧
      (d.next (recent d.kind h) a).Possible s ∧ (d.observe s (some a)).Possible o := by
  obtain ⟨s, h1, h2⟩ := sample_possible (hd.next (recent d.kind h) a) hr.1 hr.2
  obtain ⟨o, h3, h4⟩ := sample_possible (hd.observe s (some a)) hr'.1 hr'.2
  refine ⟨s, o, ?_, h2, h4⟩
  simp only [step, stateSample, h1, bind_ok, h3, step_recent hk]

theorem run_ok {d : Dom σ α ω} (hk : Kept d.kind) (hd : Declared d) : ∀ (as : List (α × Rat × Rat)) (h : List σ),
    (∀ p ∈ as, Draw p.2.1 ∧ Draw p.2.2) →
    ∃ outs h', run d (recent d.kind h) as = .ok (recent d.kind h', outs) ∧ Path d h (as.map (·.1)) outs h'
  | [], h, _ => ⟨[], h, rfl, .nil⟩
  | (a, r, r') :: as, h, hdr => by
    obtain ⟨s, o, h1, h2, h3⟩ := step_ok hk hd h a (hdr (a, r, r') (by simp)).1 (hdr (a, r, r') (by simp)).2
    obtain ⟨outs, h', h4, h5⟩ := run_ok hk hd as (h ++ [s]) fun p hp => hdr p (by simp [hp])
    refine ⟨_, h', ?_, .cons h2 h3 h5⟩
    simp only [run, h1, bind_ok, h4]

/-- Whatever is drawn, a reset followed by steps does not raise and is a run of the domain as declared: possible states and observations,
declared values and terminations, and in the end the memory holds the recent states. -/
theorem C99_sound_partial {d : Dom σ α ω} (hk : Kept d.kind) (hd : Declared d) {r r' : Rat} (hr : Draw r) (hr' : Draw r') (as : List (α × Rat × Rat))
    (hdr : ∀ p ∈ as, Draw p.2.1 ∧ Draw p.2.2) :
    ∃ s0 o outs h, play d r r' as = .ok (recent d.kind h, o, outs) ∧ d.init.Possible s0 ∧ (d.observe s0 none).Possible o ∧
      Path d [s0] (as.map (·.1)) outs h := by
  obtain ⟨s0, h1, h2⟩ := sample_possible hd.init hr.1 hr.2
  obtain ⟨o, h3, h4⟩ := sample_possible (hd.observe s0 none) hr'.1 hr'.2
  obtain ⟨outs, h, h5, h6⟩ := run_ok hk hd as [s0] hdr
  refine ⟨s0, o, outs, h, ?_, h2, h4, h6⟩
  simp only [play, reset, h1, bind_ok, h3, init_recent hk, h5]

/-- Every run of the domain as declared can be drawn. -/
theorem C99_complete_partial {d : Dom σ α ω} (hk : Kept d.kind) (hd : Declared d) {s0 : σ} {o : ω} {acts : List α} {outs : List (Out ω)} {h : List σ}
    (h1 : d.init.Possible s0) (h2 : (d.observe s0 none).Possible o) (h3 : Path d [s0] acts outs h) :
    ∃ r r' as, Draw r ∧ Draw r' ∧ (∀ p ∈ as, Draw p.2.1 ∧ Draw p.2.2) ∧ as.map (·.1) = acts ∧
      play d r r' as = .ok (recent d.kind h, o, outs) := by
  have key : ∀ {h acts outs h'}, Path d h acts outs h' → ∃ as : List (α × Rat × Rat), (∀ p ∈ as, Draw p.2.1 ∧ Draw p.2.2) ∧ as.map (·.1) = acts ∧
      run d (recent d.kind h) as = .ok (recent d.kind h', outs) := by
    intro h acts outs h' hp
    induction hp with
    | nil => exact ⟨[], by simp, rfl, rfl⟩
    | @cons h s a o as os h' p1 p2 _ ih =>
      obtain ⟨as', i1, i2, i3⟩ := ih
      obtain ⟨r, g1, g2, g3⟩ := possible_sample (hd.next _ _) p1
      obtain ⟨r', f1, f2, f3⟩ := possible_sample (hd.observe _ _) p2
      refine ⟨(a, r, r') :: as', ?_, by simp [i2], ?_⟩
      · intro p hp
        rcases List.mem_cons.1 hp with rfl | hp
        · exact ⟨⟨g1, g2⟩, f1, f2⟩
        · exact i1 p hp
      · simp only [run, step, stateSample, g3, bind_ok, f3, step_recent hk, i3]
  obtain ⟨r, g1, g2, g3⟩ := possible_sample hd.init h1
  obtain ⟨r', f1, f2, f3⟩ := possible_sample (hd.observe _ _) h2
  obtain ⟨as, i1, i2, i3⟩ := key h3
  refine ⟨r, r', as, ⟨g1, g2⟩, ⟨f1, f2⟩, i1, i2, ?_⟩
  simp only [play, reset, g3, bind_ok, f3, init_recent hk, i3]

/-- The states that follow from a list of actions, one after the other. -/
def follow (next : σ → α → σ) : σ → List α → List σ
  | _, [] => []
  | s, a :: as => next s a :: follow next (next s a) as

theorem det_run {next : Mem σ → α → σ} {value : Mem σ → α → σ → TransitionValue} {terminal : σ → Bool} : ∀ (as : List (α × Rat × Rat)) (m : Mem σ) (s s' : σ),
    run (deterministic .markovian s next value terminal) m as = run (deterministic .markovian s' next value terminal) m as
  | [], _, _, _ => rfl
  | (a, u, u') :: as, m, s, s' => by
    have hs : step (deterministic .markovian s next value terminal) m a u u' = step (deterministic .markovian s' next value terminal) m a u u' := rfl
    simp only [run, hs]
    rcases step (deterministic .markovian s' next value terminal) m a u u' with e | t
    · rfl
    · rw [bind_ok, bind_ok, det_run as t.1 s s']

/-- In a deterministic, fully observable Markovian domain nothing depends on what is drawn: the observations are the states that follow
from the actions. -/
theorem C99_deterministic (s0 : σ) (next : Mem σ → α → σ) (value : Mem σ → α → σ → TransitionValue) (terminal : σ → Bool) (r r' : Rat)
    (as : List (α × Rat × Rat)) :
    ∃ outs, play (deterministic .markovian s0 next value terminal) r r' as =
        .ok (.bare ((s0 :: follow (fun s => next (.bare (some s))) s0 (as.map (·.1))).getLast?), s0, outs) ∧
      outs.map (·.observation) = follow (fun s => next (.bare (some s))) s0 (as.map (·.1)) ∧
      (∀ o ∈ outs, o.termination = terminal o.observation) ∧
      ∀ (i : Nat) (s : σ) (p : α × Rat × Rat) (o : Out σ), (s0 :: outs.map (·.observation))[i]? = some s → as[i]? = some p → outs[i]? = some o →
        o.observation = next (.bare (some s)) p.1 ∧ o.value = value (.bare (some s)) p.1 o.observation := by
  have key : ∀ (as : List (α × Rat × Rat)) (s0 : σ), ∃ outs, run (deterministic .markovian s0 next value terminal) (.bare (some s0)) as =
        .ok (.bare ((s0 :: follow (fun s => next (.bare (some s))) s0 (as.map (·.1))).getLast?), outs) ∧
      outs.map (·.observation) = follow (fun s => next (.bare (some s))) s0 (as.map (·.1)) ∧
      (∀ o ∈ outs, o.termination = terminal o.observation) ∧
      ∀ (i : Nat) (s : σ) (p : α × Rat × Rat) (o : Out σ), (s0 :: outs.map (·.observation))[i]? = some s → as[i]? = some p → outs[i]? = some o →
        o.observation = next (.bare (some s)) p.1 ∧ o.value = value (.bare (some s)) p.1 o.observation := by
    intro as
    induction as with
    | nil => intro s0; exact ⟨[], rfl, rfl, by simp, by simp⟩
    | cons p as ih =>
      intro s0
      obtain ⟨a, u, u'⟩ := p
      obtain ⟨outs, h1, h2, h3, h4⟩ := ih (next (.bare (some s0)) a)
      rw [det_run as _ _ s0] at h1
      refine ⟨⟨next (.bare (some s0)) a, value (.bare (some s0)) a (next (.bare (some s0)) a), terminal (next (.bare (some s0)) a)⟩ :: outs, ?_, ?_, ?_, ?_⟩
      · have hs : step (deterministic .markovian s0 next value terminal) (.bare (some s0)) a u u' =
            .ok (.bare (some (next (.bare (some s0)) a)), ⟨next (.bare (some s0)) a, value (.bare (some s0)) a (next (.bare (some s0)) a),
              terminal (next (.bare (some s0)) a)⟩) := rfl
        simp only [run, hs, bind_ok, h1, List.map_cons, follow, List.getLast?_cons_cons]
      · simp [follow, h2]
      · intro o ho
        rcases List.mem_cons.1 ho with rfl | ho
        · rfl
        · exact h3 o ho
      · intro i s p o hi hp ho
        cases i with
        | zero =>
          simp only [List.getElem?_cons_zero, Option.some.injEq] at hi hp ho
          subst hi; subst hp; subst ho
          exact ⟨rfl, rfl⟩
        | succ i =>
          exact h4 i s p o (by simpa using hi) (by simpa using hp) (by simpa using ho)
  obtain ⟨outs, h1, h2, h3, h4⟩ := key as s0
  refine ⟨outs, ?_, h2, h3, h4⟩
  have : reset (deterministic .markovian s0 next value terminal) r r' = .ok (.bare (some s0), s0) := rfl
  simp only [play, this, bind_ok, h1]

/-- Sampling from a memory gives the outcome of a step from it: same draws, same outcome, same exception. -/
theorem C99_sample_is_step_partial (d : Dom σ α ω) (hk : Kept d.kind) (h : List σ) (a : α) (r r' : Rat) :
    (step d (recent d.kind h) a r r').map (·.2) = sample d (recent d.kind h) a r r' := by
  unfold step sample
  rcases stateSample d (recent d.kind h) a r with e | t
  · rfl
  · rw [bind_ok, bind_ok]
    rcases (d.observe t.1 (some a)).sample r' with e | o
    · rfl
    · rw [bind_ok, bind_ok, step_recent hk]
      rfl

/-- With unbounded history every step raises, though transitions can be sampled. -/
theorem C99_history_refuted (d : Dom σ α ω) (hk : d.kind = .history) (hd : Declared d) (h : List σ) (a : α) (r r' : Rat) (hr : Draw r) (hr' : Draw r') :
    step d (recent d.kind h) a r r' = .error .typeError ∧ ∃ o, sample d (recent d.kind h) a r r' = .ok o := by
  obtain ⟨s, h1, _⟩ := sample_possible (hd.next (recent d.kind h) a) hr.1 hr.2
  obtain ⟨o, h3, _⟩ := sample_possible (hd.observe s (some a)) hr'.1 hr'.2
  constructor
  · have hs : stepMemory d.kind (recent d.kind h) s = .error .typeError := by rw [hk]; rfl
    simp only [step, stateSample, h1, bind_ok, h3, hs, bind_error]
  · exact ⟨⟨o, _, _⟩, by simp only [sample, stateSample, h1, bind_ok, h3]; rfl⟩

/-! ### Episodes from a given memory -/

/-- In a Markovian domain the memory of the caller is left alone, and every episode of a rollout starts from it. -/
theorem C99_from_memory_partial {d : Dom σ α ω} (hk : d.kind = .markovian) : ∀ (eps : List (List (α × Rat))) (h : Shared σ) (l : List (Mem σ × List σ)),
    episodesFrom d h eps = .ok l → l.length = eps.length ∧ ∀ e ∈ l, e.1 = h.given := by
  have hone : ∀ (as : List (α × Rat)) (h : Shared σ) r, episodeFrom d h as = .ok r → r.1.given = h.given := by
    intro as
    induction as with
    | nil => intro h r hr; cases hr; rfl
    | cons p as ih =>
      intro h r hr
      obtain ⟨a, u⟩ := p
      simp only [episodeFrom] at hr
      obtain ⟨t, _, hr⟩ := bind_eq_ok.1 hr
      obtain ⟨h', g, hr⟩ := bind_eq_ok.1 hr
      obtain ⟨v, gv, hr⟩ := bind_eq_ok.1 hr
      cases hr
      have hg : h'.given = h.given := by
        simp only [stepShared, hk] at g
        obtain ⟨m, _, g⟩ := bind_eq_ok.1 g
        rw [if_pos (show MemKind.markovian.maxlen = some 1 from rfl)] at g
        cases g; rfl
      exact (ih h' v gv).trans hg
  intro eps
  induction eps with
  | nil => intro h l hl; cases hl; simp
  | cons as eps ih =>
    intro h l hl
    simp only [episodesFrom] at hl
    obtain ⟨u, hu, hl⟩ := bind_eq_ok.1 hl
    obtain ⟨v, hv, hl⟩ := bind_eq_ok.1 hl
    cases hl
    have hg := hone as _ _ hu
    obtain ⟨i1, i2⟩ := ih _ _ hv
    refine ⟨by simp [i1], fun e he => ?_⟩
    rcases List.mem_cons.1 he with rfl | he
    · rfl
    · rw [i2 e he, hg]; rfl

/-- A counter that adds the action to the newest of its two recent states. -/
def twoBack : Dom Nat Nat Nat :=
  { deterministic (.finiteHistory 2) 0 (fun m a => match m with | .deque xs _ => xs.getLastD 0 + a | .bare _ => 0)
      (fun _ _ _ => ⟨0, 0⟩) (fun _ => false) with kind := .finiteHistory 2 }

/-- With a bounded history the steps change the memory that the caller passed, and the second episode starts where the first ended. -/
theorem C99_from_memory_refuted : episodesFrom twoBack ⟨.deque [0, 0] (some 2), none⟩ [[(1, 0), (1, 0)], [(1, 0)]] =
    .ok [(.deque [0, 0] (some 2), [1, 2]), (.deque [1, 2] (some 2), [3])] := rfl

/-- A coin that moves a counter by 0 or 1, seen only whether it is positive. -/
def coin : Dom Nat Unit Bool where
  kind := .markovian
  init := .single 0
  next m _ := match m with | .bare (some s) => .discrete [(s, 1), (s + 1, 3)] | _ => .single 0
  value _ _ s := ⟨s, -s⟩
  terminal s := decide (3 ≤ s)
  observe s _ := .discrete [(decide (0 < s), 9), (decide (s = 0), 1)]

theorem coin_declared : Declared coin := by
  refine ⟨trivial, fun m _ => ?_, fun s _ => ?_⟩
  · simp only [coin]
    split
    · simp [Dist.Proper]
    · trivial
  · simp [coin, Dist.Proper]

/-- Three steps of the coin: drawn above a quarter it moves; the second observation is wrong. -/
example : play coin 0 0 [((), 1/2, 1/2), ((), 1/8, 19/20), ((), 3/4, 0)] =
    .ok (.bare (some 2), false, [⟨true, ⟨1, -1⟩, false⟩, ⟨false, ⟨1, -1⟩, false⟩, ⟨true, ⟨2, -2⟩, false⟩]) := by decide +kernel

example : ∃ s0 o outs h, play coin 0 0 [((), 1/2, 1/2)] = .ok (recent coin.kind h, o, outs) ∧ coin.init.Possible s0 ∧
    (coin.observe s0 none).Possible o ∧ Path coin [s0] [()] outs h :=
  C99_sound_partial (d := coin) ⟨by simp [coin], by simp [coin]⟩ coin_declared ⟨le_rfl, zero_lt_one⟩ ⟨le_rfl, zero_lt_one⟩ [((), 1/2, 1/2)]
    (by intro p hp; simp at hp; subst hp; constructor <;> constructor <;> norm_num)

end Verif.Defaults
