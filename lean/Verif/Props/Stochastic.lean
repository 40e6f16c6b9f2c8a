import Verif.Lemmas.Stochastic
import Verif.Props.Binding
import Mathlib.Algebra.Order.Ring.Rat
import Mathlib.Tactic.Linarith
import Mathlib.Tactic.Ring

/-!
C107: random durations for a project, and projects drawn from it.
-/
namespace Verif.Binding
open Verif.Durations (intRange mem_intRange)
open Verif.Sched (Plan needOf HasMode)

/-- The durations that may be drawn for a task with noise: those at most 10 away, but at least 1. -/
theorem C107_noise_values {d : Nat} (h : 0 < d) (e : Nat) :
    (∃ w, (e, w) ∈ noisy true d ∧ 0 < w) ↔ 1 ≤ e ∧ d ≤ e + 10 ∧ e ≤ d + 10 := by
  unfold noisy
  rw [if_neg (by simp; omega)]
  simp only [List.mem_map, mem_intRange, Prod.mk.injEq]
  constructor
  · rintro ⟨w, ⟨i, hi, h1, _⟩, _⟩
    omega
  · rintro ⟨h1, h2, h3⟩
    exact ⟨1 / 21, ⟨(e : Int) - d, by omega, by omega, rfl⟩, by norm_num⟩

/-- The mean of a distribution. -/
def mean (l : List (Nat × Rat)) : Rat := (l.map fun p => (p.1 : Rat) * p.2).sum

theorem range_noise : intRange (-10) 11 = [-10, -9, -8, -7, -6, -5, -4, -3, -2, -1, 0, 1, 2, 3, 4, 5, 6, 7, 8, 9, 10] := by decide

/-- The probabilities sum to 1; the mean is the given duration when that is above 10, and otherwise it is longer. -/
theorem C107_noise_mean (noise : Bool) (d : Nat) :
    ((noisy noise d).map (·.2)).sum = 1 ∧ (d ≤ mean (noisy noise d)) ∧
    (mean (noisy noise d) = d ↔ noise = false ∨ d = 0 ∨ 10 < d) := by
  unfold noisy mean
  by_cases h : d = 0 ∨ noise = false
  · rw [if_pos h]
    simp
    tauto
  · rw [if_neg h]
    have h0 : 0 < d := by omega
    have hn : noise = true := by cases noise <;> simp_all
    subst hn
    simp only [List.map_map, range_noise]
    refine ⟨by simp [List.sum_cons]; norm_num, ?_⟩
    by_cases h10 : 10 < d
    · have hk : ∀ i : Int, -10 ≤ i → (((max 1 ((d : Int) + i)).toNat : Nat) : Rat) = d + i := by
        intro i hi
        have : (((max 1 ((d : Int) + i)).toNat : Nat) : Int) = (d : Int) + i := by omega
        have := congrArg (fun z : Int => (z : Rat)) this
        push_cast at this
        simpa using this
      have : (List.map ((fun p : Nat × Rat => (p.1 : Rat) * p.2) ∘ fun i : Int => ((max 1 ((d : Int) + i)).toNat, (1 / 21 : Rat)))
          [-10, -9, -8, -7, -6, -5, -4, -3, -2, -1, 0, 1, 2, 3, 4, 5, 6, 7, 8, 9, 10]).sum = d := by
        rw [List.map_congr_left (g := fun i : Int => ((d : Rat) + i) * (1 / 21)) fun i hi => by
          have hi : -10 ≤ i := by
            have : ∀ j ∈ [-10, -9, -8, -7, -6, -5, -4, -3, -2, -1, 0, 1, 2, 3, 4, 5, 6, 7, 8, 9, (10 : Int)], -10 ≤ j := by decide
            exact this i hi
          simp only [Function.comp, hk i hi]]
        simp only [List.map_cons, List.map_nil, List.sum_cons, List.sum_nil]
        push_cast
        ring
      rw [this]
      exact ⟨le_refl _, by simp [h10]⟩
    · have h10 : d ≤ 10 := by omega
      have : ((d : Rat)) < (List.map ((fun p : Nat × Rat => (p.1 : Rat) * p.2) ∘ fun i : Int => ((max 1 ((d : Int) + i)).toNat, (1 / 21 : Rat)))
          [-10, -9, -8, -7, -6, -5, -4, -3, -2, -1, 0, 1, 2, 3, 4, 5, 6, 7, 8, 9, 10]).sum := by
        have h11 : d = 1 ∨ d = 2 ∨ d = 3 ∨ d = 4 ∨ d = 5 ∨ d = 6 ∨ d = 7 ∨ d = 8 ∨ d = 9 ∨ d = 10 := by omega
        rcases h11 with rfl | rfl | rfl | rfl | rfl | rfl | rfl | rfl | rfl | rfl <;> decide +kernel
      refine ⟨this.le, fun h => absurd h this.ne', fun h => ?_⟩
      rcases h with h | h
      · simp at h
      · omega

/-- What is made of a complete project: the same project, with the horizon doubled and every duration replaced by the
distribution described above (with noise for the chosen tasks, all tasks when none are chosen). -/
theorem C107_stochastic {P : Project} (hc : Complete P) (noise : Option (List Nat)) :
    ∃ S, buildStochastic P noise = .ok S ∧ S.resources = P.resources ∧ S.tasks = P.tasks ∧ S.modes = P.modes ∧ S.avail = P.avail ∧
      S.horizon = 2 * P.horizon ∧
      (∀ x k needs d, P.need? x k = some needs → P.dur? x k = some d →
        S.dist? x k = some (noisy (match noise with | none => true | some l => decide (x ∈ l)) d)) ∧
      (∀ x ∈ P.tasks, ∀ q, q ∈ (S.preds.get? x).getD [] ↔ q ∈ (P.preds.get? x).getD []) := by
  obtain ⟨r, h1, h2, h3⟩ := noisyTasks_ok hc (noise := noise) P.tasks fun _ h => h
  have hs : ∀ a ss, (a, ss) ∈ P.successors → ∀ b ∈ ss, a ∈ P.tasks ∧ b ∈ P.tasks :=
    fun a ss h b hb => ⟨(hc.succKeys.2 a).1 (List.mem_map.2 ⟨_, h, rfl⟩), hc.succs a ss h b hb⟩
  refine ⟨⟨P.resources, P.tasks, P.modes, r, successorsMap P.tasks P.successors, predecessorsMap P.tasks P.successors, P.horizon * 2, P.avail, P.renewable⟩,
    ?_, rfl, rfl, rfl, rfl, by rw [Nat.mul_comm], ?_, ?_⟩
  · unfold buildStochastic
    rw [h1]; rfl
  · intro x k needs d hn hd
    have hx : x ∈ P.tasks := by
      obtain ⟨dd, hdd, _⟩ := Option.bind_eq_some_iff.1 hn
      exact (hc.modes.2 x).1 ((Dict.get?_isSome_iff_mem_keys _ _).1 (by rw [hdd]; rfl))
    have := h3 x hx k needs hn
    rw [hd] at this
    exact this
  · intro x hx q
    rw [mem_preds hc.tasks hs hx, hc.preds x hx q]

/-- Draws that stay inside the lists of values. -/
def Stochastic.Draws (S : Stochastic) (draw : Nat → Nat → Nat) : Prop := ∀ x k l, S.dist? x k = some l → draw x k < l.length

theorem sample_ok {S : Stochastic} {draw : Nat → Nat → Nat} {x k : Nat} {l : List (Nat × Rat)} (h : S.dist? x k = some l)
    (hd : draw x k < l.length) : S.sample draw x k = .ok (l[draw x k]).1 := by
  obtain ⟨ds, h1, h2⟩ := Option.bind_eq_some_iff.1 h
  unfold Stochastic.sample
  simp only [Dict.get, h1, h2, bind_ok, pyGet, List.getElem?_eq_getElem hd]
  rfl

theorem noisy_mem_pos {b : Bool} {d : Nat} {p : Nat × Rat} (h : p ∈ noisy b d) : 0 < p.2 := by
  unfold noisy at h
  split at h
  · simp only [List.mem_singleton] at h; subst h; norm_num
  · obtain ⟨i, _, rfl⟩ := List.mem_map.1 h; norm_num

/-- Every project drawn is complete and is the given project with the horizon doubled, possible durations, and all resources
renewable. -/
theorem C107_drawn {P : Project} (hc : Complete P) {noise : Option (List Nat)} {S : Stochastic} (hS : buildStochastic P noise = .ok S)
    {draw : Nat → Nat → Nat} (hdr : S.Draws draw) :
    ∃ Q, drawProject S draw = .ok Q ∧ Complete Q ∧ Q.resources = P.resources ∧ Q.tasks = P.tasks ∧ Q.horizon = 2 * P.horizon ∧
      (∀ r ∈ P.resources, Q.avail.get? r = P.avail.get? r) ∧ (∀ r ∈ P.resources, Q.renewable.get? r = some true) ∧
      (∀ x k, Q.need? x k = P.need? x k) ∧
      (∀ x ∈ P.tasks, ∀ q, q ∈ (Q.preds.get? x).getD [] ↔ q ∈ (P.preds.get? x).getD []) ∧
      (∀ x k needs d, P.need? x k = some needs → P.dur? x k = some d → ∃ d' w, Q.dur? x k = some d' ∧
        (noisy (match noise with | none => true | some l => decide (x ∈ l)) d)[draw x k]? = some (d', w)) := by
  obtain ⟨S', e, h1, h2, h3, h4, h5, h6, h7⟩ := C107_stochastic hc noise
  rw [hS] at e; cases e
  have hs : ∀ a ss, (a, ss) ∈ P.successors → ∀ b ∈ ss, a ∈ P.tasks ∧ b ∈ P.tasks :=
    fun a ss h b hb => ⟨(hc.succKeys.2 a).1 (List.mem_map.2 ⟨_, h, rfl⟩), hc.succs a ss h b hb⟩
  have hsucc : S.successors = successorsMap P.tasks P.successors := by
    unfold buildStochastic at hS
    obtain ⟨r, _, h⟩ := (bind_eq_ok ..).1 hS
    cases h; rfl
  have hsub : ∀ a b, (∃ ss, (a, ss) ∈ S.successors ∧ b ∈ ss) ↔ ∃ ss, (a, ss) ∈ P.successors ∧ b ∈ ss := by
    intro a b
    rw [hsucc]
    exact mem_succs hc.tasks hs
  have hsamp : ∀ x k needs, P.need? x k = some needs → ∃ d d', P.dur? x k = some d ∧ S.sample draw x k = .ok d' ∧
      ∃ w, (noisy (gets noise x) d)[draw x k]? = some (d', w) := by
    intro x k needs hn
    obtain ⟨d, hd⟩ := hc.durations x k needs hn
    have hl := h6 x k needs d hn hd
    have hlt := hdr x k _ hl
    exact ⟨d, _, hd, sample_ok hl hlt, _, List.getElem?_eq_getElem hlt⟩
  have hmem : ∀ x d, (x, d) ∈ P.modes → ∀ k needs, (k, needs) ∈ d → P.need? x k = some needs := by
    intro x d hx k needs hk
    unfold Project.need?
    rw [Dict.get?_of_mem hc.modes.1 hx, Option.bind_some, Dict.get?_of_mem (hc.inner x d hx) hk]
  obtain ⟨tm, t1, t2, t3⟩ := drawTasks_ok (S := S) (draw := draw) S.modes (by
    rw [h3]
    intro x d hx k needs hk
    obtain ⟨_, d', _, hd', _⟩ := hsamp x k needs (hmem x d hx k needs hk)
    exact ⟨d', hd'⟩)
  have t4 := keys_drawTasks _ t1
  rw [h3] at t2 t3 t4
  obtain ⟨av, a1, a2⟩ := amounts_ok (avail := S.avail) S.resources (by
    rw [h1, h4]
    intro r hr
    obtain ⟨c, hc, _⟩ := hc.caps r hr
    exact ⟨c, hc⟩)
  rw [h1, h4] at a2
  have hren : S.renewability.keys = P.resources := by
    unfold Stochastic.renewability Dict.keys
    rw [List.map_map, h1]
    exact (List.map_congr_left fun r _ => rfl).trans (List.map_id _)
  have htm : ∀ x d, (x, d) ∈ tm → (x, d.map fun q => (q.1, q.2.needs)) ∈ P.modes := by
    intro x d hx
    rw [← t4]
    exact List.mem_map.2 ⟨_, hx, rfl⟩
  have hD : Described S.resources S.tasks tm S.successors av S.renewability := by
    refine ⟨by rw [h1]; exact hc.resources, ?_, ⟨by rw [hren]; exact hc.resources, fun r => by rw [hren, h1]⟩, by rw [h2]; exact hc.tasks,
      by rw [h2]; exact hc.numbered, by rw [h2]; exact hc.two, ⟨by rw [t2]; exact hc.modes.1, fun x => by rw [t2, h2]; exact hc.modes.2 x⟩, ?_, ?_, ?_⟩
    · intro r hr
      rw [h1] at hr
      obtain ⟨c, hcc⟩ := hc.caps r hr
      exact ⟨c, by rw [a2 r hr]; exact hcc.1, hcc.2⟩
    · intro x d hx
      have hx' := htm x d hx
      have hk : Dict.keys d = Dict.keys (d.map fun q : Nat × Rcpsp.Mode => (q.1, q.2.needs)) := (keys_mapv (f := fun m : Rcpsp.Mode => m.needs) d).symm
      refine ⟨by rw [hk]; exact hc.inner x _ hx', ?_, ?_⟩
      · have hxt : x ∈ P.tasks := (hc.modes.2 x).1 (List.mem_map.2 ⟨_, hx', rfl⟩)
        obtain ⟨n1, hn1⟩ := hc.first x hxt
        obtain ⟨dd, e1, e2⟩ := Option.bind_eq_some_iff.1 hn1
        rw [Dict.get?_of_mem hc.modes.1 hx'] at e1
        cases e1
        rw [hk]
        exact (Dict.get?_isSome_iff_mem_keys _ _).1 (by rw [e2]; rfl)
      · intro k m hm
        have := hmem x _ hx' k m.needs (List.mem_map.2 ⟨_, hm, rfl⟩)
        obtain ⟨k1, k2, _⟩ := hc.needs x k m.needs this
        exact ⟨k1, by rw [h1]; exact k2⟩
    · intro a ss h b hb
      rw [h2]
      obtain ⟨ss', k1, k2⟩ := (hsub a b).1 ⟨ss, h, hb⟩
      exact hs a ss' k1 b k2
    · obtain ⟨rank, hr⟩ := hc.acyclic
      refine ⟨rank, fun a ss h b hb => ?_⟩
      obtain ⟨ss', k1, k2⟩ := (hsub a b).1 ⟨ss, h, hb⟩
      exact hr a ss' k1 b k2
  obtain ⟨Q, q1, q2, q3, q4, q5, q6, q7, q8, q9, q10⟩ := new_complete S.horizon hD
  refine ⟨Q, ?_, q2, by rw [q3, h1], by rw [q4, h2], by rw [q5, h5], fun r hr => by rw [q6, a2 r hr], ?_, ?_, ?_, ?_⟩
  · unfold drawProject
    rw [t1, bind_ok, a1, bind_ok]
    exact q1
  · intro r hr
    rw [q7]
    unfold Stochastic.renewability
    rw [h1]
    have : ∀ l : List String, r ∈ l → Dict.get? (l.map fun r => (r, true)) r = some true := by
      intro l
      induction l with
      | nil => intro h; simp at h
      | cons y l ih =>
        intro h
        simp only [List.map_cons, Dict.get?]
        split
        · rfl
        · rename_i hne
          rcases List.mem_cons.1 h with e | e
          · exact absurd e.symm hne
          · exact ih e
    exact this _ hr
  · intro x k
    rw [q8, t3 x k]
    show (Option.bind (P.need? x k) _).map _ = P.need? x k
    cases hn : P.need? x k with
    | none => rfl
    | some needs =>
      obtain ⟨d, d', _, e2, _⟩ := hsamp x k needs hn
      simp only [Option.bind_some, e2, Option.map_some]
      rw [h1]
      refine congrArg some (List.filter_eq_self.2 fun e he => decide_eq_true ?_)
      exact (hc.needs x k needs hn).2.2 e.1 (List.mem_map.2 ⟨_, he, rfl⟩)
  · intro x hx q
    rw [q10 x (by rw [h2]; exact hx) q, hsub, hc.preds x hx q]
  · intro x k needs d hn hd
    obtain ⟨d0, d', e1, e2, w, e3⟩ := hsamp x k needs hn
    rw [hd] at e1; cases e1
    refine ⟨d', w, ?_, e3⟩
    rw [q9, t3 x k]
    show (Option.bind (P.need? x k) _).map _ = _
    rw [hn]
    simp only [Option.bind_some, e2, Option.map_some]

/-- Every combination of possible durations can be drawn. -/
theorem C107_every {P : Project} (hc : Complete P) {noise : Option (List Nat)} {S : Stochastic} (hS : buildStochastic P noise = .ok S)
    {f : Nat → Nat → Nat}
    (hf : ∀ x k needs d, P.need? x k = some needs → P.dur? x k = some d →
      if 0 < d ∧ (∀ l, noise = some l → x ∈ l) then 1 ≤ f x k ∧ d ≤ f x k + 10 ∧ f x k ≤ d + 10 else f x k = d) :
    ∃ draw Q, drawProject S draw = .ok Q ∧ ∀ x k needs, P.need? x k = some needs → Q.dur? x k = some (f x k) := by
  obtain ⟨S', e, _, _, _, _, _, h6, _⟩ := C107_stochastic hc noise
  rw [hS] at e; cases e
  have hmem : ∀ x k needs d, P.need? x k = some needs → P.dur? x k = some d → ∃ w, (f x k, w) ∈ noisy (gets noise x) d := by
    intro x k needs d hn hd
    have := hf x k needs d hn hd
    split at this
    · rename_i hc
      have hg : gets noise x = true := by
        unfold gets
        cases noise with
        | none => rfl
        | some l => exact decide_eq_true (hc.2 l rfl)
      rw [hg]
      obtain ⟨w, hw, _⟩ := (C107_noise_values hc.1 (f x k)).2 this
      exact ⟨w, hw⟩
    · rename_i hc
      refine ⟨1, ?_⟩
      unfold noisy
      rw [if_pos ?_, this]
      · simp
      · by_cases h0 : d = 0
        · exact .inl h0
        · right
          cases hg : gets noise x with
          | false => rfl
          | true =>
            refine absurd ⟨by omega, fun l hl => ?_⟩ hc
            unfold gets at hg
            rw [hl] at hg
            exact of_decide_eq_true hg
  refine ⟨fun x k => match S.dist? x k with | some l => min (l.findIdx fun p => decide (p.1 = f x k)) (l.length - 1) | none => 0, ?_⟩
  have hdr : S.Draws fun x k => match S.dist? x k with | some l => min (l.findIdx fun p => decide (p.1 = f x k)) (l.length - 1) | none => 0 := by
    intro x k l hl
    simp only [hl]
    have hpos : 0 < l.length := by
      have hr : ∃ r, noisyTasks P noise P.tasks = .ok r ∧ S.dist = r := by
        unfold buildStochastic at hS
        obtain ⟨r, h1, h⟩ := (bind_eq_ok ..).1 hS
        cases h; exact ⟨r, h1, rfl⟩
      obtain ⟨r, r1, r2⟩ := hr
      exact noisyTasks_pos r1 (by rw [← r2]; exact hl)
    omega
  obtain ⟨Q, q1, _, _, _, _, _, _, _, _, q10⟩ := C107_drawn hc hS hdr
  refine ⟨Q, q1, fun x k needs hn => ?_⟩
  obtain ⟨d, hd⟩ := hc.durations x k needs hn
  obtain ⟨d', w, e1, e2⟩ := q10 x k needs d hn hd
  have hl := h6 x k needs d hn hd
  rw [e1]
  simp only [hl] at e2
  obtain ⟨w', hw'⟩ := hmem x k needs d hn hd
  have hlt : (noisy (gets noise x) d).findIdx (fun p => decide (p.1 = f x k)) < (noisy (gets noise x) d).length :=
    List.findIdx_lt_length_of_exists ⟨_, hw', by simp⟩
  change (noisy (gets noise x) d)[min ((noisy (gets noise x) d).findIdx fun p => decide (p.1 = f x k)) ((noisy (gets noise x) d).length - 1)]? = _ at e2
  rw [Nat.min_eq_left (by omega), List.getElem?_eq_getElem hlt] at e2
  have := List.findIdx_getElem (p := fun p : Nat × Rat => decide (p.1 = f x k)) (w := hlt)
  rw [Option.some.inj e2] at this
  simpa using this

/-- As many projects as asked for are drawn, each with its own draws. -/
theorem C107_count {S : Stochastic} {draw : Nat → Nat → Nat → Nat} (n i : Nat) (h : ∀ j < n, ∃ Q, drawProject S (draw (i + j)) = .ok Q) :
    ∃ l, drawProjects S draw n i = .ok l ∧ l.length = n ∧ ∀ j < n, ∃ Q, l[j]? = some Q ∧ drawProject S (draw (i + j)) = .ok Q := by
  induction n generalizing i with
  | zero => exact ⟨[], rfl, rfl, fun j hj => by omega⟩
  | succ n ih =>
    obtain ⟨Q, hQ⟩ := h 0 (by omega)
    obtain ⟨l, h1, h2, h3⟩ := ih (i + 1) fun j hj => by
      have := h (j + 1) (by omega)
      rwa [show i + (j + 1) = i + 1 + j by omega] at this
    refine ⟨Q :: l, ?_, by simp [h2], ?_⟩
    · simp only [drawProjects]
      rw [show draw i = draw (i + 0) from rfl, hQ, bind_ok, h1]; rfl
    · intro j hj
      cases j with
      | zero => exact ⟨Q, rfl, hQ⟩
      | succ j =>
        obtain ⟨Q', e1, e2⟩ := h3 j (by omega)
        exact ⟨Q', by simpa using e1, by rwa [show i + (j + 1) = i + 1 + j by omega]⟩

/-- A plan feasible for the given project is feasible for every project drawn, and the other way round when all resources of
the given project are renewable. -/
theorem C107_plans {P : Project} (hc : Complete P) {noise : Option (List Nat)} {S : Stochastic} (hS : buildStochastic P noise = .ok S)
    {draw : Nat → Nat → Nat} (hdr : S.Draws draw) {Q : Project} (hQ : drawProject S draw = .ok Q)
    {num : String → Nat} (hnum : ∀ r ∈ P.resources, ∀ r' ∈ P.resources, num r = num r' → r = r') (cap : Nat → Int) (plan : Plan) :
    (plan.Feasible (P.dom num) cap → plan.Feasible (Q.dom num) cap) ∧
    ((∀ r ∈ P.resources, P.renewable.get? r = some true) → plan.Feasible (Q.dom num) cap → plan.Feasible (P.dom num) cap) := by
  obtain ⟨Q', q1, q2, q3, q4, q5, q6, q7, q8, q9, _⟩ := C107_drawn hc hS hdr
  rw [hQ] at q1; cases q1
  have htasks : (Q.dom num).tasks = (P.dom num).tasks := q4
  have hrt : (Q.dom num).resTypes = (P.dom num).resTypes := by show Q.resources.map num = P.resources.map num; rw [q3]
  have hmode : ∀ x k, HasMode (Q.dom num) x k ↔ HasMode (P.dom num) x k := by
    intro x k
    rw [dom_hasMode, dom_hasMode, q8]
  have hpred : ∀ x ∈ P.tasks, ∀ q, q ∈ (Q.dom num).preds x ↔ q ∈ (P.dom num).preds x := q9
  have hneed : ∀ r ∈ P.resources, needOf (Q.dom num) plan.mode (num r) = needOf (P.dom num) plan.mode (num r) := by
    intro r hr
    funext x
    rw [needOf_dom hc hnum hr, needOf_dom q2 (by rw [q3]; exact hnum) (by rw [q3]; exact hr), q8]
  have hrun : ∀ t, plan.running (Q.dom num) t = plan.running (P.dom num) t := by
    intro t; unfold Plan.running; rw [htasks]
  have hget : ∀ {R : Project}, (∀ r, r ∈ R.renewable.keys ↔ r ∈ P.resources) → ∀ r ∈ P.resources,
      (R.dom num).renewable.get? (num r) = R.renewable.get? r := by
    intro R hR r hr
    exact get?_mapk fun k' hk' e => hnum k' ((hR k').1 hk') r hr e
  have hQren : ∀ r ∈ P.resources, (Q.dom num).renewable.get? (num r) = some true := by
    intro r hr
    rw [hget (by rw [← q3]; exact q2.renewable.2) r hr, q7 r hr]
  constructor
  · intro h
    refine ⟨fun x hx => (hmode x _).2 (h.mode x (htasks ▸ hx)), fun x hx => h.start x (htasks ▸ hx), fun x hx => h.dur x (htasks ▸ hx), ?_, ?_, ?_⟩
    · intro x hx q hq
      have hx' : x ∈ P.tasks := by rw [← q4]; exact hx
      rw [htasks]
      exact h.prec x hx' q ((hpred x hx' q).1 hq)
    · intro r hr _ t
      rw [hrt] at hr
      obtain ⟨s, hs, rfl⟩ := List.mem_map.1 hr
      rw [hrun, hneed s hs]
      have hk : ∃ b, P.renewable.get? s = some b := Option.isSome_iff_exists.1 ((Dict.get?_isSome_iff_mem_keys _ _).2 ((hc.renewable.2 s).2 hs))
      obtain ⟨b, hb⟩ := hk
      have hb' : (P.dom num).renewable.get? (num s) = some b := by rw [hget hc.renewable.2 s hs, hb]
      cases b with
      | true => exact h.renewable _ hr hb' t
      | false =>
        refine le_trans ?_ (h.consumed _ hr hb')
        unfold Plan.running
        exact sum_filter_le _ _ _ fun x _ => Sched.needOf_nonneg (dom_constant hc) _ _ x
    · intro r hr hf
      rw [hrt] at hr
      obtain ⟨s, hs, rfl⟩ := List.mem_map.1 hr
      rw [hQren s hs] at hf
      cases hf
  · intro hall h
    refine ⟨fun x hx => (hmode x _).1 (h.mode x (htasks.symm ▸ hx)), fun x hx => h.start x (htasks.symm ▸ hx), fun x hx => h.dur x (htasks.symm ▸ hx), ?_, ?_, ?_⟩
    · intro x hx q hq
      have := h.prec x (htasks.symm ▸ hx) q ((hpred x hx q).2 hq)
      rwa [htasks] at this
    · intro r hr _ t
      obtain ⟨s, hs, rfl⟩ := List.mem_map.1 hr
      have := h.renewable (num s) (hrt.symm ▸ hr) (hQren s hs) t
      rwa [hrun, hneed s hs] at this
    · intro r hr hf
      obtain ⟨s, hs, rfl⟩ := List.mem_map.1 hr
      rw [hget hc.renewable.2 s hs, hall s hs] at hf
      cases hf

/-- Resources that are not renewable become renewable: without any noise, the project drawn accepts a schedule (mode 2 of task 2
consumes both tools, task 3 needs one more) that the given project refuses. -/
theorem C107_renewable_refuted :
    (demoProject >>= buildDo >>= fun pb => Rcpsp.satisfy pb none [2, 1] [(1, (0, 0)), (2, (0, 1)), (3, (1, 3)), (4, (3, 3))]) = .ok false ∧
    (demoProject >>= (buildStochastic · (some [])) >>= (drawProject · fun _ _ => 0) >>= buildDo >>= fun pb =>
      Rcpsp.satisfy pb none [2, 1] [(1, (0, 0)), (2, (0, 1)), (3, (1, 3)), (4, (3, 3))]) = .ok true := by
  decide +kernel

/-! ### Examples -/

example : ∃ P, demoProject = .ok P ∧ Complete P := by
  obtain ⟨P, h1, h2, _⟩ := new_complete 10 demo_described
  exact ⟨P, h1, h2⟩

/-- A duration of 3 becomes 1 to 13, with 1 nine times as likely as the others. -/
example : (demoProject >>= (buildStochastic · (some [2]))).toOption.map (fun S => (S.dist? 2 1).map (·.map (·.1))) =
    some (some [1, 1, 1, 1, 1, 1, 1, 1, 1, 2, 3, 4, 5, 6, 7, 8, 9, 10, 11, 12, 13]) := by decide +kernel

/-- Task 3 gets no noise; the last value is drawn for task 2; the horizon is doubled. -/
example : (demoProject >>= (buildStochastic · (some [2])) >>= (drawProject · fun t _ => if t = 2 then 20 else 0)).toOption.map
      (fun Q => (Q.durations, Q.horizon)) =
    some ([(1, [(1, 0)]), (2, [(1, 13), (2, 11)]), (3, [(1, 2)]), (4, [(1, 0)])], 20) := by decide +kernel

end Verif.Binding
