import Verif.Lemmas.PileRule

/-! Properties of `PileSolverRCPSP` and `Executor` (rcpsp_pile.py). -/
namespace Verif.Pile

/-- A schedule of the whole project that keeps the durations, the precedences and the resources. -/
structure Feasible (p : Project) (sched : Schedule) : Prop where
  once : (sched.map (·.1)).Nodup
  all : ∀ n, (∃ s e, (n, (s, e)) ∈ sched) ↔ 1 ≤ n ∧ n ≤ p.count
  source : (1, (0, 0)) ∈ sched
  duration : ∀ a s e, (a, (s, e)) ∈ sched → e = s + p.duration a
  precedence : ∀ a s e, (a, (s, e)) ∈ sched → ∀ b ∈ p.pred a, ∀ s' e', (b, (s', e')) ∈ sched → e' ≤ s
  renewable : ∀ r ∈ p.resources, r ∉ p.nonRenewable → ∀ t, load p sched r t ≤ p.capacity r
  nonRenewable : ∀ r ∈ p.resources, r ∈ p.nonRenewable → (sched.map fun x => p.need x.1 r).sum ≤ p.capacity r

variable {p : Project} {arrange : List Nat → List Nat} {pick : Pick}

theorem source_mem {D : Nat → Bool} {st : St} (hwf : p.Wf) (h : Inv p D st) : (1, (0, 0)) ∈ st.sched := by
  obtain ⟨s, e, hm⟩ := h.mem.1 (.inl rfl : (1 : Nat) = 1 ∨ _)
  have hd := (h.entry 1 s e hm).2
  rw [hwf.sourceDuration] at hd
  have hs : s = 0 := by
    by_contra hs
    have hb := h.tight 1 s e hm 0 (by omega)
    rcases hb with ⟨b, hb, _⟩ | ⟨r, hr, hn, hlt⟩ | ⟨r, hr, hn, hlt⟩
    · rw [hwf.source] at hb; cases hb
    · have := h.loads r hr hn 0
      rw [hwf.sourceNeed] at hlt
      omega
    · have h1 := h.room r hr
      rw [used, if_pos hn] at h1
      rw [hwf.sourceNeed] at hlt
      have h2 : spent p st.sched r 0 ≤ (st.started.map fun a => p.need a r).sum := by
        have h3 : (st.started.map fun a => p.need a r).sum = ((st.sched.map (·.1)).map fun a => p.need a r).sum := by
          rw [h.keys]; simp [hwf.sourceNeed]
        have h4 : spent p st.sched r 0 = (((st.sched.filter fun x => x.2.1 ≤ 0).map (·.1)).map fun a => p.need a r).sum := by
          rw [spent, List.map_map]; rfl
        rw [h3, h4]
        apply sum_le_of_subset
        · exact h.keysNodup.sublist (List.filter_sublist.map _)
        · intro a ha
          obtain ⟨x, hx, rfl⟩ := List.mem_map.1 ha
          exact List.mem_map.2 ⟨x, (List.mem_filter.1 hx).1, rfl⟩
        · intro a ha
          obtain ⟨x, hx, rfl⟩ := List.mem_map.1 ha
          obtain ⟨r1, r2⟩ := h.inRange hwf (v := x.2) hx
          exact hwf.need _ r r1 r2
      omega
  subst hs
  have : e = 0 := by omega
  subst this
  exact hm

theorem Inv.feasible {D : Nat → Bool} {st : St} (hwf : p.Wf) (h : Inv p D st) (hlen : p.count ≤ st.sched.length) : Feasible p st.sched where
  once := h.keysNodup
  all n := by
    constructor
    · rintro ⟨s, e, hm⟩; exact h.inRange hwf hm
    · rintro ⟨n1, n2⟩; exact h.mem.1 (h.complete hlen n n1 n2)
  source := source_mem hwf h
  duration a s e hm := (h.entry a s e hm).2
  precedence a s e hm b hb s' e' hm' := by
    obtain ⟨s'', e'', h1, h2⟩ := h.prec a s e hm b hb
    obtain ⟨rfl, rfl⟩ := Prod.mk.inj (h.unique hm' h1)
    exact h2
  renewable := h.loads
  nonRenewable r hr hn := by
    have h1 := h.room r hr
    rw [used, if_pos hn] at h1
    have : (st.sched.map fun x => p.need x.1 r) = (st.sched.map (·.1)).map fun a => p.need a r := by rw [List.map_map]; rfl
    rw [this, h.keys]
    simpa [hwf.sourceNeed] using h1

/-! ### The examples -/

def demo : Project where
  count := 5
  pred n := if n = 1 then [] else if n = 4 then [1, 3] else if n = 5 then [1, 2, 3, 4] else [1]
  succs n := if n = 3 then 2 else if n = 5 then 0 else 1
  resources := ["R", "N"]
  capacity r := if r = "R" then 2 else 3
  nonRenewable := ["N"]
  mode n := n
  duration n := if n = 2 then 3 else if n = 3 ∨ n = 4 then 2 else 0
  need n r := if n = 1 ∨ n = 5 then 0 else if r = "N" then 1 else if n = 4 then 2 else 1

theorem demo_wf : demo.Wf where
  count := by decide
  source := rfl
  sourceDuration := rfl
  sourceNeed r := by simp [demo]
  range n h1 h2 := by
    simp only [demo] at h2 ⊢
    intro b hb
    split at hb
    · cases hb
    · split at hb
      · simp at hb; omega
      · split at hb <;> simp at hb <;> omega
  nodup n := by simp only [demo]; split <;> [simp; (split <;> [simp; (split <;> simp)])]
  need n r _ _ := by simp only [demo]; split <;> [simp; (split <;> [simp; (split <;> simp)])]
  capacity r _ := by simp only [demo]; split <;> simp

theorem demo_possible : demo.Possible id where
  acyclic n h1 h2 b hb := by
    simp only [demo] at hb
    simp only [id]
    split at hb
    · cases hb
    · split at hb
      · simp at hb; omega
      · split at hb <;> simp at hb <;> omega
  alone n r _ _ hr hn := by
    simp only [demo, List.mem_cons, List.not_mem_nil, or_false] at hr hn
    rcases hr with rfl | rfl
    · simp only [demo]; split <;> [simp; (split <;> [simp; (split <;> simp)])]
    · exact absurd rfl hn
  total r hr hn := by
    simp only [demo, List.mem_cons, List.not_mem_nil, or_false] at hn
    subst hn
    decide

/-- Activities 2 and 3 end together, 4 waits for 2 and 5 for 3, and there is room for one of them. -/
def together : Project where
  count := 6
  pred n := if n = 1 then [] else if n = 4 then [1, 2] else if n = 5 then [1, 3] else if n = 6 then [1, 2, 3, 4, 5] else [1]
  resources := ["R"]
  capacity _ := 1
  nonRenewable := []
  duration n := if n = 2 ∨ n = 3 then 1 else if n = 4 then 4 else if n = 5 then 2 else 0
  need n _ := if n = 4 ∨ n = 5 then 1 else 0

theorem together_wf : together.Wf where
  count := by decide
  source := rfl
  sourceDuration := rfl
  sourceNeed r := by simp [together]
  range n h1 h2 := by
    simp only [together] at h2 ⊢
    intro b hb
    split at hb
    · cases hb
    · split at hb
      · simp at hb; omega
      · split at hb
        · simp at hb; omega
        · split at hb <;> simp at hb <;> omega
  nodup n := by simp only [together]; split <;> [simp; (split <;> [simp; (split <;> [simp; (split <;> simp)])])]
  need n r _ _ := by simp only [together]; split <;> simp
  capacity r _ := by simp [together]

/-! ### C83 -/

/-- **C83.** Whatever `PileSolverRCPSP.solve` returns is a feasible schedule of the whole project: every
activity once, for its duration, after its ancestors, and at no time more of a renewable resource or in total
more of a non-renewable one than there is; under any rule, any draws and any order of the sets. -/
theorem C83_feasible (hwf : p.Wf) (harr : ∀ l, (arrange l).Perm l) (rule : Rule) (draws : Nat → Nat) {sol : Solution}
    (h : solve p arrange rule draws = .ok (some sol)) : Feasible p sol.schedule := by
  obtain ⟨r, h1, h2⟩ := bind_eq_ok.1 h
  cases r with
  | none => cases h2
  | some st =>
    obtain rfl := Option.some.inj (Except.ok.inj h2)
    obtain ⟨⟨D, hi⟩, hlen⟩ := loop_inv hwf harr (fun _ _ _ hc => choose_sound rule _ hc) _ _ _ (start_inv hwf) h1
    exact hi.feasible hwf hlen

theorem Core.permutation {D : Nat → Bool} {st : St} (hi : Core p D st) (hc : 2 ≤ p.count) (hsink : ∀ n, 1 ≤ n → n < p.count → n ∈ p.pred p.count)
    (hlen : p.count ≤ st.sched.length) (mode : Nat → Nat) :
    (st.started.dropLast.map fun a : Nat => (a : Int) - 2).Perm ((List.range (p.count - 2)).map fun i : Nat => (i : Int)) ∧
    ((st.started.dropLast.map fun a : Nat => (a : Int) - 2).Pairwise fun i j => ∀ a b s e s' e' : Nat, (a : Int) = i + 2 → (b : Int) = j + 2 →
      (a, (s, e)) ∈ st.sched → (b, (s', e')) ∈ st.sched → s ≤ s' ∧ b ∉ p.pred a) ∧
    ((List.range (p.count - 2)).map fun i => mode (i + 2)).length = p.count - 2 ∧
    ∀ i < p.count - 2, ((List.range (p.count - 2)).map fun i => mode (i + 2))[i]? = some (mode (i + 2)) := by
  have hall := hi.complete hlen
  have hsm : p.count ∈ st.started := (hall p.count (by omega) (le_refl _)).resolve_left (by omega)
  -- the sink is last
  obtain ⟨l₁, l₂, hl⟩ := List.append_of_mem hsm
  have hl₂ : l₂ = [] := by
    cases l₂ with
    | nil => rfl
    | cons y l₂ =>
      exfalso
      have hy : y ∈ st.started := by rw [hl]; simp
      obtain ⟨y1, y2⟩ := hi.range y hy
      have hnd := hi.nodup
      rw [hl] at hnd
      have hyn : y ≠ p.count := by
        rintro rfl
        have := (List.nodup_cons.1 hnd).2
        rw [List.nodup_append] at this
        exact (List.nodup_cons.1 this.2.1).1 (by simp)
      have := hi.order (1 :: l₁) p.count (y :: l₂) (by rw [hl]; rfl) y (hsink y y1 (by omega))
      rcases List.mem_cons.1 this with rfl | hy1
      · exact (List.nodup_cons.1 hnd).1 (by simp)
      · have := (List.nodup_cons.1 hnd).2
        rw [List.nodup_append] at this
        exact this.2.2 y hy1 y (by simp) rfl
  subst hl₂
  have hdl : st.started.dropLast = l₁ := by rw [hl]; simp
  have hnd : (1 :: (l₁ ++ [p.count])).Nodup := hl ▸ hi.nodup
  obtain ⟨hn1, hn2⟩ := List.nodup_cons.1 hnd
  obtain ⟨hn3, _, hn4⟩ := List.nodup_append.1 hn2
  have hmem : ∀ a, a ∈ l₁ ↔ 2 ≤ a ∧ a < p.count := by
    intro a
    constructor
    · intro ha
      obtain ⟨a1, a2⟩ := hi.range a (by rw [hl]; simp [ha])
      have h3 : a ≠ 1 := by rintro rfl; exact hn1 (by simp [ha])
      have h4 : a ≠ p.count := hn4 a ha p.count (by simp)
      omega
    · rintro ⟨a1, a2⟩
      have := (hall a (by omega) (by omega)).resolve_left (by omega)
      rw [hl] at this
      rcases List.mem_append.1 this with h | h
      · exact h
      · have := List.mem_singleton.1 h; omega
  refine ⟨?_, ?_, by simp, fun i hi => by simp [List.getElem?_map, List.getElem?_range hi]⟩
  · show (st.started.dropLast.map fun a : Nat => (a : Int) - 2).Perm _
    rw [hdl]
    have hp : l₁.Perm ((List.range (p.count - 2)).map (· + 2)) := by
      refine (List.perm_ext_iff_of_nodup hn3 (List.Nodup.map (fun _ _ h => by simpa using h) List.nodup_range)).2 fun a => ?_
      rw [hmem, List.mem_map]
      constructor
      · rintro ⟨a1, a2⟩; exact ⟨a - 2, List.mem_range.2 (by omega), by omega⟩
      · rintro ⟨i, hi, rfl⟩; have := List.mem_range.1 hi; omega
    have := hp.map fun a : Nat => (a : Int) - 2
    rw [List.map_map] at this
    refine this.trans (List.Perm.of_eq (List.map_congr_left fun i _ => ?_))
    show ((i + 2 : Nat) : Int) - 2 = i
    omega
  · show (st.started.dropLast.map fun a : Nat => (a : Int) - 2).Pairwise _
    rw [List.pairwise_map]
    have hP : st.started.Pairwise fun a b => ∀ s e s' e', (a, (s, e)) ∈ st.sched → (b, (s', e')) ∈ st.sched → s ≤ s' ∧ b ∉ p.pred a := by
      have h1 : (st.sched.map (·.1)).Pairwise fun a b => ∀ s e s' e', (a, (s, e)) ∈ st.sched → (b, (s', e')) ∈ st.sched → s ≤ s' ∧ b ∉ p.pred a := by
        rw [List.pairwise_iff_getElem]
        intro i j hi' hj' hij s e s' e' hm hm'
        have hI : i < st.sched.length := by simpa using hi'
        have hJ : j < st.sched.length := by simpa using hj'
        rw [List.getElem_map] at hm hm'
        have e1 := hi.unique hm (v' := st.sched[i].2) (List.getElem_mem hI)
        have e2 := hi.unique hm' (v' := st.sched[j].2) (List.getElem_mem hJ)
        refine ⟨?_, fun hpred => ?_⟩
        · have := (List.pairwise_iff_getElem.1 hi.mono) i j hI hJ hij
          rw [← e1, ← e2] at this
          exact this
        · have hk := hi.keys
          have hi'' : i < (1 :: st.started).length := hk ▸ hi'
          have hsplit : 1 :: st.started = (1 :: st.started).take i ++ (1 :: st.started)[i] :: (1 :: st.started).drop (i + 1) := by
            rw [List.getElem_cons_drop, List.take_append_drop]
          have hget : (1 :: st.started)[i] = (st.sched[i]).1 := by
            simp only [← hk, List.getElem_map]
          have hin := hi.order _ _ _ hsplit ((st.sched[j]).1) (by rw [hget]; simpa using hpred)
          have hj'' : j < (1 :: st.started).length := hk ▸ hj'
          have hget' : (1 :: st.started)[j] = (st.sched[j]).1 := by
            simp only [← hk, List.getElem_map]
          rw [← hget'] at hin
          obtain ⟨k, hk1, hk2⟩ := List.getElem_of_mem hin
          rw [List.getElem_take] at hk2
          have := (List.Nodup.getElem_inj_iff hi.nodup).1 hk2
          rw [List.length_take] at hk1
          omega
      rw [hi.keys] at h1
      exact (List.pairwise_cons.1 h1).2
    refine (hP.sublist (List.dropLast_sublist _)).imp ?_
    intro a b hab a' b' s e s' e' ha hb hm hm'
    have ha' : a' = a := by omega
    have hb' : b' = b := by omega
    subst ha' hb'
    exact hab s e s' e' hm hm'


/-- **C83.** When every activity comes before the sink, the permutation returned has every activity but source
and sink once (counted from 0), in the order of the starts, after those it waits for; and the modes are those
of the activities. -/
theorem C83_permutation (hwf : p.Wf) (harr : ∀ l, (arrange l).Perm l) (rule : Rule) (draws : Nat → Nat) {sol : Solution}
    (hc : 2 ≤ p.count) (hsink : ∀ n, 1 ≤ n → n < p.count → n ∈ p.pred p.count)
    (h : solve p arrange rule draws = .ok (some sol)) :
    sol.permutation.Perm ((List.range (p.count - 2)).map fun i : Nat => (i : Int)) ∧
    (sol.permutation.Pairwise fun i j => ∀ a b s e s' e' : Nat, (a : Int) = i + 2 → (b : Int) = j + 2 →
      (a, (s, e)) ∈ sol.schedule → (b, (s', e')) ∈ sol.schedule → s ≤ s' ∧ b ∉ p.pred a) ∧
    sol.modes.length = p.count - 2 ∧ ∀ i < p.count - 2, sol.modes[i]? = some (p.mode (i + 2)) := by
  obtain ⟨r, h1, h2⟩ := bind_eq_ok.1 h
  cases r with
  | none => cases h2
  | some st =>
    obtain rfl := Option.some.inj (Except.ok.inj h2)
    obtain ⟨⟨D, hi⟩, hlen⟩ := loop_inv hwf harr (fun _ _ _ hc => choose_sound rule _ hc) _ _ _ (start_inv hwf) h1
    exact hi.toCore.permutation hc hsink hlen p.mode
example : demo.Wf ∧ (∀ n, 1 ≤ n → n < demo.count → n ∈ demo.pred demo.count) ∧
    solve demo id .mostSuccessors (fun _ => 0) =
      .ok (some ⟨[1, 0, 2], [(1, 0, 0), (3, 0, 2), (2, 0, 3), (4, 3, 5), (5, 5, 5)], [2, 3, 4]⟩) := by
  refine ⟨demo_wf, fun n h1 h2 => ?_, by decide +kernel⟩
  simp only [demo] at h2 ⊢
  simp
  omega

/-! ### C84 -/

/-- **C84.** The solver always ends: after at most `n_jobs + 3` rounds, with a solution or with an
`IndexError` (of the empty heap). -/
theorem C84_ends (hwf : p.Wf) (harr : ∀ l, (arrange l).Perm l) (rule : Rule) (draws : Nat → Nat) :
    (∃ sol, solve p arrange rule draws = .ok (some sol)) ∨ solve p arrange rule draws = .error .indexError := by
  rw [solve]
  have hn := loop_ne_none hwf harr (pick := fun started l => choose p rule (draws started.length) l)
    (fun _ _ _ hc => choose_sound rule _ hc) (p.count + 1) (start p) (start_inv hwf) (by omega)
  cases hl : loop p arrange (fun started l => choose p rule (draws started.length) l) (p.count + 1) (start p) with
  | error e =>
    right
    rcases loop_error (E := .indexError) (fun started l e hne hc => by
      obtain ⟨a, ha⟩ := choose_ok (p := p) rule (draws started.length) hne
      rw [ha] at hc; cases hc) _ _ hl with rfl | rfl <;> rfl
  | ok r =>
    cases r with
    | none => exact absurd hl hn
    | some st => exact .inl ⟨_, rfl⟩

/-- **C84.** If the precedences have no cycle, every activity fits alone and the non-renewable resources are
enough for all, every rule finds a solution. -/
theorem C84_solves (hwf : p.Wf) {rank : Nat → Nat} (hp : p.Possible rank) (harr : ∀ l, (arrange l).Perm l) (rule : Rule) (draws : Nat → Nat) :
    ∃ sol, solve p arrange rule draws = .ok (some sol) := by
  obtain ⟨st, hst⟩ := loop_ok hwf harr (pick := fun started l => choose p rule (draws started.length) l)
    (fun _ _ _ hc => choose_sound rule _ hc) (fun started l hne _ _ => choose_ok rule _ hne) hp (p.count + 1) (start p) (start_inv hwf) (by omega)
  rw [solve, hst]
  exact ⟨_, rfl⟩

/-- **C84.** If there is no feasible schedule, the solver raises `IndexError`. -/
theorem C84_infeasible (hwf : p.Wf) (harr : ∀ l, (arrange l).Perm l) (rule : Rule) (draws : Nat → Nat)
    (hno : ¬ ∃ sched, Feasible p sched) : solve p arrange rule draws = .error .indexError := by
  rcases C84_ends hwf harr rule draws with ⟨sol, h⟩ | h
  · exact absurd ⟨_, C83_feasible hwf harr rule draws h⟩ hno
  · exact h

/-- **C84.** The schedule has no idle waiting: before its start every activity was held back at every time, by
a predecessor that had not ended, by a renewable resource used by those running, or by a non-renewable one
used up by those started. -/
theorem C84_nondelay (hwf : p.Wf) (harr : ∀ l, (arrange l).Perm l) (rule : Rule) (draws : Nat → Nat) {sol : Solution}
    (h : solve p arrange rule draws = .ok (some sol)) {a s e t : Nat} (ha : (a, (s, e)) ∈ sol.schedule) (ht : t < s) :
    (∃ b ∈ p.pred a, ∃ s' e', (b, (s', e')) ∈ sol.schedule ∧ t < e') ∨
    (∃ r ∈ p.resources, r ∉ p.nonRenewable ∧ p.capacity r < load p sol.schedule r t + p.need a r) ∨
    (∃ r ∈ p.resources, r ∈ p.nonRenewable ∧ p.capacity r < spent p sol.schedule r t + p.need a r) := by
  obtain ⟨r, h1, h2⟩ := bind_eq_ok.1 h
  cases r with
  | none => cases h2
  | some st =>
    obtain rfl := Option.some.inj (Except.ok.inj h2)
    obtain ⟨⟨D, hi⟩, hlen⟩ := loop_inv hwf harr (fun _ _ _ hc => choose_sound rule _ hc) _ _ _ (start_inv hwf) h1
    rcases hi.tight a s e ha t ht with ⟨b, hb, hbt⟩ | h | h
    · obtain ⟨s', e', hm, _⟩ := hi.prec a s e ha b hb
      exact .inl ⟨b, hb, s', e', hm, hbt s' e' hm⟩
    · exact .inr (.inl h)
    · exact .inr (.inr h)

/-- What a rule prefers: more descendants, or a shorter duration. -/
def Rule.better (p : Project) : Rule → Nat → Nat → Prop
  | .mostSuccessors, b, a => p.succs a < p.succs b
  | .sampleMostSuccessors, b, a => p.succs a = 0 ∧ p.succs b ≠ 0
  | .fastest, b, a => p.duration b < p.duration a
  | .totallyRandom, _, _ => False

theorem rule_prefers (rule : Rule) (draws : Nat → Nat) :
    Prefers p (rule.better p) (fun started l => choose p rule (draws started.length) l) := by
  intro started l a _ _ h b hb
  cases l with
  | nil => cases hb
  | cons x l =>
    cases rule with
    | mostSuccessors =>
      obtain rfl := Except.ok.inj h
      have := (maxBy_spec p.succs x l).2 b hb
      simp only [Rule.better]; omega
    | fastest =>
      obtain rfl := Except.ok.inj h
      have := (minBy_spec p.duration x l).2 b hb
      simp only [Rule.better]; omega
    | totallyRandom => exact id
    | sampleMostSuccessors =>
      have ha := Except.ok.inj h
      rintro ⟨h0, hne⟩
      have hmem : b ∈ (x :: l).filter fun n => p.succs n ≠ 0 := List.mem_filter.2 ⟨hb, by simpa using hne⟩
      rw [if_neg (fun hnil => by rw [hnil] at hmem; cases hmem)] at ha
      have := getElem!_mod_mem _ (List.ne_nil_of_mem hmem) (draws started.length)
      rw [ha] at this
      have := (List.mem_filter.1 this).2
      simp [h0] at this

/-- **C84, partial.** Whoever starts later than `a` though the rule prefers it could not be started at the
start of `a` before the other events of that time: a predecessor had not ended earlier, or those which had
started and not ended earlier left no room.  Missing: that those which end at that very time count as ended
(`C84_rule_refuted`). -/
theorem C84_rule_partial (hwf : p.Wf) (harr : ∀ l, (arrange l).Perm l) (rule : Rule) (draws : Nat → Nat) {sol : Solution}
    (h : solve p arrange rule draws = .ok (some sol)) {a b s e s' e' : Nat} (ha : (a, (s, e)) ∈ sol.schedule) (hb : (b, (s', e')) ∈ sol.schedule)
    (hlt : s < s') (ha1 : a ≠ 1) (hbet : rule.better p b a) :
    (∃ c ∈ p.pred b, ∃ u v, (c, (u, v)) ∈ sol.schedule ∧ s ≤ v) ∨
    (∃ r ∈ p.resources, r ∉ p.nonRenewable ∧ p.capacity r < around p sol.schedule b r s + p.need b r) ∨
    (∃ r ∈ p.resources, r ∈ p.nonRenewable ∧ p.capacity r < before p sol.schedule b r s + p.need b r) := by
  obtain ⟨r, h1, h2⟩ := bind_eq_ok.1 h
  cases r with
  | none => cases h2
  | some st =>
    obtain rfl := Option.some.inj (Except.ok.inj h2)
    have hs : Sound (fun started l => choose p rule (draws started.length) l) := fun _ _ _ hc => choose_sound rule _ hc
    obtain ⟨⟨D, hi⟩, hlen⟩ := loop_inv hwf harr hs _ _ _ (start_inv hwf) h1
    have hP := loop_pref hwf harr hs (rule_prefers rule draws) _ _ _ (start_inv hwf)
      (fun l₁ a l₂ hl => by simp [start, release] at hl) h1
    exact hi.pref hwf hP ha hb hlt ha1 hbet

/-- **C84, refuted.** The rule does not decide between all activities that can start at a time: when two
activities end together, the solver starts new ones after the first of the ends, before it looks at the
second.  Here activity 5 (of duration 2) can start at time 1 like activity 4 (of duration 4), and the rule
"fastest" takes 4. -/
theorem C84_rule_refuted : ∃ sol, solve together id .fastest (fun _ => 0) = .ok (some sol) ∧
    (4, (1, 5)) ∈ sol.schedule ∧ (5, (5, 7)) ∈ sol.schedule ∧ Rule.better together .fastest 5 4 ∧
    (∀ c ∈ together.pred 5, ∃ u v, (c, (u, v)) ∈ sol.schedule ∧ v ≤ 1) ∧
    ∀ r ∈ together.resources, load together (sol.schedule.filter (·.1 ≠ 4)) r 1 + together.need 5 r ≤ together.capacity r := by
  refine ⟨⟨[0, 1, 2, 3], [(1, 0, 0), (2, 0, 1), (3, 0, 1), (4, 1, 5), (5, 5, 7), (6, 7, 7)], [1, 1, 1, 1]⟩, by decide +kernel,
    by decide, by decide, by simp [Rule.better, together], ?_, by decide⟩
  intro c hc
  have : c = 1 ∨ c = 3 := by simpa [together] using hc
  rcases this with rfl | rfl
  · exact ⟨0, 0, by decide, by decide⟩
  · exact ⟨0, 1, by decide, by decide⟩

example : demo.Wf ∧ demo.Possible id ∧ ∃ sol, solve demo id .mostSuccessors (fun _ => 0) = .ok (some sol) ∧
    (3, (0, 2)) ∈ sol.schedule ∧ (4, (3, 5)) ∈ sol.schedule := by
  exact ⟨demo_wf, demo_possible, ⟨[1, 0, 2], [(1, 0, 0), (3, 0, 2), (2, 0, 3), (4, 3, 5), (5, 5, 5)], [2, 3, 4]⟩, by decide +kernel, by decide, by decide⟩

example : ∃ sol, solve demo id .fastest (fun _ => 0) = .ok (some sol) ∧ (2, (0, 3)) ∈ sol.schedule ∧ (4, (3, 5)) ∈ sol.schedule ∧
    Rule.better demo .fastest 4 2 := by
  exact ⟨⟨[1, 0, 2], [(1, 0, 0), (3, 0, 2), (2, 0, 3), (4, 3, 5), (5, 5, 5)], [2, 3, 4]⟩, by decide +kernel, by decide, by decide, by simp [Rule.better, demo]⟩

/-- A cycle of the precedences: 2 before 3 before 2. -/
def cyclic : Project where
  count := 3
  pred n := if n = 2 then [1, 3] else if n = 3 then [1, 2] else []
  resources := []
  capacity _ := 0
  nonRenewable := []
  duration n := if n = 1 then 0 else 1
  need _ _ := 0

example : cyclic.Wf ∧ (¬ ∃ sched, Feasible cyclic sched) ∧ solve cyclic id .fastest (fun _ => 0) = .error .indexError := by
  refine ⟨⟨by decide, rfl, rfl, fun _ => rfl, fun n h1 h2 b hb => ?_, fun n => ?_, fun _ _ _ _ => le_refl _, fun _ _ => le_refl _⟩, ?_, by decide +kernel⟩
  · simp only [cyclic] at hb ⊢
    split at hb
    · simp at hb; omega
    · split at hb <;> simp at hb; omega
  · simp only [cyclic]; split <;> [simp; (split <;> simp)]
  · rintro ⟨sched, h⟩
    obtain ⟨s, e, h2⟩ := (h.all 2).2 (by decide)
    obtain ⟨s', e', h3⟩ := (h.all 3).2 (by decide)
    have a1 := h.precedence 2 s e h2 3 (by decide) s' e' h3
    have a2 := h.precedence 3 s' e' h3 2 (by decide) s e h2
    have a3 : e = s + 1 := h.duration 2 s e h2
    have a4 : e' = s' + 1 := h.duration 3 s' e' h3
    omega

/-! ### C85 -/

/-- **C85.** Whatever the executor returns is a feasible schedule. -/
theorem C85_feasible (hwf : p.Wf) (harr : ∀ l, (arrange l).Perm l) (perm : List Nat) {sol : Solution} {rest : List Nat}
    (h : execute p arrange perm = .ok (some (sol, rest))) : Feasible p sol.schedule := by
  rw [execute] at h
  split at h
  · obtain ⟨r, h1, h2⟩ := bind_eq_ok.1 h
    cases r with
    | none => cases h2
    | some st =>
      obtain ⟨rfl, _⟩ := Prod.mk.inj (Option.some.inj (Except.ok.inj h2))
      obtain ⟨⟨D, hi⟩, hlen⟩ := loop_inv hwf harr (byPriority_sound perm) _ _ _ (start_inv hwf) h1
      exact hi.feasible hwf hlen
  · cases h

/-- **C85.** A list with all activities gives a solution, if the project is possible. -/
theorem C85_solves (hwf : p.Wf) {rank : Nat → Nat} (hp : p.Possible rank) (harr : ∀ l, (arrange l).Perm l) (perm : List Nat)
    (hall : ∀ n, 1 ≤ n → n ≤ p.count → n ∈ perm) : ∃ sol rest, execute p arrange perm = .ok (some (sol, rest)) := by
  obtain ⟨st, hst⟩ := loop_ok hwf harr (byPriority_sound perm) (byPriority_total perm fun n h1 h2 => hall n (by omega) h2) hp
    (p.count + 1) (start p) (start_inv hwf) (by omega)
  rw [execute, if_pos (hall 1 (le_refl 1) hwf.count), hst]
  exact ⟨_, _, rfl⟩

/-- **C85.** A list in which an activity is missing never gives a solution: the executor raises `ValueError`
or, if it is stuck before the activity can start, `IndexError`; `ValueError` if the source is missing. -/
theorem C85_missing (hwf : p.Wf) (harr : ∀ l, (arrange l).Perm l) (perm : List Nat) {n : Nat} (h1 : 1 ≤ n) (h2 : n ≤ p.count) (hn : n ∉ perm) :
    (execute p arrange perm = .error .valueError ∨ execute p arrange perm = .error .indexError) ∧
    (n = 1 → execute p arrange perm = .error .valueError) := by
  constructor
  swap
  · rintro rfl
    rw [execute, if_neg hn]
  by_cases hin : 1 ∈ perm
  swap
  · left; rw [execute, if_neg hin]
  rw [execute, if_pos hin]
  have hnn := loop_ne_none hwf harr (byPriority_sound perm) (p.count + 1) (start p) (start_inv hwf) (by omega)
  cases hl : loop p arrange (byPriority perm) (p.count + 1) (start p) with
  | error e =>
    rcases loop_error (E := .valueError) (fun started l e hne hc => by
      cases l with
      | nil => exact absurd rfl hne
      | cons x l =>
        rw [byPriority] at hc
        split at hc
        · cases hc
        · exact (Except.error.inj hc).symm) _ _ hl with rfl | rfl
    · exact .inl rfl
    · exact .inr rfl
  | ok r =>
    cases r with
    | none => exact absurd hl hnn
    | some st =>
      exfalso
      obtain ⟨⟨D, hi⟩, hlen⟩ := loop_inv hwf harr (byPriority_sound perm) _ _ _ (start_inv hwf) hl
      have hst := loop_started (Q := fun a => a ∈ perm) (fun started l a hc => by
        cases l with
        | nil => cases hc
        | cons x l =>
          have ha := byPriority_sound perm _ _ _ hc
          rw [byPriority] at hc
          split at hc
          · rename_i hall
            have := List.all_eq_true.1 hall a ha
            exact ((foldl_erase_sublist started _).trans (List.erase_sublist (a := 1))).subset (of_decide_eq_true this)
          · cases hc) _ _ _ (by simp [start, release]) hl
      rcases hi.complete hlen n h1 h2 with rfl | hm
      · exact hn hin
      · exact hn (hst n hm)

/-- **C85, partial.** Whoever starts later than `a` though it comes earlier in the list could not be started
at the start of `a` before the other events of that time.  Missing: that those which end at that very time
count as ended (`C85_priority_refuted`). -/
theorem C85_priority_partial (hwf : p.Wf) (harr : ∀ l, (arrange l).Perm l) (perm : List Nat) (hnd : perm.Nodup) {sol : Solution} {rest : List Nat}
    (h : execute p arrange perm = .ok (some (sol, rest))) {a b s e s' e' : Nat} (ha : (a, (s, e)) ∈ sol.schedule) (hb : (b, (s', e')) ∈ sol.schedule)
    (hlt : s < s') (ha1 : a ≠ 1) (hbet : perm.idxOf b < perm.idxOf a) :
    (∃ c ∈ p.pred b, ∃ u v, (c, (u, v)) ∈ sol.schedule ∧ s ≤ v) ∨
    (∃ r ∈ p.resources, r ∉ p.nonRenewable ∧ p.capacity r < around p sol.schedule b r s + p.need b r) ∨
    (∃ r ∈ p.resources, r ∈ p.nonRenewable ∧ p.capacity r < before p sol.schedule b r s + p.need b r) := by
  rw [execute] at h
  split at h
  swap
  · cases h
  obtain ⟨r, h1, h2⟩ := bind_eq_ok.1 h
  cases r with
  | none => cases h2
  | some st =>
    obtain ⟨rfl, _⟩ := Prod.mk.inj (Option.some.inj (Except.ok.inj h2))
    obtain ⟨⟨D, hi⟩, hlen⟩ := loop_inv hwf harr (byPriority_sound perm) _ _ _ (start_inv hwf) h1
    have hP := loop_pref hwf harr (byPriority_sound perm) (byPriority_prefers perm hnd) _ _ _ (start_inv hwf)
      (fun l₁ a l₂ hl => by simp [start, release] at hl) h1
    exact hi.pref hwf hP ha hb hlt ha1 hbet

/-- **C85, refuted.** The executor does not follow the list among all activities that can start at a time:
activity 5 comes before 4 in the list and can start at time 1 like 4, but 4 is started. -/
theorem C85_priority_refuted : ∃ sol rest, execute together id [1, 2, 3, 5, 4, 6] = .ok (some (sol, rest)) ∧
    (4, (1, 5)) ∈ sol.schedule ∧ (5, (5, 7)) ∈ sol.schedule ∧
    (∀ c ∈ together.pred 5, ∃ u v, (c, (u, v)) ∈ sol.schedule ∧ v ≤ 1) ∧
    ∀ r ∈ together.resources, load together (sol.schedule.filter (·.1 ≠ 4)) r 1 + together.need 5 r ≤ together.capacity r := by
  refine ⟨⟨[0, 1, 2, 3], [(1, 0, 0), (2, 0, 1), (3, 0, 1), (4, 1, 5), (5, 5, 7), (6, 7, 7)], [1, 1, 1, 1]⟩, [], by decide +kernel,
    by decide, by decide, ?_, by decide⟩
  intro c hc
  have : c = 1 ∨ c = 3 := by simpa [together] using hc
  rcases this with rfl | rfl
  · exact ⟨0, 0, by decide, by decide⟩
  · exact ⟨0, 1, by decide, by decide⟩

/-- **C85, refuted.** The modes of the solution are those of the activity before: entry `i`, which is read as
the mode of activity `i + 2`, is the mode of activity `i + 1`; in the example the solution claims mode 1 for
activity 2, whose mode is 2. -/
theorem C85_modes_refuted :
    (∀ (p : Project) arrange perm sol rest, execute p arrange perm = .ok (some (sol, rest)) →
      ∀ i < p.count - 2, sol.modes[i]? = some (p.mode (i + 1))) ∧
    ∃ sol rest, execute demo id [1, 2, 3, 4, 5] = .ok (some (sol, rest)) ∧ sol.modes[0]? = some 1 ∧ demo.mode 2 = 2 := by
  constructor
  · intro p arrange perm sol rest h i hi
    rw [execute] at h
    split at h
    · obtain ⟨r, h1, h2⟩ := bind_eq_ok.1 h
      cases r with
      | none => cases h2
      | some st =>
        obtain ⟨rfl, _⟩ := Prod.mk.inj (Option.some.inj (Except.ok.inj h2))
        simp [List.getElem?_map, List.getElem?_range hi]
    · cases h
  · exact ⟨⟨[0, 1, 2], [(1, 0, 0), (2, 0, 3), (3, 0, 2), (4, 3, 5), (5, 5, 5)], [1, 2, 3]⟩, [], by decide +kernel, by decide, by decide⟩

/-- **C85, refuted.** The list of the caller does not survive: after a run with a permutation of the
activities nothing is left of it, and a second run with what is left raises `ValueError`. -/
theorem C85_consumed (hwf : p.Wf) (harr : ∀ l, (arrange l).Perm l) (perm : List Nat) (hperm : perm.Perm (List.range' 1 p.count))
    {sol : Solution} {rest : List Nat} (h : execute p arrange perm = .ok (some (sol, rest))) :
    rest = [] ∧ execute p arrange rest = .error .valueError := by
  have hr : rest = [] := by
    rw [execute] at h
    split at h
    · obtain ⟨r, h1, h2⟩ := bind_eq_ok.1 h
      cases r with
      | none => cases h2
      | some st =>
        obtain ⟨_, rfl⟩ := Prod.mk.inj (Option.some.inj (Except.ok.inj h2))
        obtain ⟨⟨D, hi⟩, hlen⟩ := loop_inv hwf harr (byPriority_sound perm) _ _ _ (start_inv hwf) h1
        refine remaining_nil (hperm.nodup_iff.2 List.nodup_range') fun a ha => ?_
        obtain ⟨a1, a2⟩ := mem_nodes.1 (hperm.mem_iff.1 ha)
        exact hi.complete hlen a a1 a2
    · cases h
  subst hr
  exact ⟨rfl, by rw [execute, if_neg (by simp)]⟩

example : demo.Wf ∧ demo.Possible id ∧ [1, 4, 3, 2, 5].Perm (List.range' 1 demo.count) ∧
    execute demo id [1, 4, 3, 2, 5] = .ok (some (⟨[1, 0, 2], [(1, 0, 0), (3, 0, 2), (2, 0, 3), (4, 3, 5), (5, 5, 5)], [1, 2, 3]⟩, [])) ∧
    execute demo id [1, 2, 3, 5] = .error .valueError := by
  exact ⟨demo_wf, demo_possible, by decide, by decide +kernel, by decide +kernel⟩

end Verif.Pile
