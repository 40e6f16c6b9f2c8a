import Verif.Props.Search

/-!
C37: values of learning real-time A* (LRTA*).
C52: when its trials stop changing values, the policy is optimal.
-/
namespace Verif.Search
variable [DecidableEq σ]

/-- No state can be reached again by taking actions. -/
def Acyclic (p : Problem σ α) : Prop := ∀ s as, as ≠ [] → p.Applicable s as → p.walk s as ≠ s

/-- The estimate of a state: the stored value, else the heuristic; `none` is infinite. -/
def est (h : σ → Rat) (vs : Values σ) (s : σ) : Option Rat :=
  match vs.get? s with
  | some v => v
  | none => some (h s)

/-- `v` is the least, over the applicable actions, of cost plus estimate (infinite without one). -/
def IsMin (p : Problem σ α) (h : σ → Rat) (vs : Values σ) (cur : σ) : Option Rat → Prop
  | none => ∀ a ∈ p.actions cur, est h vs (p.next cur a) = none
  | some b => (∃ a ∈ p.actions cur, ∃ v, est h vs (p.next cur a) = some v ∧ b = p.cost cur a (p.next cur a) + v) ∧
      ∀ a ∈ p.actions cur, ∀ v, est h vs (p.next cur a) = some v → b ≤ p.cost cur a (p.next cur a) + v

theorem est_set (h : σ → Rat) (vs : Values σ) (s t : σ) (v : Option Rat) :
    est h (vs.set s v) t = if t = s then v else est h vs t := by
  simp only [est, Dict.get?_set]
  by_cases ht : t = s <;> simp [ht]

theorem est_store (h : σ → Rat) (vs : Values σ) (s : σ) (hs : vs.get? s = none) (t : σ) :
    est h (vs.set s (some (h s))) t = est h vs t := by
  rw [est_set]
  split
  · rename_i ht; subst ht; simp [est, hs]
  · rfl

/-- The values after the loop over the actions only gain heuristic values. -/
inductive Stored (h : σ → Rat) : Values σ → Values σ → Prop
  | refl (vs) : Stored h vs vs
  | step {vs ws s} : Stored h vs ws → ws.get? s = none → Stored h vs (ws.set s (some (h s)))

theorem Stored.est {h : σ → Rat} {vs ws : Values σ} (hst : Stored h vs ws) (t : σ) : est h ws t = est h vs t := by
  induction hst with
  | refl => rfl
  | step _ h2 ih => rw [est_store _ _ _ h2, ih]

theorem Stored.trans {h : σ → Rat} {us vs ws : Values σ} (h1 : Stored h us vs) (h2 : Stored h vs ws) : Stored h us ws := by
  induction h2 with
  | refl => exact h1
  | step _ h3 ih => exact .step ih h3

theorem Stored.some {h : σ → Rat} {vs ws : Values σ} (hst : Stored h vs ws) {t : σ} (ht : (vs.get? t).isSome) :
    (ws.get? t).isSome := by
  induction hst with
  | refl => exact ht
  | step _ _ ih =>
    rw [Dict.get?_set]
    split
    · rfl
    · exact ih

/-- The loop over the actions when no successor has been visited. -/
theorem pick_spec (p : Problem σ α) (h : σ → Rat) (roll : List σ) (cur : σ) (as : List α) (vs : Values σ)
    (best : Option (σ × α × Rat)) (hr : ∀ a ∈ as, p.next cur a ∉ roll) :
    Stored h vs (pick p h roll cur as vs best).1 ∧
    (∀ a ∈ as, ((pick p h roll cur as vs best).1.get? (p.next cur a)).isSome) ∧
    ((pick p h roll cur as vs best).2 = none → best = none ∧ ∀ a ∈ as, est h vs (p.next cur a) = none) ∧
    (∀ q, (pick p h roll cur as vs best).2 = some q →
      (best = some q ∨ ∃ a ∈ as, ∃ v, q = (p.next cur a, a, p.cost cur a (p.next cur a) + v) ∧
        est h vs (p.next cur a) = some v) ∧
      (∀ b, best = some b → q.2.2 ≤ b.2.2) ∧
      ∀ a ∈ as, ∀ v, est h vs (p.next cur a) = some v → q.2.2 ≤ p.cost cur a (p.next cur a) + v) := by
  induction as generalizing vs best with
  | nil =>
    refine ⟨.refl _, by simp, fun hb => ⟨hb, by simp⟩, ?_⟩
    intro q hq
    have hq : best = some q := hq
    refine ⟨.inl hq, ?_, by simp⟩
    intro b hb
    rw [hq] at hb; cases hb; exact le_refl _
  | cons a as ih =>
    have hr' : ∀ b ∈ as, p.next cur b ∉ roll := fun b hb => hr b (List.mem_cons_of_mem _ hb)
    rw [pick, if_neg (hr a List.mem_cons_self)]
    have hold : oldValue h vs (p.next cur a) = est h vs (p.next cur a) := rfl
    simp only [hold]
    generalize hws : remember h vs (p.next cur a) = ws
    simp only [remember] at hws
    have hst : Stored h vs ws := by
      cases hg : vs.get? (p.next cur a) with
      | some _ => rw [hg] at hws; simp only at hws; rw [← hws]; exact .refl _
      | none => rw [hg] at hws; simp only at hws; rw [← hws]; exact .step (.refl _) hg
    have hin : (ws.get? (p.next cur a)).isSome := by
      cases hg : vs.get? (p.next cur a) with
      | some _ => rw [hg] at hws; simp only at hws; rw [← hws, hg]; rfl
      | none => rw [hg] at hws; simp only at hws; rw [← hws, Dict.get?_set_self]; rfl
    have fin : ∀ best' : Option (σ × α × Rat),
        (best' = none → best = none ∧ est h vs (p.next cur a) = none) →
        (∀ q, best' = some q → (best = some q ∨ ∃ v, q = (p.next cur a, a, p.cost cur a (p.next cur a) + v) ∧
          est h vs (p.next cur a) = some v) ∧ (∀ b, best = some b → q.2.2 ≤ b.2.2) ∧
          ∀ v, est h vs (p.next cur a) = some v → q.2.2 ≤ p.cost cur a (p.next cur a) + v) →
        Stored h vs (pick p h roll cur as ws best').1 ∧
        (∀ b ∈ a :: as, ((pick p h roll cur as ws best').1.get? (p.next cur b)).isSome) ∧
        ((pick p h roll cur as ws best').2 = none → best = none ∧ ∀ b ∈ a :: as, est h vs (p.next cur b) = none) ∧
        (∀ q, (pick p h roll cur as ws best').2 = some q →
          (best = some q ∨ ∃ b ∈ a :: as, ∃ v, q = (p.next cur b, b, p.cost cur b (p.next cur b) + v) ∧
            est h vs (p.next cur b) = some v) ∧
          (∀ b, best = some b → q.2.2 ≤ b.2.2) ∧
          ∀ b ∈ a :: as, ∀ v, est h vs (p.next cur b) = some v → q.2.2 ≤ p.cost cur b (p.next cur b) + v) := by
      intro best' hb1 hb2
      obtain ⟨i1, i2, i3, i4⟩ := ih ws best' hr'
      refine ⟨hst.trans i1, ?_, ?_, ?_⟩
      · intro b hb
        rcases List.mem_cons.1 hb with rfl | hb
        · exact i1.some hin
        · exact i2 b hb
      · intro hn
        obtain ⟨j1, j2⟩ := i3 hn
        obtain ⟨j3, j4⟩ := hb1 j1
        refine ⟨j3, ?_⟩
        intro b hb
        rcases List.mem_cons.1 hb with rfl | hb
        · exact j4
        · rw [← hst.est]; exact j2 b hb
      · intro q hq
        obtain ⟨j1, j2, j3⟩ := i4 q hq
        refine ⟨?_, ?_, ?_⟩
        · rcases j1 with j1 | ⟨b, hb, v, j4, j5⟩
          · rcases (hb2 q j1).1 with k | ⟨v, k1, k2⟩
            · exact .inl k
            · exact .inr ⟨a, List.mem_cons_self, v, k1, k2⟩
          · exact .inr ⟨b, List.mem_cons_of_mem _ hb, v, j4, by rw [← hst.est]; exact j5⟩
        · intro b hb
          cases hbest' : best' with
          | none => rw [(hb1 hbest').1] at hb; cases hb
          | some q' => exact le_trans (j2 q' hbest') ((hb2 q' hbest').2.1 b hb)
        · intro b hb v hv
          rcases List.mem_cons.1 hb with rfl | hb
          · cases hbest' : best' with
            | none => rw [(hb1 hbest').2] at hv; cases hv
            | some q' => exact le_trans (j2 q' hbest') ((hb2 q' hbest').2.2 v hv)
          · exact j3 b hb v (by rw [hst.est]; exact hv)
    cases he : est h vs (p.next cur a) with
    | none =>
      rw [he] at fin
      rw [show better (p.cost cur a (p.next cur a)) none best = false from rfl, if_neg (by simp)]
      refine fin best (fun hb => ⟨hb, rfl⟩) ?_
      intro q hq
      refine ⟨.inl hq, ?_, by intro v hv; cases hv⟩
      intro b hb; rw [hq] at hb; cases hb; exact le_refl _
    | some v =>
      cases hb : best with
      | none =>
        rw [he, hb] at fin
        rw [show better (p.cost cur a (p.next cur a)) (some v) (none : Option (σ × α × Rat)) = true from rfl,
          if_pos rfl]
        refine fin (some (p.next cur a, a, p.cost cur a (p.next cur a) + v)) (fun hh => by cases hh) ?_
        intro q hq
        cases hq
        refine ⟨.inr ⟨v, rfl, rfl⟩, (by intro b hb'; cases hb'), ?_⟩
        intro v' hv'; cases hv'; exact le_refl _
      | some b =>
        rw [he, hb] at fin
        simp only [better, decide_eq_true_eq]
        by_cases hlt : p.cost cur a (p.next cur a) + v < b.2.2
        · rw [if_pos hlt]
          refine fin (some (p.next cur a, a, p.cost cur a (p.next cur a) + v)) (fun hh => by cases hh) ?_
          intro q hq
          cases hq
          refine ⟨.inr ⟨v, rfl, rfl⟩, ?_, ?_⟩
          · intro b' hb'; cases hb'; exact le_of_lt hlt
          · intro v' hv'; cases hv'; exact le_refl _
        · rw [if_neg hlt]
          refine fin _ (by intro hh; cases hh) ?_
          intro q hq
          cases hq
          refine ⟨.inl rfl, ?_, ?_⟩
          · intro b' hb'; cases hb'; exact le_refl _
          · intro v' hv'; cases hv'; exact not_lt.1 hlt

/-- Every visited state leads to the present one. -/
def Behind (p : Problem σ α) (roll : List σ) (cur : σ) : Prop :=
  cur ∈ roll ∧ ∀ x ∈ roll, ∃ as, p.Applicable x as ∧ p.walk x as = cur

omit [DecidableEq σ] in
theorem behind_fresh {p : Problem σ α} (ha : Acyclic p) {roll : List σ} {cur : σ} (hb : Behind p roll cur)
    {a : α} (h : a ∈ p.actions cur) : p.next cur a ∉ roll := by
  intro hx
  obtain ⟨as, h1, h2⟩ := hb.2 _ hx
  exact ha cur (a :: as) (by simp) ⟨h, h1⟩ h2

omit [DecidableEq σ] in
theorem behind_step {p : Problem σ α} {roll : List σ} {cur : σ} (hb : Behind p roll cur)
    {a : α} (h : a ∈ p.actions cur) : Behind p (roll ++ [p.next cur a]) (p.next cur a) := by
  refine ⟨by simp, ?_⟩
  intro x hx
  rcases List.mem_append.1 hx with hx | hx
  · obtain ⟨as, h1, h2⟩ := hb.2 x hx
    refine ⟨as ++ [a], ?_, ?_⟩
    · rw [applicable_append, h2]; exact ⟨h1, h, trivial⟩
    · rw [walk_append, h2]; rfl
  · simp only [List.mem_singleton] at hx
    subst hx
    exact ⟨[], trivial, rfl⟩

/-- One step of a trial, in a domain without cycles. -/
theorem pick_step {p : Problem σ α} (ha : Acyclic p) (h : σ → Rat) {roll : List σ} {cur : σ}
    (hb : Behind p roll cur) (vs : Values σ) :
    ∃ ws, Stored h vs ws ∧
      ((pick p h roll cur (p.actions cur) vs none = (ws, none) ∧ IsMin p h ws cur none) ∨
       ∃ a ∈ p.actions cur, ∃ v, est h ws (p.next cur a) = some v ∧ ws.get? (p.next cur a) = some (some v) ∧
        pick p h roll cur (p.actions cur) vs none =
          (ws, some (p.next cur a, a, p.cost cur a (p.next cur a) + v)) ∧
        IsMin p h ws cur (some (p.cost cur a (p.next cur a) + v))) := by
  obtain ⟨h1, h2, h3, h4⟩ := pick_spec p h roll cur (p.actions cur) vs none (fun a hx => behind_fresh ha hb hx)
  refine ⟨_, h1, ?_⟩
  cases hq : (pick p h roll cur (p.actions cur) vs none).2 with
  | none =>
    refine .inl ⟨Prod.ext rfl hq, ?_⟩
    intro a hx
    rw [h1.est]; exact (h3 hq).2 a hx
  | some q =>
    obtain ⟨j1, _, j3⟩ := h4 q hq
    rcases j1 with j1 | ⟨a, hx, v, j4, j5⟩
    · cases j1
    · refine .inr ⟨a, hx, v, by rw [h1.est]; exact j5, ?_, Prod.ext rfl (by rw [hq, j4]), ?_, ?_⟩
      · obtain ⟨v', hv'⟩ := Option.isSome_iff_exists.1 (h2 a hx)
        have := h1.est (p.next cur a)
        rw [j5] at this
        simp only [est, hv'] at this
        rw [hv', this]
      · exact ⟨a, hx, v, by rw [h1.est]; exact j5, rfl⟩
      · intro b hb' v' hv'
        rw [h1.est] at hv'
        have := j3 b hb' v' hv'
        rw [j4] at this
        exact this

/-- Anything kept by storing heuristic values and by replacing the value of a state that is not
a goal by its one-step minimum is kept by a trial. -/
theorem doTrial_inv {p : Problem σ α} (ha : Acyclic p) (h : σ → Rat) (Q : Values σ → Prop)
    (hstore : ∀ vs s, Q vs → vs.get? s = none → Q (vs.set s (some (h s))))
    (hset : ∀ vs s v, Q vs → p.goal s = false → IsMin p h vs s v → Q (vs.set s v))
    (depth : Nat) (cur : σ) (roll : List σ) (vs : Values σ) (changed : Bool) (cum : Rat)
    (ra : List (σ × Option α)) (acts : List α) (hb : Behind p roll cur) (hQ : Q vs) (t : Trial σ α)
    (ht : doTrial p h depth cur roll vs changed cum ra acts = .ok t) : Q t.values := by
  have hstored : ∀ vs ws, Stored h vs ws → Q vs → Q ws := by
    intro vs ws hst
    induction hst with
    | refl => exact id
    | step _ h2 ih => intro hq; exact hstore _ _ (ih hq) h2
  induction depth generalizing cur roll vs changed cum ra acts with
  | zero =>
    rw [doTrial] at ht
    by_cases hg : p.goal cur = true
    · rw [if_pos hg, bind_eq_ok] at ht
      obtain ⟨v, _, ht⟩ := ht
      cases ht; exact hQ
    · rw [if_neg hg] at ht
      simp only [bind_eq_ok] at ht
      obtain ⟨v, _, ht⟩ := ht
      cases ht; exact hQ
  | succ depth ih =>
    rw [doTrial] at ht
    by_cases hg : p.goal cur = true
    · rw [if_pos hg, bind_eq_ok] at ht
      obtain ⟨v, _, ht⟩ := ht
      cases ht; exact hQ
    · rw [if_neg hg] at ht
      have hg' : p.goal cur = false := by simpa using hg
      obtain ⟨ws, hst, ⟨h1, h2⟩ | ⟨a, hx, v, h1, h2, h3, h4⟩⟩ := pick_step ha h hb vs
      · simp only [h1] at ht
        cases ht
        exact hset _ _ _ (hstored _ _ hst hQ) hg' h2
      · simp only [h3] at ht
        have hne : p.next cur a ≠ cur := fun hh => ha cur [a] (by simp) ⟨hx, trivial⟩ hh
        have hupd : (update ws cur (p.cost cur a (p.next cur a) + v) changed).1.get? (p.next cur a) = some (some v) := by
          rw [update]; split
          · exact h2
          · rw [Dict.get?_set_ne _ _ hne]; exact h2
        have hQu : Q (update ws cur (p.cost cur a (p.next cur a) + v) changed).1 := by
          rw [update]; split
          · exact hstored _ _ hst hQ
          · exact hset _ _ _ (hstored _ _ hst hQ) hg' h4
        rw [hupd] at ht
        exact ih _ _ _ _ _ _ _ (behind_step hb hx) hQu ht

theorem lrtaLoop_inv {p : Problem σ α} (ha : Acyclic p) (h : σ → Rat) (Q : Values σ → Prop)
    (hstore : ∀ vs s, Q vs → vs.get? s = none → Q (vs.set s (some (h s))))
    (hset : ∀ vs s v, Q vs → p.goal s = false → IsMin p h vs s v → Q (vs.set s v))
    (maxDepth : Nat) (s0 : σ) (iters : Nat) (vs : Values σ) (best : Option Rat) (policy : Dict σ (Option α))
    (hQ : Q vs) (r : Values σ × Dict σ (Option α) × Trial σ α)
    (hr : lrtaLoop p h maxDepth s0 iters vs best policy = .ok r) : Q r.1 := by
  induction iters generalizing vs best policy with
  | zero =>
    rw [lrtaLoop, bind_eq_ok] at hr
    obtain ⟨t, ht, hr⟩ := hr
    have := doTrial_inv ha h Q hstore hset _ _ _ _ _ _ _ _ ⟨by simp, by simpa using ⟨[], trivial, rfl⟩⟩ hQ t ht
    split at hr <;> cases hr <;> exact this
  | succ iters ih =>
    rw [lrtaLoop, bind_eq_ok] at hr
    obtain ⟨t, ht, hr⟩ := hr
    have := doTrial_inv ha h Q hstore hset _ _ _ _ _ _ _ _ ⟨by simp, by simpa using ⟨[], trivial, rfl⟩⟩ hQ t ht
    split at hr
    · cases hr; exact this
    · exact ih _ _ _ this hr

/-! ### C37 -/

/-- No stored value exceeds the cost of any way to a goal (an infinite value only where there
is no way). -/
def Admissible (p : Problem σ α) (vs : Values σ) : Prop :=
  ∀ s v, vs.get? s = some v → ∀ as, p.Applicable s as → p.goal (p.walk s as) = true →
    ∃ r, v = some r ∧ r ≤ p.walkCost s as

/-- The heuristic never exceeds the cost of a way to a goal. -/
def NeverOver (p : Problem σ α) (h : σ → Rat) : Prop :=
  ∀ s as, p.Applicable s as → p.goal (p.walk s as) = true → h s ≤ p.walkCost s as

theorem est_admissible {p : Problem σ α} {h : σ → Rat} (hh : NeverOver p h) {vs : Values σ}
    (hv : Admissible p vs) (s : σ) (as : List α) (ha : p.Applicable s as) (hg : p.goal (p.walk s as) = true) :
    ∃ r, est h vs s = some r ∧ r ≤ p.walkCost s as := by
  simp only [est]
  cases hs : vs.get? s with
  | some v => exact hv s v hs as ha hg
  | none => exact ⟨_, rfl, hh s as ha hg⟩

theorem admissible_store {p : Problem σ α} {h : σ → Rat} (hh : NeverOver p h) (vs : Values σ) (s : σ)
    (hv : Admissible p vs) (_hs : vs.get? s = none) : Admissible p (vs.set s (some (h s))) := by
  intro t v ht as ha hg
  rw [Dict.get?_set] at ht
  split at ht
  · rename_i hts
    cases ht
    subst hts
    exact ⟨_, rfl, hh t as ha hg⟩
  · exact hv t v ht as ha hg

theorem admissible_set {p : Problem σ α} {h : σ → Rat} (hh : NeverOver p h) (vs : Values σ) (s : σ) (v : Option Rat)
    (hv : Admissible p vs) (hs : p.goal s = false) (hm : IsMin p h vs s v) : Admissible p (vs.set s v) := by
  intro t w ht as ha hg
  rw [Dict.get?_set] at ht
  split at ht
  · rename_i hts
    cases ht
    subst hts
    cases as with
    | nil => simp only [Problem.walk] at hg; rw [hs] at hg; cases hg
    | cons a as =>
      obtain ⟨r, h1, h2⟩ := est_admissible hh hv _ as ha.2 hg
      cases v with
      | none => rw [hm a ha.1] at h1; cases h1
      | some b =>
        refine ⟨b, rfl, ?_⟩
        have := hm.2 a ha.1 r h1
        simp only [Problem.walkCost]
        linarith
  · exact hv t w ht as ha hg

/-- In a domain without cycles, starting from a heuristic that never overestimates, no value
stored after any number of trials overestimates.  Missing: domains with cycles, where it is
false (see `C37_cycle_overestimates`). -/
theorem C37_admissible_partial (p : Problem σ α) (ha : Acyclic p) (h : σ → Rat) (hh : NeverOver p h)
    (maxIter maxDepth : Nat) (s0 : σ) (r : Values σ × Dict σ (Option α) × Trial σ α)
    (hr : lrta p h maxIter maxDepth s0 = .ok r) : Admissible p r.1 :=
  lrtaLoop_inv ha h (Admissible p) (admissible_store hh) (admissible_set hh) maxDepth s0 maxIter [] none []
    (by intro s v hs; simp at hs) r hr

/-- `a ≤ b` with infinity. -/
def leInf : Option Rat → Option Rat → Prop
  | _, none => True
  | none, some _ => False
  | some a, some b => a ≤ b

theorem leInf_refl (a : Option Rat) : leInf a a := by cases a <;> simp [leInf]

theorem leInf_trans {a b c : Option Rat} (h1 : leInf a b) (h2 : leInf b c) : leInf a c := by
  cases c with
  | none => cases a <;> trivial
  | some c =>
    cases b with
    | none => exact h2.elim
    | some b =>
      cases a with
      | none => exact h1.elim
      | some a => exact le_trans h1 h2

/-- Estimates drop along an action by at most its cost and have only grown since `vs0`. -/
def Growing (p : Problem σ α) (h : σ → Rat) (vs0 vs : Values σ) : Prop :=
  (∀ s, leInf (est h vs0 s) (est h vs s)) ∧
  ∀ s, ∀ a ∈ p.actions s, leInf (est h vs s) ((est h vs (p.next s a)).map (p.cost s a (p.next s a) + ·))

theorem growing_store {p : Problem σ α} {h : σ → Rat} (vs0 vs : Values σ) (s : σ)
    (hv : Growing p h vs0 vs) (hs : vs.get? s = none) : Growing p h vs0 (vs.set s (some (h s))) := by
  refine ⟨?_, ?_⟩
  · intro t; rw [est_store _ _ _ hs]; exact hv.1 t
  · intro t a ha; rw [est_store _ _ _ hs, est_store _ _ _ hs]; exact hv.2 t a ha

theorem growing_set {p : Problem σ α} {h : σ → Rat} (hacy : Acyclic p) (vs0 vs : Values σ) (s : σ) (v : Option Rat)
    (hv : Growing p h vs0 vs) (hm : IsMin p h vs s v) : Growing p h vs0 (vs.set s v) := by
  have hup : leInf (est h vs s) v := by
    cases v with
    | none => cases est h vs s <;> trivial
    | some b =>
      obtain ⟨⟨a, h1, v, h2, h3⟩, _⟩ := hm
      have := hv.2 s a h1
      rw [h2, Option.map_some, ← h3] at this
      exact this
  have hall : ∀ t, leInf (est h vs t) (est h (vs.set s v) t) := by
    intro t
    rw [est_set]; split
    · rename_i ht; rw [ht]; exact hup
    · exact leInf_refl _
  refine ⟨fun t => leInf_trans (hv.1 t) (hall t), ?_⟩
  intro t a ha
  have hmap : leInf ((est h vs (p.next t a)).map (p.cost t a (p.next t a) + ·))
      ((est h (vs.set s v) (p.next t a)).map (p.cost t a (p.next t a) + ·)) := by
    have := hall (p.next t a)
    cases h1 : est h vs (p.next t a) with
    | none => rw [h1] at this; cases h2 : est h (vs.set s v) (p.next t a) with
      | none => trivial
      | some _ => rw [h2] at this; exact this.elim
    | some x => rw [h1] at this; cases h2 : est h (vs.set s v) (p.next t a) with
      | none => trivial
      | some y =>
        rw [h2] at this
        simp only [Option.map_some, leInf] at this ⊢
        linarith
  by_cases hts : t = s
  · subst hts
    rw [est_set, if_pos rfl]
    have hne : p.next t a ≠ t := fun hh => hacy t [a] (by simp) ⟨ha, trivial⟩ hh
    rw [est_set, if_neg hne]
    cases v with
    | none => rw [hm a ha]; trivial
    | some b =>
      cases h1 : est h vs (p.next t a) with
      | none => trivial
      | some x => exact hm.2 a ha x h1
  · rw [est_set, if_neg hts]
    exact leInf_trans (hv.2 t a ha) hmap

/-- In a domain without cycles and with a consistent heuristic, no trial lowers an estimate
(stored values, or the heuristic where nothing was stored), however many trials came before.
Missing: domains with cycles, where it is false (see `C37_cycle_decreases`). -/
theorem C37_monotone_partial (p : Problem σ α) (ha : Acyclic p) (h : σ → Rat) (hh : Consistent p h)
    (maxIter maxDepth : Nat) (s0 : σ) (r : Values σ × Dict σ (Option α) × Trial σ α)
    (hr : lrta p h maxIter maxDepth s0 = .ok r) (t : Trial σ α) (ht : trial p h maxDepth s0 r.1 = .ok t) (s : σ) :
    leInf (some (h s)) (est h r.1 s) ∧ leInf (est h r.1 s) (est h t.values s) := by
  have h1 : Growing p h [] r.1 :=
    lrtaLoop_inv ha h (Growing p h []) (fun vs s => growing_store [] vs s)
      (fun vs s v hv _ hm => growing_set ha [] vs s v hv hm) maxDepth s0 maxIter [] none []
      ⟨fun s => leInf_refl _, fun s a hx => hh s a hx⟩ r hr
  have h2 : Growing p h r.1 t.values :=
    doTrial_inv ha h (Growing p h r.1) (fun vs s => growing_store r.1 vs s)
      (fun vs s v hv _ hm => growing_set ha r.1 vs s v hv hm) _ _ _ _ _ _ _ _
      ⟨by simp, by simpa using ⟨[], trivial, rfl⟩⟩ ⟨fun s => leInf_refl _, h1.2⟩ t ht
  exact ⟨h1.1 s, h2.1 s⟩

/-- 0 → 1 (1), 0 → 2 (10), 1 → 0 (1), goal 2. -/
def backAndForth : Problem Nat Nat where
  actions s := if s = 0 then [1, 2] else if s = 1 then [0] else []
  next _ a := a
  cost s a _ := if s = 0 ∧ a = 2 then 10 else 1
  goal s := s == 2

/-- With a cycle, a state whose only way on leads back through the trial is given the value
infinity although a goal can be reached from it; here with the heuristic that is zero
everywhere. -/
theorem C37_cycle_overestimates : ∃ r, lrta backAndForth (fun _ => 0) 0 200 0 = .ok r ∧ r.1.get? 1 = some none ∧
    backAndForth.Applicable 1 [0, 2] ∧ backAndForth.goal (backAndForth.walk 1 [0, 2]) = true ∧
    backAndForth.walkCost 1 [0, 2] = 11 := by
  obtain ⟨r, h1, h2⟩ : ∃ r, lrta backAndForth (fun _ => 0) 0 200 0 = .ok r ∧ r.1.get? 1 = some none :=
    okAnd_spec (by decide +kernel)
  exact ⟨r, h1, h2, by simp [Problem.Applicable, backAndForth], by decide, by decide +kernel⟩

/-- 0 → 1 (1), 0 → 3 (2), 1 → 2 (1000), 2 → 3 (1), 3 → 2 (1), 3 → 4 (100), goal 4. -/
def detour : Problem Nat Nat where
  actions s := if s = 0 then [1, 3] else if s = 1 then [2] else if s = 2 then [3] else if s = 3 then [2, 4] else []
  next _ a := a
  cost s a _ := if s = 0 ∧ a = 3 then 2 else if s = 1 then 1000 else if a = 4 then 100 else 1
  goal s := s == 4

/-- With a cycle a stored value can decrease although the heuristic (zero) is consistent. -/
theorem C37_cycle_decreases : ∃ r t, lrta detour (fun _ => 0) 0 200 0 = .ok r ∧
    trial detour (fun _ => 0) 200 0 r.1 = .ok t ∧ r.1.get? 3 = some (some 100) ∧ t.values.get? 3 = some (some 2) := by
  obtain ⟨r, h1, h2, t, h3, h4⟩ : ∃ r, lrta detour (fun _ => 0) 0 200 0 = .ok r ∧ (r.1.get? 3 = some (some 100) ∧
      ∃ t, trial detour (fun _ => 0) 200 0 r.1 = .ok t ∧ t.values.get? 3 = some (some 2)) := by
    obtain ⟨r, h1, h2, h3⟩ : ∃ r, lrta detour (fun _ => 0) 0 200 0 = .ok r ∧ (r.1.get? 3 = some (some 100) ∧
        okAnd (trial detour (fun _ => 0) 200 0 r.1) (fun t => t.values.get? 3 = some (some 2)) = true) :=
      okAnd_spec (by decide +kernel)
    exact ⟨r, h1, h2, okAnd_spec h3⟩
  exact ⟨r, t, h1, h3, h2, h4⟩

/-- A start that is a goal makes the solver raise. -/
theorem C37_start_at_goal_raises (p : Problem σ α) (h : σ → Rat) (maxIter maxDepth : Nat) (s0 : σ)
    (hg : p.goal s0 = true) : lrta p h maxIter maxDepth s0 = .error .keyError := by
  have : trial p h maxDepth s0 ([] : Values σ) = .error .keyError := by
    rw [trial]
    cases maxDepth <;> rw [doTrial, if_pos hg] <;> rfl
  rw [lrta, lrtaLoop, this]
  rfl

/-! ### C52 -/

/-- The path taken by a trial that is not a dead end, in a domain without cycles. -/
theorem doTrial_path {p : Problem σ α} (ha : Acyclic p) (h : σ → Rat)
    (depth : Nat) (cur : σ) (roll : List σ) (vs : Values σ) (changed : Bool) (cum : Rat)
    (ra : List (σ × Option α)) (acts : List α) (hb : Behind p roll cur) (t : Trial σ α)
    (ht : doTrial p h depth cur roll vs changed cum ra acts = .ok t) :
    (t.deadEnd = true → t.changed = true) ∧ (changed = true → t.changed = true) ∧
    (t.deadEnd = false → ∃ bs, p.Applicable cur bs ∧ (p.goal (p.walk cur bs) = true ∨ bs.length = depth) ∧
      t.plan = acts ++ bs ∧ t.roll = ra ++ p.trace cur bs ++ [(p.walk cur bs, none)] ∧
      t.cost = (est h t.values (p.walk cur bs)).map (cum + p.walkCost cur bs + ·) ∧
      (t.changed = false → est h vs cur = (est h t.values (p.walk cur bs)).map (p.walkCost cur bs + ·) ∧
        ∀ s, est h t.values s = est h vs s)) := by
  induction depth generalizing cur roll vs changed cum ra acts with
  | zero =>
    have key : ∀ v, vs.get? cur = some v →
        t = ⟨false, v.map (cum + ·), ra ++ [(cur, none)], acts, vs, changed⟩ →
        (t.deadEnd = true → t.changed = true) ∧ (changed = true → t.changed = true) ∧
        (t.deadEnd = false → ∃ bs, p.Applicable cur bs ∧ (p.goal (p.walk cur bs) = true ∨ bs.length = 0) ∧
        t.plan = acts ++ bs ∧ t.roll = ra ++ p.trace cur bs ++ [(p.walk cur bs, none)] ∧
        t.cost = (est h t.values (p.walk cur bs)).map (cum + p.walkCost cur bs + ·) ∧
        (t.changed = false → est h vs cur = (est h t.values (p.walk cur bs)).map (p.walkCost cur bs + ·) ∧
          ∀ s, est h t.values s = est h vs s)) := by
      intro v hv ht
      subst ht
      refine ⟨by simp, id, fun _ => ⟨[], trivial, .inr rfl, by simp, by simp [Problem.trace, Problem.walk], ?_, ?_⟩⟩
      · simp only [Problem.walk, est, hv, Problem.walkCost, Rat.add_zero]
      · intro _
        refine ⟨?_, fun s => rfl⟩
        simp only [Problem.walk, est, hv, Problem.walkCost, Rat.zero_add]
        cases v <;> rfl
    rw [doTrial] at ht
    have hget : ∀ v, vs.get cur = .ok v → vs.get? cur = some v := by
      intro v hv
      simp only [Dict.get] at hv
      cases hc : vs.get? cur with
      | none => rw [hc] at hv; cases hv
      | some x => rw [hc] at hv; cases hv; rfl
    by_cases hg : p.goal cur = true
    · rw [if_pos hg, bind_eq_ok] at ht
      obtain ⟨v, hv, ht⟩ := ht
      exact key v (hget v hv) (Except.ok.inj ht).symm
    · rw [if_neg hg] at ht
      simp only [bind_eq_ok] at ht
      obtain ⟨v, hv, ht⟩ := ht
      exact key v (hget v hv) (Except.ok.inj ht).symm
  | succ depth ih =>
    rw [doTrial] at ht
    by_cases hg : p.goal cur = true
    · rw [if_pos hg, bind_eq_ok] at ht
      obtain ⟨v, hv, ht⟩ := ht
      have hv' : vs.get? cur = some v := by
        simp only [Dict.get] at hv
        cases hc : vs.get? cur with
        | none => rw [hc] at hv; cases hv
        | some x => rw [hc] at hv; cases hv; rfl
      have ht := (Except.ok.inj ht).symm
      subst ht
      refine ⟨by simp, id, fun _ => ⟨[], trivial, .inl hg, by simp, by simp [Problem.trace, Problem.walk], ?_, ?_⟩⟩
      · simp only [Problem.walk, est, hv', Problem.walkCost, Rat.add_zero]
      · intro _
        refine ⟨?_, fun s => rfl⟩
        simp only [Problem.walk, est, hv', Problem.walkCost, Rat.zero_add]
        cases v <;> rfl
    · rw [if_neg hg] at ht
      obtain ⟨ws, hst, ⟨h1, h2⟩ | ⟨a, hx, v, h1, h2, h3, h4⟩⟩ := pick_step ha h hb vs
      · simp only [h1] at ht
        cases ht
        exact ⟨fun _ => rfl, fun _ => rfl, fun hd => by cases hd⟩
      · simp only [h3] at ht
        have hne : p.next cur a ≠ cur := fun hh => ha cur [a] (by simp) ⟨hx, trivial⟩ hh
        generalize hu : update ws cur (p.cost cur a (p.next cur a) + v) changed = u at ht
        have hupd : u.1.get? (p.next cur a) = some (some v) := by
          rw [← hu, update]; split
          · exact h2
          · rw [Dict.get?_set_ne _ _ hne]; exact h2
        have huc : changed = true → u.2 = true := by
          intro hc
          rw [← hu, update]; split
          · exact hc
          · rfl
        rw [hupd] at ht
        obtain ⟨i1, i2, i3⟩ := ih _ _ _ _ _ _ _ (behind_step hb hx) ht
        refine ⟨i1, fun hc => i2 (huc hc), ?_⟩
        intro hd
        obtain ⟨bs, j1, j2, j3, j4, j5, j6⟩ := i3 hd
        refine ⟨a :: bs, ⟨hx, j1⟩, ?_, ?_, ?_, ?_, ?_⟩
        · rcases j2 with j2 | j2
          · exact .inl j2
          · exact .inr (by simp [j2])
        · rw [j3]; simp
        · rw [j4]; simp [Problem.trace, Problem.walk]
        · rw [j5]
          simp only [Problem.walk, Problem.walkCost]
          congr 1
          funext x
          linarith
        · intro hc
          obtain ⟨k1, k2⟩ := j6 hc
          have hsame : u = (ws, changed) ∧ ws.get? cur = some (some (p.cost cur a (p.next cur a) + v)) := by
            by_cases hw : ws.get? cur = some (some (p.cost cur a (p.next cur a) + v))
            · exact ⟨by rw [← hu, update, if_pos hw], hw⟩
            · have : u.2 = true := by rw [← hu, update, if_neg hw]
              have := i2 this
              rw [hc] at this; cases this
          have hu1 : u.1 = ws := by rw [hsame.1]
          refine ⟨?_, fun s => by rw [k2 s, hu1, hst.est]⟩
          rw [← hst.est cur]
          have e1 : est h ws cur = some (p.cost cur a (p.next cur a) + v) := by simp only [est, hsame.2]
          rw [hu1, h1] at k1
          rw [e1]
          simp only [Problem.walk, Problem.walkCost]
          cases hl : est h t.values (p.walk (p.next cur a) bs) with
          | none => rw [hl] at k1; cases k1
          | some x =>
            rw [hl] at k1
            simp only [Option.map_some, Option.some.injEq] at k1 ⊢
            rw [k1]; linarith

/-- Following the policy from the start is this path, to a goal. -/
def Leads (p : Problem σ α) (s0 : σ) (policy : Dict σ (Option α)) (bs : List α) : Prop :=
  p.Applicable s0 bs ∧ p.goal (p.walk s0 bs) = true ∧ policy.get? (p.walk s0 bs) = some none ∧
  (∀ pre a post, bs = pre ++ a :: post → policy.get? (p.walk s0 pre) = some (some a))

theorem get?_foldl_set (l : List (σ × Option α)) (d : Dict σ (Option α)) (hn : (l.map Prod.fst).Nodup)
    (q : σ × Option α) (hq : q ∈ l) : (l.foldl (fun d q => d.set q.1 q.2) d).get? q.1 = some q.2 := by
  have hkeep : ∀ (l : List (σ × Option α)) (d : Dict σ (Option α)) (k : σ), k ∉ l.map Prod.fst →
      (l.foldl (fun d q => d.set q.1 q.2) d).get? k = d.get? k := by
    intro l
    induction l with
    | nil => intro d k _; rfl
    | cons r l ih =>
      intro d k hk
      simp only [List.map_cons, List.mem_cons, not_or] at hk
      rw [List.foldl_cons, ih _ _ hk.2, Dict.get?_set_ne _ _ hk.1]
  induction l generalizing d with
  | nil => simp at hq
  | cons r l ih =>
    simp only [List.map_cons, List.nodup_cons] at hn
    rw [List.foldl_cons]
    rcases List.mem_cons.1 hq with rfl | hq
    · rw [hkeep _ _ _ hn.1, Dict.get?_set_self]
    · exact ih _ hn.2 hq

omit [DecidableEq σ] in
theorem trace_nodup {p : Problem σ α} (ha : Acyclic p) (s : σ) (as : List α) (h : p.Applicable s as) :
    ((p.trace s as ++ [(p.walk s as, none)]).map Prod.fst).Nodup := by
  induction as generalizing s with
  | nil => simp [Problem.trace]
  | cons a as ih =>
    have := ih _ h.2
    simp only [Problem.trace, Problem.walk, List.cons_append, List.map_cons, List.nodup_cons]
    refine ⟨?_, this⟩
    intro hm
    rw [List.map_append, List.mem_append] at hm
    rcases hm with hm | hm
    · obtain ⟨q, hq, hqs⟩ := List.mem_map.1 hm
      obtain ⟨pre, b, post, h1, rfl⟩ := mem_trace.1 hq
      refine ha s (a :: pre) (by simp) ⟨h.1, ?_⟩ hqs
      have := h.2
      rw [h1, applicable_append] at this
      exact this.1
    · simp only [List.map_cons, List.map_nil, List.mem_singleton] at hm
      exact ha s (a :: as) (by simp) h hm.symm

/-- Values of goals are what the heuristic says. -/
def GoalsKept (p : Problem σ α) (h : σ → Rat) (vs : Values σ) : Prop :=
  ∀ s, p.goal s = true → est h vs s = some (h s)

/-- A domain without cycles, a heuristic that never overestimates and is zero at goals, no way
longer than the depth limit: when the solver stops because a trial changed no value, its
policy leads from the start to a goal at the least possible cost. -/
theorem C52_stops_optimal (p : Problem σ α) (ha : Acyclic p) (h : σ → Rat) (hh : NeverOver p h)
    (hz : ∀ s, p.goal s = true → h s = 0) (maxIter maxDepth : Nat) (s0 : σ)
    (hdepth : ∀ as, p.Applicable s0 as → as.length < maxDepth)
    (r : Values σ × Dict σ (Option α) × Trial σ α) (hr : lrta p h maxIter maxDepth s0 = .ok r)
    (hstop : r.2.2.changed = false) :
    ∃ bs, Leads p s0 r.2.1 bs ∧ ∀ cs, p.Applicable s0 cs → p.goal (p.walk s0 cs) = true →
      p.walkCost s0 bs ≤ p.walkCost s0 cs := by
  have hb0 : Behind p [s0] s0 := ⟨by simp, by simpa using ⟨[], trivial, rfl⟩⟩
  -- one trial
  have one : ∀ vs t, Admissible p vs → GoalsKept p h vs → trial p h maxDepth s0 vs = .ok t →
      Admissible p t.values ∧ GoalsKept p h t.values ∧ (t.changed = false → t.deadEnd = false) ∧
      (t.deadEnd = false → ∃ bs, p.Applicable s0 bs ∧ p.goal (p.walk s0 bs) = true ∧
        t.roll = p.trace s0 bs ++ [(p.walk s0 bs, none)] ∧ t.cost = some (p.walkCost s0 bs) ∧
        (t.changed = false → ∀ cs, p.Applicable s0 cs → p.goal (p.walk s0 cs) = true →
          p.walkCost s0 bs ≤ p.walkCost s0 cs)) := by
    intro vs t hv hgk ht
    have hv' : Admissible p t.values :=
      doTrial_inv ha h (Admissible p) (admissible_store hh) (admissible_set hh) _ _ _ _ _ _ _ _ hb0 hv t ht
    have hgk' : GoalsKept p h t.values := by
      refine doTrial_inv ha h (GoalsKept p h) ?_ ?_ _ _ _ _ _ _ _ _ hb0 hgk t ht
      · intro vs s hq hs t ht; rw [est_store _ _ _ hs]; exact hq t ht
      · intro vs s v hq hs _ t ht
        rw [est_set, if_neg (by rintro rfl; rw [hs] at ht; cases ht)]
        exact hq t ht
    obtain ⟨d1, d2, d3⟩ := doTrial_path ha h _ _ _ _ _ _ _ _ hb0 t ht
    refine ⟨hv', hgk', ?_, ?_⟩
    · intro hc
      cases hd : t.deadEnd with
      | false => rfl
      | true => rw [d1 hd] at hc; cases hc
    · intro hd
      obtain ⟨bs, j1, j2, j3, j4, j5, j6⟩ := d3 hd
      have hgoal : p.goal (p.walk s0 bs) = true := by
        rcases j2 with j2 | j2
        · exact j2
        · have := hdepth bs j1; omega
      have he := hgk' _ hgoal
      rw [hz _ hgoal] at he
      refine ⟨bs, j1, hgoal, by simpa using j4, by rw [j5, he]; simp, ?_⟩
      intro hc cs hcs hcg
      obtain ⟨k1, _⟩ := j6 hc
      rw [he] at k1
      obtain ⟨x, k3, k4⟩ := est_admissible hh hv s0 cs hcs hcg
      rw [k1] at k3
      simp only [Option.map_some, Option.some.injEq] at k3
      linarith
  -- all trials
  have loop : ∀ iters vs best policy, Admissible p vs → GoalsKept p h vs →
      (∀ c, best = some c → ∃ bs, Leads p s0 policy bs ∧ p.walkCost s0 bs = c) →
      ∀ r, lrtaLoop p h maxDepth s0 iters vs best policy = .ok r → r.2.2.changed = false →
      ∃ bs, Leads p s0 r.2.1 bs ∧ ∀ cs, p.Applicable s0 cs → p.goal (p.walk s0 cs) = true →
        p.walkCost s0 bs ≤ p.walkCost s0 cs := by
    have body : ∀ vs best policy t, Admissible p vs → GoalsKept p h vs →
        (∀ c, best = some c → ∃ bs, Leads p s0 policy bs ∧ p.walkCost s0 bs = c) →
        trial p h maxDepth s0 vs = .ok t →
        (∀ c, (if (!t.deadEnd && cheaper t.cost best) = true then t.cost else best) = some c →
          ∃ bs, Leads p s0 (if (!t.deadEnd && cheaper t.cost best) = true then
            t.roll.foldl (fun d q => d.set q.1 q.2) policy else policy) bs ∧ p.walkCost s0 bs = c) ∧
        (t.changed = false → ∃ bs, Leads p s0 (if (!t.deadEnd && cheaper t.cost best) = true then
            t.roll.foldl (fun d q => d.set q.1 q.2) policy else policy) bs ∧
          ∀ cs, p.Applicable s0 cs → p.goal (p.walk s0 cs) = true → p.walkCost s0 bs ≤ p.walkCost s0 cs) := by
      intro vs best policy t hv hgk hbest ht
      obtain ⟨_, _, o3, o4⟩ := one vs t hv hgk ht
      have hnew : t.deadEnd = false → ∃ bs, Leads p s0 (t.roll.foldl (fun d q => d.set q.1 q.2) policy) bs ∧
          t.cost = some (p.walkCost s0 bs) ∧ (t.changed = false → ∀ cs, p.Applicable s0 cs →
            p.goal (p.walk s0 cs) = true → p.walkCost s0 bs ≤ p.walkCost s0 cs) := by
        intro hd
        obtain ⟨bs, h1, h2, h3, h4, h5⟩ := o4 hd
        have hn := trace_nodup ha s0 bs h1
        refine ⟨bs, ⟨h1, h2, ?_, ?_⟩, h4, h5⟩
        · rw [h3]
          exact get?_foldl_set _ _ hn (p.walk s0 bs, none) (by simp)
        · intro pre a post hpp
          rw [h3]
          exact get?_foldl_set _ _ hn (p.walk s0 pre, some a)
            (List.mem_append.2 (.inl (mem_trace.2 ⟨pre, a, post, hpp, rfl⟩)))
      by_cases hbet : (!t.deadEnd && cheaper t.cost best) = true
      · simp only [if_pos hbet]
        simp only [Bool.and_eq_true, Bool.not_eq_true'] at hbet
        obtain ⟨bs, h1, h2, h3⟩ := hnew hbet.1
        refine ⟨?_, fun hc => ⟨bs, h1, h3 hc⟩⟩
        intro c hc
        rw [h2] at hc
        exact ⟨bs, h1, by simpa using hc⟩
      · simp only [if_neg hbet]
        refine ⟨hbest, ?_⟩
        intro hc
        have hd := o3 hc
        obtain ⟨bs, h1, h2, h3⟩ := hnew hd
        rw [hd, h2] at hbet
        simp only [Bool.not_false, Bool.true_and] at hbet
        cases hb : best with
        | none => rw [hb] at hbet; exact absurd rfl hbet
        | some c =>
          rw [hb] at hbet
          obtain ⟨bs', h4, h5⟩ := hbest c hb
          refine ⟨bs', h4, ?_⟩
          intro cs hcs hcg
          have h6 := h3 hc cs hcs hcg
          simp only [cheaper, decide_eq_true_eq, not_lt] at hbet
          rw [h5]; exact le_trans hbet h6
    intro iters
    induction iters with
    | zero =>
      intro vs best policy hv hgk hbest r hr hc
      rw [lrtaLoop, bind_eq_ok] at hr
      obtain ⟨t, ht, hr⟩ := hr
      obtain ⟨_, b2⟩ := body vs best policy t hv hgk hbest ht
      simp only at hr
      split at hr
      · cases hr; exact b2 hc
      · cases hr; exact b2 hc
    | succ iters ih =>
      intro vs best policy hv hgk hbest r hr hc
      rw [lrtaLoop, bind_eq_ok] at hr
      obtain ⟨t, ht, hr⟩ := hr
      obtain ⟨b1, b2⟩ := body vs best policy t hv hgk hbest ht
      obtain ⟨o1, o2, _, _⟩ := one vs t hv hgk ht
      simp only at hr
      split at hr
      · cases hr; exact b2 hc
      · exact ih _ _ _ o1 o2 b1 r hr hc
  refine loop maxIter [] none [] (by intro s v hs; simp at hs) ?_ (by intro c hc; cases hc) r hr hstop
  intro s hs
  simp [est]

theorem diamond_rank {s : Nat} {as : List Nat} (h : diamond.Applicable s as) (hne : as ≠ []) :
    diamondH (diamond.walk s as) < diamondH s := by
  induction as generalizing s with
  | nil => exact absurd rfl hne
  | cons a as ih =>
    have h1 : diamondH a < diamondH s := by
      rcases diamond_actions h.1 with ⟨rfl, rfl | rfl⟩ | ⟨rfl, rfl⟩ | ⟨rfl, rfl⟩ <;> decide +kernel
    cases as with
    | nil => exact h1
    | cons b bs =>
      have := ih (s := diamond.next s a) h.2 (by simp)
      exact lt_trans this h1

theorem diamond_acyclic : Acyclic diamond := by
  intro s as hne h hw
  have := diamond_rank h hne
  rw [hw] at this
  exact lt_irrefl _ this

theorem diamond_never_over : NeverOver diamond (fun _ => 0) := by
  intro s as h _
  induction as generalizing s with
  | nil => exact le_refl _
  | cons a as ih =>
    have h1 := diamond_nonneg s a h.1
    have h2 := ih (diamond.next s a) h.2 (by assumption)
    simp only [Problem.walkCost]
    linarith

example : Acyclic diamond ∧ NeverOver diamond (fun _ => 0) ∧ Consistent diamond (fun _ => 0) ∧
    ∃ r, lrta diamond (fun _ => 0) 10 200 0 = .ok r ∧ (r.2.2.changed = false ∧ r.2.1.get? 0 = some (some 2) ∧
      r.1.get? 0 = some (some 12) ∧ r.1.get? 2 = some (some 11)) :=
  ⟨diamond_acyclic, diamond_never_over, by
    intro s a ha
    have := diamond_nonneg s a ha
    simp only; linarith, okAnd_spec (by decide +kernel)⟩

theorem diamond_short {s : Nat} {as : List Nat} (h : diamond.Applicable s as) : as.length ≤ 3 := by
  match as, h with
  | [], _ => simp
  | [_], _ => simp
  | [_, _], _ => simp
  | [_, _, _], _ => simp
  | a :: b :: c :: d :: l, h =>
    obtain ⟨h1, h2, h3, h4, _⟩ := h
    have e1 := diamond_actions h1
    have e2 := diamond_actions h2
    have e3 := diamond_actions h3
    have e4 := diamond_actions h4
    simp only [diamond] at e2 e3 e4
    omega

example : ∀ as, diamond.Applicable 0 as → as.length < 200 := fun as h => by
  have := diamond_short h; omega

end Verif.Search
