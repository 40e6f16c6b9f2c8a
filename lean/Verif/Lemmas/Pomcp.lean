import Verif.Model.Pomcp
import Mathlib.Tactic.Linarith
import Mathlib.Tactic.FieldSimp
import Mathlib.Tactic.Ring
import Mathlib.Algebra.BigOperators.Group.List.Basic
import Mathlib.Algebra.Order.Field.Basic
import Mathlib.Algebra.Order.Floor.Ring
import Mathlib.Data.Rat.Floor

/-! Helper lemmas about the partially observable Monte Carlo planner. -/
namespace Verif.Pomcp

set_option linter.unusedSectionVars false
variable {σ Act Obs : Type} [DecidableEq Act] [DecidableEq Obs]

/-- How often a history has been visited. -/
def visitsOf (t : Dict (Key Act Obs) Node) (key : Key Act Obs) : Nat := ((t.get? key).map (·.visits)).getD 0

theorem fold_pick (t : Dict (Key Act Obs) Node) (h : List (Option Act)) (o : List Obs) (score : Node → Rat)
    (l : List Act) (b : Option Act × Rat) :
    (l.foldl (pickStep t h o score) b).2 ≤ b.2 ∧
    (∀ a ∈ l, ∀ nd, t.get? (h ++ [some a], o) = some nd → (l.foldl (pickStep t h o score) b).2 ≤ score nd) ∧
    (l.foldl (pickStep t h o score) b = b ∨
      ∃ a ∈ l, ∃ nd, t.get? (h ++ [some a], o) = some nd ∧ score nd < b.2 ∧
        l.foldl (pickStep t h o score) b = (some a, score nd)) := by
  induction l generalizing b with
  | nil => simp
  | cons a l ih =>
    simp only [List.foldl_cons]
    obtain ⟨h1, h2, h3⟩ := ih (pickStep t h o score b a)
    have hs : (pickStep t h o score b a).2 ≤ b.2 ∧
        (∀ nd, t.get? (h ++ [some a], o) = some nd → (pickStep t h o score b a).2 ≤ score nd) ∧
        (pickStep t h o score b a = b ∨ ∃ nd, t.get? (h ++ [some a], o) = some nd ∧ score nd < b.2 ∧
          pickStep t h o score b a = (some a, score nd)) := by
      unfold pickStep
      cases hg : t.get? (h ++ [some a], o) with
      | none => simp
      | some nd =>
        by_cases hlt : score nd < b.2
        · simp [hlt, le_of_lt hlt]
        · simp only [hlt, if_false]
          refine ⟨le_refl _, ?_, by simp⟩
          intro nd' e
          cases e
          exact not_lt.mp hlt
    obtain ⟨s1, s2, s3⟩ := hs
    refine ⟨le_trans h1 s1, ?_, ?_⟩
    · intro c hc nd hnd
      rcases List.mem_cons.mp hc with rfl | hc
      · exact le_trans h1 (s2 nd hnd)
      · exact h2 c hc nd hnd
    · rcases h3 with h3 | ⟨c, hc, nd, hnd, hlt, e⟩
      · rcases s3 with s3 | ⟨nd, hnd, hlt, e⟩
        · left; rw [h3, s3]
        · right
          exact ⟨a, by simp, nd, hnd, hlt, by rw [h3, e]⟩
      · right
        exact ⟨c, by simp [hc], nd, hnd, lt_of_lt_of_le hlt s1, e⟩

theorem best_some {p : Problem σ Act Obs} {t : Dict (Key Act Obs) Node} {h : List (Option Act)} {o : List Obs}
    {score : Node → Rat} {a : Act} (e : p.best t h o score = some a) :
    a ∈ p.actions ∧ ∃ nd, t.get? (h ++ [some a], o) = some nd ∧ score nd < p.vlv ∧
      ∀ c ∈ p.actions, ∀ nd', t.get? (h ++ [some c], o) = some nd' → score nd ≤ score nd' := by
  obtain ⟨_, h2, h3⟩ := fold_pick t h o score p.actions (none, p.vlv)
  rcases h3 with h3 | ⟨c, hc, nd, hnd, hlt, e'⟩
  · unfold Problem.best at e
    rw [h3] at e
    simp at e
  · unfold Problem.best at e
    rw [e'] at e
    obtain rfl : c = a := by simpa using e
    refine ⟨hc, nd, hnd, hlt, fun c' hc' nd' hnd' => ?_⟩
    have := h2 c' hc' nd' hnd'
    rw [e'] at this
    exact this

theorem best_none {p : Problem σ Act Obs} {t : Dict (Key Act Obs) Node} {h : List (Option Act)} {o : List Obs}
    {score : Node → Rat} (e : p.best t h o score = none) :
    ∀ c ∈ p.actions, ∀ nd', t.get? (h ++ [some c], o) = some nd' → p.vlv ≤ score nd' := by
  obtain ⟨_, h2, h3⟩ := fold_pick t h o score p.actions (none, p.vlv)
  rcases h3 with h3 | ⟨c, hc, nd, hnd, hlt, e'⟩
  · intro c hc nd' hnd'
    have := h2 c hc nd' hnd'
    rw [h3] at this
    exact this
  · unfold Problem.best at e
    rw [e'] at e
    simp at e

/-- Predicates on costs that every simulated cost satisfies. -/
structure Costs (p : Problem σ Act Obs) (P : Rat → Prop) : Prop where
  top : P p.vlv
  stop : ∀ k s a s', p.goal (p.observe k s (some a)) = true → P (p.cost s a s')
  step : ∀ s a s' x, P x → P (min (p.cost s a s' + x) p.vlv)

theorem rollout_costs {p : Problem σ Act Obs} {P : Rat → Prop} (hP : Costs p P) (left : Nat) (s : σ) (k : Nat) :
    P (p.rollout left s k).1 := by
  induction left generalizing s k with
  | zero => exact hP.top
  | succ left ih =>
    simp only [Problem.rollout]
    split
    · rename_i hg
      exact hP.stop _ _ _ _ hg
    · exact hP.step _ _ _ _ (ih _ _)

/-- The value of an action is the average of as many costs as it has visits. -/
def Mean (P : Rat → Prop) (nd : Node) : Prop :=
  ∃ l : List Rat, l.length = nd.visits ∧ nd.value * nd.visits = l.sum ∧ (nd.visits = 0 → nd.value = 0) ∧ ∀ x ∈ l, P x

/-- What holds of the tree at any time. -/
structure Inv (p : Problem σ Act Obs) (P : Rat → Prop) (t : Dict (Key Act Obs) Node) : Prop where
  parent : ∀ h o a nd, h.length = o.length → t.get? (h ++ [some a], o) = some nd → ∃ nd', t.get? (h, o) = some nd'
  visits : ∀ h o nd, h.length = o.length → t.get? (h, o) = some nd →
    nd.visits = 1 + (p.actions.map (fun a => visitsOf t (h ++ [some a], o))).sum
  mean : ∀ h o nd, h.length = o.length + 1 → t.get? (h, o) = some nd → Mean P nd

theorem Inv.empty (p : Problem σ Act Obs) (P : Rat → Prop) : Inv p P ([] : Dict (Key Act Obs) Node) := by
  constructor <;> intros <;> simp_all [Dict.get?]

theorem get?_children (p : Problem σ Act Obs) (s : σ) (h : List (Option Act)) (o : List Obs)
    (t : Dict (Key Act Obs) Node) (key : Key Act Obs) :
    (p.children s h o t).get? key =
      if ∃ a ∈ p.applicable s, key = (h ++ [some a], o) then some ⟨0, 0⟩ else t.get? key := by
  unfold Problem.children
  generalize p.applicable s = l
  induction l generalizing t with
  | nil => simp
  | cons a l ih =>
    simp only [List.foldl_cons]
    rw [ih, Dict.get?_set]
    by_cases h1 : ∃ c ∈ l, key = (h ++ [some c], o)
    · have h2 : ∃ c ∈ a :: l, key = (h ++ [some c], o) := by
        obtain ⟨c, hc, e⟩ := h1
        exact ⟨c, by simp [hc], e⟩
      rw [if_pos h1, if_pos h2]
    · rw [if_neg h1]
      by_cases h3 : key = (h ++ [some a], o)
      · have h2 : ∃ c ∈ a :: l, key = (h ++ [some c], o) := ⟨a, by simp, h3⟩
        rw [if_pos h2]
        simp [h3]
      · have h2 : ¬ ∃ c ∈ a :: l, key = (h ++ [some c], o) := by
          rintro ⟨c, hc, e⟩
          rcases List.mem_cons.mp hc with rfl | hc
          · exact h3 e
          · exact h1 ⟨c, hc, e⟩
        rw [if_neg h2]
        simp [h3]

theorem get?_expand (p : Problem σ Act Obs) (s : σ) (h : List (Option Act)) (o : List Obs)
    (t : Dict (Key Act Obs) Node) (x : Rat) (key : Key Act Obs) :
    ((p.children s h o t).set (h, o) ⟨1, x⟩).get? key =
      if key = (h, o) then some ⟨1, x⟩
      else if ∃ a ∈ p.applicable s, key = (h ++ [some a], o) then some ⟨0, 0⟩ else t.get? key := by
  rw [Dict.get?_set, get?_children]

theorem Inv.expand {p : Problem σ Act Obs} {P : Rat → Prop} {t : Dict (Key Act Obs) Node} (hI : Inv p P t)
    {s : σ} {h : List (Option Act)} {o : List Obs} {x : Rat} (hl : h.length = o.length)
    (hn : t.get? (h, o) = none) : Inv p P ((p.children s h o t).set (h, o) ⟨1, x⟩) := by
  constructor
  · intro h' o' a nd hl' hg
    rw [get?_expand] at hg ⊢
    by_cases e : (h', o') = (h, o)
    · exact ⟨_, by rw [if_pos e]⟩
    · rw [if_neg e]
      by_cases e2 : ∃ a ∈ p.applicable s, (h', o') = (h ++ [some a], o)
      · exact ⟨_, by rw [if_pos e2]⟩
      · rw [if_neg e2]
        have n1 : ¬ (h' ++ [some a], o') = (h, o) := by
          intro e'
          simp only [Prod.mk.injEq] at e'
          have := congrArg List.length e'.1
          have h2 := congrArg List.length e'.2
          simp at this
          omega
        have n2 : ¬ ∃ c ∈ p.applicable s, (h' ++ [some a], o') = (h ++ [some c], o) := by
          rintro ⟨c, _, e'⟩
          simp only [Prod.mk.injEq] at e'
          have := (List.append_inj' e'.1 rfl).1
          exact e (by rw [this, e'.2])
        rw [if_neg n1, if_neg n2] at hg
        exact hI.parent _ _ _ _ hl' hg
  · intro h' o' nd hl' hg
    have hkid : ∀ c, ¬ (h' ++ [some c], o') = (h, o) := by
      intro c e'
      simp only [Prod.mk.injEq] at e'
      have := congrArg List.length e'.1
      have h2 := congrArg List.length e'.2
      simp at this
      omega
    have hown : ¬ ∃ c ∈ p.applicable s, (h', o') = (h ++ [some c], o) := by
      rintro ⟨c, _, e'⟩
      simp only [Prod.mk.injEq] at e'
      have := congrArg List.length e'.1
      have h2 := congrArg List.length e'.2
      simp at this
      omega
    rw [get?_expand] at hg
    by_cases e : (h', o') = (h, o)
    · rw [if_pos e] at hg
      cases hg
      have hz : ∀ v ∈ (p.actions.map (fun a => visitsOf ((p.children s h o t).set (h, o) ⟨1, x⟩) (h' ++ [some a], o'))),
          v = 0 := by
        intro v hv
        obtain ⟨a, _, rfl⟩ := List.mem_map.mp hv
        unfold visitsOf
        rw [get?_expand, if_neg (hkid a)]
        split
        · simp
        · cases hg : t.get? (h' ++ [some a], o') with
          | none => simp
          | some nd =>
            obtain ⟨nd', hnd'⟩ := hI.parent _ _ _ _ hl' hg
            rw [e, hn] at hnd'
            simp at hnd'
      rw [List.sum_eq_zero hz]
      rfl
    · rw [if_neg e, if_neg hown] at hg
      rw [hI.visits _ _ _ hl' hg]
      congr 2
      apply List.map_congr_left
      intro a _
      have n2 : ¬ ∃ c ∈ p.applicable s, (h' ++ [some a], o') = (h ++ [some c], o) := by
        rintro ⟨c, _, e'⟩
        simp only [Prod.mk.injEq] at e'
        have := (List.append_inj' e'.1 rfl).1
        exact e (by rw [this, e'.2])
      unfold visitsOf
      rw [get?_expand, if_neg (hkid a), if_neg n2]
  · intro h' o' nd hl' hg
    rw [get?_expand] at hg
    by_cases e : (h', o') = (h, o)
    · exfalso
      simp only [Prod.mk.injEq] at e
      have := congrArg List.length e.1
      have h2 := congrArg List.length e.2
      omega
    · rw [if_neg e] at hg
      split at hg
      · cases hg
        exact ⟨[], by simp, by simp, by simp, by simp⟩
      · exact hI.mean _ _ _ hl' hg

/-- Adding one at one element of a list without repetition. -/
theorem sum_bump {l : List Act} (hn : l.Nodup) {a : Act} (ha : a ∈ l) (f g : Act → Nat)
    (h1 : g a = f a + 1) (h2 : ∀ c, c ≠ a → g c = f c) : (l.map g).sum = (l.map f).sum + 1 := by
  induction l with
  | nil => simp at ha
  | cons c l ih =>
    obtain ⟨hc, hn⟩ := List.nodup_cons.mp hn
    simp only [List.map_cons, List.sum_cons]
    rcases List.mem_cons.mp ha with rfl | ha
    · have : l.map g = l.map f := by
        apply List.map_congr_left
        intro d hd
        exact h2 d (fun e => hc (e ▸ hd))
      rw [this, h1]
      omega
    · rw [ih hn ha, h2 c (fun e => hc (e ▸ ha))]
      omega

theorem get?_record (t : Dict (Key Act Obs) Node) (h : List (Option Act)) (o : List Obs) (a : Act) (n1 n2 : Node)
    (key : Key Act Obs) :
    ((t.set (h, o) n1).set (h ++ [some a], o) n2).get? key =
      if key = (h ++ [some a], o) then some n2 else if key = (h, o) then some n1 else t.get? key := by
  rw [Dict.get?_set, Dict.get?_set]

theorem Mean.add {P : Rat → Prop} {nd : Node} (hm : Mean P nd) {x : Rat} (hx : P x) :
    Mean P ⟨nd.visits + 1, (nd.value * nd.visits + x) / (nd.visits + 1)⟩ := by
  obtain ⟨l, h1, h2, _, h4⟩ := hm
  refine ⟨x :: l, by simp [h1], ?_, by simp, ?_⟩
  · have : ((nd.visits : Rat) + 1) ≠ 0 := by positivity
    push_cast
    rw [List.sum_cons, ← h2]
    field_simp
    ring
  · intro y hy
    rcases List.mem_cons.mp hy with rfl | hy
    · exact hx
    · exact h4 y hy

theorem Inv.record {p : Problem σ Act Obs} {P : Rat → Prop} {t : Dict (Key Act Obs) Node} (hI : Inv p P t)
    (hnd : p.actions.Nodup) {h : List (Option Act)} {o : List Obs} {a : Act} (ha : a ∈ p.actions) {x : Rat} (hx : P x)
    (hl : h.length = o.length) {this succ : Node} (e1 : t.get? (h, o) = some this)
    (e2 : t.get? (h ++ [some a], o) = some succ) :
    Inv p P ((t.set (h, o) ⟨this.visits + 1, this.value⟩).set (h ++ [some a], o)
      ⟨succ.visits + 1, (succ.value * succ.visits + x) / (succ.visits + 1)⟩) := by
  have hself : ¬ (h, o) = (h ++ [some a], o) := by
    intro e
    simp at e
  have hkid : ∀ h' o' c, h'.length = o'.length → ¬ ((h' ++ [some c], o') : Key Act Obs) = (h, o) := by
    intro h' o' c hl' e'
    simp only [Prod.mk.injEq] at e'
    have := congrArg List.length e'.1
    have h2 := congrArg List.length e'.2
    simp at this
    omega
  have hown : ∀ h' o', h'.length = o'.length → ¬ ((h', o') : Key Act Obs) = (h ++ [some a], o) := by
    intro h' o' hl' e'
    simp only [Prod.mk.injEq] at e'
    have := congrArg List.length e'.1
    have h2 := congrArg List.length e'.2
    simp at this
    omega
  constructor
  · intro h' o' c nd hl' hg
    rw [get?_record] at hg ⊢
    rw [if_neg (hown _ _ hl')]
    by_cases e : (h', o') = (h, o)
    · exact ⟨_, by rw [if_pos e]⟩
    · rw [if_neg e]
      by_cases e3 : (h' ++ [some c], o') = (h ++ [some a], o)
      · exfalso
        simp only [Prod.mk.injEq] at e3
        exact e (by rw [(List.append_inj' e3.1 rfl).1, e3.2])
      · rw [if_neg e3, if_neg (hkid _ _ _ hl')] at hg
        exact hI.parent _ _ _ _ hl' hg
  · intro h' o' nd hl' hg
    rw [get?_record, if_neg (hown _ _ hl')] at hg
    by_cases e : (h', o') = (h, o)
    · rw [if_pos e] at hg
      cases hg
      simp only [Prod.mk.injEq] at e
      obtain ⟨rfl, rfl⟩ := e
      have key := sum_bump hnd ha (fun c => visitsOf t (h' ++ [some c], o'))
        (fun c => visitsOf ((t.set (h', o') ⟨this.visits + 1, this.value⟩).set (h' ++ [some a], o')
          ⟨succ.visits + 1, (succ.value * succ.visits + x) / (succ.visits + 1)⟩) (h' ++ [some c], o')) ?_ ?_
      · rw [key]
        show this.visits + 1 = _
        rw [hI.visits _ _ _ hl' e1]
        omega
      · unfold visitsOf
        rw [get?_record, if_pos rfl, e2]
        simp
      · intro c hc
        have : ¬ ((h' ++ [some c], o') : Key Act Obs) = (h' ++ [some a], o') := by
          intro e
          simp at e
          exact hc e
        unfold visitsOf
        rw [get?_record, if_neg this, if_neg (hkid _ _ _ hl')]
    · rw [if_neg e] at hg
      rw [hI.visits _ _ _ hl' hg]
      congr 2
      apply List.map_congr_left
      intro c _
      have : ¬ ((h' ++ [some c], o') : Key Act Obs) = (h ++ [some a], o) := by
        intro e3
        simp only [Prod.mk.injEq] at e3
        exact e (by rw [(List.append_inj' e3.1 rfl).1, e3.2])
      unfold visitsOf
      rw [get?_record, if_neg this, if_neg (hkid _ _ _ hl')]
  · intro h' o' nd hl' hg
    rw [get?_record] at hg
    by_cases e : (h', o') = (h ++ [some a], o)
    · rw [if_pos e] at hg
      cases hg
      simp only [Prod.mk.injEq] at e
      obtain ⟨rfl, rfl⟩ := e
      exact (hI.mean _ _ _ hl' e2).add hx
    · rw [if_neg e] at hg
      by_cases e3 : (h', o') = (h, o)
      · exfalso
        simp only [Prod.mk.injEq] at e3
        have := congrArg List.length e3.1
        have h2 := congrArg List.length e3.2
        omega
      · rw [if_neg e3] at hg
        exact hI.mean _ _ _ hl' hg

/-- What one search leaves behind. -/
structure After (p : Problem σ Act Obs) (P : Rat → Prop) (left : Nat) (h : List (Option Act)) (o : List Obs)
    (t : Dict (Key Act Obs) Node) (x : Rat) (t' : Dict (Key Act Obs) Node) : Prop where
  inv : Inv p P t'
  cost : P x
  frame : ∀ key : Key Act Obs, key.2.length < o.length → t'.get? key = t.get? key
  mono : ∀ key, (t.get? key).isSome → (t'.get? key).isSome
  visits : 0 < left → visitsOf t' (h, o) = visitsOf t (h, o) + 1

theorem record_after {p : Problem σ Act Obs} {P : Rat → Prop} {t : Dict (Key Act Obs) Node}
    (hnd : p.actions.Nodup) {left : Nat} {h : List (Option Act)} {o : List Obs} {a : Act} (ha : a ∈ p.actions)
    {x : Rat} (hx : P x) (hl : h.length = o.length) {st' : St Act Obs} (hI : Inv p P st'.tree)
    (hf : ∀ key : Key Act Obs, key.2.length ≤ o.length → st'.tree.get? key = t.get? key)
    (hm : ∀ key, (t.get? key).isSome → (st'.tree.get? key).isSome)
    (e1 : (t.get? (h, o)).isSome) (e2 : (t.get? (h ++ [some a], o)).isSome) :
    ∃ r, record h o a x st' = .ok r ∧ r.1 = x ∧ After p P left h o t x r.2.tree := by
  obtain ⟨this, ht⟩ := Option.isSome_iff_exists.mp e1
  obtain ⟨succ, hs⟩ := Option.isSome_iff_exists.mp e2
  have ht' := (hf (h, o) (le_refl _)).trans ht
  have hs' := (hf (h ++ [some a], o) (le_refl _)).trans hs
  refine ⟨(x, ⟨(st'.tree.set (h, o) ⟨this.visits + 1, this.value⟩).set (h ++ [some a], o)
    ⟨succ.visits + 1, (succ.value * succ.visits + x) / (succ.visits + 1)⟩, st'.draw⟩),
    by simp only [Pomcp.record, ht', hs'], rfl, ?_⟩
  constructor
  · exact hI.record hnd ha hx hl ht' hs'
  · exact hx
  · intro key hk
    show Dict.get? _ _ = _
    rw [get?_record]
    have n1 : ¬ key = (h ++ [some a], o) := by rintro rfl; exact absurd hk (lt_irrefl _)
    have n2 : ¬ key = (h, o) := by rintro rfl; exact absurd hk (lt_irrefl _)
    rw [if_neg n1, if_neg n2]
    exact hf key (le_of_lt hk)
  · intro key hk
    show (Dict.get? _ _).isSome
    rw [get?_record]
    split
    · rfl
    · split
      · rfl
      · exact hm key hk
  · intro _
    have : ¬ ((h, o) : Key Act Obs) = (h ++ [some a], o) := by
      intro e
      simp at e
    show visitsOf (Dict.set _ _ _) _ = _
    unfold visitsOf
    rw [get?_record, if_neg this, if_pos rfl, ht]
    simp

theorem search_after {p : Problem σ Act Obs} {P : Rat → Prop} (hP : Costs p P) (hnd : p.actions.Nodup) (left : Nat)
    {s : σ} {h : List (Option Act)} {o : List Obs} {st : St Act Obs} (hI : Inv p P st.tree) {r : Rat × St Act Obs}
    (e : p.search left s h o st = .ok r) : After p P left h o st.tree r.1 r.2.tree := by
  induction left generalizing s h o st r with
  | zero =>
    rw [Problem.search] at e
    by_cases hl : h.length = o.length
    · simp [hl] at e
      subst e
      exact ⟨hI, hP.top, fun _ _ => rfl, fun _ hk => hk, fun hk => absurd hk (lt_irrefl _)⟩
    · simp [hl] at e
  | succ left ih =>
    rw [Problem.search] at e
    by_cases hl : h.length = o.length
    swap
    · simp [hl] at e
    simp only [hl, ne_eq, not_true_eq_false, if_false] at e
    cases hg : st.tree.get? (h, o) with
    | none =>
      rw [hg] at e
      simp only [Except.ok.injEq] at e
      subst e
      constructor
      · exact hI.expand hl hg
      · exact rollout_costs hP _ _ _
      · intro key hk
        show Dict.get? _ _ = _
        rw [get?_expand]
        have n1 : ¬ key = (h, o) := by rintro rfl; exact absurd hk (lt_irrefl _)
        have n2 : ¬ ∃ a ∈ p.applicable s, key = (h ++ [some a], o) := by
          rintro ⟨a, _, rfl⟩; exact absurd hk (lt_irrefl _)
        rw [if_neg n1, if_neg n2]
      · intro key hk
        show (Dict.get? _ _).isSome
        rw [get?_expand]
        split
        · rfl
        · split
          · rfl
          · exact hk
      · intro _
        show visitsOf (Dict.set _ _ _) _ = _
        unfold visitsOf
        rw [get?_expand, if_pos rfl, hg]
        simp
    | some this =>
      rw [hg] at e
      simp only at e
      cases hb : p.best st.tree h o (p.uct this.visits) with
      | none => rw [hb] at e; simp at e
      | some a =>
        rw [hb] at e
        simp only at e
        obtain ⟨ha, nd, hnd', -, -⟩ := best_some hb
        split at e
        · rename_i hgoal
          obtain ⟨r', e', hx, hA⟩ := record_after (p := p) (P := P) (t := st.tree) hnd (left := left + 1)
            (h := h) (o := o) ha (hP.stop _ s a (p.next st.draw s (some a)) hgoal) hl
            (st' := ⟨st.tree, st.draw + 2⟩) hI (fun _ _ => rfl) (fun _ hk => hk) (by simp [hg]) (by simp [hnd'])
          rw [e'] at e
          cases e
          rw [hx]
          exact hA
        · cases hs : p.search left (p.next st.draw s (some a)) (h ++ [some a])
              (o ++ [p.observe (st.draw + 1) s (some a)]) ⟨st.tree, st.draw + 2⟩ with
          | error er => rw [hs] at e; simp at e
          | ok q =>
            rw [hs] at e
            simp only at e
            have hA := ih (st := ⟨st.tree, st.draw + 2⟩) hI hs
            obtain ⟨r', e', hx, hA'⟩ := record_after (p := p) (P := P) (t := st.tree) hnd (left := left + 1)
              (h := h) (o := o) ha (hP.step s a (p.next st.draw s (some a)) q.1 hA.cost) hl
              (st' := q.2) hA.inv (fun key hk => hA.frame key (by simp; omega)) hA.mono (by simp [hg]) (by simp [hnd'])
            rw [e'] at e
            cases e
            rw [hx]
            exact hA'

theorem iterate_after {p : Problem σ Act Obs} {P : Rat → Prop} (hP : Costs p P) (hnd : p.actions.Nodup)
    {belief : List σ} {h : List (Option Act)} {o : List Obs} {m : Nat} {st st' : St Act Obs} (hI : Inv p P st.tree)
    (e : p.iterate belief h o m st = .ok st') :
    Inv p P st'.tree ∧ visitsOf st'.tree (h, o) = visitsOf st.tree (h, o) + m := by
  induction m generalizing st with
  | zero =>
    simp only [Problem.iterate, Except.ok.injEq] at e
    subst e
    exact ⟨hI, rfl⟩
  | succ m ih =>
    simp only [Problem.iterate] at e
    obtain ⟨s, _, e⟩ := bind_eq_ok.mp e
    obtain ⟨r, hr, e⟩ := bind_eq_ok.mp e
    have hA := search_after hP hnd _ (st := ⟨st.tree, st.draw + 1⟩) hI hr
    obtain ⟨h1, h2⟩ := ih hA.inv e
    refine ⟨h1, ?_⟩
    rw [h2, hA.visits (by omega)]
    show visitsOf st.tree (h, o) + 1 + m = _
    omega

theorem mem_le_sum {l : List Nat} {v : Nat} (h : v ∈ l) : v ≤ l.sum := by
  induction l with
  | nil => simp at h
  | cons x l ih =>
    rw [List.sum_cons]
    rcases List.mem_cons.mp h with rfl | h
    · omega
    · have := ih h
      omega

/-- Every node has a child among the actions of the domain. -/
def Kids (p : Problem σ Act Obs) (t : Dict (Key Act Obs) Node) : Prop :=
  ∀ h o, h.length = o.length → (t.get? (h, o)).isSome → ∃ a ∈ p.actions, (t.get? (h ++ [some a], o)).isSome

theorem Mean.le {P : Rat → Prop} {nd : Node} (hm : Mean P nd) {c : Rat} (hP : ∀ x, P x → x ≤ c) (hc : 0 ≤ c) :
    nd.value ≤ c := by
  obtain ⟨l, h1, h2, h3, h4⟩ := hm
  by_cases hz : nd.visits = 0
  · rw [h3 hz]; exact hc
  · have hs : ∀ l : List Rat, (∀ x ∈ l, P x) → l.sum ≤ l.length * c := by
      intro l hl
      induction l with
      | nil => simp
      | cons x l ih =>
        simp only [List.sum_cons, List.length_cons]
        have := hP x (hl x (by simp))
        have := ih (fun y hy => hl y (by simp [hy]))
        push_cast
        linarith
    have h5 := hs l h4
    rw [← h2, h1] at h5
    have hpos : (0 : Rat) < nd.visits := by
      have : 0 < nd.visits := Nat.pos_of_ne_zero hz
      exact_mod_cast this
    rw [mul_comm] at h5
    exact le_of_mul_le_mul_left h5 hpos

theorem Mean.ge {P : Rat → Prop} {nd : Node} (hm : Mean P nd) {c : Rat} (hP : ∀ x, P x → c ≤ x)
    (hz : nd.visits ≠ 0) : c ≤ nd.value := by
  obtain ⟨l, h1, h2, h3, h4⟩ := hm
  have hs : ∀ l : List Rat, (∀ x ∈ l, P x) → l.length * c ≤ l.sum := by
    intro l hl
    induction l with
    | nil => simp
    | cons x l ih =>
      simp only [List.sum_cons, List.length_cons]
      have := hP x (hl x (by simp))
      have := ih (fun y hy => hl y (by simp [hy]))
      push_cast
      linarith
  have h5 := hs l h4
  rw [← h2, h1] at h5
  have hpos : (0 : Rat) < nd.visits := by
    have : 0 < nd.visits := Nat.pos_of_ne_zero hz
    exact_mod_cast this
  rw [mul_comm nd.value] at h5
  exact le_of_mul_le_mul_left h5 hpos

theorem vlv_nonneg (p : Problem σ Act Obs) : 0 ≤ p.vlv := by
  unfold Problem.vlv
  positivity

/-- What is needed for the search never to raise. -/
structure Fine (p : Problem σ Act Obs) (P : Rat → Prop) : Prop where
  costs : Costs p P
  nodup : p.actions.Nodup
  depth : 0 < p.maxDepth
  bonus : ∀ n m, 2 ≤ n → 1 ≤ m → 0 < p.bonus n m
  top : ∀ x, P x → x ≤ p.vlv
  able : ∀ s, ∃ a ∈ p.applicable s, a ∈ p.actions

theorem Fine.best {p : Problem σ Act Obs} {P : Rat → Prop} (hF : Fine p P) {t : Dict (Key Act Obs) Node}
    (hI : Inv p P t) (hK : Kids p t) {h : List (Option Act)} {o : List Obs} (hl : h.length = o.length) {this : Node}
    (hg : t.get? (h, o) = some this) : ∃ a, p.best t h o (p.uct this.visits) = some a := by
  cases hb : p.best t h o (p.uct this.visits) with
  | some a => exact ⟨a, rfl⟩
  | none =>
    exfalso
    obtain ⟨a, ha, hs⟩ := hK h o hl (by simp [hg])
    obtain ⟨nd, hnd⟩ := Option.isSome_iff_exists.mp hs
    have h1 := best_none hb a ha nd hnd
    have hd : p.maxDepth ≠ 0 := Nat.pos_iff_ne_zero.mp hF.depth
    have hdpos : (0 : Rat) < p.maxDepth := by exact_mod_cast hF.depth
    have hv : 0 < p.vlv := by unfold Problem.vlv; linarith
    unfold Problem.uct at h1
    rw [if_neg hd] at h1
    by_cases hz : nd.visits = 0
    · rw [if_pos hz] at h1
      linarith
    · rw [if_neg hz] at h1
      have h2 := (hI.mean (h ++ [some a]) o nd (by simp [hl]) hnd).le hF.top (vlv_nonneg p)
      have h3 := hI.visits h o this hl hg
      have h4 : visitsOf t (h ++ [some a], o) ≤ (p.actions.map (fun a => visitsOf t (h ++ [some a], o))).sum :=
        mem_le_sum (List.mem_map.mpr ⟨a, ha, rfl⟩)
      have h5 : visitsOf t (h ++ [some a], o) = nd.visits := by simp [visitsOf, hnd]
      have h6 := hF.bonus this.visits nd.visits (by omega) (by omega)
      have := mul_pos hdpos h6
      linarith

theorem Kids.expand {p : Problem σ Act Obs} {t : Dict (Key Act Obs) Node} (hK : Kids p t) {s : σ}
    (hs : ∃ a ∈ p.applicable s, a ∈ p.actions) {h : List (Option Act)} {o : List Obs} (hl : h.length = o.length)
    {x : Rat} : Kids p ((p.children s h o t).set (h, o) ⟨1, x⟩) := by
  intro h' o' hl' hsome
  by_cases e : (h', o') = (h, o)
  · simp only [Prod.mk.injEq] at e
    obtain ⟨rfl, rfl⟩ := e
    obtain ⟨a, ha, ha'⟩ := hs
    refine ⟨a, ha', ?_⟩
    rw [get?_expand]
    split
    · rfl
    · rw [if_pos ⟨a, ha, rfl⟩]; rfl
  · have hown : ¬ ∃ c ∈ p.applicable s, (h', o') = (h ++ [some c], o) := by
      rintro ⟨c, _, e'⟩
      simp only [Prod.mk.injEq] at e'
      have := congrArg List.length e'.1
      have h2 := congrArg List.length e'.2
      simp at this
      omega
    rw [get?_expand, if_neg e, if_neg hown] at hsome
    obtain ⟨a, ha, h1⟩ := hK h' o' hl' hsome
    refine ⟨a, ha, ?_⟩
    rw [get?_expand]
    split
    · rfl
    · split
      · rfl
      · exact h1

theorem Kids.record {p : Problem σ Act Obs} {h : List (Option Act)} {o : List Obs} (hl : h.length = o.length)
    {a : Act} {x : Rat} {st' : St Act Obs} (hK : Kids p st'.tree) {r : Rat × St Act Obs}
    (e : record h o a x st' = .ok r) : Kids p r.2.tree := by
  unfold Pomcp.record at e
  cases h1 : st'.tree.get? (h, o) with
  | none => rw [h1] at e; simp at e
  | some this =>
    cases h2 : st'.tree.get? (h ++ [some a], o) with
    | none => rw [h1, h2] at e; simp at e
    | some succ =>
      rw [h1, h2] at e
      simp only [Except.ok.injEq] at e
      subst e
      intro h' o' hl' hs
      have hown : ¬ ((h', o') : Key Act Obs) = (h ++ [some a], o) := by
        intro e'
        simp only [Prod.mk.injEq] at e'
        have := congrArg List.length e'.1
        have h2 := congrArg List.length e'.2
        simp at this
        omega
      have hs' : (st'.tree.get? (h', o')).isSome := by
        by_cases e : (h', o') = (h, o)
        · rw [e, h1]; rfl
        · simp only at hs
          rw [get?_record, if_neg hown, if_neg e] at hs
          exact hs
      obtain ⟨c, hc, h3⟩ := hK h' o' hl' hs'
      refine ⟨c, hc, ?_⟩
      show (Dict.get? _ _).isSome
      rw [get?_record]
      split
      · rfl
      · split
        · rfl
        · exact h3

theorem search_ok {p : Problem σ Act Obs} {P : Rat → Prop} (hF : Fine p P) (left : Nat) {s : σ}
    {h : List (Option Act)} {o : List Obs} (hl : h.length = o.length) {st : St Act Obs} (hI : Inv p P st.tree)
    (hK : Kids p st.tree) : ∃ r, p.search left s h o st = .ok r ∧ Kids p r.2.tree := by
  induction left generalizing s h o st with
  | zero =>
    rw [Problem.search]
    exact ⟨(p.vlv, st), by simp [hl], hK⟩
  | succ left ih =>
    rw [Problem.search]
    simp only [hl, ne_eq, not_true_eq_false, if_false]
    cases hg : st.tree.get? (h, o) with
    | none => exact ⟨_, rfl, hK.expand (hF.able s) hl⟩
    | some this =>
      obtain ⟨a, hb⟩ := hF.best hI hK hl hg
      simp only [hb]
      obtain ⟨ha, nd, hnd', -, -⟩ := best_some hb
      split
      · rename_i hgoal
        obtain ⟨r', e', -, -⟩ := record_after (p := p) (P := P) (t := st.tree) hF.nodup (left := left + 1)
          (h := h) (o := o) ha (hF.costs.stop _ s a (p.next st.draw s (some a)) hgoal) hl
          (st' := ⟨st.tree, st.draw + 2⟩) hI (fun _ _ => rfl) (fun _ hk => hk) (by simp [hg]) (by simp [hnd'])
        exact ⟨r', e', Kids.record hl (st' := ⟨st.tree, st.draw + 2⟩) hK e'⟩
      · obtain ⟨q, hq, hKq⟩ := ih (s := p.next st.draw s (some a)) (h := h ++ [some a])
          (o := o ++ [p.observe (st.draw + 1) s (some a)]) (by simp [hl]) (st := ⟨st.tree, st.draw + 2⟩) hI hK
        rw [hq]
        have hA := search_after hF.costs hF.nodup left (st := ⟨st.tree, st.draw + 2⟩) hI hq
        obtain ⟨r', e', -, -⟩ := record_after (p := p) (P := P) (t := st.tree) hF.nodup (left := left + 1)
          (h := h) (o := o) ha (hF.costs.step s a (p.next st.draw s (some a)) q.1 hA.cost) hl
          (st' := q.2) hA.inv (fun key hk => hA.frame key (by simp; omega)) hA.mono (by simp [hg]) (by simp [hnd'])
        exact ⟨r', e', Kids.record hl hKq e'⟩

theorem choice_ok {belief : List σ} (hne : belief ≠ []) {u : Rat} (h1 : u < 1) :
    ∃ s ∈ belief, choice belief u = .ok s := by
  have hpos : (0 : Rat) < belief.length := by
    have := List.length_pos_iff.mpr hne
    exact_mod_cast this
  have hlt : (u * belief.length).floor.toNat < belief.length := by
    have h2 : u * belief.length < belief.length := by nlinarith
    have h3 : (u * (belief.length : Rat)).floor < (belief.length : Int) := by
      have := Rat.floor_le (a := u * belief.length)
      have h4 : (((u * (belief.length : Rat)).floor : Int) : Rat) < ((belief.length : Int) : Rat) := by
        push_cast
        linarith
      exact_mod_cast h4
    have := List.length_pos_iff.mpr hne
    omega
  refine ⟨belief[(u * belief.length).floor.toNat], List.getElem_mem hlt, ?_⟩
  unfold choice
  rw [List.getElem?_eq_getElem hlt]

theorem iterate_ok {p : Problem σ Act Obs} {P : Rat → Prop} (hF : Fine p P)
    (hu : ∀ k, 0 ≤ p.unit k ∧ p.unit k < 1) {belief : List σ} (hne : belief ≠ []) {h : List (Option Act)}
    {o : List Obs} (hl : h.length = o.length) (m : Nat) {st : St Act Obs} (hI : Inv p P st.tree)
    (hK : Kids p st.tree) : ∃ st', p.iterate belief h o m st = .ok st' ∧ Kids p st'.tree := by
  induction m generalizing st with
  | zero => exact ⟨st, rfl, hK⟩
  | succ m ih =>
    obtain ⟨s, _, hs⟩ := choice_ok hne (hu st.draw).2
    obtain ⟨r, hr, hKr⟩ := search_ok hF (p.maxDepth + 1) (s := s) hl (st := ⟨st.tree, st.draw + 1⟩) hI hK
    have hA := search_after hF.costs hF.nodup _ (st := ⟨st.tree, st.draw + 1⟩) hI hr
    obtain ⟨st', e, hK'⟩ := ih hA.inv hKr
    refine ⟨st', ?_, hK'⟩
    simp only [Problem.iterate]
    rw [hs, bind_ok, hr, bind_ok]
    exact e

theorem weights_length (p : Problem σ Act Obs) (a : Option Act) (b : Obs) (l : List σ) (k : Nat) :
    (p.weights a b l k).length = l.length := by
  induction l generalizing k with
  | nil => rfl
  | cons s l ih => simp [Problem.weights, ih]

theorem mem_weights {p : Problem σ Act Obs} {a : Option Act} {b : Obs} {l : List σ} {k : Nat} {q : σ × Nat}
    (h : q ∈ p.weights a b l k) : ∃ i, ∃ hi : i < l.length, q = (l[i], p.freq (k + 100 * i) l[i] a b) := by
  induction l generalizing k with
  | nil => simp [Problem.weights] at h
  | cons s l ih =>
    rcases List.mem_cons.mp h with rfl | h
    · exact ⟨0, by simp, by simp⟩
    · obtain ⟨i, hi, e⟩ := ih h
      refine ⟨i + 1, by simp [hi], ?_⟩
      rw [e]
      simp only [List.getElem_cons_succ]
      congr 2
      omega

theorem weights_mem (p : Problem σ Act Obs) (a : Option Act) (b : Obs) (l : List σ) (k : Nat) {i : Nat}
    (hi : i < l.length) : (l[i], p.freq (k + 100 * i) l[i] a b) ∈ p.weights a b l k := by
  induction l generalizing k i with
  | nil => simp at hi
  | cons s l ih =>
    cases i with
    | zero => simp [Problem.weights]
    | succ i =>
      have := ih (k + 100) (i := i) (by simpa using hi)
      simp only [Problem.weights, List.getElem_cons_succ, List.mem_cons]
      right
      have e : k + 100 * (i + 1) = k + 100 + 100 * i := by omega
      rw [e]
      exact this

theorem draw_some (ws : List (σ × Nat)) {x : Rat} (h0 : 0 ≤ x) (h1 : x < ((ws.map (·.2)).sum : Nat)) :
    ∃ q ∈ ws, 0 < q.2 ∧ draw x ws = some q.1 := by
  induction ws generalizing x with
  | nil =>
    simp at h1
    linarith
  | cons q l ih =>
    obtain ⟨s, w⟩ := q
    cases l with
    | nil =>
      refine ⟨(s, w), by simp, ?_, rfl⟩
      simp at h1
      have : (0 : Rat) < w := lt_of_le_of_lt h0 h1
      exact_mod_cast this
    | cons q l =>
      simp only [draw]
      by_cases hx : x < w
      · rw [if_pos hx]
        refine ⟨(s, w), by simp, ?_, rfl⟩
        have : (0 : Rat) < w := lt_of_le_of_lt h0 hx
        exact_mod_cast this
      · rw [if_neg hx]
        obtain ⟨q', hq', h2, h3⟩ := ih (x := x - w) (by linarith [not_lt.mp hx]) (by
          simp only [List.map_cons, List.sum_cons] at h1 ⊢
          push_cast at h1 ⊢
          linarith)
        exact ⟨q', List.mem_cons_of_mem _ hq', h2, h3⟩

theorem freq_pos {p : Problem σ Act Obs} {k : Nat} {s : σ} {a : Option Act} {b : Obs} :
    0 < p.freq k s a b ↔ ∃ i < 100, p.observe (k + i) s a = b := by
  unfold Problem.freq
  rw [List.countP_pos_iff]
  simp

theorem filterMap_all {α β : Type} (l : List α) (f : α → Option β) (h : ∀ a ∈ l, (f a).isSome) :
    (l.filterMap f).length = l.length := by
  induction l with
  | nil => rfl
  | cons a l ih =>
    obtain ⟨b, hb⟩ := Option.isSome_iff_exists.mp (h a (by simp))
    rw [List.filterMap_cons_some hb]
    simp [ih (fun c hc => h c (by simp [hc]))]

theorem filterBelief_ok {p : Problem σ Act Obs} (hu : ∀ k, 0 ≤ p.unit k ∧ p.unit k < 1) {belief : List σ}
    {a : Option Act} {b : Obs} {k : Nat} {r : List σ × Nat} (e : p.filterBelief belief a b k = .ok r) :
    r.1.length = belief.length ∧ ∀ s ∈ r.1, s ∈ belief ∧ ∃ i, p.observe i s a = b := by
  unfold Problem.filterBelief at e
  simp only at e
  by_cases h1 : belief.length = 0
  · simp [h1] at e
  rw [if_neg h1] at e
  by_cases h2 : ((p.weights a b belief k).map (·.2)).sum = 0
  · simp [h2] at e
  rw [if_neg h2] at e
  simp only [Except.ok.injEq] at e
  subst e
  have hall : ∀ j, ∃ q ∈ p.weights a b belief k, 0 < q.2 ∧
      draw (p.unit (k + 100 * belief.length + j) * (((p.weights a b belief k).map (·.2)).sum : Nat))
        (p.weights a b belief k) = some q.1 := by
    intro j
    have hpos : (0 : Rat) < (((p.weights a b belief k).map (·.2)).sum : Nat) := by
      have := Nat.pos_of_ne_zero h2
      exact_mod_cast this
    obtain ⟨u0, u1⟩ := hu (k + 100 * belief.length + j)
    exact draw_some _ (by positivity) (by nlinarith)
  constructor
  · rw [filterMap_all]
    · simp
    · intro j _
      obtain ⟨q, _, _, h⟩ := hall j
      rw [h]; rfl
  · intro s hs
    obtain ⟨j, _, hj⟩ := List.mem_filterMap.mp hs
    obtain ⟨q, hq, hpos, h⟩ := hall j
    rw [h] at hj
    cases hj
    obtain ⟨i, hi, rfl⟩ := mem_weights hq
    obtain ⟨n, _, hn⟩ := freq_pos.mp hpos
    exact ⟨List.getElem_mem hi, _, hn⟩

theorem total_zero {p : Problem σ Act Obs} {belief : List σ} {a : Option Act} {b : Obs} {k : Nat} :
    ((p.weights a b belief k).map (·.2)).sum = 0 ↔
      ∀ i, ∀ hi : i < belief.length, ∀ j < 100, p.observe (k + 100 * i + j) belief[i] a ≠ b := by
  constructor
  · intro h i hi j hj e
    have h1 : p.freq (k + 100 * i) belief[i] a b ≤ ((p.weights a b belief k).map (·.2)).sum :=
      mem_le_sum (List.mem_map.mpr ⟨_, weights_mem p a b belief k hi, rfl⟩)
    have h2 := freq_pos.mpr ⟨j, hj, e⟩
    omega
  · intro h
    apply List.sum_eq_zero
    intro v hv
    obtain ⟨q, hq, rfl⟩ := List.mem_map.mp hv
    obtain ⟨i, hi, rfl⟩ := mem_weights hq
    by_contra hne
    obtain ⟨j, hj, e⟩ := freq_pos.mp (Nat.pos_of_ne_zero hne)
    exact h i hi j hj e

theorem updateBelief_length (p : Problem σ Act Obs) (a : Option Act) (l : List σ) (k : Nat) :
    (p.updateBelief a l k).length = l.length := by
  induction l generalizing k with
  | nil => rfl
  | cons s l ih => simp [Problem.updateBelief, ih]

theorem mem_updateBelief {p : Problem σ Act Obs} {a : Option Act} {l : List σ} {k : Nat} {s' : σ}
    (h : s' ∈ p.updateBelief a l k) : ∃ s ∈ l, ∃ i, s' = p.next i s a := by
  induction l generalizing k with
  | nil => simp [Problem.updateBelief] at h
  | cons s l ih =>
    rcases List.mem_cons.mp h with rfl | h
    · exact ⟨s, by simp, k, rfl⟩
    · obtain ⟨s1, h1, h2⟩ := ih h
      exact ⟨s1, by simp [h1], h2⟩

/-- The pieces of a successful call. -/
theorem nextAction_parts {p : Problem σ Act Obs} {b : Obs} {z : Solver σ Act Obs}
    {r : Option Act × Solver σ Act Obs} (e : p.nextAction b z = .ok r) :
    ∃ belief k st, p.filterBelief z.belief (z.acts.getLast?).join b z.st.draw = .ok (belief, k) ∧
      p.iterate (p.updateBelief (z.acts.getLast?).join belief k) z.acts (z.obs ++ [b]) p.maxIterations
        ⟨z.st.tree, k + (p.updateBelief (z.acts.getLast?).join belief k).length⟩ = .ok st ∧
      r = (p.best st.tree z.acts (z.obs ++ [b]) (·.value),
        ⟨p.updateBelief (z.acts.getLast?).join belief k,
          z.acts ++ [p.best st.tree z.acts (z.obs ++ [b]) (·.value)], z.obs ++ [b], st⟩) := by
  simp only [Problem.nextAction] at e
  obtain ⟨q, hq, e⟩ := bind_eq_ok.mp e
  obtain ⟨st, hst, e⟩ := bind_eq_ok.mp e
  refine ⟨q.1, q.2, st, hq, hst, ?_⟩
  simp only [pure, Except.pure, Except.ok.injEq] at e
  exact e.symm

/-- What holds of the solver between two calls. -/
structure Good (p : Problem σ Act Obs) (P : Rat → Prop) (z : Solver σ Act Obs) : Prop where
  inv : Inv p P z.st.tree
  len : z.acts.length = z.obs.length + 1

theorem Good.reset (p : Problem σ Act Obs) (P : Rat → Prop) (belief : List σ) (k : Nat) :
    Good p P (Solver.reset belief k) := ⟨Inv.empty p P, rfl⟩

theorem Good.next {p : Problem σ Act Obs} {P : Rat → Prop} (hP : Costs p P) (hnd : p.actions.Nodup)
    {z : Solver σ Act Obs} (hz : Good p P z) {b : Obs} {r : Option Act × Solver σ Act Obs}
    (e : p.nextAction b z = .ok r) : Good p P r.2 := by
  obtain ⟨belief, k, st, _, h2, rfl⟩ := nextAction_parts e
  have h3 := (fun hI => iterate_after hP hnd hI h2) hz.inv
  exact ⟨h3.1, by simp [hz.len]⟩

theorem Good.run {p : Problem σ Act Obs} {P : Rat → Prop} (hP : Costs p P) (hnd : p.actions.Nodup)
    {z z' : Solver σ Act Obs} (hz : Good p P z) {bs : List Obs} (e : p.run bs z = .ok z') : Good p P z' := by
  induction bs generalizing z with
  | nil =>
    simp only [Problem.run, Except.ok.injEq] at e
    exact e ▸ hz
  | cons b bs ih =>
    simp only [Problem.run] at e
    obtain ⟨r, hr, e⟩ := bind_eq_ok.mp e
    exact ih (hz.next hP hnd hr) e

theorem nextAction_ok {p : Problem σ Act Obs} {P : Rat → Prop} (hF : Fine p P)
    (hu : ∀ k, 0 ≤ p.unit k ∧ p.unit k < 1) {z : Solver σ Act Obs} (hz : Good p P z) (hK : Kids p z.st.tree) (b : Obs)
    {i : Nat} (hi : i < z.belief.length) {j : Nat} (hj : j < 100)
    (ho : p.observe (z.st.draw + 100 * i + j) z.belief[i] (z.acts.getLast?).join = b) :
    ∃ r, p.nextAction b z = .ok r ∧ Kids p r.2.st.tree := by
  have hne : z.belief.length ≠ 0 := by omega
  have ht : ¬ ((p.weights (z.acts.getLast?).join b z.belief z.st.draw).map (·.2)).sum = 0 :=
    fun h => total_zero.mp h i hi j hj ho
  obtain ⟨f, hf⟩ : ∃ f, p.filterBelief z.belief (z.acts.getLast?).join b z.st.draw = .ok f := by
    unfold Problem.filterBelief
    simp only
    rw [if_neg hne, if_neg ht]
    exact ⟨_, rfl⟩
  have hlen := (filterBelief_ok hu hf).1
  have hne' : p.updateBelief (z.acts.getLast?).join f.1 f.2 ≠ [] := by
    intro h
    have := updateBelief_length p (z.acts.getLast?).join f.1 f.2
    rw [h, hlen] at this
    simp at this
    exact hne this.symm
  obtain ⟨st', hs, hK'⟩ := iterate_ok hF hu hne' (h := z.acts) (o := z.obs ++ [b]) (by simp [hz.len]) p.maxIterations
    (st := St.mk z.st.tree (f.2 + (p.updateBelief (z.acts.getLast?).join f.1 f.2).length)) hz.inv hK
  refine ⟨(p.best st'.tree z.acts (z.obs ++ [b]) (·.value),
    ⟨p.updateBelief (z.acts.getLast?).join f.1 f.2,
      z.acts ++ [p.best st'.tree z.acts (z.obs ++ [b]) (·.value)], z.obs ++ [b], st'⟩), ?_, hK'⟩
  simp only [Problem.nextAction]
  rw [hf, bind_ok, hs, bind_ok]
  rfl

theorem iterate_kids {p : Problem σ Act Obs} {P : Rat → Prop} (hF : Fine p P)
    {belief : List σ} {h : List (Option Act)}
    {o : List Obs} (hl : h.length = o.length) {m : Nat} {st st' : St Act Obs} (hI : Inv p P st.tree)
    (hK : Kids p st.tree) (e : p.iterate belief h o m st = .ok st') : Kids p st'.tree := by
  induction m generalizing st with
  | zero =>
    simp only [Problem.iterate, Except.ok.injEq] at e
    exact e ▸ hK
  | succ m ih =>
    simp only [Problem.iterate] at e
    obtain ⟨s, _, e⟩ := bind_eq_ok.mp e
    obtain ⟨r, hr, e⟩ := bind_eq_ok.mp e
    obtain ⟨r', hr', hKr⟩ := search_ok hF (p.maxDepth + 1) (s := s) hl (st := ⟨st.tree, st.draw + 1⟩) hI hK
    rw [hr] at hr'
    cases hr'
    exact ih (search_after hF.costs hF.nodup _ (st := ⟨st.tree, st.draw + 1⟩) hI hr).inv hKr e

theorem run_kids {p : Problem σ Act Obs} {P : Rat → Prop} (hF : Fine p P) {bs : List Obs} {z z' : Solver σ Act Obs}
    (hz : Good p P z) (hK : Kids p z.st.tree) (e : p.run bs z = .ok z') : Kids p z'.st.tree := by
  induction bs generalizing z with
  | nil =>
    simp only [Problem.run, Except.ok.injEq] at e
    exact e ▸ hK
  | cons b bs ih =>
    simp only [Problem.run] at e
    obtain ⟨r, hr, e⟩ := bind_eq_ok.mp e
    refine ih (hz.next hF.costs hF.nodup hr) ?_ e
    obtain ⟨belief, k, st, _, h2, rfl⟩ := nextAction_parts hr
    exact (fun hI hK => iterate_kids hF (by simp [hz.len]) hI hK h2) hz.inv hK

end Verif.Pomcp
