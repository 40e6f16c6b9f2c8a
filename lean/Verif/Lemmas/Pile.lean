import Verif.Model.Pile
import Mathlib.Data.List.Nodup
import Mathlib.Data.List.Perm.Subperm
import Mathlib.Data.List.Range
import Mathlib.Algebra.BigOperators.Group.List.Basic
import Mathlib.Algebra.Order.Ring.Int
import Mathlib.Tactic.Linarith

/-! Invariants of the model of rcpsp_pile.py. -/
namespace Verif.Pile
variable {p : Project}

/-- The entries of a schedule: activity, start and end. -/
abbrev Schedule := Dict Nat (Nat × Nat)

/-- What the activities running at `t` need of `r`. -/
def load (p : Project) (sched : Schedule) (r : String) (t : Nat) : Int :=
  ((sched.filter fun x => x.2.1 ≤ t ∧ t < x.2.2).map fun x => p.need x.1 r).sum

/-- What the activities started until `t` need of `r`. -/
def spent (p : Project) (sched : Schedule) (r : String) (t : Nat) : Int :=
  ((sched.filter fun x => x.2.1 ≤ t).map fun x => p.need x.1 r).sum

/-- Nothing comes before the source, which takes no time and needs nothing; predecessors are activities;
needs and capacities are not negative. -/
structure Project.Wf (p : Project) : Prop where
  count : 1 ≤ p.count
  source : p.pred 1 = []
  sourceDuration : p.duration 1 = 0
  sourceNeed : ∀ r, p.need 1 r = 0
  range : ∀ n, 1 ≤ n → n ≤ p.count → ∀ b ∈ p.pred n, 1 ≤ b ∧ b ≤ p.count
  nodup : ∀ n, (p.pred n).Nodup
  need : ∀ n r, 1 ≤ n → n ≤ p.count → 0 ≤ p.need n r
  capacity : ∀ r ∈ p.resources, 0 ≤ p.capacity r

/-- At `t` the activity `a` could not be started: a predecessor had not ended, or something was short. -/
def Blocked (p : Project) (sched : Schedule) (a t : Nat) : Prop :=
  (∃ b ∈ p.pred a, ∀ s e, (b, (s, e)) ∈ sched → t < e) ∨
  (∃ r ∈ p.resources, r ∉ p.nonRenewable ∧ p.capacity r < load p sched r t + p.need a r) ∨
  (∃ r ∈ p.resources, r ∈ p.nonRenewable ∧ p.capacity r < spent p sched r t + p.need a r)

def nodes (p : Project) : List Nat := List.range' 1 p.count

theorem mem_nodes {n : Nat} : n ∈ nodes p ↔ 1 ≤ n ∧ n ≤ p.count := by
  rw [nodes, List.mem_range'_1]; omega

/-- The activities of the heap. -/
def acts (q : List (Nat × Nat)) : List Nat := q.map (·.2)

theorem sum_le_of_subset {f : Nat → Int} (l₁ l₂ : List Nat) (h : l₁.Nodup) (hs : ∀ x ∈ l₁, x ∈ l₂) (hf : ∀ x ∈ l₂, 0 ≤ f x) :
    (l₁.map f).sum ≤ (l₂.map f).sum := by
  induction l₁ generalizing l₂ with
  | nil =>
    clear hs h
    induction l₂ with
    | nil => simp
    | cons y l ih =>
      have := ih fun x hx => hf x (List.mem_cons_of_mem _ hx)
      have h0 := hf y (by simp)
      simp only [List.map_nil, List.sum_nil, List.map_cons, List.sum_cons] at this ⊢
      omega
  | cons x l ih =>
    obtain ⟨hx, hl⟩ := List.nodup_cons.1 h
    have hx2 := hs x (by simp)
    have hp := List.perm_cons_erase hx2
    have h1 := (hp.map f).sum_eq
    have h2 := ih (l₂.erase x) hl (fun y hy => (List.mem_erase_of_ne (by rintro rfl; exact hx hy)).2 (hs y (List.mem_cons_of_mem _ hy)))
      (fun y hy => hf y (List.mem_of_mem_erase hy))
    simp only [List.map_cons, List.sum_cons] at h1 ⊢
    omega

theorem set_fresh {d : Schedule} {k : Nat} (v : Nat × Nat) (h : k ∉ d.keys) : d.set k v = d ++ [(k, v)] := by
  induction d with
  | nil => rfl
  | cons x d ih =>
    obtain ⟨k', v'⟩ := x
    simp only [Dict.keys, List.map_cons, List.mem_cons, not_or] at h
    rw [Dict.set, if_neg (fun e => h.1 e.symm), ih h.2]
    rfl

/-! ### The heap -/

theorem popMin_none {q : List (Nat × Nat)} (h : popMin q = none) : q = [] := by
  cases q with
  | nil => rfl
  | cons x l => simp [popMin] at h

theorem foldl_min (l : List (Nat × Nat)) (x : Nat × Nat) :
    let m := l.foldl (fun m y => if earlier y m then y else m) x
    (m = x ∨ m ∈ l) ∧ m.1 ≤ x.1 ∧ ∀ y ∈ l, m.1 ≤ y.1 := by
  induction l generalizing x with
  | nil => simp
  | cons y l ih =>
    intro m
    have hstep : (if earlier y x then y else x).1 ≤ x.1 ∧ (if earlier y x then y else x).1 ≤ y.1 ∧ ((if earlier y x then y else x) = x ∨ (if earlier y x then y else x) = y) := by
      split
      · rename_i h
        simp only [earlier, Bool.or_eq_true, decide_eq_true_eq, Bool.and_eq_true, beq_iff_eq] at h
        refine ⟨by omega, by omega, .inr rfl⟩
      · rename_i h
        simp only [earlier, Bool.or_eq_true, decide_eq_true_eq, Bool.and_eq_true, beq_iff_eq, not_or, not_and] at h
        refine ⟨by omega, by omega, .inl rfl⟩
    obtain ⟨h1, h2, h3⟩ := ih (if earlier y x then y else x)
    refine ⟨?_, le_trans h2 hstep.1, ?_⟩
    · rcases h1 with h1 | h1
      · rcases hstep.2.2 with h | h
        · exact .inl (h1.trans h)
        · exact .inr (by rw [show m = y from h1.trans h]; simp)
      · exact .inr (List.mem_cons_of_mem _ h1)
    · intro z hz
      rcases List.mem_cons.1 hz with rfl | hz
      · exact le_trans h2 hstep.2.1
      · exact h3 z hz

theorem popMin_some {q q' : List (Nat × Nat)} {m : Nat × Nat} (h : popMin q = some (m, q')) :
    q.Perm (m :: q') ∧ ∀ y ∈ q, m.1 ≤ y.1 := by
  cases q with
  | nil => cases h
  | cons x l =>
    simp only [popMin, Option.some.injEq, Prod.mk.injEq] at h
    obtain ⟨h1, rfl⟩ := h
    obtain ⟨m1, m2, m3⟩ := foldl_min l x
    rw [h1] at m1 m2 m3
    rw [h1]
    refine ⟨List.perm_cons_erase (by rcases m1 with rfl | h <;> simp [*]), fun y hy => ?_⟩
    rcases List.mem_cons.1 hy with rfl | hy
    · exact m2
    · exact m3 y hy

/-! ### What the activities wait for -/

/-- `D` tells which activities have ended, `K` lists those scheduled. -/
structure Wait (p : Project) (D : Nat → Bool) (K : List Nat) (st : St) : Prop where
  waiting : st.waiting = (nodes p).map fun n => (n, (p.pred n).filter fun b => !D b)
  avail : ∀ n, n ∈ st.avail ↔ n ∈ nodes p ∧ n ∉ K ∧ ∀ b ∈ p.pred n, D b = true
  nodup : st.avail.Nodup
  sched : ∀ n ∈ K, ∀ b ∈ p.pred n, D b = true

theorem foldl_add (l : List (Nat × List Nat)) (s : List Nat) (hs : s.Nodup) :
    (l.foldl (fun l e => add l e.1) s).Nodup ∧ ∀ n, n ∈ l.foldl (fun l e => add l e.1) s ↔ n ∈ s ∨ ∃ e ∈ l, e.1 = n := by
  induction l generalizing s with
  | nil => simp [hs]
  | cons x l ih =>
    have h1 : (add s x.1).Nodup := by
      rw [add]
      split
      · exact hs
      · rename_i h
        exact List.nodup_append.2 ⟨hs, by simp, by rintro a ha b hb rfl; rw [List.mem_singleton.1 hb] at ha; exact h ha⟩
    have h2 : ∀ n, n ∈ add s x.1 ↔ n ∈ s ∨ x.1 = n := by
      intro n
      rw [add]
      split
      · rename_i h
        constructor
        · exact .inl
        · rintro (h' | rfl)
          · exact h'
          · exact h
      · simp [eq_comm]
    obtain ⟨i1, i2⟩ := ih _ h1
    refine ⟨i1, fun n => ?_⟩
    rw [List.foldl_cons, i2, h2]
    simp only [List.mem_cons, exists_eq_or_imp]
    tauto

theorem release_wait (hwf : p.Wf) {D : Nat → Bool} {K : List Nat} {st : St} (h : Wait p D K st) {a : Nat} (ha : D a = false) :
    Wait p (fun b => D b || b == a) K (release a st) := by
  have her : ∀ n, ((p.pred n).filter fun b => !D b).erase a = (p.pred n).filter fun b => !(D b || b == a) := by
    intro n
    rw [((hwf.nodup n).filter _).erase_eq_filter, List.filter_filter]
    apply List.filter_congr
    intro b _
    by_cases hb : b = a <;> simp [hb, bne, Bool.and_comm]
  obtain ⟨f1, f2⟩ := foldl_add (st.waiting.filter fun e => a ∈ e.2 ∧ e.2.erase a = []) st.avail h.nodup
  refine ⟨?_, fun n => ?_, f1, fun n hn b hb => by simp [h.sched n hn b hb]⟩
  · rw [release]
    simp only
    rw [h.waiting, List.map_map]
    apply List.map_congr_left
    intro n _
    simp only [Function.comp, her]
  · rw [release]
    simp only
    rw [f2, h.avail]
    constructor
    · rintro (⟨h1, h2, h3⟩ | ⟨e, he, rfl⟩)
      · exact ⟨h1, h2, fun b hb => by simp [h3 b hb]⟩
      · rw [List.mem_filter, h.waiting] at he
        obtain ⟨he, hc⟩ := he
        obtain ⟨n, hn, rfl⟩ := List.mem_map.1 he
        simp only [decide_eq_true_eq, her] at hc
        refine ⟨hn, fun hK => ?_, fun b hb => ?_⟩
        · have := h.sched n hK a (List.mem_filter.1 hc.1).1
          rw [ha] at this; cases this
        · have := List.filter_eq_nil_iff.1 hc.2 b hb
          cases hD : D b <;> simp_all
    · rintro ⟨h1, h2, h3⟩
      by_cases hall : ∀ b ∈ p.pred n, D b = true
      · exact .inl ⟨h1, h2, hall⟩
      · right
        push Not at hall
        obtain ⟨b, hb, hD⟩ := hall
        have hba : b = a := by
          have := h3 b hb
          simp only [Bool.or_eq_true, beq_iff_eq] at this
          exact this.resolve_left hD
        subst hba
        refine ⟨(n, (p.pred n).filter fun b => !D b), ?_, rfl⟩
        rw [List.mem_filter, h.waiting]
        refine ⟨List.mem_map.2 ⟨n, h1, rfl⟩, ?_⟩
        simp only [decide_eq_true_eq, her]
        refine ⟨List.mem_filter.2 ⟨hb, by simp [ha]⟩, List.filter_eq_nil_iff.2 fun x hx => ?_⟩
        have := h3 x hx
        cases hD' : D x <;> simp_all

/-! ### The invariant -/

/-- What is used of `r`: by those in the heap, or for good. -/
def used (p : Project) (st : St) (r : String) : Int :=
  if r ∈ p.nonRenewable then (st.started.map fun a => p.need a r).sum else ((acts st.queue).map fun a => p.need a r).sum

structure Core (p : Project) (D : Nat → Bool) (st : St) : Prop where
  keys : st.sched.map (·.1) = 1 :: st.started
  nodup : (1 :: st.started).Nodup
  range : ∀ a ∈ st.started, 1 ≤ a ∧ a ≤ p.count
  entry : ∀ a s e, (a, (s, e)) ∈ st.sched → s ≤ st.time ∧ e = s + p.duration a
  heapNodup : (acts st.queue).Nodup
  heap : ∀ e a, (e, a) ∈ st.queue → a ∈ st.started ∧ st.time ≤ e ∧ ∃ s, (a, (s, e)) ∈ st.sched
  over : ∀ a s e, (a, (s, e)) ∈ st.sched → (e, a) ∈ st.queue ∨ e ≤ st.time
  ended : ∀ b, D b = true ↔ (b = 1 ∨ b ∈ st.started) ∧ b ∉ acts st.queue
  wait : Wait p D (1 :: st.started) st
  free : st.free = p.resources.map fun r => (r, p.capacity r - used p st r)
  room : ∀ r ∈ p.resources, used p st r ≤ p.capacity r
  prec : ∀ a s e, (a, (s, e)) ∈ st.sched → ∀ b ∈ p.pred a, ∃ s' e', (b, (s', e')) ∈ st.sched ∧ e' ≤ s
  loads : ∀ r ∈ p.resources, r ∉ p.nonRenewable → ∀ t, load p st.sched r t ≤ p.capacity r
  mono : st.sched.Pairwise fun x y => x.2.1 ≤ y.2.1
  order : ∀ l₁ a l₂, 1 :: st.started = l₁ ++ a :: l₂ → ∀ b ∈ p.pred a, b ∈ l₁

/-- Nobody waits for nothing. -/
structure Inv (p : Project) (D : Nat → Bool) (st : St) : Prop extends Core p D st where
  stuck : ∀ a, 1 ≤ a → a ≤ p.count → a ∉ (1 :: st.started) → ∀ t < st.time, Blocked p st.sched a t
  tight : ∀ a s e, (a, (s, e)) ∈ st.sched → ∀ t < s, Blocked p st.sched a t

theorem start_core (hwf : p.Wf) : Core p (fun b => b == 1) (start p) := by
  have hw : Wait p (fun b => false || b == 1) [1] (start p) := by
    refine release_wait hwf (D := fun _ => false) ⟨?_, fun n => ?_, ?_, ?_⟩ rfl
    · exact List.map_congr_left fun n _ => by simp
    · simp only [List.mem_filter, decide_eq_true_eq, nodes, List.mem_singleton]
      constructor
      · rintro ⟨h1, h2, h3⟩
        exact ⟨h1, h2, fun b hb => by rw [h3] at hb; cases hb⟩
      · rintro ⟨h1, h2, h3⟩
        refine ⟨h1, h2, List.eq_nil_iff_forall_not_mem.2 fun b hb => ?_⟩
        cases h3 b hb
    · exact List.Nodup.filter _ List.nodup_range'
    · intro n hn b hb
      rw [List.mem_singleton.1 hn, hwf.source] at hb
      cases hb
  have hsched : ∀ a s e, (a, (s, e)) ∈ (start p).sched → a = 1 ∧ s = 0 ∧ e = 0 := by
    intro a s e h
    simpa [start, release] using h
  have hu : ∀ r, used p (start p) r = 0 := by
    intro r
    simp [used, start, release, acts]
  refine ⟨rfl, ?_, ?_, ?_, ?_, ?_, ?_, ?_, ?_, ?_, ?_, ?_, ?_, ?_, ?_⟩
  · simp [start, release]
  · intro a ha; simp [start, release] at ha
  · intro a s e h
    obtain ⟨rfl, rfl, rfl⟩ := hsched a s e h
    simp [start, release, hwf.sourceDuration]
  · simp [start, release, acts]
  · intro e a h; simp [start, release] at h
  · intro a s e h
    obtain ⟨rfl, rfl, rfl⟩ := hsched a s e h
    exact .inr (Nat.zero_le _)
  · intro b; simp [start, release, acts]
  · exact (by simpa using hw : Wait p (fun b => b == 1) [1] (start p))
  · simp only [hu]
    simp [start, release]
  · intro r hr
    rw [hu]
    exact hwf.capacity r hr
  · intro a s e h b hb
    obtain ⟨rfl, rfl, rfl⟩ := hsched a s e h
    rw [hwf.source] at hb; cases hb
  · intro r hr _ t
    have : load p (start p).sched r t = 0 := by simp [load, start, release]
    rw [this]
    exact hwf.capacity r hr
  · simp [start, release]
  · intro l₁ a l₂ h b hb
    have : l₁ = [] ∧ a = 1 := by
      cases l₁ with
      | nil => exact ⟨rfl, by simpa [start, release] using (List.cons.inj h).1.symm⟩
      | cons x l => have := (List.cons.inj h).2; simp [start, release] at this
    rw [this.2, hwf.source] at hb
    cases hb

theorem start_inv (hwf : p.Wf) : Inv p (fun b => b == 1) (start p) where
  toCore := start_core hwf
  stuck := by intro a _ _ _ t ht; simp [start, release] at ht
  tight := by
    intro a s e h t ht
    have : a = 1 ∧ s = 0 ∧ e = 0 := by simpa [start, release] using h
    omega

variable {D : Nat → Bool} {st : St}

theorem Core.keysNodup (h : Core p D st) : (st.sched.map (·.1)).Nodup := h.keys ▸ h.nodup

theorem Core.mem (h : Core p D st) {a : Nat} : (a = 1 ∨ a ∈ st.started) ↔ ∃ s e, (a, (s, e)) ∈ st.sched := by
  have : a ∈ st.sched.map (·.1) ↔ (a = 1 ∨ a ∈ st.started) := by rw [h.keys, List.mem_cons]
  rw [← this, List.mem_map]
  constructor
  · rintro ⟨⟨a, s, e⟩, hx, rfl⟩; exact ⟨s, e, hx⟩
  · rintro ⟨s, e, hx⟩; exact ⟨_, hx, rfl⟩

theorem Core.unique (h : Core p D st) {a : Nat} {v v' : Nat × Nat} (h1 : (a, v) ∈ st.sched) (h2 : (a, v') ∈ st.sched) : v = v' := by
  have h1 := Dict.get?_of_mem h.keysNodup h1
  have h2 := Dict.get?_of_mem h.keysNodup h2
  rw [h1] at h2
  exact Option.some.inj h2

theorem Core.inRange (h : Core p D st) (hwf : p.Wf) {a : Nat} {v : Nat × Nat} (hm : (a, v) ∈ st.sched) : 1 ≤ a ∧ a ≤ p.count := by
  rcases h.mem.2 ⟨v.1, v.2, hm⟩ with rfl | ha
  · exact ⟨le_refl 1, hwf.count⟩
  · exact h.range a ha

/-- Who runs at the present or later is in the heap. -/
theorem Core.load_le (h : Core p D st) (hwf : p.Wf) (r : String) {t : Nat} (ht : st.time ≤ t) :
    load p st.sched r t ≤ ((acts st.queue).map fun a => p.need a r).sum := by
  have : load p st.sched r t = (((st.sched.filter fun x => x.2.1 ≤ t ∧ t < x.2.2).map (·.1)).map fun a => p.need a r).sum := by
    rw [load, List.map_map]; rfl
  rw [this]
  apply sum_le_of_subset
  · exact h.keysNodup.sublist (List.filter_sublist.map _)
  · intro a ha
    obtain ⟨⟨a, s, e⟩, hx, rfl⟩ := List.mem_map.1 ha
    rw [List.mem_filter] at hx
    obtain ⟨hx, hc⟩ := hx
    simp only [decide_eq_true_eq] at hc
    rcases h.over a s e hx with h' | h'
    · exact List.mem_map.2 ⟨_, h', rfl⟩
    · omega
  · intro a ha
    obtain ⟨⟨e, a⟩, hx, rfl⟩ := List.mem_map.1 ha
    obtain ⟨h1, h2⟩ := h.range a (h.heap e a hx).1
    exact hwf.need a r h1 h2

/-- While nobody in the heap ends, all of them run. -/
theorem Core.le_load (h : Core p D st) (hwf : p.Wf) (r : String) {t : Nat} (ht : st.time ≤ t) (hq : ∀ e a, (e, a) ∈ st.queue → t < e) :
    ((acts st.queue).map fun a => p.need a r).sum ≤ load p st.sched r t := by
  have : load p st.sched r t = (((st.sched.filter fun x => x.2.1 ≤ t ∧ t < x.2.2).map (·.1)).map fun a => p.need a r).sum := by
    rw [load, List.map_map]; rfl
  rw [this]
  apply sum_le_of_subset _ _ h.heapNodup
  · intro a ha
    obtain ⟨⟨e, a⟩, hx, rfl⟩ := List.mem_map.1 ha
    obtain ⟨_, _, s, hs⟩ := h.heap e a hx
    refine List.mem_map.2 ⟨(a, (s, e)), List.mem_filter.2 ⟨hs, ?_⟩, rfl⟩
    have := (h.entry a s e hs).1
    have := hq e a hx
    simp only [decide_eq_true_eq]
    omega
  · intro a ha
    obtain ⟨⟨a, s, e⟩, hx, rfl⟩ := List.mem_map.1 ha
    obtain ⟨h1, h2⟩ := h.inRange hwf (List.mem_filter.1 hx).1
    exact hwf.need a r h1 h2

theorem Core.spent_eq (h : Core p D st) (hwf : p.Wf) (r : String) {t : Nat} (ht : st.time ≤ t) :
    spent p st.sched r t = (st.started.map fun a => p.need a r).sum := by
  have h1 : st.sched.filter (fun x => decide (x.2.1 ≤ t)) = st.sched := by
    apply List.filter_eq_self.2
    rintro ⟨a, s, e⟩ hx
    have := (h.entry a s e hx).1
    simp only [decide_eq_true_eq]
    omega
  rw [spent, h1]
  have : (st.sched.map fun x => p.need x.1 r) = (st.sched.map (·.1)).map fun a => p.need a r := by rw [List.map_map]; rfl
  rw [this, h.keys]
  simp [hwf.sourceNeed]

theorem blocked_append {sched : Schedule} {a t x : Nat} {v : Nat × Nat} (hx : t < v.1) (hv : v.1 ≤ v.2) (h : Blocked p sched a t) :
    Blocked p (sched ++ [(x, v)]) a t := by
  rcases h with ⟨b, hb, h⟩ | ⟨r, hr, hn, h⟩ | ⟨r, hr, hn, h⟩
  · refine .inl ⟨b, hb, fun s e hm => ?_⟩
    rcases List.mem_append.1 hm with hm | hm
    · exact h s e hm
    · simp only [List.mem_singleton, Prod.mk.injEq] at hm
      obtain ⟨_, rfl⟩ := hm
      simp only at hx hv
      omega
  · refine .inr (.inl ⟨r, hr, hn, ?_⟩)
    rw [load, List.filter_append]
    have : ¬ v.1 ≤ t := by omega
    simpa [this, load] using h
  · refine .inr (.inr ⟨r, hr, hn, ?_⟩)
    rw [spent, List.filter_append]
    have : ¬ v.1 ≤ t := by omega
    simpa [this, spent] using h

theorem Core.fits_iff (h : Core p D st) (n : Nat) : fits p st n = true ↔ ∀ r ∈ p.resources, used p st r + p.need n r ≤ p.capacity r := by
  rw [fits, h.free]
  simp only [List.all_map, List.all_eq_true, Function.comp, decide_eq_true_eq]
  exact forall₂_congr fun r _ => by omega

/-- An available activity that fits is started. -/
theorem Core.begin (h : Core p D st) (hwf : p.Wf) {x : Nat} (hx : x ∈ st.avail) (hf : fits p st x = true) : Core p D (Pile.begin p st x) := by
  obtain ⟨x1, x2, x3⟩ := (h.wait.avail x).1 hx
  obtain ⟨r1, r2⟩ := mem_nodes.1 x1
  have hk : x ∉ Dict.keys st.sched := by
    show x ∉ st.sched.map (·.1)
    rw [h.keys]; exact x2
  have hs : (Pile.begin p st x).sched = st.sched ++ [(x, (st.time, st.time + p.duration x))] := set_fresh _ hk
  have hu : ∀ r, used p (Pile.begin p st x) r = used p st r + p.need x r := by
    intro r
    rw [used, used]
    split
    · simp [Pile.begin]
    · simp [Pile.begin, acts, Int.add_comm]
  have hf' := (h.fits_iff x).1 hf
  have x2' : x ≠ 1 ∧ x ∉ st.started := by simpa using x2
  have hq : x ∉ acts st.queue := by
    intro hm
    obtain ⟨⟨e, a⟩, hm', rfl⟩ := List.mem_map.1 hm
    exact x2'.2 (h.heap e a hm').1
  have hDx : D x = false := by
    cases hD : D x
    · rfl
    · exact absurd (List.mem_cons.2 ((h.ended x).1 hD).1) x2
  refine ⟨?_, ?_, ?_, ?_, ?_, ?_, ?_, ?_, ?_, ?_, ?_, ?_, ?_, ?_, ?_⟩
  · rw [hs, List.map_append, h.keys]; rfl
  · show (1 :: (st.started ++ [x])).Nodup
    rw [← List.cons_append]
    exact List.nodup_append.2 ⟨h.nodup, by simp, by rintro a ha b hb rfl; rw [List.mem_singleton.1 hb] at ha; exact x2 ha⟩
  · intro a ha
    rcases List.mem_append.1 ha with ha | ha
    · exact h.range a ha
    · rw [List.mem_singleton.1 ha]; exact ⟨r1, r2⟩
  · intro a s e hm
    rw [hs] at hm
    rcases List.mem_append.1 hm with hm | hm
    · exact h.entry a s e hm
    · simp only [List.mem_singleton, Prod.mk.injEq] at hm
      obtain ⟨rfl, rfl, rfl⟩ := hm
      exact ⟨le_refl _, rfl⟩
  · show (x :: acts st.queue).Nodup
    exact List.nodup_cons.2 ⟨hq, h.heapNodup⟩
  · intro e a hm
    rw [hs]
    rcases List.mem_cons.1 hm with hm | hm
    · obtain ⟨rfl, rfl⟩ := Prod.mk.inj hm
      exact ⟨List.mem_append.2 (.inr (by simp)), Nat.le_add_right _ _, st.time, by simp⟩
    · obtain ⟨a1, a2, s, a3⟩ := h.heap e a hm
      exact ⟨List.mem_append.2 (.inl a1), a2, s, List.mem_append.2 (.inl a3)⟩
  · intro a s e hm
    rw [hs] at hm
    rcases List.mem_append.1 hm with hm | hm
    · rcases h.over a s e hm with h' | h'
      · exact .inl (List.mem_cons_of_mem _ h')
      · exact .inr h'
    · simp only [List.mem_singleton, Prod.mk.injEq] at hm
      obtain ⟨rfl, rfl, rfl⟩ := hm
      exact .inl (List.mem_cons_self)
  · intro b
    rw [h.ended b]
    show _ ↔ (b = 1 ∨ b ∈ st.started ++ [x]) ∧ b ∉ x :: acts st.queue
    simp only [List.mem_append, List.mem_cons, not_or]
    constructor
    · rintro ⟨h1, h2⟩
      refine ⟨by tauto, ?_, h2⟩
      rintro rfl
      exact x2 (List.mem_cons.2 h1)
    · rintro ⟨h1, h2, h3⟩
      exact ⟨by tauto, h3⟩
  · refine ⟨h.wait.waiting, fun n => ?_, h.wait.nodup.erase _, ?_⟩
    · show n ∈ st.avail.erase x ↔ _ ∧ n ∉ 1 :: (st.started ++ [x]) ∧ _
      rw [h.wait.nodup.mem_erase_iff, h.wait.avail]
      simp only [List.mem_append, List.mem_cons, not_or]
      tauto
    · intro n hn b hb
      rcases List.mem_cons.1 hn with rfl | hn
      · rw [hwf.source] at hb; cases hb
      · rcases List.mem_append.1 hn with hn | hn
        · exact h.wait.sched n (List.mem_cons_of_mem _ hn) b hb
        · rw [List.mem_singleton.1 hn] at hb
          exact x3 b hb
  · show st.free.map _ = _
    rw [h.free, List.map_map]
    apply List.map_congr_left
    intro r _
    simp only [Function.comp, hu, Prod.mk.injEq, true_and]
    omega
  · intro r hr
    rw [hu]
    exact hf' r hr
  · intro a s e hm b hb
    rw [hs] at hm ⊢
    rcases List.mem_append.1 hm with hm | hm
    · obtain ⟨s', e', h1, h2⟩ := h.prec a s e hm b hb
      exact ⟨s', e', List.mem_append.2 (.inl h1), h2⟩
    · simp only [List.mem_singleton, Prod.mk.injEq] at hm
      obtain ⟨rfl, rfl, rfl⟩ := hm
      obtain ⟨h1, h2⟩ := (h.ended b).1 (x3 b hb)
      obtain ⟨s', e', h3⟩ := h.mem.1 h1
      refine ⟨s', e', List.mem_append.2 (.inl h3), ?_⟩
      rcases h.over b s' e' h3 with h' | h'
      · exact absurd (List.mem_map.2 ⟨_, h', rfl⟩) h2
      · exact h'
  · intro r hr hn t
    rw [hs, load, List.filter_append, List.map_append, List.sum_append]
    have h1 := h.loads r hr hn t
    have h2 := hf' r hr
    rw [used, if_neg hn] at h2
    by_cases ht : st.time ≤ t
    · have h3 := h.load_le hwf r ht
      have h4 := hwf.need x r r1 r2
      rw [load] at h3
      by_cases ht2 : t < st.time + p.duration x
      · simp only [List.filter_cons, ht, ht2, and_self, decide_true, if_true, List.filter_nil, List.map_cons, List.map_nil, List.sum_cons, List.sum_nil]
        omega
      · simp only [List.filter_cons, ht2, and_false, decide_false, Bool.false_eq_true, if_false, List.filter_nil, List.map_nil, List.sum_nil]
        omega
    · simp only [List.filter_cons, ht, false_and, decide_false, Bool.false_eq_true, if_false, List.filter_nil, List.map_nil, List.sum_nil]
      rw [load] at h1
      omega
  · rw [hs]
    refine List.pairwise_append.2 ⟨h.mono, by simp, ?_⟩
    rintro ⟨a, s, e⟩ ha y hy
    rw [List.mem_singleton.1 hy]
    exact (h.entry a s e ha).1
  · intro l₁ a l₂ hl b hb
    change 1 :: (st.started ++ [x]) = _ at hl
    rw [← List.cons_append] at hl
    rcases List.append_eq_append_iff.1 hl with ⟨l, h1, h2⟩ | ⟨l, h1, h2⟩
    · cases l with
      | nil =>
        obtain ⟨rfl, _⟩ := List.cons.inj h2
        rw [h1, List.append_nil]
        exact List.mem_cons.2 ((h.ended b).1 (x3 b hb)).1
      | cons y l =>
        have := congrArg List.length h2
        simp at this
    · cases l with
      | nil =>
        obtain ⟨rfl, _⟩ := List.cons.inj h2
        rw [List.append_nil] at h1
        rw [← h1]
        exact List.mem_cons.2 ((h.ended b).1 (x3 b hb)).1
      | cons y l =>
        obtain ⟨rfl, _⟩ := List.cons.inj h2
        exact h.order _ _ _ h1 b hb

theorem Inv.begin (h : Inv p D st) (hwf : p.Wf) {x : Nat} (hx : x ∈ st.avail) (hf : fits p st x = true) : Inv p D (Pile.begin p st x) := by
  obtain ⟨x1, x2, x3⟩ := (h.wait.avail x).1 hx
  obtain ⟨r1, r2⟩ := mem_nodes.1 x1
  have hk : x ∉ Dict.keys st.sched := by
    show x ∉ st.sched.map (·.1)
    rw [h.keys]; exact x2
  have hs : (Pile.begin p st x).sched = st.sched ++ [(x, (st.time, st.time + p.duration x))] := set_fresh _ hk
  refine ⟨h.toCore.begin hwf hx hf, ?_, ?_⟩
  · intro a a1 a2 ha t ht
    rw [hs]
    have ha' : a ∉ 1 :: st.started := fun hm => ha (by
      rcases List.mem_cons.1 hm with rfl | hm
      · exact List.mem_cons_self
      · exact List.mem_cons_of_mem _ (List.mem_append.2 (.inl hm)))
    exact blocked_append (v := (st.time, st.time + p.duration x)) ht (Nat.le_add_right _ _) (h.stuck a a1 a2 ha' t ht)
  · intro a s e hm t ht
    rw [hs] at hm ⊢
    rcases List.mem_append.1 hm with hm | hm
    · have := (h.entry a s e hm).1
      exact blocked_append (v := (st.time, st.time + p.duration x)) (show t < st.time by omega) (Nat.le_add_right _ _) (h.tight a s e hm t ht)
    · simp only [List.mem_singleton, Prod.mk.injEq] at hm
      obtain ⟨rfl, rfl, rfl⟩ := hm
      exact blocked_append (v := (st.time, st.time + p.duration a)) ht (Nat.le_add_right _ _) (h.stuck a r1 r2 x2 t ht)

/-- The next activity ends. -/
theorem Core.advance (h : Core p D st) (hwf : p.Wf) {st' : St}
    (hst : advance p st = .ok st') : (∃ D', Core p D' st') ∧ st'.queue.length + 1 = st.queue.length ∧ st'.sched = st.sched ∧ st'.started = st.started ∧
    ∃ a, (st'.time, a) ∈ st.queue ∧ ∀ y ∈ st.queue, st'.time ≤ y.1 := by
  rw [Pile.advance] at hst
  split at hst
  · cases hst
  rename_i t a q hpop
  obtain ⟨hperm, hmin⟩ := popMin_some hpop
  have hst := Except.ok.inj hst
  subst hst
  have hmem : ∀ y, y ∈ st.queue ↔ y = (t, a) ∨ y ∈ q := fun y => by rw [hperm.mem_iff, List.mem_cons]
  have hperm2 : (acts st.queue).Perm (a :: acts q) := hperm.map Prod.snd
  have hnd : (a :: acts q).Nodup := hperm2.nodup_iff.1 h.heapNodup
  obtain ⟨hna, hnq⟩ := List.nodup_cons.1 hnd
  have hta : (t, a) ∈ st.queue := (hmem _).2 (.inl rfl)
  obtain ⟨b1, b2, b3, b4⟩ := h.heap t a hta
  have hacts : ∀ b, b ∈ acts st.queue ↔ b = a ∨ b ∈ acts q := fun b => by rw [hperm2.mem_iff, List.mem_cons]
  have hDa : D a = false := by
    cases hD : D a
    · rfl
    · exact absurd ((hacts a).2 (.inl rfl)) ((h.ended a).1 hD).2
  have hw : Wait p (fun b => D b || b == a) (1 :: st.started) (release a { st with queue := q, time := t }) :=
    release_wait hwf (K := 1 :: st.started) (st := { st with queue := q, time := t }) ⟨h.wait.waiting, h.wait.avail, h.wait.nodup, h.wait.sched⟩ hDa
  refine ⟨⟨fun b => D b || b == a, ?_⟩, ?_, rfl, rfl, a, hta, hmin⟩
  swap
  · have := hperm.length_eq
    simpa [release] using this.symm
  have hu : ∀ r, used p (release a { st with queue := q, time := t }) r = if r ∈ p.nonRenewable then used p st r else used p st r - p.need a r := by
    intro r
    have := (hperm2.map fun a => p.need a r).sum_eq
    rw [List.map_cons, List.sum_cons] at this
    by_cases hr : r ∈ p.nonRenewable
    · simp only [used, hr, if_true]; rfl
    · simp only [used, hr, if_false]
      show ((acts q).map _).sum = _
      omega
  refine ⟨h.keys, h.nodup, h.range, ?_, hnq, ?_, ?_, ?_, ⟨hw.waiting, hw.avail, hw.nodup, hw.sched⟩, ?_, ?_, h.prec, h.loads, h.mono, h.order⟩
  · intro a s e hm
    obtain ⟨h1, h2⟩ := h.entry a s e hm
    exact ⟨le_trans h1 b2, h2⟩
  · intro e b hb
    have hb' := (hmem _).2 (.inr hb)
    obtain ⟨h1, h2, h3⟩ := h.heap e b hb'
    exact ⟨h1, hmin _ hb', h3⟩
  · intro b s e hm
    show (e, b) ∈ q ∨ e ≤ t
    rcases h.over b s e hm with h' | h'
    · rcases (hmem _).1 h' with h' | h'
      · obtain ⟨rfl, rfl⟩ := Prod.mk.inj h'
        exact .inr (le_refl _)
      · exact .inl h'
    · exact .inr (le_trans h' b2)
  · intro b
    show _ ↔ (b = 1 ∨ b ∈ st.started) ∧ b ∉ acts q
    simp only [Bool.or_eq_true, beq_iff_eq, h.ended b, hacts]
    constructor
    · rintro (⟨h1, h2⟩ | rfl)
      · exact ⟨h1, fun h' => h2 (.inr h')⟩
      · exact ⟨.inr b1, hna⟩
    · rintro ⟨h1, h2⟩
      by_cases hb : b = a
      · exact .inr hb
      · exact .inl ⟨h1, by tauto⟩
  · show st.free.map _ = _
    rw [h.free, List.map_map]
    apply List.map_congr_left
    intro r _
    have := hu r
    simp only [Function.comp, Prod.mk.injEq, true_and]
    show (if r ∈ p.nonRenewable then _ else _) = p.capacity r - used p (release a { st with queue := q, time := t }) r
    rw [this]
    split <;> omega
  · intro r hr
    show used p (release a { st with queue := q, time := t }) r ≤ _
    rw [hu]
    have h1 := h.room r hr
    obtain ⟨a1, a2⟩ := h.range a b1
    have := hwf.need a r a1 a2
    split <;> omega

/-- When nothing fits, the next activity ends. -/
theorem Inv.advance (h : Inv p D st) (hwf : p.Wf) (hno : ∀ x ∈ st.avail, fits p st x = false) {st' : St}
    (hst : Pile.advance p st = .ok st') : (∃ D', Inv p D' st') ∧ st'.queue.length + 1 = st.queue.length ∧ st'.sched = st.sched ∧ st'.started = st.started := by
  obtain ⟨⟨D', hc⟩, h1, h2, h3, a, hta, hmin⟩ := h.toCore.advance hwf hst
  refine ⟨⟨D', hc, ?_, ?_⟩, h1, h2, h3⟩
  · rw [h2, h3]
    intro c c1 c2 hc u hu'
    by_cases hlt : u < st.time
    · exact h.stuck c c1 c2 hc u hlt
    · have hle : st.time ≤ u := by omega
      have hrun : ∀ e b, (e, b) ∈ st.queue → u < e := fun e b hb => lt_of_lt_of_le hu' (hmin _ hb)
      by_cases hav : c ∈ st.avail
      · have hf := hno c hav
        have : ¬ ∀ r ∈ p.resources, used p st r + p.need c r ≤ p.capacity r := by
          rw [← h.fits_iff, hf]; simp
        push Not at this
        obtain ⟨r, hr, hlt⟩ := this
        by_cases hn : r ∈ p.nonRenewable
        · refine .inr (.inr ⟨r, hr, hn, ?_⟩)
          have := h.spent_eq hwf r hle
          rw [used, if_pos hn] at hlt
          show _ < spent p st.sched r u + _
          omega
        · refine .inr (.inl ⟨r, hr, hn, ?_⟩)
          have := h.le_load hwf r hle hrun
          rw [used, if_neg hn] at hlt
          show _ < load p st.sched r u + _
          omega
      · have : ¬ ∀ b ∈ p.pred c, D b = true := fun hall => hav ((h.wait.avail c).2 ⟨mem_nodes.2 ⟨c1, c2⟩, hc, hall⟩)
        push Not at this
        obtain ⟨b, hb, hD⟩ := this
        refine .inl ⟨b, hb, fun s e hm => ?_⟩
        have hbq : b ∈ acts st.queue := by
          by_contra hbq
          exact hD ((h.ended b).2 ⟨h.mem.2 ⟨s, e, hm⟩, hbq⟩)
        obtain ⟨⟨e', b'⟩, hq', rfl⟩ := List.mem_map.1 hbq
        obtain ⟨_, _, s', hm'⟩ := h.heap e' b' hq'
        have := h.unique hm hm'
        obtain ⟨rfl, rfl⟩ := Prod.mk.inj this
        exact hrun e b' hq'
  · rw [h2]
    exact h.tight

/-! ### The loops -/

/-- The choice is one of those offered. -/
def Sound (pick : Pick) : Prop := ∀ started l a, pick started l = .ok a → a ∈ l

variable {arrange : List Nat → List Nat} {pick : Pick}

theorem fill_inv (hwf : p.Wf) (harr : ∀ l, (arrange l).Perm l) (hpick : Sound pick) (n : Nat) (st st' : St) (h : Inv p D st)
    (hn : st.avail.length ≤ n) (hst : fill p arrange pick n st = .ok st') :
    Inv p D st' ∧ (∀ x ∈ st'.avail, fits p st' x = false) ∧ st.sched.length + st'.queue.length = st'.sched.length + st.queue.length := by
  induction n generalizing st with
  | zero =>
    have hnil : st.avail = [] := List.eq_nil_of_length_eq_zero (by omega)
    rw [fill] at hst
    split at hst
    · obtain rfl := Except.ok.inj hst
      exact ⟨h, by rw [hnil]; simp, rfl⟩
    · obtain rfl := Except.ok.inj hst
      exact ⟨h, by rw [hnil]; simp, rfl⟩
  | succ n ih =>
    rw [fill] at hst
    split at hst
    · rename_i hl
      obtain rfl := Except.ok.inj hst
      refine ⟨h, fun x hx => ?_, rfl⟩
      have := List.filter_eq_nil_iff.1 hl x ((harr st.avail).mem_iff.2 hx)
      simpa using this
    · rename_i x l hl
      obtain ⟨a, h1, h2⟩ := bind_eq_ok.1 hst
      have ha := hpick _ _ _ h1
      rw [← hl, List.mem_filter] at ha
      have hav := (harr st.avail).mem_iff.1 ha.1
      have hi := h.begin hwf hav ha.2
      have hlen : (Pile.begin p st a).avail.length ≤ n := by
        show (st.avail.erase a).length ≤ n
        rw [List.length_erase_of_mem hav]; omega
      obtain ⟨i1, i2, i3⟩ := ih _ hi hlen h2
      refine ⟨i1, i2, ?_⟩
      have hk : a ∉ Dict.keys st.sched := by
        show a ∉ st.sched.map (·.1)
        rw [h.keys]; exact ((h.wait.avail a).1 hav).2.1
      have hs : (Pile.begin p st a).sched.length = st.sched.length + 1 := by
        rw [show (Pile.begin p st a).sched = st.sched ++ [(a, (st.time, st.time + p.duration a))] from set_fresh _ hk]; simp
      have hq : (Pile.begin p st a).queue.length = st.queue.length + 1 := rfl
      omega

theorem loop_inv (hwf : p.Wf) (harr : ∀ l, (arrange l).Perm l) (hpick : Sound pick) (n : Nat) (st st' : St) (h : Inv p D st)
    (hst : loop p arrange pick n st = .ok (some st')) : (∃ D', Inv p D' st') ∧ p.count ≤ st'.sched.length := by
  induction n generalizing st D with
  | zero =>
    rw [loop] at hst
    split at hst
    · cases hst
    · obtain rfl := Option.some.inj (Except.ok.inj hst)
      exact ⟨⟨_, h⟩, by omega⟩
  | succ n ih =>
    rw [loop] at hst
    split at hst
    · obtain ⟨st1, h1, h2⟩ := bind_eq_ok.1 hst
      obtain ⟨st2, h3, h4⟩ := bind_eq_ok.1 h2
      obtain ⟨i1, i2, _⟩ := fill_inv hwf harr hpick _ _ _ h (le_refl _) h1
      obtain ⟨⟨D', i3⟩, _⟩ := i1.advance hwf i2 h3
      exact ih _ i3 h4
    · obtain rfl := Option.some.inj (Except.ok.inj hst)
      exact ⟨⟨_, h⟩, by omega⟩

theorem Core.queue_le (h : Core p D st) : st.queue.length + 1 ≤ st.sched.length := by
  have h1 : st.sched.length = st.started.length + 1 := by
    have := congrArg List.length h.keys; simpa using this
  have h2 : (acts st.queue).length ≤ st.started.length :=
    (List.Nodup.subperm h.heapNodup fun a ha => by
      obtain ⟨⟨e, b⟩, hx, rfl⟩ := List.mem_map.1 ha
      exact (h.heap e b hx).1).length_le
  have : (acts st.queue).length = st.queue.length := by simp [acts]
  omega

theorem Core.sched_le (h : Core p D st) (hwf : p.Wf) : st.sched.length ≤ p.count := by
  have h1 : st.sched.length = (1 :: st.started).length := by
    have := congrArg List.length h.keys; simpa using this
  have h2 : (1 :: st.started).length ≤ (nodes p).length :=
    (List.Nodup.subperm h.nodup fun a ha => by
      rcases List.mem_cons.1 ha with rfl | ha
      · exact mem_nodes.2 ⟨le_refl 1, hwf.count⟩
      · exact mem_nodes.2 (h.range a ha)).length_le
  simp only [nodes, List.length_range'] at h2
  omega

/-- Every round ends an activity, so the loop is never cut short. -/
theorem loop_ne_none (hwf : p.Wf) (harr : ∀ l, (arrange l).Perm l) (hpick : Sound pick) (n : Nat) (st : St) (h : Inv p D st)
    (hn : p.count + 1 ≤ n + (st.sched.length - st.queue.length)) : loop p arrange pick n st ≠ .ok none := by
  induction n generalizing st D with
  | zero =>
    have := h.sched_le hwf
    omega
  | succ n ih =>
    rw [loop]
    split
    · intro hst
      obtain ⟨st1, h1, h2⟩ := bind_eq_ok.1 hst
      obtain ⟨st2, h3, h4⟩ := bind_eq_ok.1 h2
      obtain ⟨i1, i2, i3⟩ := fill_inv hwf harr hpick _ _ _ h (le_refl _) h1
      obtain ⟨⟨D', i4⟩, i5, i6, i7⟩ := i1.advance hwf i2 h3
      refine ih _ i4 ?_ h4
      have := h.queue_le
      have := i1.queue_le
      have := i4.queue_le
      rw [i6]
      omega
    · intro hst; cases hst

/-- An activity whose predecessors are all scheduled, in a state where nobody is in the heap. -/
theorem Core.exists_ready (h : Core p D st) (hwf : p.Wf) {rank : Nat → Nat} (hr : ∀ n, 1 ≤ n → n ≤ p.count → ∀ b ∈ p.pred n, rank b < rank n)
    (hlt : st.sched.length < p.count) (hq : st.queue = []) : ∃ x, x ∈ st.avail := by
  have hex : ∃ n ∈ nodes p, n ∉ 1 :: st.started := by
    by_contra hall
    push Not at hall
    have h1 : st.sched.length = (1 :: st.started).length := by
      have := congrArg List.length h.keys; simpa using this
    have h2 : (nodes p).length ≤ (1 :: st.started).length := (List.Nodup.subperm List.nodup_range' hall).length_le
    simp only [nodes, List.length_range'] at h2
    omega
  obtain ⟨n, hn, hns⟩ := hex
  induction hk : rank n using Nat.strong_induction_on generalizing n with
  | _ k ih =>
    obtain ⟨n1, n2⟩ := mem_nodes.1 hn
    by_cases hall : ∀ b ∈ p.pred n, D b = true
    · exact ⟨n, (h.wait.avail n).2 ⟨hn, hns, hall⟩⟩
    · push Not at hall
      obtain ⟨b, hb, hD⟩ := hall
      refine ih (rank b) (hk ▸ hr n n1 n2 b hb) b (mem_nodes.2 (hwf.range n n1 n2 b hb)) (fun hm => hD ((h.ended b).2 ⟨List.mem_cons.1 hm, ?_⟩)) rfl
      rw [hq]; simp [acts]

/-- What makes every project possible: no cycle, every activity fits alone, the non-renewable resources are enough. -/
structure Project.Possible (p : Project) (rank : Nat → Nat) : Prop where
  acyclic : ∀ n, 1 ≤ n → n ≤ p.count → ∀ b ∈ p.pred n, rank b < rank n
  alone : ∀ n r, 1 ≤ n → n ≤ p.count → r ∈ p.resources → r ∉ p.nonRenewable → p.need n r ≤ p.capacity r
  total : ∀ r ∈ p.resources, r ∈ p.nonRenewable → ((nodes p).map fun n => p.need n r).sum ≤ p.capacity r

theorem fits_of_empty (h : Inv p D st) (hwf : p.Wf) {rank : Nat → Nat} (hp : p.Possible rank) (hq : st.queue = []) {x : Nat} (hx : x ∈ st.avail) :
    fits p st x = true := by
  obtain ⟨x1, x2, x3⟩ := (h.wait.avail x).1 hx
  obtain ⟨r1, r2⟩ := mem_nodes.1 x1
  rw [h.fits_iff]
  intro r hr
  by_cases hn : r ∈ p.nonRenewable
  · rw [used, if_pos hn]
    have h1 := hp.total r hr hn
    have h2 := sum_le_of_subset (f := fun n => p.need n r) (x :: st.started) (nodes p)
      (List.nodup_cons.2 ⟨fun hm => x2 (List.mem_cons_of_mem _ hm), (List.nodup_cons.1 h.nodup).2⟩)
      (fun a ha => by
        rcases List.mem_cons.1 ha with rfl | ha
        · exact x1
        · exact mem_nodes.2 (h.range a ha))
      (fun a ha => by obtain ⟨a1, a2⟩ := mem_nodes.1 ha; exact hwf.need a r a1 a2)
    rw [List.map_cons, List.sum_cons] at h2
    omega
  · rw [used, if_neg hn, hq]
    have := hp.alone x r r1 r2 hr hn
    simpa [acts] using this

/-- Whether the choice answers, when it is asked about activities that have not been started. -/
def Total (p : Project) (pick : Pick) : Prop :=
  ∀ started l, l ≠ [] → (1 :: started).Nodup → (∀ a ∈ l, 1 ≤ a ∧ a ≤ p.count ∧ a ∉ 1 :: started) → ∃ a, pick started l = .ok a

theorem fill_ok (hwf : p.Wf) (harr : ∀ l, (arrange l).Perm l) (hpick : Sound pick) (htot : Total p pick) (n : Nat) (st : St) (h : Inv p D st) :
    ∃ st', fill p arrange pick n st = .ok st' := by
  induction n generalizing st with
  | zero =>
    rw [fill]
    split <;> exact ⟨_, rfl⟩
  | succ n ih =>
    rw [fill]
    split
    · exact ⟨_, rfl⟩
    · rename_i x l hl
      have hmem : ∀ a ∈ x :: l, a ∈ st.avail ∧ fits p st a = true := by
        intro a ha
        rw [← hl, List.mem_filter] at ha
        exact ⟨(harr st.avail).mem_iff.1 ha.1, ha.2⟩
      obtain ⟨a, ha⟩ := htot st.started (x :: l) (by simp) h.nodup (fun a ha => by
        obtain ⟨a1, a2, _⟩ := (h.wait.avail a).1 (hmem a ha).1
        exact ⟨(mem_nodes.1 a1).1, (mem_nodes.1 a1).2, a2⟩)
      simp only [ha, bind_ok]
      obtain ⟨h1, h2⟩ := hmem a (hpick _ _ _ ha)
      exact ih _ (h.begin hwf h1 h2)

theorem loop_ok (hwf : p.Wf) (harr : ∀ l, (arrange l).Perm l) (hpick : Sound pick) (htot : Total p pick) {rank : Nat → Nat} (hp : p.Possible rank)
    (n : Nat) (st : St) (h : Inv p D st) (hn : p.count + 1 ≤ n + (st.sched.length - st.queue.length)) :
    ∃ st', loop p arrange pick n st = .ok (some st') := by
  induction n generalizing st D with
  | zero =>
    have := h.sched_le hwf
    omega
  | succ n ih =>
    rw [loop]
    split
    · rename_i hlt
      obtain ⟨st1, h1⟩ := fill_ok hwf harr hpick htot st.avail.length st h
      obtain ⟨i1, i2, i3⟩ := fill_inv hwf harr hpick _ _ _ h (le_refl _) h1
      simp only [h1, bind_ok]
      cases h2 : Pile.advance p st1 with
      | error e =>
        exfalso
        have hq : st1.queue = [] := by
          rw [Pile.advance] at h2
          split at h2
          · rename_i hp; exact popMin_none hp
          · cases h2
        have hl : st1.sched.length < p.count := by
          rw [hq] at i3
          have := h.queue_le
          rcases Nat.lt_or_ge st1.sched.length p.count with h' | h'
          · exact h'
          · simp only [List.length_nil] at i3; omega
        obtain ⟨x, hx⟩ := i1.exists_ready hwf hp.acyclic hl hq
        have := fits_of_empty i1 hwf hp hq hx
        rw [i2 x hx] at this; cases this
      | ok st2 =>
        simp only [bind_ok]
        obtain ⟨⟨D', i4⟩, i5, i6, i7⟩ := i1.advance hwf i2 h2
        refine ih _ i4 ?_
        have := h.queue_le
        have := i1.queue_le
        have := i4.queue_le
        rw [i6]
        omega
    · exact ⟨_, rfl⟩

/-- The errors: those of the choice, and the empty heap. -/
theorem loop_error {E : PyErr} (hE : ∀ started l e, l ≠ [] → pick started l = .error e → e = E) (n : Nat) (st : St) {e : PyErr}
    (h : loop p arrange pick n st = .error e) : e = E ∨ e = .indexError := by
  have hfill : ∀ n st e, fill p arrange pick n st = .error e → e = E := by
    intro n
    induction n with
    | zero =>
      intro st e h
      rw [fill] at h
      split at h <;> cases h
    | succ n ih =>
      intro st e h
      rw [fill] at h
      split at h
      · cases h
      · rename_i x l _
        cases hp : pick st.started (x :: l) with
        | error e' =>
          simp only [hp, bind_error] at h
          obtain rfl := Except.error.inj h
          exact hE _ _ _ (by simp) hp
        | ok a =>
          simp only [hp, bind_ok] at h
          exact ih _ _ h
  induction n generalizing st with
  | zero =>
    rw [loop] at h
    split at h <;> cases h
  | succ n ih =>
    rw [loop] at h
    split at h
    · cases h1 : fill p arrange pick st.avail.length st with
      | error e' =>
        simp only [h1, bind_error] at h
        obtain rfl := Except.error.inj h
        exact .inl (hfill _ _ _ h1)
      | ok st1 =>
        simp only [h1, bind_ok] at h
        cases h2 : Pile.advance p st1 with
        | error e' =>
          simp only [h2, bind_error] at h
          obtain rfl := Except.error.inj h
          rw [Pile.advance] at h2
          split at h2
          · exact .inr (Except.error.inj h2).symm
          · cases h2
        | ok st2 =>
          simp only [h2, bind_ok] at h
          exact ih _ h
    · cases h

end Verif.Pile
