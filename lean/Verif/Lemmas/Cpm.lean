import Verif.Model.Cpm
/- The critical path method: one direction of the sweep, abstractly, and the sweep of the code. -/
namespace Verif.Cpm

/-- `L` is the total duration of some chain of activities that leads to `n` (without `n` itself), going back along `prev`. -/
inductive Lead (prev : Nat → List Nat) (dur : Nat → Nat) : Nat → Nat → Prop
  | here (n : Nat) : Lead prev dur n 0
  | step {n p L : Nat} : p ∈ prev n → Lead prev dur p L → Lead prev dur n (L + dur p)

/-- `t` is `base` plus the length of a longest chain that leads to `n`. -/
def Best (prev : Nat → List Nat) (dur : Nat → Nat) (base : Int) (n : Nat) (t : Int) : Prop :=
  (∃ L, Lead prev dur n L ∧ t = base + L) ∧ ∀ L, Lead prev dur n L → base + L ≤ t

/-- The invariant of a sweep.  `S` and `F` are the dates found so far; `ms` are the activities still to be looked at in the inner loop. -/
structure GInv (prev : Nat → List Nat) (nodes : List Nat) (dur : Nat → Nat) (base : Int) (S F : Nat → Option Int) (q : List (Int × Nat))
    (ms : List Nat) : Prop where
  fin : ∀ n, F n = (S n).map (· + (dur n : Int))
  best : ∀ n s, S n = some s → n ∈ nodes ∧ Best prev dur base n s
  closed : ∀ n s, S n = some s → ∀ p ∈ prev n, ∃ s', S p = some s'
  entry : ∀ t n, (t, n) ∈ q → n ∈ nodes ∧ (S n = none → (∀ p ∈ prev n, ∃ s', S p = some s') ∧ Best prev dur base n t)
  nodup : ((q.map (·.2)).filter (fun n => (S n).isNone)).Nodup
  ready : ∀ n ∈ nodes, S n = none → (∀ p ∈ prev n, ∃ s', S p = some s') → n ∈ q.map (·.2) ∨ n ∈ ms
  todo : ms.Nodup ∧ ∀ m ∈ ms, m ∈ nodes ∧ S m = none ∧ m ∉ q.map (·.2) ∧ prev m ≠ []

/-- `f` with a new value at `n`. -/
def upd (f : Nat → Option Int) (n : Nat) (v : Int) : Nat → Option Int := fun x => if x = n then some v else f x

theorem pop_fresh {prev next : Nat → List Nat} {nodes : List Nat} {dur : Nat → Nat} {base : Int} {S F : Nat → Option Int} {q : List (Int × Nat)}
    {t : Int} {n : Nat} (h : GInv prev nodes dur base S F ((t, n) :: q) []) (hn : S n = none)
    (hsym : ∀ m, m ∈ next n ↔ n ∈ prev m) (hmem : ∀ m ∈ next n, m ∈ nodes) (hnd : (next n).Nodup) (hself : n ∉ prev n) :
    GInv prev nodes dur base (upd S n t) (upd F n (t + dur n)) q (next n) := by
  obtain ⟨hnn, he⟩ := h.entry t n (by simp)
  obtain ⟨hprev, hbest⟩ := he hn
  have hup : ∀ p, (∃ s', S p = some s') → ∃ s', upd S n t p = some s' := by
    rintro p ⟨s', hs⟩
    unfold upd
    split
    · exact ⟨t, rfl⟩
    · exact ⟨s', hs⟩
  refine ⟨?_, ?_, ?_, ?_, ?_, ?_, hnd, ?_⟩
  · intro x
    unfold upd
    split
    · rename_i e; subst e; rfl
    · exact h.fin x
  · intro x s hs
    unfold upd at hs
    split at hs
    · rename_i e; subst e; cases hs; exact ⟨hnn, hbest⟩
    · exact h.best x s hs
  · intro x s hs p hp
    apply hup
    unfold upd at hs
    split at hs
    · rename_i e; subst e; exact hprev p hp
    · exact h.closed x s hs p hp
  · intro t' x hx
    obtain ⟨h1, h2⟩ := h.entry t' x (by simp [hx])
    refine ⟨h1, fun hs => ?_⟩
    unfold upd at hs
    split at hs
    · cases hs
    · obtain ⟨g1, g2⟩ := h2 hs
      exact ⟨fun p hp => hup p (g1 p hp), g2⟩
  · have := h.nodup
    simp only [List.map_cons, List.filter_cons, hn, Option.isNone_none, ↓reduceIte, List.nodup_cons] at this
    have hsub : ((q.map (·.2)).filter (fun x => (upd S n t x).isNone)) = ((q.map (·.2)).filter (fun n => (S n).isNone)).filter (fun x => x != n) := by
      rw [List.filter_filter]
      apply List.filter_congr
      intro x _
      unfold upd
      by_cases e : x = n
      · simp [e]
      · simp [e]
    rw [hsub]
    exact List.Pairwise.filter _ this.2
  · intro x hx hs hp
    unfold upd at hs
    split at hs
    · cases hs
    · rename_i e
      by_cases hnx : n ∈ prev x
      · right; exact (hsym x).2 hnx
      · left
        rcases h.ready x hx hs (fun p hpp => by
          obtain ⟨s', hs'⟩ := hp p hpp
          unfold upd at hs'
          split at hs'
          · rename_i e'; subst e'; exact absurd hpp hnx
          · exact ⟨s', hs'⟩) with g | g
        · simp only [List.map_cons, List.mem_cons] at g
          rcases g with g | g
          · exact absurd g e
          · exact g
        · cases g
  · intro m hm
    have hnm := (hsym m).1 hm
    have hne : m ≠ n := by rintro rfl; exact hself hnm
    have hSm : S m = none := by
      rcases hs : S m with _ | s
      · rfl
      · obtain ⟨s', hs'⟩ := h.closed m s hs n hnm
        rw [hn] at hs'; cases hs'
    refine ⟨hmem m hm, by simp [upd, hne, hSm], ?_, fun e => by rw [e] at hnm; cases hnm⟩
    intro hq
    obtain ⟨⟨t', m'⟩, hq', rfl⟩ := List.mem_map.1 hq
    obtain ⟨g, _⟩ := (h.entry t' m' (by simp [hq'])).2 hSm
    obtain ⟨s', hs'⟩ := g n hnm
    rw [hn] at hs'; cases hs'

theorem pop_stale {prev : Nat → List Nat} {nodes : List Nat} {dur : Nat → Nat} {base : Int} {S F : Nat → Option Int} {q : List (Int × Nat)}
    {t : Int} {n : Nat} (h : GInv prev nodes dur base S F ((t, n) :: q) []) (hn : S n ≠ none) : GInv prev nodes dur base S F q [] := by
  refine ⟨h.fin, h.best, h.closed, fun t' x hx => h.entry t' x (by simp [hx]), ?_, ?_, by simp⟩
  · have := h.nodup
    have hf : (S n).isNone = false := by cases e : S n <;> simp_all
    simpa [List.filter_cons, hf] using this
  · intro x hx hs hp
    rcases h.ready x hx hs hp with g | g
    · simp only [List.map_cons, List.mem_cons] at g
      rcases g with g | g
      · subst g; exact absurd hs hn
      · exact .inl g
    · cases g

theorem add_stale {prev : Nat → List Nat} {nodes : List Nat} {dur : Nat → Nat} {base : Int} {S F : Nat → Option Int} {q q' : List (Int × Nat)}
    {t : Int} {n : Nat} (h : GInv prev nodes dur base S F q []) (hn : S n ≠ none) (hq : q'.Perm ((t, n) :: q)) : GInv prev nodes dur base S F q' [] := by
  obtain ⟨s, hs⟩ := Option.ne_none_iff_exists'.1 hn
  refine ⟨h.fin, h.best, h.closed, ?_, ?_, ?_, by simp⟩
  · intro t' x hx
    rcases List.mem_cons.1 (hq.mem_iff.1 hx) with g | g
    · cases g; exact ⟨(h.best n s hs).1, fun e => absurd e hn⟩
    · exact h.entry t' x g
  · rw [((hq.map (·.2)).filter _).nodup_iff]
    have hf : (S n).isNone = false := by cases e : S n <;> simp_all
    simpa [List.filter_cons, hf] using h.nodup
  · intro x hx hs hp
    rcases h.ready x hx hs hp with g | g
    · left; exact (hq.map (·.2)).mem_iff.2 (by simp only [List.map_cons, List.mem_cons]; exact .inr g)
    · cases g

/-- One step of the inner loop. -/
def Pushed (prev : Nat → List Nat) (F : Nat → Option Int) (q q' : List (Int × Nat)) (m : Nat) : Prop :=
  ((∀ p ∈ prev m, F p ≠ none) → ∃ t, q'.Perm ((t, m) :: q) ∧ (∃ p ∈ prev m, F p = some t) ∧ ∀ p ∈ prev m, ∀ v, F p = some v → v ≤ t) ∧
  (¬ (∀ p ∈ prev m, F p ≠ none) → q' = q)

theorem push_one {prev : Nat → List Nat} {nodes : List Nat} {dur : Nat → Nat} {base : Int} {S F : Nat → Option Int} {q q' : List (Int × Nat)}
    {m : Nat} {ms : List Nat} (h : GInv prev nodes dur base S F q (m :: ms)) (hp : Pushed prev F q q' m) : GInv prev nodes dur base S F q' ms := by
  obtain ⟨hms, hmm⟩ := h.todo
  rw [List.nodup_cons] at hms
  obtain ⟨hm1, hm2, hm3, hm4⟩ := hmm m (by simp)
  have hFS : ∀ p, F p ≠ none ↔ ∃ s', S p = some s' := by
    intro p
    rw [h.fin]
    cases S p <;> simp
  by_cases hall : ∀ p ∈ prev m, F p ≠ none
  · obtain ⟨t, hq, ⟨p0, hp0, hF0⟩, hmax⟩ := hp.1 hall
    have hb : Best prev dur base m t := by
      rw [h.fin] at hF0
      rcases hS0 : S p0 with _ | s0
      · rw [hS0] at hF0; cases hF0
      rw [hS0] at hF0
      simp only [Option.map_some, Option.some.injEq] at hF0
      obtain ⟨_, ⟨L0, hL0, hs0⟩, hb0⟩ := h.best p0 s0 hS0
      refine ⟨⟨L0 + dur p0, .step hp0 hL0, by omega⟩, fun L hL => ?_⟩
      cases hL with
      | here => have := hb0 0 (.here p0); omega
      | @step _ p L' hpm hL' =>
        obtain ⟨s', hs'⟩ := (hFS p).1 (hall p hpm)
        have h1 := hmax p hpm (s' + dur p) (by rw [h.fin, hs']; rfl)
        have h2 := (h.best p s' hs').2.2 _ hL'
        omega
    refine ⟨h.fin, h.best, h.closed, ?_, ?_, ?_, hms.2, ?_⟩
    · intro t' x hx
      rcases List.mem_cons.1 (hq.mem_iff.1 hx) with g | g
      · cases g; exact ⟨hm1, fun _ => ⟨fun p hp => (hFS p).1 (hall p hp), hb⟩⟩
      · exact h.entry t' x g
    · rw [((hq.map (·.2)).filter _).nodup_iff]
      simp only [List.map_cons, List.filter_cons, hm2, Option.isNone_none, ↓reduceIte, List.nodup_cons]
      exact ⟨fun hc => hm3 (List.mem_filter.1 hc).1, h.nodup⟩
    · intro x hx hs hpx
      rcases h.ready x hx hs hpx with g | g
      · left; exact (hq.map (·.2)).mem_iff.2 (by simp only [List.map_cons, List.mem_cons]; exact .inr g)
      · rcases List.mem_cons.1 g with rfl | g
        · left; exact (hq.map (·.2)).mem_iff.2 (List.mem_cons_self ..)
        · exact .inr g
    · intro x hx
      obtain ⟨g1, g2, g3, g4⟩ := hmm x (by simp [hx])
      refine ⟨g1, g2, fun hc => ?_, g4⟩
      have := (hq.map (·.2)).mem_iff.1 hc
      simp only [List.map_cons, List.mem_cons] at this
      rcases this with e | g
      · subst e; exact hms.1 hx
      · exact g3 g
  · have hq := hp.2 hall
    subst hq
    refine ⟨h.fin, h.best, h.closed, h.entry, h.nodup, ?_, hms.2, fun x hx => hmm x (by simp [hx])⟩
    intro x hx hs hpx
    rcases h.ready x hx hs hpx with g | g
    · exact .inl g
    · rcases List.mem_cons.1 g with rfl | g
      · exact absurd (fun p hp => (hFS p).2 (hpx p hp)) hall
      · exact .inr g

theorem exists_min (rank : Nat → Nat) : ∀ l : List Nat, l ≠ [] → ∃ x ∈ l, ∀ y ∈ l, rank x ≤ rank y := by
  intro l
  induction l with
  | nil => intro h; exact absurd rfl h
  | cons a l ih =>
    intro _
    by_cases hl : l = []
    · subst hl; exact ⟨a, by simp, by simp⟩
    · obtain ⟨x, hx, hmin⟩ := ih hl
      by_cases hax : rank a ≤ rank x
      · refine ⟨a, by simp, fun y hy => ?_⟩
        rcases List.mem_cons.1 hy with rfl | h
        · exact Nat.le_refl _
        · exact Nat.le_trans hax (hmin y h)
      · refine ⟨x, by simp [hx], fun y hy => ?_⟩
        rcases List.mem_cons.1 hy with rfl | h
        · omega
        · exact hmin y h

theorem exists_max (rank : Nat → Nat) : ∀ l : List Nat, l ≠ [] → ∃ x ∈ l, ∀ y ∈ l, rank y ≤ rank x := by
  intro l
  induction l with
  | nil => intro h; exact absurd rfl h
  | cons a l ih =>
    intro _
    by_cases hl : l = []
    · subst hl; exact ⟨a, by simp, by simp⟩
    · obtain ⟨x, hx, hmin⟩ := ih hl
      by_cases hax : rank x ≤ rank a
      · refine ⟨a, by simp, fun y hy => ?_⟩
        rcases List.mem_cons.1 hy with rfl | h
        · exact Nat.le_refl _
        · exact Nat.le_trans (hmin y h) hax
      · refine ⟨x, by simp [hx], fun y hy => ?_⟩
        rcases List.mem_cons.1 hy with rfl | h
        · omega
        · exact hmin y h

/-- As long as something is missing, something is ready.  `lt` is a strict order in which `prev` comes first. -/
theorem queue_ne_nil {prev : Nat → List Nat} {nodes : List Nat} {dur : Nat → Nat} {base : Int} {S F : Nat → Option Int} {q : List (Int × Nat)}
    (h : GInv prev nodes dur base S F q []) (hprev : ∀ n ∈ nodes, ∀ p ∈ prev n, p ∈ nodes)
    (hfound : ∀ l : List Nat, l ≠ [] → ∃ x ∈ l, ∀ y ∈ l, y ∉ prev x) {n : Nat} (hn : n ∈ nodes) (hs : S n = none) : q ≠ [] := by
  intro hq
  obtain ⟨x, hx, hmin⟩ := hfound (nodes.filter (fun n => (S n).isNone)) (by
    intro e
    have : n ∈ nodes.filter (fun n => (S n).isNone) := List.mem_filter.2 ⟨hn, by simp [hs]⟩
    rw [e] at this; cases this)
  obtain ⟨hxn, hxs⟩ := List.mem_filter.1 hx
  have hxs : S x = none := by simpa using hxs
  rcases h.ready x hxn hxs (fun p hp => by
    rcases hsp : S p with _ | s'
    · exact absurd hp (hmin p (List.mem_filter.2 ⟨hprev x hxn p hp, by simp [hsp]⟩))
    · exact ⟨s', rfl⟩) with g | g
  · rw [hq] at g; cases g
  · cases g

theorem push_perm (x : Int × Nat) : ∀ l, (push x l).Perm (x :: l) := by
  intro l
  induction l with
  | nil => exact .refl _
  | cons y l ih =>
    simp only [push]
    split
    · exact .refl _
    · exact (ih.cons y).trans (.swap x y l)

theorem values_ok (d : Dict Nat Int) : ∀ l : List Nat, (∀ n ∈ l, d.get? n ≠ none) → ∃ vs, values d l = .ok vs ∧
    (∀ v, v ∈ vs ↔ ∃ n ∈ l, d.get? n = some v) ∧ (l ≠ [] → vs ≠ []) := by
  intro l
  induction l with
  | nil => intro _; exact ⟨[], rfl, by simp, by simp⟩
  | cons n l ih =>
    intro h
    obtain ⟨v, hv⟩ := Option.ne_none_iff_exists'.1 (h n (by simp))
    obtain ⟨vs, h1, h2, _⟩ := ih (fun m hm => h m (by simp [hm]))
    refine ⟨v :: vs, ?_, ?_, by simp⟩
    · simp only [values, hv, bind_ok, h1]
    · intro w
      simp only [List.mem_cons, h2]
      constructor
      · rintro (rfl | ⟨m, hm, hw⟩)
        · exact ⟨n, .inl rfl, hv⟩
        · exact ⟨m, .inr hm, hw⟩
      · rintro ⟨m, rfl | hm, hw⟩
        · rw [hv] at hw; exact .inl (Option.some.inj hw).symm
        · exact .inr ⟨m, hm, hw⟩

/-- A well-formed project network with durations `d`. -/
structure Wf (net : Network) (d : Nat → Nat) : Prop where
  nodup : net.nodes.Nodup
  edges : ∀ n m, m ∈ net.succ n ↔ n ∈ net.pred m
  mem : ∀ n m, m ∈ net.succ n → n ∈ net.nodes ∧ m ∈ net.nodes
  once : ∀ n, (net.succ n).Nodup ∧ (net.pred n).Nodup
  durations : ∀ n ∈ net.nodes, ∃ l, net.modes.get? n = some l ∧ l.min? = some (d n)
  acyclic : ∃ rank : Nat → Nat, ∀ n m, m ∈ net.succ n → rank n < rank m
  sink : net.sink ∈ net.nodes ∧ ∀ n ∈ net.nodes, net.succ n = [] ↔ n = net.sink
  source : net.source ∈ net.nodes ∧ ∀ n ∈ net.nodes, net.pred n = [] ↔ n = net.source

theorem minDuration_ok {net : Network} {d : Nat → Nat} (wf : Wf net d) {n : Nat} (hn : n ∈ net.nodes) : minDuration net n = .ok (d n) := by
  obtain ⟨l, h1, h2⟩ := wf.durations n hn
  simp only [minDuration, Dict.get, h1, bind_ok, h2]

/-- The forward step of the inner loop. -/
theorem pushForward_spec {net : Network} {st : St} {m : Nat} (hse : ∀ n, st.esd.get? n = none ↔ st.efd.get? n = none) (hne : net.pred m ≠ []) :
    ∃ q', pushForward net st m = .ok { st with queue := q' } ∧ Pushed net.pred (fun n => st.efd.get? n) st.queue q' m := by
  unfold pushForward
  by_cases hall : ∀ p ∈ net.pred m, st.efd.get? p ≠ none
  · rw [if_pos (by
      rw [List.all_eq_true]
      intro p hp
      rw [Dict.contains_iff]
      have : st.esd.get? p ≠ none := fun e => hall p hp ((hse p).1 e)
      exact Option.isSome_iff_ne_none.2 this)]
    obtain ⟨vs, h1, h2, h3⟩ := values_ok st.efd (net.pred m) hall
    rw [h1, bind_ok]
    rcases hmx : vs.max? with _ | t
    · exact absurd (List.max?_eq_none_iff.1 hmx) (h3 hne)
    · obtain ⟨g1, g2⟩ := List.max?_eq_some_iff.1 hmx
      refine ⟨push (t, m) st.queue, rfl, fun _ => ⟨t, push_perm _ _, (h2 t).1 g1, fun p hp v hv => g2 v ((h2 v).2 ⟨p, hp, hv⟩)⟩, fun h => absurd hall h⟩
  · rw [if_neg (by
      intro hc
      apply hall
      intro p hp e
      have := List.all_eq_true.1 hc p hp
      rw [Dict.contains_iff, (hse p).2 e] at this
      cases this)]
    exact ⟨st.queue, rfl, fun h => absurd h hall, fun _ => rfl⟩

/-- The backward step of the inner loop, with all dates negated. -/
theorem pushBackward_spec {net : Network} {st : St} {m : Nat} (hne : net.succ m ≠ []) :
    ∃ q', pushBackward net st m = .ok { st with queue := q' } ∧ Pushed net.succ (fun n => (st.lsd.get? n).map (fun x => -x)) st.queue q' m := by
  unfold pushBackward
  by_cases hall : ∀ p ∈ net.succ m, (st.lsd.get? p).map (fun x => -x) ≠ none
  · have hall' : ∀ p ∈ net.succ m, st.lsd.get? p ≠ none := fun p hp e => hall p hp (by rw [e]; rfl)
    rw [if_pos (by
      rw [List.all_eq_true]
      intro p hp
      rw [Dict.contains_iff]
      exact Option.isSome_iff_ne_none.2 (hall' p hp))]
    obtain ⟨vs, h1, h2, h3⟩ := values_ok st.lsd (net.succ m) hall'
    rw [h1, bind_ok]
    rcases hmx : vs.min? with _ | t
    · exact absurd (List.min?_eq_none_iff.1 hmx) (h3 hne)
    · obtain ⟨g1, g2⟩ := List.min?_eq_some_iff.1 hmx
      refine ⟨push (-t, m) st.queue, rfl, fun _ => ⟨-t, push_perm _ _, ?_, ?_⟩, fun h => absurd hall h⟩
      · obtain ⟨p, hp, hv⟩ := (h2 t).1 g1
        exact ⟨p, hp, by simp [hv]⟩
      · intro p hp v hv
        simp only at hv
        rcases hl : st.lsd.get? p with _ | w
        · rw [hl] at hv; cases hv
        · rw [hl] at hv
          simp only [Option.map_some, Option.some.injEq] at hv
          have := g2 w ((h2 w).2 ⟨p, hp, hl⟩)
          omega
  · rw [if_neg (by
      intro hc
      apply hall
      intro p hp e
      have := List.all_eq_true.1 hc p hp
      rw [Dict.contains_iff] at this
      rcases hl : st.lsd.get? p with _ | w
      · rw [hl] at this; cases this
      · rw [hl] at e; cases e)]
    exact ⟨st.queue, rfl, fun h => absurd h hall, fun _ => rfl⟩

theorem pushAllF {net : Network} {d : Nat → Nat} : ∀ (ms : List Nat) (st : St),
    GInv net.pred net.nodes d 0 (fun n => st.esd.get? n) (fun n => st.efd.get? n) st.queue ms →
    ∃ q', pushAll (pushForward net) st ms = .ok { st with queue := q' } ∧
      GInv net.pred net.nodes d 0 (fun n => st.esd.get? n) (fun n => st.efd.get? n) q' [] := by
  intro ms
  induction ms with
  | nil => intro st h; exact ⟨st.queue, rfl, h⟩
  | cons m ms ih =>
    intro st h
    have hse : ∀ n, st.esd.get? n = none ↔ st.efd.get? n = none := by
      intro n; rw [h.fin n]; simp
    obtain ⟨q1, h1, h2⟩ := pushForward_spec (net := net) (m := m) hse (h.todo.2 m (by simp)).2.2.2
    obtain ⟨q', h3, h4⟩ := ih { st with queue := q1 } (push_one h h2)
    exact ⟨q', by simp only [pushAll, h1, bind_ok, h3], h4⟩

theorem pushAllB {net : Network} {d : Nat → Nat} {base : Int} : ∀ (ms : List Nat) (st : St),
    GInv net.succ net.nodes d base (fun n => (st.lfd.get? n).map (fun x => -x)) (fun n => (st.lsd.get? n).map (fun x => -x)) st.queue ms →
    ∃ q', pushAll (pushBackward net) st ms = .ok { st with queue := q' } ∧
      GInv net.succ net.nodes d base (fun n => (st.lfd.get? n).map (fun x => -x)) (fun n => (st.lsd.get? n).map (fun x => -x)) q' [] := by
  intro ms
  induction ms with
  | nil => intro st h; exact ⟨st.queue, rfl, h⟩
  | cons m ms ih =>
    intro st h
    obtain ⟨q1, h1, h2⟩ := pushBackward_spec (net := net) (st := st) (m := m) (h.todo.2 m (by simp)).2.2.2
    obtain ⟨q', h3, h4⟩ := ih { st with queue := q1 } (push_one h h2)
    exact ⟨q', by simp only [pushAll, h1, bind_ok, h3], h4⟩

theorem acyclicF {net : Network} {d : Nat → Nat} (wf : Wf net d) : ∀ l : List Nat, l ≠ [] → ∃ x ∈ l, ∀ y ∈ l, y ∉ net.pred x := by
  obtain ⟨rank, hr⟩ := wf.acyclic
  intro l hl
  obtain ⟨x, hx, hmin⟩ := exists_min rank l hl
  exact ⟨x, hx, fun y hy hc => by have := hr y x ((wf.edges y x).2 hc); have := hmin y hy; omega⟩

theorem acyclicB {net : Network} {d : Nat → Nat} (wf : Wf net d) : ∀ l : List Nat, l ≠ [] → ∃ x ∈ l, ∀ y ∈ l, y ∉ net.succ x := by
  obtain ⟨rank, hr⟩ := wf.acyclic
  intro l hl
  obtain ⟨x, hx, hmax⟩ := exists_max rank l hl
  exact ⟨x, hx, fun y hy hc => by have := hr x y hc; have := hmax y hy; omega⟩

theorem no_self {net : Network} {d : Nat → Nat} (wf : Wf net d) (n : Nat) : n ∉ net.pred n ∧ n ∉ net.succ n := by
  obtain ⟨rank, hr⟩ := wf.acyclic
  exact ⟨fun h => by have := hr n n ((wf.edges n n).2 h); omega, fun h => by have := hr n n h; omega⟩

theorem get?_upd (d : Dict Nat Int) (n : Nat) (v : Int) : (fun x => (d.set n v).get? x) = upd (fun x => d.get? x) n v := by
  funext x
  simp only [upd, Dict.get?_set]

theorem get?_upd_neg (d : Dict Nat Int) (n : Nat) (v : Int) : (fun x => ((d.set n v).get? x).map (fun x => -x)) = upd (fun x => (d.get? x).map (fun x => -x)) n (-v) := by
  funext x
  simp only [upd, Dict.get?_set]
  split <;> simp

/-- How many activities have no date yet. -/
def missing (nodes : List Nat) (S : Nat → Option Int) : Nat := (nodes.filter (fun n => (S n).isNone)).length

theorem missing_upd {nodes : List Nat} {S : Nat → Option Int} {n : Nat} {v : Int} (hnd : nodes.Nodup) (hn : n ∈ nodes) (hs : S n = none) :
    missing nodes (upd S n v) + 1 = missing nodes S := by
  unfold missing
  induction nodes with
  | nil => cases hn
  | cons a l ih =>
    rw [List.nodup_cons] at hnd
    rcases List.mem_cons.1 hn with rfl | h
    · have : l.filter (fun x => (upd S n v x).isNone) = l.filter (fun x => (S x).isNone) := by
        apply List.filter_congr
        intro x hx
        have : x ≠ n := by rintro rfl; exact hnd.1 hx
        simp [upd, this]
      simp only [List.filter_cons, hs, Option.isNone_none, ↓reduceIte, List.length_cons, this]
      simp [upd]
    · have hne : a ≠ n := by rintro rfl; exact hnd.1 h
      have := ih hnd.2 h
      have hup : upd S n v a = S a := by simp [upd, hne]
      simp only [List.filter_cons, hup]
      split
      · simp only [List.length_cons]; omega
      · exact this

/-- The entries of the queue that will be skipped. -/
def stale (S : Nat → Option Int) (q : List (Int × Nat)) : Nat := (q.filter (fun e => (S e.2).isSome)).length

theorem missing_zero {nodes : List Nat} {S : Nat → Option Int} : missing nodes S = 0 ↔ ∀ n ∈ nodes, S n ≠ none := by
  unfold missing
  rw [List.length_eq_zero_iff, List.filter_eq_nil_iff]
  simp

theorem closed_all {prev next : Nat → List Nat} {nodes : List Nat} {dur : Nat → Nat} {base : Int} {S F : Nat → Option Int} {q : List (Int × Nat)}
    {last : Nat} (h : GInv prev nodes dur base S F q []) (hsym : ∀ n m, m ∈ next n ↔ n ∈ prev m) (hmem : ∀ n m, m ∈ next n → m ∈ nodes)
    (hfound : ∀ l : List Nat, l ≠ [] → ∃ x ∈ l, ∀ y ∈ l, y ∉ next x) (hlast : ∀ n ∈ nodes, next n = [] → n = last) (hdone : S last ≠ none) :
    ∀ n ∈ nodes, S n ≠ none := by
  intro n hn hs
  obtain ⟨x, hx, hmax⟩ := hfound (nodes.filter (fun n => (S n).isNone)) (by
    intro e
    have : n ∈ nodes.filter (fun n => (S n).isNone) := List.mem_filter.2 ⟨hn, by simp [hs]⟩
    rw [e] at this; cases this)
  obtain ⟨hxn, hxs⟩ := List.mem_filter.1 hx
  have hxs : S x = none := by simpa using hxs
  rcases hnx : next x with _ | ⟨y, r⟩
  · have := hlast x hxn hnx
    subst this
    exact hdone hxs
  · have hy : y ∈ next x := by rw [hnx]; simp
    have hyn := hmem x y hy
    have hSy : S y ≠ none := fun e => hmax y (List.mem_filter.2 ⟨hyn, by simp [e]⟩) hy
    obtain ⟨s, hs⟩ := Option.ne_none_iff_exists'.1 hSy
    obtain ⟨s', hs'⟩ := h.closed y s hs x ((hsym x y).1 hy)
    rw [hxs] at hs'; cases hs'

theorem queue_nil {prev : Nat → List Nat} {nodes : List Nat} {dur : Nat → Nat} {base : Int} {S F : Nat → Option Int} {q : List (Int × Nat)}
    (h : GInv prev nodes dur base S F q []) (hall : ∀ n ∈ nodes, S n ≠ none) (hst : stale S q = 0) : q = [] := by
  rcases q with _ | ⟨⟨t, n⟩, q⟩
  · rfl
  · have hn := hall n (h.entry t n (by simp)).1
    have : (S n).isSome := Option.isSome_iff_ne_none.2 hn
    simp [stale, this] at hst

theorem stale_pop {prev : Nat → List Nat} {nodes : List Nat} {dur : Nat → Nat} {base : Int} {S F : Nat → Option Int} {q : List (Int × Nat)}
    {t : Int} {n : Nat} (h : GInv prev nodes dur base S F ((t, n) :: q) []) (hn : S n = none) : stale (upd S n t) q = stale S q := by
  unfold stale
  congr 1
  apply List.filter_congr
  intro e he
  unfold upd
  split
  · rename_i hen
    have := h.nodup
    simp only [List.map_cons, List.filter_cons, hn, Option.isNone_none, ↓reduceIte, List.nodup_cons] at this
    exact absurd (List.mem_filter.2 ⟨List.mem_map.2 ⟨e, he, hen⟩, by simp [hn]⟩) this.1
  · rfl

theorem pushAllF_stale {net : Network} {S : Nat → Option Int} : ∀ (ms : List Nat) (st st' : St), (∀ m ∈ ms, S m = none) →
    pushAll (pushForward net) st ms = .ok st' → stale S st'.queue = stale S st.queue := by
  intro ms
  induction ms with
  | nil => intro st st' _ h; cases h; rfl
  | cons m ms ih =>
    intro st st' hms h
    obtain ⟨st1, h1, h2⟩ := bind_eq_ok.1 h
    rw [ih st1 st' (fun x hx => hms x (by simp [hx])) h2]
    unfold pushForward at h1
    split at h1
    · obtain ⟨vs, _, h3⟩ := bind_eq_ok.1 h1
      split at h3
      · cases h3
        unfold stale
        rw [((push_perm _ _).filter _).length_eq, List.filter_cons]
        simp [hms m (by simp)]
      · cases h3
    · cases h1; rfl

theorem pushAllB_stale {net : Network} {S : Nat → Option Int} : ∀ (ms : List Nat) (st st' : St), (∀ m ∈ ms, S m = none) →
    pushAll (pushBackward net) st ms = .ok st' → stale S st'.queue = stale S st.queue := by
  intro ms
  induction ms with
  | nil => intro st st' _ h; cases h; rfl
  | cons m ms ih =>
    intro st st' hms h
    obtain ⟨st1, h1, h2⟩ := bind_eq_ok.1 h
    rw [ih st1 st' (fun x hx => hms x (by simp [hx])) h2]
    unfold pushBackward at h1
    split at h1
    · obtain ⟨vs, _, h3⟩ := bind_eq_ok.1 h1
      split at h3
      · cases h3
        unfold stale
        rw [((push_perm _ _).filter _).length_eq, List.filter_cons]
        simp [hms m (by simp)]
      · cases h3
    · cases h1; rfl

/-- The forward sweep ends with all earliest dates known and only the sink in the queue. -/
theorem forward_ok {net : Network} {d : Nat → Nat} (wf : Wf net d) : ∀ (k : Nat) (st : St),
    GInv net.pred net.nodes d 0 (fun n => st.esd.get? n) (fun n => st.efd.get? n) st.queue [] →
    stale (fun n => st.esd.get? n) st.queue = 0 → missing net.nodes (fun n => st.esd.get? n) = k → st.forward = true → st.esd.get? net.sink = none →
    ∃ esd efd e, (∀ fuel, run net (fuel + k) st = run net fuel { st with esd := esd, efd := efd, queue := [(-e, net.sink)], forward := false }) ∧
      GInv net.pred net.nodes d 0 (fun n => esd.get? n) (fun n => efd.get? n) [] [] ∧ efd.get? net.sink = some e ∧ ∀ n ∈ net.nodes, esd.get? n ≠ none := by
  intro k
  induction k with
  | zero =>
    intro st h hst hk hf hs
    exact absurd hs (missing_zero.1 hk _ wf.sink.1)
  | succ k ih =>
    intro st h hst hk hf hs
    have hprev : ∀ n ∈ net.nodes, ∀ p ∈ net.pred n, p ∈ net.nodes := fun n _ p hp => (wf.mem p n ((wf.edges p n).2 hp)).1
    have hq := queue_ne_nil h hprev (acyclicF wf) wf.sink.1 hs
    rcases hqq : st.queue with _ | ⟨⟨t, n⟩, q⟩
    · exact absurd hqq hq
    rw [hqq] at h hst
    have hn : st.esd.get? n = none := by
      rcases e : st.esd.get? n with _ | s
      · rfl
      · simp [stale, e] at hst
    have hst' : stale (fun n => st.esd.get? n) q = 0 := by simpa [stale, List.filter_cons, hn] using hst
    have hnn := (h.entry t n (by simp)).1
    have hpop := pop_fresh (next := net.succ) h hn (fun m => wf.edges n m) (fun m hm => (wf.mem n m hm).2) (wf.once n).1 (no_self wf n).1
    rw [← get?_upd, ← get?_upd] at hpop
    obtain ⟨q', h1, h2⟩ := pushAllF (net.succ n) { st with queue := q, esd := st.esd.set n t, efd := st.efd.set n (t + d n) } hpop
    have hstq := pushAllF_stale (S := fun x => (st.esd.set n t).get? x) (net.succ n) _ _ (fun m hm => (hpop.todo.2 m hm).2.1) h1
    simp only at hstq
    rw [get?_upd, stale_pop h hn, hst'] at hstq
    simp only [hf] at h1
    have hmiss : missing net.nodes (fun x => (st.esd.set n t).get? x) = k := by
      rw [get?_upd]
      have := missing_upd (S := fun n => st.esd.get? n) (v := t) wf.nodup hnn hn
      omega
    have hcont : st.esd.contains n = false := by rw [Dict.contains_eq, hn]; rfl
    have hvisit : ∀ fuel, run net (fuel + (k + 1)) st =
        (turn net { st with queue := q', esd := st.esd.set n t, efd := st.efd.set n (t + d n) } n >>= fun st' => run net (fuel + k) st') := by
      intro fuel
      rw [← Nat.add_assoc, run]
      simp only [hqq, visit, hf, ↓reduceIte, hcont, Bool.false_eq_true, minDuration_ok wf hnn, bind_ok, h1]
    by_cases hns : n = net.sink
    · subst hns
      have hall : ∀ x ∈ net.nodes, (st.esd.set net.sink t).get? x ≠ none :=
        closed_all h2 wf.edges (fun a b hb => (wf.mem a b hb).2) (acyclicB wf) (fun x hx he => (wf.sink.2 x hx).1 he) (by rw [Dict.get?_set_self]; simp)
      have hnil : q' = [] := queue_nil h2 hall (by rw [get?_upd]; exact hstq)
      subst hnil
      have hk0 : k = 0 := by rw [← hmiss]; exact missing_zero.2 hall
      subst hk0
      refine ⟨_, _, t + d net.sink, ?_, h2, Dict.get?_set_self .., hall⟩
      intro fuel
      rw [hvisit]
      simp only [turn, ↓reduceIte, Dict.get?_set_self, bind_ok, push, Nat.add_zero]
    · obtain ⟨esd, efd, e, g1, g2, g3, g4⟩ := ih { st with queue := q', esd := st.esd.set n t, efd := st.efd.set n (t + d n) } h2
        (by rw [get?_upd]; exact hstq) hmiss hf (by simp only; rw [Dict.get?_set_ne _ _ (fun e => hns e.symm)]; exact hs)
      refine ⟨esd, efd, e, ?_, g2, g3, g4⟩
      intro fuel
      rw [hvisit]
      simp only [turn, hns, ↓reduceIte, bind_ok]
      exact g1 fuel

/-- The backward sweep ends with all latest dates known. -/
theorem backward_ok {net : Network} {d : Nat → Nat} {base : Int} (wf : Wf net d) : ∀ (k : Nat) (st : St),
    GInv net.succ net.nodes d base (fun n => (st.lfd.get? n).map (fun x => -x)) (fun n => (st.lsd.get? n).map (fun x => -x)) st.queue [] →
    missing net.nodes (fun n => (st.lfd.get? n).map (fun x => -x)) + stale (fun n => (st.lfd.get? n).map (fun x => -x)) st.queue +
      (if st.lfd.get? net.sink = none then 1 else 0) = k → st.forward = false → (∃ e, st.efd.get? net.sink = some e) →
    ∃ lsd lfd, (∀ fuel, run net (fuel + k) st = .ok (some { st with lsd := lsd, lfd := lfd, queue := [] })) ∧
      GInv net.succ net.nodes d base (fun n => (lfd.get? n).map (fun x => -x)) (fun n => (lsd.get? n).map (fun x => -x)) [] [] ∧
      ∀ n ∈ net.nodes, lfd.get? n ≠ none := by
  intro k
  induction k with
  | zero =>
    intro st h hk hf he
    have hall : ∀ n ∈ net.nodes, (st.lfd.get? n).map (fun x => -x) ≠ none := missing_zero.1 (by omega)
    have hnil := queue_nil h hall (by omega)
    refine ⟨st.lsd, st.lfd, ?_, by rw [hnil] at h; exact h, fun n hn e => hall n hn (by simp [e])⟩
    intro fuel
    have hst : st = { st with lsd := st.lsd, lfd := st.lfd, queue := [] } := by rw [← hnil]
    rcases fuel with _ | fuel
    · rw [run]; simp only [hnil]; rw [← hst]
    · rw [Nat.add_zero, run]; simp only [hnil]; rw [← hst]
  | succ k ih =>
    intro st h hk hf he
    have hprev : ∀ n ∈ net.nodes, ∀ p ∈ net.succ n, p ∈ net.nodes := fun n _ p hp => (wf.mem n p hp).2
    have hq : st.queue ≠ [] := by
      intro hq
      rw [hq] at hk
      by_cases hm : missing net.nodes (fun n => (st.lfd.get? n).map (fun x => -x)) = 0
      · have := missing_zero.1 hm net.sink wf.sink.1
        have hne : st.lfd.get? net.sink ≠ none := fun e => this (by simp [e])
        simp [stale, hm, hne] at hk
      · have : ¬ ∀ n ∈ net.nodes, (st.lfd.get? n).map (fun x => -x) ≠ none := fun h => hm (missing_zero.2 h)
        obtain ⟨x, hx⟩ := Classical.not_forall.1 this
        obtain ⟨hx1, hx2⟩ := Classical.not_imp.1 hx
        exact queue_ne_nil h hprev (acyclicB wf) hx1 (Classical.not_not.1 hx2) hq
    rcases hqq : st.queue with _ | ⟨⟨t, n⟩, q⟩
    · exact absurd hqq hq
    rw [hqq] at h hk
    have hnn := (h.entry t n (by simp)).1
    rcases hn : st.lfd.get? n with _ | s
    · have hn' : (st.lfd.get? n).map (fun x => -x) = none := by simp [hn]
      have hpop := pop_fresh (next := net.pred) h hn' (fun m => (wf.edges m n).symm) (fun m hm => (wf.mem m n ((wf.edges m n).2 hm)).1) (wf.once n).2 (no_self wf n).2
      have hdn : upd (fun n => (st.lsd.get? n).map (fun x => -x)) n (t + d n) = fun x => ((st.lsd.set n (-t - d n)).get? x).map (fun x => -x) := by
        rw [get?_upd_neg]; congr 1; omega
      have htn : upd (fun n => (st.lfd.get? n).map (fun x => -x)) n t = fun x => ((st.lfd.set n (-t)).get? x).map (fun x => -x) := by
        rw [get?_upd_neg]; congr 1; omega
      have hspop := stale_pop h hn'
      have hmup := missing_upd (S := fun n => (st.lfd.get? n).map (fun x => -x)) (v := t) wf.nodup hnn hn'
      rw [htn, hdn] at hpop
      rw [htn] at hspop hmup
      obtain ⟨q', h1, h2⟩ := pushAllB (net.pred n) { st with queue := q, lfd := st.lfd.set n (-t), lsd := st.lsd.set n (-t - d n) } hpop
      have hstq := pushAllB_stale (S := fun x => ((st.lfd.set n (-t)).get? x).map (fun x => -x)) (net.pred n) _ _ (fun m hm => (hpop.todo.2 m hm).2.1) h1
      simp only at hstq
      rw [hspop] at hstq
      simp only [hf] at h1
      have hst0 : stale (fun n => (st.lfd.get? n).map (fun x => -x)) ((t, n) :: q) = stale (fun n => (st.lfd.get? n).map (fun x => -x)) q := by
        simp [stale, hn]
      have hcont : st.lfd.contains n = false := by rw [Dict.contains_eq, hn]; rfl
      have hvisit : ∀ fuel, run net (fuel + (k + 1)) st =
          (turn net { st with queue := q', lfd := st.lfd.set n (-t), lsd := st.lsd.set n (-t - d n) } n >>= fun st' => run net (fuel + k) st') := by
        intro fuel
        rw [← Nat.add_assoc, run]
        simp only [hqq, visit, hf, ↓reduceIte, hcont, Bool.false_eq_true, minDuration_ok wf hnn, bind_ok, h1]
      by_cases hns : n = net.sink
      · subst hns
        obtain ⟨e, he'⟩ := he
        have h3 := add_stale (t := -e) (n := net.sink) h2 (by simp [Dict.get?_set_self]) (push_perm _ _)
        have hs3 : stale (fun x => ((st.lfd.set net.sink (-t)).get? x).map (fun x => -x)) (push (-e, net.sink) q') =
            stale (fun x => ((st.lfd.set net.sink (-t)).get? x).map (fun x => -x)) q' + 1 := by
          unfold stale
          rw [((push_perm _ _).filter _).length_eq, List.filter_cons]
          simp [Dict.get?_set_self]
        obtain ⟨lsd, lfd, g1, g2, g3⟩ := ih { st with queue := push (-e, net.sink) q', lfd := st.lfd.set net.sink (-t), lsd := st.lsd.set net.sink (-t - d net.sink), forward := false } h3
          (by
            simp only [hs3, hstq, Dict.get?_set_self]
            simp only [hn, ↓reduceIte, hst0] at hk
            simp
            omega) rfl ⟨e, he'⟩
        refine ⟨lsd, lfd, ?_, g2, g3⟩
        intro fuel
        rw [hvisit]
        simp only [turn, ↓reduceIte, he', bind_ok]
        rw [g1 fuel, ← hf]
      · obtain ⟨lsd, lfd, g1, g2, g3⟩ := ih { st with queue := q', lfd := st.lfd.set n (-t), lsd := st.lsd.set n (-t - d n) } h2
          (by
            have hsame : (st.lfd.set n (-t)).get? net.sink = st.lfd.get? net.sink := Dict.get?_set_ne _ _ (fun e => hns e.symm)
            simp only [hsame, hstq]
            simp only [hst0] at hk
            omega) hf he
        refine ⟨lsd, lfd, ?_, g2, g3⟩
        intro fuel
        rw [hvisit]
        simp only [turn, hns, ↓reduceIte, bind_ok]
        exact g1 fuel
    · have hcont : st.lfd.contains n = true := by rw [Dict.contains_eq, hn]; rfl
      obtain ⟨lsd, lfd, g1, g2, g3⟩ := ih { st with queue := q } (pop_stale h (by simp [hn])) (by
        have : stale (fun n => (st.lfd.get? n).map (fun x => -x)) ((t, n) :: q) = stale (fun n => (st.lfd.get? n).map (fun x => -x)) q + 1 := by
          simp [stale, hn]
        simp only [this] at hk
        simp only
        omega) hf he
      refine ⟨lsd, lfd, ?_, g2, g3⟩
      intro fuel
      rw [← Nat.add_assoc, run]
      simp only [hqq, visit, hf, Bool.false_eq_true, ↓reduceIte, hcont, bind_ok]
      rw [hf] at g1
      exact g1 fuel

end Verif.Cpm
