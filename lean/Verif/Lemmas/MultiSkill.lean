import Mathlib.Algebra.Order.Ring.Rat
import Mathlib.Tactic.Linarith
import Mathlib.Tactic.Ring
import Verif.Model.MultiSkill
import Verif.Lemmas.RcpspSpec
/- The loops of multi-skill schedule generation. -/
namespace Verif.MultiSkill
open Verif.Rcpsp (Mode dict_get_ok)

/-- The resources suffice for `m` at time `t`. -/
def Fits (m : Mode) (rows : Dict String (List Int)) (t : Nat) : Prop :=
  ∀ p ∈ rows, ∃ a n, p.2[t]? = some a ∧ m.needs.get? p.1 = some n ∧ n ≤ a

/-- Some resource does not suffice for `m` at time `t`. -/
def Lacks (m : Mode) (rows : Dict String (List Int)) (t : Nat) : Prop :=
  ∃ p ∈ rows, ∃ a n, p.2[t]? = some a ∧ m.needs.get? p.1 = some n ∧ a < n

theorem checkRes_spec (H t : Nat) (m : Mode) : ∀ (rows : Dict String (List Int)) (v : Bool × Bool), checkRes H t m rows = .ok v →
    (v.1 = true → v.2 = false ∧ (rows = [] ∨ t < H) ∧ Fits m rows t) ∧
    (v.1 = false → v.2 = false → t < H ∧ Lacks m rows t) := by
  intro rows
  induction rows with
  | nil => intro v h; cases h; exact ⟨fun _ => ⟨rfl, .inl rfl, fun p hp => by cases hp⟩, fun h => by cases h⟩
  | cons p rows ih =>
    intro v h
    obtain ⟨res, row⟩ := p
    simp only [checkRes] at h
    split at h
    · rename_i ht
      obtain ⟨a, ha, h⟩ := bind_eq_ok.1 h
      obtain ⟨n, hn, h⟩ := bind_eq_ok.1 h
      have ha := pyGet_ok_iff.1 ha
      have hn := dict_get_ok.1 hn
      split at h
      · rename_i hlt
        cases h
        exact ⟨fun h => by (cases h), fun _ _ => ⟨ht, (res, row), List.mem_cons_self, a, n, ha, hn, hlt⟩⟩
      · rename_i hlt
        obtain ⟨h1, h2⟩ := ih v h
        refine ⟨fun hv => ?_, fun hv hf => ?_⟩
        · obtain ⟨g1, _, g3⟩ := h1 hv
          refine ⟨g1, .inr ht, fun q hq => ?_⟩
          rcases List.mem_cons.1 hq with rfl | hq
          · exact ⟨a, n, ha, hn, by omega⟩
          · exact g3 q hq
        · obtain ⟨_, q, hq, g⟩ := h2 hv hf
          exact ⟨ht, q, List.mem_cons_of_mem _ hq, g⟩
    · cases h
      exact ⟨fun h => by (cases h), fun _ h => by (cases h)⟩

theorem checkWindow_spec (H : Nat) (m : Mode) (rows : Dict String (List Int)) : ∀ (n c : Nat) (v : Bool × Bool), checkWindow H m rows n c = .ok v →
    (v.1 = true → v.2 = false ∧ ∀ t, c ≤ t → t < c + n → (rows = [] ∨ t < H) ∧ Fits m rows t) ∧
    (v.1 = false → v.2 = false → ∃ t, c ≤ t ∧ t < c + n ∧ t < H ∧ Lacks m rows t) := by
  intro n
  induction n with
  | zero => intro c v h; cases h; exact ⟨fun _ => ⟨rfl, fun t h1 h2 => by omega⟩, fun h => by (cases h)⟩
  | succ n ih =>
    intro c v h
    simp only [checkWindow] at h
    obtain ⟨u, hu, h⟩ := bind_eq_ok.1 h
    obtain ⟨g1, g2⟩ := checkRes_spec _ _ _ _ _ hu
    split at h
    · rename_i hu1
      obtain ⟨h1, h2⟩ := ih _ _ h
      obtain ⟨_, k2, k3⟩ := g1 hu1
      refine ⟨fun hv => ⟨(h1 hv).1, fun t t1 t2 => ?_⟩, fun hv hf => ?_⟩
      · by_cases e : t = c
        · subst e; exact ⟨k2, k3⟩
        · exact (h1 hv).2 t (by omega) (by omega)
      · obtain ⟨t, t1, t2, t3⟩ := h2 hv hf
        exact ⟨t, by omega, by omega, t3⟩
    · rename_i hu1
      cases h
      refine ⟨fun hv => absurd hv hu1, fun hv hf => ?_⟩
      obtain ⟨k1, k2⟩ := g2 hv hf
      exact ⟨c, le_refl _, by omega, k1, k2⟩

theorem allTrue_spec (cal : List Bool) : ∀ (n c : Nat) (b : Bool), allTrue cal n c = .ok b →
    (b = true → ∀ t, c ≤ t → t < c + n → cal[t]? = some true) ∧ (b = false → ∃ t, c ≤ t ∧ t < c + n ∧ cal[t]? = some false) := by
  intro n
  induction n with
  | zero => intro c b h; cases h; exact ⟨fun _ t h1 h2 => by omega, fun h => by (cases h)⟩
  | succ n ih =>
    intro c b h
    simp only [allTrue] at h
    obtain ⟨x, hx, h⟩ := bind_eq_ok.1 h
    have hx := pyGet_ok_iff.1 hx
    cases x with
    | true =>
      obtain ⟨h1, h2⟩ := ih _ _ h
      refine ⟨fun hb t t1 t2 => ?_, fun hb => ?_⟩
      · by_cases e : t = c
        · subst e; exact hx
        · exact h1 hb t (by omega) (by omega)
      · obtain ⟨t, t1, t2, t3⟩ := h2 hb
        exact ⟨t, by omega, by omega, t3⟩
    | false =>
      cases h
      exact ⟨fun h => by (cases h), fun _ => ⟨c, le_refl _, by omega, hx⟩⟩

/-- The free workers are those whose calendar has no gap in the window. -/
theorem freeWorkers_spec (n c : Nat) : ∀ (ws : Workers) (ids : List (Nat × Employee)), freeWorkers n c ws = .ok ids →
    (∀ w e, (w, e) ∈ ids → ∃ cal, (w, (e, cal)) ∈ ws ∧ ∀ t, c ≤ t → t < c + n → cal[t]? = some true) ∧
    (∀ w e cal, (w, (e, cal)) ∈ ws → (w, e) ∈ ids ∨ ∃ t, c ≤ t ∧ t < c + n ∧ cal[t]? = some false) ∧
    (ids.map Prod.fst).Sublist ws.keys := by
  intro ws
  induction ws with
  | nil => intro ids h; cases h; simp [Dict.keys]
  | cons p ws ih =>
    intro ids h
    obtain ⟨w, e, cal⟩ := p
    simp only [freeWorkers] at h
    obtain ⟨b, hb, h⟩ := bind_eq_ok.1 h
    obtain ⟨r, hr, h⟩ := bind_eq_ok.1 h
    cases h
    obtain ⟨g1, g2, g3⟩ := ih r hr
    obtain ⟨k1, k2⟩ := allTrue_spec _ _ _ _ hb
    cases b with
    | true =>
      refine ⟨fun w' e' h => ?_, fun w' e' cal' h => ?_, ?_⟩
      · rcases List.mem_cons.1 h with h | h
        · cases h; exact ⟨cal, List.mem_cons_self, k1 rfl⟩
        · obtain ⟨cal', hc, hf⟩ := g1 w' e' h
          exact ⟨cal', List.mem_cons_of_mem _ hc, hf⟩
      · rcases List.mem_cons.1 h with h | h
        · cases h; exact .inl List.mem_cons_self
        · rcases g2 w' e' cal' h with h | h
          · exact .inl (List.mem_cons_of_mem _ h)
          · exact .inr h
      · exact g3.cons_cons _
    | false =>
      refine ⟨fun w' e' h => ?_, fun w' e' cal' h => ?_, ?_⟩
      · obtain ⟨cal', hc, hf⟩ := g1 w' e' h
        exact ⟨cal', List.mem_cons_of_mem _ hc, hf⟩
      · rcases List.mem_cons.1 h with h | h
        · cases h; exact .inr (k2 rfl)
        · exact g2 w' e' cal' h
      · exact g3.cons _

theorem trial_spec {pb : Problem} {m : Mode} {rows : Dict String (List Int)} {ws : Workers} {c : Nat} {v : Bool × Bool × Option (List Nat)}
    (h : trial pb m rows ws c = .ok v) (hn : v.2.1 = false) :
    (v.1 = true → checkWindow pb.newHorizon m rows m.duration c = .ok (true, false) ∧ staff pb m ws c = .ok (true, v.2.2)) ∧
    (v.1 = false → checkWindow pb.newHorizon m rows m.duration c = .ok (false, false) ∨ ∃ x, staff pb m ws c = .ok (false, x)) := by
  simp only [trial] at h
  obtain ⟨⟨u1, u2⟩, hu, h⟩ := bind_eq_ok.1 h
  cases u1 with
  | true =>
    simp only [↓reduceIte] at h
    obtain ⟨⟨s1, s2⟩, hs, h⟩ := bind_eq_ok.1 h
    cases h
    simp only at hn
    subst hn
    exact ⟨fun hv => by simp only at hv; subst hv; exact ⟨hu, hs⟩, fun hv => by simp only at hv; subst hv; exact .inr ⟨_, hs⟩⟩
  | false =>
    cases h
    simp only at hn
    subst hn
    exact ⟨fun hv => by (cases hv), fun _ => .inl hu⟩

/-- What the search finds when neither flag is set. -/
theorem search_spec (pb : Problem) (m : Mode) (rows : Dict String (List Int)) (ws : Workers) : ∀ (fuel c0 : Nat) (nr : Bool) (f : Found),
    search pb m rows ws fuel c0 nr = .ok f → f.nr = false → f.late = false →
    nr = false ∧ c0 ≤ f.time ∧ f.time + m.duration < pb.horizon ∧ f.time ≤ pb.newHorizon ∧
    checkWindow pb.newHorizon m rows m.duration f.time = .ok (true, false) ∧ staff pb m ws f.time = .ok (true, f.ids) ∧
    ∀ s, c0 ≤ s → s < f.time → checkWindow pb.newHorizon m rows m.duration s = .ok (false, false) ∨
      ∃ x, staff pb m ws s = .ok (false, x) := by
  intro fuel
  induction fuel with
  | zero => intro c0 nr f h; cases h
  | succ fuel ih =>
    intro c0 nr f h hn hl
    simp only [search] at h
    obtain ⟨r, hr, h⟩ := bind_eq_ok.1 h
    simp only [attempt] at hr
    split at hr
    · cases hr; cases h; cases hl
    · rename_i hh
      obtain ⟨v, hv, hr⟩ := bind_eq_ok.1 hr
      split at hr
      · rename_i hs1
        cases hr; cases h
        simp only [Bool.or_eq_false_iff, decide_eq_false_iff_not] at hn hl
        obtain ⟨g1, g2⟩ := (trial_spec hv hn.2).1 hs1
        exact ⟨hn.1, le_refl _, by simp only; omega, by simp only; omega, g1, g2, fun s h1 h2 => by simp only at h2; omega⟩
      · rename_i hs1
        split at hr
        · cases hr; cases h; cases hl
        · cases hr
          obtain ⟨g1, g2, g3, g4, g5, g6, g7⟩ := ih _ _ _ h hn hl
          simp only [Bool.or_eq_false_iff] at g1 g2
          refine ⟨g1.1, by omega, g3, g4, g5, g6, fun s' h1 h2 => ?_⟩
          by_cases e : s' = c0
          · subst e
            exact (trial_spec hv g1.2).2 (by simpa using hs1)
          · exact g7 s' (by simp only; omega) h2

theorem err_bind {x : Except PyErr α} {f : α → Except PyErr β} {e : PyErr} (h : x >>= f = .error e) : x = .error e ∨ ∃ a, x = .ok a ∧ f a = .error e := by
  cases x with
  | error e' => cases h; exact .inl rfl
  | ok a => exact .inr ⟨a, rfl, h⟩

theorem pyGet_err {l : List α} {i : Nat} : pyGet l i ≠ .error .runtimeError := by
  unfold pyGet; split <;> simp

theorem dict_err {d : Dict κ α} [DecidableEq κ] {k : κ} : d.get k ≠ .error .runtimeError := by
  unfold Dict.get; split <;> simp

theorem checkRes_err (H t : Nat) (m : Mode) : ∀ rows : Dict String (List Int), checkRes H t m rows ≠ .error .runtimeError := by
  intro rows
  induction rows with
  | nil => simp [checkRes]
  | cons p rows ih =>
    intro h
    simp only [checkRes] at h
    split at h
    · rcases err_bind h with h | ⟨a, _, h⟩
      · exact pyGet_err h
      · rcases err_bind h with h | ⟨n, _, h⟩
        · exact dict_err h
        · split at h
          · cases h
          · exact ih h
    · cases h

theorem checkWindow_err (H : Nat) (m : Mode) (rows : Dict String (List Int)) : ∀ n c, checkWindow H m rows n c ≠ .error .runtimeError := by
  intro n
  induction n with
  | zero => intro c; simp [checkWindow]
  | succ n ih =>
    intro c h
    simp only [checkWindow] at h
    rcases err_bind h with h | ⟨v, _, h⟩
    · exact checkRes_err _ _ _ _ h
    · split at h
      · exact ih _ h
      · cases h

theorem allTrue_err (cal : List Bool) : ∀ n c, allTrue cal n c ≠ .error .runtimeError := by
  intro n
  induction n with
  | zero => intro c; simp [allTrue]
  | succ n ih =>
    intro c h
    simp only [allTrue] at h
    rcases err_bind h with h | ⟨v, _, h⟩
    · exact pyGet_err h
    · split at h
      · exact ih _ h
      · cases h

theorem freeWorkers_err (n c : Nat) : ∀ ws : Workers, freeWorkers n c ws ≠ .error .runtimeError := by
  intro ws
  induction ws with
  | nil => simp [freeWorkers]
  | cons p ws ih =>
    intro h
    simp only [freeWorkers] at h
    rcases err_bind h with h | ⟨v, _, h⟩
    · exact allTrue_err _ _ _ h
    · rcases err_bind h with h | ⟨r, _, h⟩
      · exact ih h
      · cases h

theorem trial_err (pb : Problem) (m : Mode) (rows : Dict String (List Int)) (ws : Workers) (c : Nat) : trial pb m rows ws c ≠ .error .runtimeError := by
  intro h
  simp only [trial] at h
  rcases err_bind h with h | ⟨v, _, h⟩
  · exact checkWindow_err _ _ _ _ _ h
  · split at h
    · rcases err_bind h with h | ⟨s, _, h⟩
      · unfold staff at h
        split at h
        · cases h
        · rcases err_bind h with h | ⟨ids, _, h⟩
          · exact freeWorkers_err _ _ _ h
          · split at h
            · split at h <;> cases h
            · split at h <;> cases h
      · cases h
    · cases h

/-- The search needs no more rounds than the model gives it. -/
theorem search_fuel (pb : Problem) (m : Mode) (rows : Dict String (List Int)) (ws : Workers) : ∀ (fuel c : Nat) (nr : Bool), pb.horizon < c + fuel →
    search pb m rows ws fuel c nr ≠ .error .runtimeError ∨ (fuel = 0 ∧ pb.horizon < c) := by
  intro fuel
  induction fuel with
  | zero => intro c nr h; exact .inr ⟨rfl, by omega⟩
  | succ fuel ih =>
    intro c nr hc
    left
    intro h
    simp only [search] at h
    rcases err_bind h with h | ⟨r, hr, h⟩
    · simp only [attempt] at h
      split at h
      · cases h
      · rcases err_bind h with h | ⟨v, _, h⟩
        · exact trial_err _ _ _ _ _ h
        · split at h
          · cases h
          · split at h <;> cases h
    · simp only [attempt] at hr
      split at hr
      · cases hr; cases h
      · rename_i hh
        obtain ⟨v, hv, hr⟩ := bind_eq_ok.1 hr
        split at hr
        · cases hr; cases h
        · split at hr
          · cases hr; cases h
          · cases hr
            rcases ih (c + 1) (nr || v.2.1) (by omega) with g | ⟨g1, g2⟩
            · exact g h
            · omega

/-! ### The loop over workers -/

/-- The loop engages the workers at hand in the order of the list, until the requirement is met. -/
theorem assign_spec (req : Dict String Int) (ids : List Nat) (n c : Nat) : ∀ (l : List Nat) (st : Asg), ∃ k,
    assign req ids n c l st = ((l.take k).filter (· ∈ ids)).foldl (engage n c) st ∧
    (met req (assign req ids n c l st).current = true ∨ k = l.length) ∧
    (∀ j, 0 < j → j < k → met req (((l.take j).filter (· ∈ ids)).foldl (engage n c) st).current = false) := by
  intro l
  induction l with
  | nil => intro st; exact ⟨0, rfl, .inr rfl, fun j _ h => by omega⟩
  | cons w l ih =>
    intro st
    have hu : useWorker ids n c w st = (([w] : List Nat).filter (· ∈ ids)).foldl (engage n c) st := by
      unfold useWorker
      by_cases hw : w ∈ ids
      · simp [hw]
      · simp [hw]
    have hcons : ∀ k, ((w :: l).take (k + 1)).filter (· ∈ ids) = (([w] : List Nat).filter (· ∈ ids)) ++ (l.take k).filter (· ∈ ids) := by
      intro k
      rw [List.take_succ_cons, ← List.filter_append]
      rfl
    simp only [assign]
    by_cases hm : met req (useWorker ids n c w st).current = true
    · refine ⟨1, ?_, ?_, fun j h1 h2 => by omega⟩
      · rw [if_pos hm, hcons 0, hu]; simp
      · rw [if_pos hm]; exact .inl hm
    · rw [if_neg hm]
      obtain ⟨k, h1, h2, h3⟩ := ih (useWorker ids n c w st)
      refine ⟨k + 1, ?_, ?_, ?_⟩
      · rw [h1, hcons, List.foldl_append, hu]
      · rcases h2 with h2 | h2
        · exact .inl h2
        · exact .inr (by simp [h2])
      · intro j j1 j2
        obtain ⟨j, rfl⟩ : ∃ i, j = i + 1 := ⟨j - 1, by omega⟩
        rw [hcons, List.foldl_append, ← hu]
        rcases Nat.eq_zero_or_pos j with rfl | hj
        · simpa using hm
        · exact h3 j hj (by omega)

/-- What worker `w` has of skill `s`. -/
def skillIn (ws : Workers) (w : Nat) (s : String) : Rat :=
  match ws.get? w with
  | some (e, _) => (e.skills.get? s).getD 0
  | none => 0

theorem addSkills_spec (w : Nat) : ∀ (sk : Dict String Rat), sk.keys.Nodup → ∀ (cur : Dict String Rat) (us : Dict Nat (List String)),
    (∀ s, (addSkills w sk (cur, us)).1.get? s = (cur.get? s).map (· + (sk.get? s).getD 0)) ∧
    (addSkills w sk (cur, us)).1.keys = cur.keys ∧
    (∀ w', w' ≠ w → (addSkills w sk (cur, us)).2.get? w' = us.get? w') ∧
    (∀ s, s ∈ ((addSkills w sk (cur, us)).2.get? w).getD [] ↔ s ∈ (us.get? w).getD [] ∨ (s ∈ cur.keys ∧ s ∈ sk.keys)) ∧
    ((addSkills w sk (cur, us)).2.keys = us.keys ∨ (addSkills w sk (cur, us)).2.keys = us.keys ++ [w]) ∧
    (w ∈ (addSkills w sk (cur, us)).2.keys ↔ w ∈ us.keys ∨ ∃ s, s ∈ cur.keys ∧ s ∈ sk.keys) := by
  intro sk
  induction sk with
  | nil =>
    intro _ cur us
    refine ⟨fun s => ?_, rfl, fun _ _ => rfl, fun s => by simp [addSkills, Dict.keys], .inl rfl, by simp [addSkills, Dict.keys]⟩
    simp [addSkills]
  | cons p sk ih =>
    intro hnd cur us
    obtain ⟨s0, v⟩ := p
    simp only [Dict.keys, List.map_cons, List.nodup_cons] at hnd
    have hs0 : Dict.get? sk s0 = none := by
      rcases h : Dict.get? sk s0 with _ | x
      · rfl
      · exact absurd ((Dict.get?_isSome_iff_mem_keys sk s0).1 (by rw [h]; rfl)) hnd.1
    rcases hc : cur.get? s0 with _ | x
    · have hstep : addSkills w ((s0, v) :: sk) (cur, us) = addSkills w sk (cur, us) := by simp [addSkills, hc]
      rw [hstep]
      obtain ⟨h1, h2, h3, h4, h5, h6⟩ := ih hnd.2 cur us
      have hk : s0 ∉ cur.keys := fun h => by
        have := (Dict.get?_isSome_iff_mem_keys cur s0).2 h
        rw [hc] at this; cases this
      refine ⟨fun s => ?_, h2, h3, fun s => ?_, h5, ?_⟩
      · rw [h1 s]
        by_cases e : s0 = s
        · subst e; rw [hc]; rfl
        · simp [Dict.get?, e]
      · rw [h4 s]
        simp only [Dict.keys, List.map_cons, List.mem_cons] at hk ⊢
        constructor
        · rintro (h | ⟨h1, h2⟩)
          · exact .inl h
          · exact .inr ⟨h1, .inr h2⟩
        · rintro (h | ⟨h1, rfl | h2⟩)
          · exact .inl h
          · exact absurd h1 hk
          · exact .inr ⟨h1, h2⟩
      · rw [h6]
        simp only [Dict.keys, List.map_cons, List.mem_cons] at hk ⊢
        constructor
        · rintro (h | ⟨s, h1, h2⟩)
          · exact .inl h
          · exact .inr ⟨s, h1, .inr h2⟩
        · rintro (h | ⟨s, h1, rfl | h2⟩)
          · exact .inl h
          · exact absurd h1 hk
          · exact .inr ⟨s, h1, h2⟩
    · have hk : s0 ∈ cur.keys := (Dict.get?_isSome_iff_mem_keys cur s0).1 (by rw [hc]; rfl)
      have hstep : addSkills w ((s0, v) :: sk) (cur, us) =
          addSkills w sk (cur.set s0 (x + v), us.set w (addTo ((us.get? w).getD []) s0)) := by simp [addSkills, hc]
      rw [hstep]
      obtain ⟨h1, h2, h3, h4, h5, h6⟩ := ih hnd.2 (cur.set s0 (x + v)) (us.set w (addTo ((us.get? w).getD []) s0))
      have hkeys : (cur.set s0 (x + v)).keys = cur.keys := by rw [Dict.keys_set, if_pos hk]
      have hadd : ∀ s, s ∈ addTo ((us.get? w).getD []) s0 ↔ s ∈ (us.get? w).getD [] ∨ s = s0 := by
        intro s
        unfold addTo
        split
        · rename_i hin
          constructor
          · exact .inl
          · rintro (h | rfl)
            · exact h
            · exact hin
        · simp
      refine ⟨fun s => ?_, h2.trans hkeys, fun w' hw' => ?_, fun s => ?_, ?_, ?_⟩
      · rw [h1 s, Dict.get?_set]
        by_cases e : s = s0
        · subst e
          rw [if_pos rfl, hs0, hc]
          simp [Dict.get?]
        · rw [if_neg e]
          simp [Dict.get?, Ne.symm e]
      · rw [h3 w' hw', Dict.get?_set_ne _ _ hw']
      · rw [h4 s, hkeys, Dict.get?_set_self]
        simp only [Option.getD_some, hadd, Dict.keys, List.map_cons, List.mem_cons] at hk ⊢
        constructor
        · rintro ((h | rfl) | ⟨a, b⟩)
          · exact .inl h
          · exact .inr ⟨hk, .inl rfl⟩
          · exact .inr ⟨a, .inr b⟩
        · rintro (h | ⟨a, rfl | b⟩)
          · exact .inl (.inl h)
          · exact .inl (.inr rfl)
          · exact .inr ⟨a, b⟩
      · have : (us.set w (addTo ((us.get? w).getD []) s0)).keys = us.keys ∨ (us.set w (addTo ((us.get? w).getD []) s0)).keys = us.keys ++ [w] := by
          rw [Dict.keys_set]; split <;> simp
        have hin : w ∈ (us.set w (addTo ((us.get? w).getD []) s0)).keys := by
          rw [Dict.keys_set]; split
          · assumption
          · simp
        have hsame : (addSkills w sk (cur.set s0 (x + v), us.set w (addTo ((us.get? w).getD []) s0))).2.keys =
            (us.set w (addTo ((us.get? w).getD []) s0)).keys := by
          rcases h5 with h5 | h5
          · exact h5
          · exfalso
            have hnodup : ∀ (sk : Dict String Rat) (cur : Dict String Rat) (us : Dict Nat (List String)), w ∈ us.keys →
                (addSkills w sk (cur, us)).2.keys = us.keys := by
              intro sk
              induction sk with
              | nil => intro _ _ _; rfl
              | cons p sk ih' =>
                intro cur us hw
                obtain ⟨s1, v1⟩ := p
                simp only [addSkills]
                split
                · rw [ih' _ _ (by rw [Dict.keys_set, if_pos hw]; exact hw), Dict.keys_set, if_pos hw]
                · exact ih' _ _ hw
            have := hnodup sk (cur.set s0 (x + v)) _ hin
            rw [this] at h5
            have := congrArg List.length h5
            simp at this
        rw [hsame]; exact this
      · rw [h6]
        constructor
        · intro _; exact .inr ⟨s0, hk, by simp [Dict.keys]⟩
        · intro _
          left
          rw [Dict.keys_set]; split
          · assumption
          · simp

/-- The worker has the skill. -/
def Has (ws : Workers) (w : Nat) (s : String) : Prop := ∃ e cal, ws.get? w = some (e, cal) ∧ s ∈ e.skills.keys

theorem busy_get (n c : Nat) (cal : List Bool) (t : Nat) :
    (busy n c cal)[t]? = cal[t]?.map (fun b => b && !(decide (c ≤ t) && decide (t < c + n))) := by
  simp [busy]

/-- What engaging a number of workers does. -/
theorem engageAll_spec (n c : Nat) : ∀ (cr : List Nat) (st : Asg), (∀ w ∈ cr, w ∈ st.ws.keys) →
    (∀ w e cal, st.ws.get? w = some (e, cal) → e.skills.keys.Nodup) →
    (cr.foldl (engage n c) st).ws.keys = st.ws.keys ∧
    (∀ w e cal, st.ws.get? w = some (e, cal) → ∃ cal', (cr.foldl (engage n c) st).ws.get? w = some (e, cal') ∧
      ∀ t, cal'[t]? = cal[t]?.map (fun b => b && !(decide (w ∈ cr) && (decide (c ≤ t) && decide (t < c + n))))) ∧
    (cr.foldl (engage n c) st).current.keys = st.current.keys ∧
    (∀ s, (cr.foldl (engage n c) st).current.get? s = (st.current.get? s).map (· + (cr.map (skillIn st.ws · s)).sum)) ∧
    (st.usage.keys.Nodup → (cr.foldl (engage n c) st).usage.keys.Nodup) ∧
    (∀ w s, s ∈ ((cr.foldl (engage n c) st).usage.get? w).getD [] ↔ s ∈ (st.usage.get? w).getD [] ∨ (w ∈ cr ∧ s ∈ st.current.keys ∧ Has st.ws w s)) ∧
    (∀ w, w ∈ (cr.foldl (engage n c) st).usage.keys ↔ w ∈ st.usage.keys ∨ (w ∈ cr ∧ ∃ s, s ∈ st.current.keys ∧ Has st.ws w s)) := by
  intro cr
  induction cr with
  | nil =>
    intro st _ _
    refine ⟨rfl, fun w e cal h => ⟨cal, h, fun t => by simp⟩, rfl, fun s => by simp, fun h => h, fun w s => by simp, fun w => by simp⟩
  | cons w0 cr ih =>
    intro st hin hsk
    have h0 : w0 ∈ st.ws.keys := hin w0 (by simp)
    obtain ⟨⟨e0, cal0⟩, hg0⟩ := Option.isSome_iff_exists.1 ((Dict.get?_isSome_iff_mem_keys _ _).2 h0)
    have hstep : engage n c st w0 = Asg.mk (addSkills w0 e0.skills (st.current, st.usage)).1
        (addSkills w0 e0.skills (st.current, st.usage)).2 (st.ws.set w0 (e0, busy n c cal0)) := by
      simp [engage, hg0]
    obtain ⟨a1, a2, a3, a4, a5, a6⟩ := addSkills_spec w0 e0.skills (hsk _ _ _ hg0) st.current st.usage
    have hwk : (engage n c st w0).ws.keys = st.ws.keys := by
      rw [hstep]; show (st.ws.set w0 _).keys = _; rw [Dict.keys_set, if_pos h0]
    have hget : ∀ w, (engage n c st w0).ws.get? w = if w = w0 then some (e0, busy n c cal0) else st.ws.get? w := by
      intro w; rw [hstep]; exact Dict.get?_set _ _ _ _
    have hsame : ∀ w s, skillIn (engage n c st w0).ws w s = skillIn st.ws w s := by
      intro w s
      unfold skillIn
      rw [hget w]
      by_cases e : w = w0
      · subst e; rw [if_pos rfl, hg0]
      · rw [if_neg e]
    have hhas : ∀ w s, Has (engage n c st w0).ws w s ↔ Has st.ws w s := by
      intro w s
      unfold Has
      rw [hget w]
      by_cases e : w = w0
      · subst e; rw [if_pos rfl, hg0]
        constructor
        · rintro ⟨e, cal, h, hs⟩; cases h; exact ⟨_, _, rfl, hs⟩
        · rintro ⟨e, cal, h, hs⟩; cases h; exact ⟨_, _, rfl, hs⟩
      · rw [if_neg e]
    have hhas0 : ∀ s, Has st.ws w0 s ↔ s ∈ e0.skills.keys := by
      intro s
      unfold Has
      rw [hg0]
      constructor
      · rintro ⟨e, cal, h, hs⟩; cases h; exact hs
      · intro h; exact ⟨_, _, rfl, h⟩
    obtain ⟨g1, g2, g3, g4, g5, g6, g7⟩ := ih (engage n c st w0) (fun w hw => by rw [hwk]; exact hin w (by simp [hw])) (by
      intro w e cal h
      rw [hget w] at h
      split at h
      · cases h; exact hsk _ _ _ hg0
      · exact hsk _ _ _ h)
    have hcur : (engage n c st w0).current = (addSkills w0 e0.skills (st.current, st.usage)).1 := by rw [hstep]
    have hus : (engage n c st w0).usage = (addSkills w0 e0.skills (st.current, st.usage)).2 := by rw [hstep]
    have hck : (engage n c st w0).current.keys = st.current.keys := by rw [hcur]; exact a2
    simp only [List.foldl_cons]
    refine ⟨g1.trans hwk, fun w e cal h => ?_, g3.trans hck, fun s => ?_, fun hnd => ?_, fun w s => ?_, fun w => ?_⟩
    · by_cases ew : w = w0
      · subst ew
        rw [hg0] at h; cases h
        obtain ⟨cal', k1, k2⟩ := g2 w e0 (busy n c cal0) (by rw [hget, if_pos rfl])
        refine ⟨cal', k1, fun t => ?_⟩
        rw [k2 t, busy_get]
        cases cal0[t]? with
        | none => rfl
        | some b =>
          simp only [Option.map_some, List.mem_cons, true_or, decide_true, Bool.true_and, Option.some.injEq]
          cases b <;> cases (decide (c ≤ t) && decide (t < c + n)) <;> simp
      · obtain ⟨cal', k1, k2⟩ := g2 w e cal (by rw [hget, if_neg ew]; exact h)
        refine ⟨cal', k1, fun t => ?_⟩
        rw [k2 t]
        simp [ew]
    · rw [g4 s, hcur, a1 s]
      simp only [List.map_cons, List.sum_cons, Option.map_map]
      have : skillIn st.ws w0 s = (e0.skills.get? s).getD 0 := by simp [skillIn, hg0]
      rw [this]
      have h2 : (cr.map (skillIn (engage n c st w0).ws · s)) = cr.map (skillIn st.ws · s) := List.map_congr_left (fun w _ => hsame w s)
      rw [h2]
      congr 1
      funext x
      simp only [Function.comp]
      ring
    · apply g5
      rw [hus]
      rcases a5 with h | h
      · rw [h]; exact hnd
      · by_cases hw : w0 ∈ st.usage.keys
        · exfalso
          have hno : ∀ (sk : Dict String Rat) (cur : Dict String Rat) (us : Dict Nat (List String)), w0 ∈ us.keys →
              (addSkills w0 sk (cur, us)).2.keys = us.keys := by
            intro sk
            induction sk with
            | nil => intro _ _ _; rfl
            | cons p sk ih' =>
              intro cur us hw
              obtain ⟨s1, v1⟩ := p
              simp only [addSkills]
              split
              · rw [ih' _ _ (by rw [Dict.keys_set, if_pos hw]; exact hw), Dict.keys_set, if_pos hw]
              · exact ih' _ _ hw
          have := hno e0.skills st.current st.usage hw
          rw [h] at this
          have := congrArg List.length this
          simp at this
        · rw [h, List.nodup_append]
          refine ⟨hnd, by simp, ?_⟩
          intro x hx y hy
          simp only [List.mem_singleton] at hy
          subst hy
          rintro rfl
          exact hw hx
    · rw [g6 w s, hus, hck, hhas]
      by_cases ew : w = w0
      · subst ew
        rw [a4 s, hhas0]
        simp only [List.mem_cons, true_or, true_and]
        constructor
        · rintro ((h | h) | ⟨_, h⟩)
          · exact .inl h
          · exact .inr h
          · exact .inr h
        · rintro (h | h)
          · exact .inl (.inl h)
          · exact .inl (.inr h)
      · rw [a3 w ew]
        simp [ew]
    · rw [g7 w, hus, hck]
      simp only [hhas]
      by_cases ew : w = w0
      · subst ew
        rw [a6]
        simp only [hhas0, List.mem_cons, true_or, true_and]
        constructor
        · rintro ((h | h) | ⟨_, h⟩)
          · exact .inl h
          · exact .inr h
          · exact .inr h
        · rintro (h | h)
          · exact .inl (.inl h)
          · exact .inl (.inr h)
      · have : w ∈ (addSkills w0 e0.skills (st.current, st.usage)).2.keys ↔ w ∈ st.usage.keys := by
          rw [← Dict.get?_isSome_iff_mem_keys, a3 w ew, Dict.get?_isSome_iff_mem_keys]
        rw [this]
        simp [ew]

end Verif.MultiSkill
