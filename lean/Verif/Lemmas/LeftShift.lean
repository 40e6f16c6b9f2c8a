import Verif.Model.LeftShift
import Verif.Lemmas.MultiSkillCheck
/- Invariant of the left shift. -/
namespace Verif.MultiSkill
open Verif.Rcpsp (dict_get_ok)

/-- Is worker `w` free at time `t`? -/
def avail (cals : Calendars) (w t : Nat) : Option Bool := (cals.get? w).bind (·[t]?)

theorem block_spec (t : Nat) : ∀ (ws : List Nat) (cals cals' : Calendars), block t ws cals = .ok cals' →
    ∀ w t', avail cals' w t' = if t' = t ∧ w ∈ ws then some false else avail cals w t' := by
  intro ws
  induction ws with
  | nil => intro cals cals' h; cases h; simp
  | cons x ws ih =>
    intro cals cals' h w t'
    simp only [block] at h
    obtain ⟨cal, hc, h⟩ := bind_eq_ok.1 h
    obtain ⟨cal', hc', h⟩ := bind_eq_ok.1 h
    obtain ⟨hlt, rfl⟩ := pySet_ok_iff.1 hc'
    have hc := dict_get_ok.1 hc
    rw [ih _ _ h]
    by_cases h1 : t' = t ∧ w ∈ ws
    · rw [if_pos h1, if_pos ⟨h1.1, List.mem_cons_of_mem _ h1.2⟩]
    · rw [if_neg h1]
      unfold avail
      by_cases hw : w = x
      · subst hw
        rw [Dict.get?_set_self, hc]
        simp only [Option.bind_some, List.getElem?_set]
        by_cases ht : t = t'
        · subst ht; simp [hlt]
        · rw [if_neg ht, if_neg (fun h => ht h.1.symm)]
      · rw [Dict.get?_set_ne _ _ hw]
        rw [if_neg]
        rintro ⟨g1, g2⟩
        rcases List.mem_cons.1 g2 with g2 | g2
        · exact hw g2
        · exact h1 ⟨g1, g2⟩

theorem block_total (t : Nat) : ∀ (ws : List Nat) (cals : Calendars), (∀ w ∈ ws, (avail cals w t).isSome) → ∃ cals', block t ws cals = .ok cals' := by
  intro ws
  induction ws with
  | nil => intro cals _; exact ⟨_, rfl⟩
  | cons x ws ih =>
    intro cals h
    have hx := h x (by simp)
    unfold avail at hx
    rcases hg : cals.get? x with _ | cal
    · rw [hg] at hx; cases hx
    · rw [hg] at hx
      have hlt : t < cal.length := by
        simpa using hx
      simp only [block, dict_get_ok.2 hg, bind_ok, pySet_ok_iff.2 ⟨hlt, rfl⟩]
      apply ih
      intro w hw
      unfold avail
      by_cases hwx : w = x
      · subst hwx; rw [Dict.get?_set_self]; simp [hlt]
      · rw [Dict.get?_set_ne _ _ hwx]
        exact h w (List.mem_cons_of_mem _ hw)

theorem blockAll_spec (ws : List Nat) : ∀ (n t : Nat) (cals cals' : Calendars), blockAll ws n t cals = .ok cals' →
    ∀ w t', avail cals' w t' = if (t ≤ t' ∧ t' < t + n) ∧ w ∈ ws then some false else avail cals w t' := by
  intro n
  induction n with
  | zero =>
    intro t cals cals' h w t'
    cases h
    rw [if_neg]
    rintro ⟨g, _⟩; omega
  | succ n ih =>
    intro t cals cals' h w t'
    simp only [blockAll] at h
    obtain ⟨c1, h1, h⟩ := bind_eq_ok.1 h
    rw [ih _ _ _ h, block_spec t ws cals c1 h1]
    by_cases hw : w ∈ ws
    · by_cases g1 : t + 1 ≤ t' ∧ t' < t + 1 + n
      · rw [if_pos ⟨g1, hw⟩, if_pos ⟨by omega, hw⟩]
      · rw [if_neg (fun h => g1 h.1)]
        by_cases g2 : t' = t
        · rw [if_pos ⟨g2, hw⟩, if_pos ⟨by omega, hw⟩]
        · rw [if_neg (fun h => g2 h.1), if_neg (fun h => by omega)]
    · rw [if_neg (fun h => hw h.2), if_neg (fun h => hw h.2), if_neg (fun h => hw h.2)]

theorem blockAll_total (ws : List Nat) : ∀ (n t : Nat) (cals : Calendars), (∀ w ∈ ws, ∀ t', t ≤ t' → t' < t + n → (avail cals w t').isSome) →
    ∃ cals', blockAll ws n t cals = .ok cals' := by
  intro n
  induction n with
  | zero => intro t cals _; exact ⟨_, rfl⟩
  | succ n ih =>
    intro t cals h
    obtain ⟨c1, h1⟩ := block_total t ws cals (fun w hw => h w hw t (Nat.le_refl _) (by omega))
    simp only [blockAll, h1, bind_ok]
    apply ih
    intro w hw t' g1 g2
    rw [block_spec t ws cals c1 h1]
    split
    · rfl
    · exact h w hw t' (by omega) (by omega)

theorem block_isSome (t : Nat) : ∀ (ws : List Nat) (cals cals' : Calendars), block t ws cals = .ok cals' → ∀ w ∈ ws, (avail cals w t).isSome := by
  intro ws
  induction ws with
  | nil => intro _ _ _ w hw; cases hw
  | cons x ws ih =>
    intro cals cals' h w hw
    simp only [block] at h
    obtain ⟨cal, hc, h⟩ := bind_eq_ok.1 h
    obtain ⟨cal', hc', h⟩ := bind_eq_ok.1 h
    obtain ⟨hlt, rfl⟩ := pySet_ok_iff.1 hc'
    by_cases hwx : w = x
    · subst hwx
      unfold avail
      rw [dict_get_ok.1 hc]
      simp [hlt]
    · have := ih _ _ h w ((List.mem_cons.1 hw).resolve_left hwx)
      unfold avail at this ⊢
      rwa [Dict.get?_set_ne _ _ hwx] at this

theorem blockAll_isSome {ws : List Nat} : ∀ {n t : Nat} {cals cals' : Calendars}, blockAll ws n t cals = .ok cals' →
    ∀ {w t'}, w ∈ ws → t ≤ t' → t' < t + n → (avail cals w t').isSome := by
  intro n
  induction n with
  | zero => intro t _ _ _ w t' _ _ _; omega
  | succ n ih =>
    intro t cals cals' h w t' hw g1 g2
    simp only [blockAll] at h
    obtain ⟨c1, h1, h⟩ := bind_eq_ok.1 h
    by_cases ht : t' = t
    · rw [ht]; exact block_isSome t ws cals c1 h1 w hw
    · have := ih h hw (by omega : t + 1 ≤ t') (by omega)
      rwa [block_spec t ws cals c1 h1, if_neg (fun h => ht h.1)] at this

theorem allTrue_false (cal : List Bool) : ∀ n t, allTrue cal n t = .ok false → ∃ t', t ≤ t' ∧ t' < t + n ∧ cal[t']? = some false := by
  intro n
  induction n with
  | zero => intro t h; cases h
  | succ n ih =>
    intro t h
    simp only [allTrue] at h
    obtain ⟨b, hb, h⟩ := bind_eq_ok.1 h
    cases b with
    | true =>
      obtain ⟨t', h1, h2, h3⟩ := ih _ h
      exact ⟨t', by omega, by omega, h3⟩
    | false => exact ⟨t, Nat.le_refl _, by omega, pyGet_ok_iff.1 hb⟩

theorem allTrue_some (cal : List Bool) : ∀ n t, (∀ t', t ≤ t' → t' < t + n → (cal[t']?).isSome) → ∃ b, allTrue cal n t = .ok b := by
  intro n
  induction n with
  | zero => intro t _; exact ⟨_, rfl⟩
  | succ n ih =>
    intro t h
    obtain ⟨b, hb⟩ := Option.isSome_iff_exists.1 (h t (Nat.le_refl _) (by omega))
    simp only [allTrue, pyGet_ok_iff.2 hb, bind_ok]
    cases b with
    | true => exact ih _ (fun t' g1 g2 => h t' (by omega) (by omega))
    | false => exact ⟨_, rfl⟩

theorem allFree_true (cals : Calendars) (n t : Nat) : ∀ ws, allFree cals n t ws = .ok true ↔
    ∀ w ∈ ws, ∀ t', t ≤ t' → t' < t + n → avail cals w t' = some true := by
  intro ws
  induction ws with
  | nil => simp [allFree]
  | cons w ws ih =>
    simp only [allFree, calOf]
    by_cases hn : n = 0
    · subst hn
      simp only [↓reduceIte, bind_ok, allTrue, ih]
      constructor
      · intro _ w _ t' g1 g2; omega
      · intro _ w _ t' g1 g2; omega
    · simp only [hn, ↓reduceIte]
      constructor
      · intro h
        obtain ⟨cal, hc, h⟩ := bind_eq_ok.1 h
        obtain ⟨b, hb, h⟩ := bind_eq_ok.1 h
        cases b with
        | false => cases h
        | true =>
          intro x hx t' g1 g2
          rcases List.mem_cons.1 hx with rfl | hx
          · unfold avail
            rw [dict_get_ok.1 hc]
            exact (allTrue_iff _ _ _).1 hb t' g1 g2
          · exact ih.1 h x hx t' g1 g2
      · intro h
        have h1 := h w (by simp)
        have h0 := h1 t (Nat.le_refl _) (by omega)
        unfold avail at h1 h0
        rcases hg : cals.get? w with _ | cal
        · rw [hg] at h0; cases h0
        · rw [hg] at h1
          rw [dict_get_ok.2 hg, bind_ok, (allTrue_iff _ _ _).2 h1, bind_ok, if_pos rfl]
          exact ih.2 (fun x hx => h x (List.mem_cons_of_mem _ hx))

theorem allFree_false (cals : Calendars) (n t : Nat) : ∀ ws, allFree cals n t ws = .ok false →
    ∃ w ∈ ws, ∃ t', t ≤ t' ∧ t' < t + n ∧ avail cals w t' = some false := by
  intro ws
  induction ws with
  | nil => intro h; cases h
  | cons w ws ih =>
    intro h
    simp only [allFree] at h
    obtain ⟨cal, hc, h⟩ := bind_eq_ok.1 h
    obtain ⟨b, hb, h⟩ := bind_eq_ok.1 h
    cases b with
    | true =>
      obtain ⟨x, hx, g⟩ := ih h
      exact ⟨x, List.mem_cons_of_mem _ hx, g⟩
    | false =>
      obtain ⟨t', g1, g2, g3⟩ := allTrue_false _ _ _ hb
      rw [calOf, if_neg (by omega)] at hc
      exact ⟨w, by simp, t', g1, g2, by unfold avail; rw [dict_get_ok.1 hc]; exact g3⟩

theorem allFree_total (cals : Calendars) (n t : Nat) : ∀ ws, (∀ w ∈ ws, ∀ t', t ≤ t' → t' < t + n → (avail cals w t').isSome) →
    ∃ b, allFree cals n t ws = .ok b := by
  intro ws
  induction ws with
  | nil => intro _; exact ⟨_, rfl⟩
  | cons w ws ih =>
    intro h
    have key : ∃ cal b, calOf cals n w = .ok cal ∧ allTrue cal n t = .ok b := by
      by_cases hn : n = 0
      · subst hn; exact ⟨[], true, by simp [calOf], rfl⟩
      · have h1 := h w (by simp)
        have h0 := h1 t (Nat.le_refl _) (by omega)
        unfold avail at h1 h0
        rcases hg : cals.get? w with _ | cal
        · rw [hg] at h0; cases h0
        · rw [hg] at h1
          obtain ⟨b, hb⟩ := allTrue_some cal n t h1
          exact ⟨cal, b, by simp [calOf, hn, dict_get_ok.2 hg], hb⟩
    obtain ⟨cal, b, h1, h2⟩ := key
    simp only [allFree, h1, bind_ok, h2]
    cases b with
    | true => exact ih (fun x hx => h x (List.mem_cons_of_mem _ hx))
    | false => exact ⟨_, rfl⟩

theorem firstFree_spec (cals : Calendars) (n : Nat) (ws : List Nat) : ∀ k t r, firstFree cals n ws k t = .ok r →
    match r with
    | some u => t ≤ u ∧ u < t + k ∧ allFree cals n u ws = .ok true ∧ ∀ v, t ≤ v → v < u → allFree cals n v ws = .ok false
    | none => ∀ v, t ≤ v → v < t + k → allFree cals n v ws = .ok false := by
  intro k
  induction k with
  | zero => intro t r h; cases h; intro v _ _; omega
  | succ k ih =>
    intro t r h
    simp only [firstFree] at h
    obtain ⟨b, hb, h⟩ := bind_eq_ok.1 h
    cases b with
    | true =>
      cases h
      exact ⟨Nat.le_refl _, by omega, hb, fun v _ _ => by omega⟩
    | false =>
      have := ih _ _ h
      cases r with
      | none =>
        intro v g1 g2
        by_cases hv : v = t
        · rw [hv]; exact hb
        · exact this v (by omega) (by omega)
      | some u =>
        obtain ⟨h1, h2, h3, h4⟩ := this
        refine ⟨by omega, by omega, h3, fun v g1 g2 => ?_⟩
        by_cases hv : v = t
        · rw [hv]; exact hb
        · exact h4 v (by omega) g2

theorem firstFree_total (cals : Calendars) (n : Nat) (ws : List Nat) : ∀ k t, (∀ v, t ≤ v → v < t + k → ∃ b, allFree cals n v ws = .ok b) →
    ∃ r, firstFree cals n ws k t = .ok r := by
  intro k
  induction k with
  | zero => intro t _; exact ⟨_, rfl⟩
  | succ k ih =>
    intro t h
    obtain ⟨b, hb⟩ := h t (Nat.le_refl _) (by omega)
    simp only [firstFree, hb, bind_ok]
    cases b with
    | true => exact ⟨_, rfl⟩
    | false => exact ih _ (fun v g1 g2 => h v (by omega) (by omega))

/-- The end that counts for a predecessor: the new one, if there is one. -/
def endOf (old new : Schedule) (a : Nat) : Option Nat :=
  match new.get? a with
  | some p => some p.2
  | none => (old.get? a).map (·.2)

theorem predEnds_spec (old new : Schedule) : ∀ ps es, predEnds old new ps = .ok es → ps.map (endOf old new) = es.map some := by
  intro ps
  induction ps with
  | nil => intro es h; cases h; rfl
  | cons a ps ih =>
    intro es h
    simp only [predEnds] at h
    obtain ⟨p, hp, h⟩ := bind_eq_ok.1 h
    obtain ⟨r, hr, h⟩ := bind_eq_ok.1 h
    cases h
    simp only [List.map_cons, ih r hr]
    congr 1
    unfold endOf
    unfold timesOf at hp
    split at hp
    · rename_i q hq
      cases hp
      rw [hq]
    · rename_i hq
      rw [hq, dict_get_ok.1 hp]; rfl

theorem predEnds_total (old new : Schedule) : ∀ ps, (∀ a ∈ ps, a ∈ old.keys) → ∃ es, predEnds old new ps = .ok es := by
  intro ps
  induction ps with
  | nil => intro _; exact ⟨_, rfl⟩
  | cons a ps ih =>
    intro h
    obtain ⟨r, hr⟩ := ih (fun b hb => h b (List.mem_cons_of_mem _ hb))
    obtain ⟨q, hq⟩ := Option.isSome_iff_exists.1 ((Dict.get?_isSome_iff_mem_keys _ _).2 (h a (by simp)))
    simp only [predEnds, timesOf]
    rcases hn : new.get? a with _ | p
    · simp only [dict_get_ok.2 hq, bind_ok, hr]; exact ⟨_, rfl⟩
    · simp only [bind_ok, hr]; exact ⟨_, rfl⟩

theorem foldl_max (l : List Nat) : ∀ b, b ≤ l.foldl max b ∧ (∀ e ∈ l, e ≤ l.foldl max b) ∧ (l.foldl max b = b ∨ l.foldl max b ∈ l) := by
  induction l with
  | nil => intro b; simp
  | cons x l ih =>
    intro b
    obtain ⟨h1, h2, h3⟩ := ih (max b x)
    simp only [List.foldl_cons]
    refine ⟨by omega, ?_, ?_⟩
    · intro e he
      rcases List.mem_cons.1 he with rfl | he
      · omega
      · exact h2 e he
    · rcases h3 with h3 | h3
      · rw [h3]
        rcases Nat.le_total b x with g | g
        · right; rw [Nat.max_eq_right g]; simp
        · left; exact Nat.max_eq_left g
      · right; exact List.mem_cons_of_mem _ h3

theorem minTime_spec (l : List Nat) : (∀ e ∈ l, e ≤ minTime l) ∧ (minTime l = 0 ∨ minTime l ∈ l) :=
  ⟨(foldl_max l 0).2.1, (foldl_max l 0).2.2⟩

/-- Is worker `w` used at time `t` by one of the activities of the schedule? -/
def usedAt (sol : Solution) (sch : Schedule) (w t : Nat) : Bool :=
  sch.any (fun p => (usedBy sol p.1).contains w && decide (p.2.1 ≤ t) && decide (t < p.2.2))

/-- The worker is at work and not used. -/
def FreeAt (pb : Problem) (sol : Solution) (pre : Schedule) (w t : Nat) : Prop :=
  avail (initCals pb) w t = some true ∧ usedAt sol pre w t = false

/-- What is known of one shifted activity, given those shifted before. -/
structure Shifted (pb : Problem) (sol : Solution) (preds : Dict Nat (List Nat)) (pre : Schedule) (a s e : Nat) : Prop where
  fresh : a ∉ pre.keys
  old : ∃ s0 e0, sol.schedule.get? a = some (s0, e0) ∧ e = s + (e0 - s0) ∧ s ≤ s0 ∧ ∃ ps, preds.get? a = some ps ∧ ∃ lo,
    (∀ x ∈ ps, ∃ ex, endOf sol.schedule pre x = some ex ∧ ex ≤ lo) ∧ (lo = 0 ∨ ∃ x ∈ ps, endOf sol.schedule pre x = some lo) ∧
    ((lo ≤ s ∧ (∀ w ∈ usedBy sol a, ∀ t, s ≤ t → t < e → FreeAt pb sol pre w t)) ∨ s = s0 ∧ ∀ v, lo ≤ v → v ≤ s0 →
      ∃ w ∈ usedBy sol a, ∃ t, v ≤ t ∧ t < v + (e0 - s0) ∧ ¬ FreeAt pb sol pre w t) ∧
    ∀ v, lo ≤ v → v < s → ∃ w ∈ usedBy sol a, ∃ t, v ≤ t ∧ t < v + (e0 - s0) ∧ ¬ FreeAt pb sol pre w t

/-- The invariant of the loop. -/
structure ShiftInv (pb : Problem) (sol : Solution) (preds : Dict Nat (List Nat)) (done : List Nat) (new : Schedule) (cals : Calendars) : Prop where
  keys : new.keys = done
  cal : ∀ w t, avail cals w t = (avail (initCals pb) w t).map (fun b => b && !usedAt sol new w t)
  entry : ∀ pre a s e post, new = pre ++ (a, (s, e)) :: post → Shifted pb sol preds pre a s e

theorem set_append {d : Schedule} {k : Nat} {v : Nat × Nat} (h : k ∉ d.keys) : d.set k v = d ++ [(k, v)] := by
  induction d with
  | nil => rfl
  | cons p d ih =>
    obtain ⟨k', v'⟩ := p
    simp only [Dict.keys, List.map_cons, List.mem_cons, not_or] at h
    simp only [Dict.set]
    rw [if_neg (fun e => h.1 e.symm), ih h.2]
    rfl

theorem free_iff_avail {pb : Problem} {sol : Solution} {preds : Dict Nat (List Nat)} {done : List Nat} {new : Schedule} {cals : Calendars}
    (inv : ShiftInv pb sol preds done new cals) (w t : Nat) : avail cals w t = some true ↔ FreeAt pb sol new w t := by
  rw [inv.cal]
  unfold FreeAt
  rcases avail (initCals pb) w t with _ | b
  · simp
  · cases b <;> simp

theorem shiftStep_inv {pb : Problem} {sol : Solution} {preds : Dict Nat (List Nat)} {done : List Nat} {new new' : Schedule} {cals cals' : Calendars}
    {a : Nat} (inv : ShiftInv pb sol preds done new cals) (ha : a ∉ done) (h : shiftStep sol preds a new cals = .ok (new', cals')) :
    ShiftInv pb sol preds (done ++ [a]) new' cals' := by
  simp only [shiftStep] at h
  obtain ⟨ps, hps, h⟩ := bind_eq_ok.1 h
  obtain ⟨es, hes, h⟩ := bind_eq_ok.1 h
  obtain ⟨⟨s0, e0⟩, hp, h⟩ := bind_eq_ok.1 h
  obtain ⟨f, hf, h⟩ := bind_eq_ok.1 h
  obtain ⟨c1, hc1, h⟩ := bind_eq_ok.1 h
  have h := Prod.mk.inj (Except.ok.inj h)
  have hfresh : a ∉ new.keys := by rw [inv.keys]; exact ha
  have hnew : new' = new ++ [(a, (f.getD s0, f.getD s0 + (e0 - s0)))] := by rw [← h.1]; exact set_append hfresh
  have hcals : cals' = c1 := h.2.symm
  have hblock := blockAll_spec _ _ _ _ _ hc1
  simp only at hf hblock
  have hff := firstFree_spec _ _ _ _ _ _ hf
  have hspec := predEnds_spec _ _ _ _ hes
  obtain ⟨m1, m2⟩ := minTime_spec es
  have hfalse : ∀ v, allFree cals (e0 - s0) v (usedBy sol a) = .ok false →
      ∃ w ∈ usedBy sol a, ∃ t, v ≤ t ∧ t < v + (e0 - s0) ∧ ¬ FreeAt pb sol new w t := by
    intro v hv
    obtain ⟨w, hw, t, t1, t2, t3⟩ := allFree_false _ _ _ _ hv
    refine ⟨w, hw, t, t1, t2, fun hfr => ?_⟩
    rw [(free_iff_avail inv w t).2 hfr] at t3
    cases t3
  refine ⟨?_, ?_, ?_⟩
  · rw [hnew]
    simp only [Dict.keys, List.map_append, List.map_cons, List.map_nil]
    rw [show new.map (·.1) = new.keys from rfl, inv.keys]
  · intro w t
    rw [hcals, hblock, inv.cal, hnew]
    unfold usedAt
    rw [List.any_append]
    simp only [List.any_cons, List.any_nil, Bool.or_false]
    by_cases hw : w ∈ usedBy sol a
    · by_cases ht : f.getD s0 ≤ t ∧ t < f.getD s0 + (e0 - s0)
      · rw [if_pos ⟨ht, hw⟩]
        have hd : (avail cals w t).isSome := by
          exact blockAll_isSome hc1 hw ht.1 ht.2
        rw [inv.cal] at hd
        rcases hav : avail (initCals pb) w t with _ | b
        · rw [hav] at hd; cases hd
        · simp [hw, ht.1, ht.2]
      · rw [if_neg (fun h => ht h.1)]
        have : ((usedBy sol a).contains w && decide (f.getD s0 ≤ t) && decide (t < f.getD s0 + (e0 - s0))) = false := by
          simp only [Bool.and_eq_false_iff, decide_eq_false_iff_not]
          omega
        rw [this, Bool.or_false]
    · rw [if_neg (fun h => hw h.2)]
      have : (usedBy sol a).contains w = false := by simpa using hw
      rw [this]
      simp
  · intro pre b s e post hsplit
    rw [hnew] at hsplit
    rcases List.eq_nil_or_concat post with rfl | ⟨post', x, rfl⟩
    · have := List.append_inj' hsplit rfl
      obtain ⟨rfl, e2⟩ := this
      simp only [List.cons.injEq, Prod.mk.injEq, and_true] at e2
      obtain ⟨rfl, rfl, rfl⟩ := e2
      refine ⟨hfresh, s0, e0, dict_get_ok.1 hp, rfl, ?_, ps, dict_get_ok.1 hps, minTime es, ?_, ?_, ?_, ?_⟩
      · cases f with
        | none => exact Nat.le_refl _
        | some u => have := hff.2.1; simp only [Option.getD_some]; omega
      · intro x hx
        have : endOf sol.schedule new x ∈ es.map some := by rw [← hspec]; exact List.mem_map.2 ⟨x, hx, rfl⟩
        obtain ⟨ex, hex, e1⟩ := List.mem_map.1 this
        exact ⟨ex, e1.symm, m1 ex hex⟩
      · rcases m2 with g | g
        · exact .inl g
        · right
          have : some (minTime es) ∈ ps.map (endOf sol.schedule new) := by rw [hspec]; exact List.mem_map.2 ⟨_, g, rfl⟩
          obtain ⟨x, hx, e1⟩ := List.mem_map.1 this
          exact ⟨x, hx, e1⟩
      · cases f with
        | none => exact .inr ⟨rfl, fun v v1 v2 => hfalse v (hff v v1 (by omega))⟩
        | some u =>
          refine .inl ⟨hff.1, fun w hw t t1 t2 => ?_⟩
          exact (free_iff_avail inv w t).1 ((allFree_true _ _ _ _).1 hff.2.2.1 w hw t t1 t2)
      · intro v v1 v2
        cases f with
        | none => exact hfalse v (hff v v1 (by simp only [Option.getD_none] at v2; omega))
        | some u => exact hfalse v (hff.2.2.2 v v1 v2)
    · rw [List.concat_eq_append, ← List.cons_append, ← List.append_assoc] at hsplit
      have := List.append_inj' hsplit rfl
      exact inv.entry pre b s e post' this.1

theorem shiftLoop_inv {pb : Problem} {sol : Solution} {preds : Dict Nat (List Nat)} : ∀ (rest done : List Nat) (new new' : Schedule) (cals : Calendars),
    ShiftInv pb sol preds done new cals → (done ++ rest).Nodup → shiftLoop sol preds rest new cals = .ok new' →
    ∃ cals', ShiftInv pb sol preds (done ++ rest) new' cals' := by
  intro rest
  induction rest with
  | nil => intro done new new' cals inv _ h; cases h; exact ⟨cals, by rw [List.append_nil]; exact inv⟩
  | cons a rest ih =>
    intro done new new' cals inv hn h
    simp only [shiftLoop] at h
    obtain ⟨⟨n1, c1⟩, h1, h⟩ := bind_eq_ok.1 h
    have ha : a ∉ done := fun hd => (List.nodup_append.1 hn).2.2 a hd a (by simp) rfl
    have inv' := shiftStep_inv inv ha h1
    rw [show done ++ a :: rest = (done ++ [a]) ++ rest by simp] at hn ⊢
    exact ih _ _ _ _ inv' hn h

theorem shift_init (pb : Problem) (sol : Solution) (preds : Dict Nat (List Nat)) : ShiftInv pb sol preds [] [] (initCals pb) := by
  refine ⟨rfl, fun w t => ?_, fun pre a s e post h => ?_⟩
  · simp [usedAt]
  · cases pre <;> cases h

theorem order_perm (sch : Schedule) : (shiftOrder sch).Perm sch.keys := by
  unfold shiftOrder Dict.keys
  exact ((sortBy_perm _ _).trans (sortBy_perm _ _)).map _

theorem order_sorted {sch : Schedule} (hn : sch.keys.Nodup) : (shiftOrder sch).Pairwise (fun a b => ∀ sa ea sb eb, sch.get? a = some (sa, ea) →
    sch.get? b = some (sb, eb) → sa ≤ sb) := by
  unfold shiftOrder
  rw [List.pairwise_map]
  have hs := sortBy_sorted (fun p : Nat × (Nat × Nat) => (p.2.1 : Int)) (sortBy (fun p : Nat × (Nat × Nat) => (p.1 : Int)) sch)
  refine hs.imp_of_mem (fun {p q} hp hq hle sa ea sb eb h1 h2 => ?_)
  have hp : p ∈ sch := mem_sortBy.1 (mem_sortBy.1 hp)
  have hq : q ∈ sch := mem_sortBy.1 (mem_sortBy.1 hq)
  rw [Dict.get?_of_mem hn (show (p.1, p.2) ∈ sch from hp)] at h1
  rw [Dict.get?_of_mem hn (show (q.1, q.2) ∈ sch from hq)] at h2
  rw [Option.some.inj h1, Option.some.inj h2] at hle
  simp only at hle
  omega

/-- The facts about a shifted schedule. -/
theorem shift_spec {pb : Problem} {sol r : Solution} {preds : Dict Nat (List Nat)} (hn : sol.schedule.keys.Nodup) (h : leftShift pb preds sol = .ok r) :
    r.modes = sol.modes ∧ r.usage = sol.usage ∧ r.schedule.keys = shiftOrder sol.schedule ∧ r.schedule.keys.Nodup ∧
    ∀ pre a s e post, r.schedule = pre ++ (a, (s, e)) :: post → Shifted pb sol preds pre a s e := by
  simp only [leftShift] at h
  obtain ⟨sch, hs, h⟩ := bind_eq_ok.1 h
  cases h
  have hno : (shiftOrder sol.schedule).Nodup := (order_perm _).nodup_iff.2 hn
  obtain ⟨_, inv⟩ := shiftLoop_inv _ [] [] _ _ (shift_init pb sol preds) (by simpa using hno) hs
  have hk : sch.keys = shiftOrder sol.schedule := by simpa using inv.keys
  exact ⟨rfl, rfl, hk, by rw [hk]; exact hno, inv.entry⟩

theorem endOf_some {old new : Schedule} {x ex : Nat} (h : endOf old new x = some ex) :
    (∃ s, (x, (s, ex)) ∈ new) ∨ (x ∉ new.keys ∧ ∃ s, old.get? x = some (s, ex)) := by
  unfold endOf at h
  rcases hg : new.get? x with _ | p
  · right
    rw [hg] at h
    refine ⟨fun hk => ?_, ?_⟩
    · have := (Dict.get?_isSome_iff_mem_keys _ _).2 hk
      rw [hg] at this; cases this
    · rcases ho : old.get? x with _ | q
      · rw [ho] at h; cases h
      · rw [ho] at h; exact ⟨q.1, by rw [← Option.some.inj h]⟩
  · left
    rw [hg] at h
    exact ⟨p.1, by rw [← Option.some.inj h]; exact Dict.mem_of_get? hg⟩

end Verif.MultiSkill
