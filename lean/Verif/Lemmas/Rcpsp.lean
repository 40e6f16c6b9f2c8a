import Verif.Model.Rcpsp
import Verif.Lemmas.ListSum
/- Helper lemmas about serial schedule generation. -/
namespace Verif.Rcpsp

/-! ### The search for a start time -/

/-- Every resource suffices at time `t` (nothing is asked beyond the horizon). -/
def fits (H t : Nat) (m : Mode) (rows : Dict String (List Int)) : Prop :=
  t < H → ∀ p ∈ rows, ∃ a n, p.2[t]? = some a ∧ m.needs.get? p.1 = some n ∧ n ≤ a

/-- Some resource does not suffice at time `t`. -/
def blocked (H t : Nat) (m : Mode) (rows : Dict String (List Int)) : Prop :=
  t < H ∧ ∃ p ∈ rows, ∃ a n, p.2[t]? = some a ∧ m.needs.get? p.1 = some n ∧ a < n

theorem dict_get_ok {d : Dict κ α} [DecidableEq κ] {k : κ} {v : α} : d.get k = .ok v ↔ d.get? k = some v := by
  unfold Dict.get
  cases d.get? k <;> simp

theorem checkRes_spec (H t : Nat) (m : Mode) : ∀ (rows : Dict String (List Int)) (v v' : Bool × Bool), checkRes H t m rows v = .ok v' →
    (v'.1 = true → v.1 = true ∧ fits H t m rows) ∧ (v'.1 = false → v.1 = false ∨ blocked H t m rows) ∧
      (v'.2 = true ↔ v.2 = true ∨ (H ≤ t ∧ rows ≠ [])) := by
  intro rows
  induction rows with
  | nil => intro v v' h; cases h; exact ⟨fun h => ⟨h, fun _ p hp => by cases hp⟩, fun h => .inl h, by simp⟩
  | cons p rows ih =>
    intro v v' h
    obtain ⟨res, row⟩ := p
    simp only [checkRes] at h
    by_cases ht : t < H
    · rw [if_pos ht] at h
      obtain ⟨a, ha, h⟩ := bind_eq_ok.1 h
      obtain ⟨n, hn, h⟩ := bind_eq_ok.1 h
      obtain ⟨h1, h2, h3⟩ := ih _ _ h
      have ha' := pyGet_ok_iff.1 ha
      have hn' := dict_get_ok.1 hn
      refine ⟨?_, ?_, ?_⟩
      · intro hv
        obtain ⟨g1, g2⟩ := h1 hv
        simp only [Bool.and_eq_true, Bool.not_eq_eq_eq_not, Bool.not_true, decide_eq_false_iff_not, Int.not_lt] at g1
        refine ⟨g1.1, fun _ p hp => ?_⟩
        rcases List.mem_cons.1 hp with rfl | hp
        · exact ⟨a, n, ha', hn', g1.2⟩
        · exact g2 ht p hp
      · intro hv
        rcases h2 hv with g | g
        · simp only [Bool.and_eq_false_iff, Bool.not_eq_eq_eq_not, Bool.not_false, decide_eq_true_eq] at g
          rcases g with g | g
          · exact .inl g
          · exact .inr ⟨ht, _, List.mem_cons_self, a, n, ha', hn', g⟩
        · obtain ⟨g1, p, hp, g2⟩ := g
          exact .inr ⟨g1, p, List.mem_cons_of_mem _ hp, g2⟩
      · rw [h3]
        simp only
        constructor
        · rintro (g | g)
          · exact .inl g
          · omega
        · rintro (g | g)
          · exact .inl g
          · omega
    · rw [if_neg ht] at h
      obtain ⟨h1, h2, h3⟩ := ih _ _ h
      refine ⟨fun hv => ⟨(h1 hv).1, fun h => absurd h ht⟩, ?_, ?_⟩
      · intro hv
        rcases h2 hv with g | g
        · exact .inl g
        · exact absurd g.1 ht
      · rw [h3]
        simp; omega

theorem checkWindow_spec (H : Nat) (m : Mode) (rows : Dict String (List Int)) : ∀ (n t : Nat) (v v' : Bool × Bool),
    checkWindow H m rows n t v = .ok v' →
    (v'.1 = true → v.1 = true ∧ ∀ t', t ≤ t' → t' < t + n → fits H t' m rows) ∧
    (v'.1 = false → v.1 = false ∨ ∃ t', t ≤ t' ∧ t' < t + n ∧ blocked H t' m rows) ∧
    (v'.2 = false → v.2 = false ∧ (rows = [] ∨ n = 0 ∨ t + n ≤ H)) := by
  intro n
  induction n with
  | zero =>
    intro t v v' h; cases h
    exact ⟨fun h => ⟨h, fun t' h1 h2 => by omega⟩, fun h => .inl h, fun h => ⟨h, .inr (.inl rfl)⟩⟩
  | succ n ih =>
    intro t v v' h
    simp only [checkWindow] at h
    obtain ⟨w, hw, h⟩ := bind_eq_ok.1 h
    obtain ⟨a1, a2, a3⟩ := checkRes_spec H t m rows v w hw
    obtain ⟨b1, b2, b3⟩ := ih _ _ _ h
    refine ⟨?_, ?_, ?_⟩
    · intro hv
      obtain ⟨g1, g2⟩ := b1 hv
      obtain ⟨g3, g4⟩ := a1 g1
      refine ⟨g3, fun t' h1 h2 => ?_⟩
      by_cases e : t' = t
      · subst e; exact g4
      · exact g2 t' (by omega) (by omega)
    · intro hv
      rcases b2 hv with g | ⟨t', g1, g2, g3⟩
      · rcases a2 g with g | g
        · exact .inl g
        · exact .inr ⟨t, by omega, by omega, g⟩
      · exact .inr ⟨t', by omega, by omega, g3⟩
    · intro hv
      obtain ⟨g1, g2⟩ := b3 hv
      have g3 : ¬ (v.2 = true ∨ (H ≤ t ∧ rows ≠ [])) := by rw [← a3, g1]; simp
      refine ⟨by cases hv2 : v.2 <;> simp_all, ?_⟩
      rcases g2 with g | g | g
      · exact .inl g
      · by_cases hr : rows = []
        · exact .inl hr
        · right; right
          have : ¬ H ≤ t := fun h => g3 (.inr ⟨h, hr⟩)
          omega
      · right; right; omega

theorem search_spec (H : Nat) (m : Mode) (rows : Dict String (List Int)) : ∀ (fuel c0 : Nat) (flag : Bool) (c : Nat) (f : Bool),
    search H m rows fuel c0 flag = .ok (c, f) →
    c0 ≤ c ∧ (∀ t, c ≤ t → t < c + m.duration → fits H t m rows) ∧
    (∀ c', c0 ≤ c' → c' < c → ∃ t, c' ≤ t ∧ t < c' + m.duration ∧ blocked H t m rows) ∧
    (f = false → flag = false ∧ (rows = [] ∨ m.duration = 0 ∨ c + m.duration ≤ H)) := by
  intro fuel
  induction fuel with
  | zero =>
    intro c0 flag c f h
    unfold search at h
    obtain ⟨v, hv, h⟩ := bind_eq_ok.1 h
    obtain ⟨a1, a2, a3⟩ := checkWindow_spec H m rows _ _ _ _ hv
    split at h
    · rename_i hvt
      cases h
      exact ⟨Nat.le_refl _, (a1 hvt).2, fun c' h1 h2 => by omega, fun hf => a3 hf⟩
    · cases h
  | succ fuel ih =>
    intro c0 flag c f h
    unfold search at h
    obtain ⟨v, hv, h⟩ := bind_eq_ok.1 h
    obtain ⟨a1, a2, a3⟩ := checkWindow_spec H m rows _ _ _ _ hv
    split at h
    · rename_i hvt
      cases h
      exact ⟨Nat.le_refl _, (a1 hvt).2, fun c' h1 h2 => by omega, fun hf => a3 hf⟩
    · rename_i hvt
      obtain ⟨b1, b2, b3, b4⟩ := ih _ _ _ _ h
      refine ⟨by omega, b2, ?_, fun hf => ?_⟩
      · intro c' h1 h2
        by_cases e : c' = c0
        · subst e
          rcases a2 (by simpa using hvt) with g | g
          · cases g
          · exact g
        · exact b3 c' (by omega) h2
      · obtain ⟨g1, g2⟩ := b4 hf
        exact ⟨(a3 g1).1, g2⟩

theorem checkRes_err (H t : Nat) (m : Mode) : ∀ (rows : Dict String (List Int)) (v : Bool × Bool), checkRes H t m rows v ≠ .error .runtimeError := by
  intro rows
  induction rows with
  | nil => intro v h; cases h
  | cons p rows ih =>
    intro v h
    obtain ⟨res, row⟩ := p
    simp only [checkRes] at h
    split at h
    · unfold pyGet Dict.get at h
      split at h
      · simp only [bind_ok] at h
        split at h
        · exact ih _ h
        · cases h
      · cases h
    · exact ih _ h

theorem checkWindow_err (H : Nat) (m : Mode) (rows : Dict String (List Int)) : ∀ (n t : Nat) (v : Bool × Bool),
    checkWindow H m rows n t v ≠ .error .runtimeError := by
  intro n
  induction n with
  | zero => intro t v h; cases h
  | succ n ih =>
    intro t v h
    simp only [checkWindow] at h
    cases hc : checkRes H t m rows v with
    | error e =>
      rw [hc] at h
      simp only [bind_error, Except.error.injEq] at h
      subst h; exact checkRes_err H t m rows v hc
    | ok w => rw [hc] at h; exact ih _ _ h

/-- The fuel of the search is never exhausted: `H` rounds are enough. -/
theorem search_fuel (H : Nat) (m : Mode) (rows : Dict String (List Int)) : ∀ (fuel c0 : Nat) (flag : Bool), H ≤ c0 + fuel →
    search H m rows fuel c0 flag ≠ .error .runtimeError := by
  intro fuel
  induction fuel with
  | zero =>
    intro c0 flag hH h
    unfold search at h
    cases hc : checkWindow H m rows m.duration c0 (true, flag) with
    | error e =>
      rw [hc] at h
      simp only [bind_error, Except.error.injEq] at h
      subst h; exact checkWindow_err H m rows _ _ _ hc
    | ok v =>
      rw [hc] at h
      simp only [bind_ok] at h
      split at h
      · cases h
      · rename_i hv
        rcases (checkWindow_spec H m rows _ _ _ _ hc).2.1 (by simpa using hv) with g | ⟨t, g1, g2, g3⟩
        · cases g
        · have := g3.1; omega
  | succ fuel ih =>
    intro c0 flag hH h
    unfold search at h
    cases hc : checkWindow H m rows m.duration c0 (true, flag) with
    | error e =>
      rw [hc] at h
      simp only [bind_error, Except.error.injEq] at h
      subst h; exact checkWindow_err H m rows _ _ _ hc
    | ok v =>
      rw [hc] at h
      simp only [bind_ok] at h
      split at h
      · cases h
      · exact ih _ _ (by omega) h

/-! ### Booking -/

theorem drain_spec (n : Int) : ∀ (k tt : Nat) (row row' : List Int) (f f' : Bool), drain n k tt row f = .ok (row', f') →
    row'.length = row.length ∧
    (∀ j : Nat, row'[j]? = row[j]?.map (fun a => a - if tt ≤ j ∧ j < tt + k then n else 0)) ∧
    (f' = false → f = false ∧ ∀ j : Nat, tt ≤ j → j < tt + k → ∀ a, row'[j]? = some a → 0 ≤ a) := by
  intro k
  induction k with
  | zero =>
    intro tt row row' f f' h
    cases h
    refine ⟨rfl, fun j => ?_, fun h => ⟨h, fun j h1 h2 => by omega⟩⟩
    rw [if_neg (by omega)]; simp
  | succ k ih =>
    intro tt row row' f f' h
    simp only [drain] at h
    obtain ⟨a, ha, h⟩ := bind_eq_ok.1 h
    obtain ⟨row1, hr, h⟩ := bind_eq_ok.1 h
    have ha' := pyGet_ok_iff.1 ha
    obtain ⟨hlt, rfl⟩ := pySet_ok_iff.1 hr
    obtain ⟨h1, h2, h3⟩ := ih _ _ _ _ _ h
    have key : ∀ j : Nat, row'[j]? = row[j]?.map (fun a => a - if tt ≤ j ∧ j < tt + (k + 1) then n else 0) := by
      intro j
      rw [h2 j]
      by_cases e : tt = j
      · subst e
        rw [List.getElem?_set_self hlt, ha', if_neg (by omega), if_pos (by omega)]
        simp
      · rw [List.getElem?_set_ne e]
        congr 1
        funext a
        by_cases hj : tt + 1 ≤ j ∧ j < tt + 1 + k
        · rw [if_pos hj, if_pos (by omega)]
        · rw [if_neg hj, if_neg (by omega)]
    refine ⟨by simpa using h1, key, fun hf => ?_⟩
    obtain ⟨g1, g2⟩ := h3 hf
    simp only [Bool.or_eq_false_iff, decide_eq_false_iff_not, Int.not_lt] at g1
    refine ⟨g1.1, fun j j1 j2 b hb => ?_⟩
    by_cases e : j = tt
    · subst e
      rw [key j, ha', if_pos (by omega)] at hb
      simp at hb; omega
    · exact g2 j (by omega) (by omega) b hb

theorem bookRow_spec (nr : Bool) (H endT t : Nat) (n : Int) (row row' : List Int) (f f' : Bool)
    (h : bookRow nr H endT t n row f = .ok (row', f')) :
    (∀ j : Nat, row'[j]? = row[j]?.map (fun a => a - if j = t ∨ (nr = true ∧ t = endT ∧ endT < j ∧ j < H) then n else 0)) ∧
    (f' = false → f = false ∧ (nr = true → t = endT → ∀ j : Nat, endT < j → j < H → ∀ a, row'[j]? = some a → 0 ≤ a)) := by
  simp only [bookRow] at h
  obtain ⟨a, ha, h⟩ := bind_eq_ok.1 h
  obtain ⟨row1, hr, h⟩ := bind_eq_ok.1 h
  have ha' := pyGet_ok_iff.1 ha
  obtain ⟨hlt, rfl⟩ := pySet_ok_iff.1 hr
  have set_at : ∀ j : Nat, (row.set t (a - n))[j]? = row[j]?.map (fun a => a - if j = t then n else 0) := by
    intro j
    by_cases e : t = j
    · subst e; rw [List.getElem?_set_self hlt, ha']; simp
    · rw [List.getElem?_set_ne e, if_neg (Ne.symm e)]; simp
  split at h
  · rename_i hc
    simp only [Bool.and_eq_true, decide_eq_true_eq] at hc
    obtain ⟨hnr, rfl⟩ := hc
    obtain ⟨h1, h2, h3⟩ := drain_spec n _ _ _ _ _ _ h
    refine ⟨fun j => ?_, fun hf => ⟨(h3 hf).1, fun _ _ j j1 j2 => (h3 hf).2 j (by omega) (by omega)⟩⟩
    rw [h2 j, set_at j]
    cases row[j]? with
    | none => rfl
    | some x =>
      simp only [Option.map_some, Option.some.injEq]
      by_cases e : j = t
      · rw [if_pos e, if_neg (by omega), if_pos (.inl e)]; omega
      · by_cases e2 : t < j ∧ j < H
        · rw [if_neg e, if_pos (by omega), if_pos (.inr ⟨hnr, by simp, e2.1, e2.2⟩)]; omega
        · rw [if_neg e, if_neg (by omega), if_neg (by omega)]; omega
  · rename_i hc
    cases h
    simp only [Bool.and_eq_true, decide_eq_true_eq, not_and] at hc
    refine ⟨fun j => ?_, fun hf => ⟨hf, fun h1 h2 => absurd h2 (hc h1)⟩⟩
    rw [set_at j]
    congr 1; funext x
    by_cases e : j = t
    · rw [if_pos e, if_pos (.inl e)]
    · rw [if_neg e, if_neg (by rintro (g | ⟨g1, g2, _⟩); exact e g; exact hc g1 g2)]

theorem bookRes_spec (pb : Problem) (H endT t : Nat) (m : Mode) : ∀ (rows rows' : Dict String (List Int)) (f f' : Bool),
    bookRes pb H endT t m rows f = .ok (rows', f') →
    rows'.keys = rows.keys ∧ (f' = false → f = false) ∧
    ∀ res row, rows.get? res = some row → ∃ n row', m.needs.get? res = some n ∧ rows'.get? res = some row' ∧
      (∀ j : Nat, row'[j]? = row[j]?.map (fun a => a - if j = t ∨ (pb.nonRenewable.contains res = true ∧ t = endT ∧ endT < j ∧ j < H) then n else 0)) ∧
      (f' = false → pb.nonRenewable.contains res = true → t = endT → ∀ j : Nat, endT < j → j < H → ∀ a, row'[j]? = some a → 0 ≤ a) := by
  intro rows
  induction rows with
  | nil => intro rows' f f' h; cases h; simp
  | cons p rows ih =>
    intro rows' f f' h
    obtain ⟨res, row⟩ := p
    simp only [bookRes] at h
    obtain ⟨n, hn, h⟩ := bind_eq_ok.1 h
    obtain ⟨⟨r1, r2⟩, hr, h⟩ := bind_eq_ok.1 h
    obtain ⟨⟨q1, q2⟩, hq, h⟩ := bind_eq_ok.1 h
    cases h
    obtain ⟨i1, i2, i3⟩ := ih _ _ _ hq
    obtain ⟨b1, b2⟩ := bookRow_spec _ _ _ _ _ _ _ _ _ hr
    refine ⟨by simpa [Dict.keys] using i1, fun hf => (b2 (i2 hf)).1, ?_⟩
    intro res' row' hg
    simp only [Dict.get?] at hg ⊢
    by_cases e : res = res'
    · subst e
      simp only [↓reduceIte, Option.some.injEq] at hg ⊢
      subst hg
      exact ⟨n, r1, dict_get_ok.1 hn, rfl, b1, fun hf => (b2 (i2 hf)).2⟩
    · simp only [e, ↓reduceIte] at hg ⊢
      exact i3 res' row' hg

theorem bookWindow_spec (pb : Problem) (H endT : Nat) (m : Mode) : ∀ (k t : Nat) (rows rows' : Dict String (List Int)) (f f' : Bool),
    t + k = endT + 1 → bookWindow pb H endT m k t rows f = .ok (rows', f') →
    rows'.keys = rows.keys ∧ (f' = false → f = false) ∧
    (0 < k → ∀ res row, rows.get? res = some row → ∃ n row', m.needs.get? res = some n ∧ rows'.get? res = some row' ∧
      (∀ j : Nat, row'[j]? = row[j]?.map (fun a => a -
        if (t ≤ j ∧ j < t + k) ∨ (pb.nonRenewable.contains res = true ∧ t + k ≤ j ∧ j < H) then n else 0)) ∧
      (f' = false → pb.nonRenewable.contains res = true → ∀ j : Nat, t + k ≤ j → j < H → ∀ a, row'[j]? = some a → 0 ≤ a)) := by
  intro k
  induction k with
  | zero => intro t rows rows' f f' _ h; cases h; simp
  | succ k ih =>
    intro t rows rows' f f' ht h
    simp only [bookWindow] at h
    obtain ⟨⟨r1, r2⟩, hr, h⟩ := bind_eq_ok.1 h
    obtain ⟨a1, a2, a3⟩ := bookRes_spec _ _ _ _ _ _ _ _ _ hr
    simp only at h
    by_cases hk : k = 0
    · subst hk
      cases h
      refine ⟨a1, a2, fun _ res row hg => ?_⟩
      obtain ⟨n, row', g1, g2, g3, g4⟩ := a3 res row hg
      refine ⟨n, row', g1, g2, fun j => ?_, fun hf hnr j j1 j2 => g4 hf hnr (by omega) j (by omega) j2⟩
      rw [g3 j]
      congr 1; funext x
      congr 1
      simp only [show (j = t ∨ pb.nonRenewable.contains res = true ∧ t = endT ∧ endT < j ∧ j < H) ↔
        ((t ≤ j ∧ j < t + (0 + 1)) ∨ (pb.nonRenewable.contains res = true ∧ t + (0 + 1) ≤ j ∧ j < H)) from by
          constructor
          · rintro (g | ⟨g1, _, g2, g3⟩)
            · left; omega
            · right; exact ⟨g1, by omega, g3⟩
          · rintro (g | ⟨g1, g2, g3⟩)
            · left; omega
            · right; exact ⟨g1, by omega, by omega, g3⟩]
    · obtain ⟨b1, b2, b3⟩ := ih (t + 1) r1 rows' r2 f' (by omega) h
      refine ⟨b1.trans a1, fun hf => a2 (b2 hf), fun _ res row hg => ?_⟩
      obtain ⟨n, row1, g1, g2, g3, g4⟩ := a3 res row hg
      obtain ⟨n', row', k1, k2, k3, k4⟩ := b3 (by omega) res row1 g2
      rw [g1] at k1; cases k1
      refine ⟨n, row', g1, k2, fun j => ?_, fun hf hnr j j1 j2 => k4 hf hnr j (by omega) j2⟩
      rw [k3 j, g3 j]
      cases row[j]? with
      | none => rfl
      | some x =>
        simp only [Option.map_some, Option.some.injEq]
        have hne : t ≠ endT := by omega
        simp only [hne, false_and, and_false, or_false]
        by_cases e : j = t
        · subst e
          rw [if_pos rfl, if_neg (by rintro (g | ⟨_, g, _⟩) <;> omega), if_pos (by left; omega)]; omega
        · rw [if_neg e]
          by_cases e2 : (t + 1 ≤ j ∧ j < t + 1 + k) ∨ (pb.nonRenewable.contains res = true ∧ t + 1 + k ≤ j ∧ j < H)
          · rw [if_pos e2, if_pos (by
              rcases e2 with e2 | ⟨e1, e2, e3⟩
              · left; omega
              · right; exact ⟨e1, by omega, e3⟩)]; omega
          · rw [if_neg e2, if_neg (by
              rintro (g | ⟨e1, e2', e3⟩)
              · exact e2 (by left; omega)
              · exact e2 (by right; exact ⟨e1, by omega, e3⟩))]; omega

theorem bump_spec (e : Nat) : ∀ (ss : List Nat) (ms ms' : Dict Nat Nat), bump e ss ms = .ok ms' →
    ms'.keys = ms.keys ∧ (∀ s ∈ ss, s ∈ ms.keys) ∧
    ∀ b old, ms.get? b = some old → ms'.get? b = some (if b ∈ ss then max old e else old) := by
  intro ss
  induction ss with
  | nil => intro ms ms' h; cases h; simp
  | cons s ss ih =>
    intro ms ms' h
    simp only [bump] at h
    obtain ⟨old, ho, h⟩ := bind_eq_ok.1 h
    have ho' := dict_get_ok.1 ho
    have hk : s ∈ ms.keys := (Dict.get?_isSome_iff_mem_keys ms s).1 (by rw [ho']; rfl)
    obtain ⟨h1, h2, h3⟩ := ih _ _ h
    have hkeys : (ms.set s (max old e)).keys = ms.keys := by rw [Dict.keys_set, if_pos hk]
    refine ⟨h1.trans hkeys, ?_, ?_⟩
    · intro x hx
      rcases List.mem_cons.1 hx with rfl | hx
      · exact hk
      · rw [← hkeys]; exact h2 x hx
    · intro b ob hb
      by_cases eb : b = s
      · subst eb
        rw [ho'] at hb; cases hb
        rw [h3 b _ (Dict.get?_set_self _ _ _)]
        by_cases hm : b ∈ ss
        · rw [if_pos hm, if_pos (by simp)]; simp
        · rw [if_neg hm, if_pos (by simp)]
      · rw [h3 b ob (by rw [Dict.get?_set_ne _ _ eb]; exact hb)]
        simp [eb]

end Verif.Rcpsp
