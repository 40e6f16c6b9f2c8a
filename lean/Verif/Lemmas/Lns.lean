import Verif.Model.Lns
import Verif.Lemmas.Results
/-! Helper lemmas for the large neighbourhood searches. -/
set_option linter.unusedSectionVars false
namespace Verif.Lns
open Verif.Results
variable {σ κ : Type} [DecidableEq σ]

/-! ### Stores -/

/-- The dictionary of a store has the solutions of its list. -/
def Covers (st : Store σ) : Prop := ∀ s, s ∈ st.seen.map Prod.fst ↔ s ∈ st.sols.map Prod.fst

theorem init_covers (l : List (σ × Int)) (best : Option σ) (mx lim : Bool) (nb : Nat) :
    Covers (Store.init l best mx lim nb) := by
  intro s
  obtain ⟨_, h2, h3⟩ := dedup_spec l []
  simp only [Store.init]
  constructor
  · intro h
    obtain ⟨p, hp, rfl⟩ := List.mem_map.1 h
    rcases h2 p hp with h | h
    · simp at h
    · exact List.mem_map_of_mem h
  · intro h
    obtain ⟨p, hp, rfl⟩ := List.mem_map.1 h
    obtain ⟨q, hq, hqs⟩ := h3 p hp
    exact List.mem_map.2 ⟨q, hq, hqs⟩

theorem add_sols {st st' : Store σ} {s : σ} {f : Int} (h : st.add s f = .ok st') :
    st'.maximize = st.maximize ∧
    st'.sols = (if s ∈ st.seen.map Prod.fst then st.sols else st.sols ++ [(s, f)]) ∧
    st'.seen = (if s ∈ st.seen.map Prod.fst then st.seen else st.seen ++ [(s, f)]) := by
  unfold Store.add at h
  cases hm : st.minmax with
  | none => simp [hm] at h
  | some q =>
    obtain ⟨mn, mx⟩ := q
    simp only [hm] at h
    by_cases hc : s ∈ st.seen.map Prod.fst
    · have hb : (st.seen.map Prod.fst).contains s = true := by simpa using hc
      simp only [hb, hc, if_true, Bool.not_true, Bool.false_eq_true, if_false] at h ⊢
      split at h <;> (cases h; simp)
    · have hb : (st.seen.map Prod.fst).contains s = false := by
        rw [Bool.eq_false_iff]; intro hh; exact hc (by simpa using hh)
      simp only [hb, hc, Bool.not_false, if_true, if_false] at h ⊢
      split at h <;> (cases h; simp)

theorem add_covers {st st' : Store σ} {s : σ} {f : Int} (hc : Covers st) (h : st.add s f = .ok st') : Covers st' := by
  obtain ⟨_, h2, h3⟩ := add_sols h
  intro t
  rw [h2, h3]
  split
  · exact hc t
  · have := hc t
    simp only [List.map_append, List.mem_append, this]

theorem addAll_sols {st st' : Store σ} {l : List (σ × Int)} (hc : Covers st) (h : st.addAll l = .ok st') :
    Covers st' ∧ st'.maximize = st.maximize ∧ (∀ p, p ∈ st'.sols → p ∈ st.sols ∨ p ∈ l) ∧
    (∀ p, p ∈ st.sols → p ∈ st'.sols) ∧ ∀ p, p ∈ l → p.1 ∈ st'.sols.map Prod.fst := by
  induction l generalizing st with
  | nil => cases h; exact ⟨hc, rfl, fun p hp => .inl hp, fun p hp => hp, fun p hp => absurd hp (by simp)⟩
  | cons q l ih =>
    obtain ⟨s, f⟩ := q
    simp only [Store.addAll, bind_eq_ok] at h
    obtain ⟨st1, h1, h2⟩ := h
    obtain ⟨a1, a2, a3⟩ := add_sols h1
    obtain ⟨b1, b2, b3, b4, b5⟩ := ih (add_covers hc h1) h2
    have hsub : ∀ p, p ∈ st.sols → p ∈ st1.sols := by
      intro p hp
      rw [a2]; split
      · exact hp
      · exact List.mem_append_left _ hp
    refine ⟨b1, b2.trans a1, fun p hp => ?_, fun p hp => b4 p (hsub p hp), fun p hp => ?_⟩
    · rcases b3 p hp with h | h
      · rw [a2] at h
        split at h
        · exact .inl h
        · rcases List.mem_append.1 h with h | h
          · exact .inl h
          · exact .inr (by simp only [List.mem_singleton] at h; simp [h])
      · exact .inr (List.mem_cons_of_mem _ h)
    · rcases List.mem_cons.1 hp with rfl | hp
      · have : s ∈ st1.sols.map Prod.fst := by
          rw [a2]; split
          · rename_i hs; exact (hc s).1 hs
          · simp
        obtain ⟨q, hq, hqs⟩ := List.mem_map.1 this
        exact List.mem_map.2 ⟨q, b4 q hq, hqs⟩
      · exact b5 p hp

/-- With a fitness function, adding gives the union. -/
theorem addAll_mem {st st' : Store σ} {l : List (σ × Int)} {val : σ → Int} (hc : Covers st) (h : st.addAll l = .ok st')
    (hv : ∀ p, p ∈ st.sols → p.2 = val p.1) (hl : ∀ p, p ∈ l → p.2 = val p.1) :
    (∀ p, p ∈ st'.sols ↔ p ∈ st.sols ∨ p ∈ l) ∧ ∀ p, p ∈ st'.sols → p.2 = val p.1 := by
  obtain ⟨_, _, h3, h4, h5⟩ := addAll_sols hc h
  have hv' : ∀ p, p ∈ st'.sols → p.2 = val p.1 := fun p hp => (h3 p hp).elim (hv p) (hl p)
  refine ⟨fun p => ⟨h3 p, fun hp => ?_⟩, hv'⟩
  rcases hp with hp | hp
  · exact h4 p hp
  · obtain ⟨q, hq, hqp⟩ := List.mem_map.1 (h5 p hp)
    have : q = p := Prod.ext hqp (by rw [hv' q hq, hl p hp, hqp])
    exact this ▸ hq

theorem covers_ne_none {st st' : Store σ} {l : List (σ × Int)} (hc : Covers st) (h : st.addAll l = .ok st')
    (hne : st.sols ≠ []) : st'.sols ≠ [] := by
  obtain ⟨_, _, _, h4, _⟩ := addAll_sols hc h
  obtain ⟨p, hp⟩ := List.exists_mem_of_ne_nil _ hne
  exact List.ne_nil_of_mem (h4 p hp)

/-- Adding what is there already leaves the list as it is. -/
theorem addAll_known {st st' : Store σ} {l : List (σ × Int)} (h : st.addAll l = .ok st')
    (hl : ∀ p, p ∈ l → p.1 ∈ st.seen.map Prod.fst) : st'.sols = st.sols ∧ st'.maximize = st.maximize := by
  induction l generalizing st with
  | nil => cases h; exact ⟨rfl, rfl⟩
  | cons q l ih =>
    obtain ⟨s, f⟩ := q
    simp only [Store.addAll, bind_eq_ok] at h
    obtain ⟨st1, h1, h2⟩ := h
    obtain ⟨a1, a2, a3⟩ := add_sols h1
    have hs := hl (s, f) (by simp)
    simp only [hs, if_true] at a2 a3
    obtain ⟨b1, b2⟩ := ih h2 (fun p hp => by rw [a3]; exact hl p (by simp [hp]))
    exact ⟨b1.trans a2, b2.trans a1⟩

theorem addAll_self {st st' : Store σ} (hc : Covers st) (h : st.addAll st.sols = .ok st') :
    st'.getBestFit = st.getBestFit := by
  obtain ⟨h1, h2⟩ := addAll_known h (fun p hp => (hc p.1).2 (List.mem_map_of_mem hp))
  simp only [Store.getBestFit, h1, h2]

/-- Stores as they can arise: built by the constructor, then solutions added. -/
def Made (st : Store σ) : Prop :=
  ∃ l best mx lim nb adds, (Store.init l best mx lim nb).addAll adds = .ok st

theorem Made.covers {st : Store σ} (h : Made st) : Covers st := by
  obtain ⟨l, best, mx, lim, nb, adds, h⟩ := h
  exact (addAll_sols (init_covers l best mx lim nb) h).1

theorem addAll_append {st st1 st2 : Store σ} {l1 l2 : List (σ × Int)} (h1 : st.addAll l1 = .ok st1)
    (h2 : st1.addAll l2 = .ok st2) : st.addAll (l1 ++ l2) = .ok st2 := by
  induction l1 generalizing st with
  | nil => cases h1; exact h2
  | cons p l1 ih =>
    obtain ⟨s, f⟩ := p
    simp only [Store.addAll, bind_eq_ok, List.cons_append] at h1 ⊢
    obtain ⟨x, hx, hx'⟩ := h1
    exact ⟨x, hx, ih hx'⟩

theorem Made.addAll {st st' : Store σ} {l : List (σ × Int)} (h : Made st) (h' : st.addAll l = .ok st') : Made st' := by
  obtain ⟨l0, best, mx, lim, nb, adds, h⟩ := h
  exact ⟨l0, best, mx, lim, nb, adds ++ l, addAll_append h h'⟩

theorem best_spec {st : Store σ} {b : σ × Int} (h : st.getBestFit = .ok b) :
    b ∈ st.sols ∧ ∀ p ∈ st.sols, Better st.maximize b.2 p.2 := bestOf_spec h

theorem best_ne {st : Store σ} {b : σ × Int} (h : st.getBestFit = .ok b) : st.sols ≠ [] :=
  List.ne_nil_of_mem (best_spec h).1

theorem best_defined {st : Store σ} (h : st.sols ≠ []) : ∃ b, st.getBestFit = .ok b := bestOf_defined _ h

theorem better_trans {mx : Bool} {a b c : Int} (h1 : Better mx a b) (h2 : Better mx b c) : Better mx a c := by
  unfold Better at *; split <;> simp_all <;> omega

theorem better_refl (mx : Bool) (a : Int) : Better mx a a := by
  unfold Better; split <;> omega

theorem better_antisymm {mx : Bool} {a b : Int} (h1 : Better mx a b) (h2 : Better mx b a) : a = b := by
  unfold Better at *; split at h1 <;> simp_all <;> omega

theorem better_total (mx : Bool) (a b : Int) : Better mx a b ∨ Better mx b a := by
  unfold Better; split <;> omega

/-! ### Objectives -/

theorem improved_fin {mx : Bool} {fit x : Int} : (Obj.fin x).improved mx fit = true ↔ ¬ Better mx x fit := by
  cases mx <;> simp [Obj.improved, Obj.below, Obj.above, Better]

/-! ### Constraints -/

theorem drop_self (l : List (Con κ)) : drop l l = [] := by
  unfold drop
  rw [List.filter_eq_nil_iff]
  intro c hc
  simp only [Bool.not_eq_true', Bool.not_eq_false, List.contains_iff_mem]
  exact List.mem_map_of_mem hc

theorem fresh_snd (n : Nat) (l : List κ) : (fresh n l).map Prod.snd = l := by
  induction l generalizing n with
  | nil => rfl
  | cons x xs ih => simp [fresh, ih]

/-! ### The loop of the mixed integer search -/

theorem present_eq_ok {o : Option (Store σ)} {st : Store σ} : present o = .ok st ↔ o = some st := by
  cases o <;> simp [present]

/-- What one iteration does. -/
theorem step_spec {L : Milp σ κ} {skip : Bool} {i : Nat} {s s' : State σ κ} (h : step L skip i s = .ok s') :
    ∃ r0 b0 r b old store r' gone rows, L.solve i (s.active.map Prod.snd) = .ok r0 ∧ r0.getBestFit = .ok b0 ∧
      L.post r0 = .ok r ∧
      r.getBestFit = .ok b ∧ (if skip && i == 0 then some r else s.store) = some old ∧ old.addAll r.sols = .ok store ∧
      r' = (if skip && i == 0 then store else r) ∧ L.toRemove s.prev = .ok gone ∧ L.add (i + 1) r' = .ok rows ∧
      s' = ⟨some store, (countMilp L.maximize b.2 s.best s.noImp).1, (countMilp L.maximize b.2 s.best s.noImp).2,
        drop s.active gone ++ fresh s.next rows, s.next + rows.length, [(L.key, fresh s.next rows)],
        s.seen ++ [s.active.map Prod.snd], s.results ++ [r']⟩ := by
  simp only [step, bind_eq_ok] at h
  obtain ⟨r0, h1, b0, h2, r, h3, b, h4, old, h5, store, h6, gone, h7, rows, h8, h9⟩ := h
  exact ⟨r0, b0, r, b, old, store, _, gone, rows, h1, h2, h3, h4, present_eq_ok.1 h5, h6, rfl, h7, h8,
    (Except.ok.inj h9).symm⟩

/-- Rule for properties of the loop: what holds at the start of an iteration is kept by it. -/
theorem loop_inv {L : Milp σ κ} {skip : Bool} {patience : Nat} (P : Nat → State σ κ → Prop)
    (hstep : ∀ i s s', P i s → (0 < i → s.noImp ≤ patience) → step L skip i s = .ok s' → P (i + 1) s') :
    ∀ (k i : Nat) (s out : State σ κ), P i s → (0 < i → s.noImp ≤ patience) → loop L skip patience k i s = .ok out →
      ∃ n, i ≤ n ∧ n ≤ i + k ∧ P n out ∧
        (n < i + k → i < n ∧ (L.late (n - 1) = true ∨ patience < out.noImp)) := by
  intro k
  induction k with
  | zero =>
    intro i s out hp _ h
    simp only [loop] at h
    cases h
    exact ⟨i, Nat.le_refl _, by omega, hp, fun h => by omega⟩
  | succ k ih =>
    intro i s out hp hc h
    simp only [loop, bind_eq_ok] at h
    obtain ⟨s', h1, h2⟩ := h
    have hp' := hstep i s s' hp hc h1
    by_cases hl : L.late i = true
    · simp only [hl, if_true] at h2
      cases h2
      exact ⟨i + 1, by omega, by omega, hp', fun _ => ⟨by omega, .inl (by simpa using hl)⟩⟩
    · simp only [hl, if_false, Bool.false_eq_true] at h2
      by_cases hn : s'.noImp > patience
      · simp only [hn, if_true] at h2
        cases h2
        exact ⟨i + 1, by omega, by omega, hp', fun _ => ⟨by omega, .inr hn⟩⟩
      · simp only [hn, if_false] at h2
        obtain ⟨n, h3, h4, h5, h6⟩ := ih (i + 1) s' out hp' (fun _ => by omega) h2
        exact ⟨n, by omega, by omega, h5, fun h => ⟨by omega, (h6 (by omega)).2⟩⟩

theorem start_spec {L : Milp σ κ} {skip : Bool} {s : State σ κ} (h : start L skip = .ok s) :
    (skip = true ∧ s = ⟨none, .posInf, 0, [], 0, [("empty", [])], [], []⟩) ∨
    (skip = false ∧ ∃ st b rows, L.initial = .ok st ∧ st.getBestFit = .ok b ∧ L.add 0 st = .ok rows ∧
      s = ⟨some st, .fin b.2, 0, fresh 0 rows, rows.length, [(L.key, fresh 0 rows)], [], []⟩) := by
  cases skip with
  | true => simp only [start, if_true] at h; cases h; exact .inl ⟨rfl, rfl⟩
  | false =>
    simp only [start, bind_eq_ok, Bool.false_eq_true, if_false] at h
    obtain ⟨st, h1, b, h2, rows, h3, h4⟩ := h
    cases h4
    exact .inr ⟨rfl, st, b, rows, h1, h2, h3, rfl⟩

/-- Rule for the whole search. -/
theorem solveMilp_inv {L : Milp σ κ} {skip : Bool} {nb : Nat} {patience : Option Nat} {out : State σ κ}
    (h : solveMilp L nb patience skip = .ok out) (P : Nat → State σ κ → Prop)
    (hstart : ∀ s, start L skip = .ok s → P 0 s)
    (hstep : ∀ i s s', P i s → (0 < i → s.noImp ≤ patience.getD (2 * nb)) → step L skip i s = .ok s' → P (i + 1) s') :
    ∃ n, n ≤ nb ∧ P n out ∧ (n < nb → 0 < n ∧ (L.late (n - 1) = true ∨ patience.getD (2 * nb) < out.noImp)) := by
  simp only [solveMilp, bind_eq_ok] at h
  obtain ⟨s, h1, h2⟩ := h
  obtain ⟨n, _, h4, h5, h6⟩ := loop_inv P hstep nb 0 s out (hstart s h1) (fun h => absurd h (Nat.lt_irrefl 0)) h2
  exact ⟨n, by omega, h5, fun h => h6 (by omega)⟩

theorem length_inv {L : Milp σ κ} {skip : Bool} {i : Nat} {s s' : State σ κ}
    (hp : s.results.length = i) (h : step L skip i s = .ok s') : s'.results.length = i + 1 := by
  obtain ⟨r0, b0, r, b, old, store, r', gone, rows, _, _, _, _, _, _, _, _, _, rfl⟩ := step_spec h
  simp [hp]

theorem start_length {L : Milp σ κ} {skip : Bool} {s : State σ κ} (h : start L skip = .ok s) : s.results.length = 0 := by
  rcases start_spec h with ⟨_, rfl⟩ | ⟨_, st, b, rows, _, _, _, rfl⟩ <;> rfl

end Verif.Lns
