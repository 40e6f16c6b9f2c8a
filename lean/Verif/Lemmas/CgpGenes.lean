import Verif.Lemmas.Cgp
import Mathlib.Data.List.Forall2
import Mathlib.Tactic.Linarith

/-! Lemmas on the genomes of Cartesian genetic programs and their evolution. -/
namespace Verif.Cgp

variable {V : Type}

theorem randint_ok {hi : Int} (h : 0 ≤ hi) (d : Nat) : ∃ v, randint hi d = .ok v ∧ (v : Int) ≤ hi := by
  refine ⟨d % (hi.toNat + 1), by simp only [randint, if_neg (show ¬ hi < 0 by omega)], ?_⟩
  have := Nat.mod_lt d (Nat.succ_pos hi.toNat)
  generalize d % (hi.toNat + 1) = m at this ⊢
  omega

theorem randint_le {hi : Int} {d v : Nat} (h : randint hi d = .ok v) : (v : Int) ≤ hi := by
  simp only [randint] at h
  split at h
  · simp at h
  · cases h
    have := Nat.mod_lt d (Nat.succ_pos hi.toNat)
    generalize d % (hi.toNat + 1) = m at this ⊢
    omega

theorem randint_error {hi : Int} {d : Nat} {e : PyErr} (h : randint hi d = .error e) : e = .valueError := by
  simp only [randint] at h
  split at h
  · cases h; rfl
  · simp at h

theorem randint_self {hi : Int} {v : Nat} (h : (v : Int) ≤ hi) : randint hi v = .ok v := by
  simp only [randint, if_neg (show ¬ hi < 0 by omega)]
  rw [Nat.mod_eq_of_lt (by omega)]

theorem mapM_ok {α β : Type} (f : α → Except PyErr β) (P : α → β → Prop) : ∀ l : List α, (∀ a ∈ l, ∃ b, f a = .ok b ∧ P a b) →
    ∃ r, l.mapM f = .ok r ∧ List.Forall₂ P l r := by
  intro l
  induction l with
  | nil => intro _; exact ⟨[], rfl, .nil⟩
  | cons a l ih =>
    intro h
    obtain ⟨b, h1, h2⟩ := h a List.mem_cons_self
    obtain ⟨r, r1, r2⟩ := ih (fun x hx => h x (List.mem_cons_of_mem _ hx))
    exact ⟨b :: r, by simp only [List.mapM_cons, h1, r1]; rfl, .cons h2 r2⟩

theorem mapM_err {α β : Type} (f : α → Except PyErr β) (e : PyErr) : ∀ l : List α, (∀ a ∈ l, ∀ e', f a = .error e' → e' = e) → (∃ a ∈ l, f a = .error e) →
    l.mapM f = .error e := by
  intro l
  induction l with
  | nil => rintro _ ⟨a, ha, -⟩; cases ha
  | cons a l ih =>
    intro h hex
    cases hf : f a with
    | error e' =>
      have := h a List.mem_cons_self e' hf
      subst this
      simp only [List.mapM_cons, hf]
      rfl
    | ok b =>
      have : l.mapM f = .error e := by
        refine ih (fun x hx => h x (List.mem_cons_of_mem _ hx)) ?_
        obtain ⟨x, hx, hxe⟩ := hex
        rcases List.mem_cons.mp hx with rfl | hx
        · rw [hf] at hxe; cases hxe
        · exact ⟨x, hx, hxe⟩
      simp only [List.mapM_cons, hf, this]
      rfl

theorem forall₂_get {α β : Type} {P : α → β → Prop} {l : List α} {r : List β} (h : List.Forall₂ P l r) :
    l.length = r.length ∧ ∀ (i : Nat) (a : α) (b : β), l[i]? = some a → r[i]? = some b → P a b := by
  induction h with
  | nil => exact ⟨rfl, by simp⟩
  | cons h1 _ ih =>
    refine ⟨by simp [ih.1], fun i a b ha hb => ?_⟩
    cases i with
    | zero => simp at ha hb; subst ha; subst hb; exact h1
    | succ i => exact ih.2 i a b (by simpa using ha) (by simpa using hb)

theorem pos_div_lt {c : Config V} {i : Nat} (h : i < c.size * (c.arity + 1)) : i / (c.arity + 1) < c.size :=
  Nat.div_lt_of_lt_mul (by rw [Nat.mul_comm]; exact h)

/-! ### Random genomes -/

theorem randomGene_ok {c : Config V} (hin : 0 < c.inputs) (hl : c.library ≠ []) (draw : Nat → Nat) (i : Nat) :
    ∃ g, randomGene c draw i = .ok g ∧ g < limit c (columns c) i := by
  have hlib : 0 < c.library.length := List.length_pos_iff.mpr hl
  simp only [randomGene, limit, columns]
  split
  · split
    · obtain ⟨v, e1, e2⟩ := randint_ok (show (0 : Int) ≤ (c.library.length : Int) - 1 by omega) (draw i)
      exact ⟨v, e1, by omega⟩
    · obtain ⟨v, e1, e2⟩ := randint_ok (show (0 : Int) ≤ (c.inputs : Int) + ((i / (c.arity + 1) / c.rows * c.rows : Nat) : Int) - 1 by omega) (draw i)
      exact ⟨v, e1, by omega⟩
  · obtain ⟨v, e1, e2⟩ := randint_ok (show (0 : Int) ≤ (c.inputs : Int) + c.size - 1 by omega) (draw i)
    exact ⟨v, e1, by omega⟩

theorem random_ok {c : Config V} (hin : 0 < c.inputs) (hl : c.library ≠ []) (draw : Nat → Nat) (r : Rat) :
    ∃ g, random c draw r = .ok { genome := g, recurrency := r } ∧ Fits c (columns c) g := by
  obtain ⟨g, g1, g2⟩ := mapM_ok (randomGene c draw) (fun i g => g < limit c (columns c) i) (List.range (c.size * (c.arity + 1) + c.outputs))
    (fun i _ => randomGene_ok hin hl draw i)
  obtain ⟨g3, g4⟩ := forall₂_get g2
  rw [List.length_range] at g3
  refine ⟨g, by simp only [random, g1], g3.symm, fun i x hx => ?_⟩
  have : i < g.length := (List.getElem?_eq_some_iff.mp hx).1
  exact g4 i i x (by rw [List.getElem?_range (by omega)]) hx

theorem randomGene_self {c : Config V} {i g : Nat} (draw : Nat → Nat) (hd : draw i = g) (h : g < limit c (columns c) i) : randomGene c draw i = .ok g := by
  simp only [randomGene, hd]
  simp only [limit, columns] at h
  split
  · next hi =>
    rw [if_pos hi] at h
    split
    · next hm => rw [if_pos hm] at h; exact randint_self (by omega)
    · next hm => rw [if_neg hm] at h; exact randint_self (by omega)
  · next hi => rw [if_neg hi] at h; exact randint_self (by omega)

theorem mapM_self {f : Nat → Except PyErr Nat} : ∀ (l : List Nat) (off : Nat), (∀ i g, l[i]? = some g → f (off + i) = .ok g) →
    (List.range' off l.length).mapM f = .ok l := by
  intro l
  induction l with
  | nil => intro off _; rfl
  | cons a l ih =>
    intro off h
    have h0 := h 0 a rfl
    have h1 := ih (off + 1) (fun i g hg => by have := h (i + 1) g (by simpa using hg); rwa [show off + 1 + i = off + (i + 1) by omega])
    simp only [List.length_cons, List.range'_succ, List.mapM_cons, Nat.add_zero] at h0 ⊢
    simp only [h0, h1]
    rfl

theorem random_onto {c : Config V} {g : List Nat} (h : Fits c (columns c) g) (r : Rat) :
    random c (fun i => g.getD i 0) r = .ok { genome := g, recurrency := r } := by
  have := mapM_self (f := randomGene c (fun i => g.getD i 0)) g 0 (by
    intro i x hx
    rw [Nat.zero_add]
    exact randomGene_self _ (by simp [List.getD_eq_getElem?_getD, hx]) (h.gene i x hx))
  rw [← List.range_eq_range', h.len] at this
  simp only [random, this]

theorem randomGene_error {c : Config V} {draw : Nat → Nat} {i : Nat} {e : PyErr} (h : randomGene c draw i = .error e) : e = .valueError := by
  simp only [randomGene] at h
  split at h
  · split at h <;> exact randint_error h
  · exact randint_error h

theorem arity_pos {c : Config V} : 0 < c.arity → c.library ≠ [] := by
  intro h hl
  simp [Config.arity, hl] at h

/-! ### Changed genomes -/

theorem Fits.set {c : Config V} {b : Nat → Nat} {g : List Nat} (h : Fits c b g) {i x : Nat} (hx : x < limit c b i) : Fits c b (g.set i x) := by
  refine ⟨by rw [List.length_set, h.len], fun j y hy => ?_⟩
  rw [List.getElem?_set] at hy
  split at hy
  · next he =>
    subst he
    split at hy
    · cases hy; exact hx
    · cases hy
  · exact h.gene j y hy

theorem mutateGene_ok {c : Config V} (hin : 0 < c.inputs) (hl : c.library ≠ []) (hr : c.rows = 1) (d i : Nat) :
    ∃ g, mutateGene c d i = .ok g ∧ g < limit c (forward c) i := by
  have hlib : 0 < c.library.length := List.length_pos_iff.mpr hl
  simp only [mutateGene, limit, forward, hr]
  split
  · split
    · obtain ⟨v, e1, e2⟩ := randint_ok (show (0 : Int) ≤ (c.library.length : Int) - 1 by omega) d
      exact ⟨v, e1, by omega⟩
    · generalize i / (c.arity + 1) = p
      obtain ⟨v, e1, e2⟩ := randint_ok (show (0 : Int) ≤ (c.inputs : Int) + ((p : Int) - 1) * (1 : Nat) by omega) d
      exact ⟨v, e1, by omega⟩
  · obtain ⟨v, e1, e2⟩ := randint_ok (show (0 : Int) ≤ (c.inputs : Int) + c.size - 1 by omega) d
    exact ⟨v, e1, by omega⟩

theorem mutate_ok {c : Config V} (hin : 0 < c.inputs) (hl : c.library ≠ []) (hr : c.rows = 1) : ∀ (draws : List (Nat × Nat)) (ind : Ind V),
    Fits c (forward c) ind.genome → 0 < ind.genome.length →
    ∃ g, Ind.mutate c draws ind = .ok { ind with genome := g } ∧ Fits c (forward c) g := by
  intro draws
  induction draws with
  | nil => intro ind h _; exact ⟨ind.genome, rfl, h⟩
  | cons x draws ih =>
    obtain ⟨p, d⟩ := x
    intro ind h hpos
    obtain ⟨i, i1, i2⟩ := randint_ok (show (0 : Int) ≤ (ind.genome.length : Int) - 1 by omega) p
    obtain ⟨g, g1, g2⟩ := mutateGene_ok hin hl hr d i
    obtain ⟨g', e1, e2⟩ := ih { ind with genome := ind.genome.set i g } (h.set g2) (by simpa using hpos)
    exact ⟨g', by simp only [Ind.mutate, i1, g1, e1], e2⟩

theorem mutateFrom_ok {c : Config V} {r : Rat} (b : Nat → Nat) (hit : Nat → Bool) (draw : Nat → Nat)
    (hg : ∀ i, hit i = true → ∃ g, mutateGene2 c r (draw i) i = .ok g ∧ g < limit c b i) : ∀ (l : List Nat) (off : Nat),
    (∀ i g, l[i]? = some g → g < limit c b (off + i)) →
    ∃ l', mutateFrom c r hit draw off l = .ok l' ∧ l'.length = l.length ∧ (∀ i g, l'[i]? = some g → g < limit c b (off + i)) ∧
      ∀ i, hit (off + i) = false → l'[i]? = l[i]? := by
  intro l
  induction l with
  | nil => intro off _; exact ⟨[], rfl, rfl, by simp, by simp⟩
  | cons a l ih =>
    intro off h
    have hgene : ∃ a', (if hit off then mutateGene2 c r (draw off) off else .ok a) = .ok a' ∧ a' < limit c b off ∧ (hit off = false → a' = a) := by
      cases hh : hit off with
      | true =>
        obtain ⟨a', e1, e2⟩ := hg off hh
        exact ⟨a', by simpa using e1, e2, by simp⟩
      | false => exact ⟨a, by simp, by simpa using h 0 a rfl, fun _ => rfl⟩
    obtain ⟨a', e1, e2, e3⟩ := hgene
    obtain ⟨l', f1, f2, f3, f4⟩ := ih (off + 1) (fun i g hig => by have := h (i + 1) g (by simpa using hig); rwa [show off + 1 + i = off + (i + 1) by omega])
    refine ⟨a' :: l', by simp only [mutateFrom, e1, f1], by simp [f2], ?_, ?_⟩
    · intro i g hig
      cases i with
      | zero => simp at hig; subst hig; exact e2
      | succ i => have := f3 i g (by simpa using hig); rwa [show off + 1 + i = off + (i + 1) by omega] at this
    · intro i hi
      cases i with
      | zero => simp [e3 hi]
      | succ i => simpa using f4 i (by rwa [show off + 1 + i = off + (i + 1) by omega])

theorem mutateFrom_range {c : Config V} {r : Rat} (b : Nat → Nat) (hit : Nat → Bool) (draw : Nat → Nat)
    (hg : ∀ i g, mutateGene2 c r (draw i) i = .ok g → g < limit c b i) : ∀ (l : List Nat) (off : Nat) (l' : List Nat),
    (∀ i g, l[i]? = some g → g < limit c b (off + i)) → mutateFrom c r hit draw off l = .ok l' →
    l'.length = l.length ∧ (∀ i g, l'[i]? = some g → g < limit c b (off + i)) := by
  intro l
  induction l with
  | nil => intro off l' _ h; cases h; exact ⟨rfl, by simp⟩
  | cons a l ih =>
    intro off l' h e
    have key : ∀ a', (if hit off then mutateGene2 c r (draw off) off else .ok a) = .ok a' → a' < limit c b off := by
      intro a' ha
      cases hh : hit off with
      | true => rw [hh] at ha; exact hg _ _ (by simpa using ha)
      | false => rw [hh] at ha; simp at ha; subst ha; simpa using h 0 a rfl
    simp only [mutateFrom] at e
    split at e
    · cases e
    · next a' ha =>
      split at e
      · cases e
      · next l1 hl1 =>
        cases e
        obtain ⟨f2, f3⟩ := ih (off + 1) l1 (fun i g hig => by have := h (i + 1) g (by simpa using hig); rwa [show off + 1 + i = off + (i + 1) by omega]) hl1
        refine ⟨by simp [f2], ?_⟩
        intro i g hig
        cases i with
        | zero => simp at hig; subst hig; exact key _ ha
        | succ i => have := f3 i g (by simpa using hig); rwa [show off + 1 + i = off + (i + 1) by omega] at this

theorem mutateFrom_error {c : Config V} {r : Rat} (hit : Nat → Bool) (draw : Nat → Nat) : ∀ (l : List Nat) (off : Nat) (e : PyErr),
    mutateFrom c r hit draw off l = .error e → e = .valueError := by
  intro l
  induction l with
  | nil => intro off e h; cases h
  | cons a l ih =>
    intro off e h
    simp only [mutateFrom] at h
    split at h
    · next e' he =>
      cases h
      cases hh : hit off with
      | false => simp [hh] at he
      | true =>
        rw [hh] at he
        simp only [if_true, mutateGene2] at he
        split at he
        · split at he
          · exact randint_error he
          · split at he
            · cases he; rfl
            · exact randint_error he
        · exact randint_error he
    · split at h
      · next e' he => cases h; exact ih _ _ he
      · cases h

theorem mutateGene2_ok {c : Config V} (hin : 0 < c.inputs) (hl : c.library ≠ []) (hr : c.rows = 1) (d i : Nat) :
    ∃ g, mutateGene2 c 1 d i = .ok g ∧ g < limit c (forward c) i := by
  have hlib : 0 < c.library.length := List.length_pos_iff.mpr hl
  simp only [mutateGene2, limit, forward]
  split
  · next hi =>
    split
    · obtain ⟨v, e1, e2⟩ := randint_ok (show (0 : Int) ≤ (c.library.length : Int) - 1 by omega) d
      exact ⟨v, e1, by omega⟩
    · have hp := pos_div_lt hi
      simp only [connection, hr, mul_one]
      generalize i / (c.arity + 1) = p at hp ⊢
      have hc : min ((c.size : Rat) + c.inputs - 1) ((c.inputs : Rat) + ((p : Rat) - 1) * ((1 : Nat) : Rat)) = (((c.inputs : Int) + (p : Int) - 1 : Int) : Rat) := by
        push_cast
        rw [min_eq_right]
        · linarith
        · have : (p : Rat) + 1 ≤ (c.size : Rat) := by exact_mod_cast hp
          linarith
      rw [hc]
      simp only [Rat.den_intCast, ne_eq, not_true_eq_false, if_false, Rat.num_intCast]
      obtain ⟨v, e1, e2⟩ := randint_ok (show (0 : Int) ≤ (c.inputs : Int) + (p : Int) - 1 by omega) d
      exact ⟨v, e1, by omega⟩
  · obtain ⟨v, e1, e2⟩ := randint_ok (show (0 : Int) ≤ (c.inputs : Int) + c.size - 1 by omega) d
    exact ⟨v, e1, by omega⟩

theorem mutateGene2_range {c : Config V} {r : Rat} {d i g : Nat} (h : mutateGene2 c r d i = .ok g) : g < limit c (anywhere c) i := by
  simp only [mutateGene2] at h
  simp only [limit, anywhere]
  split at h
  · next hi =>
    rw [if_pos hi]
    split at h
    · next hm => rw [if_pos hm]; have := randint_le h; omega
    · next hm =>
      rw [if_neg hm]
      split at h
      · cases h
      · next hd =>
        have := randint_le h
        have hle : connection c r i ≤ (c.size : Rat) + c.inputs - 1 := min_le_left _ _
        have hnum : ((connection c r i).num : Rat) = connection c r i := Rat.coe_int_num_of_den_eq_one (by simpa using hd)
        rw [← hnum] at hle
        have h2 : (connection c r i).num ≤ (c.size : Int) + c.inputs - 1 := by exact_mod_cast hle
        omega
  · next hi => rw [if_neg hi]; have := randint_le h; omega

theorem mutatePerGene_ok {c : Config V} (hin : 0 < c.inputs) (hl : c.library ≠ []) (hr : c.rows = 1) (hit : Nat → Bool) (draw : Nat → Nat) (ind : Ind V)
    (h : Fits c (forward c) ind.genome) (hrec : ind.recurrency = 1) :
    ∃ g, Ind.mutatePerGene c hit draw ind = .ok { ind with genome := g } ∧ Fits c (forward c) g ∧ ∀ i : Nat, hit i = false → g[i]? = ind.genome[i]? := by
  obtain ⟨g, e1, e2, e3, e4⟩ := mutateFrom_ok (forward c) hit draw (fun i _ => mutateGene2_ok hin hl hr (draw i) i) ind.genome 0
    (fun i x hx => by rw [Nat.zero_add]; exact h.gene i x hx)
  refine ⟨g, by simp only [Ind.mutatePerGene, hrec, e1], ⟨by rw [e2, h.len], fun i x hx => ?_⟩, fun i hi => e4 i (by rwa [Nat.zero_add])⟩
  have := e3 i x hx
  rwa [Nat.zero_add] at this

/-! ### Evolution -/

theorem firstMax_spec : ∀ (l : List (Rat × Ind V)) (b : Rat × Ind V),
    (firstMax b l = b ∨ firstMax b l ∈ l) ∧ b.1 ≤ (firstMax b l).1 ∧ ∀ r ∈ l, r.1 ≤ (firstMax b l).1 := by
  intro l
  induction l with
  | nil => intro b; exact ⟨.inl rfl, le_refl _, by simp⟩
  | cons x l ih =>
    intro b
    simp only [firstMax]
    split
    · next hlt =>
      obtain ⟨h1, h2, h3⟩ := ih x
      refine ⟨?_, le_trans (le_of_lt hlt) h2, ?_⟩
      · rcases h1 with h1 | h1
        · rw [h1]; exact .inr List.mem_cons_self
        · exact .inr (List.mem_cons_of_mem _ h1)
      · intro r hr
        rcases List.mem_cons.mp hr with rfl | hr
        · exact h2
        · exact h3 r hr
    · next hlt =>
      obtain ⟨h1, h2, h3⟩ := ih b
      refine ⟨?_, h2, ?_⟩
      · rcases h1 with h1 | h1
        · exact .inl h1
        · exact .inr (List.mem_cons_of_mem _ h1)
      · intro r hr
        rcases List.mem_cons.mp hr with rfl | hr
        · exact le_trans (not_lt.mp hlt) h2
        · exact h3 r hr

/-- The first of the greatest is found. -/
theorem firstMax_first : ∀ (l : List (Rat × Ind V)) (b : Rat × Ind V) (i : Nat) (x : Rat × Ind V), (b :: l)[i]? = some x →
    (∀ (j : Nat) (r : Rat × Ind V), (b :: l)[j]? = some r → r.1 ≤ x.1 ∧ (j < i → r.1 < x.1)) → firstMax b l = x := by
  intro l
  induction l with
  | nil =>
    intro b i x hx _
    cases i with
    | zero => simpa [firstMax] using hx
    | succ i => simp at hx
  | cons y l ih =>
    intro b i x hx hall
    simp only [firstMax]
    cases i with
    | zero =>
      simp only [List.getElem?_cons_zero, Option.some.injEq] at hx
      subst hx
      rw [if_neg (not_lt.mpr (hall 1 y rfl).1)]
      refine ih b 0 b rfl ?_
      intro j r hj
      cases j with
      | zero => simp at hj; subst hj; exact ⟨le_refl _, by omega⟩
      | succ j => exact ⟨(hall (j + 2) r (by simpa using hj)).1, by omega⟩
    | succ i =>
      have hb := (hall 0 b rfl).2 (by omega)
      cases i with
      | zero =>
        simp only [Nat.zero_add, List.getElem?_cons_succ, List.getElem?_cons_zero, Option.some.injEq] at hx
        subst hx
        rw [if_pos hb]
        refine ih y 0 y rfl ?_
        intro j r hj
        cases j with
        | zero => simp at hj; subst hj; exact ⟨le_refl _, by omega⟩
        | succ j => exact ⟨(hall (j + 2) r (by simpa using hj)).1, by omega⟩
      | succ i =>
        have hy := (hall 1 y rfl).2 (by omega)
        have hrest : ∀ z : Rat × Ind V, z.1 < x.1 → firstMax z l = x := by
          intro z hz
          refine ih z (i + 1) x (by simpa using hx) ?_
          intro j r hj
          cases j with
          | zero => simp at hj; subst hj; exact ⟨le_of_lt hz, fun _ => hz⟩
          | succ j =>
            have := hall (j + 2) r (by simpa using hj)
            exact ⟨this.1, fun h => this.2 (by omega)⟩
        split
        · exact hrest y hy
        · exact hrest b hb

/-- An evaluated offspring of `father`. -/
def Child (c : Config V) (evaluate : Ind V → Except PyErr (Rat × Ind V)) (father : Ind V) (k : Draws) (r : Rat × Ind V) : Prop :=
  ∃ child, Ind.mutatePerGene c k.hit k.draw { genome := father.genome } = .ok child ∧ evaluate child = .ok r

theorem offsprings_spec {c : Config V} {evaluate : Ind V → Except PyErr (Rat × Ind V)} {father : Ind V} : ∀ (ks : List Draws) (rs : List (Rat × Ind V)),
    offsprings c evaluate father ks = .ok rs ↔ List.Forall₂ (Child c evaluate father) ks rs := by
  intro ks
  induction ks with
  | nil =>
    intro rs
    simp only [offsprings, Except.ok.injEq]
    constructor
    · rintro rfl; exact .nil
    · intro h; cases h; rfl
  | cons k ks ih =>
    intro rs
    simp only [offsprings, Ind.clone]
    constructor
    · intro h
      split at h
      · cases h
      · next child hc =>
        split at h
        · cases h
        · next r hr =>
          split at h
          · cases h
          · next rs' hrs =>
            cases h
            exact .cons ⟨child, hc, hr⟩ ((ih _).mp hrs)
    · intro h
      cases h with
      | @cons _ r _ rs' h1 h2 =>
        obtain ⟨child, hc, hr⟩ := h1
        have := (ih rs').mpr h2
        simp only [hc, hr, this]

theorem generation_inv {c : Config V} {evaluate : Ind V → Except PyErr (Rat × Ind V)} {ks : List Draws} {es es' : Es V}
    (h : generation c evaluate ks es = .ok es') : ∃ rs, List.Forall₂ (Child c evaluate es.father) ks rs ∧ rs ≠ [] ∧ es.fitness ≤ es'.fitness ∧
      (∀ r ∈ rs, r.1 ≤ es'.fitness) ∧ (es' = es ∨ (es'.fitness, es'.father) ∈ rs) := by
  simp only [generation] at h
  split at h
  · cases h
  · cases h
  · next r rs hrs =>
    have hF := (offsprings_spec ks (r :: rs)).mp hrs
    obtain ⟨h1, h2, h3⟩ := firstMax_spec rs r
    have hmem : firstMax r rs ∈ r :: rs := by
      rcases h1 with h1 | h1
      · rw [h1]; exact List.mem_cons_self
      · exact List.mem_cons_of_mem _ h1
    have hall : ∀ x ∈ r :: rs, x.1 ≤ (firstMax r rs).1 := by
      intro x hx
      rcases List.mem_cons.mp hx with rfl | hx
      · exact h2
      · exact h3 x hx
    split at h
    · next hle =>
      cases h
      exact ⟨r :: rs, hF, by simp, hle, hall, .inr hmem⟩
    · next hle =>
      cases h
      exact ⟨r :: rs, hF, by simp, le_refl _, fun x hx => le_trans (hall x hx) (le_of_lt (not_le.mp hle)), .inl rfl⟩

theorem evolve_append {c : Config V} {evaluate : Nat → Ind V → Except PyErr (Rat × Ind V)} : ∀ (pre post : List (List Draws)) (it : Nat) (es : Es V),
    evolve c evaluate it (pre ++ post) es = (match evolve c evaluate it pre es with
      | .error e => .error e
      | .ok es1 => evolve c evaluate (it + pre.length) post es1) := by
  intro pre
  induction pre with
  | nil => intro post it es; simp [evolve]
  | cons ks pre ih =>
    intro post it es
    simp only [List.cons_append, evolve]
    cases generation c (evaluate it) ks es with
    | error e => rfl
    | ok es' =>
      simp only [ih, List.length_cons]
      rw [show it + 1 + pre.length = it + (pre.length + 1) by omega]

theorem evolve_le {c : Config V} {evaluate : Nat → Ind V → Except PyErr (Rat × Ind V)} : ∀ (l : List (List Draws)) (it : Nat) (es es' : Es V),
    evolve c evaluate it l es = .ok es' → es.fitness ≤ es'.fitness := by
  intro l
  induction l with
  | nil => intro it es es' h; cases h; exact le_refl _
  | cons ks l ih =>
    intro it es es' h
    simp only [evolve] at h
    split at h
    · cases h
    · next es1 h1 =>
      obtain ⟨_, _, _, h2, _⟩ := generation_inv h1
      exact le_trans h2 (ih _ _ _ h)

theorem evolve_fits {c : Config V} (hin : 0 < c.inputs) (hl : c.library ≠ []) (hr : c.rows = 1) {evaluate : Nat → Ind V → Except PyErr (Rat × Ind V)}
    (hev : ∀ it ind, ∃ f ind', evaluate it ind = .ok (f, ind') ∧ ind'.genome = ind.genome) : ∀ (l : List (List Draws)) (it : Nat) (es : Es V),
    (∀ ks ∈ l, ks ≠ []) → Fits c (forward c) es.father.genome →
    ∃ es', evolve c evaluate it l es = .ok es' ∧ Fits c (forward c) es'.father.genome := by
  intro l
  induction l with
  | nil => intro it es _ h; exact ⟨es, rfl, h⟩
  | cons ks l ih =>
    intro it es hne h
    have hoff : ∀ ks : List Draws, ∃ rs, offsprings c (evaluate it) es.father ks = .ok rs ∧ rs.length = ks.length ∧ ∀ r ∈ rs, Fits c (forward c) r.2.genome := by
      intro ks
      induction ks with
      | nil => exact ⟨[], rfl, rfl, by simp⟩
      | cons k ks ihk =>
        obtain ⟨rs, r1, r2, r3⟩ := ihk
        obtain ⟨g, g1, g2, -⟩ := mutatePerGene_ok hin hl hr k.hit k.draw es.father.clone (by simpa [Ind.clone] using h) rfl
        obtain ⟨f, ind', e1, e2⟩ := hev it { es.father.clone with genome := g }
        refine ⟨(f, ind') :: rs, by simp only [offsprings, g1, e1, r1], by simp [r2], ?_⟩
        intro r hr
        rcases List.mem_cons.mp hr with rfl | hr
        · show Fits c (forward c) ind'.genome
          rw [e2]; exact g2
        · exact r3 r hr
    obtain ⟨rs, r1, r2, r3⟩ := hoff ks
    have hks := hne ks List.mem_cons_self
    cases rs with
    | nil => exact absurd (List.length_eq_zero_iff.mp r2.symm) hks
    | cons r rs =>
      have hgen : ∃ es1, generation c (evaluate it) ks es = .ok es1 ∧ Fits c (forward c) es1.father.genome := by
        obtain ⟨h1, h2, h3⟩ := firstMax_spec rs r
        have hmem : firstMax r rs ∈ r :: rs := by
          rcases h1 with h1 | h1
          · rw [h1]; exact List.mem_cons_self
          · exact List.mem_cons_of_mem _ h1
        simp only [generation, r1]
        split
        · exact ⟨_, rfl, r3 _ hmem⟩
        · exact ⟨_, rfl, h⟩
      obtain ⟨es1, g1, g2⟩ := hgen
      obtain ⟨es', e1, e2⟩ := ih (it + 1) es1 (fun ks hks => hne ks (List.mem_cons_of_mem _ hks)) g2
      exact ⟨es', by simp only [evolve, g1, e1], e2⟩

end Verif.Cgp
