import Verif.Model.Ga
import Mathlib.Tactic.Linarith
import Mathlib.Data.Rat.Floor

/-! Properties C169–C171: the genetic algorithm and the alternation between encodings. -/
namespace Verif.Ga

/-! ### C169: encodings and individuals -/

/-- An encoding as problems register it: complete for its kind. -/
def Complete (e : Entry) : Prop := e.name.isSome ∧ e.type.isSome ∧ e.n.isSome ∧ (e.type = some .integers → e.arrity.isSome) ∧ (e.type = some .specific → e.arrities.isSome)

theorem fromRegister_ok {name : String} {e : Entry} (h : Complete e) : ∃ enc, fromRegister name e = .ok enc ∧ enc.name = name ∧ e.name = some enc.var ∧ e.type = some enc.type ∧ e.n = some enc.n ∧
    (enc.type = .integers → ∃ a, e.arrity = some a ∧ enc.arrity = some (some a) ∧ enc.arrities = some (List.replicate enc.n a)) ∧
    (enc.type = .specific → enc.arrities = e.arrities) ∧ (enc.type ≠ .integers → enc.type ≠ .specific → enc.arrities = none) := by
  obtain ⟨nm, ty, n, ar, ars⟩ := e
  obtain ⟨h1, h2, h3, h4, h5⟩ := h
  cases nm with
  | none => simp at h1
  | some nm =>
    cases ty with
    | none => simp at h2
    | some ty =>
      cases n with
      | none => simp at h3
      | some n =>
        cases ty with
        | integers =>
          cases ar with
          | none => simp at h4
          | some a => exact ⟨_, rfl, rfl, rfl, rfl, rfl, fun _ => ⟨a, rfl, rfl, rfl⟩, fun h => (by cases h), fun h => absurd rfl h⟩
        | specific =>
          cases ars with
          | none => simp at h5
          | some l => exact ⟨_, rfl, rfl, rfl, rfl, rfl, fun h => (by cases h), fun _ => rfl, fun _ h => absurd rfl h⟩
        | booleans => exact ⟨_, rfl, rfl, rfl, rfl, rfl, fun h => (by cases h), fun h => (by cases h), fun _ _ => rfl⟩
        | permutation => exact ⟨_, rfl, rfl, rfl, rfl, rfl, fun h => (by cases h), fun h => (by cases h), fun _ _ => rfl⟩
        | other => exact ⟨_, rfl, rfl, rfl, rfl, rfl, fun h => (by cases h), fun h => (by cases h), fun _ _ => rfl⟩

theorem booleans_spec (e : Enc) : (booleans e).name = e.name ∧ (booleans e).var = e.var ∧ (booleans e).type = e.type ∧ (booleans e).n = e.n ∧
    (booleans e).arrities = e.arrities ∧ (e.type ≠ .booleans → (booleans e).arrity = e.arrity) ∧ (e.type = .booleans → (booleans e).arrity = some (some 2)) := by
  simp only [booleans]
  split
  · rename_i h; exact ⟨rfl, rfl, rfl, rfl, rfl, fun h' => absurd h h', fun _ => rfl⟩
  · rename_i h; exact ⟨rfl, rfl, rfl, rfl, rfl, fun _ => rfl, fun h' => absurd h' h⟩

/-- Asking for an encoding of the register by its name gives this one. -/
theorem C169_name (register : Dict String Entry) (s : String) (e : Entry) (h : register.get? s = some e) (hc : Complete e) :
    ∃ enc, setEncoding register (.str s) = .ok enc ∧ enc.name = s ∧ e.name = some enc.var ∧ e.type = some enc.type ∧ e.n = some enc.n ∧
      (∀ a, enc.type = .integers → e.arrity = some a → enc.arrities = some (List.replicate enc.n a)) ∧
      (enc.type = .specific → enc.arrities = e.arrities) ∧ (enc.type = .booleans → enc.arrity = some (some 2)) := by
  obtain ⟨enc, h1, h2, h3, h4, h5, h6, h7, _⟩ := fromRegister_ok (name := s) hc
  obtain ⟨b1, b2, b3, b4, b5, _, b7⟩ := booleans_spec enc
  refine ⟨booleans enc, by simp only [setEncoding, h, h1], by rw [b1, h2], by rw [b2, h3], by rw [b3, h4], by rw [b4, h5], ?_, ?_, ?_⟩
  · intro a ht ha
    rw [b3] at ht
    obtain ⟨a', x1, _, x3⟩ := h6 ht
    rw [x1, Option.some.injEq] at ha
    subst ha
    rw [b5, b4, x3]
  · intro ht; rw [b3] at ht; rw [b5, h7 ht]
  · intro ht; rw [b3] at ht; exact b7 ht

/-- A register of two encodings. -/
def exRegister : Dict String Entry := [("colors", { name := some "colors", type := some .integers, n := some 3, arrity := some 2 }),
  ("modes", { name := some "modes", type := some .specific, n := some 2, arrities := some [1, 3] })]

example : setEncoding exRegister (.str "modes") = .ok ⟨"modes", "modes", .specific, 2, some none, some [1, 3]⟩ := by decide

/-- A name that the register does not have, and a dictionary that lacks a name, type or length: no error, the first encoding
of the register is used. -/
theorem C169_unknown_refuted (register : Dict String Entry) :
    (∀ s, register.get? s = none → setEncoding register (.str s) = setEncoding register .default) ∧
    (∀ d : Entry, d.name = none ∨ d.type = none ∨ d.n = none → setEncoding register (.dict d) = setEncoding register .default) ∧
    (∀ s e rest, register = (s, e) :: rest → setEncoding register .default = setEncoding register (.str s)) := by
  refine ⟨?_, ?_, ?_⟩
  · intro s h; simp only [setEncoding, h]
  · rintro ⟨nm, ty, n, ar, ars⟩ h
    have : fromDict register ⟨nm, ty, n, ar, ars⟩ = none := by
      rcases h with h | h | h
      · simp only at h; subst h; rfl
      · simp only at h; subst h; cases nm <;> rfl
      · simp only at h; subst h; cases nm <;> cases ty <;> rfl
    simp only [setEncoding, this, Option.getD_none]
  · rintro s e rest rfl
    simp only [setEncoding, firstOf, Dict.get?]
    simp

example : setEncoding exRegister (.str "colours") = .ok ⟨"colors", "colors", .integers, 3, some (some 2), some [2, 2, 2]⟩ := by decide

/-- A dictionary that says how many values each place has: KeyError, since the list is looked for in the register under the
name "custom". -/
theorem C169_custom_refuted (register : Dict String Entry) (d : Entry) (h : d.name.isSome ∧ d.type.isSome ∧ d.n.isSome ∧ d.arrities.isSome)
    (hr : register.get? "custom" = none) : setEncoding register (.dict d) = .error .keyError := by
  obtain ⟨nm, ty, n, ar, ars⟩ := d
  obtain ⟨h1, h2, h3, h4⟩ := h
  obtain ⟨nm, rfl⟩ := Option.isSome_iff_exists.mp h1
  obtain ⟨ty, rfl⟩ := Option.isSome_iff_exists.mp h2
  obtain ⟨n, rfl⟩ := Option.isSome_iff_exists.mp h3
  obtain ⟨l, rfl⟩ := Option.isSome_iff_exists.mp h4
  simp only [setEncoding, fromDict, hr, Option.getD_some]

example : setEncoding exRegister (.dict { name := some "modes", type := some .specific, n := some 2, arrities := some [1, 3] }) = .error .keyError := by decide

theorem randint_ok {low high : Int} (h : low ≤ high) (d : Nat) : ∃ g, randint low high d = .ok g ∧ low ≤ g ∧ g ≤ high := by
  simp only [randint, if_neg (show ¬ high < low by omega)]
  refine ⟨_, rfl, by omega, ?_⟩
  have : d % (high - low + 1).toNat < (high - low + 1).toNat := Nat.mod_lt _ (by omega)
  omega

theorem randint_hit {low high : Int} (g : Int) (h1 : low ≤ g) (h2 : g ≤ high) : randint low high (g - low).toNat = .ok g := by
  simp only [randint, if_neg (show ¬ high < low by omega)]
  rw [Nat.mod_eq_of_lt (by omega)]
  congr 1
  omega

theorem genes_ok (draw : Nat → Nat) : ∀ (his : List Int) (i : Nat), (∀ h ∈ his, 0 ≤ h) → ∃ gs, genes draw i his = .ok gs ∧ gs.length = his.length ∧
    ∀ (j : Nat) g, gs[j]? = some g → 0 ≤ g ∧ ∃ h, his[j]? = some h ∧ g ≤ h := by
  intro his
  induction his with
  | nil => intro i _; exact ⟨[], rfl, rfl, by simp⟩
  | cons h his ih =>
    intro i hh
    obtain ⟨g, g1, g2, g3⟩ := randint_ok (hh h List.mem_cons_self) (draw i)
    obtain ⟨gs, e1, e2, e3⟩ := ih (i + 1) (fun x hx => hh x (List.mem_cons_of_mem _ hx))
    refine ⟨g :: gs, by simp only [genes, g1, e1], by simp [e2], ?_⟩
    intro j x hx
    cases j with
    | zero => simp only [List.getElem?_cons_zero, Option.some.injEq] at hx; subst hx; exact ⟨g2, h, rfl, g3⟩
    | succ j => exact e3 j x hx

/-- The number of values of each place. -/
def places (e : Enc) : Option (List Int) :=
  match e.type with
  | .booleans => some (List.replicate e.n 2)
  | .integers => e.arrities
  | .specific => e.arrities
  | _ => none

/-- Individuals drawn for an encoding of the register: one gene per place, and each one a value that the place has. Nothing
is raised when each place has at least one value. -/
theorem C169_individual (name : String) (e : Entry) (hc : Complete e) (enc : Enc) (h : setEncoding [(name, e)] (.str name) = .ok enc) (l : List Int) (hl : places enc = some l)
    (hpos : ∀ a ∈ l, 0 < a) (draw : Nat → Nat) (sample : List Int) :
    ∃ ind, individual enc draw sample = .ok ind ∧ ind.length = l.length ∧ ∀ (j : Nat) g, ind[j]? = some g → 0 ≤ g ∧ ∃ a, l[j]? = some a ∧ g < a := by
  obtain ⟨enc0, h1, h2, h3, h4, h5, h6, h7, h8⟩ := fromRegister_ok (name := name) hc
  obtain ⟨b1, b2, b3, b4, b5, b6, _⟩ := booleans_spec enc0
  have : enc = booleans enc0 := by
    have hg : Dict.get? [(name, e)] name = some e := by simp [Dict.get?]
    simp only [setEncoding, hg, h1, Except.ok.injEq] at h
    exact h.symm
  subst this
  have key : ∀ his : List Int, his = l.map (· - 1) → individual (booleans enc0) draw sample = genes draw 0 his →
      ∃ ind, individual (booleans enc0) draw sample = .ok ind ∧ ind.length = l.length ∧ ∀ (j : Nat) g, ind[j]? = some g → 0 ≤ g ∧ ∃ a, l[j]? = some a ∧ g < a := by
    rintro his rfl hi
    obtain ⟨gs, g1, g2, g3⟩ := genes_ok draw (l.map (· - 1)) 0 (by
      intro x hx; obtain ⟨a, ha, rfl⟩ := List.mem_map.mp hx; have := hpos a ha; omega)
    refine ⟨gs, by rw [hi, g1], by simpa using g2, ?_⟩
    intro j g hg
    obtain ⟨x1, hh, x2, x3⟩ := g3 j g hg
    rw [List.getElem?_map, Option.map_eq_some_iff] at x2
    obtain ⟨a, a1, rfl⟩ := x2
    exact ⟨x1, a, a1, by omega⟩
  rcases ht : enc0.type with _ | _ | _ | _ | _
  · obtain ⟨a, x1, x2, x3⟩ := h6 ht
    have hl' : l = List.replicate (booleans enc0).n a := by
      simp only [places, b3, ht, b5, x3, Option.some.injEq] at hl
      rw [← hl, b4]
    refine key (List.replicate (booleans enc0).n (a - 1)) (by rw [hl']; simp) ?_
    simp only [individual, b3, ht, Enc.one, b6 (by rw [ht]; decide), x2]
  · have hl' : l = List.replicate (booleans enc0).n 2 := by
      simp only [places, b3, ht, Option.some.injEq] at hl
      exact hl.symm
    refine key (List.replicate (booleans enc0).n 1) (by rw [hl']; simp) ?_
    simp only [individual, b3, ht]
  · simp [places, b3, ht] at hl
  · have hl' : (booleans enc0).arrities = some l := by simpa only [places, b3, ht] using hl
    refine key _ rfl ?_
    simp only [individual, b3, ht, hl']
  · simp [places, b3, ht] at hl

example : individual ⟨"modes", "modes", .specific, 2, some none, some [1, 3]⟩ (fun i => i + 1) [] = .ok [0, 2] := by decide

/-- A place with no value raises ValueError; so do individuals of other kinds of encodings, with AttributeError. -/
theorem C169_individual_errors (draw : Nat → Nat) (sample : List Int) (enc : Enc) :
    (enc.type = .other → individual enc draw sample = .error .attributeError) ∧
    (∀ a, enc.type = .integers → enc.arrity = some (some a) → a ≤ 0 → 0 < enc.n → individual enc draw sample = .error .valueError) ∧
    (enc.type = .integers → enc.arrity = none → individual enc draw sample = .error .attributeError) := by
  refine ⟨?_, ?_, ?_⟩
  · intro h; simp only [individual, h]
  · intro a h1 h2 h3 h4
    obtain ⟨n, hn⟩ : ∃ n, enc.n = n + 1 := ⟨enc.n - 1, by omega⟩
    simp only [individual, h1, Enc.one, h2, hn, List.replicate_succ, genes, randint, if_pos (show a - 1 < 0 by omega)]
  · intro h1 h2; simp only [individual, h1, Enc.one, h2]

theorem go_spec (hit : Nat → Bool) (draw : Nat → Nat) : ∀ (l up : List Int) (i : Nat), l.length ≤ up.length → (∀ u ∈ up, 0 ≤ u) →
    ∃ l', mutUniform.go hit draw i l up = .ok l' ∧ l'.length = l.length ∧
      ∀ j g, l[j]? = some g → ∃ g', l'[j]? = some g' ∧ (hit (i + j) = false → g' = g) ∧
        (hit (i + j) = true → ∃ u, up[j]? = some u ∧ randint 0 u (draw (i + j)) = .ok g' ∧ 0 ≤ g' ∧ g' ≤ u) := by
  intro l
  induction l with
  | nil => intro up i _ _; exact ⟨[], by simp [mutUniform.go], rfl, by simp⟩
  | cons g l ih =>
    intro up i hl hu
    cases up with
    | nil => simp at hl
    | cons u us =>
      obtain ⟨l', e1, e2, e3⟩ := ih us (i + 1) (by simpa using hl) (fun x hx => hu x (List.mem_cons_of_mem _ hx))
      obtain ⟨x, x1, x2, x3⟩ := randint_ok (hu u List.mem_cons_self) (draw i)
      have hstep : ∃ g', (if hit i then randint 0 u (draw i) else .ok g) = .ok g' ∧ (hit i = false → g' = g) ∧ (hit i = true → g' = x) := by
        cases hit i with
        | true => exact ⟨x, by simpa using x1, by simp, by simp⟩
        | false => exact ⟨g, by simp, by simp, by simp⟩
      obtain ⟨g', s1, s2, s3⟩ := hstep
      refine ⟨g' :: l', by simp only [mutUniform.go, s1, e1], by simp [e2], ?_⟩
      intro j y hy
      cases j with
      | zero =>
        simp only [List.getElem?_cons_zero, Option.some.injEq] at hy
        subst hy
        refine ⟨g', rfl, s2, fun h => ⟨u, rfl, ?_⟩⟩
        rw [s3 h]
        exact ⟨x1, x2, x3⟩
      | succ j =>
        obtain ⟨y', y1, y2, y3⟩ := e3 j y hy
        rw [show i + 1 + j = i + (j + 1) by omega] at y2 y3
        exact ⟨y', y1, y2, y3⟩

/-- Mutation: places that are not hit keep their gene, the others get a whole number from 0 to the number of values of the
place, that number included. -/
theorem C169_mutate (enc : Enc) (up : List Int) (h : enc.arrities = some up) (hu : ∀ u ∈ up, 0 ≤ u) (hit : Nat → Bool) (draw : Nat → Nat) (l : List Int) (hl : l.length ≤ up.length) :
    ∃ l', mutate enc hit draw l = .ok l' ∧ l'.length = l.length ∧ ∀ j g, l[j]? = some g → ∃ g', l'[j]? = some g' ∧
      (hit j = false → g' = g) ∧ (hit j = true → ∃ u, up[j]? = some u ∧ 0 ≤ g' ∧ g' ≤ u) := by
  obtain ⟨l', e1, e2, e3⟩ := go_spec hit draw l up 0 hl hu
  refine ⟨l', by simp only [mutate, h, mutUniform, if_neg (show ¬ up.length < l.length by omega), e1], e2, ?_⟩
  intro j g hj
  obtain ⟨g', g1, g2, g3⟩ := e3 j g hj
  rw [Nat.zero_add] at g2 g3
  refine ⟨g', g1, g2, fun h => ?_⟩
  obtain ⟨u, u1, _, u2⟩ := g3 h
  exact ⟨u, u1, u2⟩

example : mutate ⟨"modes", "modes", .specific, 2, some none, some [1, 3]⟩ (fun i => i == 1) (fun _ => 2) [0, 0] = .ok [0, 2] := by decide

/-- Mutation leaves the encoding: whatever the individual, some draw gives the first place a number of value that the place
does not have. -/
theorem C169_mutation_range_refuted (enc : Enc) (u : Int) (us : List Int) (h : enc.arrities = some (u :: us)) (hu : ∀ x ∈ u :: us, 0 ≤ x) (l : List Int)
    (hne : l ≠ []) (hl : l.length ≤ (u :: us).length) : ∃ hit draw l', mutate enc hit draw l = .ok l' ∧ l'[0]? = some u := by
  obtain ⟨l', e1, e2, e3⟩ := go_spec (fun i => i == 0) (fun _ => u.toNat) l (u :: us) 0 hl hu
  refine ⟨fun i => i == 0, fun _ => u.toNat, l', by simp only [mutate, h, mutUniform, if_neg (show ¬ (u :: us).length < l.length by omega), e1], ?_⟩
  cases l with
  | nil => exact absurd rfl hne
  | cons g l =>
    obtain ⟨g', g1, _, g3⟩ := e3 0 g rfl
    obtain ⟨u', u1, u2, _⟩ := g3 rfl
    simp only [List.getElem?_cons_zero, Option.some.injEq] at u1
    subst u1
    have := randint_hit (low := 0) (high := u) u (hu u List.mem_cons_self) (Int.le_refl _)
    rw [Int.sub_zero] at this
    rw [this, Except.ok.injEq] at u2
    rw [g1, ← u2]

/-- Two values, 0 and 1, at each place: the value 2. -/
example : mutate ⟨"colors", "colors", .integers, 3, some (some 2), some [2, 2, 2]⟩ (fun _ => true) (fun i => i) [0, 0, 0] = .ok [0, 1, 2] := by decide

/-- The mutation with whole numbers cannot be used for booleans: AttributeError, since the list of their numbers of values is
kept under another name. -/
theorem C169_booleans_refuted (name : String) (e : Entry) (hc : Complete e) (ht : e.type = some .booleans ∨ e.type = some .permutation) (enc : Enc)
    (h : setEncoding [(name, e)] (.str name) = .ok enc) (hit : Nat → Bool) (draw : Nat → Nat) (l : List Int) : mutate enc hit draw l = .error .attributeError := by
  obtain ⟨enc0, h1, h2, h3, h4, h5, h6, h7, h8⟩ := fromRegister_ok (name := name) hc
  obtain ⟨b1, b2, b3, b4, b5, b6, _⟩ := booleans_spec enc0
  have : enc = booleans enc0 := by
    have hg : Dict.get? [(name, e)] name = some e := by simp [Dict.get?]
    simp only [setEncoding, hg, h1, Except.ok.injEq] at h
    exact h.symm
  subst this
  have hn : enc0.arrities = none := by
    rw [h4, Option.some.injEq, Option.some.injEq] at ht
    rcases ht with ht | ht <;> exact h8 (by rw [ht]; decide) (by rw [ht]; decide)
  simp only [mutate, b5, hn]

example : Complete { name := some "x", type := some .booleans, n := some 3 } := ⟨rfl, rfl, rfl, by decide, by decide⟩

/-! ### C170: objectives and the run -/

/-- Without objectives, as in the defaults, the solver cannot be made: TypeError. -/
theorem C170_default_refuted (h : Handling) (w : Option (List Rat)) : setWeights h .none w = .error .typeError := rfl

/-- The weights kept: those given, or ones when none are given; for sums also when the numbers of weights and of objectives
differ. -/
theorem C170_weights (h : Handling) (l : List String) : setWeights h (.list l) none = .ok (List.replicate l.length 1) ∧
    (∀ w, w.length = l.length → setWeights h (.list l) (some w) = .ok w) ∧
    (∀ w, w.length ≠ l.length → setWeights .aggregate (.list l) (some w) = .ok (List.replicate l.length 1)) := by
  refine ⟨rfl, ?_, ?_⟩
  · intro w hw; simp only [setWeights, Objectives.items]; rw [if_neg (by rintro ⟨h, _⟩; exact h hw)]
  · intro w hw; simp only [setWeights, Objectives.items]; simp [hw]

/-- The fitness as a sum: each objective times its weight. An objective that the problem does not have raises KeyError. -/
theorem C170_aggregate (l : List String) (w w' : List Rat) (values : Dict String Rat) (hw : setWeights .aggregate (.list l) (some w) = .ok w') :
    (∀ vs : List Rat, l.map (values.get? ·) = vs.map some → fitness .aggregate (.list l) w' values = .ok ((List.zipWith (· * ·) vs w').sum)) ∧
    (∀ o ∈ l, values.get? o = none → fitness .aggregate (.list l) w' values = .error .keyError) := by
  have hlen : w'.length = l.length := by
    simp only [setWeights, Objectives.items] at hw
    split at hw
    · simp only [Except.ok.injEq] at hw; rw [← hw, List.length_replicate]
    · rename_i h
      simp only [Except.ok.injEq] at hw
      subst hw
      simpa using h
  clear hw
  simp only [fitness, Objectives.items]
  constructor
  · induction l generalizing w' with
    | nil => intro vs hv; cases vs with
      | nil => simp [weighted]
      | cons v vs => simp at hv
    | cons o l ih =>
      intro vs hv
      cases vs with
      | nil => simp at hv
      | cons v vs =>
        cases w' with
        | nil => simp at hlen
        | cons x w' =>
          simp only [List.map_cons, List.cons.injEq] at hv
          simp only [weighted, hv.1, ih w' (by simpa using hlen) vs hv.2, List.zipWith_cons_cons, List.sum_cons]
  · induction l generalizing w' with
    | nil => intro o ho; simp at ho
    | cons a l ih =>
      intro o ho hn
      cases w' with
      | nil => simp at hlen
      | cons x w' =>
        simp only [weighted]
        cases hv : values.get? a with
        | none => rfl
        | some v =>
          have : o ∈ l := by
            rcases List.mem_cons.mp ho with rfl | h
            · rw [hv] at hn; cases hn
            · exact h
          simp only [ih w' (by simpa using hlen) o this hn]

example : fitness .aggregate (.list ["makespan", "reserve"]) [-1, 1 / 2] [("makespan", 7), ("reserve", 3)] = .ok (-11 / 2) := by decide +kernel

/-- With one objective the weights are not used: whatever they are, the fitness is the first objective itself, and larger
ones win. So a makespan is maximised even with weight -1. -/
theorem C170_single_refuted (o : String) (os : List String) (values : Dict String Rat) (v : Rat) (h : values.get? o = some v) (w : List Rat) :
    fitness .single (.list (o :: os)) w values = .ok v := by
  simp only [fitness, Objectives.items, h]

/-- Two solutions of makespan 5 and 9, weight -1: the one with 9 is returned. -/
example : solve (fun x : Rat => fitness .single (.list ["makespan"]) [-1] [("makespan", x)]) (fun _ pop => .ok (pop.map (·.1), 0)) 2 [5, 9] = .ok (9, 2) ∧
    solve (fun x : Rat => fitness .aggregate (.list ["makespan"]) [-1] [("makespan", x)]) (fun _ pop => .ok (pop.map (·.1), 0)) 2 [5, 9] = .ok (5, 2) :=
  ⟨by decide +kernel, by decide +kernel⟩

/-- An objective given as a string is read letter by letter: TypeError for one objective, KeyError for sums, unless there is
an objective named like the first letter. Objectives that the problem does not have raise TypeError. -/
theorem C170_string_refuted (c : Char) (cs : List Char) (w : List Rat) (values : Dict String Rat) (hne : values.keys ≠ []) (h : values.get? (String.ofList [c]) = none) :
    fitness .single (.str (String.ofList (c :: cs))) w values = .error .typeError ∧ fitness .aggregate (.str (String.ofList (c :: cs))) w values = .error .keyError ∧
    (∀ o os, values.get? o = none → fitness .single (.list (o :: os)) w values = .error .typeError) := by
  refine ⟨?_, ?_, ?_⟩
  · simp only [fitness, Objectives.items, String.toList_ofList, List.map_cons, h, if_neg hne]
  · simp only [fitness, Objectives.items, String.toList_ofList, List.map_cons, weighted, h]
  · intro o os ho
    simp only [fitness, Objectives.items, ho, if_neg hne]

example : fitness .single (.str "makespan") [1] [("makespan", 7)] = .error .typeError := by decide +kernel

/-- Several objectives at once are not handled: NameError. -/
theorem C170_multi_refuted (o : Objectives) (w : List Rat) (values : Dict String Rat) : fitness .multi o w values = .error .nameError := rfl

variable {α : Type}

/-- The populations of a run with their fitness. -/
inductive Reach (f : α → Except PyErr Rat) (next : Nat → List (α × Rat) → Except PyErr (List α × Nat)) (population : List α) : Nat → List (α × Rat) → Prop
  | first {pop} : evaluate f population = .ok pop → Reach f next population 0 pop
  | step {g pop children t pop'} : Reach f next population g pop → next g pop = .ok (children, t) → evaluate f children = .ok pop' → Reach f next population (g + 1) pop'

theorem hall_spec : ∀ (pop : List (α × Rat)) (best : Option (α × Rat)), (best.isSome ∨ pop ≠ []) →
    ∃ b, hall best pop = some b ∧ (best = some b ∨ b ∈ pop) ∧ (∀ b0, best = some b0 → b0.2 ≤ b.2) ∧ ∀ x ∈ pop, x.2 ≤ b.2 := by
  intro pop
  induction pop with
  | nil =>
    intro best h
    obtain ⟨b, rfl⟩ := Option.isSome_iff_exists.mp (h.resolve_right (fun h => h rfl))
    exact ⟨b, rfl, Or.inl rfl, fun b0 h => by cases h; exact le_refl _, by simp⟩
  | cons x xs ih =>
    intro best _
    have go : ∀ y : α × Rat, (y = x ∨ best = some y) → x.2 ≤ y.2 → (∀ b0, best = some b0 → b0.2 ≤ y.2) → hall best (x :: xs) = hall (some y) xs →
        ∃ b, hall best (x :: xs) = some b ∧ (best = some b ∨ b ∈ x :: xs) ∧ (∀ b0, best = some b0 → b0.2 ≤ b.2) ∧ ∀ z ∈ x :: xs, z.2 ≤ b.2 := by
      intro y hy hx hb he
      obtain ⟨b, h1, h2, h3, h4⟩ := ih (some y) (Or.inl rfl)
      have hyb := h3 y rfl
      refine ⟨b, by rw [he, h1], ?_, fun b0 h0 => le_trans (hb b0 h0) hyb, ?_⟩
      · rcases h2 with h2 | h2
        · cases h2
          rcases hy with rfl | hy
          · exact Or.inr List.mem_cons_self
          · exact Or.inl hy
        · exact Or.inr (List.mem_cons_of_mem _ h2)
      · intro z hz
        rcases List.mem_cons.mp hz with rfl | hz
        · exact le_trans hx hyb
        · exact h4 z hz
    cases best with
    | none => exact go x (Or.inl rfl) (le_refl _) (by simp) rfl
    | some b0 =>
      by_cases hb : b0.2 < x.2
      · exact go x (Or.inl rfl) (le_refl _) (by intro b h; cases h; exact le_of_lt hb) (by simp only [hall, if_pos hb])
      · exact go b0 (Or.inr rfl) (not_lt.mp hb) (by intro b h; cases h; exact le_refl _) (by simp only [hall, if_neg hb])

theorem evaluate_mem {f : α → Except PyErr Rat} : ∀ {l : List α} {pop : List (α × Rat)}, evaluate f l = .ok pop → pop.map (·.1) = l ∧ ∀ x ∈ pop, f x.1 = .ok x.2 := by
  intro l
  induction l with
  | nil => intro pop h; simp only [evaluate, Except.ok.injEq] at h; subst h; simp
  | cons a l ih =>
    intro pop h
    simp only [evaluate] at h
    split at h
    · cases h
    rename_i v hv
    split at h
    · cases h
    rename_i r hr
    simp only [Except.ok.injEq] at h
    subst h
    obtain ⟨h1, h2⟩ := ih hr
    refine ⟨by simp [h1], ?_⟩
    intro x hx
    rcases List.mem_cons.mp hx with rfl | hx
    · exact hv
    · exact h2 x hx

theorem evolve_spec (f : α → Except PyErr Rat) (next : Nat → List (α × Rat) → Except PyErr (List α × Nat)) (population : List α) :
    ∀ (k g : Nat) (pop : List (α × Rat)) (b : α × Rat) (evals : Nat) (out : Option (α × Rat)) (evals' : Nat), Reach f next population g pop →
      evolve f next k g pop (some b) evals = .ok (out, evals') →
      ∃ b', out = some b' ∧ b.2 ≤ b'.2 ∧ (b' = b ∨ ∃ g' pop', g < g' ∧ g' ≤ g + k ∧ Reach f next population g' pop' ∧ b' ∈ pop') ∧
        (∀ g' pop', g < g' → g' ≤ g + k → Reach f next population g' pop' → ∀ x ∈ pop', x.2 ≤ b'.2) := by
  have uniq : ∀ g p q, Reach f next population g p → Reach f next population g q → p = q := by
    intro g
    induction g with
    | zero =>
      intro p q h1 h2
      cases h1 with
      | first h1 => cases h2 with
        | first h2 => rw [h1] at h2; exact Except.ok.inj h2
    | succ g ih =>
      intro p q h1 h2
      cases h1 with
      | step a1 a2 a3 => cases h2 with
        | step b1 b2 b3 =>
          cases ih _ _ a1 b1
          rw [a2, Except.ok.injEq, Prod.mk.injEq] at b2
          rw [b2.1, b3] at a3
          exact (Except.ok.inj a3).symm
  intro k
  induction k with
  | zero =>
    intro g pop b evals out evals' _ h
    simp only [evolve, Except.ok.injEq, Prod.mk.injEq] at h
    exact ⟨b, h.1.symm, le_refl _, Or.inl rfl, fun g' pop' h1 h2 => by omega⟩
  | succ k ih =>
    intro g pop b evals out evals' hr h
    simp only [evolve] at h
    split at h
    · cases h
    rename_i children t hn
    split at h
    · cases h
    rename_i pop' he
    have hr' := Reach.step hr hn he
    obtain ⟨b1, x1, x2, x3, x4⟩ := hall_spec pop' (some b) (Or.inl rfl)
    rw [x1] at h
    obtain ⟨b', y1, y2, y3, y4⟩ := ih (g + 1) pop' b1 _ out evals' hr' h
    refine ⟨b', y1, le_trans (x3 b rfl) y2, ?_, ?_⟩
    · rcases y3 with rfl | ⟨g', q, h1, h2, h3, h4⟩
      · rcases x2 with x2 | x2
        · cases x2; exact Or.inl rfl
        · exact Or.inr ⟨g + 1, pop', by omega, by omega, hr', x2⟩
      · exact Or.inr ⟨g', q, by omega, by omega, h3, h4⟩
    · intro g' q h1 h2 h3 x hx
      by_cases hg : g' = g + 1
      · subst hg
        cases uniq _ _ _ h3 hr'
        exact le_trans (x4 x hx) y2
      · exact y4 g' q (by omega) (by omega) h3 x hx

/-- The solution returned belongs to one of the populations, and none of the first one or of the generations, as many as the
evaluations allowed over the size of the population, has a better fitness. -/
theorem C170_best (f : α → Except PyErr Rat) (next : Nat → List (α × Rat) → Except PyErr (List α × Nat)) (maxEvals : Nat) (population : List α) (x : α) (evals : Nat)
    (h : solve f next maxEvals population = .ok (x, evals)) :
    ∃ v, f x = .ok v ∧ (∃ g pop, g ≤ maxEvals / population.length ∧ Reach f next population g pop ∧ (x, v) ∈ pop) ∧
      ∀ g pop, g ≤ maxEvals / population.length → Reach f next population g pop → ∀ y ∈ pop, y.2 ≤ v := by
  simp only [solve] at h
  split at h
  · cases h
  rename_i pop hp
  simp only [generations] at h
  by_cases h0 : population.length = 0
  · simp [h0] at h
  simp only [if_neg h0] at h
  have hne : pop ≠ [] := by
    rintro rfl
    have := (evaluate_mem hp).1
    exact h0 (by rw [← this]; rfl)
  obtain ⟨b, x1, x2, _, x4⟩ := hall_spec pop none (Or.inr hne)
  rw [x1] at h
  have hb : b ∈ pop := x2.resolve_left (by simp)
  split at h
  · cases h
  · cases h
  rename_i b' ev he
  obtain ⟨b'', y1, y2, y3, y4⟩ := evolve_spec f next population _ 0 pop b _ _ _ (.first hp) he
  cases y1
  simp only [Except.ok.injEq, Prod.mk.injEq] at h
  obtain ⟨rfl, rfl⟩ := h
  have hmem : ∃ g pop, g ≤ maxEvals / population.length ∧ Reach f next population g pop ∧ b' ∈ pop := by
    rcases y3 with rfl | ⟨g', q, h1, h2, h3, h4⟩
    · exact ⟨0, pop, Nat.zero_le _, .first hp, hb⟩
    · exact ⟨g', q, by omega, h3, h4⟩
  refine ⟨b'.2, ?_, hmem, ?_⟩
  · obtain ⟨g, q, _, hq, hm⟩ := hmem
    cases hq with
    | first e => exact (evaluate_mem e).2 _ hm
    | step _ _ e => exact (evaluate_mem e).2 _ hm
  · intro g q hg hq y hy
    by_cases hg0 : g = 0
    · subst hg0
      cases hq with
      | first e =>
        rw [hp] at e
        cases e
        exact le_trans (x4 y hy) y2
    · exact y4 g q (by omega) (by omega) hq y hy

/-- Two individuals, children one larger than their parents, two generations. -/
example : solve (fun x : Int => .ok (-(x - 3) * (x - 3) : Int)) (fun _ pop => .ok (pop.map (·.1 + 1), pop.length)) 5 [1, 0] = .ok (3, 6) := by decide +kernel

/-- The number of evaluations: at least the size of the population, and at most that much more than allowed. -/
theorem C170_evals (f : α → Except PyErr Rat) (next : Nat → List (α × Rat) → Except PyErr (List α × Nat)) (maxEvals : Nat) (population : List α) (x : α) (evals : Nat)
    (ht : ∀ g pop children t, next g pop = .ok (children, t) → t ≤ population.length)
    (h : solve f next maxEvals population = .ok (x, evals)) : population.length ≤ evals ∧ evals ≤ maxEvals + population.length := by
  have key : ∀ (k g : Nat) (pop : List (α × Rat)) (best : Option (α × Rat)) (e0 : Nat) (out : Option (α × Rat)) (e1 : Nat),
      evolve f next k g pop best e0 = .ok (out, e1) → e0 ≤ e1 ∧ e1 ≤ e0 + k * population.length := by
    intro k
    induction k with
    | zero => intro g pop best e0 out e1 h; simp only [evolve, Except.ok.injEq, Prod.mk.injEq] at h; omega
    | succ k ih =>
      intro g pop best e0 out e1 h
      simp only [evolve] at h
      split at h
      · cases h
      rename_i children t hn
      split at h
      · cases h
      have := ih _ _ _ _ _ _ h
      have := ht _ _ _ _ hn
      rw [Nat.succ_mul]
      omega
  simp only [solve] at h
  split at h
  · cases h
  simp only [generations] at h
  by_cases h0 : population.length = 0
  · simp [h0] at h
  simp only [if_neg h0] at h
  split at h
  · cases h
  · cases h
  rename_i b ev he
  simp only [Except.ok.injEq, Prod.mk.injEq] at h
  obtain ⟨_, rfl⟩ := h
  have := key _ _ _ _ _ _ _ he
  have := Nat.div_mul_le_self maxEvals population.length
  omega

/-- More evaluations than allowed: one allowed, three made, and for any limit below the size of the population. -/
theorem C170_limit_refuted : solve (fun x : Int => .ok (x : Rat)) (fun _ pop => .ok (pop.map (·.1), pop.length)) 1 [4, 6, 5] = .ok (6, 3) := by decide +kernel

/-- No individuals: ZeroDivisionError. -/
theorem C170_empty (f : α → Except PyErr Rat) (next : Nat → List (α × Rat) → Except PyErr (List α × Nat)) (maxEvals : Nat) :
    solve f next maxEvals [] = .error .zeroDivisionError := rfl

theorem firstBest_spec : ∀ (l : List (α × Rat)) (b : α × Rat), (firstBest b l = b ∨ firstBest b l ∈ l) ∧ b.2 ≤ (firstBest b l).2 ∧ ∀ x ∈ l, x.2 ≤ (firstBest b l).2 := by
  intro l
  induction l with
  | nil => intro b; exact ⟨Or.inl rfl, le_refl _, by simp⟩
  | cons a l ih =>
    intro b
    simp only [firstBest]
    split
    · rename_i h
      obtain ⟨h1, h2, h3⟩ := ih a
      refine ⟨Or.inr ?_, le_trans (le_of_lt h) h2, ?_⟩
      · rcases h1 with h1 | h1
        · rw [h1]; exact List.mem_cons_self
        · exact List.mem_cons_of_mem _ h1
      · intro x hx
        rcases List.mem_cons.mp hx with rfl | hx
        · exact h2
        · exact h3 x hx
    · rename_i h
      obtain ⟨h1, h2, h3⟩ := ih b
      refine ⟨h1.imp id (List.mem_cons_of_mem _), h2, ?_⟩
      intro x hx
      rcases List.mem_cons.mp hx with rfl | hx
      · exact le_trans (not_lt.mp h) h2
      · exact h3 x hx

/-- A tournament with at least one aspirant picks one of them that no other beats. -/
theorem C170_tournament (pop : List (α × Rat)) (draws : List Nat) (hne : draws ≠ []) (hd : ∀ i ∈ draws, i < pop.length) :
    ∃ x, tournament pop draws = .ok x ∧ (∃ i ∈ draws, pop[i]? = some x) ∧ ∀ i ∈ draws, ∀ y, pop[i]? = some y → y.2 ≤ x.2 := by
  cases draws with
  | nil => exact absurd rfl hne
  | cons i is =>
    have hi := hd i List.mem_cons_self
    have hg : pop[i]? = some pop[i] := List.getElem?_eq_getElem hi
    obtain ⟨h1, h2, h3⟩ := firstBest_spec (is.filterMap (fun j => pop[j]?)) pop[i]
    refine ⟨firstBest pop[i] (is.filterMap (fun j => pop[j]?)), by simp only [tournament, hg], ?_, ?_⟩
    · rcases h1 with h1 | h1
      · exact ⟨i, List.mem_cons_self, by rw [h1, hg]⟩
      · obtain ⟨j, j1, j2⟩ := List.mem_filterMap.mp h1
        exact ⟨j, List.mem_cons_of_mem _ j1, j2⟩
    · intro j hj y hy
      rcases List.mem_cons.mp hj with rfl | hj
      · rw [hg, Option.some.injEq] at hy; rw [← hy]; exact h2
      · exact h3 y (List.mem_filterMap.mpr ⟨j, hj, hy⟩)

example : tournament [(10, (3 : Rat)), (20, 5), (30, 5)] [0, 2, 1] = .ok (30, 5) := by decide +kernel

/-- With the default size of tournaments, a fifth of the population, populations of less than five have no aspirants, which
raises ValueError; five and more have some. The presets give 5 for the share: a tournament of 500 in a population of 100. -/
theorem C170_small_refuted : (∀ n, tournsize (1 / 5) n = n / 5) ∧ (∀ (pop : List (α × Rat)) (draws : List Nat), pop.length < 5 → draws.length = tournsize (1 / 5) pop.length →
    tournament pop draws = .error .valueError) ∧ tournsize 5 100 = 500 := by
  have h1 : ∀ n : Nat, tournsize (1 / 5) n = n / 5 := by
    intro n
    have h : ((1 / 5 * (n : Rat)).floor : Int) = ((n / 5 : Nat) : Int) := by
      have hf : ⌊(1 / 5 * (n : Rat))⌋ = (1 / 5 * (n : Rat)).floor := rfl
      rw [← hf, Int.floor_eq_iff]
      have h2 : (n : Rat) = ((5 * (n / 5) + n % 5 : Nat) : Rat) := by rw [Nat.div_add_mod]
      have h3 : ((n % 5 : Nat) : Rat) < ((5 : Nat) : Rat) := by exact_mod_cast Nat.mod_lt n (by decide)
      have h4 : (0 : Rat) ≤ ((n % 5 : Nat) : Rat) := Nat.cast_nonneg _
      rw [Int.cast_natCast]
      generalize n / 5 = q at h2 ⊢
      generalize n % 5 = r at h2 h3 h4
      push_cast at h2 h3
      constructor <;> linarith
    simp only [tournsize, h, Int.toNat_natCast]
  refine ⟨h1, ?_, by decide +kernel⟩
  intro pop draws hp hd
  rw [h1] at hd
  have : draws = [] := List.length_eq_zero_iff.mp (by omega)
  subst this
  rfl

/-! ### C171: alternating between encodings -/

variable {P S : Type}

/-- Only the first encoding is ever evolved: the result does not depend on what the genetic algorithm would do on any other,
nor on the other mutations and numbers of evaluations. -/
theorem C171_alternate_refuted (a b : Alt P S) (he : a.encodings = b.encodings) (hm : a.mutations[0]? = b.mutations[0]?) (hs : a.subEvals[0]? = b.subEvals[0]?)
    (hx : a.maxEvals = b.maxEvals) (hf : a.fix = b.fix) (hd : a.dummy = b.dummy)
    (hg : ∀ enc, a.encodings[0]? = some enc → ∀ m s r p, a.ga enc m s r p = b.ga enc m s r p) (fuel : Nat) (p : P) : a.solve fuel p = b.solve fuel p := by
  have key : ∀ (fuel runs count : Nat) (p : P) (last : Option S), a.loop fuel runs count p last = b.loop fuel runs count p last := by
    intro fuel
    induction fuel with
    | zero => intros; rfl
    | succ fuel ih =>
      intro runs count p last
      simp only [Alt.loop, ← he, ← hm, ← hs, ← hx, ← hf]
      split
      · split
        · rename_i enc m s h1 h2 h3
          rw [hg enc h1]
          cases b.ga enc m s runs p with
          | error e => rfl
          | ok sol => exact ih _ _ _ _
        · rfl
      · rfl
  simp only [Alt.solve, ← he, ← hf, ← hd]
  exact key _ _ _ _ _

/-- Two encodings: the runs, and whatever the second would give. -/
example : (Alt.solve (P := List String) (S := String) ⟨["modes", "order"], ["m", "o"], [10, 10], 30, fun enc _ _ r p => .ok (enc ++ "-" ++ toString r ++ "-" ++ toString p.length), fun p e s => (e ++ s) :: p, "dummy"⟩ 10 []) =
    some (.ok "modes-2-4") := by decide +kernel

/-- How many runs there are, and which counts: the solution of the last run is returned, once the evaluations of the runs
reach the limit. Before the first run every encoding is fixed to that of the dummy solution; each run works on the problem
with the evolved encoding fixed to the solution of the run before. -/
theorem C171_last (a : Alt P S) (enc m : String) (s : Nat) (he : a.encodings[0]? = some enc) (hm : a.mutations[0]? = some m) (hs : a.subEvals[0]? = some s)
    (sols : Nat → S) (p : P) (ps : Nat → P) (hp0 : ps 0 = a.encodings.foldl (fun q e => a.fix q e a.dummy) p) (hps : ∀ r, ps (r + 1) = a.fix (ps r) enc (sols r))
    (hg : ∀ r, a.ga enc m s r (ps r) = .ok (sols r)) (n : Nat) (hlow : ((n : Int) * s) < a.maxEvals) (hhigh : a.maxEvals ≤ ((n : Int) + 1) * s)
    (fuel : Nat) (hfuel : n + 2 ≤ fuel) : a.solve fuel p = some (.ok (sols n)) := by
  have key : ∀ (k fuel runs count : Nat) (last : Option S), runs + k = n + 1 → count = runs * s → k + 1 ≤ fuel → (k = 0 → last = some (sols n)) →
      a.loop fuel runs count (ps runs) last = some (.ok (sols n)) := by
    intro k
    induction k with
    | zero =>
      intro fuel runs count last h1 h2 h3 h4
      obtain ⟨f, rfl⟩ : ∃ f, fuel = f + 1 := ⟨fuel - 1, by omega⟩
      have hr : runs = n + 1 := by omega
      subst hr h2
      have : ¬ (((n + 1) * s : Nat) : Int) < a.maxEvals := by push_cast; omega
      simp only [Alt.loop, if_neg this, h4 rfl]
    | succ k ih =>
      intro fuel runs count last h1 h2 h3 _
      obtain ⟨f, rfl⟩ : ∃ f, fuel = f + 1 := ⟨fuel - 1, by omega⟩
      subst h2
      have hle : runs * s ≤ n * s := Nat.mul_le_mul_right s (by omega)
      have : ((runs * s : Nat) : Int) < a.maxEvals := by
        have h5 : ((runs * s : Nat) : Int) ≤ ((n * s : Nat) : Int) := by exact_mod_cast hle
        push_cast at h5 ⊢
        omega
      simp only [Alt.loop, if_pos this, he, hm, hs, hg]
      rw [← hps]
      refine ih f (runs + 1) _ _ (by omega) (by rw [Nat.add_mul, Nat.one_mul]) (by omega) ?_
      intro hk
      have : runs = n := by omega
      rw [this]
  simp only [Alt.solve]
  rw [← hp0]
  exact key (n + 1) fuel 0 0 none (by omega) (by omega) (by omega) (by simp)

example : (20 : Int) < 30 ∧ (30 : Int) ≤ (2 + 1) * 10 := by decide

/-- The best run is forgotten when a later one is worse. -/
theorem C171_best_refuted : Alt.solve (P := Unit) (S := Nat) ⟨["order"], ["o"], [10], 20, fun _ _ _ r _ => .ok (if r = 0 then 9 else 4), fun p _ _ => p, 0⟩ 10 () = some (.ok 4) := by
  decide +kernel

/-- Runs of no evaluations never end. -/
theorem C171_endless_refuted (a : Alt P S) (enc m : String) (he : a.encodings[0]? = some enc) (hm : a.mutations[0]? = some m) (hs : a.subEvals[0]? = some 0)
    (hg : ∀ r p, ∃ s, a.ga enc m 0 r p = .ok s) (hx : 0 < a.maxEvals) (fuel : Nat) (p : P) : a.solve fuel p = none := by
  have key : ∀ (fuel runs : Nat) (p : P) (last : Option S), a.loop fuel runs 0 p last = none := by
    intro fuel
    induction fuel with
    | zero => intros; rfl
    | succ fuel ih =>
      intro runs p last
      obtain ⟨s, h⟩ := hg runs p
      simp only [Alt.loop, if_pos (show ((0 : Nat) : Int) < a.maxEvals from hx), he, hm, hs, h]
      exact ih _ _ _
  exact key _ _ _ _

/-- No evaluations allowed: NameError. No encoding: IndexError. An error of the genetic algorithm is passed on. -/
theorem C171_errors (a : Alt P S) (fuel : Nat) (p : P) :
    (a.maxEvals ≤ 0 → a.solve (fuel + 1) p = some (.error .nameError)) ∧
    (0 < a.maxEvals → a.encodings = [] → a.solve (fuel + 1) p = some (.error .indexError)) ∧
    (∀ enc m s err, 0 < a.maxEvals → a.encodings[0]? = some enc → a.mutations[0]? = some m → a.subEvals[0]? = some s → (∀ p, a.ga enc m s 0 p = .error err) →
      a.solve (fuel + 1) p = some (.error err)) := by
  refine ⟨?_, ?_, ?_⟩
  · intro h; simp only [Alt.solve, Alt.loop, if_neg (show ¬ ((0 : Nat) : Int) < a.maxEvals by push_cast; omega)]
  · intro h he; simp only [Alt.solve, Alt.loop, if_pos (show ((0 : Nat) : Int) < a.maxEvals from h), he, List.getElem?_nil]
  · intro enc m s err h he hm hs hg
    simp only [Alt.solve, Alt.loop, if_pos (show ((0 : Nat) : Int) < a.maxEvals from h), he, hm, hs, hg]

end Verif.Ga
