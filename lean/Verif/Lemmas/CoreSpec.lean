import Verif.Lemmas.Core
/-
Specification of shapes for property C02 (read together with `Props/Core.lean`), and
the lemmas about casts that need it.
-/
namespace Verif.Core

/-! ## C02: specification of shapes -/

/-- The value `v` has the shape described by the *source* labels of the hint tree:
`union` is a bare value, `memory`/`list`/`strDict` are containers of values of the
inner shape, `optional` may be `None`, any other unary class is a distribution over
the inner shape, a ternary class is an outcome. -/
def Fits : HT → Val → Prop
  | .leaf _ _, _ => True
  | .one s _ t, v =>
    match s with
    | .union => Fits t v
    | .memory => ∃ xs, v = .mem xs ∧ ∀ x ∈ xs, Fits t x
    | .list => ∃ xs, v = .lst xs ∧ ∀ x ∈ xs, Fits t x
    | .strDict => ∃ kvs, v = .dict kvs ∧ ∀ kv ∈ kvs, Fits t kv.2
    | .optional => v = .none ∨ (v ≠ .none ∧ Fits t v)
    | .other _ =>
      (∃ kvs, v = .dist kvs ∧ kvs ≠ [] ∧ ∀ kv ∈ kvs, Fits t kv.1) ∨
      (∃ x, v = .single x ∧ Fits t x)
  | .three _ _ a b c, v =>
    ∃ o x term i, v = .outcome o x term i ∧ Fits a o ∧ Fits b x ∧ Fits c i

/-- Well-formed pairs of hint trees, as produced by one hint string read against two
domain classes: a label changes only between a bare value and one container kind,
only on unary nodes. -/
def WF : HT → Prop
  | .leaf s d => s = d
  | .one s d t => (s = d ∨ (s = .union ∧ (d = .memory ∨ d = .strDict ∨ d = .list)) ∨
      (d = .union ∧ (s = .memory ∨ s = .strDict ∨ s = .list))) ∧ WF t
  | .three s d a b c => s = d ∧ (∃ n, s = .other n) ∧ WF a ∧ WF b ∧ WF c

/-- Every label change goes from a bare value to a container. -/
def Upward : HT → Prop
  | .leaf _ _ => True
  | .one s d t => (s = d ∨ s = .union) ∧ Upward t
  | .three _ _ a b c => Upward a ∧ Upward b ∧ Upward c


theorem castNeeded_swap (t : HT) : castNeeded t.swap = castNeeded t := by
  have hsym : ∀ s d : Ty, (d != s && inCastDict d s) = (s != d && inCastDict s d) := by
    intro s d
    cases s <;> cases d <;> simp [inCastDict] <;> rfl
  induction t with
  | leaf s d => simp only [HT.swap, castNeeded, hsym]
  | one s d t ih => simp only [HT.swap, castNeeded, hsym, ih]
  | three s d a b c iha ihb ihc => simp only [HT.swap, castNeeded, hsym, iha, ihb, ihc]

theorem swap_swap (t : HT) : t.swap.swap = t := by
  induction t with
  | leaf s d => rfl
  | one s d t ih => simp [HT.swap, ih]
  | three s d a b c iha ihb ihc => simp [HT.swap, iha, ihb, ihc]

/-- When no cast is needed, the two sides of a well-formed tree are the same. -/
theorem swap_of_not_needed {t : HT} (h : WF t) (hn : castNeeded t = false) : t.swap = t := by
  induction t with
  | leaf s d => simp [WF] at h; subst h; rfl
  | one s d t ih =>
    simp only [castNeeded, Bool.or_eq_false_iff] at hn
    obtain ⟨h1, h2⟩ := h
    have hsd : s = d := by
      rcases h1 with h1 | ⟨rfl, rfl | rfl | rfl⟩ | ⟨rfl, rfl | rfl | rfl⟩
      · exact h1
      all_goals simp [inCastDict] at hn
    subst hsd
    simp [HT.swap, ih h2 hn.2]
  | three s d a b c iha ihb ihc =>
    simp only [castNeeded, Bool.or_eq_false_iff] at hn
    obtain ⟨h1, _, ha, hb, hc⟩ := h
    subst h1
    simp [HT.swap, iha ha hn.2.1.1, ihb hb hn.2.1.2, ihc hc hn.2.2]

theorem cast_of_not_needed {t : HT} (hn : castNeeded t = false) (v : Val) : cast t v = .ok v := by
  cases t <;> simp [cast, hn]

/-- An upward cast yields `None` only from `None`. -/
theorem cast_none_of_upward {t : HT} (hu : Upward t) {v : Val} (h : cast t v = .ok .none) :
    v = .none := by
  induction t generalizing v with
  | leaf s d =>
    simp only [cast] at h
    split at h
    · split at h <;> simp_all
    · simpa using h
  | one s d t ih =>
    simp only [cast] at h
    obtain ⟨hsd, hu⟩ := hu
    split at h
    · split at h
      · simp at hsd
      · cases hc : cast t v <;> simp [hc, Except.map] at h
      · split at h
        · rename_i xs
          cases hc : mapE (cast t) xs <;> simp [hc, Except.map] at h
        · simp at h
      · simp at hsd
      · cases hc : cast t v <;> simp [hc, Except.map] at h
      · split at h
        · rename_i kvs
          generalize mapE _ kvs = r at h
          cases r <;> simp [Except.map] at h
        · simp at h
      · simp at hsd
      · cases hc : cast t v <;> simp [hc, Except.map] at h
      · split at h
        · rename_i xs
          cases hc : mapE (cast t) xs <;> simp [hc, Except.map] at h
        · simp at h
      · exact ih hu h
      · split at h
        · rfl
        · exact ih hu h
      · split at h
        · simp at h
        · rename_i kvs _
          generalize mapE _ kvs = r at h
          cases r <;> simp [Except.map] at h
        · rename_i x
          cases hc : cast t x <;> simp [hc, Except.map] at h
        · simpa using h
    · simpa using h
  | three s d a b c _ _ _ =>
    simp only [cast] at h
    split at h
    · split at h
      · simp at h
      · split at h
        · split at h
          · simp at h
          · split at h
            · simp at h
            · split at h <;> simp at h
        · simpa using h
    · simpa using h

end Verif.Core
