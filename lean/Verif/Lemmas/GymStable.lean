import Verif.Lemmas.Gym

/-! Helper lemmas: the first feature of a value is settled once and for all. -/
namespace Verif.Gym

theorem initCells1_append (l m : List Rat) (st : St1) : initCells1 st (l ++ m) = initCells1 (initCells1 st l) m := by
  induction l generalizing st with
  | nil => rfl
  | cons c l ih => simp only [List.cons_append, initCells1, ih]

mutual
theorem init1_flat : (s : Space) → (e : Elem Rat) → (st : St1) → Fits (fun _ => True) s e → onlyBoxes s = true →
    init1 st s e = .ok (initCells1 st (flatten e))
  | .box _ b, .array l, st, _, _ => by simp only [init1, flatten]
  | .tuple sp, .tuple l, st, hf, ho => by
    simpa only [init1, flatten] using init1L_flat sp l st (by simpa only [Fits] using hf) (by simpa only [onlyBoxes] using ho)
  | .dict ks sp, .dict ks' l, st, hf, ho => by
    simp only [onlyBoxes, List.isEmpty_iff] at ho
    simp only [Fits] at hf
    subst ho
    obtain rfl : sp = [] := by simpa using hf.2.1.symm
    obtain rfl : l = [] := by
      cases l with
      | nil => rfl
      | cons _ _ => simp [FitsL] at hf
    simp [init1, unpackKeys, flatten, flattenL, initCells1]
  | .discrete _, _, _, _, ho => by simp [onlyBoxes] at ho
  | .multiDiscrete _, _, _, _, ho => by simp [onlyBoxes] at ho
  | .multiBinary _, _, _, _, ho => by simp [onlyBoxes] at ho
  | .box _ _, .int _, _, hf, _ => by simp [Fits] at hf
  | .box _ _, .ints _, _, hf, _ => by simp [Fits] at hf
  | .box _ _, .tuple _, _, hf, _ => by simp [Fits] at hf
  | .box _ _, .dict _ _, _, hf, _ => by simp [Fits] at hf
  | .tuple _, .array _, _, hf, _ => by simp [Fits] at hf
  | .tuple _, .int _, _, hf, _ => by simp [Fits] at hf
  | .tuple _, .ints _, _, hf, _ => by simp [Fits] at hf
  | .tuple _, .dict _ _, _, hf, _ => by simp [Fits] at hf
  | .dict _ _, .array _, _, hf, _ => by simp [Fits] at hf
  | .dict _ _, .int _, _, hf, _ => by simp [Fits] at hf
  | .dict _ _, .ints _, _, hf, _ => by simp [Fits] at hf
  | .dict _ _, .tuple _, _, hf, _ => by simp [Fits] at hf
theorem init1L_flat : (sp : List Space) → (l : List (Elem Rat)) → (st : St1) → FitsL (fun _ => True) sp l → onlyBoxesL sp = true →
    init1L st sp l = .ok (initCells1 st (flattenL l))
  | [], [], st, _, _ => by simp [init1L, flattenL, initCells1]
  | [], _ :: _, _, hf, _ => by simp [FitsL] at hf
  | _ :: _, [], _, hf, _ => by simp [FitsL] at hf
  | s :: sp, e :: l, st, hf, ho => by
    simp only [FitsL] at hf
    simp only [onlyBoxesL, Bool.and_eq_true] at ho
    simp only [init1L, flattenL, init1_flat s e st hf.1 ho.1, initCells1_append]
    exact init1L_flat sp l _ hf.2 ho.2
end

theorem cells1_append (f : Nat) (l m : List Rat) (st : St1) (i : Nat) : cells1 f st i (l ++ m) =
    match cells1 f st i l with
    | .error e => .error e
    | .ok (k, fs, st') =>
      match cells1 f st' k m with
      | .error e => .error e
      | .ok (k', fs', st'') => .ok (k', fs ++ fs', st'') := by
  induction l generalizing st i with
  | nil =>
    simp only [List.nil_append, cells1]
    cases cells1 f st i m with
    | error e => rfl
    | ok q => rfl
  | cons c l ih =>
    simp only [List.cons_append, cells1]
    cases cell1 f st i c with
    | error e => rfl
    | ok q =>
      obtain ⟨cf, st'⟩ := q
      simp only [ih]
      cases cells1 f st' (i + 1) l with
      | error e => rfl
      | ok q =>
        obtain ⟨k, fs, st2⟩ := q
        simp only
        cases cells1 f st2 k m with
        | error e => rfl
        | ok q => simp only [List.append_assoc]

mutual
theorem features1_flat (f : Nat) : (s : Space) → (e : Elem Rat) → (st : St1) → (i : Nat) → Fits (fun _ => True) s e → onlyBoxes s = true →
    features1 f st i s e = cells1 f st i (flatten e)
  | .box _ b, .array l, st, i, _, _ => by simp only [features1, flatten]
  | .tuple sp, .tuple l, st, i, hf, ho => by
    simpa only [features1, flatten] using features1L_flat f sp l st i (by simpa only [Fits] using hf) (by simpa only [onlyBoxes] using ho)
  | .dict ks sp, .dict ks' l, st, i, hf, ho => by
    simp only [onlyBoxes, List.isEmpty_iff] at ho
    simp only [Fits] at hf
    subst ho
    obtain rfl : sp = [] := by simpa using hf.2.1.symm
    obtain rfl : l = [] := by
      cases l with
      | nil => rfl
      | cons _ _ => simp [FitsL] at hf
    simp [features1, features1L, flatten, flattenL, cells1]
  | .discrete _, _, _, _, _, ho => by simp [onlyBoxes] at ho
  | .multiDiscrete _, _, _, _, _, ho => by simp [onlyBoxes] at ho
  | .multiBinary _, _, _, _, _, ho => by simp [onlyBoxes] at ho
  | .box _ _, .int _, _, _, hf, _ => by simp [Fits] at hf
  | .box _ _, .ints _, _, _, hf, _ => by simp [Fits] at hf
  | .box _ _, .tuple _, _, _, hf, _ => by simp [Fits] at hf
  | .box _ _, .dict _ _, _, _, hf, _ => by simp [Fits] at hf
  | .tuple _, .array _, _, _, hf, _ => by simp [Fits] at hf
  | .tuple _, .int _, _, _, hf, _ => by simp [Fits] at hf
  | .tuple _, .ints _, _, _, hf, _ => by simp [Fits] at hf
  | .tuple _, .dict _ _, _, _, hf, _ => by simp [Fits] at hf
  | .dict _ _, .array _, _, _, hf, _ => by simp [Fits] at hf
  | .dict _ _, .int _, _, _, hf, _ => by simp [Fits] at hf
  | .dict _ _, .ints _, _, _, hf, _ => by simp [Fits] at hf
  | .dict _ _, .tuple _, _, _, hf, _ => by simp [Fits] at hf
theorem features1L_flat (f : Nat) : (sp : List Space) → (l : List (Elem Rat)) → (st : St1) → (i : Nat) → FitsL (fun _ => True) sp l → onlyBoxesL sp = true →
    features1L f st i sp l = cells1 f st i (flattenL l)
  | [], [], st, i, _, _ => by simp [features1L, flattenL, cells1]
  | [], _ :: _, _, _, hf, _ => by simp [FitsL] at hf
  | _ :: _, [], _, _, hf, _ => by simp [FitsL] at hf
  | s :: sp, e :: l, st, i, hf, ho => by
    simp only [FitsL] at hf
    simp only [onlyBoxesL, Bool.and_eq_true] at ho
    simp only [features1L, flattenL, features1_flat f s e st i hf.1 ho.1, cells1_append]
    cases cells1 f st i (flatten e) with
    | error er => rfl
    | ok q =>
      obtain ⟨k, fs, st'⟩ := q
      simp only
      rw [features1L_flat f sp l st' k hf.2 ho.2]
      cases cells1 f st' k (flattenL l) <;> rfl
end

theorem initCells2_append (l m : List Rat) (st : List Bee2) : initCells2 st (l ++ m) = match initCells2 st l with | .error e => .error e | .ok st' => initCells2 st' m := by
  induction l generalizing st with
  | nil => rfl
  | cons c l ih =>
    simp only [List.cons_append, initCells2]
    cases Bee2.eval c 0 Bee2.new with
    | error e => rfl
    | ok q => simp only [ih]

mutual
theorem init2_flat : (s : Space) → (e : Elem Rat) → (st : List Bee2) → Fits (fun _ => True) s e → onlyBoxes s = true →
    init2 st s e = initCells2 st (flatten e)
  | .box _ b, .array l, st, _, _ => by simp only [init2, flatten]
  | .tuple sp, .tuple l, st, hf, ho => by
    simpa only [init2, flatten] using init2L_flat sp l st (by simpa only [Fits] using hf) (by simpa only [onlyBoxes] using ho)
  | .dict ks sp, .dict ks' l, st, hf, ho => by
    simp only [onlyBoxes, List.isEmpty_iff] at ho
    simp only [Fits] at hf
    subst ho
    obtain rfl : sp = [] := by simpa using hf.2.1.symm
    obtain rfl : l = [] := by
      cases l with
      | nil => rfl
      | cons _ _ => simp [FitsL] at hf
    simp [init2, unpackKeys, flatten, flattenL, initCells2]
  | .discrete _, _, _, _, ho => by simp [onlyBoxes] at ho
  | .multiDiscrete _, _, _, _, ho => by simp [onlyBoxes] at ho
  | .multiBinary _, _, _, _, ho => by simp [onlyBoxes] at ho
  | .box _ _, .int _, _, hf, _ => by simp [Fits] at hf
  | .box _ _, .ints _, _, hf, _ => by simp [Fits] at hf
  | .box _ _, .tuple _, _, hf, _ => by simp [Fits] at hf
  | .box _ _, .dict _ _, _, hf, _ => by simp [Fits] at hf
  | .tuple _, .array _, _, hf, _ => by simp [Fits] at hf
  | .tuple _, .int _, _, hf, _ => by simp [Fits] at hf
  | .tuple _, .ints _, _, hf, _ => by simp [Fits] at hf
  | .tuple _, .dict _ _, _, hf, _ => by simp [Fits] at hf
  | .dict _ _, .array _, _, hf, _ => by simp [Fits] at hf
  | .dict _ _, .int _, _, hf, _ => by simp [Fits] at hf
  | .dict _ _, .ints _, _, hf, _ => by simp [Fits] at hf
  | .dict _ _, .tuple _, _, hf, _ => by simp [Fits] at hf
theorem init2L_flat : (sp : List Space) → (l : List (Elem Rat)) → (st : List Bee2) → FitsL (fun _ => True) sp l → onlyBoxesL sp = true →
    init2L st sp l = initCells2 st (flattenL l)
  | [], [], st, _, _ => by simp [init2L, flattenL, initCells2]
  | [], _ :: _, _, hf, _ => by simp [FitsL] at hf
  | _ :: _, [], _, hf, _ => by simp [FitsL] at hf
  | s :: sp, e :: l, st, hf, ho => by
    simp only [FitsL] at hf
    simp only [onlyBoxesL, Bool.and_eq_true] at ho
    simp only [init2L, flattenL, init2_flat s e st hf.1 ho.1, initCells2_append]
    cases initCells2 st (flatten e) with
    | error er => rfl
    | ok st' => exact init2L_flat sp l st' hf.2 ho.2
end

theorem cells2_append (f : Nat) (l m : List Rat) (st : List Bee2) (i : Nat) : cells2 f st i (l ++ m) =
    match cells2 f st i l with
    | .error e => .error e
    | .ok (k, fs, st') =>
      match cells2 f st' k m with
      | .error e => .error e
      | .ok (k', fs', st'') => .ok (k', fs ++ fs', st'') := by
  induction l generalizing st i with
  | nil =>
    simp only [List.nil_append, cells2]
    cases cells2 f st i m with
    | error e => rfl
    | ok q => rfl
  | cons c l ih =>
    simp only [List.cons_append, cells2]
    cases st[i]? with
    | none => rfl
    | some node =>
      simp only
      cases Bee2.eval c f node with
      | error e => rfl
      | ok q =>
        obtain ⟨cf, node'⟩ := q
        simp only [ih]
        cases cells2 f (st.set i node') (i + 1) l with
        | error e => rfl
        | ok q =>
          obtain ⟨k, fs, st2⟩ := q
          simp only
          cases cells2 f st2 k m with
          | error e => rfl
          | ok q => simp only [List.append_assoc]

mutual
theorem features2_flat (f : Nat) : (s : Space) → (e : Elem Rat) → (st : List Bee2) → (i : Nat) → Fits (fun _ => True) s e → onlyBoxes s = true →
    features2 f st i s e = cells2 f st i (flatten e)
  | .box _ b, .array l, st, i, _, _ => by simp only [features2, flatten]
  | .tuple sp, .tuple l, st, i, hf, ho => by
    simpa only [features2, flatten] using features2L_flat f sp l st i (by simpa only [Fits] using hf) (by simpa only [onlyBoxes] using ho)
  | .dict ks sp, .dict ks' l, st, i, hf, ho => by
    simp only [onlyBoxes, List.isEmpty_iff] at ho
    simp only [Fits] at hf
    subst ho
    obtain rfl : sp = [] := by simpa using hf.2.1.symm
    obtain rfl : l = [] := by
      cases l with
      | nil => rfl
      | cons _ _ => simp [FitsL] at hf
    simp [features2, features2L, flatten, flattenL, cells2]
  | .discrete _, _, _, _, _, ho => by simp [onlyBoxes] at ho
  | .multiDiscrete _, _, _, _, _, ho => by simp [onlyBoxes] at ho
  | .multiBinary _, _, _, _, _, ho => by simp [onlyBoxes] at ho
  | .box _ _, .int _, _, _, hf, _ => by simp [Fits] at hf
  | .box _ _, .ints _, _, _, hf, _ => by simp [Fits] at hf
  | .box _ _, .tuple _, _, _, hf, _ => by simp [Fits] at hf
  | .box _ _, .dict _ _, _, _, hf, _ => by simp [Fits] at hf
  | .tuple _, .array _, _, _, hf, _ => by simp [Fits] at hf
  | .tuple _, .int _, _, _, hf, _ => by simp [Fits] at hf
  | .tuple _, .ints _, _, _, hf, _ => by simp [Fits] at hf
  | .tuple _, .dict _ _, _, _, hf, _ => by simp [Fits] at hf
  | .dict _ _, .array _, _, _, hf, _ => by simp [Fits] at hf
  | .dict _ _, .int _, _, _, hf, _ => by simp [Fits] at hf
  | .dict _ _, .ints _, _, _, hf, _ => by simp [Fits] at hf
  | .dict _ _, .tuple _, _, _, hf, _ => by simp [Fits] at hf
theorem features2L_flat (f : Nat) : (sp : List Space) → (l : List (Elem Rat)) → (st : List Bee2) → (i : Nat) → FitsL (fun _ => True) sp l → onlyBoxesL sp = true →
    features2L f st i sp l = cells2 f st i (flattenL l)
  | [], [], st, i, _, _ => by simp [features2L, flattenL, cells2]
  | [], _ :: _, _, _, hf, _ => by simp [FitsL] at hf
  | _ :: _, [], _, _, hf, _ => by simp [FitsL] at hf
  | s :: sp, e :: l, st, i, hf, ho => by
    simp only [FitsL] at hf
    simp only [onlyBoxesL, Bool.and_eq_true] at ho
    simp only [features2L, flattenL, features2_flat f s e st i hf.1 ho.1, cells2_append]
    cases cells2 f st i (flatten e) with
    | error er => rfl
    | ok q =>
      obtain ⟨k, fs, st'⟩ := q
      simp only
      rw [features2L_flat f sp l st' k hf.2 ho.2]
      cases cells2 f st' k (flattenL l) <;> rfl
end

/-! ### `bee1_features` -/

/-- The node is extended only. -/
def Bee1.Grows (n n' : Bee1) : Prop := n'.reference = n.reference ∧ n.increments <+: n'.increments

theorem Bee1.Grows.refl (n : Bee1) : n.Grows n := ⟨rfl, List.prefix_refl _⟩
theorem Bee1.Grows.trans {a b c : Bee1} (h : a.Grows b) (h' : b.Grows c) : a.Grows c := ⟨h'.1.trans h.1, h.2.trans h'.2⟩

/-- Every node is extended only. -/
def St1.Grows (st st' : St1) : Prop :=
  st'.init = st.init ∧ ∀ (j : Nat) (n : Bee1), st.nodes[j]? = some n → ∃ n', st'.nodes[j]? = some n' ∧ n.Grows n'

theorem St1.Grows.refl (st : St1) : st.Grows st := ⟨rfl, fun _ n h => ⟨n, h, .refl n⟩⟩
theorem St1.Grows.trans {a b c : St1} (h : a.Grows b) (h' : b.Grows c) : a.Grows c := by
  refine ⟨h'.1.trans h.1, fun j n hn => ?_⟩
  obtain ⟨n1, e1, g1⟩ := h.2 j n hn
  obtain ⟨n2, e2, g2⟩ := h'.2 j n1 e1
  exact ⟨n2, e2, g1.trans g2⟩

/-- Which of the two nodes, and the sign. -/
def slot (ref x : Rat) (i : Nat) : Nat := if ref < x then 2 * i else 2 * i + 1
def sgn (ref x : Rat) : Int := if ref < x then 1 else -1

/-- The first feature of the value `x` of cell `i` is known: `f`. -/
def Settled1 (st : St1) (i : Nat) (x : Rat) (f : Int) : Prop :=
  ∃ ref n, st.init[i]? = some ref ∧ st.nodes[slot ref x i]? = some n ∧
    sgn ref x * (bisectLeft n.increments (sgn ref x * (x - n.reference)) : Nat) = f ∧
    bisectLeft n.increments (sgn ref x * (x - n.reference)) < n.increments.length

theorem Settled1.grow {st st' : St1} {i : Nat} {x : Rat} {f : Int} (h : Settled1 st i x f) (g : st.Grows st') :
    Settled1 st' i x f := by
  obtain ⟨ref, n, h1, h2, h3, h4⟩ := h
  obtain ⟨n', e', hr, m, hm⟩ := g.2 _ n h2
  refine ⟨ref, n', by rw [g.1, h1], e', ?_, ?_⟩
  · rw [hr, ← hm, bisectLeft_append h4, h3]
  · rw [hr, ← hm, bisectLeft_append h4, List.length_append]
    omega

theorem Settled1.unique {st : St1} {i : Nat} {x : Rat} {f g : Int} (h : Settled1 st i x f) (h' : Settled1 st i x g) : f = g := by
  obtain ⟨ref, n, h1, h2, h3, -⟩ := h
  obtain ⟨ref', n', h1', h2', h3', -⟩ := h'
  obtain rfl : ref = ref' := by rw [h1] at h1'; simpa using h1'
  obtain rfl : n = n' := by rw [h2] at h2'; simpa using h2'
  rw [← h3, ← h3']

theorem cell1_spec {f : Nat} {st st' : St1} {i : Nat} {x : Rat} {cf : List Int} (e : cell1 (f + 1) st i x = .ok (cf, st')) :
    st.Grows st' ∧ ∃ k, cf.head? = some k ∧ Settled1 st' i x k := by
  simp only [cell1] at e
  cases hr : st.init[i]? with
  | none => rw [hr] at e; simp at e
  | some ref =>
    rw [hr] at e
    simp only at e
    cases hn : st.nodes[slot ref x i]? with
    | none =>
      have hn' : st.nodes[if ref < x then 2 * i else 2 * i + 1]? = none := hn
      rw [hn'] at e
      simp at e
    | some n =>
      have hn' : st.nodes[if ref < x then 2 * i else 2 * i + 1]? = some n := hn
      rw [hn'] at e
      simp only at e
      cases he : Bee1.eval (sgn ref x) x (f + 1) n with
      | error er =>
        have he' : Bee1.eval (if ref < x then 1 else -1) x (f + 1) n = .error er := he
        rw [he'] at e
        simp at e
      | ok q =>
        obtain ⟨c1, n1⟩ := q
        have he' : Bee1.eval (if ref < x then 1 else -1) x (f + 1) n = .ok (c1, n1) := he
        rw [he'] at e
        simp only [Except.ok.injEq, Prod.mk.injEq] at e
        obtain ⟨rfl, rfl⟩ := e
        obtain ⟨hj, hjn⟩ := List.getElem?_eq_some_iff.mp hn
        have hset : (st.nodes.set (slot ref x i) n1)[slot ref x i]? = some n1 := List.getElem?_set_self hj
        obtain ⟨a, b, c⟩ := Bee1.eval_first he
        refine ⟨⟨rfl, fun j m hm => ?_⟩, _, a, ref, n1, hr, hset, by rw [b], c⟩
        by_cases hjj : j = slot ref x i
        · subst hjj
          rw [hn] at hm
          obtain rfl : n = m := by simpa using hm
          exact ⟨n1, hset, Bee1.eval_grows he⟩
        · exact ⟨m, by rw [← hm]; exact List.getElem?_set_ne (Ne.symm hjj), .refl m⟩

theorem cell1_length {f : Nat} {st st' : St1} {i : Nat} {x : Rat} {cf : List Int} (h : st.WF)
    (e : cell1 f st i x = .ok (cf, st')) : cf.length = f ∧ st'.WF := by
  have hi : i < st.init.length := by
    refine Classical.byContradiction fun hi => ?_
    rw [cell1, List.getElem?_eq_none (by omega)] at e
    simp at e
  obtain ⟨fs, s', e', hl, hw, -⟩ := cell1_ok f x h hi
  rw [e] at e'
  simp only [Except.ok.injEq, Prod.mk.injEq] at e'
  obtain ⟨rfl, rfl⟩ := e'
  exact ⟨hl, hw⟩

theorem cells1_spec {f : Nat} {l : List Rat} {st st' : St1} {i k : Nat} {fs : List Int} (h : st.WF)
    (e : cells1 (f + 1) st i l = .ok (k, fs, st')) :
    st.Grows st' ∧ ∀ (a : Nat) (x : Rat), l[a]? = some x → ∃ v, fs[a * (f + 1)]? = some v ∧ Settled1 st' (i + a) x v := by
  induction l generalizing st i fs with
  | nil =>
    simp only [cells1, Except.ok.injEq, Prod.mk.injEq] at e
    obtain ⟨-, -, rfl⟩ := e
    exact ⟨.refl _, fun a x hx => by simp at hx⟩
  | cons c l ih =>
    simp only [cells1] at e
    cases hc : cell1 (f + 1) st i c with
    | error er => rw [hc] at e; simp at e
    | ok q =>
      obtain ⟨cf, s1⟩ := q
      rw [hc] at e
      simp only at e
      cases hcs : cells1 (f + 1) s1 (i + 1) l with
      | error er => rw [hcs] at e; simp at e
      | ok q =>
        obtain ⟨k', fs', s2⟩ := q
        rw [hcs] at e
        simp only [Except.ok.injEq, Prod.mk.injEq] at e
        obtain ⟨rfl, rfl, rfl⟩ := e
        obtain ⟨hl, hw⟩ := cell1_length h hc
        obtain ⟨g1, v, hv, hs⟩ := cell1_spec hc
        obtain ⟨g2, hrest⟩ := ih hw hcs
        refine ⟨g1.trans g2, fun a x hx => ?_⟩
        cases a with
        | zero =>
          obtain rfl : c = x := by simpa using hx
          refine ⟨v, ?_, hs.grow g2⟩
          cases cf with
          | nil => simp at hv
          | cons w cf => simpa using hv
        | succ a =>
          obtain ⟨v', hv', hs'⟩ := hrest a x (by simpa using hx)
          refine ⟨v', ?_, by rwa [show i + (a + 1) = i + 1 + a by omega]⟩
          rw [List.getElem?_append_right (by rw [hl, Nat.add_mul]; omega), hl, ← hv']
          congr 1
          rw [Nat.add_mul]
          omega

/-- Several evaluations, one after the other. -/
def runs {σ : Type} (step : σ → Elem Rat → Except PyErr (List Int × σ)) : σ → List (Elem Rat) → Except PyErr (List (List Int) × σ)
  | st, [] => .ok ([], st)
  | st, e :: l =>
    match step st e with
    | .error er => .error er
    | .ok (o, st') =>
      match runs step st' l with
      | .error er => .error er
      | .ok (os, st'') => .ok (o :: os, st'')

/-- All evaluations succeed when each keeps the invariant. -/
theorem runs_ok {σ : Type} {step : σ → Elem Rat → Except PyErr (List Int × σ)} {I : σ → Prop} {E : Elem Rat → Prop} {P : List Int → Prop}
    (hstep : ∀ st e, I st → E e → ∃ o st', step st e = .ok (o, st') ∧ P o ∧ I st') {es : List (Elem Rat)} (hes : ∀ e ∈ es, E e)
    {st : σ} (h : I st) : ∃ os st', runs step st es = .ok (os, st') ∧ os.length = es.length ∧ (∀ o ∈ os, P o) ∧ I st' := by
  induction es generalizing st with
  | nil => exact ⟨[], st, rfl, rfl, by simp, h⟩
  | cons e es ih =>
    obtain ⟨o, s1, e1, p1, h1⟩ := hstep st e h (hes e List.mem_cons_self)
    obtain ⟨os, s2, e2, l2, p2, h2⟩ := ih (fun e he => hes e (List.mem_cons_of_mem _ he)) h1
    refine ⟨o :: os, s2, by simp only [runs, e1, e2], by simp [l2], ?_, h2⟩
    intro o' ho'
    rcases List.mem_cons.mp ho' with rfl | ho'
    · exact p1
    · exact p2 o' ho'

theorem bee1_spec {f : Nat} {s : Space} {st st' : St1} {e : Elem Rat} {fs : List Int} (hf : Fits (fun _ => True) s e) (ho : onlyBoxes s = true)
    (h : Ready1 s st) (he : bee1 (f + 1) s st e = .ok (fs, st')) :
    (∀ i x v, Settled1 st i x v → Settled1 st' i x v) ∧
    ∀ (a : Nat) (x : Rat), (flatten e)[a]? = some x → ∃ v, fs[a * (f + 1)]? = some v ∧ Settled1 st' a x v := by
  have key : ∃ st0, (if st.nodes.length = 0 then init1 st s e else .ok st) = .ok st0 ∧ st0.WF ∧ st0.init.length = size s ∧
      (∀ i x v, Settled1 st i x v → Settled1 st0 i x v) := by
    by_cases h0 : st.nodes.length = 0
    · have hw : st.WF ∧ (st.init = [] ∨ st.init.length = size s) := by
        rcases h with ⟨hi, hn⟩ | ⟨hw, hl⟩
        · exact ⟨⟨by simp [hi, hn], by simp [hn]⟩, .inl hi⟩
        · exact ⟨hw, .inr hl⟩
      have hsz : st.init.length = 0 := by have := hw.1.len; omega
      obtain ⟨st0, e0, h0', l0⟩ := init1_ok _ s e st hf ho hw.1
      refine ⟨st0, by simp [h0, e0], h0', by omega, ?_⟩
      rintro i x v ⟨ref, n, h1, h2, -⟩
      rw [List.length_eq_zero_iff.mp h0] at h2
      simp at h2
    · rcases h with ⟨hi, hn⟩ | ⟨hw, hl⟩
      · simp [hn] at h0
      · exact ⟨st, by simp [h0], hw, hl, fun _ _ _ h => h⟩
  obtain ⟨st0, e0, h0, l0, hk⟩ := key
  simp only [bee1, e0, features1_flat _ s e st0 0 hf ho] at he
  cases hc : cells1 (f + 1) st0 0 (flatten e) with
  | error er => rw [hc] at he; simp at he
  | ok q =>
    obtain ⟨k, fs', s1⟩ := q
    rw [hc] at he
    simp only [Except.ok.injEq, Prod.mk.injEq] at he
    obtain ⟨rfl, rfl⟩ := he
    obtain ⟨g, hs⟩ := cells1_spec h0 hc
    exact ⟨fun i x v h => (hk i x v h).grow g, fun a x hx => by simpa using hs a x hx⟩

/-- Once settled, a value keeps its first feature in all later evaluations; stated for both tables. -/
theorem runs_settled {σ : Type} {step : σ → Elem Rat → Except PyErr (List Int × σ)} {I : σ → Prop} {E : Elem Rat → Prop}
    {S : σ → Nat → Rat → Int → Prop} {w : Nat}
    (uniq : ∀ st i x v v', S st i x v → S st i x v' → v = v')
    (hI : ∀ st e o st', I st → E e → step st e = .ok (o, st') → I st')
    (hstep : ∀ st e o st', I st → E e → step st e = .ok (o, st') → (∀ i x v, S st i x v → S st' i x v) ∧
      ∀ (a : Nat) (x : Rat), (flatten e)[a]? = some x → ∃ v, o[a * w]? = some v ∧ S st' a x v)
    {es : List (Elem Rat)} (hes : ∀ e ∈ es, E e) {st st' : σ} {os : List (List Int)} (h : I st) (he : runs step st es = .ok (os, st')) :
    ∃ val : Nat → Rat → Int, (∀ i x v, S st i x v → val i x = v) ∧
      ∀ (b : Nat) (e : Elem Rat) (o : List Int), es[b]? = some e → os[b]? = some o →
        ∀ (a : Nat) (x : Rat), (flatten e)[a]? = some x → o[a * w]? = some (val a x) := by
  induction es generalizing st os with
  | nil =>
    refine ⟨fun i x => open Classical in if h : ∃ v, S st i x v then h.choose else 0, ?_, fun b e o hb => by simp at hb⟩
    intro i x v hv
    have hex : ∃ v, S st i x v := ⟨v, hv⟩
    simp only [hex, dif_pos]
    exact uniq _ _ _ _ _ hex.choose_spec hv
  | cons e es ih =>
    simp only [runs] at he
    cases h1 : step st e with
    | error er => rw [h1] at he; simp at he
    | ok q =>
      obtain ⟨o, s1⟩ := q
      rw [h1] at he
      simp only at he
      cases h2 : runs step s1 es with
      | error er => rw [h2] at he; simp at he
      | ok q =>
        obtain ⟨os', s2⟩ := q
        rw [h2] at he
        simp only [Except.ok.injEq, Prod.mk.injEq] at he
        obtain ⟨rfl, rfl⟩ := he
        have hE := hes e List.mem_cons_self
        obtain ⟨hk, hn⟩ := hstep st e o s1 h hE h1
        obtain ⟨val, hv, hrest⟩ := ih (fun e he => hes e (List.mem_cons_of_mem _ he)) (hI st e o s1 h hE h1) h2
        refine ⟨val, fun i x v h => hv i x v (hk i x v h), fun b e' o' hb ho' a x hx => ?_⟩
        cases b with
        | zero =>
          obtain rfl : e = e' := by simpa using hb
          obtain rfl : o = o' := by simpa using ho'
          obtain ⟨v, hv', hs⟩ := hn a x hx
          rw [hv', hv a x v hs]
        | succ b => exact hrest b e' o' (by simpa using hb) (by simpa using ho') a x hx

/-! ### `bee2_features` -/

/-- Every node is extended only. -/
def Grows2 (st st' : List Bee2) : Prop :=
  ∀ (j : Nat) (n : Bee2), st[j]? = some n → ∃ n', st'[j]? = some n' ∧ n.I <+: n'.I

theorem Grows2.refl (st : List Bee2) : Grows2 st st := fun _ n h => ⟨n, h, List.prefix_refl _⟩
theorem Grows2.trans {a b c : List Bee2} (h : Grows2 a b) (h' : Grows2 b c) : Grows2 a c := by
  intro j n hn
  obtain ⟨n1, e1, g1⟩ := h j n hn
  obtain ⟨n2, e2, g2⟩ := h' j n1 e1
  exact ⟨n2, e2, g1.trans g2⟩

/-- The first feature of the value `x` of cell `i` is known: `f`. -/
def Settled2 (st : List Bee2) (i : Nat) (x : Rat) (f : Int) : Prop :=
  ∃ n k, st[i]? = some n ∧ n.I.findIdx? (inside x) = some k ∧ (k : Int) = f

theorem Settled2.grow {st st' : List Bee2} {i : Nat} {x : Rat} {f : Int} (h : Settled2 st i x f) (g : Grows2 st st') :
    Settled2 st' i x f := by
  obtain ⟨n, k, h1, h2, h3⟩ := h
  obtain ⟨n', e', hp⟩ := g _ n h1
  exact ⟨n', k, e', findIdx?_prefix hp h2, h3⟩

theorem Settled2.unique {st : List Bee2} {i : Nat} {x : Rat} {f g : Int} (h : Settled2 st i x f) (h' : Settled2 st i x g) : f = g := by
  obtain ⟨n, k, h1, h2, h3⟩ := h
  obtain ⟨n', k', h1', h2', h3'⟩ := h'
  obtain rfl : n = n' := by rw [h1] at h1'; simpa using h1'
  obtain rfl : k = k' := by rw [h2] at h2'; simpa using h2'
  rw [← h3, ← h3']

theorem cells2_spec {lv : Nat} {l : List Rat} {st st' : List Bee2} {i k : Nat} {fs : List Int} (h : WF2 st)
    (e : cells2 lv st i l = .ok (k, fs, st')) :
    Grows2 st st' ∧ ∀ (a : Nat) (x : Rat), l[a]? = some x → ∃ v, fs[a * (lv + 1)]? = some v ∧ Settled2 st' (i + a) x v := by
  induction l generalizing st i fs with
  | nil =>
    simp only [cells2, Except.ok.injEq, Prod.mk.injEq] at e
    obtain ⟨-, -, rfl⟩ := e
    exact ⟨.refl _, fun a x hx => by simp at hx⟩
  | cons c l ih =>
    simp only [cells2] at e
    cases hn : st[i]? with
    | none => rw [hn] at e; simp at e
    | some n =>
      obtain ⟨hj, hjn⟩ := List.getElem?_eq_some_iff.mp hn
      have hwf : n.WF := h n (hjn ▸ List.getElem_mem hj)
      obtain ⟨v, cf, n1, e1, hl, hw1, hp, hfi, hv0, -⟩ := Bee2.eval_ok c lv hwf
      rw [hn] at e
      simp only [e1] at e
      have hset : (st.set i n1)[i]? = some n1 := List.getElem?_set_self hj
      cases hcs : cells2 lv (st.set i n1) (i + 1) l with
      | error er => rw [hcs] at e; simp at e
      | ok q =>
        obtain ⟨k', fs', s2⟩ := q
        rw [hcs] at e
        simp only [Except.ok.injEq, Prod.mk.injEq] at e
        obtain ⟨rfl, rfl, rfl⟩ := e
        have g1 : Grows2 st (st.set i n1) := by
          intro j m hm
          by_cases hjj : j = i
          · subst hjj
            rw [hn] at hm
            obtain rfl : n = m := by simpa using hm
            exact ⟨n1, hset, hp⟩
          · exact ⟨m, by rw [← hm]; exact List.getElem?_set_ne (Ne.symm hjj), List.prefix_refl _⟩
        obtain ⟨g2, hrest⟩ := ih (by
          intro m hm
          rcases List.mem_or_eq_of_mem_set hm with hm | rfl
          · exact h m hm
          · exact hw1) hcs
        have hs : Settled2 (st.set i n1) i c v := ⟨n1, v.toNat, hset, hfi, by omega⟩
        refine ⟨g1.trans g2, fun a x hx => ?_⟩
        cases a with
        | zero =>
          obtain rfl : c = x := by simpa using hx
          exact ⟨v, by simp, hs.grow g2⟩
        | succ a =>
          obtain ⟨v', hv', hs'⟩ := hrest a x (by simpa using hx)
          refine ⟨v', ?_, by rwa [show i + (a + 1) = i + 1 + a by omega]⟩
          rw [List.getElem?_append_right (by rw [List.length_cons, hl, Nat.add_mul]; omega), List.length_cons, hl, ← hv']
          congr 1
          rw [Nat.add_mul]
          omega

theorem bee2_spec {lv : Nat} {s : Space} {st st' : List Bee2} {e : Elem Rat} {fs : List Int} (hf : Fits (fun _ => True) s e) (ho : onlyBoxes s = true)
    (h : Ready2 s st) (he : bee2 lv s st e = .ok (fs, st')) :
    (∀ i x v, Settled2 st i x v → Settled2 st' i x v) ∧
    ∀ (a : Nat) (x : Rat), (flatten e)[a]? = some x → ∃ v, fs[a * (lv + 1)]? = some v ∧ Settled2 st' a x v := by
  have key : ∃ st0, (if st.length = 0 then init2 st s e else .ok st) = .ok st0 ∧ WF2 st0 ∧
      (∀ i x v, Settled2 st i x v → Settled2 st0 i x v) := by
    by_cases h0 : st.length = 0
    · have hnil := List.length_eq_zero_iff.mp h0
      obtain ⟨st0, e0, h0', l0⟩ := init2_ok _ s e st hf ho (by simp [hnil, WF2])
      refine ⟨st0, by simp [h0, e0], h0', ?_⟩
      rintro i x v ⟨n, k, h1, -⟩
      rw [hnil] at h1
      simp at h1
    · rcases h with rfl | ⟨hw, hl⟩
      · simp at h0
      · exact ⟨st, by simp [h0], hw, fun _ _ _ h => h⟩
  obtain ⟨st0, e0, h0, hk⟩ := key
  simp only [bee2, e0, features2_flat _ s e st0 0 hf ho] at he
  cases hc : cells2 lv st0 0 (flatten e) with
  | error er => rw [hc] at he; simp at he
  | ok q =>
    obtain ⟨k, fs', s1⟩ := q
    rw [hc] at he
    simp only [Except.ok.injEq, Prod.mk.injEq] at he
    obtain ⟨rfl, rfl⟩ := he
    obtain ⟨g, hs⟩ := cells2_spec h0 hc
    exact ⟨fun i x v h => (hk i x v h).grow g, fun a x hx => by simpa using hs a x hx⟩

end Verif.Gym
