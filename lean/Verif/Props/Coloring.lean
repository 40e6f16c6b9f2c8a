import Verif.Lemmas.Coloring
/- Properties C32 and C55: graph colouring. -/
namespace Verif.Coloring

/-- Specification: node `n` has colour `c`, i.e. `c` stands in the vector at the rank of `n` among
the node names. -/
def HasColor (g : Graph) (colors : List Int) (n c : Int) : Prop :=
  ∃ i : Nat, g.names[i]? = some n ∧ colors[i]? = some c

/-- Specification: a proper colouring gives the two ends of every edge different colours. -/
def Proper (g : Graph) (colors : List Int) : Prop :=
  ∀ a b, (a, b) ∈ g.edges → ∃ c d, HasColor g colors a c ∧ HasColor g colors b d ∧ c ≠ d

/-- Every edge joins nodes of the graph and the vector colours every node. -/
structure WF (g : Graph) (colors : List Int) : Prop where
  ends : ∀ a b, (a, b) ∈ g.edges → a ∈ g.nodes ∧ b ∈ g.nodes
  len : g.names.length ≤ colors.length

theorem hasColor_unique {g : Graph} {colors : List Int} {n c d : Int}
    (h : HasColor g colors n c) (h' : HasColor g colors n d) : c = d := by
  rw [HasColor, ← colorOf_ok] at h h'
  rw [h] at h'; cases h'; rfl

theorem WF.color {g : Graph} {colors : List Int} (h : WF g colors) {n : Int} (hn : n ∈ g.nodes) :
    ∃ c, HasColor g colors n c := by
  obtain ⟨i, hi⟩ := List.getElem?_of_mem (mem_names.2 hn)
  have hlt : i < g.names.length := by
    rcases Nat.lt_or_ge i g.names.length with h' | h'
    · exact h'
    · rw [List.getElem?_eq_none h'] at hi; cases hi
  have := h.len
  exact ⟨colors[i], i, hi, by simp⟩

theorem satisfyFrom_true (g : Graph) (colors : List Int) (es : List (Int × Int)) :
    satisfyFrom g colors es = .ok true ↔
      ∀ a b, (a, b) ∈ es → ∃ c d, HasColor g colors a c ∧ HasColor g colors b d ∧ c ≠ d := by
  induction es with
  | nil => simp [satisfyFrom]
  | cons e es ih =>
    obtain ⟨x, y⟩ := e
    simp only [satisfyFrom, bind_eq_ok]
    constructor
    · rintro ⟨c, hc, d, hd, h⟩ a b hab
      rw [colorOf_ok] at hc hd
      split at h
      · cases h
      · rename_i hne
        rcases List.mem_cons.1 hab with heq | hab
        · cases heq; exact ⟨c, d, hc, hd, hne⟩
        · exact ih.1 h a b hab
    · intro h
      obtain ⟨c, d, hc, hd, hne⟩ := h x y (by simp)
      refine ⟨c, (colorOf_ok ..).2 hc, d, (colorOf_ok ..).2 hd, ?_⟩
      rw [if_neg hne]
      exact ih.2 (fun a b hab => h a b (List.mem_cons_of_mem _ hab))

theorem satisfyFrom_ok {g : Graph} {colors : List Int} (hw : WF g colors) (es : List (Int × Int))
    (hes : ∀ e, e ∈ es → e ∈ g.edges) : ∃ b, satisfyFrom g colors es = .ok b := by
  induction es with
  | nil => exact ⟨true, rfl⟩
  | cons e es ih =>
    obtain ⟨x, y⟩ := e
    obtain ⟨hx, hy⟩ := hw.ends x y (hes _ (by simp))
    obtain ⟨c, hc⟩ := hw.color hx
    obtain ⟨d, hd⟩ := hw.color hy
    simp only [satisfyFrom, (colorOf_ok ..).2 hc, (colorOf_ok ..).2 hd, bind_ok]
    split
    · exact ⟨_, rfl⟩
    · exact ih (fun e he => hes e (List.mem_cons_of_mem _ he))

/-- C32: the names the colour vector follows are the nodes, once each, in increasing order. -/
theorem C32_order (g : Graph) :
    g.names.Pairwise (fun a b => a < b) ∧ ∀ n, n ∈ g.names ↔ n ∈ g.nodes := by
  refine ⟨?_, fun n => mem_names⟩
  have h := (pySorted_sorted (distinct g.nodes)).and (names_nodup g)
  exact List.Pairwise.imp (by intro a b ⟨h1, h2⟩; omega) h

/-- C32: a colouring is accepted exactly when it is proper (for every graph and vector, including
those with unknown nodes or missing colours, which are never accepted). -/
theorem C32_accepts_iff (g : Graph) (colors : List Int) :
    satisfy g colors = .ok true ↔ Proper g colors := satisfyFrom_true g colors g.edges

/-- C32: on well-formed input the check answers, and says no exactly when some edge has equal
colours at its two ends. -/
theorem C32_rejects_iff {g : Graph} {colors : List Int} (hw : WF g colors) :
    satisfy g colors = .ok false ↔
      ∃ a b c, (a, b) ∈ g.edges ∧ HasColor g colors a c ∧ HasColor g colors b c := by
  obtain ⟨b, hb⟩ := satisfyFrom_ok hw g.edges (fun _ h => h)
  constructor
  · intro h
    have hnot : ¬ Proper g colors := by
      rw [← C32_accepts_iff, h]; simp
    by_cases hx : ∃ a b c, (a, b) ∈ g.edges ∧ HasColor g colors a c ∧ HasColor g colors b c
    · exact hx
    · exfalso
      apply hnot
      intro x y hxy
      obtain ⟨h1, h2⟩ := hw.ends x y hxy
      obtain ⟨c, hc⟩ := hw.color h1
      obtain ⟨d, hd⟩ := hw.color h2
      refine ⟨c, d, hc, hd, ?_⟩
      rintro rfl
      exact hx ⟨x, y, c, hxy, hc, hd⟩
  · rintro ⟨x, y, c, hxy, hc, hd⟩
    cases b with
    | false => exact hb
    | true =>
      obtain ⟨c', d', hc', hd', hne⟩ := (C32_accepts_iff g colors).1 hb x y hxy
      exact absurd ((hasColor_unique hc' hc).trans (hasColor_unique hd hd')) hne

/-- Triangle 5-7-9 plus the isolated node 2, names unsorted: proper and improper colourings. -/
def tri : Graph := { nodes := [9, 2, 7, 5, 7], edges := [(5, 7), (7, 9), (9, 5)] }

example : WF tri [0, 1, 2, 3] := ⟨by simp [tri]; omega, by decide +kernel⟩
example : satisfy tri [0, 1, 2, 3] = .ok true := by decide +kernel
example : satisfy tri [0, 1, 2, 1] = .ok false := by decide +kernel
example : satisfy tri [0, 1, 2] = .error .indexError := by decide +kernel

/-- Specification of the number of violated edges. -/
def clashes (g : Graph) (colors : List Int) (es : List (Int × Int)) (k : Nat) : Prop :=
  ∃ bad : List (Int × Int), bad.Sublist es ∧ bad.length = k ∧
    ∀ e, e ∈ es → (e ∈ bad ↔ ∃ c, HasColor g colors e.1 c ∧ HasColor g colors e.2 c)

theorem countFrom_spec {g : Graph} {colors : List Int} (hw : WF g colors) (es : List (Int × Int))
    (hes : ∀ e, e ∈ es → e ∈ g.edges) : ∀ val, ∃ bad : List (Int × Int),
      countFrom g colors es val = .ok (val + bad.length) ∧
      bad.Sublist es ∧ (∀ e, e ∈ es → (e ∈ bad ↔ ∃ c, HasColor g colors e.1 c ∧ HasColor g colors e.2 c)) ∧
      bad = es.filter (fun e => colorOf g colors e.1 == colorOf g colors e.2) := by
  induction es with
  | nil => intro val; exact ⟨[], by simp [countFrom], by simp, by simp, rfl⟩
  | cons e es ih =>
    intro val
    obtain ⟨x, y⟩ := e
    obtain ⟨hx, hy⟩ := hw.ends x y (hes _ (by simp))
    obtain ⟨c, hc⟩ := hw.color hx
    obtain ⟨d, hd⟩ := hw.color hy
    have hc' := (colorOf_ok ..).2 hc
    have hd' := (colorOf_ok ..).2 hd
    have key : (∃ z, HasColor g colors x z ∧ HasColor g colors y z) ↔ c = d := by
      constructor
      · rintro ⟨z, h1, h2⟩; exact (hasColor_unique hc h1).trans (hasColor_unique h2 hd)
      · rintro rfl; exact ⟨c, hc, hd⟩
    simp only [countFrom, hc', hd', bind_ok]
    obtain ⟨bad, h1, h2, h3, h4⟩ := ih (fun e he => hes e (List.mem_cons_of_mem _ he)) (if c = d then val + 1 else val)
    by_cases hcd : c = d
    · refine ⟨(x, y) :: bad, ?_, h2.cons_cons _, ?_, ?_⟩
      · rw [h1, if_pos hcd]; simp only [List.length_cons]; congr 1; omega
      · intro e he
        by_cases hexy : e = (x, y)
        · subst hexy; simp [key, hcd]
        · simp only [List.mem_cons, hexy, false_or] at he ⊢
          exact h3 e he
      · rw [List.filter_cons]
        simp [hc', hd', hcd, h4]
    · have hbad : ∀ e, e ∈ bad → colorOf g colors e.1 = colorOf g colors e.2 := by
        intro e he; rw [h4] at he; simpa using (List.mem_filter.1 he).2
      refine ⟨bad, ?_, h2.cons _, ?_, ?_⟩
      · rw [h1, if_neg hcd]
      · intro e he
        by_cases hexy : e = (x, y)
        · subst hexy
          simp only [key, hcd, iff_false]
          intro hm
          have := hbad _ hm
          rw [hc', hd'] at this; cases this; exact hcd rfl
        · simp only [List.mem_cons, hexy, false_or] at he
          exact h3 e he
      · rw [List.filter_cons]
        simp [hc', hd', hcd, h4]

/-- C32: the violation count is the number of edges whose two ends have the same colour. -/
theorem C32_count {g : Graph} {colors : List Int} (hw : WF g colors) :
    ∃ k, countViolations g colors = .ok k ∧ clashes g colors g.edges k := by
  obtain ⟨bad, h1, h2, h3, _⟩ := countFrom_spec hw g.edges (fun _ h => h) 0
  exact ⟨bad.length, by rw [countViolations, h1, Nat.zero_add], bad, h2, rfl, h3⟩

/-- C32: the check accepts exactly when the violation count is zero. -/
theorem C32_accepts_iff_count_zero {g : Graph} {colors : List Int} (hw : WF g colors) :
    satisfy g colors = .ok true ↔ countViolations g colors = .ok 0 := by
  obtain ⟨bad, h1, h2, h3, _⟩ := countFrom_spec hw g.edges (fun _ h => h) 0
  rw [countViolations, h1, C32_accepts_iff]
  simp only [Nat.zero_add, Except.ok.injEq, List.length_eq_zero_iff]
  constructor
  · intro h
    rw [List.eq_nil_iff_forall_not_mem]
    intro e he
    obtain ⟨c, hc1, hc2⟩ := (h3 e (h2.subset he)).1 he
    obtain ⟨c', d', hc', hd', hne⟩ := h e.1 e.2 (h2.subset he)
    exact hne ((hasColor_unique hc' hc1).trans (hasColor_unique hc2 hd'))
  · rintro rfl x y hxy
    obtain ⟨hx, hy⟩ := hw.ends x y hxy
    obtain ⟨c, hc⟩ := hw.color hx
    obtain ⟨d, hd⟩ := hw.color hy
    refine ⟨c, d, hc, hd, ?_⟩
    rintro rfl
    exact absurd ((h3 (x, y) hxy).2 ⟨c, hc, hd⟩) (by simp)

example : countViolations tri [0, 1, 1, 1] = .ok 3 := by decide +kernel
example : countViolations tri [0, 1, 2, 1] = .ok 1 := by decide +kernel

/-- C32: evaluating a solution without cached counts reports the number of distinct colours and
the number of violated edges, and evaluating the result again reports the same. -/
theorem C32_evaluate {g : Graph} {colors : List Int} (hw : WF g colors) (o : Option Nat) :
    ∃ k v s, evaluate g { colors := colors, nbColor := none, nbViolations := o } = .ok ((some k, some v), s) ∧
      s.colors = colors ∧ evaluate g s = .ok ((some k, some v), s) ∧
      (∃ d : List Int, d.Nodup ∧ d.length = k ∧ ∀ c, c ∈ d ↔ c ∈ colors) ∧
      clashes g colors g.edges v := by
  obtain ⟨v, hv, hc⟩ := C32_count hw
  refine ⟨(distinct colors).length, v,
    { colors := colors, nbColor := some (distinct colors).length, nbViolations := some v }, ?_, rfl, rfl,
    ⟨distinct colors, distinct_nodup _, rfl, fun c => mem_distinct⟩, hc⟩
  simp [evaluate, hv]

/-- The cached counts are not recomputed: a solution built with a colour count but other colours
reports the count it was given. -/
theorem C32_cached_counts_stale :
    ∃ (g : Graph) (s : Solution), WF g s.colors ∧ s.nbColor ≠ none ∧
      evaluate g s = .ok ((some 1, some 0), s) ∧ countViolations g s.colors = .ok 1 ∧
      (distinct s.colors).length = 2 :=
  ⟨tri, { colors := [0, 1, 1, 0], nbColor := some 1, nbViolations := some 0 },
    ⟨by simp [tri]; omega, by decide +kernel⟩, by decide, by decide +kernel, by decide +kernel, by decide +kernel⟩

/-- C32: renumbering never fails, keeps which vertices share a colour, keeps the number of colours,
uses exactly the colours `0..k-1`, each first used after all smaller ones. -/
theorem C32_renumber (colors : List Int) :
    ∃ out k, renumber colors = .ok out ∧ out.length = colors.length ∧
      (∀ (i j : Nat) c d, colors[i]? = some c → colors[j]? = some d → (out[i]? = out[j]? ↔ c = d)) ∧
      (∃ d : List Int, d.Nodup ∧ d.length = k ∧ ∀ c, c ∈ d ↔ c ∈ colors) ∧
      (∀ v, v ∈ out ↔ v < k) ∧
      (∀ (i v : Nat), out[i]? = some v → ∀ u : Nat, u < v → ∃ j, j < i ∧ out[j]? = some u) := by
  obtain ⟨out, h1, h2, h3, ⟨k, h4, h5⟩, h6⟩ := renumber_spec colors
  exact ⟨out, k, h1, h2, h3, ⟨distinct colors, distinct_nodup _, h5.symm, fun c => mem_distinct⟩, h4, h6⟩

example : renumber [7, -3, 7, 7, 12, -3] = .ok [0, 1, 0, 0, 2, 1] := by decide +kernel

theorem renumber_hasColor {g : Graph} {colors : List Int} {out : List Nat} (h : renumber colors = .ok out)
    (n : Int) : (∃ c, HasColor g colors n c) ↔ ∃ c, HasColor g (out.map Int.ofNat) n c := by
  obtain ⟨out', h1, h2, _⟩ := renumber_spec colors
  rw [h] at h1; cases h1
  constructor
  · rintro ⟨c, i, hi, hc⟩
    have : i < out.length := by
      rw [h2]; exact (List.getElem?_eq_some_iff.1 hc).1
    exact ⟨Int.ofNat out[i], i, hi, by simp [this]⟩
  · rintro ⟨c, i, hi, hc⟩
    have : i < colors.length := by
      rw [← h2]; simpa using (List.getElem?_eq_some_iff.1 hc).1
    exact ⟨colors[i], i, hi, by simp⟩

/-- C32: a colouring is accepted exactly when its renumbering is. -/
theorem C32_renumber_accepts (g : Graph) (colors : List Int) :
    ∃ out, renumber colors = .ok out ∧
      (satisfy g (out.map Int.ofNat) = .ok true ↔ satisfy g colors = .ok true) := by
  obtain ⟨out, h1, h2, h3, _⟩ := renumber_spec colors
  refine ⟨out, h1, ?_⟩
  rw [C32_accepts_iff, C32_accepts_iff]
  have tr : ∀ {i j : Nat} {c d : Int}, colors[i]? = some c → colors[j]? = some d →
      ∀ {c' d' : Int}, (out.map Int.ofNat)[i]? = some c' → (out.map Int.ofNat)[j]? = some d' →
      (c' = d' ↔ c = d) := by
    intro i j c d hi hj c' d' hi' hj'
    rw [← h3 i j c d hi hj]
    simp only [List.getElem?_map, Option.map_eq_some_iff] at hi' hj'
    obtain ⟨u, hu, rfl⟩ := hi'
    obtain ⟨w, hw, rfl⟩ := hj'
    rw [hu, hw]
    simp only [Int.ofNat_eq_natCast, Option.some.injEq]
    omega
  constructor
  · intro h a b hab
    obtain ⟨c', d', ⟨i, hi, hc'⟩, ⟨j, hj, hd'⟩, hne⟩ := h a b hab
    have hil : i < colors.length := by rw [← h2]; simpa using (List.getElem?_eq_some_iff.1 hc').1
    have hjl : j < colors.length := by rw [← h2]; simpa using (List.getElem?_eq_some_iff.1 hd').1
    refine ⟨colors[i], colors[j], ⟨i, hi, by simp⟩, ⟨j, hj, by simp⟩, ?_⟩
    intro heq
    exact hne ((tr (List.getElem?_eq_getElem hil) (List.getElem?_eq_getElem hjl) hc' hd').2 heq)
  · intro h a b hab
    obtain ⟨c, d, ⟨i, hi, hc⟩, ⟨j, hj, hd⟩, hne⟩ := h a b hab
    have hil : i < (out.map Int.ofNat).length := by
      simp only [List.length_map, h2]; exact (List.getElem?_eq_some_iff.1 hc).1
    have hjl : j < (out.map Int.ofNat).length := by
      simp only [List.length_map, h2]; exact (List.getElem?_eq_some_iff.1 hd).1
    refine ⟨_, _, ⟨i, hi, List.getElem?_eq_getElem hil⟩, ⟨j, hj, List.getElem?_eq_getElem hjl⟩, ?_⟩
    intro heq
    exact hne ((tr hc hd (List.getElem?_eq_getElem hil) (List.getElem?_eq_getElem hjl)).1 heq)

/-- C32: the dummy solution gives every node its own colour and is accepted exactly when no edge
is a loop. -/
theorem C32_dummy {g : Graph} (hw : ∀ a b, (a, b) ∈ g.edges → a ∈ g.nodes ∧ b ∈ g.nodes) :
    ∃ s, dummy g = .ok s ∧ s.colors.Nodup ∧ s.colors.length = g.names.length ∧
      (satisfy g s.colors = .ok true ↔ ∀ a b, (a, b) ∈ g.edges → a ≠ b) := by
  have hlen : (distinct g.nodes).length = g.names.length := (pySorted_perm _).length_eq.symm
  have hwf : WF g ((List.range (distinct g.nodes).length).map Int.ofNat) := ⟨hw, by simp [hlen]⟩
  obtain ⟨k, v, s, he, hs, _⟩ := C32_evaluate hwf none
  refine ⟨s, by simp [dummy, he], ?_, by rw [hs]; simp [hlen], ?_⟩
  · rw [hs, List.Nodup, List.pairwise_map]
    exact List.Pairwise.imp (by intro a b h h'; apply h; simp only [Int.ofNat_eq_natCast] at h'; omega) List.nodup_range
  · rw [hs, C32_accepts_iff]
    have hcol : ∀ {n c}, HasColor g ((List.range (distinct g.nodes).length).map Int.ofNat) n c →
        ∃ i : Nat, c = i ∧ g.names[i]? = some n := by
      rintro n c ⟨i, hi, hc⟩
      simp only [List.getElem?_map, Option.map_eq_some_iff] at hc
      obtain ⟨w, hw', rfl⟩ := hc
      obtain ⟨hl, hr⟩ := List.getElem?_eq_some_iff.1 hw'
      simp only [List.getElem_range] at hr
      subst hr
      exact ⟨i, rfl, hi⟩
    constructor
    · rintro h a b hab rfl
      obtain ⟨c, d, hc, hd, hne⟩ := h a a hab
      exact hne (hasColor_unique hc hd)
    · intro h a b hab
      obtain ⟨h1, h2⟩ := hw a b hab
      obtain ⟨c, hc⟩ := hwf.color h1
      obtain ⟨d, hd⟩ := hwf.color h2
      refine ⟨c, d, hc, hd, ?_⟩
      rintro rfl
      obtain ⟨i, hi, hi'⟩ := hcol hc
      obtain ⟨j, hj, hj'⟩ := hcol hd
      have : i = j := by omega
      subst this
      rw [hi'] at hj'
      exact h a b hab (by simpa using hj')

example : (dummy tri).map Solution.colors = .ok [0, 1, 2, 3] := by decide +kernel

/-- Specification of an answer of `networkx`: a colour for each node of the graph and nothing else,
different at the two ends of every edge. -/
structure NxProper (g : Graph) (colors : Dict Int Int) : Prop where
  nodup : (Dict.keys colors).Nodup
  dom : ∀ n, n ∈ Dict.keys colors ↔ n ∈ g.nodes
  proper : ∀ a b c d, (a, b) ∈ g.edges → colors.get? a = some c → colors.get? b = some d → c ≠ d

theorem readColors_spec (colors : Dict Int Int) (ns : List Int) (h : ∀ n, n ∈ ns → n ∈ Dict.keys colors) :
    ∃ sol, readColors colors ns = .ok sol ∧ sol.length = ns.length ∧
      ∀ (i : Nat) n, ns[i]? = some n → sol[i]? = colors.get? n := by
  induction ns with
  | nil => exact ⟨[], rfl, rfl, by simp⟩
  | cons n ns ih =>
    obtain ⟨sol, h1, h2, h3⟩ := ih (fun m hm => h m (List.mem_cons_of_mem _ hm))
    obtain ⟨c, hc⟩ := Option.isSome_iff_exists.1 ((Dict.get?_isSome_iff_mem_keys colors n).2 (h n (by simp)))
    refine ⟨c :: sol, by simp [readColors, Dict.get, hc, h1], by simp [h2], ?_⟩
    intro i m hm
    cases i with
    | zero => simp at hm; subst hm; simp [hc]
    | succ i => simpa using h3 i m (by simpa using hm)

theorem nx_sorted {g : Graph} {colors : Dict Int Int} (h : NxProper g colors) :
    pySorted (Dict.keys colors) = g.names := by
  apply pySorted_congr
  rw [List.perm_ext_iff_of_nodup h.nodup (distinct_nodup _)]
  intro n
  rw [h.dom, mem_distinct]

/-- Same number of distinct values. -/
theorem distinct_length_congr {l l' : List Int} (h : ∀ x, x ∈ l ↔ x ∈ l') :
    (distinct l).length = (distinct l').length := by
  apply List.Perm.length_eq
  rw [List.perm_ext_iff_of_nodup (distinct_nodup _) (distinct_nodup _)]
  intro x
  rw [mem_distinct, mem_distinct, h]

/-- A good answer is read into a proper colour vector with the same number of colours. -/
theorem nx_read {g : Graph} {colors : Dict Int Int} (hw : ∀ a b, (a, b) ∈ g.edges → a ∈ g.nodes ∧ b ∈ g.nodes)
    (h : NxProper g colors) :
    ∃ sol, readColors colors (pySorted (Dict.keys colors)) = .ok sol ∧ Proper g sol ∧
      sol.length = g.names.length ∧
      (distinct sol).length = (distinct (colors.map Prod.snd)).length := by
  rw [nx_sorted h]
  have hmem : ∀ n, n ∈ g.names ↔ n ∈ Dict.keys colors := by
    intro n; rw [mem_names, h.dom]
  obtain ⟨sol, h1, h2, h3⟩ := readColors_spec colors g.names (fun n hn => (hmem n).1 hn)
  refine ⟨sol, h1, ?_, h2, ?_⟩
  · intro a b hab
    obtain ⟨ha, hb⟩ := hw a b hab
    obtain ⟨i, hi⟩ := List.getElem?_of_mem (mem_names.2 ha)
    obtain ⟨j, hj⟩ := List.getElem?_of_mem (mem_names.2 hb)
    obtain ⟨c, hc⟩ := Option.isSome_iff_exists.1
      ((Dict.get?_isSome_iff_mem_keys colors a).2 ((h.dom a).2 ha))
    obtain ⟨d, hd⟩ := Option.isSome_iff_exists.1
      ((Dict.get?_isSome_iff_mem_keys colors b).2 ((h.dom b).2 hb))
    exact ⟨c, d, ⟨i, hi, by rw [h3 i a hi, hc]⟩, ⟨j, hj, by rw [h3 j b hj, hd]⟩, h.proper a b c d hab hc hd⟩
  · apply distinct_length_congr
    intro x
    simp only [List.mem_map]
    constructor
    · intro hx
      obtain ⟨i, hi⟩ := List.getElem?_of_mem hx
      have hl : i < g.names.length := by rw [← h2]; exact (List.getElem?_eq_some_iff.1 hi).1
      have := h3 i g.names[i] (by simp)
      rw [hi] at this
      exact ⟨(g.names[i], x), Dict.mem_of_get? this.symm, rfl⟩
    · rintro ⟨⟨n, c⟩, hp, rfl⟩
      have hk : n ∈ g.names := (hmem n).2 (List.mem_map.2 ⟨_, hp, rfl⟩)
      obtain ⟨i, hi⟩ := List.getElem?_of_mem hk
      have := h3 i n hi
      rw [Dict.get?_of_mem h.nodup hp] at this
      exact List.mem_of_getElem? this

/-- What the loop over strategies has found. -/
def Best (g : Graph) (done : List (Option (Dict Int Int))) : Option (Nat × List Int) → Prop
  | none => ∀ r, r ∈ done → r = none
  | some (k, sol) => Proper g sol ∧ sol.length = g.names.length ∧ (distinct sol).length = k ∧
      (∃ colors, some colors ∈ done ∧ (distinct (colors.map Prod.snd)).length = k) ∧
      ∀ colors, some colors ∈ done → k ≤ (distinct (colors.map Prod.snd)).length

theorem best_step {g : Graph} (hw : ∀ a b, (a, b) ∈ g.edges → a ∈ g.nodes ∧ b ∈ g.nodes)
    {done : List (Option (Dict Int Int))} {best : Option (Nat × List Int)} (hb : Best g done best)
    (r : Option (Dict Int Int)) (hr : ∀ colors, r = some colors → NxProper g colors) :
    Best g (done ++ [r]) (tryStrategy best r) := by
  cases r with
  | none =>
    cases best with
    | none =>
      intro r hr
      rcases List.mem_append.1 hr with h | h
      · exact hb r h
      · simpa using h
    | some p => simpa [tryStrategy, Best] using hb
  | some colors =>
    obtain ⟨sol, h1, h2, h3, h4⟩ := nx_read hw (hr colors rfl)
    cases best with
    | none =>
      simp only [tryStrategy, h1, Best]
      refine ⟨h2, h3, h4, ⟨colors, by simp, rfl⟩, ?_⟩
      intro c hc
      rcases List.mem_append.1 hc with hc | hc
      · exact absurd (hb _ hc) (by simp)
      · simp only [List.mem_singleton, Option.some.injEq] at hc; rw [hc]; exact Nat.le_refl _
    | some p =>
      obtain ⟨k, s⟩ := p
      obtain ⟨b1, b2, b3, ⟨c0, b4, b5⟩, b6⟩ := hb
      simp only [tryStrategy, h1]
      split
      · rename_i hlt
        refine ⟨h2, h3, h4, ⟨colors, by simp, rfl⟩, ?_⟩
        intro c hc
        rcases List.mem_append.1 hc with hc | hc
        · have := b6 c hc; omega
        · simp only [List.mem_singleton, Option.some.injEq] at hc; rw [hc]; exact Nat.le_refl _
      · rename_i hlt
        refine ⟨b1, b2, b3, ⟨c0, by simp [b4], b5⟩, ?_⟩
        intro c hc
        rcases List.mem_append.1 hc with hc | hc
        · exact b6 c hc
        · simp only [List.mem_singleton, Option.some.injEq] at hc; rw [hc]; omega

theorem best_foldl {g : Graph} (hw : ∀ a b, (a, b) ∈ g.edges → a ∈ g.nodes ∧ b ∈ g.nodes)
    (rs : List (Option (Dict Int Int))) : ∀ done best, Best g done best →
    (∀ colors, some colors ∈ rs → NxProper g colors) →
    Best g (done ++ rs) (rs.foldl tryStrategy best) := by
  induction rs with
  | nil => intro done best h _; simpa using h
  | cons r rs ih =>
    intro done best h hr
    have := ih (done ++ [r]) (tryStrategy best r)
      (best_step hw h r (fun c hc => hr c (by simp [hc]))) (fun c hc => hr c (List.mem_cons_of_mem _ hc))
    simpa using this

/-- C55: if every colouring `networkx` returns is proper and at least one strategy answers, the
greedy solver's answer is accepted, uses the colours `0..k-1`, and `k` is the least number of colours
among the answers. -/
theorem C55_greedy {g : Graph} (hw : ∀ a b, (a, b) ∈ g.edges → a ∈ g.nodes ∧ b ∈ g.nodes)
    {results : List (Option (Dict Int Int))} (hr : ∀ colors, some colors ∈ results → NxProper g colors)
    (hne : ∃ colors, some colors ∈ results) :
    ∃ out k, greedy results = .ok out ∧ satisfy g (out.map Int.ofNat) = .ok true ∧
      out.length = g.names.length ∧ (∀ v, v ∈ out ↔ v < k) ∧
      (∃ colors, some colors ∈ results ∧ (distinct (colors.map Prod.snd)).length = k) ∧
      ∀ colors, some colors ∈ results → k ≤ (distinct (colors.map Prod.snd)).length := by
  have hb := best_foldl hw results [] none (by simp [Best]) hr
  simp only [List.nil_append] at hb
  rcases hf : results.foldl tryStrategy none with _ | ⟨k, sol⟩
  · rw [hf] at hb
    obtain ⟨c, hc⟩ := hne
    exact absurd (hb _ hc) (by simp)
  · rw [hf] at hb
    obtain ⟨b1, b2, b3, b4, b5⟩ := hb
    obtain ⟨out, h1, h2, h3, ⟨k', h4, h5⟩, h6⟩ := renumber_spec sol
    obtain ⟨out', h1', h7⟩ := C32_renumber_accepts g sol
    rw [h1] at h1'; cases h1'
    refine ⟨out, k, by simp [greedy, hf, h1], h7.2 ((C32_accepts_iff g sol).2 b1), by omega, ?_, b4, b5⟩
    rw [← b3, ← h5]; exact h4

/-- C55: without any answer the solver raises `TypeError`. -/
theorem C55_no_answer (results : List (Option (Dict Int Int))) (h : ∀ r, r ∈ results → r = none) :
    greedy results = .error .typeError := by
  have : results.foldl tryStrategy none = none := by
    induction results with
    | nil => rfl
    | cons r rs ih =>
      rw [h r (by simp)]
      exact ih (fun r hr => h r (List.mem_cons_of_mem _ hr))
  simp [greedy, this]

def path3 : Graph := { nodes := [3, 1, 2], edges := [(1, 2), (2, 3)] }

example : NxProper path3 [(3, 4), (2, 0), (1, 4)] := by
  refine ⟨by decide, ?_, ?_⟩
  · simp [path3, Dict.keys]; omega
  · intro a b c d h
    simp only [path3, List.mem_cons, List.not_mem_nil, or_false, Prod.mk.injEq] at h
    rcases h with ⟨rfl, rfl⟩ | ⟨rfl, rfl⟩ <;> simp [Dict.get?] <;> omega

example : greedy [some [(1, 0), (2, 1), (3, 2)], none, some [(3, 4), (2, 0), (1, 4)], some [(1, 1), (2, 2), (3, 1)]]
    = .ok [0, 1, 0] := by decide +kernel

end Verif.Coloring
