import Verif.Lemmas.Comparator
import Verif.Props.Results
/- C192: comparison of result stores. -/
namespace Verif.Comparator
open Results
variable {σ τ : Type}

/-- Stores whose solutions all have `n` objectives. -/
def Sized (n : Nat) (s : Storage σ) : Prop := ∀ p ∈ s.sols, p.2.length = n

/-! ## The best of every store -/

/-- C192: when every store has solutions, every fitness has all objectives and every store has a name, then under the name of a store, unless
a later one has the same name, there is its first solution whose value of the objective is best in the direction of the store. -/
theorem C192_best (c : Comp σ) (o : String) (n : Nat) (ho : o ∈ c.objectives) (hn : c.objectives.length ≤ n)
    (hs : ∀ s ∈ c.stores, s.sols ≠ [] ∧ Sized n s) (hnames : c.stores.length ≤ c.names.length) :
    ∃ (val : Dict String (σ × List Int)) (k : Nat), c.objectives[k]? = some o ∧ (∀ k' : Nat, k' < k → c.objectives[k']? ≠ some o) ∧ getBest c o = .ok val ∧
      (∀ name, name ∉ c.names.take c.stores.length → val.get? name = none) ∧
      ∀ (i : Nat) (s : Storage σ) (name : String), c.stores[i]? = some s → c.names[i]? = some name →
        (∀ i' : Nat, i < i' → i' < c.stores.length → c.names[i']? ≠ some name) →
        ∃ (p : σ × List Int) (x : Int) (j : Nat), val.get? name = some p ∧ s.sols[j]? = some p ∧ p.2[k]? = some x ∧
          ∀ (j' : Nat) (q : σ × List Int), s.sols[j']? = some q → ∃ y, q.2[k]? = some y ∧
            (if s.maximize then y ≤ x else x ≤ y) ∧ (j' < j → y ≠ x) := by
  have hi := indexOf_defined ho
  obtain ⟨h1, h2⟩ := indexOf_ok hi
  have hk : c.objectives.idxOf o < n := Nat.lt_of_lt_of_le (List.idxOf_lt_length_iff.2 ho) hn
  obtain ⟨val, hv⟩ := bestLoop_defined (names := c.names) (k := c.objectives.idxOf o) (l := c.stores) (i := 0) (val := [])
    (fun s hs' => ⟨(hs s hs').1, fun p hp => by rw [(hs s hs').2 p hp]; exact hk⟩) (by omega)
  obtain ⟨h3, h4⟩ := bestLoop_ok hv
  refine ⟨val, _, h1, h2, by simp [getBest, hi, hv], ?_, ?_⟩
  · intro name hno
    rw [h3 name (fun j hj he => hno ?_)]
    · rfl
    · rw [Nat.zero_add] at he
      rw [List.mem_iff_getElem?]
      exact ⟨j, by rw [List.getElem?_take, if_pos hj, he]⟩
  · intro i s name his hin hlast
    obtain ⟨p, hp, hv'⟩ := h4 i s name his (by simpa using hin) (fun j' h h' => by simpa using hlast j' h h')
    obtain ⟨j, x, h5, h6, h7⟩ := bestAt_ok hp
    exact ⟨p, x, j, hv', h5, h6, h7⟩

/-- C192: an objective that is not listed raises; so does any store without solutions, and any store without a name. -/
theorem C192_best_raises (c : Comp σ) (o : String) :
    (o ∉ c.objectives → getBest c o = .error .valueError) ∧
    (∀ val, getBest c o = .ok val → (∀ s ∈ c.stores, s.sols ≠ []) ∧ c.stores.length ≤ c.names.length) := by
  refine ⟨fun h => by simp [getBest, indexOf, h], fun val h => ?_⟩
  simp only [getBest, bind_eq_ok] at h
  obtain ⟨k, _, h⟩ := h
  have key : ∀ (l : List (Storage σ)) (i : Nat) (v r : Dict String (σ × List Int)), bestLoop c.names k l i v = .ok r →
      (∀ s ∈ l, s.sols ≠ []) ∧ (l ≠ [] → i + l.length ≤ c.names.length) := by
    intro l
    induction l with
    | nil => intro _ _ _ _; simp
    | cons s l ih =>
      intro i v r hr
      simp only [bestLoop, bind_eq_ok] at hr
      obtain ⟨p, hp, name, hname, hr⟩ := hr
      obtain ⟨h1, h2⟩ := ih _ _ _ hr
      have hlt := (List.getElem?_eq_some_iff.1 (pyGet_ok_iff.1 hname)).1
      refine ⟨?_, fun _ => ?_⟩
      · intro s' hs'
        rcases List.mem_cons.1 hs' with rfl | hs'
        · obtain ⟨j, x, hj, _⟩ := bestAt_ok hp
          intro he
          rw [he] at hj
          simp at hj
        · exact h1 s' hs'
      · cases l with
        | nil => simp; omega
        | cons a l => have := h2 (by simp); simp at this ⊢; omega
  obtain ⟨h1, h2⟩ := key _ _ _ _ h
  refine ⟨h1, ?_⟩
  by_cases he : c.stores = []
  · simp [he]
  · simpa using h2 he

/-- Two stores, one to maximise and one to minimise. -/
def two : Comp String := ⟨[⟨0, [("a", [1, 5]), ("b", [3, 2]), ("c", [3, 9])], true⟩, ⟨1, [("d", [4, 1]), ("e", [2, 7])], false⟩],
  ["up", "down"], ["time", "cost"], [1, -1]⟩

example : two.stores.length ≤ two.names.length ∧ (∀ s ∈ two.stores, s.sols ≠ [] ∧ ∀ p ∈ s.sols, p.2.length = 2) ∧
    getBest two "time" = .ok [("up", ("b", [3, 2])), ("down", ("e", [2, 7]))] ∧
    getBest two "cost" = .ok [("up", ("c", [3, 9])), ("down", ("d", [4, 1]))] ∧
    getBest two "other" = .error .valueError :=
  ⟨by decide +kernel, by decide +kernel, by decide +kernel, by decide +kernel, by decide +kernel⟩

/-- C192 as one would expect it, that every store gets an entry, is false: of two stores with one name only the last is found. -/
theorem C192_names_refuted : ∃ c : Comp String, c.stores.length = c.names.length ∧ c.stores.length = 2 ∧
    (∀ s ∈ c.stores, s.sols ≠ [] ∧ Sized 1 s) ∧
    getBest c "time" = .ok [("run", ("b", [1]))] :=
  ⟨⟨[⟨0, [("a", [9])], true⟩, ⟨1, [("b", [1])], true⟩], ["run", "run"], ["time"], [1]⟩, rfl, rfl, by unfold Sized; decide +kernel, by decide +kernel⟩

/-- C192 as one would expect it, that the weights tell which values are good, is false: with weight -1 the largest cost is taken. -/
theorem C192_weights_refuted : ∃ c : Comp String, c.objectives = ["cost"] ∧ c.weights = [-1] ∧
    (∃ s ∈ c.stores, ("cheap", [1]) ∈ s.sols) ∧ getBest c "cost" = .ok [("run", ("dear", [9]))] :=
  ⟨⟨[⟨0, [("cheap", [1]), ("dear", [9])], true⟩], ["run"], ["cost"], [-1]⟩, rfl, rfl,
    ⟨⟨0, [("cheap", [1]), ("dear", [9])], true⟩, by simp, by simp⟩, by decide +kernel⟩

/-! ## The front over all stores -/

/-- C192: what `generate_super_pareto` returns is exactly what no solution of any store beats by larger values. -/
theorem C192_front (c : Comp σ) (n : Nat) (hs : ∀ s ∈ c.stores, Sized n s) (p : σ × List Int) :
    p ∈ superPareto c ↔ (∃ s ∈ c.stores, p ∈ s.sols) ∧ ∀ s ∈ c.stores, ∀ q ∈ s.sols, ¬ Dominates q.2 p.2 := by
  have hn : ∀ p ∈ (c.stores.map Storage.sols).flatten, p.2.length = n := by
    intro p hp
    obtain ⟨l, hl, hp⟩ := List.mem_flatten.1 hp
    obtain ⟨s, hs', rfl⟩ := List.mem_map.1 hl
    exact hs s hs' p hp
  unfold superPareto
  rw [(C23_front_exact true n _ hn).1 p]
  simp only [Beats, if_true, List.mem_flatten, List.mem_map]
  constructor
  · rintro ⟨⟨l, ⟨s, hs', rfl⟩, hp⟩, h⟩
    exact ⟨⟨s, hs', hp⟩, fun s' hs'' q hq => h q ⟨_, ⟨s', hs'', rfl⟩, hq⟩⟩
  · rintro ⟨⟨s, hs', hp⟩, h⟩
    refine ⟨⟨_, ⟨s, hs', rfl⟩, hp⟩, ?_⟩
    rintro q ⟨l, ⟨s', hs'', rfl⟩, hq⟩
    exact h s' hs'' q hq

example : superPareto two = [("c", [3, 9]), ("d", [4, 1])] := by decide +kernel

/-- C192 as one would expect it, that the front is that of the stores' own direction, is false: the merged store maximises, so of two stores
to minimise the worst solution is returned and the best left out. -/
theorem C192_front_refuted : ∃ c : Comp String, (∀ s ∈ c.stores, s.maximize = false ∧ Sized 2 s) ∧
    superPareto c = [("bad", [9, 9])] ∧ ∃ s ∈ c.stores, ("good", [1, 1]) ∈ s.sols ∧ Beats false [1, 1] [9, 9] :=
  ⟨⟨[⟨0, [("good", [1, 1])], false⟩, ⟨1, [("bad", [9, 9])], false⟩], ["x", "y"], ["a", "b"], [-1, -1]⟩,
    by unfold Sized; decide +kernel, by decide +kernel, ⟨0, [("good", [1, 1])], false⟩, by simp, by simp, by
      unfold Beats
      exact (C24_comparisons [9, 9] [1, 1] rfl).1.1 (by decide +kernel)⟩

/-! ## Reevaluation -/

/-- C192: the best solution of a store with vectors is one of the store that no other beats. -/
theorem C192_unbeaten (s : Storage σ) (n : Nat) (hs : Sized n s) :
    (s.sols = [] → bestSolution s = none) ∧
    (s.sols ≠ [] → ∃ p ∈ s.sols, bestSolution s = some p.1 ∧ ∀ q ∈ s.sols, ¬ Beats s.maximize q.2 p.2) := by
  refine ⟨fun h => by simp [bestSolution, h], fun h => ?_⟩
  cases hl : s.sols with
  | nil => exact absurd hl h
  | cons b l =>
    have hb : b.2.length = n := hs b (by simp [hl])
    have hl' : ∀ q ∈ l, q.2.length = n := fun q hq => hs q (by simp [hl, hq])
    obtain ⟨h1, _, h3⟩ := fold_best s.maximize n l b hl' hb
    have hlen : ∀ q ∈ b :: l, q.2.length = n := fun q hq => hs q (by rw [hl]; exact hq)
    refine ⟨_, h1, by simp [bestSolution, hl], fun q hq hbeat => ?_⟩
    have := h3 q hq
    have hd := C24_comparisons q.2 _ ((hlen q hq).trans (hlen _ h1).symm)
    unfold worse at this
    unfold Beats at hbeat
    cases hm : s.maximize
    · simp only [hm, Bool.false_eq_true, if_false] at this hbeat hd
      rw [hd.2.1.2 hbeat] at this
      exact absurd this (by simp)
    · simp only [hm, if_true] at this hbeat hd
      rw [hd.1.2 hbeat] at this
      exact absurd this (by simp)

example : bestSolution (⟨0, [("a", [1, 1]), ("b", [0, 5]), ("c", [2, 1])], true⟩ : Storage String) = some "c" ∧
    bestSolution (⟨0, [], true⟩ : Storage String) = none := ⟨by decide +kernel, rfl⟩

/-- C192: for different stores with solutions the table has, for every store and objective, the values of the store's best solution in the
scenarios, in their order. -/
theorem C192_reevaluated (eval : τ → σ → String → Int) (tests : List τ) (objectives : List String) (stores : List (Storage σ))
    (hid : (stores.map Storage.id).Nodup) (hne : ∀ s ∈ stores, s.sols ≠ []) :
    ∃ r, reevaluate eval tests objectives stores stores [] = .ok r ∧ ∀ (i : Nat) (s : Storage σ), stores[i]? = some s →
      ∃ e x, r.get? i = some e ∧ bestSolution s = some x ∧
        ∀ o, e.get? o = if o ∈ objectives then some (tests.map (fun t => eval t x o)) else none := by
  obtain ⟨r, hr⟩ := reevaluate_defined (eval := eval) (tests := tests) (objectives := objectives) (all := stores) (l := stores)
    (d := []) (fun _ h => h) hne
  refine ⟨r, hr, fun i s his => ?_⟩
  have hlt := (List.getElem?_eq_some_iff.1 his).1
  have hpos : (stores.map Storage.id).idxOf s.id = i := by
    have hm : s.id ∈ stores.map Storage.id := List.mem_map.2 ⟨s, List.mem_of_getElem? his, rfl⟩
    obtain ⟨h1, _⟩ := indexOf_ok (indexOf_defined hm)
    refine (List.getElem?_inj (l := stores.map Storage.id) (i := (stores.map Storage.id).idxOf s.id) (j := i)
      (List.idxOf_lt_length_iff.2 hm) hid).1 ?_
    rw [h1, List.getElem?_map, his]
    rfl
  rcases reevaluate_ok hr i with ⟨s', hs', h1, e, he, hg⟩ | ⟨h1, _⟩
  · have hss : s' = s := by
      obtain ⟨j, hj⟩ := List.getElem?_of_mem hs'
      have hm' : s'.id ∈ stores.map Storage.id := List.mem_map.2 ⟨s', hs', rfl⟩
      obtain ⟨h2, _⟩ := indexOf_ok (indexOf_defined hm')
      rw [h1] at h2
      have : i = j := (List.getElem?_inj (l := stores.map Storage.id) (by simpa using hlt) hid).1 (by
        rw [h2, List.getElem?_map, hj]; rfl)
      rw [← this, his] at hj
      exact (Option.some.inj hj).symm
    subst hss
    have hx : ∃ x, bestSolution s' = some x := by
      unfold bestSolution
      cases hs : s'.sols with
      | nil => exact absurd hs (hne s' hs')
      | cons p l => exact ⟨_, rfl⟩
    obtain ⟨x, hx⟩ := hx
    obtain ⟨e', he', hv⟩ := reevaluateOne_ok (eval := eval) (tests := tests) (objectives := objectives) hx
    rw [he] at he'
    have := Except.ok.inj he'
    subst this
    exact ⟨e, x, hg, hx, hv⟩
  · exact absurd hpos (h1 s (List.mem_of_getElem? his))

/-- Scenarios that add a delay to the number of letters. -/
def delayed (t : Int) (x : String) (o : String) : Int := if o = "time" then (x.length : Int) + t else -t

example : (two.stores.map Storage.id).Nodup ∧
    reevaluate delayed [0, 10] ["time", "cost"] two.stores two.stores [] =
      .ok [(0, [("time", [1, 11]), ("cost", [0, -10])]), (1, [("time", [1, 11]), ("cost", [0, -10])])] :=
  ⟨by decide +kernel, by decide +kernel⟩

/-- C192: a store without solutions raises once there is an objective and a scenario. -/
theorem C192_empty (eval : τ → σ → String → Int) (t : τ) (ts : List τ) (o : String) (os : List String) (s : Storage σ)
    (l : List (Storage σ)) (hs : s.sols = []) :
    reevaluate eval (t :: ts) (o :: os) (s :: l) (s :: l) [] = .error .attributeError := by
  simp [reevaluate, reevaluateOne, bestSolution, hs]

/-- C192 as one would expect it, that every place of the list has an entry, is false: a store listed twice is found at its first place only,
and the distribution of the second name cannot be looked up. -/
theorem C192_twice_refuted : ∃ stores : List (Storage String), stores.length = 2 ∧ (∀ s ∈ stores, s.sols ≠ []) ∧
    ∃ r, reevaluate delayed [0] ["time"] stores stores [] = .ok r ∧ r.get? 0 = some [("time", [1])] ∧ r.get? 1 = none :=
  ⟨[⟨0, [("a", [1])], true⟩, ⟨0, [("a", [1])], true⟩], rfl, by decide +kernel, [(0, [("time", [1])])],
    by decide +kernel, by decide +kernel, by decide +kernel⟩

/-! ## Duplicates -/

/-- C192: for attributes of one length, removing duplicates keeps, in order, exactly the first solution of each value. -/
theorem C192_duplicates (var : σ → List Int) (n : Nat) (l : List (σ × List Int)) (h : ∀ p ∈ l, (var p.1).length = n) :
    ∃ r, removeDuplicates var l = .ok r ∧ r.Sublist l ∧ r.Pairwise (fun p q => var p.1 ≠ var q.1) ∧
      (∀ (i : Nat) (p : σ × List Int), l[i]? = some p →
        (∀ (j : Nat) (q : σ × List Int), j < i → l[j]? = some q → var q.1 ≠ var p.1) → p ∈ r) ∧
      ∀ p ∈ l, ∃ q ∈ r, var q.1 = var p.1 := by
  obtain ⟨r, h1, h2, h3, h4⟩ := removeDuplicates_ok var n l h
  refine ⟨r, h1, h2, h3, h4, fun p hp => ?_⟩
  obtain ⟨i, hi⟩ := List.getElem?_of_mem hp
  obtain ⟨j, q, hj, he, hf⟩ := exists_first var l i p hi
  exact ⟨q, h4 j q hj hf, he⟩

example : removeDuplicates (fun x : List Int × String => x.1)
    [((([1, 2], "a"), [5])), (([2, 1], "b"), [6]), (([1, 2], "c"), [7]), (([1, 2], "d"), [5])] =
    .ok [(([1, 2], "a"), [5]), (([2, 1], "b"), [6])] := by decide +kernel

/-- C192 is false for attributes of different lengths: a solution whose attribute only begins like an earlier one is removed; in the other
order the function raises. -/
theorem C192_prefix_refuted :
    removeDuplicates (fun x : List Int => x) [([1, 2], [0]), ([1, 2, 3], [9])] = .ok [([1, 2], [0])] ∧
    removeDuplicates (fun x : List Int => x) [([1, 2, 3], [9]), ([1, 2], [0])] = .error .indexError :=
  ⟨by decide +kernel, by decide +kernel⟩

end Verif.Comparator
