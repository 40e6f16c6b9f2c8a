import Verif.Lemmas.CpKnapsack

/-!
C183: the constraint programs of knapsacks and their large neighbourhood search.
-/
namespace Verif.CpKnapsack
open Knapsack

/-- A packing that is within the capacity. -/
def Fits (items : List Item) (cap : Int) (t : List Int) : Prop := IsPacking items t ∧ packSum Item.weight items t ≤ cap

/-- C183 (partial: items numbered by position): every solution of the list program is retrieved as a fitting packing with
its own value and weight, the value being that of the program; every fitting packing is retrieved from exactly one solution. -/
theorem C183_list_partial {items : List Item} (hn : Numbered items) {cap : Int} :
    (∀ l v, Listed items cap l v → ∃ t, Fits items cap t ∧
      retrieveList items l = .ok ⟨t, some (packSum Item.value items t), some (packSum Item.weight items t)⟩ ∧
      v = packSum Item.value items t) ∧
    ∀ t, Fits items cap t → ∃ l, Listed items cap l (packSum Item.value items t) ∧ (retrieveList items l).map Sol.taken = .ok t ∧
      ∀ l' v', Listed items cap l' v' → (retrieveList items l').map Sol.taken = .ok t → l' = l := by
  have hret : ∀ l, (∀ x ∈ l, x ≤ items.length) → l.Pairwise (fun x y => x = y → x = 0) → retrieveList items l =
      .ok ⟨mark (List.replicate items.length 0) (chosen items l),
        some (packSum Item.value items (mark (List.replicate items.length 0) (chosen items l))),
        some (packSum Item.weight items (mark (List.replicate items.length 0) (chosen items l)))⟩ := by
    intro l hd hdiff
    unfold retrieveList
    rw [readItems_spec hn l _ _ _ hd (by simp), bind_ok]
    simp only [Int.zero_add]
    rw [← packSum_chosen hn hdiff hd, ← packSum_chosen hn hdiff hd]
  constructor
  · intro l v h
    refine ⟨_, ⟨packing_of_list hn l, ?_⟩, hret l h.dom h.different, ?_⟩
    · rw [packSum_chosen hn h.different h.dom, ← sum_at0 _ _ _ h.dom]; exact h.fits
    · rw [packSum_chosen hn h.different h.dom, ← sum_at0 _ _ _ h.dom]; exact h.value_eq.symm
  · rintro t ⟨hp, hw⟩
    have hmem : ∀ l, (∀ x ∈ l, x ≤ items.length) → mark (List.replicate items.length 0) (chosen items l) = t →
        ∀ x, x ≠ 0 → (x ∈ l ↔ t[x - 1]? = some 1) := by
      intro l hd he x hx
      rw [← he]
      by_cases hxl : x - 1 < items.length
      · rw [mark_chosen hn hxl, Nat.sub_add_cancel (by omega)]
        split <;> simp_all
      · constructor
        · intro hm; have := hd x hm; omega
        · intro h
          have := (List.getElem?_eq_some_iff.1 h).1
          rw [mark_length, List.length_replicate] at this
          omega
    obtain ⟨b, hb⟩ : ∃ b, b = ((List.range items.length).filter (fun p => decide (t[p]? = some 1))).reverse.map (· + 1) := ⟨_, rfl⟩
    obtain ⟨l, hl⟩ : ∃ l, l = b ++ List.replicate (items.length + 1 - b.length) 0 := ⟨_, rfl⟩
    have hbl : b.length ≤ items.length := by
      rw [hb, List.length_map, List.length_reverse]
      exact le_trans (List.length_filter_le _ _) (by simp)
    have hbm : ∀ x, x ∈ b ↔ x ≠ 0 ∧ t[x - 1]? = some 1 := by
      intro x
      rw [hb, List.mem_map]
      constructor
      · rintro ⟨p, hp, rfl⟩
        rw [List.mem_reverse, List.mem_filter, decide_eq_true_eq] at hp
        exact ⟨by omega, by simpa using hp.2⟩
      · rintro ⟨h0, h1⟩
        refine ⟨x - 1, ?_, by omega⟩
        have := (List.getElem?_eq_some_iff.1 h1).1
        rw [List.mem_reverse, List.mem_filter, decide_eq_true_eq, List.mem_range]
        exact ⟨by rw [← hp.1]; exact this, h1⟩
    have hbs : b.Pairwise (fun x y => y < x) := by
      rw [hb, List.pairwise_map, List.pairwise_reverse]
      refine List.Pairwise.imp (fun h => by omega) (List.Pairwise.filter _ List.pairwise_lt_range)
    have hd : ∀ x ∈ l, x ≤ items.length := by
      intro x hx
      rw [hl, List.mem_append] at hx
      rcases hx with hx | hx
      · obtain ⟨h0, h1⟩ := (hbm x).1 hx
        have := (List.getElem?_eq_some_iff.1 h1).1
        rw [hp.1] at this; omega
      · rw [(List.mem_replicate.1 hx).2]; omega
    have hdec : l.Pairwise (fun x y => y ≤ x) := by
      rw [hl, List.pairwise_append]
      refine ⟨List.Pairwise.imp (fun h => by omega) hbs, List.pairwise_replicate.2 (.inr (le_refl _)), ?_⟩
      intro x _ y hy
      rw [(List.mem_replicate.1 hy).2]; omega
    have hdiff : l.Pairwise (fun x y => x = y → x = 0) := by
      rw [hl, List.pairwise_append]
      refine ⟨List.Pairwise.imp (fun h => by omega) hbs, List.pairwise_replicate.2 (.inr (fun _ => rfl)), ?_⟩
      intro x _ y hy e
      rw [e, (List.mem_replicate.1 hy).2]
    have hmark : mark (List.replicate items.length 0) (chosen items l) = t := by
      refine List.ext_getElem? (fun p => ?_)
      by_cases h : p < items.length
      · rw [mark_chosen hn h]
        have hpl : p < t.length := by rw [hp.1]; exact h
        have h01 := hp.2 _ (List.getElem_mem hpl)
        have hiff : p + 1 ∈ l ↔ t[p]? = some 1 := by
          rw [hl, List.mem_append, hbm]
          simp
        rw [List.getElem?_eq_getElem hpl] at hiff ⊢
        congr 1
        rw [Option.some.injEq] at hiff
        split
        · rename_i hm; exact (hiff.1 hm).symm
        · rename_i hm
          have : t[p] ≠ 1 := fun e => hm (hiff.2 e)
          omega
      · rw [List.getElem?_eq_none (by rw [mark_length]; simp; omega), List.getElem?_eq_none (by rw [hp.1]; omega)]
    have hls : Listed items cap l (packSum Item.value items t) := by
      refine ⟨?_, hd, hdec, hdiff, ?_, ?_⟩
      · rw [hl, List.length_append, List.length_replicate]; omega
      · rw [sum_at0 _ _ _ hd, ← packSum_chosen hn hdiff hd, hmark]
      · rw [sum_at0 _ _ _ hd, ← packSum_chosen hn hdiff hd, hmark]; exact hw
    refine ⟨l, hls, ?_, ?_⟩
    · rw [hret l hd hdiff, hmark]; rfl
    · intro l' v' h' hr
      rw [hret l' h'.dom h'.different] at hr
      have he : mark (List.replicate items.length 0) (chosen items l') = t := Except.ok.inj hr
      refine decreasing_unique (by rw [h'.len, hls.len]) h'.decreasing hdec h'.different hdiff ?_
      intro x hx
      rw [hmem l' h'.dom he x hx, hmem l hd hmark x hx]

theorem packSum_zip (f : Item → Int) (items : List Item) (ts : List Int) :
    (List.zipWith (fun it x => f it * x) items ts).sum = packSum f items ts := by
  unfold packSum
  rw [List.zipWith_comm]
  congr 1
  congr 1
  funext x it
  exact Int.mul_comm _ _

theorem globals_iff {items : List Item} {cap : Int} {ts : List Int} {w v : Int} : Globals items cap ts w v ↔
    Fits items cap ts ∧ w = packSum Item.weight items ts ∧ v = packSum Item.value items ts := by
  constructor
  · intro h
    have hw := h.weight_eq
    have hv := h.value_eq
    rw [packSum_zip] at hw hv
    refine ⟨⟨⟨h.len, h.dom⟩, ?_⟩, hw, hv⟩
    have := h.fits
    omega
  · rintro ⟨⟨⟨h1, h2⟩, h3⟩, rfl, rfl⟩
    exact ⟨h1, h2, h3, (packSum_zip _ _ _).symm, (packSum_zip _ _ _).symm⟩

/-- C183 (partial: items numbered by position): the solutions of the program with the global constraint are exactly the
fitting packings with their weights and values, and are retrieved as these. -/
theorem C183_global_partial {items : List Item} (hn : Numbered items) {cap : Int} (ts : List Int) (w v : Int) :
    (Globals items cap ts w v ↔ Fits items cap ts ∧ w = packSum Item.weight items ts ∧ v = packSum Item.value items ts) ∧
    (Globals items cap ts w v → retrieveTaken items ts = .ok ⟨ts, some v, some w⟩) := by
  refine ⟨globals_iff, ?_⟩
  intro h
  obtain ⟨h1, rfl, rfl⟩ := globals_iff.1 h
  exact retrieveTaken_spec hn h1.1

/-- C183 (partial: items numbered by position): both programs have the same greatest value. -/
theorem C183_same_partial {items : List Item} (hn : Numbered items) {cap : Int} (best : Int) :
    ((∃ l, Listed items cap l best) ∧ ∀ l v, Listed items cap l v → v ≤ best) ↔
    ((∃ ts w, Globals items cap ts w best) ∧ ∀ ts w v, Globals items cap ts w v → v ≤ best) := by
  obtain ⟨h1, h2⟩ := C183_list_partial hn (cap := cap)
  constructor
  · rintro ⟨⟨l, hl⟩, hb⟩
    obtain ⟨t, ht, -, e⟩ := h1 l _ hl
    refine ⟨⟨t, _, globals_iff.2 ⟨ht, rfl, e⟩⟩, ?_⟩
    intro ts w v hg
    obtain ⟨g1, -, rfl⟩ := globals_iff.1 hg
    obtain ⟨l', hl', -⟩ := h2 ts g1
    exact hb l' _ hl'
  · rintro ⟨⟨ts, w, hg⟩, hb⟩
    obtain ⟨g1, -, rfl⟩ := globals_iff.1 hg
    obtain ⟨l, hl, -⟩ := h2 ts g1
    refine ⟨⟨l, hl⟩, ?_⟩
    intro l' v hl'
    obtain ⟨t, ht, -, rfl⟩ := h1 l' v hl'
    exact hb t _ _ (globals_iff.2 ⟨ht, rfl, rfl⟩)

/-- Answers of the solver to the programs of the iterations: each solves the program, whatever is fixed, from the state
it is asked in. -/
inductive Answers (items : List Item) (cap : Int) : State → List (Option (List Int × Int)) → Prop
  | nil (st) : Answers items cap st []
  | failed (st rest) : Answers items cap st rest → Answers items cap st (none :: rest)
  | solved (st st' rest fixed ts w v) : Child items cap st.current fixed ts w v → lnsStep items st (some (ts, v)) = .ok st' →
      Answers items cap st' rest → Answers items cap st (some (ts, v) :: rest)

/-- The state holds a fitting packing and its value. -/
structure Good (items : List Item) (cap : Int) (st : State) : Prop where
  fits : Fits items cap st.solution.taken
  current : st.current = st.solution.taken
  objective : st.objective = some (packSum Item.value items st.solution.taken)
  value : st.solution.value = st.objective

theorem lnsStep_good {items : List Item} (hn : Numbered items) {cap : Int} {st : State} (hg : Good items cap st) {ts : List Int} {w v : Int}
    (h : Globals items cap ts w v) : ∃ st', lnsStep items st (some (ts, v)) = .ok st' ∧ Good items cap st' ∧
      st'.objective = some (max v (packSum Item.value items st.solution.taken)) := by
  obtain ⟨h1, rfl, rfl⟩ := globals_iff.1 h
  simp only [lnsStep]
  rw [retrieveTaken_spec hn h1.1, bind_ok, hg.objective]
  simp only
  rw [inOrder_spec hn h1.1.1, bind_ok]
  by_cases hgt : packSum Item.value items ts > packSum Item.value items st.solution.taken
  · rw [if_pos hgt]
    exact ⟨_, rfl, ⟨h1, rfl, rfl, rfl⟩, by rw [max_eq_left (by omega)]⟩
  · rw [if_neg hgt]
    exact ⟨_, rfl, hg, by rw [hg.objective, max_eq_right (by omega)]⟩

/-- C183 (partial: items numbered by position): the large neighbourhood search never fails from a fitting packing with its
value, returns a fitting packing with its value, at least as valuable as the first and as every answer of the solver;
and every choice of fixed items leaves the packing it holds a solution of the restricted program. -/
theorem C183_lns_partial {items : List Item} (hn : Numbered items) {cap : Int} {init : Sol} (hi : Fits items cap init.taken)
    (hv : init.value = some (packSum Item.value items init.taken)) {answers : List (Option (List Int × Int))} {st : State}
    (h0 : lnsInit items init = .ok st) (ha : Answers items cap st answers) :
    ∃ out, lns items init answers = .ok out ∧ Fits items cap out.solution.taken ∧
      out.solution.value = some (packSum Item.value items out.solution.taken) ∧
      packSum Item.value items init.taken ≤ packSum Item.value items out.solution.taken ∧
      (∀ ts v, some (ts, v) ∈ answers → v ≤ packSum Item.value items out.solution.taken) ∧
      ∀ fixed, ∃ w v, Child items cap out.current fixed out.current w v := by
  have hgen : ∀ st answers, Answers items cap st answers → Good items cap st → ∃ out, answers.foldlM (lnsStep items) st = .ok out ∧
      Good items cap out ∧ packSum Item.value items st.solution.taken ≤ packSum Item.value items out.solution.taken ∧
      ∀ ts v, some (ts, v) ∈ answers → v ≤ packSum Item.value items out.solution.taken := by
    intro st answers ha
    induction ha with
    | nil st => intro hg; exact ⟨st, rfl, hg, le_refl _, by simp⟩
    | failed st rest _ ih =>
      intro hg
      obtain ⟨out, e, g, le, al⟩ := ih hg
      refine ⟨out, by rw [List.foldlM_cons]; exact e, g, le, ?_⟩
      intro ts v hm
      exact al ts v (by simpa using hm)
    | solved st st' rest fixed ts w v hc hs _ ih =>
      intro hg
      obtain ⟨st'', e1, g1, ob⟩ := lnsStep_good hn hg hc.1
      rw [hs] at e1
      obtain rfl := Except.ok.inj e1
      obtain ⟨out, e, g, le, al⟩ := ih g1
      have : packSum Item.value items st'.solution.taken = max v (packSum Item.value items st.solution.taken) := by
        have := g1.objective
        rw [ob] at this
        exact (Option.some.inj this).symm
      refine ⟨out, by rw [List.foldlM_cons, hs]; exact e, g, by omega, ?_⟩
      intro ts' v' hm
      rw [List.mem_cons] at hm
      rcases hm with hm | hm
      · obtain ⟨rfl, rfl⟩ := Prod.mk.inj (Option.some.inj hm)
        omega
      · exact al ts' v' hm
  have hst : st = ⟨init.taken, init.value, init⟩ := by
    unfold lnsInit at h0
    rw [inOrder_spec hn hi.1.1, bind_ok] at h0
    exact (Except.ok.inj h0).symm
  obtain ⟨out, e, g, le, al⟩ := hgen st answers ha (by rw [hst]; exact ⟨hi, rfl, hv, rfl⟩)
  rw [hst] at le
  refine ⟨out, by unfold lns; rw [h0, bind_ok]; exact e, g.fits, by rw [g.value, g.objective], le, al, ?_⟩
  intro fixed
  refine ⟨_, _, globals_iff.2 ⟨?_, rfl, rfl⟩, fun _ _ => rfl⟩
  rw [g.current]; exact g.fits

/-- C183 refuted for items listed in another order than their indices: `list_taken` is written by index and read by
position, so the best solution of either program is retrieved as a vector whose weight, by the problem's own count,
exceeds the capacity; an index past the end raises `IndexError`. -/
theorem C183_order_refuted :
    (Listed [⟨1, 5, 1⟩, ⟨0, 1, 3⟩] 2 [1, 0, 0] 5 ∧ Globals [⟨1, 5, 1⟩, ⟨0, 1, 3⟩] 2 [1, 0] 1 5) ∧
    retrieveList [⟨1, 5, 1⟩, ⟨0, 1, 3⟩] [1, 0, 0] = .ok ⟨[0, 1], some 5, some 1⟩ ∧
    retrieveTaken [⟨1, 5, 1⟩, ⟨0, 1, 3⟩] [1, 0] = .ok ⟨[0, 1], some 5, some 1⟩ ∧
    (evaluate [⟨1, 5, 1⟩, ⟨0, 1, 3⟩] 2 true ⟨[0, 1], some 5, some 1⟩).map (·.2) = .ok (1, 1) ∧
    retrieveList [⟨1, 5, 1⟩, ⟨2, 1, 1⟩] [2, 0, 0] = .error .indexError ∧
    retrieveTaken [⟨1, 5, 1⟩, ⟨2, 1, 1⟩] [0, 1] = .error .indexError :=
  ⟨⟨⟨rfl, by decide, by decide, by decide, by decide, by decide⟩, ⟨rfl, by decide, by decide, by decide, by decide⟩⟩,
    by decide +kernel, by decide +kernel, by decide +kernel, by decide +kernel, by decide +kernel⟩

/-- C183: a first solution without value makes the search raise `TypeError` at the first answer. -/
theorem C183_lns_error {items : List Item} (hn : Numbered items) {cap : Int} {init : Sol} (hi : IsPacking items init.taken)
    (hv : init.value = none) {ts : List Int} {w v : Int} (h : Globals items cap ts w v) (rest : List (Option (List Int × Int))) :
    lns items init (some (ts, v) :: rest) = .error .typeError := by
  obtain ⟨h1, -, -⟩ := globals_iff.1 h
  unfold lns lnsInit
  rw [inOrder_spec hn hi.1, bind_ok, bind_ok, List.foldlM_cons]
  have e : lnsStep items ⟨init.taken, init.value, init⟩ (some (ts, v)) = .error .typeError := by
    simp only [lnsStep]
    rw [retrieveTaken_spec hn h1.1, bind_ok, hv]
  rw [e]; rfl

/-- Three items numbered by position. -/
def three : List Item := [⟨0, 4, 3⟩, ⟨1, 3, 2⟩, ⟨2, 2, 2⟩]

theorem three_numbered : Numbered three := by
  intro i hi
  have : ∀ i ∈ [0, 1, 2], (three[i]?.map Item.index) = some i := by decide
  have hi' : i < 3 := hi
  have := this i (by simp; omega)
  rw [List.getElem?_eq_getElem hi] at this
  exact Option.some.inj this

example : Listed three 4 [3, 2, 0, 0] 5 ∧ ∃ l, Listed three 4 l (packSum Item.value three [0, 1, 1]) :=
  ⟨⟨rfl, by decide, by decide, by decide, by decide, by decide⟩,
    let ⟨l, h, _⟩ := (C183_list_partial three_numbered).2 [0, 1, 1] ⟨⟨rfl, by decide⟩, by decide⟩
    ⟨l, h⟩⟩

example : Globals three 5 [1, 1, 0] 5 7 ∧ retrieveTaken three [1, 1, 0] = .ok ⟨[1, 1, 0], some 7, some 5⟩ :=
  have h : Globals three 5 [1, 1, 0] 5 7 := ⟨rfl, by decide, by decide, by decide, by decide⟩
  ⟨h, (C183_global_partial three_numbered _ _ _).2 h⟩

example : (∃ l, Listed three 4 l 5) ∧ ∀ l v, Listed three 4 l v → v ≤ 5 := by
  refine (C183_same_partial three_numbered 5).2 ⟨⟨[0, 1, 1], 4, ⟨rfl, by decide, by decide, by decide, by decide⟩⟩, ?_⟩
  intro ts w v h
  obtain ⟨⟨⟨hl, h01⟩, hw⟩, -, rfl⟩ := globals_iff.1 h
  match ts, hl, h01, hw with
  | [x, y, z], _, h01, hw =>
    simp only [packSum, three, List.zipWith_cons_cons, List.zipWith_nil_left, List.sum_cons, List.sum_nil] at hw ⊢
    have hx := h01 x (by simp)
    have hy := h01 y (by simp)
    have hz := h01 z (by simp)
    rcases hx with rfl | rfl <;> rcases hy with rfl | rfl <;> rcases hz with rfl | rfl <;> omega

example : ∃ out, lns three ⟨[1, 0, 0], some 4, some 3⟩ [none, some ([0, 1, 1], 5), some ([0, 1, 0], 3)] = .ok out ∧ Fits three 4 out.solution.taken := by
  obtain ⟨out, h1, h2, -⟩ := C183_lns_partial (cap := 4) (init := ⟨[1, 0, 0], some 4, some 3⟩) (answers := [none, some ([0, 1, 1], 5), some ([0, 1, 0], 3)])
    (st := ⟨[1, 0, 0], some 4, ⟨[1, 0, 0], some 4, some 3⟩⟩) three_numbered ⟨⟨rfl, by decide⟩, by decide⟩ (by decide) (by decide +kernel)
    (.failed _ _ (.solved _ ⟨[0, 1, 1], some 5, ⟨[0, 1, 1], some 5, some 4⟩⟩ _ [] _ 4 _ ⟨⟨rfl, by decide, by decide, by decide, by decide⟩, by decide⟩ (by decide +kernel)
      (.solved _ ⟨[0, 1, 1], some 5, ⟨[0, 1, 1], some 5, some 4⟩⟩ _ [1] _ 2 _ ⟨⟨rfl, by decide, by decide, by decide, by decide⟩, by decide⟩ (by decide +kernel) (.nil _))))
  exact ⟨out, h1, h2⟩

example : lns three ⟨[1, 0, 0], none, none⟩ [some ([0, 1, 1], 5)] = .error .typeError :=
  C183_lns_error (cap := 4) (w := 4) three_numbered ⟨rfl, by decide⟩ rfl ⟨rfl, by decide, by decide, by decide, by decide⟩ []

end Verif.CpKnapsack
