import Verif.Lemmas.TspLp
import Mathlib.Data.List.Nodup
import Mathlib.Data.List.Perm.Subperm
/- Helper lemmas: tours are flows, and every tour crosses the border of every proper set of nodes that holds both ends or
none. -/
namespace Verif.TspLp
open Verif.Milp Verif.Tsp

theorem legs_cons_cons (a b : Nat) (l : List Nat) : legs (a :: b :: l) = (a, b) :: legs (b :: l) := by
  simp [legs, List.dropLast]

theorem legs_nil : legs [] = [] := rfl

theorem legs_single (a : Nat) : legs [a] = [] := rfl

theorem mem_legs {l : List Nat} {u v : Nat} : (u, v) ∈ legs l ↔ ∃ i : Nat, l[i]? = some u ∧ l[i + 1]? = some v := by
  induction l with
  | nil => simp [legs]
  | cons a l ih =>
    cases l with
    | nil => simp [legs]
    | cons b l =>
      rw [legs_cons_cons, List.mem_cons, ih]
      constructor
      · rintro (h | ⟨i, h1, h2⟩)
        · cases h; exact ⟨0, rfl, rfl⟩
        · exact ⟨i + 1, by simpa using h1, by simpa using h2⟩
      · rintro ⟨i, h1, h2⟩
        cases i with
        | zero => left; simp at h1 h2; subst h1; subst h2; rfl
        | succ i => right; exact ⟨i, by simpa using h1, by simpa using h2⟩

theorem walk_eq_legs (d : Nat → Nat → Int) (l : List Nat) : walk d l = (legs l).map (fun e => d e.1 e.2) := by
  induction l with
  | nil => rfl
  | cons a l ih =>
    cases l with
    | nil => rfl
    | cons b l => rw [legs_cons_cons, List.map_cons, ← ih]; rfl

theorem legs_append (a : List Nat) (x : Nat) (b : List Nat) : legs (a ++ x :: b) = legs (a ++ [x]) ++ legs (x :: b) := by
  induction a with
  | nil => simp [legs_single]
  | cons c a ih =>
    cases a with
    | nil => simp [legs_cons_cons, legs_single]
    | cons c' a => simp only [List.cons_append, legs_cons_cons] at *; rw [ih]

/-- The positions of a path that may repeat its first node at the end. -/
theorem legs_out_unique {l : List Nat} (h : l.dropLast.Nodup) {u v v' : Nat} (h1 : (u, v) ∈ legs l) (h2 : (u, v') ∈ legs l) : v = v' := by
  obtain ⟨i, hi, hi'⟩ := mem_legs.1 h1
  obtain ⟨j, hj, hj'⟩ := mem_legs.1 h2
  have li : i + 1 < l.length := (List.getElem?_eq_some_iff.1 hi').1
  have lj : j + 1 < l.length := (List.getElem?_eq_some_iff.1 hj').1
  have ki : l.dropLast[i]? = some u := by rw [List.getElem?_dropLast, if_pos (by omega), hi]
  have kj : l.dropLast[j]? = some u := by rw [List.getElem?_dropLast, if_pos (by omega), hj]
  have : i = j := by
    obtain ⟨a1, a2⟩ := List.getElem?_eq_some_iff.1 ki
    obtain ⟨b1, b2⟩ := List.getElem?_eq_some_iff.1 kj
    exact (List.Nodup.getElem_inj_iff h).1 (a2.trans b2.symm)
  subst this
  rw [hi'] at hj'; exact Option.some.inj hj'

theorem legs_in_unique {l : List Nat} (h : l.tail.Nodup) {u u' v : Nat} (h1 : (u, v) ∈ legs l) (h2 : (u', v) ∈ legs l) : u = u' := by
  obtain ⟨i, hi, hi'⟩ := mem_legs.1 h1
  obtain ⟨j, hj, hj'⟩ := mem_legs.1 h2
  have ki : l.tail[i]? = some v := by rw [List.getElem?_tail, hi']
  have kj : l.tail[j]? = some v := by rw [List.getElem?_tail, hj']
  have : i = j := by
    obtain ⟨a1, a2⟩ := List.getElem?_eq_some_iff.1 ki
    obtain ⟨b1, b2⟩ := List.getElem?_eq_some_iff.1 kj
    exact (List.Nodup.getElem_inj_iff h).1 (a2.trans b2.symm)
  subst this
  rw [hi] at hj; exact Option.some.inj hj

theorem legs_out {l : List Nat} {u : Nat} (h : u ∈ l.dropLast) : ∃ v, (u, v) ∈ legs l := by
  obtain ⟨i, hi⟩ := List.mem_iff_getElem?.1 h
  have li : i < l.dropLast.length := (List.getElem?_eq_some_iff.1 hi).1
  rw [List.length_dropLast] at li
  rw [List.getElem?_dropLast, if_pos (by omega)] at hi
  refine ⟨l[i + 1]'(by omega), mem_legs.2 ⟨i, hi, by simp⟩⟩

theorem legs_in {l : List Nat} {v : Nat} (h : v ∈ l.tail) : ∃ u, (u, v) ∈ legs l := by
  obtain ⟨i, hi⟩ := List.mem_iff_getElem?.1 h
  rw [List.getElem?_tail] at hi
  have li : i + 1 < l.length := (List.getElem?_eq_some_iff.1 hi).1
  refine ⟨l[i]'(by omega), mem_legs.2 ⟨i, by simp, hi⟩⟩

theorem legs_fst {l : List Nat} {u v : Nat} (h : (u, v) ∈ legs l) : u ∈ l.dropLast := (List.of_mem_zip h).1

theorem legs_snd {l : List Nat} {u v : Nat} (h : (u, v) ∈ legs l) : v ∈ l.tail := (List.of_mem_zip h).2

theorem legs_nodup {l : List Nat} (h : l.dropLast.Nodup) : (legs l).Nodup := by
  unfold legs
  have : ((l.dropLast.zip l.tail).map Prod.fst).Nodup := by
    rw [List.map_fst_zip (by simp)]; exact h
  exact List.Nodup.of_map _ this

/-- A path from the start to the end through each node of `q` once. -/
theorem path_parts (s f : Nat) (q : List Nat) : (s :: q ++ [f]).dropLast = s :: q ∧ (s :: q ++ [f]).tail = q ++ [f] := by
  constructor
  · exact List.dropLast_concat
  · rfl

theorem inner_mem (m : Model) (v : Nat) : v ∈ m.inner ↔ v < m.nodeCount ∧ v ≠ m.start ∧ v ≠ m.fin := by
  simp [Model.inner]

/-- The legs of a tour form a flow. -/
theorem tour_flow {m : Model} {edges : List Edge} (hg : Graph m edges) {p : List Nat} (hp : p.Perm m.inner)
    (h2 : m.start ≠ m.fin ∨ 2 ≤ m.inner.length) : Flow m (legs (tour m p)) := by
  have hq : ∀ v, v ∈ p ↔ v < m.nodeCount ∧ v ≠ m.start ∧ v ≠ m.fin := fun v => by rw [hp.mem_iff, inner_mem]
  have hn : p.Nodup := hp.nodup_iff.2 (inner_nodup m)
  obtain ⟨hd, ht⟩ := path_parts m.start m.fin p
  have htour : tour m p = m.start :: p ++ [m.fin] := rfl
  have nd : (tour m p).dropLast.Nodup := by
    rw [htour, hd, List.nodup_cons]; exact ⟨fun h => ((hq _).1 h).2.1 rfl, hn⟩
  have nt : (tour m p).tail.Nodup := by
    rw [htour, ht]
    rw [List.nodup_append]
    refine ⟨hn, by simp, ?_⟩
    intro a ha b hb
    simp only [List.mem_singleton] at hb; subst hb
    exact ((hq _).1 ha).2.2
  have memd : ∀ v, v ∈ (tour m p).dropLast ↔ v = m.start ∨ v ∈ p := by intro v; rw [htour, hd, List.mem_cons]
  have memt : ∀ v, v ∈ (tour m p).tail ↔ v ∈ p ∨ v = m.fin := by intro v; rw [htour, ht]; simp
  refine ⟨?_, ?_, fun v w w' => legs_out_unique nd, ?_, ?_, fun v w w' => legs_in_unique nt, ?_, ?_⟩
  · intro a b h
    refine ⟨?_, ?_⟩
    · rcases (memd a).1 (legs_fst h) with rfl | h
      · exact hg.start_lt
      · exact ((hq _).1 h).1
    · rcases (memt b).1 (legs_snd h) with h | rfl
      · exact ((hq _).1 h).1
      · exact hg.fin_lt
  · intro v hv hc
    apply legs_out
    rw [memd]
    by_cases h : v = m.start
    · exact .inl h
    · right
      rw [hq]
      refine ⟨hv, h, ?_⟩
      rcases hc with hc | hc
      · exact hc
      · rw [← hc]; exact h
  · intro hne w h
    rcases (memd _).1 (legs_fst h) with h | h
    · exact hne h.symm
    · exact ((hq _).1 h).2.2 rfl
  · intro v hv hc
    apply legs_in
    rw [memt]
    by_cases h : v = m.fin
    · exact .inr h
    · left
      rw [hq]
      refine ⟨hv, ?_, h⟩
      rcases hc with hc | hc
      · exact hc
      · rw [hc]; exact h
  · intro hne w h
    rcases (memt _).1 (legs_snd h) with h | h
    · exact ((hq _).1 h).2.1 rfl
    · exact hne h
  · intro a b hab hba
    obtain ⟨i, hi, hi'⟩ := mem_legs.1 hab
    obtain ⟨j, hj, hj'⟩ := mem_legs.1 hba
    have len : (tour m p).length = p.length + 2 := by simp [htour]
    have li := (List.getElem?_eq_some_iff.1 hi').1
    have lj := (List.getElem?_eq_some_iff.1 hj').1
    rw [len] at li lj
    have dinj : ∀ x y v, x + 1 < p.length + 2 → y + 1 < p.length + 2 → (tour m p)[x]? = some v → (tour m p)[y]? = some v → x = y := by
      intro x y v hx hy h1 h2
      have ki : (tour m p).dropLast[x]? = some v := by rw [List.getElem?_dropLast, if_pos (by omega), h1]
      have kj : (tour m p).dropLast[y]? = some v := by rw [List.getElem?_dropLast, if_pos (by omega), h2]
      obtain ⟨a1, a2⟩ := List.getElem?_eq_some_iff.1 ki
      obtain ⟨b1, b2⟩ := List.getElem?_eq_some_iff.1 kj
      exact (List.Nodup.getElem_inj_iff nd).1 (a2.trans b2.symm)
    have tinj : ∀ x y v, (tour m p)[x + 1]? = some v → (tour m p)[y + 1]? = some v → x = y := by
      intro x y v h1 h2
      have ki : (tour m p).tail[x]? = some v := by rw [List.getElem?_tail, h1]
      have kj : (tour m p).tail[y]? = some v := by rw [List.getElem?_tail, h2]
      obtain ⟨a1, a2⟩ := List.getElem?_eq_some_iff.1 ki
      obtain ⟨b1, b2⟩ := List.getElem?_eq_some_iff.1 kj
      exact (List.Nodup.getElem_inj_iff nt).1 (a2.trans b2.symm)
    have key : p.length = 1 ∧ m.start = m.fin := by
      have h0 : (tour m p)[0]? = some m.start := rfl
      have hl : (tour m p)[p.length + 1]? = some m.fin := by
        rw [htour, List.getElem?_append_right (by simp)]; simp
      by_cases c1 : i + 1 < p.length + 1
      · have e1 : i + 1 = j := dinj _ _ b (by omega) (by omega) hi' hj
        subst e1
        by_cases c2 : i = 0
        · subst c2
          by_cases c3 : p.length = 1
          · refine ⟨c3, ?_⟩
            rw [c3] at hl
            rw [h0] at hi; rw [hl] at hj'
            exact (Option.some.inj hi).trans (Option.some.inj hj').symm
          · have := dinj 0 2 a (by omega) (by omega) hi hj'
            omega
        · obtain ⟨i', rfl⟩ : ∃ i', i = i' + 1 := ⟨i - 1, by omega⟩
          have := tinj i' (i' + 2) a hi hj'
          omega
      · have e1 : i = p.length := by omega
        subst e1
        rw [hl] at hi'
        have hb : b = m.fin := (Option.some.inj hi').symm
        have hbd : b ∈ (tour m p).dropLast := by
          apply List.mem_iff_getElem?.2
          exact ⟨j, by rw [List.getElem?_dropLast, if_pos (by omega), hj]⟩
        rw [memd] at hbd
        rcases hbd with hbd | hbd
        · have hst : m.start = m.fin := hbd.symm.trans hb
          refine ⟨?_, hst⟩
          have : j = 0 := dinj j 0 b (by omega) (by omega) hj (by rw [h0, hbd])
          subst this
          by_cases c3 : p.length = 0
          · have hpe : p = [] := List.eq_nil_of_length_eq_zero c3
            subst hpe
            rcases h2 with h2 | h2
            · exact absurd hst h2
            · have := hp.length_eq; simp at this; omega
          · obtain ⟨i', hi''⟩ : ∃ i', p.length = i' + 1 := ⟨p.length - 1, by omega⟩
            rw [hi''] at hi
            have := tinj i' 0 a hi hj'
            omega
        · exact absurd hb ((hq _).1 hbd).2.2
    rcases h2 with h2 | h2
    · exact h2 key.2
    · have := hp.length_eq; omega

/-- A list that starts inside a set and later is outside has a leg that leaves the set. -/
theorem leg_leaves (P : Nat → Prop) {l : List Nat} {i j : Nat} {u v : Nat} (hij : i ≤ j) (hi : l[i]? = some u) (hj : l[j]? = some v)
    (hu : P u) (hv : ¬ P v) : ∃ x y, (x, y) ∈ legs l ∧ P x ∧ ¬ P y := by
  obtain ⟨d, rfl⟩ : ∃ d, j = i + d := ⟨j - i, by omega⟩
  induction d generalizing v with
  | zero => rw [Nat.add_zero, hi] at hj; cases hj; exact absurd hu hv
  | succ d ih =>
    have hlt := (List.getElem?_eq_some_iff.1 hj).1
    have hw : l[i + d]? = some (l[i + d]'(by omega)) := by simp
    by_cases hP : P (l[i + d]'(by omega))
    · exact ⟨_, v, mem_legs.2 ⟨i + d, hw, hj⟩, hP, hv⟩
    · exact ih hP (by omega) hw

/-- Every tour leaves and enters every proper set of nodes that holds both ends or none. -/
theorem tour_crosses {m : Model} {p : List Nat} (hp : p.Perm m.inner) (s : List Nat) (hs : m.start ∈ s ↔ m.fin ∈ s)
    (hin : ∃ v, v < m.nodeCount ∧ v ∈ s) (hout : ∃ v, v < m.nodeCount ∧ v ∉ s) :
    (∃ x y, (x, y) ∈ legs (tour m p) ∧ x ∈ s ∧ y ∉ s) ∧ ∃ x y, (x, y) ∈ legs (tour m p) ∧ x ∉ s ∧ y ∈ s := by
  have h0 : (tour m p)[0]? = some m.start := rfl
  have hl : (tour m p)[p.length + 1]? = some m.fin := by
    show (m.start :: p ++ [m.fin])[p.length + 1]? = _
    rw [List.getElem?_append_right (by simp)]; simp
  have hmem : ∀ v, v < m.nodeCount → ∃ i, i ≤ p.length + 1 ∧ (tour m p)[i]? = some v := by
    intro v hv
    have : v ∈ tour m p := by
      show v ∈ m.start :: p ++ [m.fin]
      simp only [List.cons_append, List.mem_cons, List.mem_append, List.not_mem_nil, or_false]
      by_cases h1 : v = m.start
      · exact .inl h1
      · by_cases h2 : v = m.fin
        · exact .inr (.inr h2)
        · exact .inr (.inl (hp.mem_iff.2 ((inner_mem m v).2 ⟨hv, h1, h2⟩)))
    obtain ⟨i, hi⟩ := List.mem_iff_getElem?.1 this
    have := (List.getElem?_eq_some_iff.1 hi).1
    have len : (tour m p).length = p.length + 2 := by simp [tour]
    exact ⟨i, by omega, hi⟩
  by_cases hst : m.start ∈ s
  · obtain ⟨v, hv, hvs⟩ := hout
    obtain ⟨i, hi1, hi⟩ := hmem v hv
    refine ⟨leg_leaves (· ∈ s) (Nat.zero_le i) h0 hi hst hvs, ?_⟩
    obtain ⟨x, y, h1, h2, h3⟩ := leg_leaves (· ∉ s) hi1 hi hl hvs (fun h => h (hs.1 hst))
    exact ⟨x, y, h1, h2, Classical.not_not.1 h3⟩
  · obtain ⟨v, hv, hvs⟩ := hin
    obtain ⟨i, hi1, hi⟩ := hmem v hv
    refine ⟨leg_leaves (· ∈ s) hi1 hi hl hvs (fun h => hst (hs.2 h)), ?_⟩
    obtain ⟨x, y, h1, h2, h3⟩ := leg_leaves (· ∉ s) (Nat.zero_le i) h0 hi hst (fun h => h hvs)
    exact ⟨x, y, h1, h2, Classical.not_not.1 h3⟩

/-- The values of the variables that stand for a list of legs. -/
def indicator (l : List Edge) (e : Edge) : Int := if e ∈ l then 1 else 0

theorem chosen_indicator {edges l : List Edge} (h : ∀ e, e ∈ l → e ∈ edges) (e : Edge) : e ∈ chosen edges (indicator l) ↔ e ∈ l := by
  rw [mem_chosen]
  unfold indicator
  split
  · rename_i h'; simp [h', h e h']
  · rename_i h'; simp [h']

theorem Flow.congr {m : Model} {l l' : List Edge} (h : ∀ e, e ∈ l ↔ e ∈ l') (hf : Flow m l) : Flow m l' := by
  refine ⟨fun a b hab => hf.lt a b ((h _).2 hab), fun v hv hc => ?_, fun v w w' h1 h2 => hf.out1 v w w' ((h _).2 h1) ((h _).2 h2),
    fun hne w hw => hf.out0 hne w ((h _).2 hw), fun v hv hc => ?_, fun v w w' h1 h2 => hf.inn1 v w w' ((h _).2 h1) ((h _).2 h2),
    fun hne w hw => hf.inn0 hne w ((h _).2 hw), fun a b h1 h2 => hf.pair a b ((h _).2 h1) ((h _).2 h2)⟩
  · obtain ⟨w, hw⟩ := hf.out v hv hc; exact ⟨w, (h _).1 hw⟩
  · obtain ⟨w, hw⟩ := hf.inn v hv hc; exact ⟨w, (h _).1 hw⟩

/-- The objective of a choice of edges: the sum of their lengths. -/
theorem objective_chosen (m : Model) (edges : List Edge) (a : Edge → Int) (h01 : ∀ e, e ∈ edges → a e = 0 ∨ a e = 1) :
    (prog m edges).objective.value a = ((chosen edges a).map (fun e => m.dist e.1 e.2)).sum := by
  show Lin.value (edges.map (fun e => (m.dist e.1 e.2, e))) a = _
  rw [value_map]
  simp only
  unfold chosen
  induction edges with
  | nil => rfl
  | cons e l ih =>
    rw [List.map_cons, List.sum_cons, ih (fun x hx => h01 x (by simp [hx]))]
    rcases h01 e (by simp) with h | h
    · rw [List.filter_cons_of_neg (by simp [h])]; rw [h]; omega
    · rw [List.filter_cons_of_pos (by simp [h]), List.map_cons, List.sum_cons, h]; omega

theorem sum_of_same {l l' : List Edge} (hl : l.Nodup) (hl' : l'.Nodup) (h : ∀ e, e ∈ l ↔ e ∈ l') (d : Edge → Int) :
    (l.map d).sum = (l'.map d).sum :=
  perm_sum (((List.perm_ext_iff_of_nodup hl hl').2 h).map d)

end Verif.TspLp
