import Verif.Lemmas.CpTsp
import Mathlib.Data.List.Perm.Subperm
/- Property C186: the constraint programs of tours. -/
namespace Verif.CpTsp
open Tsp

/-- Specification: the length of the walk from the start through the nodes of `perm` to the end. -/
def tourLength (m : Model) (perm : List Nat) : Int := (walk m.dist (m.start :: perm ++ [m.fin])).sum

/-- Specification: the same with every leg cut off to whole units. -/
def tourUnits (m : Model) (u : Nat) (perm : List Nat) : Int :=
  (walk (fun a b => (m.dist a b).tdiv u) (m.start :: perm ++ [m.fin])).sum

/-- C186: the programs are made exactly where start and end are nodes. -/
theorem C186_built (m : Model) (u : Nat) :
    (m.start < m.nodeCount ∧ m.fin < m.nodeCount → ∃ M, init m u = .ok M) ∧
    (¬ (m.start < m.nodeCount ∧ m.fin < m.nodeCount) → init m u = .error .indexError) := by
  unfold init
  constructor
  · rintro ⟨h1, h2⟩; rw [if_pos ⟨h2, h1⟩]; exact ⟨_, rfl⟩
  · intro h; rw [if_neg (fun hh => h ⟨hh.2, hh.1⟩)]

theorem init_inv {m : Model} {u : Nat} {M : Nat → Nat → Int} (h : init m u = .ok M) :
    m.start < m.nodeCount ∧ m.fin < m.nodeCount ∧ M = entry m u := by
  unfold init at h
  split at h
  · rename_i hh; exact ⟨hh.2, hh.1, (Except.ok.inj h).symm⟩
  · cases h

/-- Along a tour the matrix holds the distances. -/
theorem walk_entry {m : Model} (hs : ∀ a b, m.dist a b = m.dist b a) (u : Nat) {perm : List Nat} (hp : perm.Perm m.inner)
    (hne : perm ≠ [] ∨ m.start ≠ m.fin) :
    (walk (entry m u) (m.start :: perm ++ [m.fin])).sum = tourUnits m u perm := by
  have hnd : perm.Nodup := hp.nodup_iff.2 (List.Pairwise.filter _ List.nodup_range)
  have hin : ∀ v ∈ perm, v ≠ m.start ∧ v ≠ m.fin := by
    intro v hv
    have := hp.mem_iff.1 hv
    simp only [Model.inner, List.mem_filter, Bool.and_eq_true, decide_eq_true_eq] at this
    exact this.2
  have key : ∀ (l : List Nat) (a : Nat), (a = m.start ∨ a ≠ m.fin) → a ∉ l → l.Nodup → (∀ v ∈ l, v ≠ m.start ∧ v ≠ m.fin) →
      (l ≠ [] ∨ a ≠ m.fin) →
      walk (entry m u) (a :: l ++ [m.fin]) = walk (fun a b => (m.dist a b).tdiv u) (a :: l ++ [m.fin]) := by
    intro l
    induction l with
    | nil =>
      intro a _ _ _ _ h
      have haf : a ≠ m.fin := h.resolve_left (by simp)
      simp only [List.cons_append, List.nil_append, walk, entry]
      rw [if_neg (fun hh => haf hh.1), matrix_eq hs haf]
    | cons b l ih =>
      intro a h1 h2 h3 h4 _
      rw [List.mem_cons, not_or] at h2
      rw [List.nodup_cons] at h3
      have hb := h4 b (by simp)
      have := ih b (Or.inr hb.2) h3.1 h3.2 (fun v hv => h4 v (List.mem_cons_of_mem _ hv)) (Or.inr hb.2)
      simp only [List.cons_append, walk] at this ⊢
      rw [this, entry, if_neg (fun hh => hb.1 hh.2), matrix_eq hs h2.1]
  rw [tourUnits, key perm m.start (Or.inl rfl) (fun h => (hin _ h).1 rfl) hnd hin hne]

theorem units_one (m : Model) (perm : List Nat) : tourUnits m 1 perm = tourLength m perm := by
  rw [tourUnits, tourLength]
  congr 2
  funext a b
  simp

/-- C186: whatever the solver answers, the path read off visits every node other than start and end once, the solution evaluates to
the length of its tour, and the objective of the program is the sum of its legs, each cut off to whole units. -/
theorem C186_sound {m : Model} (hs : ∀ a b, m.dist a b = m.dist b a) (hne : m.inner ≠ []) {u : Nat} {M : Nat → Nat → Int} (h : init m u = .ok M)
    {x : List Nat} {d : List Int} {obj : Int} (hx : Solves m M x d obj) :
    ∃ s, solve m x = .ok s ∧ s.perm.Perm m.inner ∧ s.start = m.start ∧ s.fin = m.fin ∧ s.length = some (tourLength m s.perm) ∧
      obj = tourUnits m u s.perm ∧ (u = 1 → s.length = some obj) := by
  obtain ⟨h1, h2, rfl⟩ := init_inv h
  obtain ⟨perm, hd, hp, -, ho⟩ := solves_path h1 h2 hx
  have hne' : perm ≠ [] := by rintro rfl; exact hne (by simpa using hp.symm)
  obtain ⟨p0, hp0⟩ := toFrom0_ok m perm (fun v hv => hp.mem_iff.1 hv)
  have hl : perm.length = m.len := hp.length_eq
  have hb : solve m x = .ok ⟨m.start, m.fin, perm, p0, walk m.dist (m.start :: perm ++ [m.fin]), some (tourLength m perm)⟩ := by
    rw [solve, hd, bind_ok, build, hp0, bind_ok, computeLength_spec hs hl hne', bind_ok]; rfl
  have hobj : obj = tourUnits m u perm := by
    rw [ho, walk_entry hs u hp (Or.inl hne')]
    split
    · omega
    · rw [entry, if_pos ⟨rfl, rfl⟩]; omega
  refine ⟨_, hb, hp, rfl, rfl, rfl, hobj, ?_⟩
  intro hu
  rw [hobj, hu, units_one]

/-- C186: where there is no other node, `solve` raises `IndexError` on every answer. -/
theorem C186_no_inner_refuted {m : Model} (hne : m.inner = []) {u : Nat} {M : Nat → Nat → Int} (h : init m u = .ok M)
    {x : List Nat} {d : List Int} {obj : Int} (hx : Solves m M x d obj) : solve m x = .error .indexError := by
  obtain ⟨h1, h2, rfl⟩ := init_inv h
  obtain ⟨perm, hd, hp, -⟩ := solves_path h1 h2 hx
  rw [hne] at hp
  obtain rfl := hp.eq_nil
  rw [solve, hd, bind_ok]
  rfl

/-- C186: with distances of at least 0, every order of the other nodes is read off a solution. -/
theorem C186_complete {m : Model} (hs : ∀ a b, m.dist a b = m.dist b a) (hpos : ∀ a b, 0 ≤ m.dist a b) {u : Nat} {M : Nat → Nat → Int}
    (h : init m u = .ok M) (hne : m.inner ≠ []) {perm : List Nat} (hp : perm.Perm m.inner) :
    ∃ x d, Solves m M x d (tourUnits m u perm) ∧ decode m x = .ok perm := by
  obtain ⟨h1, h2, rfl⟩ := init_inv h
  have hne' : perm ≠ [] := by rintro rfl; exact hne (by simpa using hp.symm)
  have hnd : perm.Nodup := hp.nodup_iff.2 (List.Pairwise.filter _ List.nodup_range)
  have hin : ∀ v, v ∈ perm ↔ v < m.nodeCount ∧ v ≠ m.start ∧ v ≠ m.fin := by
    intro v
    rw [hp.mem_iff]
    simp only [Model.inner, List.mem_filter, List.mem_range, Bool.and_eq_true, decide_eq_true_eq]
  -- the circuit without its return to the start
  have hC : ∃ C, (m.start :: C).Nodup ∧ (∀ v, v ∈ m.start :: C ↔ v < m.nodeCount) ∧
      ((m.fin = m.start ∧ C = perm) ∨ (m.fin ≠ m.start ∧ C = perm ++ [m.fin])) := by
    by_cases he : m.fin = m.start
    · refine ⟨perm, ?_, ?_, Or.inl ⟨he, rfl⟩⟩
      · rw [List.nodup_cons]; exact ⟨fun hh => ((hin _).1 hh).2.1 rfl, hnd⟩
      · intro v
        rw [List.mem_cons, hin]
        constructor
        · rintro (rfl | hh)
          · exact h1
          · exact hh.1
        · intro hv
          by_cases hv2 : v = m.start
          · exact Or.inl hv2
          · exact Or.inr ⟨hv, hv2, by rw [he]; exact hv2⟩
    · refine ⟨perm ++ [m.fin], ?_, ?_, Or.inr ⟨he, rfl⟩⟩
      · rw [List.nodup_cons, List.mem_append, List.mem_singleton, List.nodup_append]
        refine ⟨?_, hnd, by simp, ?_⟩
        · rintro (hh | hh)
          · exact ((hin _).1 hh).2.1 rfl
          · exact he hh.symm
        · intro a ha b hb hab
          rw [List.mem_singleton] at hb
          exact ((hin _).1 ha).2.2 (hab.trans hb)
      · intro v
        rw [List.mem_cons, List.mem_append, List.mem_singleton, hin]
        constructor
        · rintro (rfl | hh | rfl)
          · exact h1
          · exact hh.1
          · exact h2
        · intro hv
          by_cases hv2 : v = m.start
          · exact Or.inl hv2
          · by_cases hv3 : v = m.fin
            · exact Or.inr (Or.inr hv3)
            · exact Or.inr (Or.inl ⟨hv, hv2, hv3⟩)
  obtain ⟨C, hCn, hCm, hcase⟩ := hC
  have hCp : (m.start :: C).Perm (List.range m.nodeCount) := by
    rw [List.perm_ext_iff_of_nodup hCn List.nodup_range]
    intro v; rw [hCm, List.mem_range]
  obtain ⟨x, hxd⟩ : ∃ x : List Nat, x = (List.range m.nodeCount).map (fun a => nextIn (m.start :: C ++ [m.start]) a + 1) := ⟨_, rfl⟩
  obtain ⟨d, hdd⟩ : ∃ d : List Int, d = (List.range m.nodeCount).map (fun a => entry m u a ((x[a]?.getD 0) - 1)) := ⟨_, rfl⟩
  have hxl : x.length = m.nodeCount := by rw [hxd]; simp
  have hxg : ∀ a, a < m.nodeCount → x[a]? = some (nextIn (m.start :: C ++ [m.start]) a + 1) := by
    intro a ha
    rw [hxd, List.getElem?_map, List.getElem?_range ha]; rfl
  have hF : Follows x (m.start :: C ++ [m.start]) := follows_next (m.start :: C) m.start hCn (fun a ha => hxg a ((hCm a).1 ha))
  have hnext : ∀ a, a < m.nodeCount → nextIn (m.start :: C ++ [m.start]) a < m.nodeCount := by
    intro a ha
    obtain ⟨b, hb, he⟩ := nextIn_mem (m.start :: C) m.start a ((hCm a).2 ha)
    rw [he]
    simp only [List.drop_succ_cons, List.drop_zero, List.mem_append, List.mem_singleton] at hb
    rcases hb with hb | rfl
    · exact (hCm b).1 (List.mem_cons_of_mem _ hb)
    · exact h1
  have hpos' : ∀ a b, 0 ≤ entry m u a b := by
    intro a b
    rw [entry]
    split
    · omega
    · apply Int.tdiv_nonneg _ (Int.natCast_nonneg u)
      unfold matrix
      split
      · exact hpos _ _
      · split
        · exact hpos _ _
        · omega
  have hSolves : Solves m (entry m u) x d d.sum := by
    refine ⟨hxl, ?_, ⟨by rw [hdd]; simp, ?_⟩, ?_, ?_, ⟨m.start, C, hCp, hF⟩, ?_, rfl⟩
    · intro v hv
      rw [hxd, List.mem_map] at hv
      obtain ⟨a, ha, rfl⟩ := hv
      have := hnext a (List.mem_range.1 ha)
      omega
    · intro v hv
      rw [hdd, List.mem_map] at hv
      obtain ⟨a, ha, rfl⟩ := hv
      rw [List.mem_range] at ha
      rw [hxg a ha]
      exact ⟨⟨a, _, ha, hnext a ha, hpos' _ _, Int.le_refl _⟩, ⟨a, _, ha, hnext a ha, Int.le_refl _⟩⟩
    · intro hne2
      rcases hcase with ⟨hh, -⟩ | ⟨-, rfl⟩
      · exact absurd hh hne2
      · have h3 : m.start :: (perm ++ [m.fin]) ++ [m.start] = (m.start :: perm) ++ m.fin :: [m.start] := by simp
        rw [h3, follows_join] at hF
        exact hF.2.1
    · rw [hxd]
      apply List.Nodup.map_on _ List.nodup_range
      intro a ha b hb hab
      rw [List.mem_range] at ha hb
      rw [List.nodup_cons] at hCn
      exact nextIn_inj (m.start :: C) m.start a b hCn.2 hCn.1 ((hCm a).2 ha) ((hCm b).2 hb) (by omega)
    · intro i v hi
      have hl : i < m.nodeCount := by rw [← hxl]; exact (List.getElem?_eq_some_iff.1 hi).1
      rw [hdd, List.getElem?_map, List.getElem?_range hl, Option.map_some, hi]; rfl
  obtain ⟨perm', hd', hp', hF', ho'⟩ := solves_path h1 h2 hSolves
  have hdec : decode m x = .ok perm := by
    have hFp : Follows x (m.start :: perm ++ [m.fin]) := by
      rcases hcase with ⟨hh, rfl⟩ | ⟨-, rfl⟩
      · rw [hh]; exact hF
      · have h3 : m.start :: (perm ++ [m.fin]) ++ [m.start] = (m.start :: perm) ++ m.fin :: [m.start] := by simp
        rw [h3, follows_join] at hF
        exact hF.1
    have hlen : perm.length < m.nodeCount := by
      have := hCp.length_eq
      rcases hcase with ⟨-, rfl⟩ | ⟨-, rfl⟩
      · simp at this; omega
      · simp at this; omega
    rw [decode, decodeLoop_ok perm m.start _ false [] hFp (fun hh => ((hin _).1 hh).2.2 rfl) (fun _ => rfl) (by rw [hxl]; omega), bind_ok]
    simp
  rw [hdec] at hd'
  obtain rfl := Except.ok.inj hd'
  refine ⟨x, d, ?_, hdec⟩
  have : d.sum = tourUnits m u perm := by
    rw [ho', walk_entry hs u hp (Or.inl hne')]
    split
    · omega
    · rw [entry, if_pos ⟨rfl, rfl⟩]; omega
  rw [← this]
  exact hSolves

/-- C186: a best answer to the program over floats is a shortest tour. -/
theorem C186_optimal {m : Model} (hs : ∀ a b, m.dist a b = m.dist b a) (hpos : ∀ a b, 0 ≤ m.dist a b) {M : Nat → Nat → Int}
    (h : init m 1 = .ok M) (hne : m.inner ≠ []) :
    (∃ x d obj, Solves m M x d obj) ∧
    ∀ x d obj, Solves m M x d obj → (∀ x' d' obj', Solves m M x' d' obj' → obj ≤ obj') →
      ∃ s, solve m x = .ok s ∧ s.length = some obj ∧ ∀ perm, perm.Perm m.inner → obj ≤ tourLength m perm := by
  constructor
  · obtain ⟨x, d, hx, -⟩ := C186_complete hs hpos h hne (List.Perm.refl _)
    exact ⟨x, d, _, hx⟩
  · intro x d obj hx hbest
    obtain ⟨s, e, -, -, -, -, -, hl⟩ := C186_sound hs hne h hx
    refine ⟨s, e, hl rfl, ?_⟩
    intro perm hp
    obtain ⟨x', d', hx', -⟩ := C186_complete hs hpos h hne hp
    have := hbest _ _ _ hx'
    rw [units_one] at this
    exact this

theorem units_bounds {m : Model} (hpos : ∀ a b, 0 ≤ m.dist a b) {u : Nat} (hu : 0 < u) : ∀ (l : List Nat) (a : Nat),
    (u : Int) * (walk (fun a b => (m.dist a b).tdiv u) (a :: l)).sum ≤ (walk m.dist (a :: l)).sum ∧
    (walk m.dist (a :: l)).sum ≤ u * (walk (fun a b => (m.dist a b).tdiv u) (a :: l)).sum + l.length * ((u : Int) - 1)
  | [], a => by simp [walk]
  | b :: l, a => by
    have ih := units_bounds hpos hu l b
    have e1 : (m.dist a b).tdiv u = m.dist a b / u := Int.tdiv_eq_ediv_of_nonneg (hpos a b)
    have e2 := Int.mul_ediv_add_emod (m.dist a b) u
    have e3 := Int.emod_nonneg (m.dist a b) (b := (u : Int)) (by omega)
    have e4 := Int.emod_lt_of_pos (m.dist a b) (b := (u : Int)) (by omega)
    simp only [walk, List.sum_cons, List.length_cons]
    rw [e1, Int.mul_add]
    have e5 : ((l.length + 1 : Nat) : Int) * ((u : Int) - 1) = l.length * ((u : Int) - 1) + ((u : Int) - 1) := by
      rw [Int.natCast_add, Int.add_mul]; simp
    rw [e5]
    omega

/-- C186: a best answer to the program over integers is longer than any other tour by less than one unit for each leg. -/
theorem C186_int_gap {m : Model} (hs : ∀ a b, m.dist a b = m.dist b a) (hpos : ∀ a b, 0 ≤ m.dist a b) {u : Nat} (hu : 0 < u) {M : Nat → Nat → Int}
    (h : init m u = .ok M) (hne : m.inner ≠ []) {x : List Nat} {d : List Int} {obj : Int} (hx : Solves m M x d obj)
    (hbest : ∀ x' d' obj', Solves m M x' d' obj' → obj ≤ obj') :
    ∃ s, solve m x = .ok s ∧ ∀ perm, perm.Perm m.inner →
      tourLength m s.perm ≤ tourLength m perm + (m.len + 1) * ((u : Int) - 1) := by
  obtain ⟨s, e, hp, -, -, -, ho, -⟩ := C186_sound hs hne h hx
  refine ⟨s, e, ?_⟩
  intro perm hpp
  obtain ⟨x', d', hx', -⟩ := C186_complete hs hpos h hne hpp
  have hb := hbest _ _ _ hx'
  rw [ho] at hb
  have b1 := (units_bounds (m := m) hpos hu (s.perm ++ [m.fin]) m.start).2
  have b2 := (units_bounds (m := m) hpos hu (perm ++ [m.fin]) m.start).1
  have hl : s.perm.length = m.len := hp.length_eq
  rw [List.length_append, hl] at b1
  have hm := Int.mul_le_mul_of_nonneg_left hb (show (0 : Int) ≤ u by omega)
  simp only [tourUnits, tourLength, List.cons_append] at hm ⊢
  simp only [List.length_singleton, Int.natCast_add] at b1
  have e6 : (m.len : Int) + ((1 : Nat) : Int) = m.len + 1 := rfl
  rw [e6] at b1
  omega

/-- C186: no answer uses a leg of negative length: distances below the least one that is not negative are excluded. -/
theorem C186_negative {m : Model} {M : Nat → Nat → Int} {x : List Nat} {d : List Int} {obj : Int}
    (hx : Solves m M x d obj) : (∀ v ∈ d, 0 ≤ v) ∧ 0 ≤ obj := by
  have h0 : ∀ v ∈ d, 0 ≤ v := by
    intro v hv
    obtain ⟨⟨i, j, -, -, h1, h2⟩, -⟩ := hx.range.2 v hv
    omega
  refine ⟨h0, ?_⟩
  rw [hx.obj]
  clear hx
  induction d with
  | nil => simp
  | cons a d ih =>
    have h1 := h0 a (by simp)
    have h2 := ih (fun v hv => h0 v (List.mem_cons_of_mem _ hv))
    rw [List.sum_cons]
    omega

/-- All distances are -1. -/
def minus : Model := ⟨3, 0, 0, fun _ _ => -1⟩

/-- C186: so there are problems with tours and without any answer. -/
theorem C186_negative_refuted : (∀ a b, minus.dist a b = minus.dist b a) ∧ minus.inner ≠ [] ∧
    ∃ M, init minus 1 = .ok M ∧ ∀ x d obj, ¬ Solves minus M x d obj := by
  refine ⟨fun _ _ => rfl, by decide, _, rfl, ?_⟩
  intro x d obj hx
  obtain ⟨s, -, hp, -, -, -, ho, -⟩ := C186_sound (m := minus) (u := 1) (fun _ _ => rfl) (by decide) rfl hx
  have h0 := (C186_negative hx).2
  have hw : ∀ (l : List Nat) (a : Nat), (walk (fun _ _ => (-1 : Int).tdiv ((1 : Nat) : Int)) (a :: l)).sum = -(l.length : Int) := by
    intro l
    induction l with
    | nil => intro a; rfl
    | cons b l ih =>
      intro a
      simp only [walk, List.sum_cons, ih b, List.length_cons]
      have : (-1 : Int).tdiv ((1 : Nat) : Int) = -1 := by decide
      rw [this]; omega
  have hl := hp.length_eq
  have e : tourUnits minus 1 s.perm = -((s.perm ++ [minus.fin]).length : Int) := hw _ _
  rw [ho, e, List.length_append, hl] at h0
  exact absurd h0 (by decide)

/-- Four nodes with distances in tenths. -/
def tenths : Model := ⟨4, 0, 0, fun a b =>
  if (a, b) = (0, 2) ∨ (a, b) = (2, 0) then 10 else if (a, b) = (1, 3) ∨ (a, b) = (3, 1) then 0 else 9⟩

theorem tenths_sym : ∀ a b, tenths.dist a b = tenths.dist b a := by
  intro a b
  simp only [tenths, Prod.mk.injEq]
  split <;> split <;> (try split) <;> (try split) <;> first | rfl | omega

theorem tenths_pos : ∀ a b, 0 ≤ tenths.dist a b := by
  intro a b
  simp only [tenths]
  split
  · omega
  · split <;> omega

/-- C186: a best answer to the program over integers need not be a shortest tour: 3.6 where 2.8 is possible. -/
theorem C186_int_refuted : ∃ M, init tenths 10 = .ok M ∧ ∃ x d obj, Solves tenths M x d obj ∧
    (∀ x' d' obj', Solves tenths M x' d' obj' → obj ≤ obj') ∧
    ∃ s, solve tenths x = .ok s ∧ s.length = some 36 ∧ ∃ perm : List Nat, perm.Perm tenths.inner ∧ tourLength tenths perm = 28 := by
  refine ⟨_, rfl, ?_⟩
  obtain ⟨x, d, hx, hd⟩ := C186_complete (m := tenths) (u := 10) (perm := [1, 2, 3]) tenths_sym tenths_pos rfl (by decide) (by decide)
  have hz : tourUnits tenths 10 [1, 2, 3] = 0 := by decide
  rw [hz] at hx
  refine ⟨x, d, 0, hx, fun x' d' obj' h => (C186_negative h).2, ?_⟩
  refine ⟨⟨0, 0, [1, 2, 3], [0, 1, 2], [9, 9, 9, 9], some 36⟩, ?_, rfl, [2, 1, 3], by decide, by decide⟩
  rw [solve, hd, bind_ok]
  decide

/-- Three nodes, a way back being five times as long as the way there. -/
def oneWay : Model := ⟨3, 0, 0, fun a b => if a < b then 1 else 5⟩

/-- C186 needs symmetric distances: each pair is measured once, from the smaller number, so that the objective of the program over floats
may be less than the length of the tour that is read off. -/
theorem C186_directed_refuted : ∃ M, init oneWay 1 = .ok M ∧ ∃ x d, Solves oneWay M x d 3 ∧
    ∃ s, solve oneWay x = .ok s ∧ s.perm = [2, 1] ∧ s.length = some 7 := by
  refine ⟨_, rfl, [3, 1, 2], [1, 1, 1], ⟨rfl, by decide, ⟨rfl, ?_⟩, by decide, by decide, ?_, ?_, by decide⟩, ?_⟩
  · intro v hv
    have : v = 1 := by simpa using hv
    subst this
    exact ⟨⟨0, 1, by decide, by decide, by decide, by decide⟩, 0, 1, by decide, by decide, by decide⟩
  · exact ⟨0, [2, 1], by decide, by simp [Follows]⟩
  · intro i v h
    match i, h with
    | 0, h => simp at h; subst h; decide
    | 1, h => simp at h; subst h; decide
    | 2, h => simp at h; subst h; decide
    | i + 3, h => simp at h
  · exact ⟨⟨0, 0, [2, 1], [1, 0], [1, 5, 1], some 7⟩, by decide, rfl, rfl⟩

/-! ### Concrete instances -/

/-- Nodes on a line, from the first to the last. -/
def line : Model := ⟨4, 0, 3, fun a b => ((a : Int) - b).natAbs⟩

theorem line_sym : ∀ a b, line.dist a b = line.dist b a := by
  intro a b; simp only [line]; omega

theorem line_pos : ∀ a b, 0 ≤ line.dist a b := by
  intro a b; simp only [line]; omega

example : solve line [3, 4, 2, 1] = .ok ⟨0, 3, [2, 1], [1, 0], [2, 1, 2], some 5⟩ := by decide +kernel

example : ∃ x d, Solves line (entry line 1) x d 5 ∧ decode line x = .ok [2, 1] :=
  C186_complete (m := line) (u := 1) (perm := [2, 1]) line_sym line_pos rfl (by decide) (by decide)

example : ∃ x d obj, Solves line (entry line 1) x d obj :=
  (C186_optimal (m := line) line_sym line_pos rfl (by decide)).1

/-- A node missing. -/
example : init ⟨2, 0, 2, fun _ _ => 1⟩ 1 = .error .indexError :=
  (C186_built ⟨2, 0, 2, fun _ _ => 1⟩ 1).2 (by decide)

/-- Two nodes, start and end: there is an answer, and it raises. -/
example : Solves ⟨2, 0, 1, fun _ _ => 7⟩ (entry ⟨2, 0, 1, fun _ _ => 7⟩ 1) [2, 1] [7, 0] 7 := by
  refine ⟨rfl, by decide, ⟨rfl, ?_⟩, fun _ => rfl, by decide, ⟨0, [1], by decide, by decide, by decide, trivial⟩, ?_, rfl⟩
  · intro v hv
    simp only [List.mem_cons, List.not_mem_nil, or_false] at hv
    rcases hv with rfl | rfl
    · exact ⟨⟨0, 1, by decide, by decide, by decide, by decide⟩, ⟨0, 1, by decide, by decide, by decide⟩⟩
    · exact ⟨⟨1, 0, by decide, by decide, by decide, by decide⟩, ⟨1, 0, by decide, by decide, by decide⟩⟩
  · intro i v hi
    match i with
    | 0 => simp at hi; subst hi; rfl
    | 1 => simp at hi; subst hi; rfl
    | i + 2 => simp at hi

example : solve ⟨2, 0, 1, fun _ _ => 7⟩ [2, 1] = .error .indexError := by decide +kernel

end Verif.CpTsp
