import Verif.Lemmas.TspLpGraph
/- Helper lemmas: the pruned graph always holds a tour. -/
namespace Verif.TspLp
open Verif.Milp Verif.Tsp

/-- Away from `k` in steps of at most two and back. -/
def zig : Nat → List Nat
  | 0 => []
  | 1 => [0]
  | k + 2 => (k + 1) :: zig k ++ [k]

/-- Every step of the list goes at most `d` up or down. -/
def Steps (d : Nat) (l : List Nat) : Prop := ∀ u v, (u, v) ∈ legs l → u ≤ v + d ∧ v ≤ u + d

theorem steps_cons {d a b : Nat} {l : List Nat} : Steps d (a :: b :: l) ↔ (a ≤ b + d ∧ b ≤ a + d) ∧ Steps d (b :: l) := by
  unfold Steps
  rw [legs_cons_cons]
  constructor
  · intro h
    exact ⟨h a b (by simp), fun u v huv => h u v (by simp [huv])⟩
  · rintro ⟨h1, h2⟩ u v huv
    rcases List.mem_cons.1 huv with h | h
    · cases h; exact h1
    · exact h2 u v h

theorem steps_append {d x : Nat} {a b : List Nat} : Steps d (a ++ x :: b) ↔ Steps d (a ++ [x]) ∧ Steps d (x :: b) := by
  unfold Steps
  rw [legs_append]
  constructor
  · intro h
    exact ⟨fun u v huv => h u v (by simp [huv]), fun u v huv => h u v (by simp [huv])⟩
  · rintro ⟨h1, h2⟩ u v huv
    rcases List.mem_append.1 huv with h | h
    · exact h1 u v h
    · exact h2 u v h

theorem steps_single {d a : Nat} : Steps d [a] := by unfold Steps; simp [legs_single]

/-- From `x` through `zig k` to `y`, when `x` is near the top and `y` too. -/
theorem zig_steps : ∀ k x y : Nat, k ≤ x → x ≤ k + 2 → k ≤ y → y ≤ k + 1 → x ≤ y + 3 → y ≤ x + 3 → Steps 3 (x :: zig k ++ [y])
  | 0, x, y, h1, h2, h3, h4, h5, h6 => by
    show Steps 3 (x :: [y])
    exact steps_cons.2 ⟨⟨h5, h6⟩, steps_single⟩
  | 1, x, y, h1, h2, h3, h4, _, _ => by
    show Steps 3 (x :: 0 :: [y])
    exact steps_cons.2 ⟨by omega, steps_cons.2 ⟨by omega, steps_single⟩⟩
  | k + 2, x, y, h1, h2, h3, h4, _, _ => by
    have ih := zig_steps k (k + 1) k (by omega) (by omega) (by omega) (by omega) (by omega) (by omega)
    show Steps 3 (x :: ((k + 1) :: zig k ++ [k]) ++ [y])
    have e : x :: ((k + 1) :: zig k ++ [k]) ++ [y] = x :: (k + 1) :: (zig k ++ k :: [y]) := by simp
    rw [e]
    refine steps_cons.2 ⟨by omega, ?_⟩
    have e' : (k + 1) :: (zig k ++ k :: [y]) = ((k + 1) :: zig k) ++ k :: [y] := by simp
    rw [e']
    exact steps_append.2 ⟨ih, steps_cons.2 ⟨by omega, steps_single⟩⟩

theorem zig_mem : ∀ k v, v ∈ zig k ↔ v < k
  | 0, v => by simp [zig]
  | 1, v => by simp [zig]
  | k + 2, v => by
    have := zig_mem k v
    simp only [zig, List.cons_append, List.mem_cons, List.mem_append, List.not_mem_nil, or_false, this]
    omega

theorem zig_nodup : ∀ k, (zig k).Nodup
  | 0 => by simp [zig]
  | 1 => by simp [zig]
  | k + 2 => by
    have ih := zig_nodup k
    show ((k + 1) :: (zig k ++ [k])).Nodup
    rw [List.nodup_cons, List.nodup_append]
    refine ⟨?_, ih, by simp, ?_⟩
    · simp [zig_mem]
    · intro a ha b hb
      simp only [List.mem_singleton] at hb
      have := (zig_mem k a).1 ha; omega

theorem range'_steps : ∀ n a : Nat, Steps 3 (List.range' a n)
  | 0, a => by unfold Steps; simp [legs]
  | 1, a => steps_single
  | n + 2, a => by
    have := range'_steps (n + 1) (a + 1)
    show Steps 3 (a :: (a + 1) :: List.range' (a + 2) n)
    exact steps_cons.2 ⟨by omega, this⟩

/-- The numbers without `f`, in order. -/
def skip (f v : Nat) : Nat := if v < f then v else v + 1

theorem legs_map (f : Nat → Nat) (l : List Nat) : legs (l.map f) = (legs l).map (fun e => (f e.1, f e.2)) := by
  unfold legs
  rw [← List.map_dropLast, ← List.map_tail, List.zip_map]
  rfl

/-- The order over ranks: round `r`, then on to the last. -/
def rankOrder (r n : Nat) : List Nat := zig r ++ List.range' (r + 1) (n - (r + 1))

theorem rankOrder_steps (r n : Nat) : Steps 3 (r :: rankOrder r n) := by
  unfold rankOrder
  generalize n - (r + 1) = c
  cases c with
  | zero =>
    have := zig_steps r r r (by omega) (by omega) (by omega) (by omega) (by omega) (by omega)
    intro u v huv
    refine this u v ?_
    have e : r :: (zig r ++ List.range' (r + 1) 0) = r :: zig r := by simp
    rw [e] at huv
    obtain ⟨i, h1, h2⟩ := mem_legs.1 huv
    refine mem_legs.2 ⟨i, ?_, ?_⟩
    · rw [List.getElem?_append_left (List.getElem?_eq_some_iff.1 h1).1]; exact h1
    · rw [List.getElem?_append_left (List.getElem?_eq_some_iff.1 h2).1]; exact h2
  | succ c =>
    have e : r :: (zig r ++ List.range' (r + 1) (c + 1)) = (r :: zig r) ++ (r + 1) :: List.range' (r + 1 + 1) c := by
      simp [List.range'_succ]
    rw [e]
    refine steps_append.2 ⟨zig_steps r r (r + 1) (by omega) (by omega) (by omega) (by omega) (by omega) (by omega), ?_⟩
    have := range'_steps (c + 1) (r + 1)
    rwa [List.range'_succ] at this

theorem rankOrder_mem (r n v : Nat) (hr : r < n) : v ∈ rankOrder r n ↔ v < n ∧ v ≠ r := by
  unfold rankOrder
  rw [List.mem_append, zig_mem, List.mem_range'_1]
  omega

theorem rankOrder_nodup (r n : Nat) : (rankOrder r n).Nodup := by
  unfold rankOrder
  rw [List.nodup_append]
  refine ⟨zig_nodup r, List.nodup_range', ?_⟩
  intro a ha b hb
  have := (zig_mem r a).1 ha
  have := (List.mem_range'_1.1 hb).1
  omega

/-- Any graph with all edges to the end and all edges between nodes at most four apart holds a tour. -/
theorem near_tour {m : Model} {edges : List Edge} (hs : m.start < m.nodeCount) (hf : m.fin < m.nodeCount) (hne : m.inner ≠ [])
    (hfin : ∀ a, a < m.nodeCount → a ≠ m.fin → (a, m.fin) ∈ edges ∧ (m.fin, a) ∈ edges)
    (hnear : ∀ a b, a < m.nodeCount → b < m.nodeCount → a ≠ b → a ≤ b + 4 → b ≤ a + 4 → (a, b) ∈ edges) :
    ∃ p, TourOn m edges p := by
  have hskip : ∀ v, v + 1 < m.nodeCount → skip m.fin v < m.nodeCount ∧ skip m.fin v ≠ m.fin := by
    intro v hv; unfold skip; split <;> omega
  have hinj : ∀ v w, skip m.fin v = skip m.fin w → v = w := by
    intro v w; unfold skip; split <;> split <;> omega
  have hfar : ∀ v w, v ≤ w + 3 → skip m.fin v ≤ skip m.fin w + 4 := by
    intro v w; unfold skip; split <;> split <;> omega
  have hsurj : ∀ v, v < m.nodeCount → v ≠ m.fin → ∃ w, w + 1 < m.nodeCount ∧ skip m.fin w = v := by
    intro v h1 h2
    by_cases h : v < m.fin
    · exact ⟨v, by omega, by unfold skip; rw [if_pos h]⟩
    · exact ⟨v - 1, by omega, by unfold skip; rw [if_neg (by omega)]; omega⟩
  have hsteps : ∀ l : List Nat, Steps 3 l → l.Nodup → (∀ v, v ∈ l → v + 1 < m.nodeCount) → ∀ e, e ∈ legs (l.map (skip m.fin)) → e ∈ edges := by
    intro l h1 h2 h3 e he
    rw [legs_map] at he
    obtain ⟨⟨u, v⟩, huv, rfl⟩ := List.mem_map.1 he
    have hu : u ∈ l := (List.dropLast_sublist _).subset (legs_fst huv)
    have hv : v ∈ l := List.mem_of_mem_tail (legs_snd huv)
    obtain ⟨a1, a2⟩ := h1 u v huv
    refine hnear _ _ (hskip u (h3 u hu)).1 (hskip v (h3 v hv)).1 ?_ (hfar _ _ a1) (hfar _ _ a2)
    intro heq
    have huv' : u = v := hinj _ _ heq
    subst huv'
    obtain ⟨i, i1, i2⟩ := mem_legs.1 huv
    obtain ⟨b1, b2⟩ := List.getElem?_eq_some_iff.1 i1
    obtain ⟨c1, c2⟩ := List.getElem?_eq_some_iff.1 i2
    have := (List.Nodup.getElem_inj_iff h2).1 (b2.trans c2.symm)
    omega
  have hlast : ∀ (l : List Nat), (∀ e, e ∈ legs l → e ∈ edges) → (∀ v, v ∈ l.getLast? → v < m.nodeCount ∧ v ≠ m.fin) →
      ∀ e, e ∈ legs (l ++ [m.fin]) → e ∈ edges := by
    intro l h1 h2 e he
    rcases List.eq_nil_or_concat l with rfl | ⟨l', x, rfl⟩
    · simp [legs] at he
    · rw [List.concat_eq_append] at *
      have e1 : l' ++ [x] ++ [m.fin] = l' ++ x :: [m.fin] := by simp
      rw [e1, legs_append] at he
      rcases List.mem_append.1 he with h | h
      · exact h1 e h
      · have : e = (x, m.fin) := by simpa [legs] using h
        rw [this]
        obtain ⟨c1, c2⟩ := h2 x (by simp)
        exact (hfin x c1 c2).1
  by_cases hsf : m.start = m.fin
  · have hperm : ((List.range (m.nodeCount - 1)).map (skip m.fin)).Perm m.inner := by
      refine (List.perm_ext_iff_of_nodup ?_ (inner_nodup m)).2 ?_
      · exact List.Nodup.map_on (fun a _ b _ h => hinj a b h) List.nodup_range
      · intro v
        rw [inner_mem, List.mem_map]
        constructor
        · rintro ⟨w, hw, rfl⟩
          have := hskip w (by have := List.mem_range.1 hw; omega)
          exact ⟨this.1, by rw [hsf]; exact this.2, this.2⟩
        · rintro ⟨a1, a2, a3⟩
          obtain ⟨w, b1, b2⟩ := hsurj v a1 a3
          exact ⟨w, List.mem_range.2 (by omega), b2⟩
    refine ⟨_, hperm, ?_⟩
    generalize hq : (List.range (m.nodeCount - 1)).map (skip m.fin) = q at hperm
    have hqe : ∀ e, e ∈ legs q → e ∈ edges := by
      rw [← hq]
      refine hsteps _ ?_ List.nodup_range (fun v hv => by have := List.mem_range.1 hv; omega)
      rw [List.range_eq_range']; exact range'_steps _ _
    have hqm : ∀ v, v ∈ q → v < m.nodeCount ∧ v ≠ m.fin := by
      intro v hv
      have := (inner_mem m v).1 (hperm.mem_iff.1 hv)
      exact ⟨this.1, this.2.2⟩
    cases q with
    | nil => exact absurd (by simpa using hperm.symm) hne
    | cons a q =>
      intro e he
      have e1 : tour m (a :: q) = m.start :: a :: (q ++ [m.fin]) := rfl
      rw [e1, legs_cons_cons] at he
      rcases List.mem_cons.1 he with h | h
      · rw [h, hsf]
        obtain ⟨c1, c2⟩ := hqm a (by simp)
        exact (hfin a c1 c2).2
      · exact hlast (a :: q) hqe (fun v hv => hqm v (List.mem_of_mem_getLast? hv)) e h
  · obtain ⟨r, hr, hrs⟩ := hsurj m.start hs hsf
    have hrn : r < m.nodeCount - 1 := by omega
    have hperm : ((rankOrder r (m.nodeCount - 1)).map (skip m.fin)).Perm m.inner := by
      refine (List.perm_ext_iff_of_nodup ?_ (inner_nodup m)).2 ?_
      · exact List.Nodup.map_on (fun a _ b _ h => hinj a b h) (rankOrder_nodup _ _)
      · intro v
        rw [inner_mem, List.mem_map]
        constructor
        · rintro ⟨w, hw, rfl⟩
          obtain ⟨c1, c2⟩ := (rankOrder_mem _ _ _ hrn).1 hw
          have := hskip w (by omega)
          exact ⟨this.1, by rw [← hrs]; exact fun h => c2 (hinj _ _ h), this.2⟩
        · rintro ⟨a1, a2, a3⟩
          obtain ⟨w, b1, b2⟩ := hsurj v a1 a3
          refine ⟨w, (rankOrder_mem _ _ _ hrn).2 ⟨by omega, ?_⟩, b2⟩
          rintro rfl; exact a2 (b2.symm.trans hrs)
    refine ⟨_, hperm, ?_⟩
    have e1 : tour m ((rankOrder r (m.nodeCount - 1)).map (skip m.fin)) = (r :: rankOrder r (m.nodeCount - 1)).map (skip m.fin) ++ [m.fin] := by
      simp [tour, hrs]
    rw [e1]
    have hmem : ∀ v, v ∈ r :: rankOrder r (m.nodeCount - 1) → v + 1 < m.nodeCount := by
      intro v hv
      rcases List.mem_cons.1 hv with rfl | hv
      · exact hr
      · have := ((rankOrder_mem _ _ _ hrn).1 hv).1; omega
    refine hlast _ ?_ ?_
    · refine hsteps _ (rankOrder_steps _ _) ?_ hmem
      rw [List.nodup_cons]
      exact ⟨fun h => ((rankOrder_mem _ _ _ hrn).1 h).2 rfl, rankOrder_nodup _ _⟩
    · intro v hv
      obtain ⟨w, hw, rfl⟩ := List.mem_map.1 (List.mem_of_mem_getLast? hv)
      exact hskip w (hmem w hw)

end Verif.TspLp
