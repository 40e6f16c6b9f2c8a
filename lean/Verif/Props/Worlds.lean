import Verif.Lemmas.Worlds
import Mathlib.Tactic.Linarith

/-!
C38 (simple greedy), C39 (maze and grid moves), C40 (Mastermind scores), C41 (rock, paper,
scissors), C42 (enumerable spaces), C50 (Manhattan distance on mazes and grids).
-/
namespace Verif.Worlds

/-! ### C39 -/

/-- The displacement each action asks for; rows are numbered downwards. -/
def displacement : Move → Int × Int
  | .left => (-1, 0)
  | .right => (1, 0)
  | .up => (0, -1)
  | .down => (0, 1)

def shift (c : Cell) (d : Int × Int) : Cell := ⟨c.x + d.1, c.y + d.2⟩

def manhattan (a b : Cell) : Nat := (a.x - b.x).natAbs + (a.y - b.y).natAbs

/-- A free cell inside the columns of the maze. -/
def Legal (m : Maze) (c : Cell) : Prop :=
  0 ≤ c.x ∧ c.x < m.cols ∧ 0 ≤ c.y ∧ ∃ row, m.rows[c.y.toNat]? = some row ∧ row[c.x.toNat]? = some 1

/-- No row is shorter than the first one. -/
def Wide (m : Maze) : Prop := ∀ row ∈ m.rows, m.cols ≤ row.length

theorem aim_eq (s : Cell) (a : Move) : aim s a = shift s (displacement a) := by
  cases a <;> simp [aim, shift, displacement] <;> omega

/-- In a maze whose rows are all as long as the first one, every action from a legal cell
succeeds: it moves to the cell asked for when that is legal, and stays otherwise; the cell
reached is legal, at distance at most one, and the move costs 1, or 2 when blocked. -/
theorem C39_maze_step (m : Maze) (hw : Wide m) (s : Cell) (a : Move) (hs : Legal m s) :
    ∃ n, m.next s a = .ok n ∧ Legal m n ∧
      (Legal m (shift s (displacement a)) → n = shift s (displacement a) ∧ manhattan s n = 1 ∧ cost s n = 1) ∧
      (¬ Legal m (shift s (displacement a)) → n = s ∧ cost s n = 2) ∧
      (n = s ↔ ¬ Legal m (shift s (displacement a))) := by
  have hne : shift s (displacement a) ≠ s := by
    intro h
    have h1 := congrArg Cell.x h
    have h2 := congrArg Cell.y h
    cases a <;> simp only [shift, displacement] at h1 h2 <;> omega
  have hd : manhattan s (shift s (displacement a)) = 1 := by
    cases a <;> simp [shift, displacement, manhattan]
  have hc : cost s (shift s (displacement a)) = 1 := by
    cases a <;> simp [shift, displacement, cost]
  have hc2 : cost s s = 2 := by simp [cost]
  have hstay : ¬ Legal m (shift s (displacement a)) → m.next s a = .ok s → ∃ n, m.next s a = .ok n ∧ Legal m n ∧
      (Legal m (shift s (displacement a)) → n = shift s (displacement a) ∧ manhattan s n = 1 ∧ cost s n = 1) ∧
      (¬ Legal m (shift s (displacement a)) → n = s ∧ cost s n = 2) ∧
      (n = s ↔ ¬ Legal m (shift s (displacement a))) := fun hl h =>
    ⟨s, h, hs, fun h => absurd h hl, fun _ => ⟨rfl, hc2⟩, by simp [hl]⟩
  simp only [Maze.next, aim_eq]
  simp only [Maze.next, aim_eq] at hstay
  generalize shift s (displacement a) = n at *
  by_cases hb : 0 ≤ n.x ∧ n.x < m.cols ∧ 0 ≤ n.y ∧ n.y < m.rows.length
  · rw [if_pos hb] at hstay ⊢
    have hy : n.y.toNat < m.rows.length := by omega
    have hx : n.x.toNat < (m.rows[n.y.toNat]).length :=
      Nat.lt_of_lt_of_le (by omega) (hw _ (List.getElem_mem hy))
    rw [pyGet_of_lt hy, bind_ok, pyGet_of_lt hx, bind_ok] at hstay ⊢
    by_cases hv : (m.rows[n.y.toNat])[n.x.toNat] = 1
    · rw [if_pos hv]
      have hl : Legal m n := ⟨hb.1, hb.2.1, hb.2.2.1, _, List.getElem?_eq_getElem hy,
        by rw [List.getElem?_eq_getElem hx, hv]⟩
      exact ⟨n, rfl, hl, fun _ => ⟨rfl, hd, hc⟩, fun h => absurd hl h, by simp [hl, hne]⟩
    · rw [if_neg hv] at hstay ⊢
      refine hstay ?_ rfl
      rintro ⟨_, _, _, row, h1, h2⟩
      rw [List.getElem?_eq_getElem hy] at h1
      cases h1
      rw [List.getElem?_eq_getElem hx] at h2
      exact hv (by simpa using h2)
  · rw [if_neg hb] at hstay ⊢
    refine hstay ?_ rfl
    rintro ⟨h1, h2, h3, row, h4, _⟩
    have := (List.getElem?_eq_some_iff.1 h4).1
    exact hb ⟨h1, h2, h3, by omega⟩

def corridor : Maze := ⟨[[0, 1, 0], [0, 1, 1]], 3, some ⟨1, 0⟩, some ⟨2, 1⟩⟩

example : Wide corridor ∧ Legal corridor ⟨1, 0⟩ ∧ corridor.next ⟨1, 0⟩ .down = .ok ⟨1, 1⟩ ∧
    corridor.next ⟨1, 0⟩ .left = .ok ⟨1, 0⟩ :=
  ⟨by unfold Wide; decide, ⟨by decide, by decide, by decide, [0, 1, 0], by decide, by decide⟩, by decide, by decide⟩

/-- A maze read from a text: when it has an `o`, the start is a free cell of the text, and
when no line is shorter than the first the maze is `Wide`; the same for the goal. -/
theorem C39_maze_parse (l : List Char) (ls : List (List Char)) (m : Maze)
    (h : Maze.parse (l :: ls) = .ok m) (hr : ∀ k ∈ ls, k.length = l.length) :
    Wide m ∧ (∀ c, m.start = some c → Legal m c) ∧ (∀ c, m.goal = some c → Legal m c) := by
  have hm := (Except.ok.inj h).symm
  have hall : ∀ k ∈ l :: ls, k.length = l.length := by
    intro k hk
    rcases List.mem_cons.1 hk with rfl | hk
    · rfl
    · exact hr k hk
  have key : ∀ ch, cellOf ch = 1 → ∀ c, lastAt ch 0 (l :: ls) none = some c → Legal m c := by
    intro ch hch c hc
    rcases lastAt_spec _ _ _ _ _ hc with h0 | ⟨j, i, k, h1, h2, rfl⟩
    · cases h0
    · have hk := hall k (List.mem_of_getElem? h1)
      have hi := (List.getElem?_eq_some_iff.1 h2).1
      refine ⟨by simp, ?_, by simp, k.map cellOf, ?_, ?_⟩
      · subst hm; simp only; omega
      · subst hm
        show (List.map (fun l => List.map cellOf l) (l :: ls))[((0 + j : Nat) : Int).toNat]? = _
        rw [List.getElem?_map, show ((0 + j : Nat) : Int).toNat = j by omega, h1]
        rfl
      · simp [h2, hch]
  refine ⟨?_, fun c hc => key 'o' (by decide) c (by subst hm; exact hc),
    fun c hc => key 'x' (by decide) c (by subst hm; exact hc)⟩
  subst hm
  intro row hrow
  obtain ⟨k, hk, rfl⟩ := List.mem_map.1 hrow
  simp [hall k hk]

example : Maze.parse ["+o+".toList, "+ x".toList] = .ok corridor := by decide

/-- Every play from a legal cell of such a maze stays on legal cells and raises nothing. -/
theorem C39_maze_run (m : Maze) (hw : Wide m) (s : Cell) (hs : Legal m s) (as : List Move) :
    ∃ t, as.foldlM (fun c a => m.next c a) s = .ok t ∧ Legal m t := by
  induction as generalizing s with
  | nil => exact ⟨s, rfl, hs⟩
  | cons a as ih =>
    obtain ⟨n, h1, h2, _⟩ := C39_maze_step m hw s a hs
    obtain ⟨t, h3, h4⟩ := ih n h2
    exact ⟨t, by rw [List.foldlM_cons, h1]; exact h3, h4⟩

example : [Move.down, .right, .up].foldlM (fun c a => corridor.next c a) ⟨1, 0⟩ = .ok ⟨2, 1⟩ := by decide

/-- Trailing blanks of a line are dropped by the constructor, so a maze whose right border is
open on a later line has a shorter row there, and stepping onto that position raises. -/
theorem C39_short_row_raises : ∃ m s a, Maze.parse ["+o+".toList, "+".toList] = .ok m ∧ Legal m s ∧
    m.next s a = .error .indexError :=
  ⟨⟨[[0, 1, 0], [0]], 3, some ⟨1, 0⟩, none⟩, ⟨1, 0⟩, .down, by decide,
    ⟨by decide, by decide, by decide, [0, 1, 0], by decide, by decide⟩, by decide⟩

def Inside (g : Grid) (c : Cell) : Prop := 0 ≤ c.x ∧ c.x < g.cols ∧ 0 ≤ c.y ∧ c.y < g.rows

instance (g : Grid) (c : Cell) : Decidable (Inside g c) := by unfold Inside; infer_instance

/-- The same for the simple grid world, whose legal cells are those of the rectangle. -/
theorem C39_grid_step (g : Grid) (s : Cell) (a : Move) (hs : Inside g s) :
    Inside g (g.next s a) ∧
      (Inside g (shift s (displacement a)) →
        g.next s a = shift s (displacement a) ∧ manhattan s (g.next s a) = 1 ∧ cost s (g.next s a) = 1) ∧
      (¬ Inside g (shift s (displacement a)) → g.next s a = s ∧ cost s (g.next s a) = 2) := by
  obtain ⟨x, y⟩ := s
  simp only [Inside] at *
  have hc2 : cost ⟨x, y⟩ ⟨x, y⟩ = 2 := by simp [cost]
  cases a <;> simp only [Grid.next, shift, displacement]
  · refine ⟨by omega, fun h => ?_, fun h => ?_⟩
    · have : max (y - 1) 0 = y + -1 := by omega
      rw [this]
      exact ⟨by simp, by simp [manhattan], by simp [cost]⟩
    · have : max (y - 1) 0 = y := by omega
      rw [this]; exact ⟨rfl, hc2⟩
  · refine ⟨by omega, fun h => ?_, fun h => ?_⟩
    · have : min (y + 1) (g.rows - 1) = y + 1 := by omega
      rw [this]
      exact ⟨by simp, by simp [manhattan], by simp [cost]⟩
    · have : min (y + 1) (g.rows - 1) = y := by omega
      rw [this]; exact ⟨rfl, hc2⟩
  · refine ⟨by omega, fun h => ?_, fun h => ?_⟩
    · have : max (x - 1) 0 = x + -1 := by omega
      rw [this]
      exact ⟨by simp, by simp [manhattan], by simp [cost]⟩
    · have : max (x - 1) 0 = x := by omega
      rw [this]; exact ⟨rfl, hc2⟩
  · refine ⟨by omega, fun h => ?_, fun h => ?_⟩
    · have : min (x + 1) (g.cols - 1) = x + 1 := by omega
      rw [this]
      exact ⟨by simp, by simp [manhattan], by simp [cost]⟩
    · have : min (x + 1) (g.cols - 1) = x := by omega
      rw [this]; exact ⟨rfl, hc2⟩

example : Inside ⟨3, 2⟩ ⟨2, 0⟩ ∧ (Grid.mk 3 2).next ⟨2, 0⟩ .right = ⟨2, 0⟩ := by decide

/-- In a grid with at least one column and one row, start and goal are inside. -/
theorem C39_grid_start_goal (g : Grid) (h1 : 0 < g.cols) (h2 : 0 < g.rows) :
    Inside g Grid.start ∧ Inside g g.goal := by
  simp only [Inside, Grid.start, Grid.goal]; omega

example : (Grid.mk 10 10).goal = ⟨9, 9⟩ := by decide

/-! ### C50 -/

/-- What a sequence of actions costs from a cell, and where it leads. -/
def Maze.play (m : Maze) : Cell → List Move → Except PyErr (Int × Cell)
  | s, [] => .ok (0, s)
  | s, a :: as => do
    let n ← m.next s a
    let r ← m.play n as
    return (cost s n + r.1, r.2)

def Grid.play (g : Grid) : Cell → List Move → Int × Cell
  | s, [] => (0, s)
  | s, a :: as => (cost s (g.next s a) + (g.play (g.next s a) as).1, (g.play (g.next s a) as).2)

theorem cost_ge (s n t : Cell) : (manhattan s t : Int) ≤ cost s n + manhattan n t := by
  simp only [cost, manhattan]
  split
  · rename_i h; omega
  · omega

theorem cost_pos (s n : Cell) : 0 < cost s n := by
  simp only [cost]
  split
  · omega
  · omega

/-- The Manhattan distance to any target is a consistent heuristic for the maze: no play that
raises nothing costs less than the Manhattan distance between its ends. -/
theorem C50_maze_manhattan_admissible (m : Maze) (s : Cell) (as : List Move) (c : Int) (t : Cell)
    (h : m.play s as = .ok (c, t)) : (manhattan s t : Int) ≤ c := by
  induction as generalizing s c with
  | nil => cases h; simp [manhattan]
  | cons a as ih =>
    rw [Maze.play, bind_eq_ok] at h
    obtain ⟨n, h1, h2⟩ := h
    rw [bind_eq_ok] at h2
    obtain ⟨⟨c', t'⟩, h3, h4⟩ := h2
    have h4 := Except.ok.inj h4
    simp only [Prod.mk.injEq] at h4
    obtain ⟨rfl, rfl⟩ := h4
    have := ih n c' h3
    have := cost_ge s n t'
    omega

example : corridor.play ⟨1, 0⟩ [.left, .down, .right] = .ok (4, ⟨2, 1⟩) ∧ manhattan ⟨1, 0⟩ ⟨2, 1⟩ = 2 := by
  decide

theorem grid_ge (g : Grid) (s : Cell) (as : List Move) :
    (manhattan s (g.play s as).2 : Int) ≤ (g.play s as).1 := by
  induction as generalizing s with
  | nil => simp [Grid.play, manhattan]
  | cons a as ih =>
    have := ih (g.next s a)
    have := cost_ge s (g.next s a) (g.play (g.next s a) as).2
    simp only [Grid.play]
    omega

theorem grid_reach (g : Grid) (n : Nat) (s t : Cell) (hs : Inside g s) (ht : Inside g t)
    (hn : manhattan s t = n) : ∃ as, g.play s as = ((n : Int), t) := by
  induction n generalizing s with
  | zero =>
    refine ⟨[], ?_⟩
    have : s = t := by
      obtain ⟨x, y⟩ := s; obtain ⟨x', y'⟩ := t
      simp only [manhattan] at hn
      simp only [Cell.mk.injEq]; omega
    rw [this]; rfl
  | succ n ih =>
    have key : ∃ a, Inside g (shift s (displacement a)) ∧ manhattan (shift s (displacement a)) t = n := by
      obtain ⟨x, y⟩ := s; obtain ⟨x', y'⟩ := t
      simp only [manhattan, Inside] at *
      by_cases h1 : x < x'
      · exact ⟨.right, by simp only [shift, displacement]; omega, by simp only [shift, displacement]; omega⟩
      · by_cases h2 : x' < x
        · exact ⟨.left, by simp only [shift, displacement]; omega, by simp only [shift, displacement]; omega⟩
        · by_cases h3 : y < y'
          · exact ⟨.down, by simp only [shift, displacement]; omega, by simp only [shift, displacement]; omega⟩
          · exact ⟨.up, by simp only [shift, displacement]; omega, by simp only [shift, displacement]; omega⟩
    obtain ⟨a, h1, h2⟩ := key
    obtain ⟨h3, _, h5⟩ := (C39_grid_step g s a hs).2.1 h1
    obtain ⟨as, h6⟩ := ih _ h1 h2
    refine ⟨a :: as, ?_⟩
    rw [← h3] at h6
    rw [Grid.play, h6, h5]
    simp only [Prod.mk.injEq, and_true]
    push_cast; omega

/-- On the grid the Manhattan distance is exactly the least cost between two cells: no play is
cheaper and some play attains it. -/
theorem C50_grid_manhattan_exact (g : Grid) (s t : Cell) (hs : Inside g s) (ht : Inside g t) :
    (∀ as, (g.play s as).2 = t → (manhattan s t : Int) ≤ (g.play s as).1) ∧
    ∃ as, g.play s as = ((manhattan s t : Int), t) :=
  ⟨fun as h => h ▸ grid_ge g s as, grid_reach g _ s t hs ht rfl⟩

example : (Grid.mk 3 3).play ⟨0, 0⟩ [.right, .right, .down, .down] = (4, ⟨2, 2⟩) ∧
    (Grid.mk 3 3).play ⟨0, 0⟩ [.left, .right, .right, .down, .down] = (6, ⟨2, 2⟩) := by decide

/-! ### C40 -/

/-- Number of places where both rows have the same colour. -/
def exact (g s : List Nat) : Nat := ((List.range g.length).filter fun i => g[i]? = s[i]?).length

/-- How often colour `c` occurs in `g` at places where `g` and `s` differ. -/
def surplus (c : Nat) (g s : List Nat) : Nat :=
  ((List.range g.length).filter fun i => g[i]? = some c ∧ g[i]? ≠ s[i]?).length

theorem exact_eq (g s : List Nat) (h : g.length = s.length) :
    exact g s = (List.zipWith (fun a b => decide (a = b)) g s).count true := by
  induction g generalizing s with
  | nil => simp [exact]
  | cons a g ih =>
    cases s with
    | nil => simp at h
    | cons b s =>
      have := ih s (by simpa using h)
      simp only [exact, List.length_cons, List.range_succ_eq_map, List.zipWith_cons_cons,
        List.count_cons] at this ⊢
      rw [← this, List.filter_cons, List.filter_map]
      by_cases hab : a = b
      · simp [hab, Function.comp_def]
      · simp [hab, Function.comp_def]

theorem surplus_eq (c : Nat) (g s : List Nat) (h : g.length = s.length) :
    surplus c g s = (unmatched g (List.zipWith (fun a b => decide (a = b)) g s)).count c := by
  induction g generalizing s with
  | nil => simp [surplus, unmatched]
  | cons a g ih =>
    cases s with
    | nil => simp at h
    | cons b s =>
      have := ih s (by simpa using h)
      simp only [surplus, List.length_cons, List.range_succ_eq_map, List.zipWith_cons_cons,
        unmatched] at this ⊢
      rw [List.filter_cons, List.filter_map]
      by_cases hab : a = b
      · subst hab
        simpa [Function.comp_def] using this
      · by_cases hc : a = c
        · subst hc
          have hab' : ¬ (b = a) := fun h => hab h.symm
          simpa [hab, Function.comp_def] using this
        · simpa [hab, hc, Function.comp_def] using this

theorem unmatched_lt (k : Nat) (g : List Nat) (bs : List Bool) (h : ∀ x ∈ g, x < k) :
    ∀ x ∈ unmatched g bs, x < k := by
  induction g generalizing bs with
  | nil => simp [unmatched]
  | cons a g ih =>
    cases bs with
    | nil => simp [unmatched]
    | cons b bs =>
      have := ih bs (fun x hx => h x (by simp [hx]))
      cases b
      · simp only [unmatched, Bool.false_eq_true, if_false, List.mem_cons]
        rintro x (rfl | hx)
        · exact h x (by simp)
        · exact this x hx
      · simpa [unmatched] using this

/-- Guess and code of the same length: the score exists, its first component counts the places
with the same colour, and its second counts, colour by colour, how many of the remaining
guess pegs can be paired with remaining code pegs. -/
theorem C40_score (k : Nat) (solution guess : List Nat) (hl : guess.length = solution.length)
    (hg : ∀ c ∈ guess, c < k) :
    calcScore solution guess = .ok (exact guess solution,
      ((List.range k).map fun c => min (surplus c guess solution) (surplus c solution guess)).sum) := by
  have hb := bullsOf_ok (g := guess) (s := solution) (by omega)
  rw [calcScore, hb, bind_ok]
  have hlen : (List.zipWith (fun a b => decide (a = b)) guess solution).length = guess.length := by
    simp [hl]
  have hcows := cowsLoop_count solution (List.zipWith (fun a b => decide (a = b)) guess solution) guess
    (List.zipWith (fun a b => decide (a = b)) guess solution) (guess.map fun _ => false)
  rw [free_init _ _ _ hl.symm hlen] at hcows
  have hz : (guess.map fun _ => false).count true = 0 := by
    rw [List.count_eq_zero]; simp
  rw [hz, Nat.zero_add] at hcows
  show Except.ok _ = _
  congr 1
  refine Prod.ext (exact_eq _ _ hl).symm ?_
  simp only
  rw [hcows, ← sum_count_range _ k]
  · congr 1
    refine List.map_congr_left fun c _ => ?_
    rw [List.count_bagInter, surplus_eq c _ _ hl, surplus_eq c _ _ hl.symm, bulls_symm solution guess]
  · intro x hx
    exact unmatched_lt k guess _ hg x (List.mem_bagInter.1 hx).1

example : calcScore [0, 1, 1, 2] [1, 1, 0, 0] = .ok (1, 2) ∧ exact [1, 1, 0, 0] [0, 1, 1, 2] = 1 ∧
    surplus 1 [1, 1, 0, 0] [0, 1, 1, 2] = 1 ∧ surplus 0 [1, 1, 0, 0] [0, 1, 1, 2] = 2 := by decide

theorem bound_exists (l : List Nat) : ∃ k, ∀ c ∈ l, c < k := by
  induction l with
  | nil => exact ⟨0, by simp⟩
  | cons a l ih =>
    obtain ⟨k, hk⟩ := ih
    refine ⟨max k (a + 1), ?_⟩
    intro c hc
    rcases List.mem_cons.1 hc with rfl | hc
    · omega
    · have := hk c hc; omega

/-- Exchanging guess and code does not change the score. -/
theorem C40_symmetric (a b : List Nat) (hl : a.length = b.length) : calcScore a b = calcScore b a := by
  obtain ⟨k, hk⟩ := bound_exists (a ++ b)
  rw [C40_score k a b hl.symm (fun c hc => hk c (by simp [hc])),
    C40_score k b a hl (fun c hc => hk c (by simp [hc]))]
  rw [exact_eq _ _ hl, exact_eq _ _ hl.symm, bulls_symm]
  congr 2
  congr 1
  exact List.map_congr_left fun c _ => Nat.min_comm _ _

example : calcScore [0, 0, 1] [1, 0, 2] = .ok (1, 1) ∧ calcScore [1, 0, 2] [0, 0, 1] = .ok (1, 1) := by decide

theorem count_eq_length (g s : List Nat) (h : g.length = s.length) :
    (List.zipWith (fun a b => decide (a = b)) g s).count true = g.length ↔ g = s := by
  induction g generalizing s with
  | nil => cases s <;> simp_all
  | cons a g ih =>
    cases s with
    | nil => simp at h
    | cons b s =>
      have hl : g.length = s.length := by simpa using h
      have := ih s hl
      have hle : (List.zipWith (fun a b => decide (a = b)) g s).count true ≤ g.length := by
        refine Nat.le_trans List.count_le_length ?_
        simp [hl]
      simp only [List.zipWith_cons_cons, List.count_cons, List.length_cons, List.cons.injEq]
      by_cases hab : a = b
      · simp only [hab, decide_true, beq_self_eq_true, if_true, true_and, ← this]; omega
      · simp only [hab, decide_false, false_and, iff_false, beq_iff_eq, Bool.false_eq_true, if_false]; omega

/-- The score counts as many exact matches as there are places exactly when guess and code
agree; there are then no further matches, and never more matches than places. -/
theorem C40_all_exact (solution guess : List Nat) (hl : guess.length = solution.length) :
    ∃ b c, calcScore solution guess = .ok (b, c) ∧ b + c ≤ guess.length ∧
      (b = guess.length ↔ guess = solution) := by
  have hb := bullsOf_ok (g := guess) (s := solution) (by omega)
  have hlen : (List.zipWith (fun a b => decide (a = b)) guess solution).length = guess.length := by
    simp [hl]
  have hcows := cowsLoop_count solution (List.zipWith (fun a b => decide (a = b)) guess solution) guess
    (List.zipWith (fun a b => decide (a = b)) guess solution) (guess.map fun _ => false)
  have hz : (guess.map fun _ => false).count true = 0 := by
    rw [List.count_eq_zero]; simp
  have hle : (List.bagInter (unmatched guess (List.zipWith (fun a b => decide (a = b)) guess solution))
      (free solution (List.zipWith (fun a b => decide (a = b)) guess solution) (guess.map fun _ => false))).length
      ≤ (unmatched guess (List.zipWith (fun a b => decide (a = b)) guess solution)).length :=
    List.bagInter_sublist_left.length_le
  have hu := length_unmatched guess (List.zipWith (fun a b => decide (a = b)) guess solution) hlen.symm
  refine ⟨_, _, by rw [calcScore, hb, bind_ok]; rfl, by omega, ?_⟩
  exact count_eq_length _ _ hl

example : calcScore [2, 0] [2, 0] = .ok (2, 0) := by decide

/-- A guess longer than the code is an error. -/
theorem C40_longer_guess_raises (solution guess : List Nat) (h : solution.length < guess.length) :
    calcScore solution guess = .error .indexError := by
  rw [calcScore, bullsOf_error h]; rfl

example : calcScore [1] [1, 2] = .error .indexError := by decide

/-- The hidden codes are all rows of the declared length over the declared colours, each once. -/
theorem C40_codes (k n : Nat) :
    (∀ l, l ∈ hiddenSolutions k n ↔ l.length = n ∧ ∀ c ∈ l, c < k) ∧ (hiddenSolutions k n).Nodup ∧
    (hiddenSolutions k n).length = k ^ n :=
  ⟨hidden_mem k n, hidden_nodup k n, hidden_length k n⟩

example : hiddenSolutions 2 2 = [[0, 0], [0, 1], [1, 0], [1, 1]] := by decide

/-- A guess that is not the code, with at least one of its pegs unmatched, scores inside the
declared observation space.  Missing: scores with as many exact matches, or as many further
matches, as there are places (see the two theorems below). -/
theorem C40_in_space_partial (solution guess : List Nat) (hl : guess.length = solution.length)
    (b c : Nat) (h : calcScore solution guess = .ok (b, c)) (h1 : guess ≠ solution) (h2 : c < guess.length) :
    inObservationSpace guess.length (b, c) := by
  obtain ⟨b', c', h3, h4, h5⟩ := C40_all_exact solution guess hl
  rw [h] at h3
  cases h3
  refine ⟨?_, h2⟩
  have : b ≠ guess.length := fun hb => h1 (h5.1 hb)
  simp only
  omega

example : calcScore [0, 1] [1, 1] = .ok (1, 0) := by decide

/-- The score of the right guess is never inside the declared observation space. -/
theorem C40_win_outside_space (solution : List Nat) :
    ∃ b c, calcScore solution solution = .ok (b, c) ∧ ¬ inObservationSpace solution.length (b, c) := by
  obtain ⟨b, c, h1, _, h3⟩ := C40_all_exact solution solution rfl
  exact ⟨b, c, h1, fun h => Nat.lt_irrefl _ (h3.2 rfl ▸ h.1)⟩

/-- A guess with all colours right and all misplaced is not inside either. -/
theorem C40_all_misplaced_outside_space : ∃ s g b c, g ≠ s ∧ g.length = s.length ∧
    calcScore s g = .ok (b, c) ∧ ¬ inObservationSpace g.length (b, c) :=
  ⟨[0, 1], [1, 0], 0, 2, by decide, rfl, by decide, by simp [inObservationSpace]⟩

/-! ### C41 -/

/-- `a` wins against `b`. -/
inductive Beats : Hand → Hand → Prop
  | rock : Beats .rock .scissors
  | paper : Beats .paper .rock
  | scissors : Beats .scissors .paper

/-- The winner of a round gets 1, the loser -1, and equal hands give 0 each; so the rewards are
opposite, and swapping the players swaps the rewards. -/
theorem C41_rewards (a b : Hand) :
    (Beats a b → rewards a b = (1, -1)) ∧ (Beats b a → rewards a b = (-1, 1)) ∧
    (a = b → rewards a b = (0, 0)) ∧ (a = b ∨ Beats a b ∨ Beats b a) ∧
    (rewards a b).1 + (rewards a b).2 = 0 ∧ rewards b a = ((rewards a b).2, (rewards a b).1) := by
  refine ⟨?_, ?_, ?_, ?_, ?_, ?_⟩
  · rintro ⟨⟩ <;> rfl
  · rintro ⟨⟩ <;> rfl
  · rintro rfl; cases a <;> rfl
  · cases a <;> cases b <;> first | exact .inl rfl | exact .inr (.inl (by constructor)) |
      exact .inr (.inr (by constructor))
  · cases a <;> cases b <;> rfl
  · cases a <;> cases b <;> rfl

example : rewards .paper .rock = (1, -1) := rfl

theorem rpsPlay_spec (maxMoves n : Int) (rounds : List (Hand × Hand)) :
    rpsPlay maxMoves n rounds =
      ((rounds.take (max 1 (maxMoves - n)).toNat).map fun p => rewards p.1 p.2,
       decide ((max 1 (maxMoves - n)).toNat ≤ rounds.length)) := by
  induction rounds generalizing n with
  | nil =>
    simp only [rpsPlay, List.take_nil, List.map_nil, List.length_nil, Prod.mk.injEq, true_and]
    have : ¬ (max 1 (maxMoves - n)).toNat ≤ 0 := by omega
    simp [this]
  | cons p rest ih =>
    obtain ⟨a, b⟩ := p
    simp only [rpsPlay, rpsStep, ih]
    by_cases h : n + 1 ≥ maxMoves
    · have : (max 1 (maxMoves - n)).toNat = 1 := by omega
      simp [h, this]
    · have h1 : (max 1 (maxMoves - n)).toNat = (max 1 (maxMoves - (n + 1))).toNat + 1 := by omega
      simp [h, h1]

/-- From the start the game ends exactly when the declared number of rounds (at least one) has
been played, whatever is played; every played round is rewarded by the table. -/
theorem C41_length (maxMoves : Int) (rounds : List (Hand × Hand)) :
    ((rpsPlay maxMoves 0 rounds).2 = true ↔ 1 ≤ rounds.length ∧ maxMoves ≤ rounds.length) ∧
    ((rpsPlay maxMoves 0 rounds).2 = true → 1 ≤ maxMoves →
      ((rpsPlay maxMoves 0 rounds).1.length : Int) = maxMoves) ∧
    (∀ r ∈ (rpsPlay maxMoves 0 rounds).1, r.1 + r.2 = 0) := by
  rw [rpsPlay_spec]
  refine ⟨by simp only [decide_eq_true_eq]; omega, ?_, ?_⟩
  · simp only [decide_eq_true_eq, List.length_map, List.length_take]; omega
  · intro r hr
    obtain ⟨p, _, rfl⟩ := List.mem_map.1 hr
    exact (C41_rewards p.1 p.2).2.2.2.2.1

example : rpsPlay 2 0 [(.rock, .paper), (.paper, .paper), (.rock, .rock)] = ([(-1, 1), (0, 0)], true) := by
  decide

/-! ### C42 -/

theorem indexOf_ok [DecidableEq α] {x : α} {l : List α} {i : Nat} :
    indexOf x l = .ok i ↔ l[i]? = some x ∧ ∀ j < i, l[j]? ≠ some x := by
  induction l generalizing i with
  | nil => simp [indexOf]
  | cons y ys ih =>
    rw [indexOf]
    by_cases h : y = x
    · rw [if_pos h]
      constructor
      · intro h'; cases h'; simp [h]
      · rintro ⟨_, h2⟩
        cases i with
        | zero => rfl
        | succ i => exact absurd (by simp [h]) (h2 0 (by omega))
    · rw [if_neg h, bind_eq_ok]
      constructor
      · rintro ⟨j, h1, h2⟩
        cases h2
        obtain ⟨h3, h4⟩ := ih.1 h1
        refine ⟨by simpa using h3, ?_⟩
        intro k hk
        cases k with
        | zero => simp [h]
        | succ k => simpa using h4 k (by omega)
      · rintro ⟨h1, h2⟩
        cases i with
        | zero => simp at h1; exact absurd h1 h
        | succ i =>
          refine ⟨i, ih.2 ⟨by simpa using h1, ?_⟩, rfl⟩
          intro j hj
          simpa using h2 (j + 1) (by omega)

theorem indexOf_of_mem [DecidableEq α] {x : α} {l : List α} (h : x ∈ l) : ∃ i, indexOf x l = .ok i := by
  induction l with
  | nil => simp at h
  | cons y ys ih =>
    rw [indexOf]
    by_cases hy : y = x
    · exact ⟨0, by rw [if_pos hy]⟩
    · rw [if_neg hy]
      obtain ⟨i, hi⟩ := ih (by rcases List.mem_cons.1 h with h | h; exact absurd h.symm hy; exact h)
      exact ⟨i + 1, by rw [hi]; rfl⟩

theorem indexOf_error [DecidableEq α] {x : α} {l : List α} (h : x ∉ l) : indexOf x l = .error .valueError := by
  induction l with
  | nil => rfl
  | cons y ys ih =>
    simp only [List.mem_cons, not_or] at h
    rw [indexOf, if_neg (fun hy => h.1 hy.symm), ih h.2]; rfl

theorem pyAt_nat (l : List α) (i : Nat) (x : α) : pyAt l (i : Int) = .ok x ↔ l[i]? = some x := by
  rw [pyAt, if_pos (by omega)]
  simp [pyGet_ok_iff]

/-- Members converted to indices and back are unchanged, whether or not the list of elements
has duplicates; the indices are in range. -/
theorem C42_members_round_trip [DecidableEq α] (elements xs : List α) (h : ∀ x ∈ xs, x ∈ elements) :
    ∃ is : List Nat, toUnwrapped elements xs = .ok is ∧ (∀ i ∈ is, i < elements.length) ∧
      is.length = xs.length ∧ fromUnwrapped elements (is.map Int.ofNat) = .ok xs := by
  induction xs with
  | nil => exact ⟨[], rfl, by simp, rfl, rfl⟩
  | cons x xs ih =>
    obtain ⟨is, h1, h2, h3, h4⟩ := ih (fun y hy => h y (by simp [hy]))
    obtain ⟨i, hi⟩ := indexOf_of_mem (h x (by simp))
    have hx := (indexOf_ok.1 hi).1
    refine ⟨i :: is, ?_, ?_, by simp [h3], ?_⟩
    · rw [toUnwrapped] at h1 ⊢
      rw [List.mapM_cons, hi, bind_ok, h1, bind_ok]; rfl
    · intro j hj
      rcases List.mem_cons.1 hj with rfl | hj
      · exact (List.getElem?_eq_some_iff.1 hx).1
      · exact h2 j hj
    · rw [fromUnwrapped] at h4 ⊢
      rw [List.map_cons, List.mapM_cons, show pyAt elements (Int.ofNat i) = .ok _ from (pyAt_nat _ _ _).2 hx, bind_ok, h4, bind_ok]; rfl

example : toUnwrapped ["a", "b", "a"] ["a", "b"] = .ok [0, 1] ∧
    fromUnwrapped ["a", "b", "a"] [0, 1] = .ok ["a", "b"] := by decide

/-- Indices converted to members and back are unchanged when the elements are distinct. -/
theorem C42_indices_round_trip [DecidableEq α] (elements : List α) (hn : elements.Nodup) (is : List Nat)
    (h : ∀ i ∈ is, i < elements.length) :
    ∃ xs, fromUnwrapped elements (is.map Int.ofNat) = .ok xs ∧ toUnwrapped elements xs = .ok is := by
  induction is with
  | nil => exact ⟨[], rfl, rfl⟩
  | cons i is ih =>
    obtain ⟨xs, h1, h2⟩ := ih (fun y hy => h y (by simp [hy]))
    have hi := h i (by simp)
    have hx : elements[i]? = some elements[i] := List.getElem?_eq_getElem hi
    have hidx : indexOf elements[i] elements = .ok i := by
      refine indexOf_ok.2 ⟨hx, ?_⟩
      intro j hj hj'
      obtain ⟨hj1, hj2⟩ := List.getElem?_eq_some_iff.1 hj'
      have := (hn.getElem_inj_iff (hi := hj1) (hj := hi)).1 hj2
      omega
    refine ⟨elements[i] :: xs, ?_, ?_⟩
    · rw [fromUnwrapped] at h1 ⊢
      rw [List.map_cons, List.mapM_cons, show pyAt elements (Int.ofNat i) = .ok _ from (pyAt_nat _ _ _).2 hx, bind_ok, h1, bind_ok]; rfl
    · rw [toUnwrapped] at h2 ⊢
      rw [List.mapM_cons, hidx, bind_ok, h2, bind_ok]; rfl

example : fromUnwrapped ["a", "b"] [1, 0, 1] = .ok ["b", "a", "b"] := by decide

/-- With duplicates the index is lost: the first one comes back. -/
theorem C42_duplicate_index_lost : ∃ (elements : List Nat) (i : Int) (xs : List Nat) (j : Nat),
    fromUnwrapped elements [i] = .ok xs ∧ toUnwrapped elements xs = .ok [j] ∧ (j : Int) ≠ i :=
  ⟨[7, 7], 1, [7], 0, by decide, by decide, by decide⟩

/-- Converting something that is not a member raises `ValueError`, and an index past the end
raises `IndexError`. -/
theorem C42_errors [DecidableEq α] (elements : List α) :
    (∀ x xs, x ∉ elements → toUnwrapped elements (x :: xs) = .error .valueError) ∧
    (∀ (i : Nat) is, elements.length ≤ i → fromUnwrapped elements ((i : Int) :: is) = .error .indexError) := by
  refine ⟨?_, ?_⟩
  · intro x xs hx
    rw [toUnwrapped, List.mapM_cons, indexOf_error hx]; rfl
  · intro i is hi
    rw [fromUnwrapped, List.mapM_cons]
    have : pyAt elements (i : Int) = .error .indexError := by
      rw [pyAt, if_pos (by omega)]
      simp [pyGet, List.getElem?_eq_none hi]
    rw [this]; rfl

example : toUnwrapped [1, 2] [3] = .error .valueError ∧ fromUnwrapped [1, 2] [2] = .error .indexError := by decide

/-- Sampling with an index the wrapped space can draw gives an element, and every element is
given by some draw. -/
theorem C42_samples_are_elements (elements : List α) :
    (∀ draw < elements.length, ∃ x ∈ elements, sampleAt elements draw = .ok x) ∧
    (∀ x ∈ elements, ∃ draw < elements.length, sampleAt elements draw = .ok x) := by
  refine ⟨?_, ?_⟩
  · intro d hd
    exact ⟨elements[d], List.getElem_mem hd, by rw [sampleAt, pyGet_of_lt hd]⟩
  · intro x hx
    obtain ⟨i, hi, rfl⟩ := List.mem_iff_getElem.1 hx
    exact ⟨i, hi, by rw [sampleAt, pyGet_of_lt hi]⟩

example : sampleAt ["a", "b"] 1 = .ok "b" := by decide

/-- Members of an enumeration written as names and read back are unchanged; an alias reads as
the member it stands for, and an unknown name raises. -/
theorem C42_enum_json (e : Enum) :
    (∀ xs, (∀ x ∈ xs, x ∈ e.names) → e.fromJson (Enum.toJson xs) = .ok xs) ∧
    (∀ s x, s ∉ e.names → e.aliases.get? s = some x → e.fromJson [s] = .ok [x]) ∧
    (∀ s, s ∉ e.names → e.aliases.get? s = none → e.fromJson [s] = .error .keyError) := by
  refine ⟨?_, ?_, ?_⟩
  · intro xs h
    induction xs with
    | nil => rfl
    | cons x xs ih =>
      have := ih (fun y hy => h y (by simp [hy]))
      rw [Enum.fromJson, Enum.toJson] at this ⊢
      rw [List.mapM_cons, if_pos (h x (by simp)), bind_ok, this, bind_ok]; rfl
  · intro s x hs hx
    rw [Enum.fromJson, List.mapM_cons, if_neg hs]
    simp only [Dict.get, hx]; rfl
  · intro s hs hx
    rw [Enum.fromJson, List.mapM_cons, if_neg hs]
    simp [Dict.get, hx]

example : (Enum.mk ["up", "down"] [("north", "up")]).fromJson ["down", "north"] = .ok ["down", "up"] := by decide

/-! ### C38 -/

theorem argmaxFrom_spec (pre vs : List Rat) (best : Nat) (bv : Rat) (hb : pre[best]? = some bv)
    (h1 : ∀ (j : Nat) v, pre[j]? = some v → v ≤ bv) (h2 : ∀ j < best, ∀ v, pre[j]? = some v → v < bv) :
    ∃ w, (pre ++ vs)[argmaxFrom vs pre.length best bv]? = some w ∧
      (∀ v ∈ pre ++ vs, v ≤ w) ∧ ∀ j < argmaxFrom vs pre.length best bv, ∀ v, (pre ++ vs)[j]? = some v → v < w := by
  induction vs generalizing pre best bv with
  | nil =>
    refine ⟨bv, by simpa [argmaxFrom] using hb, ?_, by simpa [argmaxFrom] using h2⟩
    intro v hv
    obtain ⟨j, hj, rfl⟩ := List.mem_iff_getElem.1 (by simpa using hv)
    exact h1 j _ (List.getElem?_eq_getElem hj)
  | cons v vs ih =>
    rw [argmaxFrom]
    have happ : pre ++ v :: vs = (pre ++ [v]) ++ vs := by simp
    have hlen : pre.length + 1 = (pre ++ [v]).length := by simp
    have hget : ∀ (j : Nat) w, (pre ++ [v])[j]? = some w → pre[j]? = some w ∨ (j = pre.length ∧ w = v) := by
      intro j w h
      rw [List.getElem?_append] at h
      split at h
      · exact .inl h
      · rename_i hj
        obtain ⟨h3, h4⟩ := List.getElem?_eq_some_iff.1 h
        simp at h3
        refine .inr ⟨by omega, ?_⟩
        simp at h4; exact h4.symm
    by_cases h : bv < v
    · rw [if_pos h, happ, hlen]
      refine ih (pre ++ [v]) pre.length v (by simp) ?_ ?_
      · intro j w hw
        rcases hget j w hw with h3 | ⟨_, rfl⟩
        · have := h1 j w h3; linarith
        · exact le_refl _
      · intro j hj w hw
        rcases hget j w hw with h3 | ⟨h4, _⟩
        · have := h1 j w h3; linarith
        · omega
    · rw [if_neg h, happ, hlen]
      have hbl := (List.getElem?_eq_some_iff.1 hb).1
      refine ih (pre ++ [v]) best bv ?_ ?_ ?_
      · rw [List.getElem?_append_left hbl]; exact hb
      · intro j w hw
        rcases hget j w hw with h3 | ⟨_, rfl⟩
        · exact h1 j w h3
        · exact not_lt.1 h
      · intro j hj w hw
        rcases hget j w hw with h3 | ⟨h4, _⟩
        · exact h2 j hj w h3
        · omega

/-- Expected immediate reward of an action. -/
def value (dist : α → List (σ × Rat)) (reward : α → σ → Rat) (a : α) : Rat :=
  ((dist a).map fun p => p.2 * reward a p.1).sum

/-- When rewards depend on the next state, the solver returns the first applicable action of
largest expected immediate reward, and raises only when there is no applicable action. -/
theorem C38_greedy (elements : List α) (dist : α → List (σ × Rat)) (reward : α → σ → Rat) :
    (elements = [] → greedy true elements dist reward = .error .valueError) ∧
    (elements ≠ [] → ∃ pre a post, elements = pre ++ a :: post ∧ greedy true elements dist reward = .ok a ∧
      (∀ b ∈ elements, value dist reward b ≤ value dist reward a) ∧
      (∀ b ∈ pre, value dist reward b < value dist reward a)) := by
  refine ⟨by rintro rfl; rfl, ?_⟩
  intro hne
  obtain ⟨e, es, rfl⟩ := List.exists_cons_of_ne_nil hne
  have h := argmaxFrom_spec [value dist reward e] (es.map (value dist reward)) 0 (value dist reward e) rfl
    (by intro j v hv; cases j <;> simp at hv; subst hv; exact le_refl _) (by omega)
  obtain ⟨w, h1, h2, h3⟩ := h
  have hmap : [value dist reward e] ++ es.map (value dist reward) = (e :: es).map (value dist reward) := rfl
  rw [hmap] at h1 h2 h3
  simp only [List.length_singleton] at h1 h3
  have hg : greedy true (e :: es) dist reward =
      pyGet (e :: es) (argmaxFrom (es.map (value dist reward)) 1 0 (value dist reward e)) := rfl
  rw [hg]
  generalize argmaxFrom (es.map (value dist reward)) 1 0 (value dist reward e) = i at *
  have hi : i < (e :: es).length := by
    have := (List.getElem?_eq_some_iff.1 h1).1
    simpa using this
  have hw : w = value dist reward (e :: es)[i] := by
    rw [List.getElem?_map, List.getElem?_eq_getElem hi] at h1
    simpa using h1.symm
  refine ⟨(e :: es).take i, (e :: es)[i], (e :: es).drop (i + 1), ?_, pyGet_of_lt hi, ?_, ?_⟩
  · rw [List.getElem_cons_drop hi, List.take_append_drop]
  · intro b hb
    rw [← hw]
    exact h2 _ (List.mem_map_of_mem hb)
  · intro b hb
    obtain ⟨j, hj, rfl⟩ := List.mem_iff_getElem.1 hb
    rw [← hw]
    simp only [List.length_take] at hj
    have hj' : j < (e :: es).length := by omega
    refine h3 j (by omega) _ ?_
    rw [List.getElem?_map, List.getElem?_eq_getElem hj', List.getElem_take]
    rfl

example : greedy true ["a", "b", "c"] (fun _ => [(0, 1/2), (1, 1/2)])
    (fun a s => if a = "a" then 1 else if s = 0 then 4 else 2) = .ok "b" := by decide +kernel

/-- When rewards do not depend on the next state the solver always raises: the loop runs over
the action space itself, which cannot be iterated. -/
theorem C38_independent_raises (elements : List α) (dist : α → List (σ × Rat)) (reward : α → σ → Rat) :
    greedy false elements dist reward = .error .typeError := rfl

end Verif.Worlds
