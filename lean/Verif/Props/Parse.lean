import Verif.Lemmas.Parse
/-
Properties of the readers of instance files: C164 (knapsack, colouring, travelling salesman,
vehicle routing, facility location).
-/
namespace Verif.Parse
open Verif

/-- The text of a string. -/
abbrev chars (s : String) : List Char := s.toList

/-- **C164** (numbers).  The decimal notation of every integer is read as this integer, and every
decimal notation of a rational number as this number, also with white space around it. -/
theorem C164_numbers (n : Int) (w l : List Char) (q : Rat) :
    pyInt (writeInt n) = .ok n ∧ (Spells [writeInt n] l → pyInt l = .ok n) ∧
      (Writes w q → pyFloat w = .ok q) :=
  ⟨pyInt_write n, pyInt_line, pyFloat_writes⟩

example : writeInt (-120) = chars "-120" ∧ writeInt 0 = chars "0" ∧
    writeDec true 1205 2 = chars "-12.05" ∧ writeDec false 7 0 = chars "7" ∧
    pyFloat (chars "-12.05") = .ok (-1205 / 100) ∧ pyInt (chars " +3\t") = .ok 3 ∧
    pyInt (chars "3.5") = .error .valueError ∧ pyInt [] = .error .valueError := by decide +kernel

/-- **C164** (lines and words).  A text is split into exactly its lines, and a line into exactly
its words, however they are separated; every line has exactly one list of words. -/
theorem C164_words (ls : List (List Char)) (hne : ls ≠ []) (hl : ∀ l ∈ ls, '\n' ∉ l) (l : List Char)
    (ws : List (List Char)) :
    pyLines (text ls) = ls ∧ (Spells ws l ↔ pyWords l = ws) :=
  ⟨pyLines_text hne hl, pyWords_spells, fun h => h ▸ spells_pyWords l⟩

example : pyWords (chars "  12\t 3  ") = [chars "12", chars "3"] ∧
    pyLines (chars "a b\n\nc\n") = [chars "a b", [], chars "c", []] := by decide +kernel

/-- **C164** (knapsack).  For every capacity and every list of items, a file with their number and
the capacity on the first line and the value and weight of each item on the lines after it — any
spacing, any further words on these lines, any lines after them — is read as this capacity and
these items, numbered from zero. -/
theorem C164_knapsack (cap : Int) (items : List (Int × Int)) (head : List Char)
    (body rest : List (List Char)) (hh : Begins [writeInt items.length, writeInt cap] head)
    (hb : List.Forall₂ (fun it l => Begins [writeInt it.1, writeInt it.2] l) items body)
    (hr : ∀ l ∈ rest, '\n' ∉ l) :
    knapsack (text (head :: (body ++ rest))) =
      .ok (cap, items.mapIdx fun i it => ⟨i, it.1, it.2⟩) := by
  have hlines := lines_of (head := head) (body := body) (rest := rest) hh.1
    (fun l hl => by obtain ⟨_, _, h⟩ := forall₂_right hb l hl; exact h.1) hr
  obtain ⟨more, hw⟩ := begins_words hh
  unfold knapsack
  simp only [hlines]
  rw [show (0 : Int) = ((0 : Nat) : Int) from rfl, wordsAt_nat (List.getElem?_cons_zero), bind_ok, hw,
    intAt_write (n := items.length) rfl, bind_ok, intAt_write (n := cap) rfl, bind_ok]
  have := loop_ok (lines := head :: (body ++ rest)) (a := 1)
    (ys := items.mapIdx fun i it => (⟨i, it.1, it.2⟩ : Item))
    (g := fun i parts => intAt parts 0 >>= fun v => intAt parts 1 >>= fun w => .ok ⟨i - 1, v, w⟩) (by
      intro k y hy
      rw [List.getElem?_mapIdx, Option.map_eq_some_iff] at hy
      obtain ⟨it, hit, rfl⟩ := hy
      obtain ⟨l, hl, hbl⟩ := forall₂_at hb k it hit
      obtain ⟨more, hw⟩ := begins_words hbl
      refine ⟨l, at_body hl, ?_⟩
      rw [hw, intAt_write (n := it.1) rfl, bind_ok, intAt_write (n := it.2) rfl, bind_ok]
      congr 2; omega)
  rw [List.length_mapIdx] at this
  rw [pyRange_one, this, bind_ok]

example : knapsack (chars "3 10\n 8 4\n10\t5 kg\n15 8\n\nend") =
    .ok (10, [⟨0, 8, 4⟩, ⟨1, 10, 5⟩, ⟨2, 15, 8⟩]) := by decide +kernel

/-- **C164** (short knapsack files).  When the first line announces more items than there are
lines after it, and these lines are well formed, reading raises `IndexError`. -/
theorem C164_knapsack_short (cap : Int) (count : Nat) (items : List (Int × Int)) (head : List Char)
    (body : List (List Char)) (hh : Begins [writeInt count, writeInt cap] head)
    (hb : List.Forall₂ (fun it l => Begins [writeInt it.1, writeInt it.2] l) items body)
    (hs : items.length < count) :
    knapsack (text (head :: body)) = .error .indexError := by
  have hlines := lines_of (head := head) (body := body) (rest := []) hh.1
    (fun l hl => by obtain ⟨_, _, h⟩ := forall₂_right hb l hl; exact h.1) (by simp)
  rw [List.append_nil] at hlines
  obtain ⟨more, hw⟩ := begins_words hh
  unfold knapsack
  simp only [hlines]
  rw [show (0 : Int) = ((0 : Nat) : Int) from rfl, wordsAt_nat (List.getElem?_cons_zero), bind_ok, hw,
    intAt_write (n := count) rfl, bind_ok, intAt_write (n := cap) rfl, bind_ok]
  have hlen := hb.length_eq
  have := loop_error (lines := head :: body) (a := 1) (m := items.length) (n := count) (e := .indexError)
    (g := fun i parts => intAt parts 0 >>= fun v => intAt parts 1 >>= fun w => .ok (⟨i - 1, v, w⟩ : Item)) hs
    (by
      intro k hk
      obtain ⟨it, hit⟩ : ∃ it, items[k]? = some it := ⟨items[k], List.getElem?_eq_getElem hk⟩
      obtain ⟨l, hl, hbl⟩ := forall₂_at hb k it hit
      obtain ⟨more, hw⟩ := begins_words hbl
      refine ⟨_, l, ?_, by rw [hw, intAt_write (n := it.1) rfl, bind_ok, intAt_write (n := it.2) rfl, bind_ok]⟩
      have := at_body (head := head) (rest := []) hl
      rwa [List.append_nil] at this)
    (by rw [wordsAt_none (by simp only [List.length_cons]; omega), bind_error])
  rw [pyRange_one, this, bind_error]

example : knapsack (chars "3 10\n8 4\n10 5") = .error .indexError := by decide +kernel

/-- **C164** (colouring).  For every number of nodes and every list of edges, a file with both
numbers on the first line and the ends of each edge on the lines after it is read as the nodes
numbered from zero and these edges, in this order. -/
theorem C164_coloring (n : Nat) (edges : List (Int × Int)) (head : List Char)
    (body rest : List (List Char)) (hh : Begins [writeInt n, writeInt edges.length] head)
    (hb : List.Forall₂ (fun e l => Begins [writeInt e.1, writeInt e.2] l) edges body)
    (hr : ∀ l ∈ rest, '\n' ∉ l) :
    coloring (text (head :: (body ++ rest))) = .ok ((List.range n).map Int.ofNat, edges) := by
  have hlines := lines_of (head := head) (body := body) (rest := rest) hh.1
    (fun l hl => by obtain ⟨_, _, h⟩ := forall₂_right hb l hl; exact h.1) hr
  obtain ⟨more, hw⟩ := begins_words hh
  have hnodes : pyRange 0 n = (List.range n).map Int.ofNat := by
    unfold pyRange
    rw [show ((n : Int) - 0).toNat = n by omega]
    apply List.map_congr_left
    intro k _
    show 0 + (k : Int) = (k : Int)
    omega
  unfold coloring
  simp only [hlines]
  rw [show wordsAt (head :: (body ++ rest)) 0 = _ from wordsAt_nat (n := 0) (List.getElem?_cons_zero), bind_ok, hw,
    intAt_write (n := n) rfl, bind_ok, intAt_write (n := edges.length) rfl, bind_ok, hnodes]
  have := loop_ok (lines := head :: (body ++ rest)) (a := 1) (ys := edges)
    (g := fun _ parts => intAt parts 0 >>= fun a => intAt parts 1 >>= fun b => .ok (a, b)) (by
      intro k e he
      obtain ⟨l, hl, hbl⟩ := forall₂_at hb k e he
      obtain ⟨more, hw⟩ := begins_words hbl
      exact ⟨l, at_body hl, by
        rw [hw, intAt_write (n := e.1) rfl, bind_ok, intAt_write (n := e.2) rfl, bind_ok]⟩)
  rw [pyRange_one, this, bind_ok]

example : coloring (chars "4 3\n0 1\n1 2\n1 3\n") = .ok ([0, 1, 2, 3], [(0, 1), (1, 2), (1, 3)]) := by
  decide +kernel

/-- **C164** (refuted for nodes outside the range).  The nodes of an edge are not compared with
the number of nodes: a file counting its nodes from one is read with an edge to a node that is
not among the nodes. -/
theorem C164_coloring_range_refuted :
    coloring (chars "2 1\n1 2") = .ok ([0, 1], [(1, 2)]) ∧ (2 : Int) ∉ ([0, 1] : List Int) := by
  decide +kernel

/-- **C164** (travelling salesman).  For every list of points, a file with their number alone on
the first line and the coordinates on the lines after it is read as these points. -/
theorem C164_tsp (points : List (Rat × Rat)) (head : List Char) (body rest : List (List Char))
    (hh : '\n' ∉ head ∧ Spells [writeInt points.length] head)
    (hb : List.Forall₂ (fun p l => ∃ x y, Writes x p.1 ∧ Writes y p.2 ∧ Begins [x, y] l) points body)
    (hr : ∀ l ∈ rest, '\n' ∉ l) :
    tsp (text (head :: (body ++ rest))) = .ok (points, points.length) := by
  have hlines := lines_of (head := head) (body := body) (rest := rest) hh.1
    (fun l hl => by obtain ⟨_, _, _, _, _, _, h⟩ := forall₂_right hb l hl; exact h.1) hr
  unfold tsp
  simp only [hlines]
  rw [show pyAt (head :: (body ++ rest)) 0 = .ok head from by
      rw [show (0 : Int) = ((0 : Nat) : Int) from rfl, pyAt_nat]; rfl,
    bind_ok, pyInt_line hh.2, bind_ok]
  have := loop_ok (lines := head :: (body ++ rest)) (a := 1) (ys := points)
    (g := fun _ parts => floatAt parts 0 >>= fun x => floatAt parts 1 >>= fun y => .ok (x, y)) (by
      intro k p hp
      obtain ⟨l, hl, x, y, hx, hy, hbl⟩ := forall₂_at hb k p hp
      obtain ⟨more, hw⟩ := begins_words hbl
      exact ⟨l, at_body hl, by
        rw [hw, floatAt_writes rfl hx, bind_ok, floatAt_writes rfl hy, bind_ok]⟩)
  rw [pyRange_one, this, bind_ok]

example : tsp (chars " 2 \n0.5 -1\n3 4.25\n") = .ok ([(1 / 2, -1), (3, 17 / 4)], 2) := by decide +kernel

/-- **C164** (refuted for a further word on the first line).  The first line of a travelling
salesman file is converted as a whole: a second word, which all other readers ignore, raises
`ValueError`. -/
theorem C164_tsp_head_refuted :
    tsp (chars "1 nodes\n0 0") = .error .valueError ∧
      knapsack (chars "1 5 items\n3 2") = .ok (5, [⟨0, 3, 2⟩]) := by decide +kernel

/-- **C164** (vehicle routing).  For every list of customers, number of vehicles and capacity, a
file with their number, the vehicles and the capacity on the first line and demand and
coordinates of each customer on the lines after it is read as these customers, numbered from
zero.  A number of vehicles given by the caller replaces the one of the file.  Every vehicle has
the capacity of the file and the start and end given by the caller. -/
theorem C164_vrp (vehicles cap start stop : Int) (given : Option Int)
    (customers : List (Int × Rat × Rat)) (head : List Char) (body rest : List (List Char))
    (hh : Begins [writeInt customers.length, writeInt vehicles, writeInt cap] head)
    (hb : List.Forall₂ (fun c l => ∃ x y, Writes x c.2.1 ∧ Writes y c.2.2 ∧ Begins [writeInt c.1, x, y] l)
      customers body)
    (hr : ∀ l ∈ rest, '\n' ∉ l) :
    ∃ p, vrp (text (head :: (body ++ rest))) start stop given = .ok p ∧
      p.vehicles = given.getD vehicles ∧ p.count = customers.length ∧
      p.customers = customers.mapIdx (fun i c => ⟨i, c.1, c.2.1, c.2.2⟩) ∧
      p.capacities.length = (given.getD vehicles).toNat ∧ (∀ c ∈ p.capacities, c = cap) ∧
      p.starts.length = (given.getD vehicles).toNat ∧ (∀ s ∈ p.starts, s = start) ∧
      p.ends.length = (given.getD vehicles).toNat ∧ (∀ s ∈ p.ends, s = stop) := by
  have hlines := lines_of (head := head) (body := body) (rest := rest) hh.1
    (fun l hl => by obtain ⟨_, _, _, _, _, _, h⟩ := forall₂_right hb l hl; exact h.1) hr
  obtain ⟨more, hw⟩ := begins_words hh
  unfold vrp
  simp only [hlines]
  have hv : vehiclesOf given ([writeInt customers.length, writeInt vehicles, writeInt cap] ++ more) =
      .ok (given.getD vehicles) := by
    cases given with
    | none => exact intAt_write (n := vehicles) rfl
    | some v => rfl
  rw [show wordsAt (head :: (body ++ rest)) 0 = _ from wordsAt_nat (n := 0) (List.getElem?_cons_zero), bind_ok, hw,
    intAt_write (n := customers.length) rfl, bind_ok, hv, bind_ok, intAt_write (n := cap) rfl, bind_ok]
  have := loop_ok (lines := head :: (body ++ rest)) (a := 1)
    (ys := customers.mapIdx fun i c => (⟨i, c.1, c.2.1, c.2.2⟩ : Customer))
    (g := fun i parts => intAt parts 0 >>= fun d => floatAt parts 1 >>= fun x => floatAt parts 2 >>= fun y =>
      .ok ⟨i - 1, d, x, y⟩) (by
      intro k y hy
      rw [List.getElem?_mapIdx, Option.map_eq_some_iff] at hy
      obtain ⟨c, hc, rfl⟩ := hy
      obtain ⟨l, hl, x, y, hx, hy, hbl⟩ := forall₂_at hb k c hc
      obtain ⟨more, hw⟩ := begins_words hbl
      refine ⟨l, at_body hl, ?_⟩
      rw [hw, intAt_write (n := c.1) rfl, bind_ok, floatAt_writes rfl hx, bind_ok, floatAt_writes rfl hy, bind_ok]
      congr 2; omega)
  rw [List.length_mapIdx] at this
  rw [pyRange_one, this, bind_ok]
  refine ⟨_, rfl, rfl, rfl, rfl, ?_, ?_, ?_, ?_, ?_, ?_⟩
  all_goals simp

example : vrp (chars "2 3 10\n0 0 0\n3 1.5 2\n") 0 1 (some 2) =
    .ok ⟨2, [10, 10], 2, [⟨0, 0, 0, 0⟩, ⟨1, 3, 3 / 2, 2⟩], [0, 0], [1, 1]⟩ := by decide +kernel

/-- **C164** (facility location).  For every list of facilities and customers, a file with both
numbers on the first line, then setup cost, capacity and coordinates of each facility, then
demand and coordinates of each customer, is read as these, each list numbered from zero. -/
theorem C164_facility (sites : List (Rat × Int × Rat × Rat)) (customers : List (Int × Rat × Rat))
    (head : List Char) (body body' rest : List (List Char))
    (hh : Begins [writeInt sites.length, writeInt customers.length] head)
    (hb : List.Forall₂ (fun s l => ∃ c x y, Writes c s.1 ∧ Writes x s.2.2.1 ∧ Writes y s.2.2.2 ∧
      Begins [c, writeInt s.2.1, x, y] l) sites body)
    (hb' : List.Forall₂ (fun c l => ∃ x y, Writes x c.2.1 ∧ Writes y c.2.2 ∧ Begins [writeInt c.1, x, y] l)
      customers body')
    (hr : ∀ l ∈ rest, '\n' ∉ l) :
    facility (text (head :: (body ++ (body' ++ rest)))) =
      .ok ⟨sites.length, customers.length,
        sites.mapIdx (fun i s => ⟨i, s.1, s.2.1, s.2.2.1, s.2.2.2⟩),
        customers.mapIdx (fun i c => ⟨i, c.1, c.2.1, c.2.2⟩)⟩ := by
  have hlines := lines_of (head := head) (body := body) (rest := body' ++ rest) hh.1
    (fun l hl => by obtain ⟨_, _, _, _, _, _, _, _, h⟩ := forall₂_right hb l hl; exact h.1) (by
      intro l hl
      rcases List.mem_append.1 hl with hl | hl
      · obtain ⟨_, _, _, _, _, _, h⟩ := forall₂_right hb' l hl; exact h.1
      · exact hr l hl)
  obtain ⟨more, hw⟩ := begins_words hh
  unfold facility
  simp only [hlines]
  rw [show wordsAt (head :: (body ++ (body' ++ rest))) 0 = _ from wordsAt_nat (n := 0) (List.getElem?_cons_zero),
    bind_ok, hw, intAt_write (n := sites.length) rfl, bind_ok, intAt_write (n := customers.length) rfl, bind_ok]
  have h1 := loop_ok (lines := head :: (body ++ (body' ++ rest))) (a := 1)
    (ys := sites.mapIdx fun i s => (⟨i, s.1, s.2.1, s.2.2.1, s.2.2.2⟩ : Site))
    (g := fun i parts => floatAt parts 0 >>= fun s => intAt parts 1 >>= fun c => floatAt parts 2 >>= fun x =>
      floatAt parts 3 >>= fun y => .ok ⟨i - 1, s, c, x, y⟩) (by
      intro k y hy
      rw [List.getElem?_mapIdx, Option.map_eq_some_iff] at hy
      obtain ⟨s, hs, rfl⟩ := hy
      obtain ⟨l, hl, c, x, y, hc, hx, hy, hbl⟩ := forall₂_at hb k s hs
      obtain ⟨more, hw⟩ := begins_words hbl
      refine ⟨l, at_body hl, ?_⟩
      rw [hw, floatAt_writes rfl hc, bind_ok, intAt_write (n := s.2.1) rfl, bind_ok, floatAt_writes rfl hx, bind_ok,
        floatAt_writes rfl hy, bind_ok]
      congr 2; omega)
  have h2 := loop_ok (lines := head :: (body ++ (body' ++ rest))) (a := sites.length + 1)
    (ys := customers.mapIdx fun i c => (⟨i, c.1, c.2.1, c.2.2⟩ : Customer))
    (g := fun i parts => intAt parts 0 >>= fun d => floatAt parts 1 >>= fun x => floatAt parts 2 >>= fun y =>
      .ok ⟨i - 1 - sites.length, d, x, y⟩) (by
      intro k y hy
      rw [List.getElem?_mapIdx, Option.map_eq_some_iff] at hy
      obtain ⟨c, hc, rfl⟩ := hy
      obtain ⟨l, hl, x, y, hx, hy, hbl⟩ := forall₂_at hb' k c hc
      obtain ⟨more, hw⟩ := begins_words hbl
      refine ⟨l, ?_, ?_⟩
      · have hlen := hb.length_eq
        have hk := (List.getElem?_eq_some_iff.1 hl).1
        rw [show sites.length + 1 + k = (body.length + k) + 1 by omega, List.getElem?_cons_succ,
          List.getElem?_append_right (by omega), Nat.add_sub_cancel_left, List.getElem?_append_left hk, hl]
      · rw [hw, intAt_write (n := c.1) rfl, bind_ok, floatAt_writes rfl hx, bind_ok, floatAt_writes rfl hy, bind_ok]
        congr 2; omega)
  rw [List.length_mapIdx] at h1 h2
  have e1 : pyRange 1 ((sites.length : Int) + 1) = pyRange ((1 : Nat) : Int) (((1 : Nat) : Int) + (sites.length : Int)) := by
    congr 1; omega
  have e2 : pyRange ((sites.length : Int) + 1) ((sites.length : Int) + 1 + (customers.length : Int)) =
      pyRange ((sites.length + 1 : Nat) : Int) (((sites.length + 1 : Nat) : Int) + (customers.length : Int)) := by
    congr 1
  rw [e1, h1, bind_ok, e2, h2, bind_ok]

example : facility (chars "1 2\n100.5 10 0 0\n3 1 1\n4 2 -2\n") =
    .ok ⟨1, 2, [⟨0, 201 / 2, 10, 0, 0⟩], [⟨0, 3, 1, 1⟩, ⟨1, 4, 2, -2⟩]⟩ := by decide +kernel

/-- **C164** (refuted for blank lines).  A blank line between the lines of a file is not skipped:
reading raises `IndexError`. -/
theorem C164_blank_refuted :
    knapsack (chars "2 10\n\n8 4\n10 5") = .error .indexError ∧
      knapsack (chars "2 10\n8 4\n10 5") = .ok (10, [⟨0, 8, 4⟩, ⟨1, 10, 5⟩]) := by decide +kernel

end Verif.Parse
