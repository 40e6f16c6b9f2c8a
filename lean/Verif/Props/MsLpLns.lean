import Verif.Model.MsLpLns
import Verif.Props.MsLpMore
/-
C198: the neighbourhoods of the program for multi-skill projects.
-/
namespace Verif.MsLpLns
open Verif.Milp Verif.MultiSkill Verif.MsLp

/-- The time at which the last task of a plan ends. -/
def Ends (pb : Problem) (pl : Plan) (top : Nat) : Prop :=
  (∃ k, k ∈ pb.modes.keys ∧ top = pl.start k + pl.dur pb k) ∧ ∀ k, k ∈ pb.modes.keys → pl.start k + pl.dur pb k ≤ top

/-- Plan `pl'` starts the drawn tasks that end more than five before the end of `pl` at most `minus` earlier and `plus` later than `pl`, and
by the end of `pl`. -/
def Near (pb : Problem) (pl : Plan) (top : Nat) (drawn : List Nat) (minus plus : Int) (pl' : Plan) : Prop :=
  ∀ j, j ∈ drawn → pl.start j + pl.dur pb j + 5 < top →
    (pl.start j : Int) - minus ≤ pl'.start j ∧ (pl'.start j : Int) ≤ pl.start j + plus ∧ pl'.start j ≤ top

theorem maxOf_spec : ∀ (l : List Nat), l ≠ [] → ∃ m, maxOf l = .ok m ∧ m ∈ l ∧ ∀ x, x ∈ l → x ≤ m
  | [], h => (h rfl).elim
  | x :: xs, _ => by
    refine ⟨_, rfl, ?_⟩
    induction xs generalizing x with
    | nil => simp
    | cons y ys ih =>
      obtain ⟨h1, h2⟩ := ih (max x y) (by simp)
      simp only [List.foldl_cons]
      refine ⟨?_, ?_⟩
      · rcases List.mem_cons.1 h1 with h | h
        · rw [h]
          rcases Nat.le_total x y with g | g
          · rw [Nat.max_eq_right g]; simp
          · rw [Nat.max_eq_left g]; simp
        · simp [h]
      · intro z hz
        have := h2 (max x y) (by simp)
        simp only [List.mem_cons] at hz
        rcases hz with rfl | rfl | hz
        · omega
        · omega
        · exact h2 z (by simp [hz])

theorem entry {pb : Problem} {pl : Plan} {sol : Solution} (rd : Reads pb pl sol) (hn : sol.schedule.keys.Nodup) {q : Nat × Nat × Nat} (hq : q ∈ sol.schedule) :
    q.1 ∈ pb.modes.keys ∧ q.2 = (pl.start q.1, pl.start q.1 + pl.dur pb q.1) := by
  have h := Dict.get?_of_mem hn (show (q.1, q.2) ∈ sol.schedule from hq)
  rw [rd.schedule q.1] at h
  split at h
  · rename_i hk
    exact ⟨hk, (Option.some.inj h).symm⟩
  · cases h

theorem entry_mem {pb : Problem} {pl : Plan} {sol : Solution} (rd : Reads pb pl sol) {k : Nat} (hk : k ∈ pb.modes.keys) :
    (k, pl.start k, pl.start k + pl.dur pb k) ∈ sol.schedule := by
  have := rd.schedule k
  rw [if_pos hk] at this
  exact Dict.mem_of_get? this

theorem hints_ok {pb : Problem} {pl : Plan} {sol : Solution} {D : Nat} (v : Valid pb D pl) (rd : Reads pb pl sol) (hn : sol.schedule.keys.Nodup) :
    ∃ h, hints pb sol = .ok h ∧ (∀ x, x ∈ h → x.2 = asg pb pl x.1) ∧
      ∀ k, k ∈ pb.modes.keys → (.startT k, (pl.start k : Int)) ∈ h ∧ (.mode k (pl.mode k), 1) ∈ h := by
  have hq : ∀ q, q ∈ sol.schedule → hintsOf pb sol q = .ok ((.startT q.1, (q.2.1 : Int)) :: (.mode q.1 (pl.mode q.1), 1) ::
      (modesOf pb q.1).keys.map (fun m' => (.mode q.1 m', if pl.mode q.1 = m' then 1 else 0))) := by
    intro q hq
    obtain ⟨h1, _⟩ := entry rd hn hq
    have hm : sol.modes.get q.1 = .ok (pl.mode q.1) := by
      have := rd.modes q.1
      rw [if_pos h1] at this
      simp only [Dict.get, this]
    simp only [hintsOf, hm, bind_ok]
    rw [if_pos ⟨h1, v.mode _ h1⟩]
  refine ⟨_, by rw [hints, Milp.mapE_ok hq]; rfl, ?_, ?_⟩
  · intro x hx
    obtain ⟨l, hl, hx⟩ := List.mem_flatten.1 hx
    obtain ⟨q, hq', rfl⟩ := List.mem_map.1 hl
    obtain ⟨h1, h2⟩ := entry rd hn hq'
    have sh := asg_shape v
    simp only [List.mem_cons, List.mem_map] at hx
    rcases hx with rfl | rfl | ⟨m', hm', rfl⟩
    · rw [sh.timeV _ h1, h2]
    · rw [sh.modeV _ _ (v.mode _ h1), if_pos rfl]
    · rw [sh.modeV _ _ hm']
      by_cases h : pl.mode q.1 = m'
      · rw [if_pos h, if_pos h.symm]
      · rw [if_neg h, if_neg (fun e => h e.symm)]
  · intro k hk
    have := entry_mem rd hk
    refine ⟨List.mem_flatten.2 ⟨_, List.mem_map.2 ⟨_, this, rfl⟩, by simp⟩, List.mem_flatten.2 ⟨_, List.mem_map.2 ⟨_, this, rfl⟩, by simp⟩⟩

/-- The rows of a task. -/
def rowsOf (pl : Plan) (top : Nat) (minus plus : Int) (j : Nat) : List (Row Var) :=
  [⟨[(1, .startT j)], .le, min ((pl.start j : Int) + plus) top⟩, ⟨[(1, .startT j)], .ge, max ((pl.start j : Int) - minus) 0⟩]

/-- C198: of a plan and drawn tasks the handler gives hints that say exactly starts and modes of the plan, and rows with which the
program has the plans near it, all of these and no others. -/
theorem C198_near {pb : Problem} {p : Prog} {D : Nat} {pl : Plan} {sol : Solution} (w : Wf pb) (hb : build pb = .ok p) (hD : maxDuration pb = .ok D)
    (v : Valid pb D pl) (rd : Reads pb pl sol) (hn : sol.schedule.keys.Nodup) {drawn : List Nat} (hd : ∀ j, j ∈ drawn → j ∈ pb.modes.keys)
    {fraction : Rat} (hf : (fraction * pb.modes.length).floor ≤ pb.modes.length) (minus plus : Int) :
    ∃ h rows top, interval pb sol fraction drawn minus plus = .ok (h, rows) ∧ Ends pb pl top ∧
      (∀ k, k ∈ pb.modes.keys → (.startT k, (pl.start k : Int)) ∈ h ∧ (.mode k (pl.mode k), 1) ∈ h) ∧
      (∃ a, p.Feasible a ∧ Reads pb pl (read pb (D + 1) a) ∧ ∀ x, x ∈ h → x.2 = a x.1) ∧
      (∀ a, (withRows p rows).Feasible a → ∃ pl', Valid pb D pl' ∧ Reads pb pl' (read pb (D + 1) a) ∧ Near pb pl top drawn minus plus pl') ∧
      ∀ pl', Valid pb D pl' → Near pb pl top drawn minus plus pl' →
        ∃ a, (withRows p rows).Feasible a ∧ Reads pb pl' (read pb (D + 1) a) := by
  obtain ⟨D', hb⟩ := built w hb
  have := hb.max
  rw [hD] at this; cases this
  obtain ⟨h, h1, h2, h3⟩ := hints_ok v rd hn
  obtain ⟨last, hlast, _⟩ := hb.objective
  obtain ⟨top, t1, t2, t3⟩ := maxOf_spec (sol.schedule.map (fun q => q.2.2)) (by
    intro e
    have := List.mem_map_of_mem (f := fun q : Nat × Nat × Nat => q.2.2) (entry_mem rd hlast)
    rw [e] at this
    cases this)
  have hend : Ends pb pl top := by
    constructor
    · obtain ⟨q, hq, rfl⟩ := List.mem_map.1 t2
      obtain ⟨g1, g2⟩ := entry rd hn hq
      exact ⟨q.1, g1, by rw [g2]⟩
    · intro k hk
      exact t3 _ (List.mem_map.2 ⟨_, entry_mem rd hk, rfl⟩)
  have hbound : ∀ j, j ∈ bound sol top drawn ↔ j ∈ drawn ∧ pl.start j + pl.dur pb j + 5 < top := by
    intro j
    simp only [bound, List.mem_filter, Bool.not_eq_true', List.contains_eq_mem, decide_eq_false_iff_not, List.mem_map, decide_eq_true_eq]
    refine and_congr_right fun hj => ?_
    constructor
    · intro hc
      by_contra hlt
      exact hc ⟨_, ⟨entry_mem rd (hd j hj), by show top ≤ pl.start j + pl.dur pb j + 5; omega⟩, rfl⟩
    · rintro hc ⟨q, ⟨hq, hle⟩, rfl⟩
      obtain ⟨_, g2⟩ := entry rd hn hq
      rw [g2] at hle
      omega
  have hrow : ∀ j, j ∈ bound sol top drawn → nearRows pb sol top minus plus j =
      .ok (rowsOf pl top minus plus j) := by
    intro j hj
    have hk := hd j ((hbound j).1 hj).1
    have hg : sol.schedule.get j = .ok (pl.start j, pl.start j + pl.dur pb j) := by
      have := rd.schedule j
      rw [if_pos hk] at this
      simp only [Dict.get, this]
    simp only [nearRows, hg, bind_ok]
    rw [if_pos hk]
    rfl
  have hs : sample sol fraction pb.modes.length drawn = .ok drawn := by
    unfold sample
    rw [rd.length, if_neg (by omega)]
  have hmeet : ∀ a pl', Shape pb D pl' a →
      ((∀ r, r ∈ ((bound sol top drawn).map (rowsOf pl top minus plus)).flatten → r.Holds a) ↔ Near pb pl top drawn minus plus pl') := by
    intro a pl' sh
    constructor
    · intro hr j hj hlt
      have hk := hd j hj
      have hbj := (hbound j).2 ⟨hj, hlt⟩
      have r1 := hr _ (List.mem_flatten.2 ⟨_, List.mem_map.2 ⟨j, hbj, rfl⟩, List.mem_cons_self ..⟩)
      have r2 := hr _ (List.mem_flatten.2 ⟨_, List.mem_map.2 ⟨j, hbj, rfl⟩, List.mem_cons_of_mem _ (List.mem_cons_self ..)⟩)
      simp only [Row.Holds, value_cons, value_nil, sh.timeV j hk] at r1 r2
      omega
    · intro hnear r hr
      obtain ⟨l, hl, hr⟩ := List.mem_flatten.1 hr
      obtain ⟨j, hj, rfl⟩ := List.mem_map.1 hl
      obtain ⟨hj1, hlt⟩ := (hbound j).1 hj
      have hk := hd j hj1
      obtain ⟨n1, n2, n3⟩ := hnear j hj1 hlt
      simp only [rowsOf, List.mem_cons, List.not_mem_nil, or_false] at hr
      rcases hr with rfl | rfl
      · simp only [Row.Holds, value_cons, value_nil, sh.timeV j hk]
        omega
      · simp only [Row.Holds, value_cons, value_nil, sh.timeV j hk]
        omega
  have hwith : ∀ rows a, (withRows p rows).Feasible a ↔ p.Feasible a ∧ ∀ r, r ∈ rows → r.Holds a := by
    intro rows a
    simp only [withRows, Prog.Feasible, Program.Feasible, List.mem_append]
    constructor
    · rintro ⟨⟨g1, g2⟩, g3⟩
      exact ⟨⟨⟨g1, fun r hr => g2 r (.inl hr)⟩, g3⟩, fun r hr => g2 r (.inr hr)⟩
    · rintro ⟨⟨⟨g1, g2⟩, g3⟩, g4⟩
      exact ⟨⟨g1, fun r hr => hr.elim (g2 r) (g4 r)⟩, g3⟩
  refine ⟨h, ((bound sol top drawn).map (rowsOf pl top minus plus)).flatten, top, by simp only [interval, h1, t1, hs, Milp.mapE_ok hrow, bind_ok], hend, h3, ?_, ?_, ?_⟩
  · exact ⟨asg pb pl, ((asg_shape v).feasible_iff w hb).2 v, (asg_shape v).reads w, h2⟩
  · intro a ha
    obtain ⟨g1, g2⟩ := (hwith _ a).1 ha
    obtain ⟨pl', sh⟩ := exists_shape w hb g1
    exact ⟨pl', (sh.feasible_iff w hb).1 g1, sh.reads w, (hmeet a pl' sh).1 g2⟩
  · intro pl' v' hnear
    have sh := asg_shape v'
    exact ⟨asg pb pl', (hwith _ _).2 ⟨(sh.feasible_iff w hb).2 v', (hmeet _ _ sh).2 hnear⟩, sh.reads w⟩

/-- C198: the plan itself is near if the bounds are not negative; so the program with the rows has a solution, and a best one starts the
last task no later than the plan. -/
theorem C198_improves {pb : Problem} {p : Prog} {D : Nat} {pl : Plan} {sol : Solution} (w : Wf pb) (hb : build pb = .ok p) (hD : maxDuration pb = .ok D)
    (v : Valid pb D pl) (rd : Reads pb pl sol) (hn : sol.schedule.keys.Nodup) {drawn : List Nat} (hd : ∀ j, j ∈ drawn → j ∈ pb.modes.keys)
    {fraction : Rat} (hf : (fraction * pb.modes.length).floor ≤ pb.modes.length) {minus plus : Int} (h1 : 0 ≤ minus) (h2 : 0 ≤ plus) :
    ∃ h rows last, interval pb sol fraction drawn minus plus = .ok (h, rows) ∧ (∃ a, (withRows p rows).Feasible a) ∧
      last ∈ pb.modes.keys ∧ (∀ k, k ∈ pb.modes.keys → k ≤ last) ∧
      ∀ a, (withRows p rows).Least a → ∃ pl', Valid pb D pl' ∧ Reads pb pl' (read pb (D + 1) a) ∧ pl'.start last ≤ pl.start last := by
  obtain ⟨h, rows, top, g1, g2, _, _, g5, g6⟩ := C198_near w hb hD v rd hn hd hf minus plus
  have hnear : Near pb pl top drawn minus plus pl := by
    intro j hj _
    have := g2.2 j (hd j hj)
    omega
  obtain ⟨b, hb1, hb2⟩ := g6 pl v hnear
  obtain ⟨D', hb'⟩ := built w hb
  have := hb'.max
  rw [hD] at this; cases this
  obtain ⟨last, l1, l2, l3⟩ := hb'.objective
  refine ⟨h, rows, last, g1, ⟨b, hb1⟩, l1, l2, ?_⟩
  intro a ha
  have hfa : p.Feasible a := ⟨⟨ha.1.1.1, fun r hr => ha.1.1.2 r (List.mem_append_left _ hr)⟩, ha.1.2⟩
  have hfb : p.Feasible b := ⟨⟨hb1.1.1, fun r hr => hb1.1.2 r (List.mem_append_left _ hr)⟩, hb1.2⟩
  obtain ⟨pl', sh⟩ := exists_shape w hb' hfa
  obtain ⟨plb, shb⟩ := exists_shape w hb' hfb
  refine ⟨pl', (sh.feasible_iff w hb').1 hfa, sh.reads w, ?_⟩
  have hle := ha.2 b hb1
  have hobj : (withRows p rows).base.objective = [(1, .startT last)] := l3
  rw [hobj] at hle
  simp only [value_cons, value_nil, sh.timeV last l1, shb.timeV last l1] at hle
  have e1 := (shb.reads w).schedule last
  have e2 := hb2.schedule last
  rw [if_pos l1] at e1 e2
  rw [e1] at e2
  have := (Prod.mk.inj (Option.some.inj e2)).1
  omega

/-- C198: asking for more tasks than are scheduled raises `ValueError`. -/
theorem C198_sample_raises {pb : Problem} {D : Nat} {pl : Plan} {sol : Solution} (v : Valid pb D pl) (rd : Reads pb pl sol) (hn : sol.schedule.keys.Nodup)
    (hne : pb.modes ≠ []) {fraction : Rat} (hf : (pb.modes.length : Int) < (fraction * pb.modes.length).floor) (drawn : List Nat) (minus plus : Int) :
    interval pb sol fraction drawn minus plus = .error .valueError := by
  obtain ⟨h, h1, _⟩ := hints_ok v rd hn
  obtain ⟨top, t1, _⟩ := maxOf_spec (sol.schedule.map (fun q => q.2.2)) (by
    intro e
    have e : sol.schedule.length = 0 := by rw [← List.length_map (f := fun q : Nat × Nat × Nat => q.2.2), e]; rfl
    rw [rd.length] at e
    exact hne (List.length_eq_zero_iff.1 e))
  have hs : sample sol fraction pb.modes.length drawn = .error .valueError := by
    unfold sample
    rw [rd.length, if_pos hf]
  simp only [interval, h1, t1, hs, bind_ok, bind_error]

/-- C198 fails: the other handler, which fixes starting times, raises `AttributeError` for every plan. -/
theorem C198_fix_refuted {pb : Problem} {D : Nat} {pl : Plan} {sol : Solution} (v : Valid pb D pl) (rd : Reads pb pl sol) (hn : sol.schedule.keys.Nodup) :
    fixStart pb sol = .error .attributeError := by
  obtain ⟨h, h1, _⟩ := hints_ok v rd hn
  simp only [fixStart, h1, bind_ok]

/-- Three tasks in a row, of which the third takes long. -/
def yard : Problem :=
  { skills := [], resources := [("R", List.replicate 22 1)], nonRenewable := [], employees := [],
    modes := [(1, [(1, ⟨0, [("R", 0)]⟩)]), (2, [(1, ⟨1, [("R", 1)]⟩)]), (3, [(1, ⟨10, [("R", 1)]⟩)]), (4, [(1, ⟨0, [("R", 0)]⟩)])],
    successors := [(1, [2]), (2, [3]), (3, [4]), (4, [])], horizon := 22, multiplier := 1, source := 1, sink := 4, oneUnit := false }

/-- The second task starts at 3. -/
def yardPlan : Plan where
  mode _ := 1
  start k := [0, 0, 3, 4, 14].getD k 0
  on _ _ _ := false

/-- The solution of the plan. -/
def yardSol : Solution := ⟨[(1, 1), (2, 1), (3, 1), (4, 1)], [(1, (0, 0)), (2, (3, 4)), (3, (4, 14)), (4, (14, 14))], []⟩

example : ∃ p, build yard = .ok p ∧ maxDuration yard = .ok 21 ∧ Wf yard ∧ Valid yard 21 yardPlan := by
  have h : feasibleFor yard yardPlan = true := by decide +kernel
  unfold feasibleFor at h
  cases hb : build yard with
  | error e => rw [hb] at h; cases h
  | ok p =>
    rw [hb] at h
    have w : Wf yard := wf_of_test (by decide +kernel)
    obtain ⟨D, hD⟩ := built w hb
    have h21 : maxDuration yard = .ok 21 := by decide +kernel
    have h21' := h21
    rw [hD.max] at h21
    cases h21
    exact ⟨p, rfl, h21', w, ((asg_shape' (by decide +kernel) (fun _ _ _ h => by cases h)).feasible_iff w hD).1 (Prog.test_feasible h)⟩

example : Reads yard yardPlan yardSol ∧ yardSol.schedule.keys.Nodup := by
  refine ⟨⟨?_, ?_, rfl, ?_, ?_⟩, by decide⟩
  · intro k
    match k with
    | 0 => decide +kernel
    | 1 => decide +kernel
    | 2 => decide +kernel
    | 3 => decide +kernel
    | 4 => decide +kernel
    | k + 5 =>
      rw [if_neg (by simp [yard, Dict.keys])]
      simp [yardSol, Dict.get?]
  · intro k
    match k with
    | 0 => decide +kernel
    | 1 => decide +kernel
    | 2 => decide +kernel
    | 3 => decide +kernel
    | 4 => decide +kernel
    | k + 5 =>
      rw [if_neg (by simp [yard, Dict.keys])]
      simp [yardSol, Dict.get?]
  · intro k e s
    constructor
    · rintro ⟨us, l, h1, _⟩
      cases h1
    · intro h
      cases h
  · intro k us h
    cases h

/-- The task that ends within five of the end stays free. -/
example : interval yard yardSol (1 / 2) [2, 3] 2 2 = .ok
    ([(.startT 1, 0), (.mode 1 1, 1), (.mode 1 1, 1), (.startT 2, 3), (.mode 2 1, 1), (.mode 2 1, 1), (.startT 3, 4), (.mode 3 1, 1),
      (.mode 3 1, 1), (.startT 4, 14), (.mode 4 1, 1), (.mode 4 1, 1)],
     [⟨[(1, .startT 2)], .le, 5⟩, ⟨[(1, .startT 2)], .ge, 1⟩]) := by decide +kernel

end Verif.MsLpLns
