import Verif.Lemmas.ImopseRead
/-
C194: reading multi-skill projects.
-/
namespace Verif.ImopseRead
open Parse

/-- The lines of a file with these workers and tasks: text and counts, the table of the workers, which a line of `=` ends, text, the
table of the tasks, which a line of `=` ends, and text. -/
def Describes (W : List WorkerRow) (T : List TaskRow) (ls : List (List Char)) : Prop :=
  ∃ head res ws rule mid tsk ts rule' tail, ls = head ++ res :: ws ++ rule :: mid ++ tsk :: ts ++ rule' :: tail ∧
    (∀ l ∈ head ++ mid ++ tail, Plain l) ∧ Starts "ResourceID" res ∧ Starts "TaskID" tsk ∧ Rule rule ∧ Rule rule' ∧
    List.Forall₂ WritesWorker W ws ∧ List.Forall₂ WritesTask T ts

theorem run_describes {W : List WorkerRow} {T : List TaskRow} {ls : List (List Char)} (h : Describes W T ls)
    (hw : (W.map WorkerRow.id).Nodup) (ht : (T.map TaskRow.id).Nodup) (hgw : ∀ r ∈ W, GoodSkills r.skills) (hgt : ∀ r ∈ T, GoodSkills r.skills) :
    ∃ s, run (pyLines (text ls)) {} = .ok s ∧ Read s W T := by
  obtain ⟨head, res, ws, rule, mid, tsk, ts, rule', tail, rfl, hpl, h1, h2, h3, h4, h5, h6⟩ := h
  rw [pyLines_text (by simp)]
  · obtain ⟨s1, a1, a2, a3, a4⟩ := run_workers h5 (s := { resZone := true }) (W := [])
      { workers := rfl, skills := by simp, once := List.nodup_nil, nodup := List.nodup_nil, keys := by simp [Dict.keys], entry := fun _ => rfl }
      hgw (by simpa using hw) rfl rfl
    obtain ⟨s2, b1, b2, b3, b4⟩ := run_tasks h6 (s := { s1 with resZone := false, taskZone := true }) (W := W) (T := [])
      { workers := a4.workers, skills := a4.skills, once := a4.once, nodup := a4.nodup, keys := a4.keys, entry := a4.entry }
      hgt (by simpa using ht) rfl rfl
    refine ⟨{ s2 with taskZone := false }, ?_, ?_⟩
    · simp only [List.append_assoc, List.cons_append]
      rw [run_append, run_plain rfl rfl (fun l hl => hpl l (by simp [hl])), bind_ok]
      simp only [run, step_resource h1, bind_ok]
      rw [run_append, a1, bind_ok]
      simp only [run, step_rule h3 a2, bind_ok]
      rw [run_append, run_plain rfl (by simpa using a3) (fun l hl => hpl l (by simp [hl])), bind_ok]
      simp only [run, step_tasks h2, bind_ok]
      rw [run_append, b1, bind_ok]
      simp only [run, step_rule_tasks h4 b2 b3, bind_ok]
      exact run_plain b2 rfl (fun l hl => hpl l (by simp [hl]))
    · exact { workers := b4.workers, skills := b4.skills, once := b4.once, nodup := b4.nodup, keys := b4.keys, entry := b4.entry }
  · intro l hl
    have hall : ∀ l ∈ ws, '\n' ∉ l := fun l hl => by
      obtain ⟨r, -, hr⟩ := forall₂_right h5 l hl
      exact hr.1
    have hall' : ∀ l ∈ ts, '\n' ∉ l := fun l hl => by
      obtain ⟨r, -, hr⟩ := forall₂_right h6 l hl
      exact hr.1
    simp only [List.mem_append, List.mem_cons] at hl hpl
    rcases hl with (((hl | rfl | hl) | rfl | hl) | rfl | hl) | rfl | hl
    · exact (hpl l (by simp [hl])).1
    · exact h1.1
    · exact hall l hl
    · exact h3.1
    · exact (hpl l (by simp [hl])).1
    · exact h2.1
    · exact hall' l hl
    · exact h4.1
    · exact (hpl l (by simp [hl])).1

/-- C194: a file with workers and tasks, each with different numbers, whose predecessors are tasks of the file, is read as the project it
describes. -/
theorem C194_read {W : List WorkerRow} {T : List TaskRow} {ls : List (List Char)} (h : Describes W T ls)
    (hw : (W.map WorkerRow.id).Nodup) (ht : (T.map TaskRow.id).Nodup) (hgw : ∀ r ∈ W, GoodSkills r.skills) (hgt : ∀ r ∈ T, GoodSkills r.skills)
    (hp : ∀ r ∈ T, ∀ p ∈ r.preds, p ∈ T.map TaskRow.id) (horizon : Option Nat) :
    ∃ P, parse (text ls) horizon = .ok P ∧ IsProject P W T horizon := by
  obtain ⟨s, h1, h2⟩ := run_describes h hw ht hgw hgt
  obtain ⟨P, h3, h4⟩ := finish_ok h2 ht hw hp horizon
  exact ⟨P, by rw [parse, h1, bind_ok, h3], h4⟩

theorem durations_error : ∀ {d : Dict Int Task} {p : Int × Task}, p ∈ d → p.2.duration = none → durations d = .error .keyError
  | [], _, h, _ => by simp at h
  | (k, t) :: d, p, h, hp => by
    cases ht : t.duration with
    | none => simp only [durations, ht]
    | some n =>
      rcases List.mem_cons.1 h with rfl | h
      · simp only at hp
        rw [hp] at ht
        simp at ht
      · simp only [durations, ht, durations_error h hp, bind_error]

/-- C194: a predecessor that is no task of the file raises `KeyError`. -/
theorem C194_predecessor_raises {W : List WorkerRow} {T : List TaskRow} {ls : List (List Char)} (h : Describes W T ls)
    (hw : (W.map WorkerRow.id).Nodup) (ht : (T.map TaskRow.id).Nodup) (hgw : ∀ r ∈ W, GoodSkills r.skills) (hgt : ∀ r ∈ T, GoodSkills r.skills)
    {r : TaskRow} (hr : r ∈ T) {p : Int} (hp : p ∈ r.preds) (hn : p ∉ T.map TaskRow.id) (horizon : Option Nat) :
    parse (text ls) horizon = .error .keyError := by
  obtain ⟨s, h1, h2⟩ := run_describes h hw ht hgw hgt
  obtain ⟨t, e⟩ := Option.isSome_iff_exists.1 ((Dict.get?_isSome_iff_mem_keys _ _).2 ((h2.keys p).2 (Or.inr ⟨r, hr, hp⟩)))
  have hv := h2.entry p
  have hnone : rowOf T p = none := by
    unfold rowOf
    rw [List.find?_eq_none]
    intro x hx hd
    exact hn (List.mem_map.2 ⟨x, hx, of_decide_eq_true hd⟩)
  rw [view, e, hnone] at hv
  have hd : t.duration = none := by
    have := congrArg Task.duration hv
    simpa using this
  rw [parse, h1, bind_ok, finish, durations_error (Dict.mem_of_get? e) hd]
  rfl

/-- C194: the order of names is that of numbers, so every predecessor with a smaller number has a smaller name. -/
theorem C194_names {T : List TaskRow} {a b : Int} (ha : a ∈ T.map TaskRow.id) (hb : b ∈ T.map TaskRow.id) :
    (a < b ↔ nameOf T a < nameOf T b) ∧ 2 ≤ nameOf T a ∧ nameOf T a < (T.length : Int) + 2 := by
  have key : ∀ {a b : Int}, a ≤ b → nameOf T a ≤ nameOf T b := by
    intro a b hle
    unfold nameOf
    have : T.countP (fun r => decide (r.id < a)) ≤ T.countP (fun r => decide (r.id < b)) :=
      List.countP_mono_left (fun x _ hx => by simp only [decide_eq_true_eq] at hx ⊢; omega)
    omega
  refine ⟨⟨fun h => ?_, fun h => ?_⟩, nameOf_bounds ha⟩
  · have h1 := key (Int.le_of_lt h)
    have h2 : nameOf T a ≠ nameOf T b := fun e => by have := nameOf_inj ha hb e; omega
    omega
  · apply Classical.byContradiction
    intro hn
    have := key (show b ≤ a by omega)
    omega

/-- The lines of a text. -/
def file (l : List String) : List Char := text (l.map String.toList)

/-- A file with two workers and two tasks. -/
def two : List String :=
  ["General characteristics:", "Tasks: 2", "Number of skill types: 2", "====", "ResourceID  Salary  Skills", "1  14.2  Q2: 0  Q1: 1", "2  30.0  Q1: 2", "====",
   "TaskID  Duration  Skill  Predecessor IDs", "7  5  Q1: 1", "3  4  Q2: 0  7", "===="]

/-- Its rows. -/
def twoWorkers : List WorkerRow := [⟨1, 71 / 5, [("Q2".toList, 0), ("Q1".toList, 1)]⟩, ⟨2, 30, [("Q1".toList, 2)]⟩]
def twoTasks : List TaskRow := [⟨7, 5, [("Q1".toList, 1)], []⟩, ⟨3, 4, [("Q2".toList, 0)], [7]⟩]

theorem spells_of {ws : List (List Char)} {l : List Char} (h : pyWords l = ws) : Spells ws l := h ▸ spells_pyWords l

theorem two_describes : Describes twoWorkers twoTasks (two.map String.toList) := by
  refine ⟨["General characteristics:".toList, "Tasks: 2".toList, "Number of skill types: 2".toList, "====".toList], "ResourceID  Salary  Skills".toList,
    ["1  14.2  Q2: 0  Q1: 1".toList, "2  30.0  Q1: 2".toList], "====".toList, [], "TaskID  Duration  Skill  Predecessor IDs".toList,
    ["7  5  Q1: 1".toList, "3  4  Q2: 0  7".toList], "====".toList, [], rfl, ?_, ⟨by decide +kernel, _, rfl⟩, ⟨by decide +kernel, _, rfl⟩,
    ⟨by decide +kernel, "===".toList, [], by decide +kernel⟩, ⟨by decide +kernel, "===".toList, [], by decide +kernel⟩, ?_, ?_⟩
  · intro l hl
    simp only [List.append_nil, List.mem_cons, List.not_mem_nil, or_false] at hl
    rcases hl with rfl | rfl | rfl | rfl
    · exact ⟨by decide +kernel, Or.inr (Or.inr ⟨_, _, rfl, by decide +kernel⟩)⟩
    · exact ⟨by decide +kernel, Or.inr (Or.inl ⟨2, Or.inl (by decide +kernel)⟩)⟩
    · exact ⟨by decide +kernel, Or.inr (Or.inl ⟨2, Or.inr (Or.inr (Or.inr ⟨"skill".toList, "types:".toList, by decide +kernel⟩))⟩)⟩
    · exact ⟨by decide +kernel, Or.inr (Or.inr ⟨_, _, rfl, by decide +kernel⟩)⟩
  · exact .cons ⟨by decide +kernel, "14.2".toList, ⟨false, 142, 1, by decide +kernel, by decide +kernel⟩, spells_of (by decide +kernel)⟩
      (.cons ⟨by decide +kernel, "30.0".toList, ⟨false, 300, 1, by decide +kernel, by decide +kernel⟩, spells_of (by decide +kernel)⟩ .nil)
  · exact .cons ⟨by decide +kernel, spells_of (by decide +kernel)⟩ (.cons ⟨by decide +kernel, spells_of (by decide +kernel)⟩ .nil)

example : ∃ P, parse (file two) (some 50) = .ok P ∧ IsProject P twoWorkers twoTasks (some 50) :=
  C194_read two_describes (by decide +kernel) (by decide +kernel)
    (by unfold GoodSkills; decide +kernel) (by unfold GoodSkills; decide +kernel) (by decide +kernel) _
/-- Task 3 has name 2, task 7 name 3, source and sink are 1 and 4. -/
example : okAnd (parse (file two) none) (fun P => P.modes.get? 2 = some (4, [("Q2".toList, 1), ("Q1".toList, 0)]) ∧
    P.modes.get? 3 = some (5, [("Q2".toList, 0), ("Q1".toList, 2)]) ∧ P.successors.get? 3 = some [2, 4] ∧ P.horizon = 300) = true := by decide +kernel
example : okAnd (parse (file two) none) (fun P => P.employees.get? 1 = some (71 / 5, [("Q2".toList, 1), ("Q1".toList, 2)])) = true := by decide +kernel
example : okAnd (parse (file two) none) (fun P => P.successors.get? 1 = some [3, 2, 4] ∧ P.successors.get? 4 = some [] ∧ P.sink = 4) = true := by decide +kernel
example : parse (file ["TaskID", "3 4 Q2: 0 7", "===="]) none = .error .keyError := by decide +kernel

/-- A level that stands before any skill raises for the first worker, but for later ones is given to the last skill of the line before. -/
theorem C194_level_refuted :
    parse (file ["ResourceID", "1 14.2 5"]) none = .error .nameError ∧
    okAnd (parse (file ["ResourceID", "1 14.2 Q2: 0", "2 30.0 5"]) none) (fun P => (P.employees.get? 2) = some (30, [("Q2".toList, 6)])) = true :=
  ⟨by decide +kernel, by decide +kernel⟩

/-- Without the line of `=` after the workers, tasks are read as workers too, in the place of those with their numbers. -/
theorem C194_zone_refuted :
    okAnd (parse (file ["ResourceID", "1 14.2 Q2: 0", "TaskID", "1 8 Q1: 1", "===="]) none) (fun P =>
      P.employees.get? 1 = some (8, [("Q1".toList, 2)]) ∧ P.modes.get? 2 = some (8, [("Q2".toList, 0), ("Q1".toList, 2)])) = true := by decide +kernel

end Verif.ImopseRead
