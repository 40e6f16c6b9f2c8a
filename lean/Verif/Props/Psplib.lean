import Verif.Lemmas.Psplib
import Verif.Props.Parse
/-
Properties of the reader of PSPLIB files: C165.
-/
namespace Verif.Parse
open Verif

/-- The lines that open the sections of a PSPLIB file. -/
def keywords : List (List Char) :=
  [chars "RESOURCES", chars "PRECEDENCE RELATIONS:", chars "REQUESTS/DURATIONS:", chars "RESOURCEAVAILABILITIES:"]

/-- A resource as written in the file: the two words of its name, and its capacity. -/
abbrev ResRow := List Char × List Char × Int

/-- The name of a resource: its two words together. -/
def resName (r : ResRow) : List Char := r.1 ++ r.2.1

/-- The lines of a PSPLIB file.  `pre`, `mid`, `h1`, `h2`, `h3`, `s1`, `s2` are lines the format
has but the reader does not use; `rest` is what follows. -/
structure PspFile where
  pre : List (List Char)
  horizonLine : List Char
  mid : List (List Char)
  h1 : List Char
  precs : List (List Char)
  s1 : List Char
  h2 : List Char
  h3 : List Char
  rows : List (List Char)
  s2 : List Char
  names : List Char
  caps : List Char
  rest : List (List Char)

/-- The lines before the last section, without the lines that open the sections. -/
def PspFile.used (f : PspFile) : List (List Char) :=
  f.pre ++ f.horizonLine :: (f.mid ++ f.h1 :: (f.precs ++ f.s1 :: f.h2 :: f.h3 :: (f.rows ++ [f.s2])))

/-- All lines. -/
def PspFile.lines (f : PspFile) : List (List Char) :=
  f.pre ++ f.horizonLine :: chars "RESOURCES" :: (f.mid ++ chars "PRECEDENCE RELATIONS:" :: f.h1 ::
    (f.precs ++ f.s1 :: chars "REQUESTS/DURATIONS:" :: f.h2 :: f.h3 ::
      (f.rows ++ f.s2 :: chars "RESOURCEAVAILABILITIES:" :: f.names :: f.caps :: f.rest)))

/-- The file writes an instance: the horizon, the resources, the successors of each task and the
modes of each task. -/
structure WritesPsp (f : PspFile) (horizon : Int) (res : List ResRow) (succ : List (Int × List Int))
    (tasks : List (Int × List ModeRow)) : Prop where
  /-- No line contains a line break. -/
  whole : ∀ l ∈ f.lines, '\n' ∉ l
  /-- No other line opens a section. -/
  sections : ∀ l ∈ f.used, l ∉ keywords
  /-- The third word of the line before the resources is the horizon. -/
  time : ∃ a b, Begins [a, b, writeInt horizon] f.horizonLine
  /-- The names of the resources, two words each, and their capacities. -/
  names : Begins (res.flatMap fun r => [r.1, r.2.1]) f.names
  caps : Spells (res.map fun r => writeInt r.2.2) f.caps
  distinct : (res.map resName).Nodup
  free : durationKey ∉ res.map resName
  /-- Each line of the precedence relations: task, number of modes, number of successors, successors. -/
  precs : List.Forall₂ (fun p l => ∃ m, Begins (writeInt p.1 :: writeInt m :: writeInt p.2.length :: p.2.map writeInt) l)
    succ f.precs
  once : (succ.map Prod.fst).Nodup
  /-- The lines of the modes: the first line of a task names the task. -/
  rows : List.Forall₂ Spells (tasks.flatMap taskRows) f.rows
  filled : ∀ t ∈ tasks, t.2 ≠ [] ∧ (t.2.map Prod.fst).Nodup ∧ ∀ m ∈ t.2, m.2.2.length = res.length
  taskOnce : (tasks.map Prod.fst).Nodup

/-- **C165** (reading).  A PSPLIB file is read as exactly the instance it writes, for every
instance and every layout of its lines: the horizon, the capacity of every resource, the
successors of every task, and for every task and mode the duration and the use of every resource.
The resources whose name begins with `N` are the non-renewable ones, and the instance is
multi-mode exactly when some task has more than one mode. -/
theorem C165_read (f : PspFile) (horizon : Int) (res : List ResRow) (succ : List (Int × List Int))
    (tasks : List (Int × List ModeRow)) (h : WritesPsp f horizon res succ tasks) :
    psplib (text f.lines) =
      .ok { multi := tasks.any (fun t => decide (1 < t.2.length))
            resources := res.map fun r => (resName r, r.2.2)
            nonRenewable := (res.map resName).filter (fun n => n.head? = some 'N')
            modes := tasks.map fun t => (t.1, t.2.map fun m =>
              (m.1, (chars "duration", m.2.1) :: (res.map resName).zip m.2.2))
            successors := succ
            horizon := horizon } := by
  have hlines : pyLines (text f.lines) = f.lines :=
    pyLines_text (by simp [PspFile.lines]) h.whole
  have hsec : ∀ l ∈ f.used, ∀ k ∈ keywords, l ≠ k := fun l hl k hk e => h.sections l hl (e ▸ hk)
  have key : ∀ k ∈ keywords, ∀ l, (l ∈ f.pre ∨ l = f.horizonLine ∨ l ∈ f.mid ∨ l = f.h1 ∨ l ∈ f.precs ∨
      l = f.s1 ∨ l = f.h2 ∨ l = f.h3 ∨ l ∈ f.rows ∨ l = f.s2) → l ≠ k := by
    intro k hk l hl
    apply hsec l _ k hk
    simp only [PspFile.used, List.mem_append, List.mem_cons, List.not_mem_nil, or_false]
    tauto
  -- the four sections
  have i1 : lineIndex f.lines "RESOURCES".toList = .ok ((f.pre.length + 1 : Nat) : Int) := by
    have e : f.lines = (f.pre ++ [f.horizonLine]) ++ chars "RESOURCES" :: (f.mid ++ chars "PRECEDENCE RELATIONS:" :: f.h1 ::
      (f.precs ++ f.s1 :: chars "REQUESTS/DURATIONS:" :: f.h2 :: f.h3 ::
      (f.rows ++ f.s2 :: chars "RESOURCEAVAILABILITIES:" :: f.names :: f.caps :: f.rest))) := by
      simp [PspFile.lines]
    rw [e, lineIndex_first]
    · simp
    · intro l hl
      apply key _ (by simp [keywords])
      simp only [List.mem_append, List.mem_singleton] at hl
      tauto
  have i2 : lineIndex f.lines "PRECEDENCE RELATIONS:".toList = .ok ((f.pre.length + 2 + f.mid.length : Nat) : Int) := by
    have e : f.lines = (f.pre ++ f.horizonLine :: chars "RESOURCES" :: f.mid) ++ chars "PRECEDENCE RELATIONS:" :: (f.h1 ::
      (f.precs ++ f.s1 :: chars "REQUESTS/DURATIONS:" :: f.h2 :: f.h3 ::
      (f.rows ++ f.s2 :: chars "RESOURCEAVAILABILITIES:" :: f.names :: f.caps :: f.rest))) := by
      simp [PspFile.lines]
    rw [e, lineIndex_first]
    · simp only [List.length_append, List.length_cons, Except.ok.injEq]; omega
    · intro l hl
      simp only [List.mem_append, List.mem_cons] at hl
      by_cases hr : l = chars "RESOURCES"
      · subst hr; decide
      · apply key _ (by simp [keywords])
        tauto
  have i3 : lineIndex f.lines "REQUESTS/DURATIONS:".toList =
      .ok ((f.pre.length + 5 + f.mid.length + f.precs.length : Nat) : Int) := by
    have e : f.lines = (f.pre ++ f.horizonLine :: chars "RESOURCES" :: (f.mid ++ chars "PRECEDENCE RELATIONS:" :: f.h1 ::
      (f.precs ++ [f.s1]))) ++ chars "REQUESTS/DURATIONS:" :: (f.h2 :: f.h3 ::
      (f.rows ++ f.s2 :: chars "RESOURCEAVAILABILITIES:" :: f.names :: f.caps :: f.rest)) := by
      simp [PspFile.lines]
    rw [e, lineIndex_first]
    · simp only [List.length_append, List.length_cons, List.length_nil, Except.ok.injEq]; omega
    · intro l hl
      simp only [List.mem_append, List.mem_cons, List.not_mem_nil, or_false] at hl
      by_cases hr : l = chars "RESOURCES"
      · subst hr; decide
      by_cases hr2 : l = chars "PRECEDENCE RELATIONS:"
      · subst hr2; decide
      · apply key _ (by simp [keywords])
        tauto
  have i4 : lineIndex f.lines "RESOURCEAVAILABILITIES:".toList =
      .ok ((f.pre.length + 9 + f.mid.length + f.precs.length + f.rows.length : Nat) : Int) := by
    have e : f.lines = (f.pre ++ f.horizonLine :: chars "RESOURCES" :: (f.mid ++ chars "PRECEDENCE RELATIONS:" :: f.h1 ::
      (f.precs ++ f.s1 :: chars "REQUESTS/DURATIONS:" :: f.h2 :: f.h3 ::
      (f.rows ++ [f.s2])))) ++ chars "RESOURCEAVAILABILITIES:" :: (f.names :: f.caps :: f.rest) := by
      simp [PspFile.lines]
    rw [e, lineIndex_first]
    · simp only [List.length_append, List.length_cons, List.length_nil, Except.ok.injEq]; omega
    · intro l hl
      simp only [List.mem_append, List.mem_cons, List.not_mem_nil, or_false] at hl
      by_cases hr : l = chars "RESOURCES"
      · subst hr; decide
      by_cases hr2 : l = chars "PRECEDENCE RELATIONS:"
      · subst hr2; decide
      by_cases hr3 : l = chars "REQUESTS/DURATIONS:"
      · subst hr3; decide
      · apply key _ (by simp [keywords])
        tauto
  -- the lines that are read
  obtain ⟨a, b, hhor⟩ := h.time
  obtain ⟨hm, hhw⟩ := begins_words hhor
  obtain ⟨nm, hnw⟩ := begins_words h.names
  have w1 : wordsAt f.lines (((f.pre.length + 1 : Nat) : Int) - 1) = .ok (pyWords f.horizonLine) :=
    wordsAt_mid (a := f.pre) (by rfl) (by omega)
  have w2 : wordsAt f.lines (((f.pre.length + 9 + f.mid.length + f.precs.length + f.rows.length : Nat) : Int) + 1) =
      .ok (pyWords f.names) := by
    refine wordsAt_mid (a := f.pre ++ f.horizonLine :: chars "RESOURCES" :: (f.mid ++ chars "PRECEDENCE RELATIONS:" :: f.h1 ::
      (f.precs ++ f.s1 :: chars "REQUESTS/DURATIONS:" :: f.h2 :: f.h3 ::
      (f.rows ++ [f.s2, chars "RESOURCEAVAILABILITIES:"])))) (b := f.caps :: f.rest) (by simp [PspFile.lines]) ?_
    simp only [List.length_append, List.length_cons, List.length_nil]; omega
  have w3 : wordsAt f.lines (((f.pre.length + 9 + f.mid.length + f.precs.length + f.rows.length : Nat) : Int) + 2) =
      .ok (pyWords f.caps) := by
    refine wordsAt_mid (a := f.pre ++ f.horizonLine :: chars "RESOURCES" :: (f.mid ++ chars "PRECEDENCE RELATIONS:" :: f.h1 ::
      (f.precs ++ f.s1 :: chars "REQUESTS/DURATIONS:" :: f.h2 :: f.h3 ::
      (f.rows ++ [f.s2, chars "RESOURCEAVAILABILITIES:", f.names])))) (b := f.rest) (by simp [PspFile.lines]) ?_
    simp only [List.length_append, List.length_cons, List.length_nil]; omega
  have w4 := wordsAt_section (lines := f.lines)
    (i := ((f.pre.length + 2 + f.mid.length : Nat) : Int) + 2)
    (j := ((f.pre.length + 5 + f.mid.length + f.precs.length : Nat) : Int) - 2 + 1)
    (a := f.pre ++ f.horizonLine :: chars "RESOURCES" :: (f.mid ++ [chars "PRECEDENCE RELATIONS:", f.h1]))
    (b := f.precs) (by simp [PspFile.lines]; rfl)
    (by simp only [List.length_append, List.length_cons, List.length_nil]; omega)
    (by omega) rfl
  have w5 := wordsAt_section (lines := f.lines)
    (i := ((f.pre.length + 5 + f.mid.length + f.precs.length : Nat) : Int) + 3)
    (j := ((f.pre.length + 9 + f.mid.length + f.precs.length + f.rows.length : Nat) : Int) - 2 + 1)
    (a := f.pre ++ f.horizonLine :: chars "RESOURCES" :: (f.mid ++ chars "PRECEDENCE RELATIONS:" :: f.h1 ::
      (f.precs ++ [f.s1, chars "REQUESTS/DURATIONS:", f.h2, f.h3])))
    (b := f.rows) (by simp [PspFile.lines]; rfl)
    (by simp only [List.length_append, List.length_cons, List.length_nil]; omega)
    (by omega) rfl
  have hrows : f.rows.map pyWords = tasks.flatMap taskRows := by
    have : ∀ {ws : List (List (List Char))} {ls : List (List Char)}, List.Forall₂ Spells ws ls → ls.map pyWords = ws := by
      intro ws ls hf
      induction hf with
      | nil => rfl
      | cons h1 _ ih => rw [List.map_cons, pyWords_spells h1, ih]
    exact this h.rows
  have hprec : List.Forall₂ (fun p parts => precLine parts = .ok p) succ (f.precs.map pyWords) := by
    have : ∀ {ps : List (Int × List Int)} {ls : List (List Char)}, List.Forall₂ (fun p l => ∃ m, Begins
        (writeInt p.1 :: writeInt m :: writeInt p.2.length :: p.2.map writeInt) l) ps ls →
        List.Forall₂ (fun p parts => precLine parts = .ok p) ps (ls.map pyWords) := by
      intro ps ls hf
      induction hf with
      | nil => exact .nil
      | cons h1 _ ih =>
        obtain ⟨m, hb⟩ := h1
        obtain ⟨more, hw⟩ := begins_words hb
        exact .cons (precLine_ok hw) ih
    exact this h.precs
  have hres := resourcesOf_ok (l := res) hnw h.distinct
  have hkeys : Dict.keys (res.map fun r => (r.1 ++ r.2.1, r.2.2)) = res.map resName := by
    simp [Dict.keys, Function.comp_def, resName]
  obtain ⟨task, hp⟩ := precLoop_ok hprec [] none (by simpa using h.once)
  obtain ⟨task', hml⟩ := modeLoop_ok (names := res.map resName) h.distinct h.free tasks false task [] (by
    intro t ht
    obtain ⟨h1, h2, h3⟩ := h.filled t ht
    exact ⟨h1, h2, fun m hm => by rw [h3 m hm, List.length_map]⟩) (by simpa using h.taskOnce)
  rw [List.nil_append] at hp hml
  unfold psplib
  simp only [hlines, i1, i2, i3, i4, bind_ok, w1, w2, w3]
  rw [hhw, intAt_write (n := horizon) rfl, bind_ok, pyWords_spells h.caps, hres, bind_ok, w4, bind_ok, hp, bind_ok,
    w5, bind_ok, hrows, hkeys, hml, bind_ok]
  rfl

/-- A small file: two resources, a source, a task with two modes and a sink. -/
def smallPsp (names first : String) : List Char :=
  chars ("file\nhorizon : 20\nRESOURCES\n - renewable : 1\nPRECEDENCE RELATIONS:\njobnr. #modes\n" ++
    "1 1 1 2\n 2 2 1 3\n3 1 0\n****\nREQUESTS/DURATIONS:\njobnr. mode\n----\n" ++ first ++
    "2 1 4 3 1\n 2 6 1 2\n3 1 0 0 0\n****\nRESOURCEAVAILABILITIES:\n" ++ names ++ "\n5 9\n****\n")

/-- What this file says. -/
def smallRead : Psplib where
  multi := true
  resources := [(chars "R1", 5), (chars "N1", 9)]
  nonRenewable := [chars "N1"]
  modes :=
    [(1, [(1, [(chars "duration", 0), (chars "R1", 0), (chars "N1", 0)])]),
     (2, [(1, [(chars "duration", 4), (chars "R1", 3), (chars "N1", 1)]),
          (2, [(chars "duration", 6), (chars "R1", 1), (chars "N1", 2)])]),
     (3, [(1, [(chars "duration", 0), (chars "R1", 0), (chars "N1", 0)])])]
  successors := [(1, [2]), (2, [3]), (3, [])]
  horizon := 20

example : psplib (smallPsp " R 1  N 1" "1 1 0 0 0\n") = .ok smallRead := by decide +kernel

/-- The lines of this file. -/
def smallFile : PspFile where
  pre := [chars "file"]
  horizonLine := chars "horizon : 20"
  mid := [chars " - renewable : 1"]
  h1 := chars "jobnr. #modes"
  precs := [chars "1 1 1 2", chars " 2 2 1 3", chars "3 1 0"]
  s1 := chars "****"
  h2 := chars "jobnr. mode"
  h3 := chars "----"
  rows := [chars "1 1 0 0 0", chars "2 1 4 3 1", chars " 2 6 1 2", chars "3 1 0 0 0"]
  s2 := chars "****"
  names := chars " R 1  N 1"
  caps := chars "5 9"
  rest := [chars "****", []]

example : text smallFile.lines = smallPsp " R 1  N 1" "1 1 0 0 0\n" ∧
    WritesPsp smallFile 20 [(['R'], ['1'], 5), (['N'], ['1'], 9)] [(1, [2]), (2, [3]), (3, [])]
      [(1, [(1, 0, [0, 0])]), (2, [(1, 4, [3, 1]), (2, 6, [1, 2])]), (3, [(1, 0, [0, 0])])] := by
  have sp : ∀ ws l, pyWords l = ws → Spells ws l := fun ws l h => h ▸ spells_pyWords l
  have be : ∀ ws more l, '\n' ∉ l → pyWords l = ws ++ more → Begins ws l := fun ws more l h1 h2 => ⟨h1, more, sp _ _ h2⟩
  refine ⟨by decide +kernel, ?_⟩
  exact {
    whole := by decide +kernel
    sections := by decide +kernel
    time := ⟨chars "horizon", [':'], be _ [] _ (by decide +kernel) (by decide +kernel)⟩
    names := be _ [] _ (by decide +kernel) (by decide +kernel)
    caps := sp _ _ (by decide +kernel)
    distinct := by decide +kernel
    free := by decide +kernel
    precs := .cons ⟨1, be _ [] _ (by decide +kernel) (by decide +kernel)⟩
      (.cons ⟨2, be _ [] _ (by decide +kernel) (by decide +kernel)⟩
        (.cons ⟨1, be _ [] _ (by decide +kernel) (by decide +kernel)⟩ .nil))
    once := by decide +kernel
    rows := .cons (sp _ _ (by decide +kernel)) (.cons (sp _ _ (by decide +kernel))
      (.cons (sp _ _ (by decide +kernel)) (.cons (sp _ _ (by decide +kernel)) .nil)))
    filled := by decide +kernel
    taskOnce := by decide +kernel }

/-- **C165** (missing sections).  A file without a line that is exactly one of the four section
names raises `ValueError`. -/
theorem C165_missing (ls : List (List Char)) (hne : ls ≠ []) (hl : ∀ l ∈ ls, '\n' ∉ l)
    (k : List Char) (hk : k ∈ keywords) (h : k ∉ ls) : psplib (text ls) = .error .valueError := by
  unfold psplib
  simp only [pyLines_text hne hl]
  have abs : ∀ s ∈ keywords, (∃ i, lineIndex ls s = .ok i) ∨ lineIndex ls s = .error .valueError := by
    intro s _
    unfold lineIndex
    cases ls.findIdx? (· = s) with
    | none => exact .inr rfl
    | some i => exact .inl ⟨i, rfl⟩
  have hbad := lineIndex_absent h
  have step : ∀ (s : List Char) {α : Type} (g : Int → Except PyErr α), s ∈ keywords →
      (∀ i, s ≠ k → g i = .error .valueError) → (lineIndex ls s >>= g) = .error .valueError := by
    intro s α g hs hg
    by_cases e : s = k
    · subst e; rw [hbad, bind_error]
    · rcases abs s hs with ⟨i, hi⟩ | he
      · rw [hi, bind_ok, hg i e]
      · rw [he, bind_error]
  refine step _ _ (by decide) fun i n1 => ?_
  refine step _ _ (by decide) fun i n2 => ?_
  refine step _ _ (by decide) fun i n3 => ?_
  refine step _ _ (by decide) fun i n4 => ?_
  exfalso
  simp only [keywords, List.mem_cons, List.not_mem_nil, or_false] at hk
  rcases hk with e | e | e | e
  · exact n1 e.symm
  · exact n2 e.symm
  · exact n3 e.symm
  · exact n4 e.symm

example : psplib (chars "file\nRESOURCES\nPRECEDENCE RELATIONS:\nREQUESTS/DURATIONS: \nRESOURCEAVAILABILITIES:") =
    .error .valueError := by decide +kernel

/-- **C165** (refuted for a further word).  A line of the modes with one word too many does not
name its task any more: it is read as a mode of the task of the line before, without an
exception.  Here the first line has one number too many: task 1 has no modes at all, its line is
taken for the last task of the precedence relations. -/
theorem C165_extra_word_refuted :
    ((psplib (smallPsp "R 1 N 1" "1 1 0 0 0 7\n")).toOption.map fun p => (p.multi, p.modes.map Prod.fst)) =
      some (true, [3, 2]) ∧
    ((psplib (smallPsp "R 1 N 1" "1 1 0 0 0\n")).toOption.map fun p => p.modes.map Prod.fst) = some [1, 2, 3] := by
  decide +kernel

/-- **C165** (refuted for two resources of the same name).  The second replaces the first, every
line of the modes then has one word too many, and all durations and modes are wrong: the task
is read as mode, the mode as duration. -/
theorem C165_same_name_refuted :
    psplib (smallPsp "R 1 R 1" "1 1 0 0 0\n") = .ok
      { smallRead with
        resources := [(chars "R1", 9)]
        nonRenewable := []
        modes :=
          [(3, [(1, [(chars "duration", 1), (chars "R1", 0)]), (2, [(chars "duration", 1), (chars "R1", 4)])]),
           (2, [(6, [(chars "duration", 1), (chars "R1", 2)]), (3, [(chars "duration", 1), (chars "R1", 0)])])] } := by
  decide +kernel

/-- **C165** (refuted for the number of modes).  The number of modes announced in the precedence
relations is not compared with the modes: a file announcing two modes for a task and giving one
is read as a single-mode instance. -/
theorem C165_mode_count_refuted :
    psplib (chars ("h : 9\nRESOURCES\nPRECEDENCE RELATIONS:\n-\n1 2 0\n-\nREQUESTS/DURATIONS:\n-\n-\n" ++
      "1 1 4 3\n-\nRESOURCEAVAILABILITIES:\nR 1\n5")) = .ok
      { multi := false, resources := [(chars "R1", 5)], nonRenewable := []
        modes := [(1, [(1, [(chars "duration", 4), (chars "R1", 3)])])], successors := [(1, [])], horizon := 9 } := by
  decide +kernel

end Verif.Parse
