import Verif.Model.Imopse
import Verif.Lemmas.Parse
/- Helper lemmas about solution files of multi-skill projects. -/
namespace Verif.Imopse
open Parse

theorem str_eq (n : Int) : str n = writeInt n := rfl

theorem str_nat (n : Nat) : str (n : Int) = Nat.toDigits 10 n := by
  unfold str
  rw [if_neg (by omega), Int.natAbs_natCast]

theorem nat_not_dash {n : Nat} {c : Char} (h : c ∈ str (n : Int)) : c ≠ '-' := by
  rw [str_nat] at h
  have := digits_isDigit h
  rintro rfl
  exact absurd this (by decide)

/-- The word of a worker and a task. -/
def word (x : Nat × Nat) : List Char := str (x.1 : Int) ++ '-' :: str (x.2 : Int)

theorem word_not_space {x : Nat × Nat} {c : Char} (h : c ∈ word x) : isSpace c = false := by
  unfold word at h
  rcases List.mem_append.1 h with h | h
  · exact writeInt_not_space h
  · rcases List.mem_cons.1 h with rfl | h
    · decide
    · exact writeInt_not_space h

theorem readWord_word (x : Nat × Nat) : readWord (word x) = .ok (str (x.1 : Int), (x.2 : Int)) := by
  have h1 : ∀ c ∈ str (x.1 : Int), (decide (c ≠ '-')) = true := fun c hc => by simpa using nat_not_dash hc
  have h2 : ∀ c ∈ str (x.2 : Int), (decide (c ≠ '-')) = true := fun c hc => by simpa using nat_not_dash hc
  have hd : (word x).dropWhile (· ≠ '-') = '-' :: str (x.2 : Int) := by
    unfold word
    rw [List.dropWhile_append_of_pos h1]
    rfl
  have ht : (word x).takeWhile (· ≠ '-') = str (x.1 : Int) := by
    unfold word
    rw [List.takeWhile_append_of_pos h1]
    simp
  have ht2 : (str (x.2 : Int)).takeWhile (· ≠ '-') = str (x.2 : Int) := by
    have := List.takeWhile_append_of_pos (l₂ := []) h2
    simpa using this
  unfold readWord
  simp only [hd, ht, ht2]
  rw [str_eq, pyInt_write]
  rfl

/-- What a line of an hour has after the hour. -/
def tailOf (ps : List (Nat × Nat)) : List Char := ps.flatMap (fun x => word x ++ [' '])

theorem spells_tail : ∀ ps : List (Nat × Nat), Spells (ps.map word) (tailOf ps)
  | [] => Spells.none [] (by simp)
  | x :: ps => by
    have h := Spells.word [] (word x) (' ' :: tailOf ps) (ps.map word) (by simp)
      (by unfold word; simp) (fun c hc => word_not_space hc)
      (spells_space (s := [' ']) (by simp; decide) (spells_tail ps)) (by simp; decide)
    simpa [tailOf] using h

theorem words_line (h : Int) (ps : List (Nat × Nat)) : pyWords (str h ++ [' '] ++ tailOf ps) = str h :: ps.map word := by
  apply pyWords_spells
  have := Spells.word [] (str h) (' ' :: tailOf ps) (ps.map word) (by simp) (writeInt_ne h)
    (fun c hc => writeInt_not_space hc) (spells_space (s := [' ']) (by simp; decide) (spells_tail ps)) (by simp; decide)
  simpa using this

/-- One entry read. -/
def put (r : Res) (x : Int × Nat × Nat) : Res := ⟨r.schedule.set (x.2.2 : Int) x.1, r.assign.set (x.2.2 : Int) (str (x.2.1 : Int))⟩

theorem readWords_pairs (h : Int) : ∀ (ps : List (Nat × Nat)) (r : Res),
    readWords h (ps.map word) r = (ps.map (fun x => (h, x))).foldl put r
  | [], r => rfl
  | x :: ps, r => by
    simp only [List.map_cons, readWords, readWord_word, List.foldl_cons]
    rw [readWords_pairs h ps]
    rfl

theorem readLine_line (h : Int) (ps : List (Nat × Nat)) (r : Res) :
    readLine r (str h ++ [' '] ++ tailOf ps) = (ps.map (fun x => (h, x))).foldl put r := by
  unfold readLine
  rw [words_line]
  simp only [str_eq, pyInt_write]
  exact readWords_pairs h ps r

theorem no_newline_line (h : Int) (ps : List (Nat × Nat)) : '\n' ∉ str h ++ [' '] ++ tailOf ps := by
  intro hm
  rcases List.mem_append.1 hm with hm | hm
  · rcases List.mem_append.1 hm with hm | hm
    · exact absurd (writeInt_not_space hm) (by decide)
    · exact absurd hm (by decide)
  · obtain ⟨x, _, hm⟩ := List.mem_flatMap.1 hm
    rcases List.mem_append.1 hm with hm | hm
    · exact absurd (word_not_space hm) (by decide)
    · exact absurd hm (by decide)

theorem lines_flat : ∀ ls : List (List Char), (∀ l ∈ ls, '\n' ∉ l) → linesGo [] (ls.flatMap (fun l => l ++ ['\n'])) = ls ++ [[]]
  | [], _ => rfl
  | l :: ls, h => by
    rw [List.flatMap_cons, List.append_assoc]
    have := linesGo_line (h l (by simp)) [] (ls.flatMap (fun l => l ++ ['\n']))
    simp only [List.nil_append] at this
    simp only [List.cons_append, List.nil_append]
    rw [this, lines_flat ls (fun l hl => h l (by simp [hl]))]

theorem read_hours (f : Int → List (Nat × Nat)) : ∀ (hs : List Int) (r : Res),
    (hs.map (fun h => str h ++ [' '] ++ tailOf (f h))).foldl readLine r =
      (hs.flatMap (fun h => (f h).map (fun x => (h, x)))).foldl put r
  | [], r => rfl
  | h :: hs, r => by
    rw [List.map_cons, List.foldl_cons, readLine_line, read_hours f hs, List.flatMap_cons, List.foldl_append]

theorem parse_text (f : Int → List (Nat × Nat)) (hs : List Int) :
    parseResults (header ++ '\n' :: (hs.map (fun h => str h ++ [' '] ++ tailOf (f h))).flatMap (fun l => l ++ ['\n'])) =
      (hs.flatMap (fun h => (f h).map (fun x => (h, x)))).foldl put {} := by
  unfold parseResults pyLines
  have h0 := linesGo_line (l := header) (by decide) [] ((hs.map (fun h => str h ++ [' '] ++ tailOf (f h))).flatMap (fun l => l ++ ['\n']))
  rw [h0, lines_flat _ (by
    intro l hl
    obtain ⟨h, _, rfl⟩ := List.mem_map.1 hl
    exact no_newline_line h (f h))]
  rw [List.drop_one, List.tail_cons, List.foldl_append, read_hours]
  rfl

theorem put_get (n : Int) : ∀ (E : List (Int × Nat × Nat)) (r : Res),
    (E.foldl put r).schedule.get? n = (((E.filter (fun x => decide ((x.2.2 : Int) = n))).getLast?).map (fun x => x.1)).or (r.schedule.get? n) ∧
    (E.foldl put r).assign.get? n =
      (((E.filter (fun x => decide ((x.2.2 : Int) = n))).getLast?).map (fun x => str (x.2.1 : Int))).or (r.assign.get? n)
  | [], r => by simp
  | x :: E, r => by
    obtain ⟨h1, h2⟩ := put_get n E (put r x)
    rw [List.foldl_cons, h1, h2]
    by_cases hx : (x.2.2 : Int) = n
    · rw [List.filter_cons_of_pos (by simpa using hx)]
      cases hE : E.filter (fun x => decide ((x.2.2 : Int) = n)) with
      | nil => simp [put, hx, Dict.get?_set_self]
      | cons y l => simp [List.getLast?_cons]
    · rw [List.filter_cons_of_neg (by simpa using hx)]
      simp [put, Dict.get?_set_ne _ _ (Ne.symm hx)]

/-! ### Writing -/

/-- The workers and original numbers of the tasks that start at an hour. -/
def pairsAt (names : Dict Int Nat) (s : Sol) (L : List Int) (h : Int) : List (Nat × Nat) :=
  L.flatMap (fun t =>
    match names.get? t, s.usage.get? t, s.schedule.get? t with
    | some o, some emps, some p => if p.1 = h then emps.map (fun e => (e, o)) else []
    | _, _, _ => [])

/-- Some named task starts at the hour. -/
def Touched (names : Dict Int Nat) (s : Sol) (L : List Int) (h : Int) : Prop :=
  ∃ t ∈ L, (names.get? t).isSome ∧ ∃ p, s.schedule.get? t = some p ∧ p.1 = h

theorem tail_append (a b : List (Nat × Nat)) : tailOf (a ++ b) = tailOf a ++ tailOf b := by simp [tailOf]

theorem entries_eq (o : Nat) (emps : List Nat) : emps.flatMap (entry o) = tailOf (emps.map (fun e => (e, o))) := by
  unfold tailOf
  rw [List.flatMap_map]
  apply List.flatMap_congr
  intro e _
  simp [entry, word]

theorem addTasks_ok (names : Dict Int Nat) (s : Sol) : ∀ (L : List Int) (d : Dict Int (List Char)),
    (∀ t ∈ L, (names.get? t).isSome → (s.usage.get? t).isSome ∧ (s.schedule.get? t).isSome) → d.keys.Nodup →
    ∃ d', addTasks names s L d = .ok d' ∧ d'.keys.Nodup ∧
      ∀ h, (Touched names s L h → d'.get? h = some ((d.get? h).getD (str h ++ [' ']) ++ tailOf (pairsAt names s L h))) ∧
        (¬ Touched names s L h → d'.get? h = d.get? h)
  | [], d, _, hd => ⟨d, rfl, hd, fun h => ⟨fun ⟨t, ht, _⟩ => by simp at ht, fun _ => rfl⟩⟩
  | t :: L, d, hk, hd => by
    have hk' : ∀ t ∈ L, (names.get? t).isSome → (s.usage.get? t).isSome ∧ (s.schedule.get? t).isSome := fun t ht => hk t (by simp [ht])
    cases hn : names.get? t with
    | none =>
      obtain ⟨d', h1, h2, h3⟩ := addTasks_ok names s L d hk' hd
      refine ⟨d', by simp [addTasks, addTask, hn, h1], h2, fun h => ?_⟩
      have hp : pairsAt names s (t :: L) h = pairsAt names s L h := by simp [pairsAt, hn]
      have ht : Touched names s (t :: L) h ↔ Touched names s L h := by
        constructor
        · rintro ⟨t', ht', hs', hx⟩
          rcases List.mem_cons.1 ht' with rfl | ht'
          · rw [hn] at hs'; simp at hs'
          · exact ⟨t', ht', hs', hx⟩
        · rintro ⟨t', ht', hx⟩; exact ⟨t', by simp [ht'], hx⟩
      rw [hp, ht]
      exact h3 h
    | some o =>
      obtain ⟨hu, hs'⟩ := hk t (by simp) (by simp [hn])
      obtain ⟨emps, hu⟩ := Option.isSome_iff_exists.1 hu
      obtain ⟨p, hs'⟩ := Option.isSome_iff_exists.1 hs'
      obtain ⟨d', h1, h2, h3⟩ := addTasks_ok names s L
        (d.set p.1 ((d.get? p.1).getD (str p.1 ++ [' ']) ++ emps.flatMap (entry o))) hk' (Dict.nodup_keys_set _ _ hd)
      refine ⟨d', by simp only [addTasks, addTask, hn, hu, hs', bind_ok, h1], h2, fun h => ?_⟩
      have hp : pairsAt names s (t :: L) h = (if p.1 = h then emps.map (fun e => (e, o)) else []) ++ pairsAt names s L h := by
        simp [pairsAt, hn, hu, hs']
      obtain ⟨h4, h5⟩ := h3 h
      by_cases hph : p.1 = h
      · subst hph
        have hT : Touched names s (t :: L) p.1 := ⟨t, by simp, by simp [hn], p, hs', rfl⟩
        refine ⟨fun _ => ?_, fun hc => absurd hT hc⟩
        rw [hp, if_pos rfl, tail_append, ← entries_eq]
        rw [Dict.get?_set_self] at h4 h5
        by_cases hTL : Touched names s L p.1
        · rw [h4 hTL]
          simp
        · rw [h5 hTL]
          have : pairsAt names s L p.1 = [] := by
            unfold pairsAt
            rw [List.flatMap_eq_nil_iff]
            intro t' ht'
            split
            · rename_i o' e' p' ho' he' hp'
              split
              · rename_i heq
                exact absurd ⟨t', ht', by simp [ho'], p', hp', heq⟩ hTL
              · rfl
            · rfl
          rw [this]
          simp [tailOf]
      · rw [hp, if_neg hph, List.nil_append]
        rw [Dict.get?_set_ne _ _ (Ne.symm hph)] at h4 h5
        have ht : Touched names s (t :: L) h ↔ Touched names s L h := by
          constructor
          · rintro ⟨t', ht', hs'', p', hp', hx⟩
            rcases List.mem_cons.1 ht' with rfl | ht'
            · rw [hs'] at hp'
              have := Option.some.inj hp'
              subst this
              exact absurd hx hph
            · exact ⟨t', ht', hs'', p', hp', hx⟩
          · rintro ⟨t', ht', hx⟩; exact ⟨t', by simp [ht'], hx⟩
        rw [ht]
        exact ⟨h4, h5⟩

theorem pairs_filter_nil {names : Dict Int Nat} {s : Sol} {o : Nat} : ∀ (L : List Int) (h : Int),
    (∀ t ∈ L, names.get? t ≠ some o ∨ s.usage.get? t = some []) →
    (pairsAt names s L h).filter (fun x => decide (x.2 = o)) = []
  | [], h, _ => rfl
  | t :: L, h, hL => by
    have ih := pairs_filter_nil L h (fun t ht => hL t (by simp [ht]))
    unfold pairsAt at ih ⊢
    rw [List.flatMap_cons, List.filter_append, ih, List.append_nil]
    split
    · rename_i o' e p ho he hp
      split
      · rcases hL t (by simp) with hne | hne
        · rw [List.filter_eq_nil_iff]
          intro x hx
          obtain ⟨e', _, rfl⟩ := List.mem_map.1 hx
          simp only [decide_eq_true_eq]
          rintro rfl
          exact hne ho
        · rw [he] at hne
          have := Option.some.inj hne
          subst this
          rfl
      · rfl
    · rfl

theorem pairs_filter {names : Dict Int Nat} {s : Sol} {o : Nat} {τ : Int} {emps : List Nat} {p : Int × Int}
    (ho : names.get? τ = some o) (he : s.usage.get? τ = some emps) (hp : s.schedule.get? τ = some p)
    (hinj : ∀ t, names.get? t = some o → t = τ) : ∀ (L : List Int) (h : Int), L.Nodup → τ ∈ L →
    (pairsAt names s L h).filter (fun x => decide (x.2 = o)) = if p.1 = h then emps.map (fun e => (e, o)) else []
  | [], h, _, hm => by simp at hm
  | t :: L, h, hnd, hm => by
    have hnd' := List.nodup_cons.1 hnd
    by_cases ht : t = τ
    · subst ht
      have hr := pairs_filter_nil (names := names) (s := s) (o := o) L h (fun t' ht' => .inl (fun hc => hnd'.1 (hinj t' hc ▸ ht')))
      have hsplit : pairsAt names s (t :: L) h = (if p.1 = h then emps.map (fun e => (e, o)) else []) ++ pairsAt names s L h := by
        simp [pairsAt, ho, he, hp]
      rw [hsplit, List.filter_append, hr, List.append_nil]
      split
      · rw [List.filter_eq_self]
        intro x hx
        obtain ⟨e', _, rfl⟩ := List.mem_map.1 hx
        simp
      · rfl
    · have hm' : τ ∈ L := by
        rcases List.mem_cons.1 hm with rfl | hm
        · exact absurd rfl ht
        · exact hm
      have ih := pairs_filter ho he hp hinj L h hnd'.2 hm'
      have h1 := pairs_filter_nil (names := names) (s := s) (o := o) [t] h (fun t' ht' => .inl (fun hc => by
        have : t' = t := by simpa using ht'
        subst this
        exact ht (hinj t' hc)))
      have hsplit : pairsAt names s (t :: L) h = pairsAt names s [t] h ++ pairsAt names s L h := by
        simp [pairsAt]
      rw [hsplit, List.filter_append, h1, List.nil_append, ih]

/-- All entries, hour by hour. -/
def entries (f : Int → List (Nat × Nat)) (hs : List Int) : List (Int × Nat × Nat) := hs.flatMap (fun h => (f h).map (fun x => (h, x)))

theorem entries_filter (f : Int → List (Nat × Nat)) (o : Nat) (s : Int) (M : List (Nat × Nat))
    (hf : ∀ h, (f h).filter (fun x => decide (x.2 = o)) = if s = h then M else []) : ∀ hs : List Int, hs.Nodup →
    (entries f hs).filter (fun x => decide ((x.2.2 : Int) = (o : Int))) = if s ∈ hs then M.map (fun x => (s, x)) else []
  | [], _ => rfl
  | h :: hs, hnd => by
    have hnd' := List.nodup_cons.1 hnd
    have ih := entries_filter f o s M hf hs hnd'.2
    have h1 : ((f h).map (fun x => (h, x))).filter (fun x => decide ((x.2.2 : Int) = (o : Int))) =
        ((f h).filter (fun x => decide (x.2 = o))).map (fun x => (h, x)) := by
      rw [List.filter_map]
      congr 1
      apply List.filter_congr
      intro x _
      simp only [Function.comp_apply, decide_eq_decide]
      omega
    have hsplit : entries f (h :: hs) = (f h).map (fun x => (h, x)) ++ entries f hs := by simp [entries]
    rw [hsplit, List.filter_append, h1, hf, ih]
    by_cases hs' : s = h
    · subst hs'
      rw [if_pos rfl, if_neg hnd'.1, if_pos (by simp), List.append_nil]
    · rw [if_neg hs']
      by_cases hm : s ∈ hs
      · rw [if_pos hm, if_pos (by simp [hm])]; rfl
      · rw [if_neg hm, if_neg (by simp [hm, hs'])]; rfl

end Verif.Imopse
