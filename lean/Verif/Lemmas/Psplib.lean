import Verif.Lemmas.Parse
import Mathlib.Data.List.Nodup
/-
Lemmas about the reader of PSPLIB files.
-/
namespace Verif.Parse
open Verif

/-! ### Dictionaries filled in order -/

theorem set_fresh {κ α : Type} [DecidableEq κ] {d : Dict κ α} {k : κ} {v : α} (h : k ∉ d.map Prod.fst) :
    Dict.set d k v = d ++ [(k, v)] := by
  induction d with
  | nil => rfl
  | cons p d ih =>
    obtain ⟨k', v'⟩ := p
    simp only [List.map_cons, List.mem_cons, not_or] at h
    rw [Dict.set, if_neg (fun e => h.1 e.symm), ih h.2]; rfl

theorem set_last {κ α : Type} [DecidableEq κ] {d : Dict κ α} {k : κ} {v v' : α} (h : k ∉ d.map Prod.fst) :
    Dict.set (d ++ [(k, v)]) k v' = d ++ [(k, v')] := by
  induction d with
  | nil => simp [Dict.set]
  | cons p d ih =>
    obtain ⟨k', w⟩ := p
    simp only [List.map_cons, List.mem_cons, not_or] at h
    rw [List.cons_append, Dict.set, if_neg (fun e => h.1 e.symm), ih h.2]; rfl

theorem get?_fresh {κ α : Type} [DecidableEq κ] {d : Dict κ α} {k : κ} (h : k ∉ d.map Prod.fst) :
    Dict.get? d k = none := by
  induction d with
  | nil => rfl
  | cons p d ih =>
    obtain ⟨k', v'⟩ := p
    simp only [List.map_cons, List.mem_cons, not_or] at h
    rw [Dict.get?, if_neg (fun e => h.1 e.symm), ih h.2]

theorem get?_last {κ α : Type} [DecidableEq κ] {d : Dict κ α} {k : κ} {v : α} (h : k ∉ d.map Prod.fst) :
    Dict.get? (d ++ [(k, v)]) k = some v := by
  induction d with
  | nil => simp [Dict.get?]
  | cons p d ih =>
    obtain ⟨k', v'⟩ := p
    simp only [List.map_cons, List.mem_cons, not_or] at h
    rw [List.cons_append, Dict.get?, if_neg (fun e => h.1 e.symm), ih h.2]

theorem foldl_fresh {κ α : Type} [DecidableEq κ] (l : List (κ × α)) : ∀ (d : Dict κ α),
    ((d ++ l).map Prod.fst).Nodup → l.foldl (fun (d : Dict κ α) p => Dict.set d p.1 p.2) d = d ++ l := by
  induction l with
  | nil => intro d _; simp
  | cons p l ih =>
    intro d h
    have h' : p.1 ∉ d.map Prod.fst := by
      intro hp
      rw [List.map_append, List.nodup_append] at h
      exact h.2.2 _ hp p.1 (by simp) rfl
    rw [List.foldl_cons, set_fresh h', ih _ (by simpa using h)]
    simp

/-! ### Sections -/

theorem lineIndex_first {a b : List (List Char)} {s : List Char} (h : ∀ l ∈ a, l ≠ s) :
    lineIndex (a ++ s :: b) s = .ok a.length := by
  have : (a ++ s :: b).findIdx? (· = s) = some a.length := by
    induction a with
    | nil => simp [List.findIdx?_cons]
    | cons x a ih =>
      rw [List.cons_append, List.findIdx?_cons, if_neg (by simpa using h x (by simp)),
        ih (fun l hl => h l (by simp [hl]))]
      rfl
  unfold lineIndex; rw [this]

theorem lineIndex_absent {ls : List (List Char)} {s : List Char} (h : s ∉ ls) :
    lineIndex ls s = .error .valueError := by
  have : ls.findIdx? (· = s) = none := by
    rw [List.findIdx?_eq_none_iff]
    intro x hx
    simp only [decide_eq_false_iff_not]
    exact fun e => h (e ▸ hx)
  unfold lineIndex; rw [this]

theorem wordsAt_mid {lines a b : List (List Char)} {l : List Char} {i : Int}
    (e : lines = a ++ l :: b) (hi : i = a.length) : wordsAt lines i = .ok (pyWords l) := by
  subst hi
  apply wordsAt_nat
  rw [e, List.getElem?_append_right (Nat.le_refl _), Nat.sub_self]; rfl

theorem wordsAt_section {lines a b c : List (List Char)} {i j : Int} {ws : List (List (List Char))}
    (e : lines = a ++ (b ++ c)) (hi : i = a.length) (hj : j = i + b.length) (hw : ws = b.map pyWords) :
    Milp.mapE (wordsAt lines) (pyRange i j) = .ok ws := by
  subst hi hj hw
  rw [pyRange_nat, mapE_map]
  have := mapE_range (f := fun k => wordsAt lines ((a.length + k : Nat) : Int)) (ys := b.map pyWords) (by
    intro k y hy
    rw [List.getElem?_map, Option.map_eq_some_iff] at hy
    obtain ⟨l, hl, rfl⟩ := hy
    apply wordsAt_nat
    have hk := (List.getElem?_eq_some_iff.1 hl).1
    rw [e, List.getElem?_append_right (by omega), Nat.add_sub_cancel_left, List.getElem?_append_left hk, hl])
  rwa [List.length_map] at this

/-! ### Resources -/

theorem flat_two (l : List (List Char × List Char × Int)) (more : List (List Char)) :
    ∀ (i : Nat) r, l[i]? = some r →
      (l.flatMap (fun r => [r.1, r.2.1]) ++ more)[2 * i]? = some r.1 ∧
      (l.flatMap (fun r => [r.1, r.2.1]) ++ more)[2 * i + 1]? = some r.2.1 := by
  induction l with
  | nil => intro i r h; simp at h
  | cons x l ih =>
    intro i r h
    cases i with
    | zero =>
      simp only [List.getElem?_cons_zero, Option.some.injEq] at h; subst h
      simp
    | succ i =>
      have := ih i r (by simpa using h)
      rw [List.flatMap_cons, List.append_assoc]
      rw [show 2 * (i + 1) = (2 * i) + 2 by omega]
      simpa using this

theorem resourcesOf_ok {l : List (List Char × List Char × Int)} {names : List (List Char)} {more : List (List Char)}
    (hn : names = l.flatMap (fun r => [r.1, r.2.1]) ++ more)
    (hd : (l.map fun r => r.1 ++ r.2.1).Nodup) :
    resourcesOf names (l.map fun r => writeInt r.2.2) = .ok (l.map fun r => (r.1 ++ r.2.1, r.2.2)) := by
  unfold resourcesOf
  have := mapE_range (f := fun i => pyGet names (2 * i) >>= fun a => pyGet names (2 * i + 1) >>= fun b =>
      intAt (l.map fun r => writeInt r.2.2) i >>= fun c => .ok (a ++ b, c))
    (ys := l.map fun r => (r.1 ++ r.2.1, r.2.2)) (by
      intro k y hy
      rw [List.getElem?_map, Option.map_eq_some_iff] at hy
      obtain ⟨r, hr, rfl⟩ := hy
      obtain ⟨h1, h2⟩ := flat_two l more k r hr
      rw [← hn] at h1 h2
      simp only [pyGet_some h1, pyGet_some h2, bind_ok]
      rw [intAt_write (n := r.2.2) (by rw [List.getElem?_map, hr]; rfl), bind_ok])
  rw [List.length_map] at this
  rw [List.length_map, this, bind_ok, foldl_fresh]
  · rfl
  · simpa [Function.comp_def] using hd

/-! ### Precedence relations -/

theorem mapE_write (l : List Int) : Milp.mapE pyInt (l.map writeInt) = .ok l := by
  induction l with
  | nil => rfl
  | cons n l ih => simp only [List.map_cons, Milp.mapE, pyInt_write, bind_ok, ih]

theorem precLine_ok {t m : Int} {succ : List Int} {parts more : List (List Char)}
    (h : parts = writeInt t :: writeInt m :: writeInt succ.length :: (succ.map writeInt ++ more)) :
    precLine parts = .ok (t, succ) := by
  subst h
  unfold precLine
  rw [intAt_write (n := t) rfl, bind_ok, intAt_write (n := m) rfl, bind_ok,
    intAt_write (n := succ.length) rfl, bind_ok]
  have : (List.drop 3 (writeInt t :: writeInt m :: writeInt succ.length :: (succ.map writeInt ++ more))).take
      (succ.length : Int).toNat = succ.map writeInt := by
    simp only [List.drop_succ_cons, List.drop_zero, Int.toNat_natCast]
    rw [List.take_append_of_le_length (by simp)]
    rw [List.take_of_length_le (by simp)]
  rw [this, mapE_write, bind_ok]

theorem precLoop_ok {ps : List (Int × List Int)} {rows : List (List (List Char))}
    (h : List.Forall₂ (fun p parts => precLine parts = .ok p) ps rows) :
    ∀ (d : Dict Int (List Int)) (task : Option Int), ((d ++ ps).map Prod.fst).Nodup →
      ∃ task', precLoop d task rows = .ok (d ++ ps, task') := by
  induction h with
  | nil => intro d task _; exact ⟨task, by simp [precLoop]⟩
  | cons hr hrest ih =>
    rename_i p parts ps rows
    intro d task hd
    have h' : p.1 ∉ d.map Prod.fst := by
      intro hp
      rw [List.map_append, List.nodup_append] at hd
      exact hd.2.2 _ hp p.1 (by simp) rfl
    obtain ⟨t', ht⟩ := ih (d ++ [p]) (some p.1) (by simpa using hd)
    refine ⟨t', ?_⟩
    rw [precLoop, hr, bind_ok, set_fresh h', ht]
    simp

/-! ### Modes -/

theorem usageLoop_ok (usage : List Int) : ∀ (ns : List (List Char)) (i : Nat) (d : Dict (List Char) Int),
    usage.length = i + ns.length → (d.map Prod.fst ++ ns).Nodup →
    usageLoop d usage ((List.range' i ns.length).zip ns) = .ok (d ++ ns.zip (usage.drop i)) := by
  intro ns
  induction ns with
  | nil => intro i d _ _; simp [usageLoop]
  | cons n ns ih =>
    intro i d hl hd
    simp only [List.length_cons] at hl
    have hi : i < usage.length := by omega
    have hn : n ∉ d.map Prod.fst := by
      intro hp
      rw [List.nodup_append] at hd
      exact hd.2.2 _ hp n (by simp) rfl
    rw [List.length_cons, List.range'_succ, List.zip_cons_cons, usageLoop,
      pyGet_some (List.getElem?_eq_getElem hi), bind_ok, set_fresh hn,
      ih (i + 1) (d ++ [(n, usage[i])]) (by omega) (by simpa using hd),
      List.drop_eq_getElem_cons hi, List.zip_cons_cons]
    simp

/-- A mode: its number, its duration and its use of each resource. -/
abbrev ModeRow := Int × Int × List Int

/-- What the reader keeps of a mode. -/
def detail (names : List (List Char)) (m : ModeRow) : Int × List (List Char × Int) :=
  (m.1, (durationKey, m.2.1) :: names.zip m.2.2)

theorem usage_detail {names : List (List Char)} {m : ModeRow} (hl : m.2.2.length = names.length)
    (hn : names.Nodup) (hk : durationKey ∉ names) :
    usageLoop [(durationKey, m.2.1)] m.2.2 ((List.range names.length).zip names) = .ok (detail names m).2 := by
  have := usageLoop_ok m.2.2 names 0 [(durationKey, m.2.1)] (by omega) (by
    simp only [List.map_cons, List.map_nil, List.singleton_append, List.nodup_cons]
    exact ⟨hk, hn⟩)
  rw [List.range_eq_range', this]
  rfl

theorem modeLine_first {names : List (List Char)} {m : ModeRow} (t : Int) (hl : m.2.2.length = names.length)
    (multi : Bool) (task : Option Int) :
    modeLine names multi task (writeInt t :: writeInt m.1 :: writeInt m.2.1 :: m.2.2.map writeInt) =
      .ok (multi, t, m.1, m.2.1, m.2.2) := by
  unfold modeLine
  rw [if_pos (by simp [hl]; omega), intAt_write (n := t) rfl, bind_ok, intAt_write (n := m.1) rfl, bind_ok,
    intAt_write (n := m.2.1) rfl, bind_ok]
  simp only [List.drop_succ_cons, List.drop_zero]
  rw [List.take_of_length_le (by simp [hl]), mapE_write, bind_ok]

theorem modeLine_more {names : List (List Char)} {m : ModeRow} (t : Int) (hl : m.2.2.length = names.length)
    (multi : Bool) :
    modeLine names multi (some t) (writeInt m.1 :: writeInt m.2.1 :: m.2.2.map writeInt) =
      .ok (true, t, m.1, m.2.1, m.2.2) := by
  unfold modeLine
  rw [if_neg (by simp [hl]; omega), intAt_write (n := m.1) rfl, bind_ok, intAt_write (n := m.2.1) rfl, bind_ok]
  simp only [List.drop_succ_cons, List.drop_zero]
  rw [List.take_of_length_le (by simp [hl]), mapE_write, bind_ok]

/-- The modes after the first of one task. -/
theorem modeLoop_more {names : List (List Char)} (hn : names.Nodup) (hk : durationKey ∉ names) (t : Int)
    (rest : List (List (List Char))) : ∀ (ms : List ModeRow) (done : List ModeRow) (multi : Bool)
    (d : List (Int × List (Int × List (List Char × Int)))),
    (∀ m ∈ ms, m.2.2.length = names.length) → ((done ++ ms).map Prod.fst).Nodup → t ∉ d.map Prod.fst →
    modeLoop names ⟨multi, some t, d ++ [(t, done.map (detail names))]⟩
        (ms.map (fun m => writeInt m.1 :: writeInt m.2.1 :: m.2.2.map writeInt) ++ rest) =
      modeLoop names ⟨multi || !ms.isEmpty, some t, d ++ [(t, (done ++ ms).map (detail names))]⟩ rest := by
  intro ms
  induction ms with
  | nil => intro done multi d _ _ _; simp
  | cons m ms ih =>
    intro done multi d hl hnd ht
    have hm := hl m (by simp)
    have hfresh : m.1 ∉ (done.map (detail names)).map Prod.fst := by
      intro hp
      rw [List.map_append, List.nodup_append] at hnd
      refine hnd.2.2 m.1 ?_ m.1 (by simp) rfl
      simpa [Function.comp_def, detail] using hp
    rw [List.map_cons, List.cons_append, modeLoop]
    have hstep : modeStep names ⟨multi, some t, d ++ [(t, done.map (detail names))]⟩
        (writeInt m.1 :: writeInt m.2.1 :: m.2.2.map writeInt) =
        .ok ⟨true, some t, d ++ [(t, (done ++ [m]).map (detail names))]⟩ := by
      unfold modeStep
      simp only [modeLine_more t hm, bind_ok]
      rw [usage_detail hm hn hk, bind_ok, get?_last ht, set_last ht, Option.getD_some, set_fresh hfresh]
      simp [detail]
    rw [hstep, bind_ok, ih (done ++ [m]) true d (fun x hx => hl x (by simp [hx])) (by simpa using hnd) ht]
    simp

/-- The words of the lines of a task with its modes: the first line names the task. -/
def taskRows (t : Int × List ModeRow) : List (List (List Char)) :=
  match t.2 with
  | [] => []
  | m :: ms => (writeInt t.1 :: writeInt m.1 :: writeInt m.2.1 :: m.2.2.map writeInt) ::
      ms.map (fun m => writeInt m.1 :: writeInt m.2.1 :: m.2.2.map writeInt)

theorem modeLoop_ok {names : List (List Char)} (hn : names.Nodup) (hk : durationKey ∉ names) :
    ∀ (ts : List (Int × List ModeRow)) (multi : Bool) (task : Option Int)
    (d : List (Int × List (Int × List (List Char × Int)))),
    (∀ t ∈ ts, t.2 ≠ [] ∧ (t.2.map Prod.fst).Nodup ∧ ∀ m ∈ t.2, m.2.2.length = names.length) →
    (d.map Prod.fst ++ ts.map Prod.fst).Nodup →
    ∃ task', modeLoop names ⟨multi, task, d⟩ (ts.flatMap taskRows) =
      .ok ⟨multi || ts.any (fun t => decide (1 < t.2.length)), task',
        d ++ ts.map (fun t => (t.1, t.2.map (detail names)))⟩ := by
  intro ts
  induction ts with
  | nil => intro multi task d _ _; exact ⟨task, by simp [modeLoop]⟩
  | cons t ts ih =>
    intro multi task d hts hnd
    obtain ⟨i, ms⟩ := t
    obtain ⟨hne, hmn, hml⟩ := hts (i, ms) (by simp)
    cases ms with
    | nil => exact absurd rfl hne
    | cons m ms =>
      have hm := hml m (by simp)
      have hi : i ∉ d.map Prod.fst := by
        intro hp
        rw [List.nodup_append] at hnd
        exact hnd.2.2 _ hp i (by simp) rfl
      rw [List.flatMap_cons]
      simp only [taskRows, List.cons_append]
      rw [modeLoop]
      have hstep : modeStep names ⟨multi, task, d⟩
          (writeInt i :: writeInt m.1 :: writeInt m.2.1 :: m.2.2.map writeInt) =
          .ok ⟨multi, some i, d ++ [(i, [m].map (detail names))]⟩ := by
        unfold modeStep
        simp only [modeLine_first i hm, bind_ok]
        rw [usage_detail hm hn hk, bind_ok, get?_fresh hi, set_fresh hi]
        rfl
      rw [hstep, bind_ok, modeLoop_more hn hk i _ ms [m] multi d (fun x hx => hml x (by simp [hx])) (by simpa using hmn) hi]
      obtain ⟨task', h⟩ := ih (multi || !ms.isEmpty) (some i) (d ++ [(i, ([m] ++ ms).map (detail names))])
        (fun t ht => hts t (by simp [ht])) (by simpa using hnd)
      refine ⟨task', ?_⟩
      rw [show (List.flatMap taskRows ts) = ts.flatMap taskRows from rfl] at h
      rw [h]
      cases ms <;> simp

end Verif.Parse
