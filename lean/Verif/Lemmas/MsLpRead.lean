import Verif.Lemmas.MsLpPlan
/- What is read from an assignment that is a plan. -/
namespace Verif.MsLp
open Verif.Milp Verif.MultiSkill
open Verif.Rcpsp (Mode total dict_get_ok)

/-- A loop that sets entries. -/
theorem foldSet_get {α κ β : Type} [DecidableEq κ] (c : α → Prop) [DecidablePred c] (key : α → κ) (val : α → β) (v : κ → β) (k : κ) (l : List α) :
    (∀ z, z ∈ l → c z → val z = v (key z)) → ∀ (d : Dict κ β),
    ((∃ z, z ∈ l ∧ c z ∧ key z = k) → (l.foldl (fun (d : Dict κ β) z => if c z then d.set (key z) (val z) else d) d).get? k = some (v k)) ∧
    ((¬ ∃ z, z ∈ l ∧ c z ∧ key z = k) → (l.foldl (fun (d : Dict κ β) z => if c z then d.set (key z) (val z) else d) d).get? k = d.get? k) := by
  induction l with
  | nil => intro _ d; simp
  | cons z l ih =>
    intro h d
    rw [List.foldl_cons]
    obtain ⟨h1, h2⟩ := ih (fun y hy => h y (List.mem_cons_of_mem _ hy)) (if c z then d.set (key z) (val z) else d)
    by_cases hex : ∃ y, y ∈ l ∧ c y ∧ key y = k
    · refine ⟨fun _ => h1 hex, fun hn => absurd ?_ hn⟩
      obtain ⟨y, hy, hc⟩ := hex
      exact ⟨y, List.mem_cons_of_mem _ hy, hc⟩
    · rw [h2 hex]
      constructor
      · rintro ⟨y, hy, hc, hk⟩
        rcases List.mem_cons.1 hy with rfl | hy
        · rw [if_pos hc, hk, h y (by simp) hc, hk, Dict.get?_set_self]
        · exact absurd ⟨y, hy, hc, hk⟩ hex
      · intro hn
        split
        · next hc => exact Dict.get?_set_ne _ _ (fun e => hn ⟨z, by simp, hc, e.symm⟩)
        · rfl

theorem foldSet_nodup {α κ β : Type} [DecidableEq κ] (c : α → Prop) [DecidablePred c] (key : α → κ) (val : α → β) (l : List α) :
    ∀ (d : Dict κ β), d.keys.Nodup → (l.foldl (fun (d : Dict κ β) z => if c z then d.set (key z) (val z) else d) d).keys.Nodup := by
  induction l with
  | nil => intro d h; exact h
  | cons z l ih =>
    intro d h
    rw [List.foldl_cons]
    refine ih _ ?_
    split
    · exact Dict.nodup_keys_set _ _ h
    · exact h

/-- Is skill `s` of worker `e` noted for task `k`? -/
def Noted (u : Usage) (k e : Nat) (s : String) : Prop := ∃ us l, u.get? k = some us ∧ us.get? e = some l ∧ s ∈ l

/-- What the solution says is the plan. -/
structure Reads (pb : Problem) (pl : Plan) (sol : Solution) : Prop where
  schedule : ∀ k, sol.schedule.get? k = if k ∈ pb.modes.keys then some (pl.start k, pl.start k + pl.dur pb k) else none
  modes : ∀ k, sol.modes.get? k = if k ∈ pb.modes.keys then some (pl.mode k) else none
  length : sol.schedule.length = pb.modes.length
  noted : ∀ k e s, Noted sol.usage k e s ↔ pl.on k e s = true
  some_ : ∀ k us, sol.usage.get? k = some us → us.keys.Nodup ∧ ∀ e, e ∈ us.keys → ∃ s, pl.on k e s = true

/-- One round of the loop that notes workers. -/
def note (u : Usage) (x : Use) : Usage :=
  u.set x.task (((u.get? x.task).getD []).set x.emp (addTo ((((u.get? x.task).getD []).get? x.emp).getD []) x.skill))

theorem mem_addTo {l : List String} {s s' : String} : s' ∈ addTo l s ↔ s' ∈ l ∨ s' = s := by
  unfold addTo
  split
  · next h => exact ⟨.inl, fun hh => hh.elim id (fun e => e ▸ h)⟩
  · simp

theorem note_noted {u : Usage} {x : Use} {k e : Nat} {s : String} :
    Noted (note u x) k e s ↔ Noted u k e s ∨ (k = x.task ∧ e = x.emp ∧ s = x.skill) := by
  unfold Noted note
  by_cases hk : k = x.task
  · subst hk
    rw [Dict.get?_set_self]
    by_cases he : e = x.emp
    · subst he
      constructor
      · rintro ⟨us, l, h1, h2, h3⟩
        cases h1
        rw [Dict.get?_set_self] at h2
        cases h2
        rcases mem_addTo.1 h3 with h3 | rfl
        · refine .inl ?_
          cases hg : u.get? x.task with
          | none => rw [hg] at h3; simp [Dict.get?] at h3
          | some us =>
            rw [hg] at h3
            simp only [Option.getD_some] at h3
            cases hl : us.get? x.emp with
            | none => rw [hl] at h3; simp at h3
            | some l => rw [hl] at h3; exact ⟨us, l, rfl, hl, h3⟩
        · exact .inr ⟨rfl, rfl, rfl⟩
      · intro h
        refine ⟨_, _, rfl, Dict.get?_set_self _ _ _, mem_addTo.2 ?_⟩
        rcases h with ⟨us, l, h1, h2, h3⟩ | ⟨_, _, rfl⟩
        · exact .inl (by rw [h1, Option.getD_some, h2]; exact h3)
        · exact .inr rfl
    · constructor
      · rintro ⟨us, l, h1, h2, h3⟩
        cases h1
        rw [Dict.get?_set_ne _ _ he] at h2
        cases hg : u.get? x.task with
        | none => rw [hg] at h2; simp [Dict.get?] at h2
        | some us => rw [hg] at h2; exact .inl ⟨us, l, rfl, h2, h3⟩
      · rintro (⟨us, l, h1, h2, h3⟩ | ⟨_, h, _⟩)
        · refine ⟨_, l, rfl, ?_, h3⟩
          rw [Dict.get?_set_ne _ _ he, h1]; exact h2
        · exact absurd h he
  · rw [Dict.get?_set_ne _ _ hk]
    constructor
    · exact .inl
    · rintro (h | ⟨h, _⟩)
      · exact h
      · exact absurd h hk

/-- The dictionaries of workers have distinct keys, and something is noted for every worker in them. -/
def Tidy (u : Usage) : Prop := ∀ k us, u.get? k = some us → us.keys.Nodup ∧ ∀ e, e ∈ us.keys → ∃ s, Noted u k e s

theorem note_tidy {u : Usage} (h : Tidy u) (x : Use) : Tidy (note u x) := by
  intro k us hu
  by_cases hk : k = x.task
  · subst hk
    have hu' := hu
    unfold note at hu
    rw [Dict.get?_set_self] at hu
    cases hu
    constructor
    · refine Dict.nodup_keys_set _ _ ?_
      cases hg : u.get? x.task with
      | none => simp [Dict.keys]
      | some us => exact (h _ us hg).1
    · intro e he
      by_cases hee : e = x.emp
      · exact ⟨x.skill, note_noted.2 (.inr ⟨rfl, hee, rfl⟩)⟩
      · rw [← Dict.get?_isSome_iff_mem_keys, Dict.get?_set_ne _ _ hee, Dict.get?_isSome_iff_mem_keys] at he
        cases hg : u.get? x.task with
        | none => rw [hg] at he; simp [Dict.keys] at he
        | some us =>
          rw [hg] at he
          obtain ⟨s, hs⟩ := (h _ us hg).2 e he
          exact ⟨s, note_noted.2 (.inl hs)⟩
  · unfold note at hu
    rw [Dict.get?_set_ne _ _ hk] at hu
    obtain ⟨h1, h2⟩ := h k us hu
    refine ⟨h1, fun e he => ?_⟩
    obtain ⟨s, hs⟩ := h2 e he
    exact ⟨s, note_noted.2 (.inl hs)⟩

theorem readUsage_spec (a : Var → Int) (l : List Use) : ∀ u : Usage, Tidy u →
    Tidy (l.foldl (fun (u : Usage) (x : Use) => if 1 ≤ 2 * a (.use x) then note u x else u) u) ∧
    ∀ k e s, Noted (l.foldl (fun (u : Usage) (x : Use) => if 1 ≤ 2 * a (.use x) then note u x else u) u) k e s ↔
      Noted u k e s ∨ ∃ x, x ∈ l ∧ 1 ≤ 2 * a (.use x) ∧ k = x.task ∧ e = x.emp ∧ s = x.skill := by
  induction l with
  | nil => intro u h; exact ⟨h, by simp⟩
  | cons x l ih =>
    intro u h
    rw [List.foldl_cons]
    by_cases hc : 1 ≤ 2 * a (.use x)
    · rw [if_pos hc]
      obtain ⟨h1, h2⟩ := ih (note u x) (note_tidy h x)
      refine ⟨h1, fun k e s => ?_⟩
      rw [h2, note_noted]
      constructor
      · rintro ((h | h) | ⟨y, hy, h⟩)
        · exact .inl h
        · exact .inr ⟨x, by simp, hc, h⟩
        · exact .inr ⟨y, List.mem_cons_of_mem _ hy, h⟩
      · rintro (h | ⟨y, hy, hcy, h⟩)
        · exact .inl (.inl h)
        · rcases List.mem_cons.1 hy with rfl | hy
          · exact .inl (.inr h)
          · exact .inr ⟨y, hy, hcy, h⟩
    · rw [if_neg hc]
      obtain ⟨h1, h2⟩ := ih u h
      refine ⟨h1, fun k e s => ?_⟩
      rw [h2]
      constructor
      · rintro (h | ⟨y, hy, h⟩)
        · exact .inl h
        · exact .inr ⟨y, List.mem_cons_of_mem _ hy, h⟩
      · rintro (h | ⟨y, hy, hcy, h⟩)
        · exact .inl h
        · rcases List.mem_cons.1 hy with rfl | hy
          · exact absurd hcy hc
          · exact .inr ⟨y, hy, hcy, h⟩

theorem Shape.reads {pb : Problem} {D : Nat} {pl : Plan} {a : Var → Int} (w : Wf pb) (sh : Shape pb D pl a) :
    Reads pb pl (read pb (D + 1) a) := by
  have hsch : ∀ k, (readSchedule pb (D + 1) a).get? k = if k ∈ pb.modes.keys then some (pl.start k, pl.start k + pl.dur pb k) else none := by
    intro k
    obtain ⟨h1, h2⟩ := foldSet_get (fun z : Nat × Nat × Nat => 1 ≤ 2 * a (.start z.1 z.2.1 z.2.2)) (fun z => z.1)
      (fun z => (z.2.2, z.2.2 + durOf pb z.1 z.2.1)) (fun k => (pl.start k, pl.start k + pl.dur pb k)) k
      (pb.modes.keys.flatMap (fun k => (slots pb (D + 1) k).map (fun q => (k, q)))) (by
        intro z hz hc
        obtain ⟨k, hk, hz⟩ := List.mem_flatMap.1 hz
        obtain ⟨q, hq, rfl⟩ := List.mem_map.1 hz
        simp only [sh.startV k hk q hq] at hc
        split at hc
        · next h => simp only [h]; rfl
        · omega) []
    split
    · next hk =>
      refine h1 ⟨(k, pl.mode k, pl.start k), ?_, ?_, rfl⟩
      · exact List.mem_flatMap.2 ⟨k, hk, List.mem_map.2 ⟨_, sh.slot hk, rfl⟩⟩
      · have := sh.startV k hk _ (sh.slot hk)
        simp only at this
        rw [this, if_true]; decide
    · next hk =>
      refine (h2 ?_).trans rfl
      rintro ⟨z, hz, _, rfl⟩
      obtain ⟨k, hk', hz⟩ := List.mem_flatMap.1 hz
      obtain ⟨q, hq, rfl⟩ := List.mem_map.1 hz
      exact hk hk'
  have hmod : ∀ k, (readModes pb a).get? k = if k ∈ pb.modes.keys then some (pl.mode k) else none := by
    intro k
    obtain ⟨h1, h2⟩ := foldSet_get (fun z : Nat × Nat => 1 ≤ 2 * a (.mode z.1 z.2)) (fun z => z.1)
      (fun z => z.2) (fun k => pl.mode k) k
      (pb.modes.keys.flatMap (fun k => (modesOf pb k).keys.map (fun m => (k, m)))) (by
        intro z hz hc
        obtain ⟨k, hk, hz⟩ := List.mem_flatMap.1 hz
        obtain ⟨m, hm, rfl⟩ := List.mem_map.1 hz
        simp only [sh.modeV k m hm] at hc
        split at hc
        · next h => exact h
        · omega) []
    split
    · next hk =>
      refine h1 ⟨(k, pl.mode k), ?_, ?_, rfl⟩
      · exact List.mem_flatMap.2 ⟨k, hk, List.mem_map.2 ⟨_, sh.mode k hk, rfl⟩⟩
      · simp only [sh.modeV k _ (sh.mode k hk), if_pos]; decide
    · next hk =>
      refine (h2 ?_).trans rfl
      rintro ⟨z, hz, _, rfl⟩
      obtain ⟨k, hk', hz⟩ := List.mem_flatMap.1 hz
      obtain ⟨q, hq, rfl⟩ := List.mem_map.1 hz
      exact hk hk'
  have hus := readUsage_spec a (uses pb (D + 1)) [] (by intro k us h; cases h)
  have hnoted : ∀ k e s, Noted (readUsage (uses pb (D + 1)) a) k e s ↔ pl.on k e s = true := by
    intro k e s
    refine (hus.2 k e s).trans ?_
    constructor
    · rintro (⟨us, l, h, _⟩ | ⟨x, hx, hc, rfl, rfl, rfl⟩)
      · cases h
      · rcases (sh.use_one hx).1 with h0 | h1
        · rw [h0] at hc; exact absurd hc (by decide)
        · exact ((sh.use_one hx).2.1 h1).1
    · intro hon
      have hx := sh.key_mem w hon
      refine .inr ⟨_, hx, ?_, rfl, rfl, rfl⟩
      rw [(sh.use_one hx).2.2 ⟨hon, rfl⟩]; decide
  refine ⟨hsch, hmod, ?_, hnoted, ?_⟩
  · have hn : (readSchedule pb (D + 1) a).keys.Nodup := foldSet_nodup _ _ _ _ [] (by simp [Dict.keys])
    have hp : (readSchedule pb (D + 1) a).keys.Perm pb.modes.keys := by
      rw [List.perm_ext_iff_of_nodup hn w.tasks]
      intro k
      rw [← Dict.get?_isSome_iff_mem_keys, hsch k]
      split <;> simp_all
    have := hp.length_eq
    unfold Dict.keys at this
    rwa [List.length_map, List.length_map] at this
  · intro k us hu
    obtain ⟨h1, h2⟩ := hus.1 k us hu
    refine ⟨h1, fun e he => ?_⟩
    obtain ⟨s, hs⟩ := h2 e he
    exact ⟨s, (hnoted k e s).1 hs⟩

theorem levelOf_skillValue (pb : Problem) (e : Nat) (s : String) : levelOf pb e s = skillValue pb e s := by
  unfold levelOf skillValue
  cases pb.employees.get? e <;> rfl

/-- The workers noted for a skill are those used for it. -/
theorem Reads.noted_perm {pb : Problem} {D : Nat} {pl : Plan} {sol : Solution} (w : Wf pb) (v : Valid pb D pl) (h : Reads pb pl sol) {k : Nat}
    {us : Dict Nat (List String)} (hu : sol.usage.get? k = some us) (s : String) :
    (notedFor us s).Perm (pb.employees.keys.filter (fun e => pl.on k e s)) := by
  have hn := (h.some_ k us hu).1
  rw [List.perm_ext_iff_of_nodup]
  · intro e
    unfold notedFor
    simp only [List.mem_map, List.mem_filter, List.contains_eq_mem, decide_eq_true_eq]
    constructor
    · rintro ⟨⟨e', l⟩, ⟨hm, hs⟩, rfl⟩
      have hon := (h.noted k e' s).1 ⟨us, l, hu, Dict.get?_of_mem hn hm, hs⟩
      obtain ⟨emp, he⟩ := emp_of_level (v.able _ _ _ hon).2.1
      exact ⟨by rw [← Dict.get?_isSome_iff_mem_keys, he]; rfl, hon⟩
    · rintro ⟨_, hon⟩
      obtain ⟨us', l, h1, h2, h3⟩ := (h.noted k e s).2 hon
      rw [hu] at h1; cases h1
      exact ⟨(e, l), ⟨Dict.mem_of_get? h2, h3⟩, rfl⟩
  · exact hn.sublist (List.Sublist.map _ List.filter_sublist)
  · exact w.dicts.employees.filter _

end Verif.MsLp
