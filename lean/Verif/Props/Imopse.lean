import Verif.Lemmas.Imopse
/- C193: solution files of multi-skill projects. -/
namespace Verif.Imopse
open Parse

/-! ## Writing and reading -/

/-- C193: a solution whose tasks have different original numbers is written, and read back as it was: every task with workers is read with
its start and the last of its workers, and nothing else is read. -/
theorem C193_round_trip (names : Dict Int Nat) (s : Sol) (hnd : s.schedule.keys.Nodup)
    (hinj : ∀ a b o, names.get? a = some o → names.get? b = some o → a = b)
    (hk : ∀ t ∈ s.schedule.keys, (names.get? t).isSome → (s.usage.get? t).isSome) :
    ∃ txt, write names s = .ok txt ∧
      (∀ t p o emps e, s.schedule.get? t = some p → names.get? t = some o → s.usage.get? t = some (emps ++ [e]) →
        (parseResults txt).schedule.get? (o : Int) = some p.1 ∧ (parseResults txt).assign.get? (o : Int) = some (str (e : Int))) ∧
      ∀ n : Int, (∀ t ∈ s.schedule.keys, ∀ o : Nat, n = o → names.get? t = some o → s.usage.get? t = some []) →
        (parseResults txt).schedule.get? n = none ∧ (parseResults txt).assign.get? n = none := by
  let order := sortBy (fun t => ((s.schedule.get? t).getD (0, 0)).1) s.schedule.keys
  have hperm : order.Perm s.schedule.keys := sortBy_perm _ _
  have hord : order.Nodup := hperm.nodup_iff.2 hnd
  obtain ⟨d, h1, h2, h3⟩ := addTasks_ok names s order [] (fun t ht hn =>
    ⟨hk t (hperm.mem_iff.1 ht) hn, (Dict.get?_isSome_iff_mem_keys _ _).2 (hperm.mem_iff.1 ht)⟩) (by simp [Dict.keys])
  let hs := sortBy (fun h => h) d.keys
  have hhs : hs.Perm d.keys := sortBy_perm _ _
  have hhnd : hs.Nodup := hhs.nodup_iff.2 h2
  have htouch : ∀ h, h ∈ hs ↔ Touched names s order h := by
    intro h
    rw [hhs.mem_iff, ← Dict.get?_isSome_iff_mem_keys]
    by_cases hT : Touched names s order h
    · simp [(h3 h).1 hT, hT]
    · simp [(h3 h).2 hT, hT, Dict.get?]
  have hline : ∀ h ∈ hs, (d.get? h).getD [] = str h ++ [' '] ++ tailOf (pairsAt names s order h) := by
    intro h hh
    rw [(h3 h).1 ((htouch h).1 hh)]
    rfl
  have htxt : write names s = .ok (header ++ '\n' :: (hs.map (fun h => str h ++ [' '] ++ tailOf (pairsAt names s order h))).flatMap
      (fun l => l ++ ['\n'])) := by
    unfold write
    show (addTasks names s order [] >>= fun d => .ok (header ++ '\n' :: (sortBy (fun h => h) d.keys).flatMap
      (fun h => (d.get? h).getD [] ++ ['\n']))) = _
    rw [h1, bind_ok, List.flatMap_map]
    congr 3
    apply List.flatMap_congr
    intro h hh
    rw [hline h hh]
  refine ⟨_, htxt, ?_, ?_⟩
  · intro t p o emps e hp ho he
    rw [parse_text]
    have hmem : t ∈ order := hperm.mem_iff.2 ((Dict.get?_isSome_iff_mem_keys _ _).1 (by simp [hp]))
    have hf := entries_filter (pairsAt names s order) o p.1 ((emps ++ [e]).map (fun e => (e, o)))
      (fun h => pairs_filter ho he hp (fun t' ht' => hinj t' t o ht' ho) order h hord hmem) hs hhnd
    rw [if_pos ((htouch p.1).2 ⟨t, hmem, by simp [ho], p, hp, rfl⟩)] at hf
    obtain ⟨g1, g2⟩ := put_get (o : Int) (entries (pairsAt names s order) hs) {}
    rw [hf] at g1 g2
    constructor
    · rw [show hs.flatMap (fun h => (pairsAt names s order h).map (fun x => (h, x))) = entries (pairsAt names s order) hs from rfl, g1]
      simp
    · rw [show hs.flatMap (fun h => (pairsAt names s order h).map (fun x => (h, x))) = entries (pairsAt names s order) hs from rfl, g2]
      simp
  · intro n hn
    rw [parse_text]
    obtain ⟨g1, g2⟩ := put_get n (entries (pairsAt names s order) hs) {}
    have hf : (entries (pairsAt names s order) hs).filter (fun x => decide ((x.2.2 : Int) = n)) = [] := by
      by_cases hex : ∃ o : Nat, n = o
      · obtain ⟨o, rfl⟩ := hex
        have := entries_filter (pairsAt names s order) o 0 [] (fun h => by
          rw [pairs_filter_nil order h (fun t ht => ?_)]
          · split <;> rfl
          · by_cases ho : names.get? t = some o
            · exact .inr (hn t (hperm.mem_iff.1 ht) o rfl ho)
            · exact .inl ho) hs hhnd
        rw [this]
        split <;> rfl
      · rw [List.filter_eq_nil_iff]
        intro x _
        simp only [decide_eq_true_eq]
        exact fun hc => hex ⟨_, hc.symm⟩
    rw [hf] at g1 g2
    exact ⟨g1, g2⟩

/-- Source 1, tasks 2 and 3 that were 10 and 11, sink 4. -/
def small : Sol := ⟨[(1, (0, 0)), (2, (5, 8)), (3, (0, 5)), (4, (8, 8))], [(1, []), (2, [7]), (3, [12]), (4, [])]⟩

example : write [(2, 10), (3, 11)] small =
    .ok "Hour \t Resource assignments (resource ID - task ID) \n0 12-11 \n5 7-10 \n".toList := by decide +kernel

example : (parseResults "Hour\n0 12-11 \n5 7-10 \n".toList).schedule = [(11, 0), (10, 5)] ∧
    (parseResults "Hour\n0 12-11 \n5 7-10 \n".toList).assign = [(11, "12".toList), (10, "7".toList)] :=
  ⟨by decide +kernel, by decide +kernel⟩

/-- C193: when a scheduled task with an original number has no entry of workers, writing raises. -/
theorem C193_write_raises (names : Dict Int Nat) (s : Sol) (t : Int) (ht : t ∈ s.schedule.keys) (hn : (names.get? t).isSome)
    (hu : s.usage.get? t = none) : write names s = .error .keyError := by
  have key : ∀ (L : List Int) (d : Dict Int (List Char)), t ∈ L → addTasks names s L d = .error .keyError := by
    intro L
    induction L with
    | nil => intro d h; simp at h
    | cons a L ih =>
      intro d h
      unfold addTasks
      by_cases ha : a = t
      · subst ha
        obtain ⟨o, ho⟩ := Option.isSome_iff_exists.1 hn
        simp [addTask, ho, hu]
      · have hm : t ∈ L := by
          rcases List.mem_cons.1 h with rfl | h
          · exact absurd rfl ha
          · exact h
        unfold addTask
        split
        · simp [ih _ hm]
        · split
          · simp [ih _ hm]
          · rfl
  unfold write
  show (addTasks names s (sortBy _ s.schedule.keys) [] >>= _) = _
  rw [key _ _ ((sortBy_perm _ _).mem_iff.2 ht)]
  rfl

example : write [(2, 10), (3, 11)] { small with usage := [(2, [7])] } = .error .keyError := by decide +kernel

/-- C193 as one would expect it, that all workers of a task are read back, is false: of two workers the last is kept, and a task without
workers is not read at all. -/
theorem C193_workers_refuted : ∃ s : Sol, s.usage.get? 2 = some [3, 4] ∧ s.usage.get? 5 = some [] ∧ s.schedule.get? 5 = some (1, 1) ∧
    ∃ txt, write [(2, 20), (5, 50)] s = .ok txt ∧ (parseResults txt).schedule = [(20, 0)] ∧
      (parseResults txt).assign = [(20, "4".toList)] :=
  ⟨⟨[(2, (0, 1)), (5, (1, 1))], [(2, [3, 4]), (5, [])]⟩, rfl, rfl, rfl,
    "Hour \t Resource assignments (resource ID - task ID) \n0 3-20 4-20 \n1 \n".toList, by decide +kernel, by decide +kernel, by decide +kernel⟩

/-! ## Making a solution of what was read -/

theorem look_some [DecidableEq κ] {d : Dict κ α} {k : κ} {v : α} (h : d.get? k = some v) : look d k = .ok v := by
  simp [look, h]

theorem look_cases [DecidableEq κ] (d : Dict κ α) (k : κ) :
    (∃ v, d.get? k = some v ∧ look d k = .ok v) ∨ look d k = .error .keyError := by
  cases h : d.get? k with
  | none => right; simp [look, h]
  | some v => exact .inl ⟨v, rfl, look_some h⟩

/-- C193 as one would expect it, that what was read makes a solution, is false: the workers read are words, those of a problem read by
`parse_imopse` are numbers, so that whenever a task was read, `recompute_solution` raises `KeyError`. -/
theorem C193_recompute_refuted (p : Problem) (hp : ∀ w ∈ p.employees.keys, ∃ n, w = Sum.inl n) (names : Dict Int Int) (txt : List Char)
    (hne : (parseResults txt).schedule ≠ []) :
    recompute p names (parseResults txt).schedule ((parseResults txt).assign.map (fun q => (q.1, Sum.inr q.2))) = .error .keyError := by
  have hassign : ∀ t w, Dict.get? ((parseResults txt).assign.map (fun q => (q.1, (Sum.inr q.2 : Worker)))) t = some w → ∃ x, w = Sum.inr x := by
    intro t w h
    have := Dict.mem_of_get? h
    obtain ⟨q, _, hq⟩ := List.mem_map.1 this
    exact ⟨q.2, (Prod.mk.inj hq).2.symm⟩
  unfold recompute
  cases hs : (parseResults txt).schedule with
  | nil => exact absurd hs hne
  | cons q l =>
    have : recomputeOne p names ((parseResults txt).assign.map (fun q => (q.1, Sum.inr q.2))) {} q.1 q.2 = .error .keyError := by
      unfold recomputeOne
      rcases look_cases (reverse names) q.1 with ⟨new, _, h⟩ | h <;> rw [h]
      · rw [bind_ok]
        rcases look_cases p.modes new with ⟨m, _, h⟩ | h <;> rw [h]
        · rw [bind_ok]
          rcases look_cases ((parseResults txt).assign.map (fun q => (q.1, (Sum.inr q.2 : Worker)))) q.1 with ⟨w, ha, h⟩ | h <;> rw [h]
          · rw [bind_ok]
            obtain ⟨x, rfl⟩ := hassign _ _ ha
            rcases look_cases p.employees (Sum.inr x) with ⟨sk, he, h⟩ | h <;> rw [h]
            · obtain ⟨n, hn⟩ := hp (Sum.inr x) ((Dict.get?_isSome_iff_mem_keys p.employees (Sum.inr x)).1 (by rw [he]; rfl))
              cases hn
            · rfl
          · rfl
        · rfl
      · rfl
    obtain ⟨t, st⟩ := q
    simp only [recomputeLoop]
    rw [this]
    rfl

/-- The problem of the small solution. -/
def prob : Problem := ⟨[(.inl 7, [("Q1".toList, 2)]), (.inl 12, [("Q0".toList, 1), ("Q1".toList, 1)])],
  [(2, (3, [("Q0".toList, 0), ("Q1".toList, 2)])), (3, (5, [("Q0".toList, 1), ("Q1".toList, 0)])), (1, (0, [])), (4, (0, []))], 1, 4⟩

example : (∀ w ∈ prob.employees.keys, w.isLeft) ∧ (parseResults "Hour\n0 12-11 \n5 7-10 \n".toList).schedule ≠ [] :=
  ⟨by decide +kernel, by decide +kernel⟩

theorem reverse_get (names : Dict Int Int) (new t : Int) (hmem : names.get? new = some t)
    (hinj : ∀ a b, (a, t) ∈ names → (b, t) ∈ names → a = b) : (reverse names).get? t = some new := by
  have key : ∀ (l : Dict Int Int) (d : Dict Int Int), (∀ a, (a, t) ∈ l → a = new) →
      ((∃ a, (a, t) ∈ l) ∨ d.get? t = some new) → (l.foldl (fun d p => d.set p.2 p.1) d).get? t = some new := by
    intro l
    induction l with
    | nil => intro d _ h; simpa using h
    | cons q l ih =>
      intro d h hor
      rw [List.foldl_cons]
      obtain ⟨a, b⟩ := q
      apply ih _ (fun a ha => h a (by simp [ha]))
      by_cases hl : ∃ a, (a, t) ∈ l
      · exact .inl hl
      · right
        rw [Dict.get?_set]
        by_cases hb : t = b
        · subst hb
          rw [if_pos rfl, h a (by simp)]
        · rw [if_neg hb]
          rcases hor with ⟨a', h'⟩ | h'
          · rcases List.mem_cons.1 h' with h' | h'
            · exact absurd (Prod.mk.inj h').2 hb
            · exact absurd ⟨a', h'⟩ hl
          · exact h'
  have hm := Dict.mem_of_get? hmem
  exact key names [] (fun a ha => hinj a new ha hm) (.inl ⟨new, hm⟩)

/-- The skills that a worker has and a task requires. -/
def common (sk req : Dict (List Char) Int) : List (List Char) :=
  (sk.filter (fun s => decide (0 < s.2) && decide (0 < (req.get? s.1).getD 0))).map Prod.fst

theorem mem_common (sk req : Dict (List Char) Int) (x : List Char) :
    x ∈ common sk req ↔ (∃ v, (x, v) ∈ sk ∧ 0 < v) ∧ ∃ r, req.get? x = some r ∧ 0 < r := by
  unfold common
  simp only [List.mem_map, List.mem_filter, Bool.and_eq_true, decide_eq_true_eq]
  constructor
  · rintro ⟨⟨y, v⟩, ⟨h1, h2, h3⟩, rfl⟩
    refine ⟨⟨v, h1, h2⟩, ?_⟩
    cases hr : req.get? y with
    | none => rw [hr] at h3; simp at h3
    | some r => rw [hr] at h3; exact ⟨r, rfl, h3⟩
  · rintro ⟨⟨v, h1, h2⟩, r, hr, h3⟩
    exact ⟨(x, v), ⟨h1, h2, by rw [hr]; exact h3⟩, rfl⟩

theorem foldl_max (l : List Int) (a : Int) : a ≤ l.foldl max a ∧ (∀ x ∈ l, x ≤ l.foldl max a) ∧ (l.foldl max a = a ∨ l.foldl max a ∈ l) := by
  induction l generalizing a with
  | nil => simp
  | cons y l ih =>
    obtain ⟨h1, h2, h3⟩ := ih (max a y)
    rw [List.foldl_cons]
    refine ⟨by omega, ?_, ?_⟩
    · intro x hx
      rcases List.mem_cons.1 hx with rfl | hx
      · omega
      · exact h2 x hx
    · rcases h3 with h3 | h3
      · by_cases hay : a ≤ y
        · right; rw [h3, Int.max_eq_right hay]; simp
        · left; rw [h3, Int.max_eq_left (by omega)]
      · right; simp [h3]

/-- C193: a schedule of known tasks and workers, by original numbers, makes a solution in mode 1 in which every task starts as given, lasts
its duration and has its worker with exactly the skills that the worker has and the task requires; source at 0 and sink at the largest
end. -/
theorem C193_recompute (p : Problem) (names : Dict Int Int) (schedule : Dict Int Int) (assign : Dict Int Worker)
    (hnd : schedule.keys.Nodup) (hinj : ∀ a b t, (a, t) ∈ names → (b, t) ∈ names → a = b)
    (hknown : ∀ t ∈ schedule.keys, ∃ new m w sk, names.get? new = some t ∧ p.modes.get? new = some m ∧ assign.get? t = some w ∧
      p.employees.get? w = some sk ∧ new ≠ p.source ∧ new ≠ p.sink) (hss : p.source ≠ p.sink) :
    ∃ f last, recompute p names schedule assign = .ok f ∧ f.schedule.get? p.source = some (0, 0) ∧
      f.schedule.get? p.sink = some (last, last) ∧ f.usage.get? p.source = some [] ∧ f.usage.get? p.sink = some [] ∧
      f.modes.get? p.source = some 1 ∧ f.modes.get? p.sink = some 1 ∧
      (∀ t start new m w sk, schedule.get? t = some start → names.get? new = some t → p.modes.get? new = some m → assign.get? t = some w →
        p.employees.get? w = some sk → f.schedule.get? new = some (start, start + m.1) ∧ f.modes.get? new = some 1 ∧ start + m.1 ≤ last ∧
        ∃ l, f.usage.get? new = some [(w, l)] ∧ ∀ x, x ∈ l ↔ (∃ v, (x, v) ∈ sk ∧ 0 < v) ∧ ∃ r, m.2.get? x = some r ∧ 0 < r) ∧
      0 ≤ last ∧ (last = 0 ∨ ∃ t start new m, schedule.get? t = some start ∧ names.get? new = some t ∧ p.modes.get? new = some m ∧
        last = start + m.1) := by
  have hlook : ∀ new t, names.get? new = some t → (reverse names).get? t = some new :=
    fun new t h => reverse_get names new t h (fun a b => hinj a b t)
  have key : ∀ (l : List (Int × Int)) (f : Full), (l.map Prod.fst).Nodup → (∀ t ∈ l.map Prod.fst, t ∈ schedule.keys) →
      ∃ g, recomputeLoop p names assign l f = .ok g ∧
        (∀ t start new m w sk, (t, start) ∈ l → names.get? new = some t → p.modes.get? new = some m → assign.get? t = some w →
          p.employees.get? w = some sk → g.schedule.get? new = some (start, start + m.1) ∧ g.modes.get? new = some 1 ∧
          g.usage.get? new = some [(w, common sk m.2)]) ∧
        (∀ new, (∀ t, names.get? new = some t → t ∉ l.map Prod.fst) → g.schedule.get? new = f.schedule.get? new ∧
          g.modes.get? new = f.modes.get? new ∧ g.usage.get? new = f.usage.get? new) ∧
        (f.schedule.keys.Nodup → g.schedule.keys.Nodup) := by
    intro l
    induction l with
    | nil => intro f _ _; exact ⟨f, rfl, by simp, fun _ _ => ⟨rfl, rfl, rfl⟩, fun h => h⟩
    | cons q l ih =>
      intro f hn hl
      obtain ⟨t, start⟩ := q
      obtain ⟨new, m, w, sk, h1, h2, h3, h4, _, _⟩ := hknown t (hl t (by simp))
      have hn' := List.nodup_cons.1 (by simpa using hn : (t :: l.map Prod.fst).Nodup)
      obtain ⟨g, g1, g2, g3, g4⟩ := ih ⟨f.schedule.set new (start, start + m.1), f.modes.set new 1,
        f.usage.set new [(w, common sk m.2)]⟩
        hn'.2 (fun t' ht' => hl t' (by simp at ht' ⊢; exact .inr ht'))
      refine ⟨g, ?_, ?_, ?_, ?_⟩
      · have : recomputeOne p names assign f t start = .ok ⟨f.schedule.set new (start, start + m.1), f.modes.set new 1,
            f.usage.set new [(w, common sk m.2)]⟩ := by
          simp only [recomputeOne, look_some (hlook new t h1), look_some h2, look_some h3, look_some h4, bind_ok]
          rfl
        simp only [recomputeLoop]
        rw [this, bind_ok]
        exact g1
      · intro t' start' new' m' w' sk' hm h1' h2' h3' h4'
        rcases List.mem_cons.1 hm with hm | hm
        · obtain ⟨rfl, rfl⟩ := Prod.mk.inj hm
          have : new' = new := hinj _ _ _ (Dict.mem_of_get? h1') (Dict.mem_of_get? h1)
          subst this
          rw [h2] at h2'; rw [h3] at h3'
          have e2 := Option.some.inj h2'
          have e3 := Option.some.inj h3'
          subst e2 e3
          rw [h4] at h4'
          have e4 := Option.some.inj h4'
          subst e4
          obtain ⟨k1, k2, k3⟩ := g3 new' (fun t'' ht'' => by
            rw [h1'] at ht''
            have := Option.some.inj ht''
            subst this
            exact hn'.1)
          exact ⟨by rw [k1, Dict.get?_set_self], by rw [k2, Dict.get?_set_self], by rw [k3, Dict.get?_set_self]⟩
        · exact g2 t' start' new' m' w' sk' hm h1' h2' h3' h4'
      · intro new' hno
        have hne : new' ≠ new := by
          rintro rfl
          exact hno t h1 (by simp)
        obtain ⟨k1, k2, k3⟩ := g3 new' (fun t' ht' hc => hno t' ht' (by simp at hc ⊢; exact .inr hc))
        exact ⟨by rw [k1, Dict.get?_set_ne _ _ hne], by rw [k2, Dict.get?_set_ne _ _ hne], by rw [k3, Dict.get?_set_ne _ _ hne]⟩
      · intro hf
        exact g4 (Dict.nodup_keys_set _ _ hf)
  have hfst : schedule.map Prod.fst = schedule.keys := rfl
  obtain ⟨g, g1, g2, g3, g4⟩ := key schedule {} (by rw [hfst]; exact hnd) (fun t ht => by rw [hfst] at ht; exact ht)
  have hnds := g4 (by simp [Dict.keys])
  have hnds' : (g.schedule.set p.source (0, 0)).keys.Nodup := Dict.nodup_keys_set _ _ hnds
  obtain ⟨m1, m2, m3⟩ := foldl_max ((g.schedule.set p.source (0, 0)).map (fun q => q.2.2)) 0
  refine ⟨⟨(g.schedule.set p.source (0, 0)).set p.sink (((g.schedule.set p.source (0, 0)).map (fun q => q.2.2)).foldl max 0,
      ((g.schedule.set p.source (0, 0)).map (fun q => q.2.2)).foldl max 0), (g.modes.set p.source 1).set p.sink 1,
      (g.usage.set p.source []).set p.sink []⟩,
    ((g.schedule.set p.source (0, 0)).map (fun q => q.2.2)).foldl max 0, by simp only [recompute, g1, bind_ok], ?_, ?_, ?_, ?_, ?_, ?_, ?_, m1, ?_⟩
  · rw [Dict.get?_set_ne _ _ hss, Dict.get?_set_self]
  · rw [Dict.get?_set_self]
  · rw [Dict.get?_set_ne _ _ hss, Dict.get?_set_self]
  · rw [Dict.get?_set_self]
  · rw [Dict.get?_set_ne _ _ hss, Dict.get?_set_self]
  · rw [Dict.get?_set_self]
  · intro t start new m w sk h1 h2 h3 h4 h5
    obtain ⟨k1, k2, k3⟩ := g2 t start new m w sk (Dict.mem_of_get? h1) h2 h3 h4 h5
    obtain ⟨new', _, _, _, h2', _, _, _, hs1, hs2⟩ := hknown t ((Dict.get?_isSome_iff_mem_keys _ _).1 (by simp [h1]))
    have : new' = new := hinj _ _ _ (Dict.mem_of_get? h2') (Dict.mem_of_get? h2)
    subst this
    refine ⟨by rw [Dict.get?_set_ne _ _ hs2, Dict.get?_set_ne _ _ hs1, k1], by rw [Dict.get?_set_ne _ _ hs2, Dict.get?_set_ne _ _ hs1, k2], ?_,
      common sk m.2, by rw [Dict.get?_set_ne _ _ hs2, Dict.get?_set_ne _ _ hs1, k3], mem_common sk m.2⟩
    apply m2
    refine List.mem_map.2 ⟨(new', (start, start + m.1)), Dict.mem_of_get? ?_, rfl⟩
    rw [Dict.get?_set_ne _ _ hs1, k1]
  · rcases m3 with m3 | m3
    · exact .inl m3
    · obtain ⟨⟨k, v⟩, hkv, hlast⟩ := List.mem_map.1 m3
      have hget := Dict.get?_of_mem hnds' hkv
      by_cases hks : k = p.source
      · subst hks
        rw [Dict.get?_set_self] at hget
        have := Option.some.inj hget
        subst this
        exact .inl hlast.symm
      · rw [Dict.get?_set_ne _ _ hks] at hget
        right
        by_cases hex : ∃ t, names.get? k = some t ∧ t ∈ schedule.keys
        · obtain ⟨t, ht, htk⟩ := hex
          obtain ⟨new, m, w, sk, h1, h2, h3, h4, _, _⟩ := hknown t htk
          have : new = k := hinj _ _ _ (Dict.mem_of_get? h1) (Dict.mem_of_get? ht)
          subst this
          obtain ⟨start, hst⟩ := Option.isSome_iff_exists.1 ((Dict.get?_isSome_iff_mem_keys _ _).2 htk)
          obtain ⟨k1, _, _⟩ := g2 t start new m w sk (Dict.mem_of_get? hst) h1 h2 h3 h4
          rw [k1] at hget
          have := Option.some.inj hget
          subst this
          exact ⟨t, start, new, m, hst, h1, h2, hlast.symm⟩
        · have := (g3 k (fun t ht hc => hex ⟨t, ht, by rw [hfst] at hc; exact hc⟩)).1
          rw [this] at hget
          exact absurd hget (by simp [Dict.get?])

example : recompute prob [(2, 10), (3, 11)] [(11, 0), (10, 5)] [(11, .inl 12), (10, .inl 7)] = .ok
    ⟨[(3, (0, 5)), (2, (5, 8)), (1, (0, 0)), (4, (8, 8))], [(3, 1), (2, 1), (1, 1), (4, 1)],
      [(3, [(.inl 12, ["Q0".toList])]), (2, [(.inl 7, ["Q1".toList])]), (1, []), (4, [])]⟩ ∧
    recompute prob [(2, 10), (3, 11)] [(11, 0), (10, 5)] [(11, .inr "12".toList), (10, .inr "7".toList)] = .error .keyError :=
  ⟨by decide +kernel, by decide +kernel⟩

theorem readWords_bad {hour : Int} {bad : List Char} {rest : List (List Char)} (hb : '-' ∉ bad) : ∀ (good : List (List Char)) (r : Res),
    readWords hour (good ++ bad :: rest) r = readWords hour good r
  | [], r => by
    have : bad.dropWhile (· ≠ '-') = [] := by
      induction bad with
      | nil => rfl
      | cons c bad ih =>
        rw [List.mem_cons, not_or] at hb
        rw [List.dropWhile_cons_of_pos (by simpa using fun e => hb.1 (Eq.symm e))]
        exact ih hb.2
    simp only [List.nil_append, readWords, readWord, this]
  | w :: good, r => by
    simp only [List.cons_append, readWords]
    cases readWord w with
    | error e => rfl
    | ok x => exact readWords_bad hb good _

/-- A word that is no pair does not raise: silently, all that follows it in its line is lost. -/
theorem C193_word_refuted {before after : List (List Char)} {l l' hour bad : List Char} {good rest : List (List Char)} (hne : before ≠ [])
    (hn : ∀ x ∈ before ++ l :: l' :: after, '\n' ∉ x) (hl : pyWords l = hour :: (good ++ bad :: rest)) (hl' : pyWords l' = hour :: good)
    (hb : '-' ∉ bad) : parseResults (text (before ++ l :: after)) = parseResults (text (before ++ l' :: after)) := by
  unfold parseResults
  rw [pyLines_text (by simp) (fun x hx => hn x (by simp only [List.mem_append, List.mem_cons] at hx ⊢; grind)),
    pyLines_text (by simp) (fun x hx => hn x (by simp only [List.mem_append, List.mem_cons] at hx ⊢; grind))]
  obtain ⟨h, t, rfl⟩ := List.exists_cons_of_ne_nil hne
  simp only [List.cons_append, List.drop_succ_cons, List.drop_zero, List.foldl_append, List.foldl_cons]
  congr 1
  generalize List.foldl readLine {} t = r
  unfold readLine
  rw [hl, hl']
  simp only
  cases pyInt hour with
  | error e => rfl
  | ok x => exact readWords_bad hb good _

example : (parseResults "Hour\n3 1-5 oops 2-6".toList).schedule.get? 5 = some 3 ∧ (parseResults "Hour\n3 1-5 oops 2-6".toList).schedule.get? 6 = none :=
  ⟨by decide +kernel, by decide +kernel⟩

end Verif.Imopse
