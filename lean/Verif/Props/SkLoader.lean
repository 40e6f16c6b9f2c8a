import Verif.Model.SkLoader
/-
C203: loading a multi-skill project as a scheduling domain.
-/
namespace Verif.SkLoader

theorem table_get {α : Type} (f : String → α) (ks : List String) (k : String) : (table f ks).get? k = if k ∈ ks then some (f k) else none := by
  have key : ∀ (ks : List String) (d : Dict String α), (ks.foldl (fun d k => d.set k (f k)) d).get? k = if k ∈ ks then some (f k) else d.get? k := by
    intro ks
    induction ks with
    | nil => intro d; simp
    | cons x ks ih =>
      intro d
      rw [List.foldl_cons, ih, Dict.get?_set]
      by_cases h1 : k ∈ ks
      · simp [h1]
      · by_cases h2 : k = x
        · simp [h2]
        · simp [h1, h2]
  rw [table, key]
  simp

theorem firsts_ok : ∀ (a : Dict String (List Int)) (d : Dict String Int), (a.map Prod.fst).Nodup → (∀ x, x ∈ a → x.2 ≠ []) →
    ∃ r, firsts a d = .ok r ∧ ∀ k, r.get? k = match a.get? k with
      | some l => l.head?
      | none => d.get? k := by
  intro a
  induction a with
  | nil => intro d _ _; exact ⟨d, rfl, fun k => rfl⟩
  | cons x a ih =>
    obtain ⟨r, l⟩ := x
    intro d hn hl
    rw [List.map_cons, List.nodup_cons] at hn
    cases l with
    | nil => exact absurd rfl (hl (r, []) (by simp))
    | cons y l =>
      obtain ⟨res, h1, h2⟩ := ih (d.set r y) hn.2 (fun z hz => hl z (List.mem_cons_of_mem _ hz))
      refine ⟨res, h1, fun k => ?_⟩
      rw [h2]
      simp only [Dict.get?]
      by_cases hk : r = k
      · subst hk
        have : Dict.get? a r = none := by
          cases hg : Dict.get? a r with
          | none => rfl
          | some v => exact absurd ((Dict.get?_isSome_iff_mem_keys a r).1 (by rw [hg]; rfl)) hn.1
        simp only [this, if_true, Dict.get?_set_self, List.head?_cons]
      · simp only [hk, if_false]
        cases Dict.get? a k with
        | none => exact Dict.get?_set_ne d y (Ne.symm hk)
        | some v => rfl

theorem firsts_error : ∀ (a : Dict String (List Int)) (d : Dict String Int), (∃ x, x ∈ a ∧ x.2 = []) → firsts a d = .error .indexError := by
  intro a
  induction a with
  | nil => intro d h; simp at h
  | cons x a ih =>
    obtain ⟨r, l⟩ := x
    intro d h
    cases l with
    | nil => rfl
    | cons y l =>
      obtain ⟨z, hz, he⟩ := h
      rcases List.mem_cons.1 hz with rfl | hz
      · cases he
      · exact ih _ ⟨z, hz, he⟩

theorem copy_get : ∀ (l d : Dict String Int) (k : String), (l.map Prod.fst).Nodup →
    (copySkills l d).get? k = match l.get? k with
      | some v => some v
      | none => d.get? k := by
  intro l
  induction l with
  | nil => intro d k _; rfl
  | cons x l ih =>
    obtain ⟨s, v⟩ := x
    intro d k hn
    rw [List.map_cons, List.nodup_cons] at hn
    rw [copySkills, ih _ _ hn.2]
    simp only [Dict.get?]
    by_cases hk : s = k
    · subst hk
      have : Dict.get? l s = none := by
        cases hg : Dict.get? l s with
        | none => rfl
        | some v => exact absurd ((Dict.get?_isSome_iff_mem_keys l s).1 (by rw [hg]; rfl)) hn.1
      simp only [this, if_true, Dict.get?_set_self]
    · simp only [hk, if_false]
      cases Dict.get? l k with
      | none => exact Dict.get?_set_ne d v (Ne.symm hk)
      | some w => rfl

theorem employ_all (name : Nat → String) : ∀ (es : List (Nat × Employee)) (s : Loaded),
    (es.foldl (employ name) s).units = s.units ++ es.map (fun e => name e.1) ∧ (es.foldl (employ name) s).types = s.types ∧
    (∀ k, k ∉ es.map (fun e => name e.1) → (es.foldl (employ name) s).skills.get? k = s.skills.get? k ∧
      (es.foldl (employ name) s).availability.get? k = s.availability.get? k ∧ (es.foldl (employ name) s).renewable.get? k = s.renewable.get? k) ∧
    ((es.map (fun e => name e.1)).Nodup → ∀ e, e ∈ es → (es.foldl (employ name) s).skills.get? (name e.1) = some (copySkills e.2.skills []) ∧
      (es.foldl (employ name) s).availability.get? (name e.1) = some 1 ∧ (es.foldl (employ name) s).renewable.get? (name e.1) = some true) := by
  intro es
  induction es with
  | nil => intro s; simp
  | cons x es ih =>
    intro s
    obtain ⟨h1, h2, h3, h4⟩ := ih (employ name s x)
    rw [List.foldl_cons]
    refine ⟨by rw [h1]; simp [employ], by rw [h2]; rfl, ?_, ?_⟩
    · intro k hk
      rw [List.map_cons, List.mem_cons, not_or] at hk
      obtain ⟨a, b, c⟩ := h3 k hk.2
      rw [a, b, c]
      exact ⟨Dict.get?_set_ne _ _ hk.1, Dict.get?_set_ne _ _ hk.1, Dict.get?_set_ne _ _ hk.1⟩
    · intro hn e he
      rw [List.map_cons, List.nodup_cons] at hn
      rcases List.mem_cons.1 he with rfl | he
      · obtain ⟨a, b, c⟩ := h3 _ hn.1
        rw [a, b, c]
        exact ⟨Dict.get?_set_self _ _ _, Dict.get?_set_self _ _ _, Dict.get?_set_self _ _ _⟩
      · exact h4 hn.2 e he

/-- C203: every employee becomes a unit with its skills, always one and renewable; every resource keeps the availability at time 0 and whether
it is renewable and gets no skills; if no resource has the name of an employee and no two employees have the same one. -/
theorem C203_load {name : Nat → String} {p : Project} (ha : (p.availability.map Prod.fst).Nodup) (hne : ∀ x, x ∈ p.availability → x.2 ≠ [])
    (hs : ∀ e, e ∈ p.employees → (e.2.skills.map Prod.fst).Nodup) (hn : (p.employees.map (fun e => name e.1)).Nodup) :
    ∃ r, load name p = .ok r ∧ r.types = p.resources ∧ r.units = p.employees.map (fun e => name e.1) ∧
      (∀ e, e ∈ p.employees → (∃ d, r.skills.get? (name e.1) = some d ∧ ∀ s, d.get? s = e.2.skills.get? s) ∧
        r.availability.get? (name e.1) = some 1 ∧ r.renewable.get? (name e.1) = some true) ∧
      ∀ k, k ∉ p.employees.map (fun e => name e.1) →
        r.skills.get? k = (if k ∈ p.resources then some [] else none) ∧
        r.availability.get? k = (p.availability.get? k).bind List.head? ∧
        r.renewable.get? k = if k ∈ p.resources then some (decide (k ∉ p.nonRenewable)) else none := by
  obtain ⟨a, h1, h2⟩ := firsts_ok p.availability [] ha hne
  have hl : load name p = .ok (p.employees.foldl (employ name)
      ⟨[], p.resources, table (fun _ => []) p.resources, a, table (fun r => decide (r ∉ p.nonRenewable)) p.resources⟩) := by
    unfold load; rw [h1]
  obtain ⟨e1, e2, e3, e4⟩ := employ_all name p.employees
    ⟨[], p.resources, table (fun _ => []) p.resources, a, table (fun r => decide (r ∉ p.nonRenewable)) p.resources⟩
  refine ⟨_, hl, e2, by rw [e1]; rfl, ?_, ?_⟩
  · intro e he
    obtain ⟨a1, a2, a3⟩ := e4 hn e he
    refine ⟨⟨_, a1, fun s => ?_⟩, a2, a3⟩
    rw [copy_get _ _ _ (hs e he)]
    cases Dict.get? e.2.skills s <;> rfl
  · intro k hk
    obtain ⟨a1, a2, a3⟩ := e3 k hk
    rw [a1, a2, a3]
    refine ⟨table_get _ _ _, ?_, table_get _ _ _⟩
    show a.get? k = _
    rw [h2 k]
    cases Dict.get? p.availability k <;> rfl

/-- C203: a resource without availabilities raises `IndexError`. -/
theorem C203_empty_raises (name : Nat → String) {p : Project} (h : ∃ x, x ∈ p.availability ∧ x.2 = []) : load name p = .error .indexError := by
  unfold load
  rw [firsts_error _ _ h]

/-- The names of the code. -/
def employeeName (k : Nat) : String := "employee-" ++ toString k

/-- A site: one resource, two employees. -/
def site : Project :=
  { resources := ["crane"], availability := [("crane", [2, 2, 0])], nonRenewable := [],
    employees := [(1, ⟨[("weld", 2), ("paint", 1)], [true, true]⟩), (2, ⟨[("paint", 3)], [true, true]⟩)] }

/-- C203, refuted: calendars of employees and later availabilities of resources make no difference to the domain. -/
theorem C203_calendar_refuted (name : Nat → String) (p : Project) (calendar : Nat → List Bool) (later : String → List Int) :
    load name { p with employees := p.employees.map (fun e => (e.1, { e.2 with calendar := calendar e.1 })),
                       availability := p.availability.map (fun x => (x.1, x.2.take 1 ++ if x.2 = [] then [] else later x.1)) } = load name p := by
  have h1 : ∀ (a : Dict String (List Int)) (d : Dict String Int),
      firsts (a.map (fun x => (x.1, x.2.take 1 ++ if x.2 = [] then [] else later x.1))) d = firsts a d := by
    intro a
    induction a with
    | nil => intro d; rfl
    | cons x a ih =>
      obtain ⟨r, l⟩ := x
      intro d
      cases l with
      | nil => rfl
      | cons y l => simp only [List.map_cons, List.take_succ_cons, List.take_zero, List.cons_append, firsts]; exact ih _
  have h2 : ∀ (es : List (Nat × Employee)) (s : Loaded),
      (es.map (fun e => (e.1, { e.2 with calendar := calendar e.1 }))).foldl (employ name) s = es.foldl (employ name) s := by
    intro es
    induction es with
    | nil => intro s; rfl
    | cons e es ih => intro s; rw [List.map_cons, List.foldl_cons, List.foldl_cons]; exact ih _
  unfold load
  simp only [h1, h2]

/-- C203, refuted: a resource named like an employee loses its availability. -/
theorem C203_name_refuted : ∃ p : Project, p.resources = ["employee-1"] ∧ p.availability.get? "employee-1" = some [5] ∧
    (load employeeName p).map (fun r => r.availability) = .ok [("employee-1", 1)] :=
  ⟨⟨["employee-1"], [("employee-1", [5])], [], [(1, ⟨[], []⟩)]⟩, rfl, by decide +kernel, by decide +kernel⟩

example : load employeeName site = .ok ⟨["employee-1", "employee-2"], ["crane"],
    [("crane", []), ("employee-1", [("weld", 2), ("paint", 1)]), ("employee-2", [("paint", 3)])],
    [("crane", 2), ("employee-1", 1), ("employee-2", 1)], [("crane", true), ("employee-1", true), ("employee-2", true)]⟩ := by decide +kernel
example : (site.employees.map (fun e => employeeName e.1)).Nodup ∧ (site.availability.map Prod.fst).Nodup ∧
    (∀ e, e ∈ site.employees → (e.2.skills.map Prod.fst).Nodup) := ⟨by decide +kernel, by decide +kernel, by decide +kernel⟩
example : load employeeName { site with nonRenewable := ["crane"], availability := [("crane", [])] } = .error .indexError ∧
    (load employeeName { site with nonRenewable := ["crane"] }).map (fun r => r.renewable.get? "crane") = .ok (some false) :=
  ⟨by decide +kernel, by decide +kernel⟩

end Verif.SkLoader
