import Verif.Model.Parallel
/- Invariants of the parallel domain. -/
namespace Verif.Par

/-- The results of running jobs one after the other, `none` for a call that raises, and the state of the domain afterwards. -/
def outs (exec : D → J → D × Option R) : D → List J → List (Option R)
  | _, [] => []
  | d, j :: js => (exec d j).2 :: outs exec (exec d j).1 js
def endState (exec : D → J → D × Option R) : D → List J → D
  | d, [] => d
  | d, j :: js => endState exec (exec d j).1 js

theorem outs_snoc (exec : D → J → D × Option R) : ∀ (l : List J) (d : D) (j : J), outs exec d (l ++ [j]) = outs exec d l ++ [(exec (endState exec d l) j).2] := by
  intro l
  induction l with
  | nil => intro d j; rfl
  | cons x l ih => intro d j; simp only [List.cons_append, outs, endState, ih]

theorem endState_snoc (exec : D → J → D × Option R) : ∀ (l : List J) (d : D) (j : J), endState exec d (l ++ [j]) = (exec (endState exec d l) j).1 := by
  intro l
  induction l with
  | nil => intro d j; rfl
  | cons x l ih => intro d j; simp only [List.cons_append, endState, ih]

theorem outs_length (exec : D → J → D × Option R) : ∀ (l : List J) (d : D), (outs exec d l).length = l.length := by
  intro l
  induction l with
  | nil => intro d; rfl
  | cons x l ih => intro d; simp only [outs, List.length_cons, ih]

/-- Where a worker is in the cycle of launching, serving and reading. -/
inductive Inv (p : Sys D J R) (d0 : D) : Worker D J R → Prop
  | free (L : List J) : Inv p d0 ⟨false, none, [], [], none, .waiting, .idle, endState p.exec d0 L, L, outs p.exec d0 L⟩
  | woken (L : List J) (j : J) : Inv p d0 ⟨true, some j, [], [], none, .waiting, .idle, endState p.exec d0 L, L, outs p.exec d0 L⟩
  | sent (L : List J) (j : J) : Inv p d0 ⟨true, none, [j], [], none, .waiting, .idle, endState p.exec d0 L, L ++ [j], outs p.exec d0 L⟩
  | received (L : List J) (j : J) : Inv p d0 ⟨true, none, [], [], none, .received j, .idle, endState p.exec d0 L, L ++ [j], outs p.exec d0 L⟩
  | cleared (L : List J) (j : J) : Inv p d0 ⟨true, none, [], [], none, .cleared j, .idle, endState p.exec d0 L, L ++ [j], outs p.exec d0 L⟩
  | computed (L : List J) (j : J) (r : R) : (p.exec (endState p.exec d0 L) j).2 = some r →
      Inv p d0 ⟨true, none, [], [], none, .computed r, .idle, endState p.exec d0 (L ++ [j]), L ++ [j], outs p.exec d0 L⟩
  | stored (L : List J) (j : J) : Inv p d0 ⟨true, none, [], [], (p.exec (endState p.exec d0 L) j).2, .stored, .idle, endState p.exec d0 (L ++ [j]), L ++ [j], outs p.exec d0 L⟩
  | failed (L : List J) (j : J) : (p.exec (endState p.exec d0 L) j).2 = none →
      Inv p d0 ⟨true, none, [], [], none, .failed, .idle, endState p.exec d0 (L ++ [j]), L ++ [j], outs p.exec d0 L⟩
  | replied (L : List J) (j : J) (b : Bool) : Inv p d0 ⟨true, none, [], [b], (p.exec (endState p.exec d0 L) j).2, .waiting, .idle, endState p.exec d0 (L ++ [j]), L ++ [j], outs p.exec d0 L⟩
  | reading (L : List J) (j : J) : Inv p d0 ⟨true, none, [], [], (p.exec (endState p.exec d0 L) j).2, .waiting, .received, endState p.exec d0 (L ++ [j]), L ++ [j], outs p.exec d0 L⟩
  | took (L : List J) (j : J) : Inv p d0 ⟨true, none, [], [], (p.exec (endState p.exec d0 L) j).2, .waiting, .took (p.exec (endState p.exec d0 L) j).2, endState p.exec d0 (L ++ [j]), L ++ [j], outs p.exec d0 L⟩
  | wiped (L : List J) (j : J) : Inv p d0 ⟨true, none, [], [], none, .waiting, .cleared (p.exec (endState p.exec d0 L) j).2, endState p.exec d0 (L ++ [j]), L ++ [j], outs p.exec d0 L⟩
  | lost (L : List J) : (∃ j, p.sendable j = false) → Inv p d0 ⟨true, none, [], [], none, .waiting, .idle, endState p.exec d0 L, L, outs p.exec d0 L⟩
  | silent (L : List J) (j : J) : p.ipc = true → (p.exec (endState p.exec d0 L) j).2 = none →
      Inv p d0 ⟨true, none, [], [], none, .waiting, .idle, endState p.exec d0 (L ++ [j]), L ++ [j], outs p.exec d0 L⟩

theorem inv_step {p : Sys D J R} {d0 : D} {w w' : Worker D J R} (h : Inv p d0 w) (hs : Step p w w') : Inv p d0 w' := by
  cases hs with
  | send h1 h2 =>
    cases h <;> simp only [Option.some.injEq, reduceCtorEq] at h1
    subst h1
    exact .sent _ _
  | sendFails h1 h2 =>
    cases h <;> simp only [Option.some.injEq, reduceCtorEq] at h1
    subst h1
    exact .lost _ ⟨_, h2⟩
  | recv h1 h2 =>
    cases h <;> simp only [reduceCtorEq, List.cons.injEq] at h1 h2
    obtain ⟨rfl, rfl⟩ := h2
    exact .received _ _
  | clear h1 =>
    cases h <;> simp only [reduceCtorEq, Phase.received.injEq] at h1
    subst h1
    exact .cleared _ _
  | compute h1 h2 =>
    cases h <;> simp only [reduceCtorEq, Phase.cleared.injEq] at h1
    rename_i L j
    subst h1
    have hd := endState_snoc p.exec L d0 j
    simp only at h2
    rw [h2] at hd
    simp only at hd
    rw [← hd]
    exact .computed L j _ (by rw [h2])
  | raise h1 h2 =>
    cases h <;> simp only [reduceCtorEq, Phase.cleared.injEq] at h1
    rename_i L j
    subst h1
    have hd := endState_snoc p.exec L d0 j
    simp only at h2
    rw [h2] at hd
    simp only at hd
    rw [← hd]
    exact .failed L j (by rw [h2])
  | store h1 =>
    cases h <;> simp only [reduceCtorEq, Phase.computed.injEq] at h1
    rename_i L j r hr
    subst h1
    rw [← hr]
    exact .stored L j
  | reply h1 =>
    cases h <;> simp only [reduceCtorEq] at h1
    exact .replied _ _ _
  | replyError h1 h2 =>
    cases h <;> simp only [reduceCtorEq] at h1
    rename_i L j hr
    have := Inv.replied (p := p) (d0 := d0) L j false
    rw [hr] at this
    exact this
  | notifyError h1 h2 =>
    cases h <;> simp only [reduceCtorEq] at h1
    rename_i L j hr
    exact .silent L j h2 hr
  | getRecv h1 h2 =>
    cases h <;> simp only [reduceCtorEq, List.cons.injEq] at h1 h2
    obtain ⟨rfl, rfl⟩ := h2
    exact .reading _ _
  | getRead h1 =>
    cases h <;> simp only [reduceCtorEq] at h1
    exact .took _ _
  | getClear h1 =>
    cases h <;> simp only [reduceCtorEq, Reader.took.injEq] at h1
    subst h1
    exact .wiped _ _
  | getDone h1 =>
    cases h <;> simp only [reduceCtorEq, Reader.cleared.injEq] at h1
    rename_i L j
    subst h1
    have := Inv.free (p := p) (d0 := d0) (L ++ [j])
    rw [outs_snoc] at this
    exact this

theorem inv_wake {p : Sys D J R} {d0 : D} {w : Worker D J R} (h : Inv p d0 w) (ha : w.active = false) (job : J) : Inv p d0 (w.wake job) := by
  cases h <;> simp only [Bool.true_eq_false] at ha
  exact .woken _ _

theorem firstFree_spec : ∀ (l : List Bool) (i : Nat), firstFree l = some i ↔ l[i]? = some false ∧ ∀ k, k < i → l[k]? = some true := by
  intro l
  induction l with
  | nil => intro i; simp [firstFree]
  | cons v l ih =>
    intro i
    rcases v with _ | _
    · simp only [firstFree, Bool.false_eq_true, ↓reduceIte, Option.some.injEq]
      constructor
      · rintro rfl; simp
      · rintro ⟨_, h2⟩
        rcases i with _ | i
        · rfl
        · have := h2 0 (by omega); simp at this
    · simp only [firstFree, ↓reduceIte, Option.map_eq_some_iff]
      constructor
      · rintro ⟨a, ha, rfl⟩
        obtain ⟨h1, h2⟩ := (ih a).1 ha
        refine ⟨by simpa using h1, fun k hk => ?_⟩
        rcases k with _ | k
        · rfl
        · simpa using h2 k (by omega)
      · rintro ⟨h1, h2⟩
        rcases i with _ | i
        · simp at h1
        · exact ⟨i, (ih i).2 ⟨by simpa using h1, fun k hk => by simpa using h2 (k + 1) (by omega)⟩, rfl⟩

theorem inv_sys {p : Sys D J R} {ds : List D} {s s' : List (Worker D J R)} (hl : s.length = ds.length)
    (h : ∀ (i : Nat) (w : Worker D J R) (d : D), s[i]? = some w → ds[i]? = some d → Inv p d w) (hs : SysStep p true s s') :
    s'.length = ds.length ∧ ∀ (i : Nat) (w : Worker D J R) (d : D), s'[i]? = some w → ds[i]? = some d → Inv p d w := by
  have key : ∀ (i : Nat) (w w' : Worker D J R), s[i]? = some w → (∀ d, ds[i]? = some d → Inv p d w → Inv p d w') →
      ∀ (k : Nat) (v : Worker D J R) (d : D), (s.set i w')[k]? = some v → ds[k]? = some d → Inv p d v := by
    intro i w w' hw hstep k v d hv hd
    rw [List.getElem?_set] at hv
    split at hv
    · rename_i hik
      subst hik
      split at hv
      · cases hv
        exact hstep d hd (h _ _ d hw hd)
      · cases hv
    · exact h k v d hv hd
  cases hs with
  | @inner i w w' hw hst =>
    exact ⟨by rw [List.length_set]; exact hl, key i w w' hw (fun d _ hi => inv_step hi hst)⟩
  | @launchAny i flags w job hwk hw =>
    refine ⟨by rw [List.length_set]; exact hl, key i w _ hw (fun d _ hi => inv_wake hi ?_ job)⟩
    simp only [wakeUp, Except.ok.injEq, Option.map_eq_some_iff, Prod.mk.injEq] at hwk
    obtain ⟨a, ha, rfl, _⟩ := hwk
    have := ((firstFree_spec _ _).1 ha).1
    rw [List.getElem?_map, hw] at this
    simpa using this
  | @launchOn i flags w job hwk hw hpend hpol =>
    exact ⟨by rw [List.length_set]; exact hl, key i w _ hw (fun d _ hi => inv_wake hi (hpol rfl) job)⟩

theorem inv_reach {p : Sys D J R} {ds : List D} {s : List (Worker D J R)} (h : Reach p true (ds.map Worker.fresh) s) :
    s.length = ds.length ∧ ∀ (i : Nat) (w : Worker D J R) (d : D), s[i]? = some w → ds[i]? = some d → Inv p d w := by
  induction h with
  | refl =>
    refine ⟨by simp, fun i w d hw hd => ?_⟩
    rw [List.getElem?_map, hd] at hw
    simp only [Option.map_some, Option.some.injEq] at hw
    subst hw
    exact .free []
  | tail _ hs ih => exact inv_sys ih.1 ih.2 hs

/-- Nothing is under way although the worker counts as active. -/
def Dead (w : Worker D J R) : Prop :=
  w.active = true ∧ w.pending = none ∧ w.inbox = [] ∧ w.outbox = [] ∧ w.phase = .waiting ∧ w.reader = .idle

theorem dead_step {p : Sys D J R} {w w' : Worker D J R} (h : Dead w) (hs : Step p w w') : False := by
  obtain ⟨h1, h2, h3, h4, h5, h6⟩ := h
  cases hs <;> simp_all

theorem dead_reach {p : Sys D J R} {s s' : List (Worker D J R)} {i : Nat} {w : Worker D J R} (hw : s[i]? = some w) (hd : Dead w) (h : Reach p true s s') : s'[i]? = some w := by
  induction h with
  | refl => exact hw
  | @tail s1 s2 _ hs ih =>
    have hset : ∀ (k : Nat) (v : Worker D J R), k ≠ i → (s1.set k v)[i]? = some w := by
      intro k v hk
      rw [List.getElem?_set_ne hk]; exact ih
    cases hs with
    | @inner k v v' hv hst =>
      by_cases hk : k = i
      · subst hk
        rw [ih] at hv; cases hv
        exact (dead_step hd hst).elim
      · exact hset k _ hk
    | @launchAny k flags v job hwk hv =>
      by_cases hk : k = i
      · subst hk
        rw [ih] at hv; cases hv
        simp only [wakeUp, Except.ok.injEq, Option.map_eq_some_iff, Prod.mk.injEq] at hwk
        obtain ⟨a, ha, rfl, _⟩ := hwk
        have := ((firstFree_spec _ _).1 ha).1
        rw [List.getElem?_map, ih] at this
        have h1 := hd.1
        simp [h1] at this
      · exact hset k _ hk
    | @launchOn k flags v job hwk hv hpend hpol =>
      by_cases hk : k = i
      · subst hk
        rw [ih] at hv; cases hv
        have := hpol rfl
        rw [hd.1] at this; cases this
      · exact hset k _ hk

/-- Several steps of one worker. -/
inductive Steps (p : Sys D J R) : Worker D J R → Worker D J R → Prop
  | refl {w} : Steps p w w
  | head {w w' w''} : Step p w w' → Steps p w' w'' → Steps p w w''

theorem steps_sys {p : Sys D J R} {polite : Bool} {w w' : Worker D J R} (h : Steps p w w') : ∀ {s0 s : List (Worker D J R)} {i : Nat}, Reach p polite s0 s → s[i]? = some w →
    Reach p polite s0 (s.set i w') := by
  induction h with
  | refl =>
    intro s0 s i hr hi
    obtain ⟨hlt, he⟩ := List.getElem?_eq_some_iff.1 hi
    subst he
    rw [List.set_getElem_self]
    exact hr
  | @head w w1 w2 hst _ ih =>
    intro s0 s i hr hi
    have hlt := (List.getElem?_eq_some_iff.1 hi).1
    have := ih (.tail hr (.inner hi hst)) (s := s.set i w1) (i := i) (by rw [List.getElem?_set]; simp [hlt])
    rw [List.set_set] at this
    exact this

theorem steps_launched {p : Sys D J R} {w w' : Worker D J R} (h : Steps p w w') : w.launched <+: w'.launched := by
  induction h with
  | refl => exact List.prefix_refl _
  | head hst _ ih =>
    refine List.IsPrefix.trans ?_ ih
    cases hst <;> first | exact List.prefix_refl _ | exact List.prefix_append _ _

theorem finish {p : Sys D J R} {d0 : D} {w : Worker D J R} (hipc : p.ipc = false) (hsend : ∀ j, p.sendable j = true) (h : Inv p d0 w) :
    ∃ w', Steps p w w' ∧ w'.active = false ∧ Inv p d0 w' := by
  have wiped : ∀ L j, ∃ w', Steps p ⟨true, none, [], [], none, .waiting, .cleared (p.exec (endState p.exec d0 L) j).2, endState p.exec d0 (L ++ [j]), L ++ [j], outs p.exec d0 L⟩ w' ∧
      w'.active = false ∧ Inv p d0 w' := fun L j => ⟨_, .head (.getDone rfl) .refl, rfl, inv_step (.wiped L j) (.getDone rfl)⟩
  have took : ∀ L j, ∃ w', Steps p ⟨true, none, [], [], (p.exec (endState p.exec d0 L) j).2, .waiting, .took (p.exec (endState p.exec d0 L) j).2, endState p.exec d0 (L ++ [j]), L ++ [j], outs p.exec d0 L⟩ w' ∧
      w'.active = false ∧ Inv p d0 w' := fun L j => by
    obtain ⟨w', h1, h2⟩ := wiped L j
    exact ⟨w', .head (.getClear rfl) h1, h2⟩
  have reading : ∀ L j, ∃ w', Steps p ⟨true, none, [], [], (p.exec (endState p.exec d0 L) j).2, .waiting, .received, endState p.exec d0 (L ++ [j]), L ++ [j], outs p.exec d0 L⟩ w' ∧
      w'.active = false ∧ Inv p d0 w' := fun L j => by
    obtain ⟨w', h1, h2⟩ := took L j
    exact ⟨w', .head (.getRead rfl) h1, h2⟩
  have replied : ∀ L j b, ∃ w', Steps p ⟨true, none, [], [b], (p.exec (endState p.exec d0 L) j).2, .waiting, .idle, endState p.exec d0 (L ++ [j]), L ++ [j], outs p.exec d0 L⟩ w' ∧
      w'.active = false ∧ Inv p d0 w' := fun L j b => by
    obtain ⟨w', h1, h2⟩ := reading L j
    exact ⟨w', .head (.getRecv rfl rfl) h1, h2⟩
  have stored : ∀ L j, ∃ w', Steps p ⟨true, none, [], [], (p.exec (endState p.exec d0 L) j).2, .stored, .idle, endState p.exec d0 (L ++ [j]), L ++ [j], outs p.exec d0 L⟩ w' ∧
      w'.active = false ∧ Inv p d0 w' := fun L j => by
    obtain ⟨w', h1, h2⟩ := replied L j true
    exact ⟨w', .head (.reply rfl) h1, h2⟩
  have failed : ∀ L j, (p.exec (endState p.exec d0 L) j).2 = none → ∃ w', Steps p ⟨true, none, [], [], none, .failed, .idle, endState p.exec d0 (L ++ [j]), L ++ [j], outs p.exec d0 L⟩ w' ∧
      w'.active = false ∧ Inv p d0 w' := fun L j hr => by
    obtain ⟨w', h1, h2⟩ := replied L j false
    rw [hr] at h1
    exact ⟨w', .head (.replyError rfl hipc) h1, h2⟩
  have computed : ∀ L j r, (p.exec (endState p.exec d0 L) j).2 = some r → ∃ w', Steps p ⟨true, none, [], [], none, .computed r, .idle, endState p.exec d0 (L ++ [j]), L ++ [j], outs p.exec d0 L⟩ w' ∧
      w'.active = false ∧ Inv p d0 w' := fun L j r hr => by
    obtain ⟨w', h1, h2⟩ := stored L j
    rw [hr] at h1
    exact ⟨w', .head (.store rfl) h1, h2⟩
  have cleared : ∀ L j, ∃ w', Steps p ⟨true, none, [], [], none, .cleared j, .idle, endState p.exec d0 L, L ++ [j], outs p.exec d0 L⟩ w' ∧
      w'.active = false ∧ Inv p d0 w' := fun L j => by
    have hd := endState_snoc p.exec L d0 j
    rcases he : p.exec (endState p.exec d0 L) j with ⟨d', _ | r⟩
    · obtain ⟨w', h1, h2⟩ := failed L j (by rw [he])
      rw [hd, he] at h1
      exact ⟨w', .head (.raise rfl he) h1, h2⟩
    · obtain ⟨w', h1, h2⟩ := computed L j r (by rw [he])
      rw [hd, he] at h1
      exact ⟨w', .head (.compute rfl he) h1, h2⟩
  have received : ∀ L j, ∃ w', Steps p ⟨true, none, [], [], none, .received j, .idle, endState p.exec d0 L, L ++ [j], outs p.exec d0 L⟩ w' ∧
      w'.active = false ∧ Inv p d0 w' := fun L j => by
    obtain ⟨w', h1, h2⟩ := cleared L j
    exact ⟨w', .head (.clear rfl) h1, h2⟩
  have sent : ∀ L j, ∃ w', Steps p ⟨true, none, [j], [], none, .waiting, .idle, endState p.exec d0 L, L ++ [j], outs p.exec d0 L⟩ w' ∧
      w'.active = false ∧ Inv p d0 w' := fun L j => by
    obtain ⟨w', h1, h2⟩ := received L j
    exact ⟨w', .head (.recv rfl rfl) h1, h2⟩
  cases h with
  | free L => exact ⟨_, .refl, rfl, .free L⟩
  | woken L j =>
    obtain ⟨w', h1, h2⟩ := sent L j
    exact ⟨w', .head (.send rfl (hsend j)) h1, h2⟩
  | sent L j => exact sent L j
  | received L j => exact received L j
  | cleared L j => exact cleared L j
  | computed L j r hr => exact computed L j r hr
  | stored L j => exact stored L j
  | failed L j hr => exact failed L j hr
  | replied L j b => exact replied L j b
  | reading L j => exact reading L j
  | took L j => exact took L j
  | wiped L j => exact wiped L j
  | lost L hj => obtain ⟨j, hj⟩ := hj; rw [hsend j] at hj; cases hj
  | silent L j hi _ => rw [hipc] at hi; cases hi

end Verif.Par
