import Verif.Model.RcpspLp
import Verif.Lemmas.Milp
import Verif.Lemmas.FacilityLp
import Verif.Lemmas.KnapsackLp
import Verif.Lemmas.RcpspSpec
/- Helper lemmas about the program for projects with several modes. -/
namespace Verif.RcpspLp
open Verif.Milp Verif.Rcpsp
open Verif.FacilityLp (sum_map_congr)
open Verif.KnapsackLp (set_fresh sortBy_of_sorted)

/-- A project as the solver expects it: tasks 1 to n, at least one mode each, a requirement for every resource, one mode for
the first and the last task. -/
structure Project (pb : Problem) : Prop where
  two : 2 ≤ pb.modes.length
  tasks : pb.modes.keys.Nodup ∧ ∀ a, a ∈ pb.modes.keys ↔ 1 ≤ a ∧ a ≤ pb.modes.length
  modes : ∀ a d, pb.modes.get? a = some d → d.keys.Nodup ∧ d ≠ [] ∧
    ∀ k m, d.get? k = some m → ∀ res ∈ pb.resources.keys, ∃ n, m.needs.get? res = some n
  resources : pb.resources.keys.Nodup ∧ ∀ res, res ∈ pb.nonRenewable → res ∈ pb.resources.keys
  successors : pb.successors.keys.Nodup ∧ (∀ a, a ∈ pb.successors.keys ↔ 1 ≤ a ∧ a ≤ pb.modes.length) ∧
    ∀ a ss, (a, ss) ∈ pb.successors → ∀ b ∈ ss, 1 ≤ b ∧ b ≤ pb.modes.length

/-- The modes of a task. -/
def modesOf (pb : Problem) (a : Nat) : Dict Nat Mode := (pb.modes.get? a).getD []
/-- A mode of a task. -/
def theMode (pb : Problem) (a k : Nat) : Mode := ((modesOf pb a).get? k).getD ⟨0, []⟩
/-- What a task needs of a resource in a mode. -/
def needIn (pb : Problem) (r : String) (a k : Nat) : Int := ((theMode pb a k).needs.get? r).getD 0
/-- How much there is of a resource at a time. -/
def capVal (pb : Problem) (r : String) (t : Nat) : Int := ((pb.resources.get? r).bind (fun c => capOf c t)).getD 0
/-- The tasks. -/
def allTasks (pb : Problem) : List Nat := List.range' 1 pb.modes.length
/-- The variables of a task. -/
def keysOf (pb : Problem) (T a : Nat) : List Key := (modesOf pb a).keys.flatMap (fun m => (List.range T).map (fun t => (a, m, t)))

theorem mem_allTasks {pb : Problem} {a : Nat} : a ∈ allTasks pb ↔ 1 ≤ a ∧ a ≤ pb.modes.length := by
  unfold allTasks; rw [List.mem_range'_1]; omega

theorem allTasks_nodup (pb : Problem) : (allTasks pb).Nodup := List.nodup_range'

theorem sortedTasks_eq {pb : Problem} (w : Project pb) : sortedTasks pb = allTasks pb := by
  have hp : (sortedTasks pb).Perm (allTasks pb) := by
    refine (sortBy_perm _ _).trans ?_
    refine (List.perm_ext_iff_of_nodup w.tasks.1 (allTasks_nodup pb)).2 ?_
    intro a; rw [w.tasks.2, mem_allTasks]
  refine List.Perm.eq_of_pairwise (le := fun a b : Nat => (a : Int) ≤ b) ?_ (sortBy_sorted _ _) ?_ hp
  · intro a b _ _ h1 h2; omega
  · refine (List.pairwise_lt_range' (s := 1) (n := pb.modes.length)).imp ?_
    intro a b h; omega

theorem modesOf_get {pb : Problem} (w : Project pb) {a : Nat} (ha : a ∈ allTasks pb) : pb.modes.get? a = some (modesOf pb a) := by
  have h := (w.tasks.2 a).2 (mem_allTasks.1 ha)
  rw [← Dict.get?_isSome_iff_mem_keys] at h
  unfold modesOf
  cases hg : pb.modes.get? a with
  | none => rw [hg] at h; simp at h
  | some d => rfl

theorem modes_get_ok {pb : Problem} (w : Project pb) {a : Nat} (ha : a ∈ allTasks pb) : pb.modes.get a = .ok (modesOf pb a) := by
  rw [Dict.get, modesOf_get w ha]

theorem theMode_get {pb : Problem} {a k : Nat} (hk : k ∈ (modesOf pb a).keys) : (modesOf pb a).get? k = some (theMode pb a k) := by
  rw [← Dict.get?_isSome_iff_mem_keys] at hk
  unfold theMode
  cases hg : (modesOf pb a).get? k with
  | none => rw [hg] at hk; simp at hk
  | some d => rfl

theorem modeAt_ok {pb : Problem} (w : Project pb) {a k : Nat} (ha : a ∈ allTasks pb) (hk : k ∈ (modesOf pb a).keys) :
    modeAt pb a k = .ok (theMode pb a k) := by
  rw [modeAt, modes_get_ok w ha, bind_ok, Dict.get, theMode_get hk]

theorem need_ok {pb : Problem} (w : Project pb) {a k : Nat} (ha : a ∈ allTasks pb) (hk : k ∈ (modesOf pb a).keys) {r : String}
    (hr : r ∈ pb.resources.keys) : (theMode pb a k).needs.get r = .ok (needIn pb r a k) := by
  obtain ⟨n, hn⟩ := (w.modes a _ (modesOf_get w ha)).2.2 k _ (theMode_get hk) r hr
  rw [Dict.get, hn]; simp [needIn, hn]

theorem mem_keysOf {pb : Problem} {T a : Nat} {k : Key} : k ∈ keysOf pb T a ↔ k.1 = a ∧ k.2.1 ∈ (modesOf pb a).keys ∧ k.2.2 < T := by
  obtain ⟨x, m, t⟩ := k
  simp only [keysOf, List.mem_flatMap, List.mem_map, List.mem_range, Prod.mk.injEq]
  constructor
  · rintro ⟨m', hm, t', ht, rfl, rfl, rfl⟩; exact ⟨rfl, hm, ht⟩
  · rintro ⟨rfl, hm, ht⟩; exact ⟨m, hm, t, ht, rfl, rfl, rfl⟩

theorem keysOf_nodup {pb : Problem} (w : Project pb) {T a : Nat} (ha : a ∈ allTasks pb) : (keysOf pb T a).Nodup := by
  have hd := (w.modes a _ (modesOf_get w ha)).1
  unfold keysOf
  rw [List.nodup_flatMap]
  constructor
  · intro m _
    refine List.Nodup.map ?_ List.nodup_range
    intro x y hxy; simpa using hxy
  · refine hd.imp ?_
    intro m m' hne
    simp only [Function.onFun]
    intro k hk hk'
    obtain ⟨t, _, rfl⟩ := List.mem_map.1 hk
    obtain ⟨t', _, h⟩ := List.mem_map.1 hk'
    simp only [Prod.mk.injEq] at h
    exact hne h.2.1.symm

theorem varDict_eq {pb : Problem} (w : Project pb) (T : Nat) :
    varDict pb T = .ok ((allTasks pb).map (fun a => (a, keysOf pb T a))) := by
  unfold varDict
  rw [sortedTasks_eq w]
  refine mapE_ok (g := fun a => (a, keysOf pb T a)) ?_
  intro a ha
  rw [taskKeys, modes_get_ok w ha, bind_ok]
  rfl

/-- All variables. -/
def keysAll (pb : Problem) (T : Nat) : List Key := (allTasks pb).flatMap (keysOf pb T)

theorem flatMap_snd (pb : Problem) (T : Nat) :
    ((allTasks pb).map (fun a => (a, keysOf pb T a))).flatMap Prod.snd = keysAll pb T := by
  unfold keysAll
  rw [List.flatMap_map]

theorem mem_keysAll {pb : Problem} {T : Nat} {k : Key} :
    k ∈ keysAll pb T ↔ k.1 ∈ allTasks pb ∧ k.2.1 ∈ (modesOf pb k.1).keys ∧ k.2.2 < T := by
  unfold keysAll
  rw [List.mem_flatMap]
  constructor
  · rintro ⟨a, ha, hk⟩
    obtain ⟨rfl, h1, h2⟩ := mem_keysOf.1 hk
    exact ⟨ha, h1, h2⟩
  · rintro ⟨ha, h1, h2⟩
    exact ⟨k.1, ha, mem_keysOf.2 ⟨rfl, h1, h2⟩⟩

/-- A precedence between two tasks. -/
def Before (pb : Problem) (a b : Nat) : Prop := ∃ ss, (a, ss) ∈ pb.successors ∧ b ∈ ss

theorem succ_get {pb : Problem} (w : Project pb) {a : Nat} (ha : a ∈ allTasks pb) : ∃ ss, pb.successors.get? a = some ss := by
  have h := (w.successors.2.1 a).2 (mem_allTasks.1 ha)
  rw [← Dict.get?_isSome_iff_mem_keys] at h
  exact Option.isSome_iff_exists.1 h

/-- The pairs of `S`. -/
def pairsOf (pb : Problem) : List (Nat × Nat) :=
  (allTasks pb).flatMap (fun a => ((pb.successors.get? a).getD []).map (fun s => (a, s)))

theorem pairs_eq {pb : Problem} (w : Project pb) : pairs pb = .ok (pairsOf pb) := by
  unfold pairs
  rw [sortedTasks_eq w, mapE_ok (g := fun a => ((pb.successors.get? a).getD []).map (fun s => (a, s)))]
  · rw [bind_ok, pairsOf, List.flatMap_def]
  · intro a ha
    obtain ⟨ss, hss⟩ := succ_get w ha
    rw [Dict.get, hss]; rfl

theorem mem_pairsOf {pb : Problem} (w : Project pb) {a b : Nat} : (a, b) ∈ pairsOf pb ↔ Before pb a b := by
  simp only [pairsOf, List.mem_flatMap, List.mem_map, Prod.mk.injEq, Before]
  constructor
  · rintro ⟨c, hc, s, hs, rfl, rfl⟩
    obtain ⟨ss, hss⟩ := succ_get w hc
    rw [hss] at hs
    exact ⟨ss, Dict.mem_of_get? hss, hs⟩
  · rintro ⟨ss, hm, hb⟩
    have ha : a ∈ allTasks pb := mem_allTasks.2 ((w.successors.2.1 a).1 (List.mem_map.2 ⟨(a, ss), hm, rfl⟩))
    refine ⟨a, ha, b, ?_, rfl, rfl⟩
    rw [Dict.get?_of_mem w.successors.1 hm]; exact hb

theorem before_tasks {pb : Problem} (w : Project pb) {a b : Nat} (h : Before pb a b) : a ∈ allTasks pb ∧ b ∈ allTasks pb := by
  obtain ⟨ss, hm, hb⟩ := h
  exact ⟨mem_allTasks.2 ((w.successors.2.1 a).1 (List.mem_map.2 ⟨(a, ss), hm, rfl⟩)), mem_allTasks.2 (w.successors.2.2 a ss hm b hb)⟩

theorem foldl_max_spec (l : List Nat) : ∀ x, x ≤ l.foldl max x ∧ (∀ y, y ∈ l → y ≤ l.foldl max x) ∧ (l.foldl max x = x ∨ l.foldl max x ∈ l) := by
  induction l with
  | nil => intro x; simp
  | cons y l ih =>
    intro x
    obtain ⟨h1, h2, h3⟩ := ih (max x y)
    rw [List.foldl_cons]
    refine ⟨by omega, ?_, ?_⟩
    · intro z hz
      rcases List.mem_cons.1 hz with rfl | hz
      · omega
      · exact h2 z hz
    · rcases h3 with h3 | h3
      · by_cases hxy : x ≤ y
        · right; rw [h3, Nat.max_eq_right hxy]; simp
        · left; rw [h3]; omega
      · right; exact List.mem_cons_of_mem _ h3

theorem lastTask_eq {pb : Problem} (w : Project pb) : lastTask pb = .ok pb.modes.length := by
  unfold lastTask
  have htwo := w.two
  have hmem := w.tasks.2
  cases hk : pb.modes.keys with
  | nil =>
    have := (hmem 1).2 ⟨by omega, by omega⟩
    rw [hk] at this; simp at this
  | cons x l =>
    rw [maxOf]
    obtain ⟨h1, h2, h3⟩ := foldl_max_spec l x
    have hn := (hmem pb.modes.length).2 ⟨by omega, by omega⟩
    rw [hk] at hn
    have hup : pb.modes.length ≤ l.foldl max x := by
      rcases List.mem_cons.1 hn with h | h
      · omega
      · exact h2 _ h
    have hin : l.foldl max x ∈ pb.modes.keys := by
      rw [hk]
      rcases h3 with h | h
      · rw [h]; simp
      · exact List.mem_cons_of_mem _ h
    have := ((hmem _).1 hin).2
    congr 1; omega

theorem vd_get {pb : Problem} {T a : Nat} (ha : a ∈ allTasks pb) :
    Dict.get ((allTasks pb).map (fun a => (a, keysOf pb T a))) a = .ok (keysOf pb T a) := by
  have : Dict.get? ((allTasks pb).map (fun a => (a, keysOf pb T a))) a = some (keysOf pb T a) := by
    refine Dict.get?_of_mem ?_ (List.mem_map.2 ⟨a, ha, rfl⟩)
    simp [Dict.keys, Function.comp_def, allTasks_nodup]
  rw [Dict.get, this]

/-- Is the task of the key, started at its time, active at `t`? -/
def activeAt (pb : Problem) (t : Nat) (k : Key) : Bool := decide (k.2.2 ≤ t ∧ t < k.2.2 + (theMode pb k.1 k.2.1).duration)

/-- The capacities of renewable resources are given at the times below `T`, those of non-renewable ones at time 0. -/
def Given (pb : Problem) (T : Nat) : Prop :=
  0 < T ∧ ∀ res cap, pb.resources.get? res = some cap → ∀ t, t < T → (res ∈ pb.nonRenewable → t = 0) → ∃ c, capOf cap t = some c

theorem quantity_ok {pb : Problem} {T t : Nat} (hg : Given pb T) {r : String} (hr : r ∈ pb.resources.keys) (ht : t < T)
    (h0 : r ∈ pb.nonRenewable → t = 0) : (do let cap ← pb.resources.get r; quantity T t cap) = .ok (capVal pb r t) := by
  rw [← Dict.get?_isSome_iff_mem_keys] at hr
  obtain ⟨cap, hcap⟩ := Option.isSome_iff_exists.1 hr
  obtain ⟨c, hc⟩ := hg.2 r cap hcap t ht h0
  rw [Dict.get, hcap, bind_ok]
  have hv : capVal pb r t = c := by simp [capVal, hcap, hc]
  rw [hv]
  cases cap with
  | const c' =>
    simp only [capOf, Option.some.injEq] at hc
    rw [quantity, pyGet_ok_iff, List.getElem?_replicate, if_pos ht, hc]
  | calendar l =>
    rw [quantity, pyGet_ok_iff]; exact hc

/-- The row of a renewable resource, in closed form. -/
def resRow (pb : Problem) (T : Nat) (q : String × Nat) : Row Var :=
  ⟨(keysAll pb T).flatMap (fun k => if activeAt pb q.2 k then [(needIn pb q.1 k.1 k.2.1, .x k)] else []), .le, capVal pb q.1 q.2⟩

theorem activeTerm_eq {pb : Problem} (w : Project pb) {T t : Nat} {r : String} (hr : r ∈ pb.resources.keys) {k : Key} (hk : k ∈ keysAll pb T) :
    activeTerm pb r t k = .ok (if activeAt pb t k then [(needIn pb r k.1 k.2.1, .x k)] else []) := by
  obtain ⟨h1, h2, -⟩ := mem_keysAll.1 hk
  have hm : modeOf pb k = .ok (theMode pb k.1 k.2.1) := modeAt_ok w h1 h2
  have ha : active pb t k = .ok (activeAt pb t k) := by
    unfold active activeAt
    split
    · rename_i h; rw [hm, bind_ok]; simp [h]
    · rename_i h; simp [h]
  rw [activeTerm, ha, bind_ok]
  split
  · rw [hm, bind_ok, need_ok w h1 h2 hr, bind_ok]
  · rfl

theorem renewableRow_eq {pb : Problem} (w : Project pb) {T : Nat} (hg : Given pb T) {q : String × Nat} (hr : q.1 ∈ pb.resources.keys)
    (hnr : q.1 ∉ pb.nonRenewable) (ht : q.2 < T) : renewableRow pb T (keysAll pb T) q = .ok (resRow pb T q) := by
  unfold renewableRow resRow
  rw [mapE_ok (g := fun k => if activeAt pb q.2 k then [(needIn pb q.1 k.1 k.2.1, .x k)] else []) (fun k hk => activeTerm_eq w hr hk), bind_ok]
  have h := quantity_ok hg hr ht (fun h => absurd h hnr)
  obtain ⟨cap, hcap, hq⟩ := (bind_eq_ok ..).1 h
  rw [hcap, bind_ok, hq, bind_ok, List.flatMap_def]

/-- The row of a non-renewable resource, in closed form. -/
def nonRow (pb : Problem) (T : Nat) (r : String) : Row Var :=
  ⟨(keysAll pb T).map (fun k => (needIn pb r k.1 k.2.1, .x k)), .le, capVal pb r 0⟩

theorem nonRenewableRow_eq {pb : Problem} (w : Project pb) {T : Nat} (hg : Given pb T) {r : String} (hr : r ∈ pb.nonRenewable) :
    nonRenewableRow pb T (keysAll pb T) r = .ok (nonRow pb T r) := by
  have hres := w.resources.2 r hr
  unfold nonRenewableRow nonRow
  rw [mapE_ok (g := fun k => (needIn pb r k.1 k.2.1, Var.x k)), bind_ok]
  · obtain ⟨cap, hcap, hq⟩ := (bind_eq_ok ..).1 (quantity_ok hg hres hg.1 (fun _ => rfl))
    rw [hcap, bind_ok, hq, bind_ok]
  · intro k hk
    obtain ⟨h1, h2, -⟩ := mem_keysAll.1 hk
    rw [modeOf, modeAt_ok w h1 h2, bind_ok, need_ok w h1 h2 hres, bind_ok]

/-- The row of a duration, in closed form. -/
def durRow (pb : Problem) (T a : Nat) : Row Var :=
  ⟨(keysOf pb T a).map (fun k => (((theMode pb k.1 k.2.1).duration : Int), Var.x k)) ++ [(-1, .dur a)], .eq, 0⟩

theorem durationRow_eq {pb : Problem} (w : Project pb) {T a : Nat} (ha : a ∈ allTasks pb) :
    durationRow pb (a, keysOf pb T a) = .ok (durRow pb T a) := by
  unfold durationRow durRow
  rw [mapE_ok (g := fun k => (((theMode pb k.1 k.2.1).duration : Int), Var.x k)), bind_ok]
  intro k hk
  obtain ⟨rfl, h2, -⟩ := mem_keysOf.1 hk
  rw [modeOf, modeAt_ok w ha h2, bind_ok]

/-- The row of a precedence, in closed form. -/
def preRow (pb : Problem) (T : Nat) (q : Nat × Nat) : Row Var :=
  ⟨timeTerms 1 (keysOf pb T q.2) ++ timeTerms (-1) (keysOf pb T q.1) ++ [(-1, .dur q.1)], .ge, 0⟩

/-- The renewable resources at the times. -/
def resTimes (pb : Problem) (T : Nat) : List (String × Nat) :=
  (pb.resources.keys.filter (fun r => !decide (r ∈ pb.nonRenewable))).flatMap (fun r => (List.range T).map (fun t => (r, t)))

theorem mem_resTimes {pb : Problem} {T : Nat} {q : String × Nat} :
    q ∈ resTimes pb T ↔ q.1 ∈ pb.resources.keys ∧ q.1 ∉ pb.nonRenewable ∧ q.2 < T := by
  obtain ⟨r, t⟩ := q
  simp only [resTimes, List.mem_flatMap, List.mem_filter, List.mem_map, List.mem_range, Prod.mk.injEq, Bool.not_eq_true',
    decide_eq_false_iff_not]
  constructor
  · rintro ⟨r', ⟨h1, h2⟩, t', ht, rfl, rfl⟩; exact ⟨h1, h2, ht⟩
  · rintro ⟨h1, h2, h3⟩; exact ⟨r, ⟨h1, h2⟩, t, h3, rfl, rfl⟩

/-- The program in closed form. -/
def prog (pb : Problem) (T : Nat) (extra : List (Row Var)) : Program Var :=
  { vars := (keysAll pb T).map (fun k => (.x k, .binary)) ++ (allTasks pb).map (fun a => (.dur a, .integer 0 none)),
    rows := (allTasks pb).map (fun a => ⟨(keysOf pb T a).map (fun k => (1, .x k)), .eq, 1⟩) ++ (resTimes pb T).map (resRow pb T)
      ++ pb.nonRenewable.map (nonRow pb T) ++ (allTasks pb).map (durRow pb T) ++ (pairsOf pb).map (preRow pb T) ++ extra,
    objective := timeTerms 1 (keysOf pb T pb.modes.length) }

/-- The variables by task. -/
def vdOf (pb : Problem) (T : Nat) : Dict Nat (List Key) := (allTasks pb).map (fun a => (a, keysOf pb T a))

theorem mapE_map {α β γ : Type} (f : β → Except PyErr γ) (g : α → β) (l : List α) : mapE f (l.map g) = mapE (fun x => f (g x)) l := by
  induction l with
  | nil => rfl
  | cons x l ih => rw [List.map_cons, mapE, mapE, ih]

theorem multi_eq {pb : Problem} (w : Project pb) {T : Nat} (hg : Given pb T) (ps : Option Partial) :
    multi pb T ps = (partialRows (vdOf pb T) ps).bind (fun extra => .ok (prog pb T extra)) := by
  have htwo := w.two
  unfold multi
  rw [pairs_eq w, bind_ok, lastTask_eq w, bind_ok, varDict_eq w, bind_ok, vd_get (mem_allTasks.2 ⟨by omega, by omega⟩), bind_ok]
  simp only [flatMap_snd]
  rw [mapE_ok (g := resRow pb T), bind_ok, mapE_ok (g := nonRow pb T), bind_ok, mapE_map, mapE_ok (g := durRow pb T), bind_ok,
    mapE_ok (g := preRow pb T), bind_ok]
  · simp only [prog, List.map_map, Function.comp_def]
    rfl
  · rintro ⟨a, b⟩ hq
    obtain ⟨ha, hb⟩ := before_tasks w ((mem_pairsOf w).1 hq)
    rw [precRow, vd_get hb, bind_ok, vd_get ha, bind_ok]; rfl
  · intro a ha; exact durationRow_eq w ha
  · intro r hr; exact nonRenewableRow_eq w hg hr
  · intro q hq
    obtain ⟨h1, h2, h3⟩ := mem_resTimes.1 hq
    exact renewableRow_eq w hg h1 h2 h3

/-- The value of an assignment that picks one mode and start for each task. -/
def Picks (pb : Problem) (T : Nat) (a : Var → Int) (md st : Nat → Nat) : Prop :=
  ∀ j, j ∈ allTasks pb → md j ∈ (modesOf pb j).keys ∧ st j < T ∧ a (.dur j) = (theMode pb j (md j)).duration ∧
    ∀ k, k ∈ keysOf pb T j → a (.x k) = if k = (j, md j, st j) then 1 else 0

theorem Picks.sum {pb : Problem} (w : Project pb) {T : Nat} {a : Var → Int} {md st : Nat → Nat} (h : Picks pb T a md st) {j : Nat}
    (hj : j ∈ allTasks pb) (wt : Key → Int) : ((keysOf pb T j).map (fun k => wt k * a (.x k))).sum = wt (j, md j, st j) := by
  obtain ⟨h1, h2, -, h4⟩ := h j hj
  rw [← sum_indicator (keysOf_nodup w hj) (x := (j, md j, st j)) (mem_keysOf.2 ⟨rfl, h1, h2⟩) wt]
  refine sum_map_congr ?_
  intro k hk; rw [h4 k hk]

theorem sum_flatMap_int {α β : Type} (l : List α) (f : α → List β) (g : β → Int) :
    ((l.flatMap f).map g).sum = (l.map (fun x => ((f x).map g).sum)).sum := by
  induction l with
  | nil => rfl
  | cons x l ih => rw [List.flatMap_cons, List.map_append, sum_append_int, ih]; rfl

theorem Picks.sumAll {pb : Problem} (w : Project pb) {T : Nat} {a : Var → Int} {md st : Nat → Nat} (h : Picks pb T a md st)
    (wt : Key → Int) : ((keysAll pb T).map (fun k => wt k * a (.x k))).sum = ((allTasks pb).map (fun j => wt (j, md j, st j))).sum := by
  unfold keysAll
  rw [sum_flatMap_int]
  exact sum_map_congr (fun j hj => h.sum w hj wt)

theorem Picks.time {pb : Problem} (w : Project pb) {T : Nat} {a : Var → Int} {md st : Nat → Nat} (h : Picks pb T a md st) {j : Nat}
    (hj : j ∈ allTasks pb) (s : Int) : (timeTerms s (keysOf pb T j)).value a = s * st j := by
  unfold timeTerms
  rw [value_map]
  exact h.sum w hj (fun k => s * k.2.2)

/-- What the rows say about modes and starts. -/
structure Valid (pb : Problem) (T : Nat) (md st : Nat → Nat) : Prop where
  renewable : ∀ r t, r ∈ pb.resources.keys → r ∉ pb.nonRenewable → t < T →
    ((allTasks pb).map (fun j => if st j ≤ t ∧ t < st j + (theMode pb j (md j)).duration then needIn pb r j (md j) else 0)).sum ≤ capVal pb r t
  nonrenewable : ∀ r, r ∈ pb.nonRenewable → ((allTasks pb).map (fun j => needIn pb r j (md j))).sum ≤ capVal pb r 0
  precedence : ∀ i j, Before pb i j → st i + (theMode pb i (md i)).duration ≤ st j

theorem resRow_iff {pb : Problem} (w : Project pb) {T : Nat} {a : Var → Int} {md st : Nat → Nat} (h : Picks pb T a md st) (q : String × Nat) :
    (resRow pb T q).Holds a ↔
    ((allTasks pb).map (fun j => if st j ≤ q.2 ∧ q.2 < st j + (theMode pb j (md j)).duration then needIn pb q.1 j (md j) else 0)).sum ≤ capVal pb q.1 q.2 := by
  have : Lin.value (resRow pb T q).terms a =
      ((allTasks pb).map (fun j => if st j ≤ q.2 ∧ q.2 < st j + (theMode pb j (md j)).duration then needIn pb q.1 j (md j) else 0)).sum := by
    unfold resRow
    simp only
    rw [value_flatMap]
    have h2 := h.sumAll w (fun k => if activeAt pb q.2 k then needIn pb q.1 k.1 k.2.1 else 0)
    simp only [activeAt, decide_eq_true_eq] at h2
    rw [← h2]
    refine sum_map_congr ?_
    intro k _
    simp only [activeAt, decide_eq_true_eq]
    split <;> simp [Lin.value]
  rw [← this]; rfl

theorem nonRow_iff {pb : Problem} (w : Project pb) {T : Nat} {a : Var → Int} {md st : Nat → Nat} (h : Picks pb T a md st) (r : String) :
    (nonRow pb T r).Holds a ↔ ((allTasks pb).map (fun j => needIn pb r j (md j))).sum ≤ capVal pb r 0 := by
  have : Lin.value (nonRow pb T r).terms a = ((allTasks pb).map (fun j => needIn pb r j (md j))).sum := by
    unfold nonRow
    simp only
    rw [value_map]
    exact h.sumAll w (fun k => needIn pb r k.1 k.2.1)
  rw [← this]; rfl

theorem preRow_iff {pb : Problem} (w : Project pb) {T : Nat} {a : Var → Int} {md st : Nat → Nat} (h : Picks pb T a md st) {i j : Nat}
    (hi : i ∈ allTasks pb) (hj : j ∈ allTasks pb) : (preRow pb T (i, j)).Holds a ↔ st i + (theMode pb i (md i)).duration ≤ st j := by
  have hv : Lin.value (preRow pb T (i, j)).terms a = (st j : Int) - st i - (theMode pb i (md i)).duration := by
    unfold preRow
    simp only
    rw [value_append, value_append, h.time w hj, h.time w hi, value_cons, value_nil, (h i hi).2.2.1]
    simp only; omega
  simp only [Row.Holds, preRow] at hv ⊢
  rw [hv]; omega

theorem picks_iff {pb : Problem} (w : Project pb) {T : Nat} {a : Var → Int} {md st : Nat → Nat} (h : Picks pb T a md st) (extra : List (Row Var)) :
    (prog pb T extra).Feasible a ↔ Valid pb T md st ∧ ∀ r, r ∈ extra → r.Holds a := by
  unfold Program.Feasible
  simp only [prog, List.mem_append, List.mem_map]
  constructor
  · rintro ⟨-, hr⟩
    refine ⟨⟨?_, ?_, ?_⟩, fun r h => hr r (.inr h)⟩
    · intro r t h1 h2 h3
      exact (resRow_iff w h (r, t)).1 (hr _ (.inl (.inl (.inl (.inl (.inr ⟨(r, t), mem_resTimes.2 ⟨h1, h2, h3⟩, rfl⟩))))))
    · intro r h1
      exact (nonRow_iff w h r).1 (hr _ (.inl (.inl (.inl (.inr ⟨r, h1, rfl⟩)))))
    · intro i j hb
      obtain ⟨hi, hj⟩ := before_tasks w hb
      exact (preRow_iff w h hi hj).1 (hr _ (.inl (.inr ⟨(i, j), (mem_pairsOf w).2 hb, rfl⟩)))
  · rintro ⟨⟨v1, v2, v3⟩, he⟩
    constructor
    · rintro v k (⟨k', hk, heq⟩ | ⟨j, hj, heq⟩)
      · cases heq
        obtain ⟨h1, h2, h3⟩ := mem_keysAll.1 hk
        have := (h k'.1 h1).2.2.2 k' (mem_keysOf.2 ⟨rfl, h2, h3⟩)
        show a (.x k') = 0 ∨ a (.x k') = 1
        rw [this]; split <;> simp
      · cases heq
        show 0 ≤ a (.dur j) ∧ _
        rw [(h j hj).2.2.1]
        exact ⟨by omega, by simp⟩
    · rintro r (((((⟨j, hj, rfl⟩ | ⟨q, hq, rfl⟩) | ⟨r', hr', rfl⟩) | ⟨j, hj, rfl⟩) | ⟨⟨i, j⟩, hq, rfl⟩) | hx)
      · show Lin.value _ a = 1
        rw [value_map]
        exact h.sum w hj (fun _ => 1)
      · obtain ⟨h1, h2, h3⟩ := mem_resTimes.1 hq
        exact (resRow_iff w h q).2 (v1 q.1 q.2 h1 h2 h3)
      · exact (nonRow_iff w h r').2 (v2 r' hr')
      · show Lin.value (durRow pb T j).terms a = 0
        unfold durRow
        simp only
        rw [value_append, value_map, value_cons, value_nil, h.sum w hj (fun k => ((theMode pb k.1 k.2.1).duration : Int)), (h j hj).2.2.1]
        simp only; omega
      · have hb := (mem_pairsOf w).1 hq
        obtain ⟨hi, hj⟩ := before_tasks w hb
        exact (preRow_iff w h hi hj).2 (v3 i j hb)
      · exact he r hx

theorem exists_picks {pb : Problem} (w : Project pb) {T : Nat} {a : Var → Int} {extra : List (Row Var)} (hf : (prog pb T extra).Feasible a) :
    ∃ md st, Picks pb T a md st := by
  have hone : ∀ j, j ∈ allTasks pb → ∃ q : Nat × Nat, q.1 ∈ (modesOf pb j).keys ∧ q.2 < T ∧ a (.dur j) = (theMode pb j q.1).duration ∧
      ∀ k, k ∈ keysOf pb T j → a (.x k) = if k = (j, q.1, q.2) then 1 else 0 := by
    intro j hj
    have h01 : ∀ k, k ∈ keysOf pb T j → a (.x k) = 0 ∨ a (.x k) = 1 := by
      intro k hk
      obtain ⟨h1, h2, h3⟩ := mem_keysOf.1 hk
      refine hf.1 (.x k) .binary ?_
      simp only [prog, List.mem_append, List.mem_map]
      exact .inl ⟨k, mem_keysAll.2 ⟨h1 ▸ hj, h1 ▸ h2, h3⟩, rfl⟩
    have hsum : ((keysOf pb T j).map (fun k => a (.x k))).sum = 1 := by
      have := hf.2 ⟨(keysOf pb T j).map (fun k => (1, .x k)), .eq, 1⟩ (by
        simp only [prog, List.mem_append, List.mem_map]
        exact .inl (.inl (.inl (.inl (.inl ⟨j, hj, rfl⟩)))))
      simp only [Row.Holds] at this
      rw [value_map] at this
      simpa using this
    obtain ⟨k, hk, hk1, hk0, hw⟩ := sum_one_unique (keysOf_nodup w hj) h01 hsum
    obtain ⟨h1, h2, h3⟩ := mem_keysOf.1 hk
    obtain ⟨j', m, t⟩ := k
    simp only at h1 h2 h3
    subst h1
    refine ⟨(m, t), h2, h3, ?_, ?_⟩
    · have := hf.2 (durRow pb T j') (by
        simp only [prog, List.mem_append, List.mem_map]
        exact .inl (.inl (.inr ⟨j', hj, rfl⟩)))
      have hval : Lin.value (durRow pb T j').terms a = 0 := this
      unfold durRow at hval
      simp only at hval
      rw [value_append, value_map, value_cons, value_nil, hw (fun k => ((theMode pb k.1 k.2.1).duration : Int))] at hval
      simp only at hval ⊢
      omega
    · intro k hk
      split
      · rename_i h; rw [h]; exact hk1
      · rename_i h; exact hk0 k hk h
  refine ⟨fun j => if hj : j ∈ allTasks pb then (hone j hj).choose.1 else 0, fun j => if hj : j ∈ allTasks pb then (hone j hj).choose.2 else 0, ?_⟩
  intro j hj
  simp only [hj, dif_pos]
  exact (hone j hj).choose_spec

theorem foldlM_one {α β : Type} {f : β → α → Except PyErr β} {l : List α} (hl : l.Nodup) {x : α} (hx : x ∈ l)
    (hskip : ∀ s y, y ∈ l → y ≠ x → f s y = .ok s) : ∀ s s', f s x = .ok s' → l.foldlM f s = .ok s' := by
  have hnone : ∀ l' : List α, (∀ y, y ∈ l' → y ∈ l ∧ y ≠ x) → ∀ s, l'.foldlM f s = .ok s := by
    intro l'
    induction l' with
    | nil => intro _ s; rfl
    | cons y l' ih =>
      intro h s
      rw [List.foldlM_cons, hskip s y (h y (by simp)).1 (h y (by simp)).2]
      exact ih (fun z hz => h z (List.mem_cons_of_mem _ hz)) s
  obtain ⟨l₁, l₂, rfl⟩ := List.append_of_mem hx
  intro s s' hs
  rw [List.nodup_append] at hl
  rw [List.foldlM_append, hnone l₁ (fun y hy => ⟨by simp [hy], fun h => hl.2.2 y hy x (by simp) h⟩), bind_ok, List.foldlM_cons, hs]
  refine hnone l₂ (fun y hy => ⟨by simp [hy], ?_⟩) s'
  rintro rfl
  exact (List.nodup_cons.1 hl.2.1).1 hy

/-- The schedule of modes and starts. -/
def schedOf (pb : Problem) (md st : Nat → Nat) (l : List Nat) : Dict Nat (Int × Int) :=
  l.map (fun j => (j, ((st j : Int), (st j : Int) + (theMode pb j (md j)).duration)))

theorem readMulti_eq {pb : Problem} (w : Project pb) {T : Nat} {a : Var → Int} {md st : Nat → Nat} (h : Picks pb T a md st) :
    readMulti pb (keysAll pb T) a = .ok (schedOf pb md st (allTasks pb), (allTasks pb).map (fun j => (j, md j))) := by
  have hgen : ∀ (l done : List Nat), (done ++ l).Nodup → (∀ j, j ∈ l → j ∈ allTasks pb) →
      (l.flatMap (keysOf pb T)).foldlM (fun st k =>
        if 1 ≤ 2 * a (.x k) then do
          let m ← modeOf pb k
          .ok (Dict.set st.1 k.1 ((k.2.2 : Int), (k.2.2 : Int) + m.duration), Dict.set st.2 k.1 k.2.1)
        else .ok st) (schedOf pb md st done, done.map (fun j => (j, md j))) =
      (Except.ok (schedOf pb md st (done ++ l), (done ++ l).map (fun j => (j, md j))) : Except PyErr _) := by
    intro l
    induction l with
    | nil => intro done _ _; simp only [List.flatMap_nil, List.foldlM_nil, List.append_nil]; rfl
    | cons j l ih =>
      intro done hnd hl
      have hj := hl j (by simp)
      obtain ⟨h1, h2, h3, h4⟩ := h j hj
      rw [List.flatMap_cons, List.foldlM_append]
      rw [foldlM_one (keysOf_nodup w hj) (x := (j, md j, st j)) (mem_keysOf.2 ⟨rfl, h1, h2⟩) (s' := (schedOf pb md st (done ++ [j]), (done ++ [j]).map (fun j => (j, md j)))), bind_ok,
        ih (done ++ [j]) (by simpa using hnd) (fun x hx => hl x (List.mem_cons_of_mem _ hx))]
      · simp
      · intro s y hy hne
        rw [h4 y hy, if_neg hne]; rfl
      · rw [h4 _ (mem_keysOf.2 ⟨rfl, h1, h2⟩), if_pos rfl, if_pos (by omega), modeOf, modeAt_ok w hj h1, bind_ok]
        have hfresh : j ∉ done := by
          intro hd
          exact (List.nodup_append.1 hnd).2.2 j hd j (by simp) rfl
        simp only
        rw [set_fresh, set_fresh]
        · simp [schedOf]
        · simpa [Dict.keys, Function.comp_def] using hfresh
        · simpa [schedOf, Dict.keys, Function.comp_def] using hfresh
  exact hgen (allTasks pb) [] (by simpa using allTasks_nodup pb) (fun j hj => hj)

theorem erase_last {α : Type} (l : Dict Nat α) (k : Nat) (v : α) (h : k ∉ l.keys) : Dict.erase (l ++ [(k, v)]) k = l := by
  induction l with
  | nil => simp [Dict.erase]
  | cons q l ih =>
    obtain ⟨k', v'⟩ := q
    have h1 : k' ≠ k := fun e => h (by simp [Dict.keys, e])
    have h2 : k ∉ Dict.keys l := fun e => h (by simp only [Dict.keys, List.map_cons, List.mem_cons]; exact .inr e)
    rw [List.cons_append, Dict.erase, if_neg h1, ih h2]

theorem modesVec_eq {pb : Problem} (w : Project pb) (md : Nat → Nat) :
    modesVec pb ((allTasks pb).map (fun j => (j, md j))) = .ok ((List.range' 2 (pb.modes.length - 2)).map md) := by
  have htwo := w.two
  obtain ⟨n, hn⟩ : ∃ n, pb.modes.length = n + 2 := ⟨pb.modes.length - 2, by omega⟩
  have hall : allTasks pb = 1 :: (List.range' 2 n ++ [n + 2]) := by
    unfold allTasks
    rw [hn, List.range'_succ, List.range'_concat]
    simp; omega
  have hnot : n + 2 ∉ Dict.keys ((List.range' 2 n).map (fun j => (j, md j))) := by
    simp [Dict.keys, Function.comp_def]
    omega
  unfold modesVec Problem.sink
  rw [hall, hn]
  simp only [List.map_cons, List.map_append, List.map_nil]
  have h1 : Dict.get ((1, md 1) :: (List.map (fun j => (j, md j)) (List.range' 2 n) ++ [(n + 2, md (n + 2))])) 1 = .ok (md 1) := by
    simp [Dict.get, Dict.get?]
  have h2 : Dict.erase ((1, md 1) :: (List.map (fun j => (j, md j)) (List.range' 2 n) ++ [(n + 2, md (n + 2))])) 1 =
      List.map (fun j => (j, md j)) (List.range' 2 n) ++ [(n + 2, md (n + 2))] := by
    simp [Dict.erase]
  have h3 : Dict.get (List.map (fun j => (j, md j)) (List.range' 2 n) ++ [(n + 2, md (n + 2))]) (n + 2) = .ok (md (n + 2)) := by
    have : Dict.get? (List.map (fun j => (j, md j)) (List.range' 2 n) ++ [(n + 2, md (n + 2))]) (n + 2) = some (md (n + 2)) := by
      refine Dict.get?_of_mem ?_ (by simp)
      rw [Dict.keys, List.map_append, List.map_map]
      simp only [Function.comp_def, List.map_id', List.map_cons, List.map_nil]
      rw [List.nodup_append]
      refine ⟨List.nodup_range', by simp, ?_⟩
      intro x hx y hy
      rw [List.mem_range'_1] at hx
      simp at hy; omega
    rw [Dict.get, this]
  rw [h1, bind_ok, h2, h3, bind_ok, erase_last _ _ _ hnot]
  rw [sortBy_of_sorted]
  · simp [Function.comp_def]
  · rw [List.pairwise_map]
    refine (List.pairwise_lt_range' (s := 2) (n := n)).imp ?_
    intro a b h; simp only; omega

theorem retrieve_eq {pb : Problem} (w : Project pb) {T : Nat} {a : Var → Int} {md st : Nat → Nat} (h : Picks pb T a md st) :
    retrieve pb T a = .ok (schedOf pb md st (allTasks pb), (List.range' 2 (pb.modes.length - 2)).map md) := by
  unfold retrieve
  rw [varDict_eq w, bind_ok, flatMap_snd, readMulti_eq w h, bind_ok, modesVec_eq w, bind_ok]

theorem sched_get {pb : Problem} {md st : Nat → Nat} {j : Nat} (hj : j ∈ allTasks pb) :
    (schedOf pb md st (allTasks pb)).get? j = some ((st j : Int), (st j : Int) + (theMode pb j (md j)).duration) := by
  refine Dict.get?_of_mem ?_ (List.mem_map.2 ⟨j, hj, rfl⟩)
  simp [schedOf, Dict.keys, Function.comp_def, allTasks_nodup]

/-- The assignment of modes and starts. -/
def assign (pb : Problem) (md st : Nat → Nat) : Var → Int
  | .x k => if k.2.1 = md k.1 ∧ k.2.2 = st k.1 then 1 else 0
  | .dur j => (theMode pb j (md j)).duration

theorem assign_picks {pb : Problem} {T : Nat} {md st : Nat → Nat}
    (h : ∀ j, j ∈ allTasks pb → md j ∈ (modesOf pb j).keys ∧ st j < T) : Picks pb T (assign pb md st) md st := by
  intro j hj
  refine ⟨(h j hj).1, (h j hj).2, rfl, ?_⟩
  intro k hk
  obtain ⟨rfl, -, -⟩ := mem_keysOf.1 hk
  obtain ⟨x, m, t⟩ := k
  simp [assign]

end Verif.RcpspLp
