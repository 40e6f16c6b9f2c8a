import Verif.Lemmas.RcpspLp
/- Helper lemmas about the program for projects with one mode. -/
namespace Verif.RcpspLp
open Verif.Milp Verif.Rcpsp
open Verif.FacilityLp (sum_map_congr)
open Verif.KnapsackLp (set_fresh)

/-- Every task has mode 1 only. -/
def OneMode (pb : Problem) : Prop := ∀ a d, pb.modes.get? a = some d → d.keys = [1]

/-- All capacities are numbers. -/
def Constant (pb : Problem) : Prop := ∀ q, q ∈ pb.resources → ∃ c, q.2 = .const c

theorem one_mem {pb : Problem} (w : Project pb) (h1 : OneMode pb) {a : Nat} (ha : a ∈ allTasks pb) : 1 ∈ (modesOf pb a).keys := by
  rw [h1 a _ (modesOf_get w ha)]; simp

/-- The duration of a task. -/
def durS (pb : Problem) (a : Nat) : Nat := (theMode pb a 1).duration

/-- The data in closed form. -/
def dataOf (pb : Problem) : Data :=
  ⟨(allTasks pb).map (durS pb), (allTasks pb).map (fun k => pb.resources.keys.map (fun r => needIn pb r k 1)), pb.resources.map Prod.snd,
    (pairsOf pb).map (fun q => (q.1 - 1, q.2 - 1))⟩

theorem data_eq {pb : Problem} (w : Project pb) (h1 : OneMode pb) : data pb = .ok (dataOf pb) := by
  unfold data
  rw [sortedTasks_eq w, mapE_ok (g := durS pb), bind_ok, mapE_ok (g := fun k => pb.resources.keys.map (fun r => needIn pb r k 1)), bind_ok,
    mapE_ok (g := fun a => ((pb.successors.get? a).getD []).map (fun s => (a - 1, s - 1))), bind_ok]
  · unfold dataOf pairsOf
    rw [List.map_flatMap, List.flatMap_def]
    simp [Function.comp_def]
  · intro a ha
    obtain ⟨ss, hss⟩ := succ_get w ha
    rw [Dict.get, hss]; rfl
  · intro a ha
    refine mapE_ok (g := fun r => needIn pb r a 1) ?_
    intro r hr
    rw [modeAt_ok w ha (one_mem w h1 ha), bind_ok, need_ok w ha (one_mem w h1 ha) hr]
  · intro a ha
    rw [modeAt_ok w ha (one_mem w h1 ha), bind_ok]; rfl

theorem allTasks_get {pb : Problem} {j : Nat} (hj : j < pb.modes.length) : (allTasks pb)[j]? = some (j + 1) := by
  unfold allTasks
  rw [List.getElem?_range' hj]; simp [Nat.add_comm]

theorem p_get {pb : Problem} {j : Nat} (hj : j < pb.modes.length) : pyGet (dataOf pb).p j = .ok (durS pb (j + 1)) := by
  rw [pyGet_ok_iff]
  simp [dataOf, allTasks_get hj]

theorem p_length (pb : Problem) : (dataOf pb).p.length = pb.modes.length := by simp [dataOf, allTasks]

/-- The name of a resource. -/
def nameAt (pb : Problem) (r : Nat) : String := pb.resources.keys.getD r ""
/-- The number under a resource. -/
def numAt (pb : Problem) (r : Nat) : Int := capVal pb (nameAt pb r) 0

/-- A resource row in closed form. -/
def rowS (pb : Problem) (q : Nat × Nat) : Row (Nat × Nat) :=
  ⟨(List.range pb.modes.length).flatMap (fun j =>
    (List.range' (q.2 + 1 - durS pb (j + 1)) (q.2 + 1 - (q.2 + 1 - durS pb (j + 1)))).map (fun t2 => (needIn pb (nameAt pb q.1) (j + 1) 1, (j, t2)))),
    .le, numAt pb q.1⟩

theorem resourceRow_eq {pb : Problem} (w : Project pb) (hc : Constant pb) {q : Nat × Nat} (hq : q.1 < pb.resources.length) :
    resourceRow (dataOf pb) q.1 q.2 = .ok (rowS pb q) := by
  unfold resourceRow
  rw [mapE_ok (g := fun j => (List.range' (q.2 + 1 - durS pb (j + 1)) (q.2 + 1 - (q.2 + 1 - durS pb (j + 1)))).map
    (fun t2 => (needIn pb (nameAt pb q.1) (j + 1) 1, (j, t2)))), bind_ok]
  · obtain ⟨c, hcc⟩ := hc (pb.resources[q.1]) (List.getElem_mem hq)
    have h1 : pyGet (dataOf pb).c q.1 = .ok (.const c) := by
      rw [pyGet_ok_iff]; simp [dataOf, hq, hcc]
    have hname : nameAt pb q.1 = (pb.resources[q.1]).1 := by simp [nameAt, Dict.keys, hq]
    have hget : pb.resources.get? (nameAt pb q.1) = some (.const c) := by
      refine Dict.get?_of_mem w.resources.1 ?_
      rw [hname, ← hcc]
      exact List.getElem_mem hq
    have h2 : numAt pb q.1 = c := by simp [numAt, capVal, hget, capOf]
    rw [h1, bind_ok, number, bind_ok, rowS, h2, List.flatMap_def, p_length]
  · intro j hj
    rw [List.mem_range, p_length] at hj
    have hu : pyGet (dataOf pb).u j = .ok (pb.resources.keys.map (fun r => needIn pb r (j + 1) 1)) := by
      rw [pyGet_ok_iff]; simp [dataOf, allTasks_get hj]
    have hn : pyGet (pb.resources.keys.map (fun r => needIn pb r (j + 1) 1)) q.1 = .ok (needIn pb (nameAt pb q.1) (j + 1) 1) := by
      rw [pyGet_ok_iff]
      have : pb.resources.keys[q.1]? = some (nameAt pb q.1) := by simp [nameAt, Dict.keys, hq]
      rw [List.getElem?_map, this]; rfl
    rw [hu, bind_ok, p_get hj, bind_ok, hn, bind_ok]

/-- A precedence row in closed form. -/
def preS (pb : Problem) (H : Nat) (q : Nat × Nat) : Row (Nat × Nat) :=
  ⟨startTerms 1 H (q.2 - 1) ++ startTerms (-1) H (q.1 - 1), .ge, durS pb q.1⟩

/-- The resources and times. -/
def resTimesS (pb : Problem) (H : Nat) : List (Nat × Nat) :=
  (List.range pb.resources.length).flatMap (fun r => (List.range (H + 1)).map (fun t => (r, t)))

theorem mem_resTimesS {pb : Problem} {H : Nat} {q : Nat × Nat} : q ∈ resTimesS pb H ↔ q.1 < pb.resources.length ∧ q.2 < H + 1 := by
  obtain ⟨r, t⟩ := q
  simp only [resTimesS, List.mem_flatMap, List.mem_map, List.mem_range, Prod.mk.injEq]
  constructor
  · rintro ⟨r', h1, t', h2, rfl, rfl⟩; exact ⟨h1, h2⟩
  · rintro ⟨h1, h2⟩; exact ⟨r, h1, t, h2, rfl, rfl⟩

/-- The program in closed form. -/
def sprog (pb : Problem) (H : Nat) : Program (Nat × Nat) :=
  { vars := (List.range pb.modes.length).flatMap (fun j => (List.range (H + 1)).map (fun t => ((j, t), .binary))),
    rows := (List.range pb.modes.length).map (fun j => ⟨(List.range (H + 1)).map (fun t => (1, (j, t))), .eq, 1⟩)
      ++ (resTimesS pb H).map (rowS pb) ++ (pairsOf pb).map (preS pb H),
    objective := startTerms 1 H (pb.modes.length - 1) }

theorem single_eq {pb : Problem} (w : Project pb) (h1 : OneMode pb) (hc : Constant pb) (H : Nat) : single pb H = .ok (sprog pb H) := by
  have htwo := w.two
  unfold single
  rw [data_eq w h1, bind_ok, p_length, if_neg (by omega), bind_ok]
  have hcl : (dataOf pb).c.length = pb.resources.length := by simp [dataOf]
  simp only []
  rw [hcl, mapE_ok (g := rowS pb), bind_ok]
  · have hS : (dataOf pb).S = (pairsOf pb).map (fun q => (q.1 - 1, q.2 - 1)) := rfl
    rw [hS, mapE_map, mapE_ok (g := preS pb H), bind_ok]
    · rfl
    · rintro ⟨i, j⟩ hq
      obtain ⟨hi, hj⟩ := before_tasks w ((mem_pairsOf w).1 hq)
      obtain ⟨hi1, hi2⟩ := mem_allTasks.1 hi
      obtain ⟨hj1, hj2⟩ := mem_allTasks.1 hj
      simp only [precedenceRow, listOf, p_length]
      rw [if_pos (by omega), bind_ok, if_pos (by omega), bind_ok, p_get (by omega), bind_ok, preS]
      simp only
      rw [show i - 1 + 1 = i by omega]
  · intro q hq
    exact resourceRow_eq w hc (mem_resTimesS.1 hq).1

/-- The assignment picks one start for each task. -/
def PicksS (pb : Problem) (H : Nat) (a : Nat × Nat → Int) (st : Nat → Nat) : Prop :=
  ∀ j, j ∈ allTasks pb → st j < H + 1 ∧ ∀ t, t < H + 1 → a (j - 1, t) = if t = st j then 1 else 0

theorem PicksS.sum {pb : Problem} {H : Nat} {a : Nat × Nat → Int} {st : Nat → Nat} (h : PicksS pb H a st) {j : Nat}
    (hj : j ∈ allTasks pb) (wt : Nat → Int) : ((List.range (H + 1)).map (fun t => wt t * a (j - 1, t))).sum = wt (st j) := by
  obtain ⟨h1, h2⟩ := h j hj
  rw [← sum_indicator (List.nodup_range (n := H + 1)) (x := st j) (List.mem_range.2 h1) wt]
  refine sum_map_congr ?_
  intro t ht; rw [h2 t (List.mem_range.1 ht)]

theorem PicksS.time {pb : Problem} {H : Nat} {a : Nat × Nat → Int} {st : Nat → Nat} (h : PicksS pb H a st) {j : Nat}
    (hj : j ∈ allTasks pb) (s : Int) : (startTerms s H (j - 1)).value a = s * st j := by
  unfold startTerms
  rw [value_map]
  exact h.sum hj (fun t => s * t)

theorem PicksS.window {pb : Problem} {H : Nat} {a : Nat × Nat → Int} {st : Nat → Nat} (h : PicksS pb H a st) {j t : Nat}
    (hj : j ∈ allTasks pb) (ht : t < H + 1) (n : Int) (p : Nat) :
    ((List.range' (t + 1 - p) (t + 1 - (t + 1 - p))).map (fun t2 => n * a (j - 1, t2))).sum = if st j ≤ t ∧ t < st j + p then n else 0 := by
  obtain ⟨h1, h2⟩ := h j hj
  have hcong : ((List.range' (t + 1 - p) (t + 1 - (t + 1 - p))).map (fun t2 => n * a (j - 1, t2))).sum =
      ((List.range' (t + 1 - p) (t + 1 - (t + 1 - p))).map (fun t2 => n * (if t2 = st j then 1 else 0))).sum := by
    refine sum_map_congr ?_
    intro t2 ht2
    rw [List.mem_range'_1] at ht2
    rw [h2 t2 (by omega)]
  rw [hcong]
  split
  · rename_i hin
    exact sum_indicator List.nodup_range' (x := st j) (by rw [List.mem_range'_1]; omega) (fun _ => n)
  · rename_i hout
    have : ((List.range' (t + 1 - p) (t + 1 - (t + 1 - p))).map (fun t2 => n * (if t2 = st j then 1 else 0))) =
        (List.range' (t + 1 - p) (t + 1 - (t + 1 - p))).map (fun _ => 0) := by
      refine List.map_congr_left ?_
      intro t2 ht2
      rw [List.mem_range'_1] at ht2
      rw [if_neg (by omega)]; simp
    rw [this]; simp

theorem range_tasks (pb : Problem) : (List.range pb.modes.length).map (· + 1) = allTasks pb := by
  unfold allTasks
  rw [List.range'_eq_map_range]
  refine List.map_congr_left ?_
  intro x _; omega

theorem rowS_iff {pb : Problem} {H : Nat} {a : Nat × Nat → Int} {st : Nat → Nat} (h : PicksS pb H a st) {q : Nat × Nat} (ht : q.2 < H + 1) :
    (rowS pb q).Holds a ↔ ((allTasks pb).map (fun j => if st j ≤ q.2 ∧ q.2 < st j + (theMode pb j 1).duration then needIn pb (nameAt pb q.1) j 1 else 0)).sum ≤
      numAt pb q.1 := by
  have : Lin.value (rowS pb q).terms a =
      ((allTasks pb).map (fun j => if st j ≤ q.2 ∧ q.2 < st j + (theMode pb j 1).duration then needIn pb (nameAt pb q.1) j 1 else 0)).sum := by
    unfold rowS
    simp only
    rw [value_flatMap, ← range_tasks, List.map_map]
    refine sum_map_congr ?_
    intro j hj
    rw [value_map]
    exact h.window (j := j + 1) (mem_allTasks.2 ⟨by omega, by have := List.mem_range.1 hj; omega⟩) ht _ (durS pb (j + 1))
  rw [← this]; rfl

theorem preS_iff {pb : Problem} {H : Nat} {a : Nat × Nat → Int} {st : Nat → Nat} (h : PicksS pb H a st) {i j : Nat}
    (hi : i ∈ allTasks pb) (hj : j ∈ allTasks pb) : (preS pb H (i, j)).Holds a ↔ st i + (theMode pb i 1).duration ≤ st j := by
  have hv : Lin.value (preS pb H (i, j)).terms a = (st j : Int) - st i := by
    unfold preS
    simp only
    rw [value_append, h.time hj, h.time hi]; omega
  simp only [Row.Holds, preS, durS] at hv ⊢
  rw [hv]; omega

theorem name_index {pb : Problem} (hc : Constant pb) {r : String} :
    r ∈ pb.resources.keys ↔ ∃ i, i < pb.resources.length ∧ nameAt pb i = r ∧ ∀ t, numAt pb i = capVal pb r t := by
  constructor
  · intro hr
    obtain ⟨i, hi, he⟩ := List.mem_iff_getElem.1 hr
    have hi' : i < pb.resources.length := by simpa [Dict.keys] using hi
    have hn : nameAt pb i = r := by simp only [nameAt]; rw [List.getD_eq_getElem?_getD, List.getElem?_eq_getElem hi]; exact he
    refine ⟨i, hi', hn, ?_⟩
    intro t
    rw [numAt, hn]
    have hr' := hr
    rw [← Dict.get?_isSome_iff_mem_keys] at hr'
    obtain ⟨cap, hcap⟩ := Option.isSome_iff_exists.1 hr'
    obtain ⟨c, hcc⟩ := hc _ (Dict.mem_of_get? hcap)
    simp only at hcc
    subst hcc
    simp [capVal, hcap, capOf]
  · rintro ⟨i, hi, rfl, -⟩
    simp [nameAt, Dict.keys, hi]
    exact ⟨_, List.getElem_mem hi⟩

theorem picksS_iff {pb : Problem} (w : Project pb) (hc : Constant pb) (hnr : pb.nonRenewable = []) {H : Nat} {a : Nat × Nat → Int} {st : Nat → Nat}
    (h : PicksS pb H a st) : (sprog pb H).Feasible a ↔ Valid pb (H + 1) (fun _ => 1) st := by
  unfold Program.Feasible
  simp only [sprog, List.mem_append, List.mem_map]
  constructor
  · rintro ⟨-, hr⟩
    refine ⟨?_, ?_, ?_⟩
    · intro r t h1 _ h3
      obtain ⟨i, hi, hn, hcv⟩ := (name_index hc).1 h1
      have := (rowS_iff h (q := (i, t)) h3).1 (hr _ (.inl (.inr ⟨(i, t), mem_resTimesS.2 ⟨hi, h3⟩, rfl⟩)))
      simp only at this
      rw [hn, hcv t] at this
      exact this
    · intro r hr'; rw [hnr] at hr'; simp at hr'
    · intro i j hb
      obtain ⟨hi, hj⟩ := before_tasks w hb
      exact (preS_iff h hi hj).1 (hr _ (.inr ⟨(i, j), (mem_pairsOf w).2 hb, rfl⟩))
  · rintro ⟨v1, -, v3⟩
    constructor
    · intro v k hk
      obtain ⟨j, hj, hk⟩ := List.mem_flatMap.1 hk
      obtain ⟨t, ht, heq⟩ := List.mem_map.1 hk
      cases heq
      have := (h (j + 1) (mem_allTasks.2 ⟨by omega, by have := List.mem_range.1 hj; omega⟩)).2 t (List.mem_range.1 ht)
      show a (j, t) = 0 ∨ a (j, t) = 1
      rw [show j + 1 - 1 = j by omega] at this
      rw [this]; split <;> simp
    · rintro r ((⟨j, hj, rfl⟩ | ⟨q, hq, rfl⟩) | ⟨⟨i, j⟩, hq, rfl⟩)
      · show Lin.value _ a = 1
        rw [value_map]
        exact h.sum (j := j + 1) (mem_allTasks.2 ⟨by omega, by have := List.mem_range.1 hj; omega⟩) (fun _ => 1)
      · obtain ⟨h1, h2⟩ := mem_resTimesS.1 hq
        refine (rowS_iff h h2).2 ?_
        have hname : nameAt pb q.1 ∈ pb.resources.keys := by
          simp [nameAt, Dict.keys, h1]
          exact ⟨_, List.getElem_mem h1⟩
        have hcv : numAt pb q.1 = capVal pb (nameAt pb q.1) q.2 := by
          have hr' := hname
          rw [← Dict.get?_isSome_iff_mem_keys] at hr'
          obtain ⟨cap, hcap⟩ := Option.isSome_iff_exists.1 hr'
          obtain ⟨c, hcc⟩ := hc _ (Dict.mem_of_get? hcap)
          simp only at hcc
          subst hcc
          simp [numAt, capVal, hcap, capOf]
        rw [hcv]
        exact v1 (nameAt pb q.1) q.2 hname (by rw [hnr]; simp) h2
      · have hb := (mem_pairsOf w).1 hq
        obtain ⟨hi, hj⟩ := before_tasks w hb
        exact (preS_iff h hi hj).2 (v3 i j hb)

theorem exists_picksS {pb : Problem} {H : Nat} {a : Nat × Nat → Int} (hf : (sprog pb H).Feasible a) : ∃ st, PicksS pb H a st := by
  have hone : ∀ j, j ∈ allTasks pb → ∃ s, s < H + 1 ∧ ∀ t, t < H + 1 → a (j - 1, t) = if t = s then 1 else 0 := by
    intro j hj
    obtain ⟨hj1, hj2⟩ := mem_allTasks.1 hj
    have h01 : ∀ t, t ∈ List.range (H + 1) → a (j - 1, t) = 0 ∨ a (j - 1, t) = 1 := by
      intro t ht
      refine hf.1 (j - 1, t) .binary ?_
      simp only [sprog, List.mem_flatMap, List.mem_map]
      exact ⟨j - 1, List.mem_range.2 (by omega), t, ht, rfl⟩
    have hsum : ((List.range (H + 1)).map (fun t => a (j - 1, t))).sum = 1 := by
      have := hf.2 ⟨(List.range (H + 1)).map (fun t => (1, (j - 1, t))), .eq, 1⟩ (by
        simp only [sprog, List.mem_append, List.mem_map]
        exact .inl (.inl ⟨j - 1, List.mem_range.2 (by omega), rfl⟩))
      simp only [Row.Holds] at this
      rw [value_map] at this
      simpa using this
    obtain ⟨s, hs, hs1, hs0, -⟩ := sum_one_unique List.nodup_range h01 hsum
    refine ⟨s, List.mem_range.1 hs, ?_⟩
    intro t ht
    split
    · rename_i he; rw [he]; exact hs1
    · rename_i he; exact hs0 t (List.mem_range.2 ht) he
  refine ⟨fun j => if hj : j ∈ allTasks pb then (hone j hj).choose else 0, ?_⟩
  intro j hj
  simp only [hj, dif_pos]
  exact (hone j hj).choose_spec

theorem readSingle_eq {pb : Problem} (w : Project pb) (h1 : OneMode pb) {H : Nat} {a : Nat × Nat → Int} {st : Nat → Nat} (h : PicksS pb H a st) :
    readSingle pb pb.modes.length H a = .ok (schedOf pb (fun _ => 1) st (allTasks pb)) := by
  have hgen : ∀ (l done : List Nat), (done ++ l).Nodup → (∀ j, j ∈ l → j < pb.modes.length) →
      (l.flatMap (fun j => (List.range (H + 1)).map (fun t => (j, t)))).foldlM (fun sch q =>
        if 1 ≤ 2 * a q then do
          let m ← modeAt pb (q.1 + 1) 1
          .ok (Dict.set sch (q.1 + 1) ((q.2 : Int), (q.2 : Int) + m.duration))
        else .ok sch) (schedOf pb (fun _ => 1) st (done.map (· + 1))) =
      (Except.ok (schedOf pb (fun _ => 1) st ((done ++ l).map (· + 1))) : Except PyErr _) := by
    intro l
    induction l with
    | nil => intro done _ _; simp only [List.flatMap_nil, List.foldlM_nil, List.append_nil]; rfl
    | cons j l ih =>
      intro done hnd hl
      have hj : j + 1 ∈ allTasks pb := mem_allTasks.2 ⟨by omega, hl j (by simp)⟩
      obtain ⟨h2, h3⟩ := h (j + 1) hj
      have h3' : ∀ t, t < H + 1 → a (j, t) = if t = st (j + 1) then 1 else 0 := h3
      rw [List.flatMap_cons, List.foldlM_append]
      rw [foldlM_one (x := (j, st (j + 1))) (s' := schedOf pb (fun _ => 1) st ((done ++ [j]).map (· + 1))), bind_ok,
        ih (done ++ [j]) (by simpa using hnd) (fun x hx => hl x (List.mem_cons_of_mem _ hx))]
      · simp
      · refine List.Nodup.map ?_ List.nodup_range
        intro x y hxy; simpa using hxy
      · exact List.mem_map.2 ⟨_, List.mem_range.2 h2, rfl⟩
      · intro s y hy hne
        obtain ⟨t, ht, rfl⟩ := List.mem_map.1 hy
        have hts : t ≠ st (j + 1) := fun he => hne (by rw [he])
        rw [h3' t (List.mem_range.1 ht), if_neg hts]; rfl
      · rw [h3' _ h2, if_pos rfl, if_pos (by omega), modeAt_ok w hj (one_mem w h1 hj), bind_ok]
        have hfresh : j ∉ done := fun hd => (List.nodup_append.1 hnd).2.2 j hd j (by simp) rfl
        simp only
        rw [set_fresh]
        · simp [schedOf]
        · simpa [schedOf, Dict.keys, Function.comp_def] using hfresh
  have := hgen (List.range pb.modes.length) [] (by simpa using List.nodup_range) (fun j hj => List.mem_range.1 hj)
  simp only [List.nil_append, range_tasks] at this
  exact this

/-- The assignment of starts. -/
def assignS (st : Nat → Nat) : Nat × Nat → Int := fun q => if q.2 = st (q.1 + 1) then 1 else 0

theorem assignS_picks {pb : Problem} {H : Nat} {st : Nat → Nat} (h : ∀ j, j ∈ allTasks pb → st j < H + 1) : PicksS pb H (assignS st) st := by
  intro j hj
  have := (mem_allTasks.1 hj).1
  refine ⟨h j hj, ?_⟩
  intro t _
  simp only [assignS, show j - 1 + 1 = j by omega]

end Verif.RcpspLp
