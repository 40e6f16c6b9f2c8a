import Mathlib.Data.List.Nodup
import Verif.Model.GanttLp
import Verif.Lemmas.Milp
import Verif.Lemmas.MsLpPlan
namespace Verif.GanttLp
open Verif.Milp

/-- The calendar says yes at all times from `s` to before `e`. -/
def Open (cal : List Bool) (s e : Nat) : Prop := ∀ t, s ≤ t → t < e → cal[t]? = some true

theorem free_ok {cal : List Bool} {s e : Nat} {b : Bool} (h : free cal s e = .ok b) : b = true ↔ Open cal s e := by
  have hinv : ∀ (d : Nat) (y : Bool), pyGet cal (s + d) = .ok y → y = (cal[s + d]?).getD false := by
    intro d y hy
    simp only [pyGet] at hy
    split at hy
    · next x hx => rw [hx]; cases hy; rfl
    · cases hy
  unfold free at h
  cases hm : mapE (fun d => pyGet cal (s + d)) (List.range (e - s)) with
  | error x => rw [hm] at h; cases h
  | ok bs =>
    rw [hm] at h
    obtain ⟨h1, h2⟩ := mapE_inv hinv hm
    have hb : b = bs.all id := by cases h; rfl
    subst hb
    subst h1
    simp only [List.all_eq_true, List.mem_map, List.mem_range, id_eq, forall_exists_index, and_imp, forall_apply_eq_imp_iff₂]
    constructor
    · intro h t ht1 ht2
      have h3 := h (t - s) (by omega)
      rw [show s + (t - s) = t by omega] at h3
      cases hc : cal[t]? with
      | none => rw [hc] at h3; cases h3
      | some x => rw [hc] at h3; simp only [Option.getD_some] at h3; rw [h3]
    · intro h d hd
      rw [h (s + d) (by omega) (by omega)]; rfl

theorem keysFrom_ok {D : Data} {k : String} {task : Nat} {cals : List (List Bool)} :
    ∀ {i : Nat} {new : List Var}, keysFrom D k task i cals = .ok new →
      new.Nodup ∧ ∀ v, v ∈ new ↔ v.1 = k ∧ v.2.2 = task ∧ i ≤ v.2.1 ∧
        ∃ cal, cals[v.2.1 - i]? = some cal ∧ Open cal (D.time task).1 (D.time task).2 := by
  induction cals with
  | nil =>
    intro i new h
    simp only [keysFrom, Except.ok.injEq] at h
    subst h
    simp
  | cons cal cals ih =>
    intro i new h
    simp only [keysFrom] at h
    cases hf : free cal (D.time task).1 (D.time task).2 with
    | error e => rw [hf] at h; cases h
    | ok b =>
      cases hr : keysFrom D k task (i + 1) cals with
      | error e => rw [hf, hr] at h; cases h
      | ok r =>
        rw [hf, hr] at h
        have hn : new = if b then (k, i, task) :: r else r := by cases h; rfl
        obtain ⟨h1, h2⟩ := ih hr
        have hb := free_ok hf
        have hnot : (k, i, task) ∉ r := by
          intro hm
          have := ((h2 _).1 hm).2.2.1
          simp only at this
          omega
        have hstep : ∀ v : Var, (v.1 = k ∧ v.2.2 = task ∧ i ≤ v.2.1 ∧
            ∃ c, (cal :: cals)[v.2.1 - i]? = some c ∧ Open c (D.time task).1 (D.time task).2) ↔
            (v = (k, i, task) ∧ b = true) ∨ v ∈ r := by
          intro v
          obtain ⟨x, j, t⟩ := v
          rw [h2]
          simp only [Prod.mk.injEq]
          constructor
          · rintro ⟨rfl, rfl, hij, c, hc, ho⟩
            rcases Nat.eq_or_lt_of_le hij with rfl | hlt
            · left
              rw [Nat.sub_self] at hc
              simp only [List.getElem?_cons_zero, Option.some.injEq] at hc
              subst hc
              exact ⟨⟨rfl, rfl, rfl⟩, hb.2 ho⟩
            · right
              refine ⟨rfl, rfl, hlt, c, ?_, ho⟩
              rw [show j - i = (j - (i + 1)) + 1 by omega, List.getElem?_cons_succ] at hc
              exact hc
          · rintro (⟨⟨rfl, rfl, rfl⟩, hbt⟩ | ⟨rfl, rfl, hlt, c, hc, ho⟩)
            · exact ⟨rfl, rfl, Nat.le_refl _, cal, by simp, hb.1 hbt⟩
            · refine ⟨rfl, rfl, by omega, c, ?_, ho⟩
              rw [show j - i = (j - (i + 1)) + 1 by omega, List.getElem?_cons_succ]
              exact hc
        cases b with
        | true =>
          simp only [if_true] at hn
          subst hn
          refine ⟨List.nodup_cons.2 ⟨hnot, h1⟩, fun v => ?_⟩
          rw [hstep, List.mem_cons]; simp
        | false =>
          simp only [Bool.false_eq_true, if_false] at hn
          subst hn
          refine ⟨h1, fun v => ?_⟩
          rw [hstep]; simp

/-- The variables of an activity and some resources. -/
def Able (D : Data) (task : Nat) (us : Dict String (List (List Bool))) (v : Var) : Prop :=
  v.2.2 = task ∧ ∃ cals, (v.1, cals) ∈ us ∧ 0 < D.need task v.1 ∧ ∃ cal, cals[v.2.1]? = some cal ∧ Open cal (D.time task).1 (D.time task).2

theorem able_cons {D : Data} {task : Nat} {k : String} {cals : List (List Bool)} {us : Dict String (List (List Bool))} {v : Var} :
    Able D task ((k, cals) :: us) v ↔
      (v.1 = k ∧ v.2.2 = task ∧ 0 < D.need task k ∧ ∃ cal, cals[v.2.1]? = some cal ∧ Open cal (D.time task).1 (D.time task).2) ∨
        Able D task us v := by
  obtain ⟨x, j, t⟩ := v
  simp only [Able, List.mem_cons, Prod.mk.injEq]
  constructor
  · rintro ⟨rfl, c, (⟨rfl, rfl⟩ | hm), hn, hc⟩
    · exact .inl ⟨rfl, rfl, hn, hc⟩
    · exact .inr ⟨rfl, c, hm, hn, hc⟩
  · rintro (⟨rfl, rfl, hn, hc⟩ | ⟨rfl, c, hm, hn, hc⟩)
    · exact ⟨rfl, cals, .inl ⟨rfl, rfl⟩, hn, hc⟩
    · exact ⟨rfl, c, .inr hm, hn, hc⟩

theorem taskLoop_ok {D : Data} {task : Nat} {us : Dict String (List (List Bool))} :
    ∀ {vs : List Var} {rows : List (Row Var)} {r : List Var × List (Row Var)}, (us.map Prod.fst).Nodup → vs.Nodup →
      (∀ v, v ∈ vs → v.1 ∉ us.map Prod.fst) → taskLoop D task us vs rows = .ok r →
      r.1.Nodup ∧ (∀ v, v ∈ r.1 ↔ v ∈ vs ∨ Able D task us v) ∧
      ∀ a, (∀ x, x ∈ r.2 → x.Holds a) ↔ (∀ x, x ∈ rows → x.Holds a) ∧
        ∀ k cals, (k, cals) ∈ us → 0 < D.need task k → ((r.1.filter (fun v => v.1 = k)).map a).sum = D.need task k := by
  induction us with
  | nil =>
    intro vs rows r _ hv _ h
    simp only [taskLoop, Except.ok.injEq] at h
    subst h
    refine ⟨hv, ?_, ?_⟩ <;> simp [Able]
  | cons u us ih =>
    obtain ⟨k, cals⟩ := u
    intro vs rows r hk hv hd h
    rw [List.map_cons, List.nodup_cons] at hk
    simp only [taskLoop] at h
    split at h
    · next hn =>
      cases hf : keysFrom D k task 0 cals with
      | error e => rw [hf] at h; cases h
      | ok new =>
        rw [hf] at h
        simp only at h
        split at h
        · cases h
        · obtain ⟨hk1, hk2⟩ := keysFrom_ok hf
          have hvn : (vs ++ new).Nodup := by
            refine List.nodup_append.2 ⟨hv, hk1, ?_⟩
            rintro x hx y hy rfl
            exact hd x hx (by rw [((hk2 x).1 hy).1]; simp)
          obtain ⟨h1, h2, h3⟩ := ih hk.2 hvn (by
            intro v hm
            rcases List.mem_append.1 hm with hm | hm
            · intro hc; exact hd v hm (List.mem_cons_of_mem _ hc)
            · rw [((hk2 v).1 hm).1]; exact hk.1) h
          have hmem : ∀ v, v ∈ r.1 ↔ v ∈ vs ∨ Able D task ((k, cals) :: us) v := by
            intro v
            rw [h2, List.mem_append, able_cons, hk2, or_assoc]
            simp only [Nat.zero_le, true_and, Nat.sub_zero, hn]
          refine ⟨h1, hmem, ?_⟩
          intro a
          have hperm : List.Perm ((vs ++ new).filter (fun v => v.1 = k)) (r.1.filter (fun v => v.1 = k)) := by
            refine (List.perm_ext_iff_of_nodup (hvn.filter _) (h1.filter _)).2 ?_
            intro v
            simp only [List.mem_filter, decide_eq_true_eq, h2]
            constructor
            · rintro ⟨hm, hv⟩; exact ⟨.inl hm, hv⟩
            · rintro ⟨hm | ⟨_, c, hc, _⟩, hv⟩
              · exact ⟨hm, hv⟩
              · exact absurd (List.mem_map.2 ⟨_, hc, rfl⟩) (by rw [hv]; exact hk.1)
          have hrow : Row.Holds (⟨((vs ++ new).filter (fun v => v.1 = k)).map (fun v => (1, v)), .eq, D.need task k⟩ : Row Var) a ↔
              ((r.1.filter (fun v => v.1 = k)).map a).sum = D.need task k := by
            rw [← (hperm.map a).sum_eq]
            simp only [Row.Holds, value_map, Int.one_mul]
          rw [h3 a]
          simp only [List.mem_append, List.mem_cons, List.not_mem_nil, or_false, Prod.mk.injEq]
          constructor
          · rintro ⟨hr, hs⟩
            refine ⟨fun x hx => hr x (.inl hx), ?_⟩
            rintro k' c (⟨rfl, rfl⟩ | hm) hn'
            · exact hrow.1 (hr _ (.inr rfl))
            · exact hs k' c hm hn'
          · rintro ⟨hr, hs⟩
            refine ⟨?_, fun k' c hm hn' => hs k' c (.inr hm) hn'⟩
            rintro x (hx | rfl)
            · exact hr x hx
            · exact hrow.2 (hs k cals (.inl ⟨rfl, rfl⟩) hn)
    · next hn =>
      obtain ⟨h1, h2, h3⟩ := ih hk.2 hv (fun v hm hc => hd v hm (List.mem_cons_of_mem _ hc)) h
      refine ⟨h1, ?_, ?_⟩
      · intro v
        rw [h2, able_cons]
        simp [hn]
      · intro a
        rw [h3 a]
        simp only [List.mem_cons, Prod.mk.injEq]
        constructor
        · rintro ⟨hr, hs⟩
          refine ⟨hr, ?_⟩
          rintro k' c (⟨rfl, rfl⟩ | hm) hn'
          · exact absurd hn' hn
          · exact hs k' c hm hn'
        · rintro ⟨hr, hs⟩
          exact ⟨hr, fun k' c hm hn' => hs k' c (.inr hm) hn'⟩

theorem jobsLoop_ok {D : Data} (hk : (D.units.map Prod.fst).Nodup) {ts : List Nat} :
    ∀ {vs : List Var} {rows : List (Row Var)} {r : List Var × List (Row Var)}, ts.Nodup → vs.Nodup →
      (∀ v, v ∈ vs → v.2.2 ∉ ts) → jobsLoop D ts vs rows = .ok r →
      r.1.Nodup ∧ (∀ v, v ∈ r.1 ↔ v ∈ vs ∨ (v.2.2 ∈ ts ∧ Able D v.2.2 D.units v)) ∧
      ∀ a, (∀ x, x ∈ r.2 → x.Holds a) ↔ (∀ x, x ∈ rows → x.Holds a) ∧
        ∀ t, t ∈ ts → ∀ k cals, (k, cals) ∈ D.units → 0 < D.need t k →
          ((r.1.filter (fun v => v.1 = k ∧ v.2.2 = t)).map a).sum = D.need t k := by
  induction ts with
  | nil =>
    intro vs rows r _ hv _ h
    simp only [jobsLoop, Except.ok.injEq] at h
    subst h
    refine ⟨hv, ?_, ?_⟩ <;> simp
  | cons t ts ih =>
    intro vs rows r hts hv hd h
    rw [List.nodup_cons] at hts
    simp only [jobsLoop] at h
    cases hf : taskLoop D t D.units [] [] with
    | error e => rw [hf] at h; cases h
    | ok q =>
      rw [hf] at h
      replace h : jobsLoop D ts (vs ++ q.1) (rows ++ q.2) = .ok r := h
      obtain ⟨h1, h2, h3⟩ := taskLoop_ok hk List.nodup_nil (by simp) hf
      have hq : ∀ v, v ∈ q.1 ↔ Able D t D.units v := by intro v; rw [h2]; simp
      have hvn : (vs ++ q.1).Nodup := by
        refine List.nodup_append.2 ⟨hv, h1, ?_⟩
        rintro x hx y hy rfl
        exact hd x hx (by rw [((hq x).1 hy).1]; simp)
      obtain ⟨g1, g2, g3⟩ := ih hts.2 hvn (by
        intro v hm
        rcases List.mem_append.1 hm with hm | hm
        · intro hc; exact hd v hm (List.mem_cons_of_mem _ hc)
        · rw [((hq v).1 hm).1]; exact hts.1) h
      refine ⟨g1, ?_, ?_⟩
      · intro v
        rw [g2, List.mem_append, hq, or_assoc, List.mem_cons]
        constructor
        · rintro (h | h | ⟨h, h'⟩)
          · exact .inl h
          · exact .inr ⟨.inl h.1, by rw [h.1]; exact h⟩
          · exact .inr ⟨.inr h, h'⟩
        · rintro (h | ⟨h | h, h'⟩)
          · exact .inl h
          · exact .inr (.inl (by rw [h] at h'; exact h'))
          · exact .inr (.inr ⟨h, h'⟩)
      · intro a
        rw [g3 a]
        have hperm : ∀ k, List.Perm (q.1.filter (fun v => v.1 = k)) (r.1.filter (fun v => v.1 = k ∧ v.2.2 = t)) := by
          intro k
          refine (List.perm_ext_iff_of_nodup (h1.filter _) (g1.filter _)).2 ?_
          intro v
          simp only [List.mem_filter, decide_eq_true_eq, g2, List.mem_append]
          constructor
          · rintro ⟨hm, hv⟩; exact ⟨.inl (.inr hm), hv, ((hq v).1 hm).1⟩
          · rintro ⟨(hm | hm) | ⟨hm, _⟩, hv, ht⟩
            · exact absurd (show v.2.2 ∈ t :: ts by rw [ht]; simp) (hd v hm)
            · exact ⟨hm, hv⟩
            · rw [ht] at hm; exact absurd hm hts.1
        have hq3 := h3 a
        simp only [List.not_mem_nil, false_imp_iff, implies_true, true_and] at hq3
        simp only [List.mem_append, List.mem_cons]
        constructor
        · rintro ⟨hr, hs⟩
          refine ⟨fun x hx => hr x (.inl hx), ?_⟩
          rintro t' (rfl | hm) k c hc hn
          · rw [← ((hperm k).map a).sum_eq]
            exact hq3.1 (fun x hx => hr x (.inr hx)) k c hc hn
          · exact hs t' hm k c hc hn
        · rintro ⟨hr, hs⟩
          refine ⟨?_, fun t' hm => hs t' (.inr hm)⟩
          rintro x (hx | hx)
          · exact hr x hx
          · refine hq3.2 ?_ x hx
            intro k c hc hn
            rw [((hperm k).map a).sum_eq]
            exact hs t (.inl rfl) k c hc hn

/-- The rows of the cliques. -/
theorem overlap_holds {cliques : List (List Nat)} {vs : List Var} (hv : vs.Nodup) {a : Var → Int} (h01 : ∀ v, v ∈ vs → a v = 0 ∨ a v = 1) :
    (∀ x, x ∈ overlapRows cliques vs → x.Holds a) ↔
      ∀ c, c ∈ cliques → ∀ k i t t', (k, i, t) ∈ vs → (k, i, t') ∈ vs → t ∈ c → t' ∈ c →
        a (k, i, t) = 1 → a (k, i, t') = 1 → t = t' := by
  have hrow : ∀ c q, (∀ x, overlapRow vs c q = some x → x.Holds a) ↔
      ∀ x, x ∈ vs.filter (fun v => v.1 = q.1 ∧ v.2.1 = q.2 ∧ v.2.2 ∈ c) →
        ∀ y, y ∈ vs.filter (fun v => v.1 = q.1 ∧ v.2.1 = q.2 ∧ v.2.2 ∈ c) → a x = 1 → a y = 1 → x = y := by
    intro c q
    rw [← MsLp.sum_le_one (hv.filter _) (fun x hx => h01 x (List.mem_filter.1 hx).1)]
    simp only [overlapRow]
    split
    · next h => rw [h]; simp
    · simp [Row.Holds, value_map]
  constructor
  · intro h c hc k i t t' h1 h2 ht ht' ha ha'
    have hq := (hrow c (k, i)).1 (by
      intro x hx
      refine h x (List.mem_flatMap.2 ⟨c, hc, List.mem_filterMap.2 ⟨(k, i), List.mem_map.2 ⟨_, h1, rfl⟩, hx⟩⟩))
    have := hq (k, i, t) (List.mem_filter.2 ⟨h1, by simp [ht]⟩) (k, i, t') (List.mem_filter.2 ⟨h2, by simp [ht']⟩) ha ha'
    simp only [Prod.mk.injEq, true_and] at this
    exact this
  · intro h x hx
    obtain ⟨c, hc, hx⟩ := List.mem_flatMap.1 hx
    obtain ⟨q, _, hx⟩ := List.mem_filterMap.1 hx
    refine (hrow c q).2 ?_ x hx
    rintro ⟨k, i, t⟩ h1 ⟨k', i', t'⟩ h2 ha ha'
    simp only [List.mem_filter, decide_eq_true_eq] at h1 h2
    obtain ⟨h1, rfl, rfl, h3⟩ := h1
    obtain ⟨h2, rfl, rfl, h4⟩ := h2
    rw [h c hc _ _ t t' h1 h2 h3 h4 ha ha']

/-- Numbers 0 and 1 add up to the number of ones. -/
theorem sum_count {α : Type} {l : List α} {f : α → Int} (h01 : ∀ x, x ∈ l → f x = 0 ∨ f x = 1) :
    (l.map f).sum = ((l.filter (fun x => f x = 1)).length : Int) := by
  induction l with
  | nil => rfl
  | cons x l ih =>
    rw [List.map_cons, List.sum_cons, ih (fun y hy => h01 y (List.mem_cons_of_mem _ hy))]
    rcases h01 x (by simp) with h | h <;> simp [List.filter_cons, h]
    omega

theorem free_long {cal : List Bool} {s e : Nat} (h : e ≤ cal.length) : ∃ b, free cal s e = .ok b := by
  have hok : mapE (fun d => pyGet cal (s + d)) (List.range (e - s)) = .ok ((List.range (e - s)).map (fun d => (cal[s + d]?).getD false)) := by
    refine mapE_ok ?_
    intro d hd
    have h2 := List.mem_range.1 hd
    have hlt : s + d < cal.length := by omega
    simp [pyGet, List.getElem?_eq_getElem hlt]
  unfold free
  rw [hok]
  exact ⟨_, rfl⟩

/-- The calendar says no at some time from `s` to before `e`. -/
def Busy (cal : List Bool) (s e : Nat) : Prop := ∃ m, s ≤ m ∧ m < e ∧ cal[m]? = some false

theorem not_open {cal : List Bool} {s e : Nat} (h : e ≤ cal.length) : ¬ Open cal s e ↔ Busy cal s e := by
  constructor
  · intro hn
    by_contra hb
    refine hn ?_
    intro t h1 h2
    have hlt : t < cal.length := by omega
    rw [List.getElem?_eq_getElem hlt]
    cases hc : cal[t] with
    | true => rfl
    | false => exact absurd ⟨t, h1, h2, by rw [List.getElem?_eq_getElem hlt, hc]⟩ hb
  · rintro ⟨m, h1, h2, h3⟩ ho
    rw [ho m h1 h2] at h3
    cases h3

/-- Nobody is free for the first resource needed. -/
def Short (D : Data) (t : Nat) : Dict String (List (List Bool)) → Prop
  | [] => False
  | (k, cals) :: us => if 0 < D.need t k then ∀ cal, cal ∈ cals → Busy cal (D.time t).1 (D.time t).2 else Short D t us

theorem short_iff {D : Data} {t : Nat} {us : Dict String (List (List Bool))} :
    Short D t us ↔ ∃ pre k cals post, us = pre ++ (k, cals) :: post ∧ (∀ x, x ∈ pre → D.need t x.1 ≤ 0) ∧ 0 < D.need t k ∧
      ∀ cal, cal ∈ cals → Busy cal (D.time t).1 (D.time t).2 := by
  induction us with
  | nil => simp [Short]
  | cons u us ih =>
    obtain ⟨k, cals⟩ := u
    simp only [Short]
    split
    · next hn =>
      constructor
      · intro h; exact ⟨[], k, cals, us, rfl, by simp, hn, h⟩
      · rintro ⟨pre, k', cals', post, h1, h2, h3, h4⟩
        cases pre with
        | nil => cases h1; exact h4
        | cons x pre =>
          cases h1
          have := h2 (k, cals) (by simp)
          simp only at this
          omega
    · next hn =>
      rw [ih]
      constructor
      · rintro ⟨pre, k', cals', post, rfl, h2, h3, h4⟩
        refine ⟨(k, cals) :: pre, k', cals', post, rfl, ?_, h3, h4⟩
        intro x hx
        rcases List.mem_cons.1 hx with rfl | hx
        · simp only; omega
        · exact h2 x hx
      · rintro ⟨pre, k', cals', post, h1, h2, h3, h4⟩
        cases pre with
        | nil => cases h1; exact absurd h3 hn
        | cons x pre =>
          cases h1
          exact ⟨pre, k', cals', post, rfl, fun y hy => h2 y (List.mem_cons_of_mem _ hy), h3, h4⟩

theorem keysFrom_long {D : Data} {k : String} {t : Nat} {cals : List (List Bool)} (h : ∀ cal, cal ∈ cals → (D.time t).2 ≤ cal.length) :
    ∀ i, ∃ new, keysFrom D k t i cals = .ok new := by
  induction cals with
  | nil => intro i; exact ⟨[], rfl⟩
  | cons cal cals ih =>
    intro i
    obtain ⟨b, hb⟩ := free_long (s := (D.time t).1) (h cal (by simp))
    obtain ⟨r, hr⟩ := ih (fun c hc => h c (List.mem_cons_of_mem _ hc)) (i + 1)
    simp only [keysFrom]
    rw [hb, hr]
    exact ⟨_, rfl⟩

theorem keysFrom_nil {D : Data} {k : String} {t : Nat} {cals : List (List Bool)} (h : ∀ cal, cal ∈ cals → (D.time t).2 ≤ cal.length)
    {new : List Var} (hk : keysFrom D k t 0 cals = .ok new) : new = [] ↔ ∀ cal, cal ∈ cals → Busy cal (D.time t).1 (D.time t).2 := by
  obtain ⟨_, hm⟩ := keysFrom_ok hk
  constructor
  · rintro rfl cal hc
    rw [← not_open (h cal hc)]
    intro ho
    obtain ⟨i, hi⟩ := List.getElem?_of_mem hc
    exact absurd ((hm (k, i, t)).2 ⟨rfl, rfl, Nat.zero_le _, cal, hi, ho⟩) (by simp)
  · intro hb
    refine List.eq_nil_iff_forall_not_mem.2 ?_
    intro v hv
    obtain ⟨_, _, _, cal, hc, ho⟩ := (hm v).1 hv
    have hmem := List.mem_of_getElem? hc
    exact (not_open (h cal hmem)).2 (hb cal hmem) ho

theorem taskLoop_cases {D : Data} {t : Nat} {us : Dict String (List (List Bool))}
    (h : ∀ k cals, (k, cals) ∈ us → ∀ cal, cal ∈ cals → (D.time t).2 ≤ cal.length) :
    ∀ (vs : List Var) (rows : List (Row Var)), (taskLoop D t us vs rows = .error .keyError ∧ vs = [] ∧ Short D t us) ∨
      ((∃ r, taskLoop D t us vs rows = .ok r) ∧ ¬ (vs = [] ∧ Short D t us)) := by
  induction us with
  | nil => intro vs rows; exact .inr ⟨⟨_, rfl⟩, by simp [Short]⟩
  | cons u us ih =>
    obtain ⟨k, cals⟩ := u
    intro vs rows
    have ih := ih (fun k' c hc => h k' c (List.mem_cons_of_mem _ hc))
    simp only [taskLoop, Short]
    split
    · have hl := h k cals (by simp)
      obtain ⟨new, hnew⟩ := keysFrom_long (k := k) hl 0
      rw [hnew]
      simp only
      split
      · next he =>
        obtain ⟨h1, h2⟩ := List.append_eq_nil_iff.1 he
        exact .inl ⟨rfl, h1, (keysFrom_nil hl hnew).1 h2⟩
      · next he =>
        right
        rcases ih (vs ++ new) (rows ++ [⟨((vs ++ new).filter (fun v => v.1 = k)).map (fun v => (1, v)), .eq, D.need t k⟩]) with ⟨_, h2, _⟩ | ⟨h1, _⟩
        · exact absurd h2 he
        · refine ⟨h1, ?_⟩
          rintro ⟨rfl, hb⟩
          exact he (by rw [(keysFrom_nil hl hnew).2 hb]; rfl)
    · exact ih vs rows

end Verif.GanttLp
