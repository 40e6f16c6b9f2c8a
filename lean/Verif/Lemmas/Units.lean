import Verif.Lemmas.Views
import Mathlib.Data.List.Perm.Subperm
/- Lemmas about the schedules of the units of a resource. -/
namespace Verif.Views
open Rcpsp

theorem firstMin_spec (f : Nat → Nat) (l : List Nat) :
    (l = [] ∧ firstMin f l = none) ∨ ∃ i, firstMin f l = some i ∧ i ∈ l ∧ ∀ j ∈ l, f i ≤ f j := by
  induction l with
  | nil => exact .inl ⟨rfl, rfl⟩
  | cons x xs ih =>
    right
    simp only [firstMin]
    rcases ih with ⟨rfl, h⟩ | ⟨y, h, hy, hmin⟩
    · rw [h]
      exact ⟨x, rfl, List.mem_cons_self, by simp⟩
    · rw [h]
      simp only
      split
      · rename_i hlt
        refine ⟨y, rfl, List.mem_cons_of_mem _ hy, ?_⟩
        intro j hj
        rcases List.mem_cons.1 hj with rfl | hj
        · omega
        · exact hmin j hj
      · rename_i hlt
        refine ⟨x, rfl, List.mem_cons_self, ?_⟩
        intro j hj
        rcases List.mem_cons.1 hj with rfl | hj
        · omega
        · have := hmin j hj; omega

/-- An activity with its time indices and the number of units it needs. -/
structure Job where
  act : Nat
  x : Nat
  y : Nat
  n : Nat

theorem mem_freeUnits {units : List Nat} {x : Nat} {u : Usage} {i : Nat} :
    i ∈ freeUnits units x u ↔ i ∈ units ∧ u.activity x i = 0 := by
  simp [freeUnits]

/-- What one activity does to the arrays: some units, free at its start, are booked. -/
theorem assign_spec (units : List Nat) (hu : units.Nodup) (act x y : Nat) (hact : act ≠ 0) (hxy : x < y) (n : Nat) (u : Usage) :
    ∃ S : List Nat, S.Nodup ∧ S.length = min n (freeUnits units x u).length ∧ (∀ i ∈ S, i ∈ freeUnits units x u) ∧
      (∀ t i, (assign units act x y n u).activity t i = if i ∈ S ∧ x ≤ t ∧ t < y then act else u.activity t i) ∧
      ∀ i, (assign units act x y n u).total i = if i ∈ S then u.total i + (y - x) else u.total i := by
  induction n generalizing u with
  | zero => exact ⟨[], by simp, by simp, by simp, by simp [assign], by simp [assign]⟩
  | succ n ih =>
    rcases firstMin_spec u.total (freeUnits units x u) with ⟨hnil, hf⟩ | ⟨i, hf, hi, -⟩
    · refine ⟨[], by simp, by simp [hnil], by simp, ?_, ?_⟩
      · intro t i
        simp only [assign, hf]
        simp
      · intro i
        simp only [assign, hf]
        simp
    · obtain ⟨S, h1, h2, h3, h4, h5⟩ := ih (book act x y i u)
      have hfree : freeUnits units x (book act x y i u) = (freeUnits units x u).erase i := by
        have hnd : (freeUnits units x u).Nodup := List.Pairwise.filter _ hu
        rw [hnd.erase_eq_filter]
        unfold freeUnits
        rw [List.filter_filter]
        apply List.filter_congr
        intro j _
        simp only [book]
        by_cases hji : j = i
        · subst hji
          simp [hxy, hact]
        · simp [hji]
      have hiS : i ∉ S := by
        intro h
        have := h3 i h
        rw [mem_freeUnits] at this
        have h0 := this.2
        simp only [book] at h0
        rw [if_pos ⟨trivial, Nat.le_refl _, hxy⟩] at h0
        exact hact h0
      refine ⟨i :: S, List.nodup_cons.2 ⟨hiS, h1⟩, ?_, ?_, ?_, ?_⟩
      · rw [List.length_cons, h2, hfree, List.length_erase_of_mem hi]
        have : 0 < (freeUnits units x u).length := List.length_pos_of_mem hi
        omega
      · intro j hj
        rcases List.mem_cons.1 hj with rfl | hj
        · exact hi
        · have := h3 j hj
          rw [hfree] at this
          exact List.mem_of_mem_erase this
      · intro t j
        simp only [assign, hf]
        rw [h4]
        simp only [book, List.mem_cons]
        by_cases hji : j = i
        · subst hji
          simp only [hiS, false_and, if_false, true_and, true_or]
        · simp only [hji, false_and, if_false, false_or]
      · intro j
        simp only [assign, hf]
        rw [h5]
        simp only [book, List.mem_cons]
        by_cases hji : j = i
        · subst hji
          simp only [hiS, if_false, if_true, true_or]
        · simp only [hji, if_false, false_or]

/-- The activities of a list one after the other. -/
def runJobs (units : List Nat) : List Job → Usage → Usage
  | [], u => u
  | j :: js, u => runJobs units js (assign units j.act j.x j.y j.n u)

/-- The arrays after the activities `done`. -/
structure Inv (units : List Nat) (T : Nat) (done : List Job) (u : Usage) : Prop where
  own : ∀ t i, u.activity t i ≠ 0 → i ∈ units ∧ ∃ j ∈ done, j.act = u.activity t i ∧ j.x ≤ t ∧ t < j.y ∧
    ∀ t', j.x ≤ t' → t' < j.y → u.activity t' i = j.act
  count : ∀ j ∈ done, ∀ t, j.x ≤ t → t < j.y →
    (units.filter (fun i => u.activity t i == j.act)).length = j.n
  total : ∀ i, u.total i = ((List.range T).filter (fun t => u.activity t i != 0)).length

/-- The number of busy units is at most the sum of what the running activities need. -/
theorem busy_le (f : Nat → Nat) (js : List Job) (l : List Nat) (h : ∀ i ∈ l, ∃ j ∈ js, j.act = f i) :
    l.length ≤ (js.map (fun j => (l.filter (fun i => f i == j.act)).length)).sum := by
  induction js generalizing l with
  | nil =>
    cases l with
    | nil => simp
    | cons i is => obtain ⟨j, hj, -⟩ := h i List.mem_cons_self; simp at hj
  | cons j js ih =>
    have hsplit : l.length = (l.filter (fun i => f i == j.act)).length + (l.filter (fun i => !(f i == j.act))).length := by
      have := List.length_eq_length_filter_add (l := l) (fun i => f i == j.act)
      simpa using this
    have hrest := ih (l.filter (fun i => !(f i == j.act))) (by
      intro i hi
      obtain ⟨hi1, hi2⟩ := List.mem_filter.1 hi
      obtain ⟨k, hk, hka⟩ := h i hi1
      rcases List.mem_cons.1 hk with rfl | hk
      · rw [← hka] at hi2; simp at hi2
      · exact ⟨k, hk, hka⟩)
    have hle : (js.map (fun k => ((l.filter (fun i => !(f i == j.act))).filter (fun i => f i == k.act)).length)).sum ≤
        (js.map (fun k => (l.filter (fun i => f i == k.act)).length)).sum := by
      clear ih hrest hsplit h
      induction js with
      | nil => simp
      | cons k ks ihk =>
        simp only [List.map_cons, List.sum_cons]
        have : ((l.filter (fun i => !(f i == j.act))).filter (fun i => f i == k.act)).length ≤
            (l.filter (fun i => f i == k.act)).length := by
          rw [List.filter_filter]
          have hs : (l.filter (fun a => (f a == k.act) && !(f a == j.act))).Sublist (l.filter (fun i => f i == k.act)) := by
            rw [← List.filter_filter]
            rw [List.filter_filter, show (fun a => (f a == k.act) && !(f a == j.act)) =
              (fun a => !(f a == j.act) && (f a == k.act)) from by funext a; exact Bool.and_comm _ _, ← List.filter_filter]
            exact List.filter_sublist
          exact hs.length_le
        omega
    simp only [List.map_cons, List.sum_cons]
    omega

theorem range_count (T : Nat) (p : Nat → Bool) (x y : Nat) (hxy : x ≤ y) (hy : y ≤ T)
    (h : ∀ t, x ≤ t → t < y → p t = false) :
    ((List.range T).filter (fun t => decide (x ≤ t ∧ t < y) || p t)).length =
      ((List.range T).filter p).length + (y - x) := by
  induction T with
  | zero => simp; omega
  | succ T ih =>
    rw [List.range_succ, List.filter_append, List.filter_append, List.length_append, List.length_append]
    by_cases hyT : y ≤ T
    · rw [ih hyT]
      have : decide (x ≤ T ∧ T < y) = false := by simp; omega
      simp only [List.filter_cons, this, Bool.false_or, List.filter_nil]
      omega
    · have hyT' : y = T + 1 := by omega
      subst hyT'
      by_cases hxT : x ≤ T
      · have hp := h T hxT (by omega)
        simp only [List.filter_cons, hp, List.filter_nil, Bool.or_false]
        have hd : decide (x ≤ T ∧ T < T + 1) = true := by simp [hxT]
        rw [hd]
        simp only [if_true, Bool.false_eq_true, if_false, List.length_cons, List.length_nil]
        have hpre : ((List.range T).filter (fun t => decide (x ≤ t ∧ t < T + 1) || p t)).length =
            ((List.range T).filter p).length + (T - x) := by
          have := fun (ih' : ∀ t, x ≤ t → t < T → p t = false) => ih
          clear ih this
          -- the same count with the interval cut at T
          have heq : (List.range T).filter (fun t => decide (x ≤ t ∧ t < T + 1) || p t) =
              (List.range T).filter (fun t => decide (x ≤ t ∧ t < T) || p t) := by
            apply List.filter_congr
            intro t ht
            have : t < T := List.mem_range.1 ht
            congr 1
            apply decide_eq_decide.2
            omega
          rw [heq]
          clear heq hd hp
          have gen : ∀ (n : Nat), n ≤ T → x ≤ n →
              ((List.range n).filter (fun t => decide (x ≤ t ∧ t < T) || p t)).length =
                ((List.range n).filter p).length + (n - x) := by
            intro n
            induction n with
            | zero => intro _ _; simp
            | succ n ihn =>
              intro hn hxn
              rw [List.range_succ, List.filter_append, List.filter_append, List.length_append, List.length_append]
              by_cases hx : x ≤ n
              · rw [ihn (by omega) hx]
                have hp := h n hx (by omega)
                have hd : decide (x ≤ n ∧ n < T) = true := by simp; omega
                simp only [List.filter_cons, hp, hd, Bool.true_or, if_true, List.filter_nil, List.length_cons,
                  List.length_nil, Bool.false_eq_true, if_false]
                omega
              · have hxe : x = n + 1 := by omega
                subst hxe
                have hnone : ∀ m, m ≤ n + 1 → ((List.range m).filter (fun t => decide (n + 1 ≤ t ∧ t < T) || p t)) =
                    (List.range m).filter p := by
                  intro m hm
                  apply List.filter_congr
                  intro t ht
                  have : t < m := List.mem_range.1 ht
                  have : decide (n + 1 ≤ t ∧ t < T) = false := by simp; omega
                  rw [this, Bool.false_or]
                have h1 := hnone n (by omega)
                rw [h1]
                have hd : decide (n + 1 ≤ n ∧ n < T) = false := by simp
                simp only [List.filter_cons, hd, Bool.false_or, List.filter_nil]
                omega
          exact gen T (Nat.le_refl _) hxT
        rw [hpre]
        omega
      · have hxe : x = T + 1 := by omega
        subst hxe
        have heq : ∀ m, m ≤ T + 1 → (List.range m).filter (fun t => decide (T + 1 ≤ t ∧ t < T + 1) || p t) =
            (List.range m).filter p := by
          intro m _
          apply List.filter_congr
          intro t _
          have : decide (T + 1 ≤ t ∧ t < T + 1) = false := by simp
          rw [this, Bool.false_or]
        rw [heq T (by omega)]
        have : decide (T + 1 ≤ T ∧ T < T + 1) = false := by simp
        simp only [List.filter_cons, this, Bool.false_or, List.filter_nil]
        omega

/-- One more activity that starts no earlier than the ones before and finds enough free units. -/
theorem inv_step {units : List Nat} (hu : units.Nodup) {T : Nat} {done : List Job} {u : Usage}
    (h : Inv units T done u) (b : Job) (hb0 : b.act ≠ 0) (hbxy : b.x < b.y) (hbT : b.y ≤ T)
    (hd0 : ∀ j ∈ done, j.act ≠ 0) (hnew : ∀ j ∈ done, j.act ≠ b.act) (hord : ∀ j ∈ done, j.x ≤ b.x)
    (hcap : ((done.filter (fun j => decide (j.x ≤ b.x ∧ b.x < j.y))).map Job.n).sum + b.n ≤ units.length) :
    Inv units T (done ++ [b]) (assign units b.act b.x b.y b.n u) := by
  obtain ⟨S, h1, h2, h3, h4, h5⟩ := assign_spec units hu b.act b.x b.y hb0 hbxy b.n u
  -- enough free units
  have hbusy : (units.filter (fun i => u.activity b.x i != 0)).length ≤
      ((done.filter (fun j => decide (j.x ≤ b.x ∧ b.x < j.y))).map Job.n).sum := by
    have hle := busy_le (fun i => u.activity b.x i) (done.filter (fun j => decide (j.x ≤ b.x ∧ b.x < j.y)))
      (units.filter (fun i => u.activity b.x i != 0)) (by
        intro i hi
        obtain ⟨hi1, hi2⟩ := List.mem_filter.1 hi
        obtain ⟨-, j, hj, hja, hx, hy, -⟩ := h.own b.x i (by simpa using hi2)
        exact ⟨j, List.mem_filter.2 ⟨hj, by simp [hx, hy]⟩, hja⟩)
    refine Nat.le_trans hle (Nat.le_of_eq ?_)
    congr 1
    apply List.map_congr_left
    intro j hj
    obtain ⟨hj1, hj2⟩ := List.mem_filter.1 hj
    simp only [decide_eq_true_eq] at hj2
    rw [List.filter_filter, ← h.count j hj1 b.x hj2.1 hj2.2]
    congr 1
    apply List.filter_congr
    intro i _
    by_cases he : u.activity b.x i = j.act
    · rw [he]; simp [hd0 j hj1]
    · simp [he]
  have hfree : b.n ≤ (freeUnits units b.x u).length := by
    have hs := List.length_eq_length_filter_add (l := units) (fun i => u.activity b.x i == 0)
    have he : (units.filter (fun i => !(u.activity b.x i == 0))) = units.filter (fun i => u.activity b.x i != 0) := rfl
    rw [he] at hs
    unfold freeUnits
    omega
  have hSn : S.length = b.n := by rw [h2]; omega
  -- a unit free at the start is free from then on
  have hlater : ∀ i ∈ S, ∀ t, b.x ≤ t → u.activity t i = 0 := by
    intro i hi t ht
    apply Classical.byContradiction
    intro hne
    obtain ⟨-, j, hj, hja, hx, hy, hall⟩ := h.own t i hne
    have := hall b.x (hord j hj) (by omega)
    have hz := (mem_freeUnits.1 (h3 i hi)).2
    rw [hz] at this
    exact hd0 j hj this.symm
  have hnoact : ∀ t i, u.activity t i ≠ b.act := by
    intro t i he
    obtain ⟨-, j, hj, hja, -⟩ := h.own t i (by rw [he]; exact hb0)
    exact hnew j hj (by rw [hja, he])
  constructor
  · intro t i hne
    rw [h4] at hne ⊢
    by_cases hc : i ∈ S ∧ b.x ≤ t ∧ t < b.y
    · rw [if_pos hc]
      refine ⟨(mem_freeUnits.1 (h3 i hc.1)).1, b, by simp, rfl, hc.2.1, hc.2.2, ?_⟩
      intro t' ht1 ht2
      rw [h4, if_pos ⟨hc.1, ht1, ht2⟩]
    · rw [if_neg hc] at hne ⊢
      obtain ⟨hi, j, hj, hja, hx, hy, hall⟩ := h.own t i hne
      refine ⟨hi, j, List.mem_append_left _ hj, hja, hx, hy, ?_⟩
      intro t' ht1 ht2
      rw [h4, if_neg]
      · exact hall t' ht1 ht2
      · rintro ⟨hiS, hxt, -⟩
        have := hlater i hiS t' hxt
        rw [hall t' ht1 ht2] at this
        exact hd0 j hj this
  · intro j hj t ht1 ht2
    rcases List.mem_append.1 hj with hj | hj
    · rw [← h.count j hj t ht1 ht2]
      congr 1
      apply List.filter_congr
      intro i _
      rw [h4]
      split
      · rename_i hc
        rw [hlater i hc.1 t hc.2.1]
        have e1 : (b.act == j.act) = false := by simp; exact fun he => hnew j hj he.symm
        have e2 : ((0 : Nat) == j.act) = false := by simp; exact fun he => hd0 j hj he.symm
        rw [e1, e2]
      · rfl
    · simp only [List.mem_singleton] at hj
      subst hj
      refine Eq.trans ?_ hSn
      apply List.Perm.length_eq
      rw [List.perm_ext_iff_of_nodup (List.Pairwise.filter _ hu) h1]
      intro i
      rw [List.mem_filter, h4]
      constructor
      · rintro ⟨hi, he⟩
        apply Classical.byContradiction
        intro hiS
        rw [if_neg (fun hc => hiS hc.1)] at he
        exact hnoact t i (by simpa using he)
      · intro hi
        exact ⟨(mem_freeUnits.1 (h3 i hi)).1, by rw [if_pos ⟨hi, ht1, ht2⟩]; simp⟩
  · intro i
    rw [h5, h.total i]
    by_cases hi : i ∈ S
    · rw [if_pos hi]
      rw [← range_count T (fun t => u.activity t i != 0) b.x b.y (by omega) hbT (by
        intro t ht1 _
        rw [hlater i hi t ht1]
        rfl)]
      congr 1
      apply List.filter_congr
      intro t _
      rw [h4]
      by_cases hc : b.x ≤ t ∧ t < b.y
      · rw [if_pos ⟨hi, hc⟩]
        simp [hc, hb0]
      · rw [if_neg (fun hx => hc hx.2)]
        simp [hc]
    · rw [if_neg hi]
      congr 1
      apply List.filter_congr
      intro t _
      rw [h4, if_neg (fun hx => hi hx.1)]

/-- All activities, in the order of their starts. -/
theorem inv_run {units : List Nat} (hu : units.Nodup) {T : Nat} (js : List Job) (done : List Job) (u : Usage)
    (h : Inv units T done u) (hall : ∀ j ∈ done ++ js, j.act ≠ 0 ∧ j.x < j.y ∧ j.y ≤ T)
    (hnd : ((done ++ js).map Job.act).Nodup) (hord : (done ++ js).Pairwise (fun a b => a.x ≤ b.x))
    (hcap : ∀ t, (((done ++ js).filter (fun j => decide (j.x ≤ t ∧ t < j.y))).map Job.n).sum ≤ units.length) :
    Inv units T (done ++ js) (runJobs units js u) := by
  induction js generalizing done u with
  | nil => simpa [runJobs] using h
  | cons b js ih =>
    have hb := hall b (by simp)
    have heq : done ++ b :: js = (done ++ [b]) ++ js := by simp
    have hstep : Inv units T (done ++ [b]) (assign units b.act b.x b.y b.n u) := by
      apply inv_step hu h b hb.1 hb.2.1 hb.2.2
      · exact fun j hj => (hall j (List.mem_append_left _ hj)).1
      · intro j hj he
        rw [List.map_append, List.nodup_append] at hnd
        exact hnd.2.2 j.act (List.mem_map.2 ⟨j, hj, rfl⟩) b.act (List.mem_map.2 ⟨b, List.mem_cons_self, rfl⟩) he
      · intro j hj
        exact (List.pairwise_append.1 hord).2.2 j hj b List.mem_cons_self
      · have := hcap b.x
        rw [List.filter_append, List.map_append, List.sum_append, List.filter_cons] at this
        rw [if_pos (by simp [hb.2.1])] at this
        simp only [List.map_cons, List.sum_cons] at this
        omega
    rw [heq]
    simp only [runJobs]
    apply ih
    · exact hstep
    · rw [← heq]; exact hall
    · rw [← heq]; exact hnd
    · rw [← heq]; exact hord
    · intro t; rw [← heq]; exact hcap t

end Verif.Views
