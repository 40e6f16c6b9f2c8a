import Verif.Props.Uncertain
import Mathlib.Tactic.Ring
import Mathlib.Tactic.Linarith
import Mathlib.Tactic.FieldSimp
import Mathlib.Algebra.BigOperators.Ring.List

/-!
C180: uncertain projects.
-/
namespace Verif.Robust
open Rcpsp Milp

def modeOf (pb : Problem) (j k : Nat) : Option Mode := (pb.modes.get? j).bind (fun ms => ms.get? k)

/-- `mode_details[j][k][key]`. -/
def detOf (pb : Problem) (j k : Nat) (key : String) : Option Int := (modeOf pb j k).bind (fun m => detail m key)

/-- Laws with one entry per key. -/
structure TidyLaws (laws : Laws) : Prop where
  acts : laws.keys.Nodup
  modes : ∀ q ∈ laws, q.2.keys.Nodup ∧ ∀ p ∈ q.2, p.2.keys.Nodup

theorem durOf_eq (pb : Problem) (j k : Nat) : durOf pb j k = detOf pb j k "duration" := by
  unfold durOf detOf modeOf
  cases (pb.modes.get? j).bind (fun ms => ms.get? k) <;> rfl

theorem needOf_eq (pb : Problem) (j k : Nat) {r : String} (h : r ≠ "duration") : needOf pb j k r = detOf pb j k r := by
  unfold needOf detOf modeOf
  cases (pb.modes.get? j).bind (fun ms => ms.get? k) with
  | none => rfl
  | some m => simp [detail, h]

theorem needs_duration {mt : Method} {uniform : Bool} {act mode : Nat} : ∀ {l : Dict String Law} {m m' : Mode},
    applyDetails mt uniform act mode l m = .ok m' → m'.needs.get? "duration" = m.needs.get? "duration"
  | [], m, m', h => by
    simp only [applyDetails, Except.ok.injEq] at h
    rw [h]
  | (key, l0) :: l, m, m', h => by
    simp only [applyDetails, bind_eq_ok] at h
    obtain ⟨d, hd, x, hx, h⟩ := h
    rw [needs_duration h]
    unfold setDetail
    split
    · rfl
    · rename_i hk
      exact Dict.get?_set_ne _ _ (Ne.symm hk)

/-- What happens to each mode. -/
theorem create_modes {pb : Problem} {laws : Laws} {uniform : Bool} {mt : Method} {out : Problem} (hl : TidyLaws laws)
    (h : create pb laws uniform mt = .ok out) :
    out.resources = pb.resources ∧ out.nonRenewable = pb.nonRenewable ∧ out.successors = pb.successors ∧
      out.horizon = pb.horizon ∧ out.multiplier = pb.multiplier ∧ (pb.modes.keys.Nodup → out.modes.keys = pb.modes.keys) ∧
      ∀ j k, (j = 1 ∨ j = pb.sink ∨ (laws.get? j).bind (fun ms => ms.get? k) = none → modeOf out j k = modeOf pb j k) ∧
        ∀ l, ¬ (j = 1 ∨ j = pb.sink) → (laws.get? j).bind (fun ms => ms.get? k) = some l → ∃ m m', modeOf pb j k = some m ∧
          modeOf out j k = some m' ∧ applyDetails mt uniform j k l m = .ok m' := by
  simp only [create, bind_eq_ok, Except.ok.injEq] at h
  obtain ⟨_, -, modes, hm, rfl⟩ := h
  obtain ⟨g1, g2, g3⟩ := applyLaws_spec hl.acts hm
  refine ⟨rfl, rfl, rfl, rfl, rfl, g3, ?_⟩
  intro j k
  unfold modeOf
  dsimp only
  by_cases hj : j = pb.sink ∨ j = 1
  · refine ⟨fun _ => by rw [g1 j (by tauto)], fun l hn => absurd (by tauto) hn⟩
  · cases hg : laws.get? j with
    | none =>
      refine ⟨fun _ => by rw [g1 j (by tauto)], fun l _ hl => by cases hl⟩
    | some ls =>
      obtain ⟨ms, ms', e1, e2, e3⟩ := g2 j ls hj hg
      have hnd := (hl.modes _ (Dict.mem_of_get? hg)).1
      obtain ⟨f1, f2⟩ := applyModes_spec hnd e3 k
      simp only [e1, e2, Option.bind_some]
      refine ⟨fun hc => f1 (by tauto), fun l _ hl => ?_⟩
      obtain ⟨m, m', a, b, c⟩ := f2 l hl
      exact ⟨m, m', a, b, c⟩

/-- What happens to each detail. -/
theorem create_details {pb : Problem} {laws : Laws} {uniform : Bool} {mt : Method} {out : Problem} (hl : TidyLaws laws)
    (h : create pb laws uniform mt = .ok out) (j k : Nat) (key : String) :
    (j = 1 ∨ j = pb.sink ∨ lawOf laws j k key = none → detOf out j k key = detOf pb j k key) ∧
      ∀ l, ¬ (j = 1 ∨ j = pb.sink) → lawOf laws j k key = some l → ∃ d x, dist uniform l = .ok d ∧
        pick mt j k key d = .ok x ∧ detOf out j k key = some (cut key x) := by
  obtain ⟨-, -, -, -, -, -, hm⟩ := create_modes hl h
  obtain ⟨h1, h2⟩ := hm j k
  unfold detOf lawOf
  cases hg : (laws.get? j).bind (fun ms => ms.get? k) with
  | none =>
    refine ⟨fun _ => by rw [h1 (.inr (.inr hg))], fun l _ hl => by cases hl⟩
  | some l =>
    by_cases hj : j = 1 ∨ j = pb.sink
    · exact ⟨fun _ => by rw [h1 (by tauto)], fun l hn => absurd hj hn⟩
    · obtain ⟨m, m', a, b, c⟩ := h2 l hj hg
      have hnd : l.keys.Nodup := by
        obtain ⟨ms, e1, e2⟩ := Option.bind_eq_some_iff.1 hg
        exact (hl.modes _ (Dict.mem_of_get? e1)).2 _ (Dict.mem_of_get? e2)
      obtain ⟨f1, f2⟩ := applyDetails_spec hnd c key
      simp only [a, b, Option.bind_some]
      exact ⟨fun hc => f1 (by tauto), fun law _ hlaw => f2 law hlaw⟩

/-- C180: the values of a law are the integers from its minimum to its maximum, and their probabilities are not negative and
add up to 1; without Poisson, all are equally probable. -/
theorem C180_probabilities {uniform : Bool} {l : Law} {d : Dist} (h : dist uniform l = .ok d) :
    (∀ v, (∃ q, (v, q) ∈ d) ↔ l.lo ≤ v ∧ v ≤ l.hi) ∧ (∀ p ∈ d, 0 ≤ p.2) ∧ (d.map Prod.snd).sum = 1 ∧ l.lo ≤ l.hi ∧
      (uniform = true → ∀ p ∈ d, p.2 = 1 / ((l.hi - l.lo + 1 : Int) : Rat)) := by
  obtain ⟨h1, h2, h3, h4⟩ := dist_spec h
  refine ⟨fun v => ?_, h2, h3, h4, ?_⟩
  · rw [← mem_values, ← h1, List.mem_map]
    constructor
    · rintro ⟨q, hq⟩; exact ⟨(v, q), hq, rfl⟩
    · rintro ⟨⟨w, q⟩, hq, rfl⟩; exact ⟨q, hq⟩
  · rintro rfl p hp
    unfold dist at h
    dsimp only at h
    split at h
    · cases h
    · have h := (Except.ok.inj h).symm
      subst h
      obtain ⟨v, hv, rfl⟩ := List.mem_map.1 hp
      have hs : ((values l).map (weight true l)).sum = ((l.hi - l.lo + 1 : Int) : Rat) := by
        have : (values l).map (weight true l) = List.replicate (values l).length 1 := by
          rw [List.eq_replicate_iff]
          refine ⟨by simp, ?_⟩
          intro b hb
          obtain ⟨a, _, rfl⟩ := List.mem_map.1 hb
          rfl
        rw [this, List.sum_replicate, values_length]
        have hz : ((l.hi - l.lo + 1).toNat : Int) = l.hi - l.lo + 1 := by omega
        rw [nsmul_eq_mul, mul_one]
        exact_mod_cast hz
      dsimp only
      rw [hs]
      rfl

theorem ends {uniform : Bool} {l : Law} {d : Dist} (h : dist uniform l = .ok d) :
    d.head?.map Prod.fst = some l.lo ∧ d.getLast?.map Prod.fst = some l.hi ∧ d ≠ [] := by
  obtain ⟨h1, h2, h3, h4⟩ := dist_spec h
  obtain ⟨g1, g2⟩ := values_head h4
  rw [← h1] at g1 g2
  refine ⟨by simpa using g1, by simpa using g2, ?_⟩
  rintro rfl
  simp at g1

theorem mean_bounds {lo hi : Rat} : ∀ (d : Dist), (∀ p ∈ d, 0 ≤ p.2 ∧ lo ≤ (p.1 : Rat) ∧ (p.1 : Rat) ≤ hi) →
    lo * (d.map Prod.snd).sum ≤ mean d ∧ mean d ≤ hi * (d.map Prod.snd).sum
  | [], _ => by simp [mean]
  | p :: d, h => by
    obtain ⟨a, b, c⟩ := h p (by simp)
    have ih := mean_bounds (lo := lo) (hi := hi) d (fun q hq => h q (List.mem_cons_of_mem _ hq))
    have hm : mean (p :: d) = (p.1 : Rat) * p.2 + mean d := by simp [mean]
    rw [hm]
    simp only [List.map_cons, List.sum_cons]
    have h1 := mul_le_mul_of_nonneg_right b a
    have h2 := mul_le_mul_of_nonneg_right c a
    constructor <;> nlinarith [ih.1, ih.2]

/-- Any case but percentiles. -/
def Fair : Method → Prop
  | .percentile _ => False
  | _ => True

theorem pick_between {uniform : Bool} {l : Law} {d : Dist} {mt : Method} {j k : Nat} {key : String} {x : Int}
    (h : dist uniform l = .ok d) (hf : Fair mt) (hx : pick mt j k key d = .ok x) :
    l.lo ≤ x ∧ x ≤ l.hi ∧ (mt = .worst → x = l.hi) ∧ (mt = .best → x = l.lo) := by
  obtain ⟨h1, h2, h3, h4⟩ := dist_spec h
  obtain ⟨g1, g2, g3⟩ := ends h
  have hmem : ∀ p ∈ d, l.lo ≤ p.1 ∧ p.1 ≤ l.hi := by
    intro p hp
    exact mem_values.1 (h1 ▸ List.mem_map.2 ⟨p, hp, rfl⟩)
  cases mt with
  | average =>
    simp only [pick, Except.ok.injEq] at hx
    have hb := mean_bounds (lo := (l.lo : Rat)) (hi := (l.hi : Rat)) d (fun p hp =>
      ⟨h2 p hp, by exact_mod_cast (hmem p hp).1, by exact_mod_cast (hmem p hp).2⟩)
    rw [h3, mul_one, mul_one] at hb
    have := trunc_bounds hb.1 hb.2
    rw [hx] at this
    exact ⟨this.1, this.2, fun h => (by cases h), fun h => (by cases h)⟩
  | worst =>
    cases hd : d.getLast? with
    | none => simp [hd] at g2
    | some p =>
      rw [hd] at g2
      simp only [pick, hd, Except.ok.injEq] at hx
      simp only [Option.map_some, Option.some.injEq] at g2
      rw [← hx, g2]
      exact ⟨h4, le_refl _, fun _ => rfl, fun h => (by cases h)⟩
  | best =>
    cases hd : d.head? with
    | none => simp [hd] at g1
    | some p =>
      rw [hd] at g1
      simp only [pick, hd, Except.ok.injEq] at hx
      simp only [Option.map_some, Option.some.injEq] at g1
      rw [← hx, g1]
      exact ⟨le_refl _, h4, fun h => (by cases h), fun _ => rfl⟩
  | percentile p => exact absurd hf (by simp [Fair])
  | sample u =>
    simp only [pick] at hx
    split at hx
    · rename_i v hv
      simp only [Except.ok.injEq] at hx
      subst hx
      obtain ⟨pre, q, post, e, -, -⟩ := ppf_spec hv
      have := hmem (v, q) (by rw [e]; simp)
      exact ⟨this.1, this.2, fun h => (by cases h), fun h => (by cases h)⟩
    · cases hx

/-- C180: the project made differs from the base project in the details that have a law and belong to other activities than
source and sink; with averages, worst cases, best cases and samples, each of these is between the minimum and the maximum
of its law; in the worst case it is the maximum, in the best case the minimum. -/
theorem C180_details {pb : Problem} {laws : Laws} {uniform : Bool} {mt : Method} {out : Problem} (hl : TidyLaws laws)
    (h : create pb laws uniform mt = .ok out) (hf : Fair mt) :
    (out.resources = pb.resources ∧ out.nonRenewable = pb.nonRenewable ∧ out.successors = pb.successors ∧
      out.horizon = pb.horizon) ∧ (pb.modes.keys.Nodup → out.modes.keys = pb.modes.keys) ∧
    ∀ j k key, (j = 1 ∨ j = pb.sink ∨ lawOf laws j k key = none → detOf out j k key = detOf pb j k key) ∧
      ∀ l, ¬ (j = 1 ∨ j = pb.sink) → lawOf laws j k key = some l → ∃ x, l.lo ≤ x ∧ x ≤ l.hi ∧
        (mt = .worst → x = l.hi) ∧ (mt = .best → x = l.lo) ∧
        detOf out j k key = some (if key = "duration" then max 0 x else x) := by
  obtain ⟨a, b, c, d, -, e, -⟩ := create_modes hl h
  refine ⟨⟨a, b, c, d⟩, e, ?_⟩
  intro j k key
  obtain ⟨h1, h2⟩ := create_details hl h j k key
  refine ⟨h1, fun l hj hlaw => ?_⟩
  obtain ⟨d, x, e1, e2, e3⟩ := h2 l hj hlaw
  obtain ⟨f1, f2, f3, f4⟩ := pick_between e1 hf e2
  exact ⟨x, f1, f2, f3, f4, e3⟩

/-- C180: starting times valid in the worst case are valid for every sample, for the average and for the best case. -/
theorem C180_worst {pb : Problem} {laws : Laws} {uniform : Bool} {mt : Method} {out bad : Problem} {md : Nat → Nat}
    {start : Nat → Int} (hl : TidyLaws laws) (hn : pb.modes.keys.Nodup) (hbad : create pb laws uniform .worst = .ok bad)
    (h : create pb laws uniform mt = .ok out) (hf : Fair mt)
    (h0 : ∀ j k r c, needOf pb j k r = some c → 0 ≤ c) (h0' : ∀ j k r l, lawOf laws j k r = some l → 0 ≤ l.lo)
    (hv : Valid bad md start) : Valid out md start := by
  obtain ⟨⟨a1, -, a2, -⟩, a3, a4⟩ := C180_details hl hbad (mt := .worst) trivial
  obtain ⟨⟨b1, -, b2, -⟩, b3, b4⟩ := C180_details hl h hf
  obtain ⟨-, -, -, -, -, -, m1⟩ := create_modes hl hbad
  obtain ⟨-, -, -, -, -, -, m2⟩ := create_modes hl h
  -- one detail
  have key : ∀ j k key, (detOf bad j k key = detOf pb j k key ∧ detOf out j k key = detOf pb j k key) ∨
      ∃ x y, 0 ≤ x ∧ x ≤ y ∧ detOf out j k key = some x ∧ detOf bad j k key = some y := by
    intro j k key
    by_cases hj : j = 1 ∨ j = pb.sink
    · left; exact ⟨(a4 j k key).1 (by tauto), (b4 j k key).1 (by tauto)⟩
    · cases hlaw : lawOf laws j k key with
      | none => left; exact ⟨(a4 j k key).1 (by tauto), (b4 j k key).1 (by tauto)⟩
      | some l =>
        right
        obtain ⟨y, f1, f2, f3, -, f5⟩ := (a4 j k key).2 l hj hlaw
        obtain ⟨x, g1, g2, -, -, g5⟩ := (b4 j k key).2 l hj hlaw
        have := h0' j k key l hlaw
        have := f3 rfl
        refine ⟨_, _, ?_, ?_, g5, f5⟩ <;> split <;> omega
  -- a resource called `duration`
  have odd : ∀ (o : Problem) (m : Method), create pb laws uniform m = .ok o → ∀ j k, needOf o j k "duration" = needOf pb j k "duration" := by
    intro o m ho j k
    obtain ⟨-, -, -, -, -, -, mm⟩ := create_modes hl ho
    obtain ⟨n1, n2⟩ := mm j k
    show (modeOf o j k).bind _ = (modeOf pb j k).bind _
    by_cases hj : j = 1 ∨ j = pb.sink
    · rw [n1 (by tauto)]
    · cases hg : (laws.get? j).bind (fun ms => ms.get? k) with
      | none => rw [n1 (by tauto)]
      | some l =>
        obtain ⟨m, m', e1, e2, e3⟩ := n2 l hj hg
        rw [e1, e2]
        exact needs_duration e3
  have hal : Alike bad out := by
    refine ⟨a1.trans b1.symm, a2.trans b2.symm, by rw [a3 hn, b3 hn], ?_, ?_⟩
    · intro j k
      rw [durOf_eq, durOf_eq]
      rcases key j k "duration" with ⟨e1, e2⟩ | ⟨x, y, _, _, e1, e2⟩
      · rw [e1, e2]
      · rw [e1, e2]; simp
    · intro j k r
      by_cases hr : r = "duration"
      · subst hr; rw [odd bad _ hbad, odd out _ h]
      · rw [needOf_eq _ _ _ hr, needOf_eq _ _ _ hr]
        rcases key j k r with ⟨e1, e2⟩ | ⟨x, y, _, _, e1, e2⟩
        · rw [e1, e2]
        · rw [e1, e2]; simp
  refine valid_mono hal ?_ ?_ hv
  · intro j k
    rw [durOf_eq, durOf_eq]
    rcases key j k "duration" with ⟨e1, e2⟩ | ⟨x, y, _, hxy, e1, e2⟩
    · rw [e1, e2]
    · rw [e1, e2]; exact hxy
  · intro j k r
    have base : 0 ≤ (needOf pb j k r).getD 0 := by
      cases hp : needOf pb j k r with
      | none => simp
      | some c => exact h0 j k r c hp
    by_cases hr : r = "duration"
    · subst hr; rw [odd bad _ hbad, odd out _ h]; exact ⟨base, le_refl _⟩
    · rw [needOf_eq _ _ _ hr] at base ⊢
      rw [needOf_eq _ _ _ hr]
      rcases key j k r with ⟨e1, e2⟩ | ⟨x, y, h0x, hxy, e1, e2⟩
      · rw [e1, e2]; exact ⟨base, le_refl _⟩
      · rw [e1, e2]; exact ⟨le_trans h0x hxy, hxy⟩

/-! ### Percentiles and averages -/

/-- P(X ≤ v). -/
def cdf (d : Dist) (v : Int) : Rat := ((d.filter (fun p => decide (p.1 ≤ v))).map Prod.snd).sum

theorem values_sorted (l : Law) : (values l).Pairwise (· < ·) := by
  unfold values
  rw [List.pairwise_map]
  exact List.Pairwise.imp (fun h => by omega) List.pairwise_lt_range

theorem cdf_split {d : Dist} (hs : (d.map Prod.fst).Pairwise (· < ·)) {pre post : Dist} {v : Int} {q : Rat}
    (hd : d = pre ++ (v, q) :: post) : cdf d v = (pre.map Prod.snd).sum + q ∧
      ∀ w, w < v → cdf d w ≤ (pre.map Prod.snd).sum ∨ ∃ p ∈ pre, p.2 < 0 := by
  subst hd
  rw [List.map_append, List.map_cons, List.pairwise_append] at hs
  obtain ⟨-, h2, h3⟩ := hs
  have hpre : ∀ p ∈ pre, p.1 < v := fun p hp => h3 p.1 (List.mem_map.2 ⟨p, hp, rfl⟩) v (by simp)
  have hpost : ∀ p ∈ post, v < p.1 := fun p hp => (List.pairwise_cons.1 h2).1 p.1 (List.mem_map.2 ⟨p, hp, rfl⟩)
  unfold cdf
  constructor
  · rw [List.filter_append, List.filter_cons, if_pos (by simp),
      List.filter_eq_self.2 (fun p hp => by have := hpre p hp; simp; omega),
      List.filter_eq_nil_iff.2 (fun p hp => by have := hpost p hp; simp; omega)]
    simp
  · intro w hw
    rw [List.filter_append, List.filter_cons, if_neg (by simp; omega),
      (List.filter_eq_nil_iff (l := post)).2 (fun p hp => by have := hpost p hp; simp; omega), List.append_nil]
    by_cases hneg : ∃ p ∈ pre, p.2 < 0
    · exact .inr hneg
    · left
      have hnn : ∀ p ∈ pre, 0 ≤ p.2 := fun p hp => by
        by_contra hc; exact hneg ⟨p, hp, lt_of_not_ge hc⟩
      clear h3 h2 hpre hneg
      induction pre with
      | nil => simp
      | cons p pre ih =>
        have ih := ih (fun q hq => hnn q (List.mem_cons_of_mem _ hq))
        have := hnn p (by simp)
        simp only [List.filter_cons]
        split
        · simp only [List.map_cons, List.sum_cons]; linarith
        · simp only [List.map_cons, List.sum_cons]; linarith

/-- What `ppf` is: the smallest value at which the probability is reached. -/
theorem ppf_quantile {uniform : Bool} {l : Law} {d : Dist} (h : dist uniform l = .ok d) {p : Rat} {v : Int} (hp : 0 < p)
    (hv : ppf p 0 d = some v) : l.lo ≤ v ∧ v ≤ l.hi ∧ p ≤ cdf d v ∧ ∀ w, w < v → cdf d w < p := by
  obtain ⟨h1, h2, h3, h4⟩ := dist_spec h
  obtain ⟨pre, q, post, e1, e2, e3⟩ := ppf_spec hv
  have hs : (d.map Prod.fst).Pairwise (· < ·) := h1 ▸ values_sorted l
  obtain ⟨c1, c2⟩ := cdf_split hs e1
  have hm : v ∈ values l := by rw [← h1, e1]; simp
  have hm := mem_values.1 hm
  refine ⟨hm.1, hm.2, by rw [c1]; linarith, ?_⟩
  intro w hw
  rcases c2 w hw with c | ⟨x, hx, hneg⟩
  · rcases e3 with rfl | e3
    · simp only [List.map_nil, List.sum_nil] at c; linarith
    · linarith
  · exact absurd (h2 x (by rw [e1]; simp [hx])) (not_le.2 hneg)

/-- C180: the percentile case is made for percentiles between 0 and 100 (both excluded); it takes the smallest value that
is not exceeded with at least this probability, and 1 when this is less. -/
theorem C180_percentile {uniform : Bool} {l : Law} {d : Dist} (h : dist uniform l = .ok d) {p : Rat} (h0 : 0 < p) (h1 : p < 100)
    (j k : Nat) (key : String) : ∃ v, pick (.percentile p) j k key d = .ok (max v 1) ∧ l.lo ≤ v ∧ v ≤ l.hi ∧
      p / 100 ≤ cdf d v ∧ ∀ w, w < v → cdf d w < p / 100 := by
  obtain ⟨g1, g2, g3⟩ := ends h
  obtain ⟨a1, a2, a3, a4⟩ := dist_spec h
  have hp : 0 < p / 100 := by linarith
  obtain ⟨v, hv⟩ := ppf_total (p := p / 100) (acc := 0) g3 (by rw [a3]; linarith)
  obtain ⟨q1, q2, q3, q4⟩ := ppf_quantile h hp hv
  refine ⟨v, ?_, q1, q2, q3, q4⟩
  cases hd : d with
  | nil => exact absurd hd g3
  | cons x xs =>
    cases hl : (x :: xs).getLast? with
    | none => simp at hl
    | some y =>
      rw [hd] at hv
      simp only [pick, isf, hl]
      rw [if_neg (by push Not; exact ⟨le_of_lt h0, le_of_lt h1⟩), if_neg (ne_of_gt h0), if_neg (ne_of_lt h1), hv]
      rfl

/-- C180: larger percentiles give larger values. -/
theorem C180_percentile_mono {uniform : Bool} {l : Law} {d : Dist} (h : dist uniform l = .ok d) {p p' : Rat} (h0 : 0 < p)
    (hpp : p ≤ p') (h1 : p' < 100) {j k : Nat} {key : String} {x x' : Int}
    (hx : pick (.percentile p) j k key d = .ok x) (hx' : pick (.percentile p') j k key d = .ok x') : x ≤ x' := by
  obtain ⟨v, e1, -, -, q3, q4⟩ := C180_percentile h h0 (lt_of_le_of_lt hpp h1) j k key
  obtain ⟨v', e1', -, -, q3', -⟩ := C180_percentile h (lt_of_lt_of_le h0 hpp) h1 j k key
  rw [e1] at hx; rw [e1'] at hx'
  have hx := Except.ok.inj hx; have hx' := Except.ok.inj hx'
  have : v ≤ v' := by
    by_contra hc
    have := q4 v' (by omega)
    linarith
  omega

theorem sum_range (lo : Rat) : ∀ n : Nat, ((List.range n).map (fun i : Nat => lo + (i : Rat))).sum = n * lo + n * (n - 1) / 2
  | 0 => by simp
  | n + 1 => by
    rw [List.range_succ, List.map_append, List.sum_append, sum_range lo n]
    simp only [List.map_cons, List.map_nil, List.sum_cons, List.sum_nil]
    push_cast
    ring

/-- C180: the average of equally probable values is the middle of the law, cut to an integer. -/
theorem C180_average {l : Law} {d : Dist} (h : dist true l = .ok d) (j k : Nat) (key : String) :
    mean d = ((l.lo : Rat) + l.hi) / 2 ∧ pick .average j k key d = .ok (trunc (((l.lo : Rat) + l.hi) / 2)) ∧
    ∀ m r : Int, l = ⟨m - r, m, m + r⟩ → pick .average j k key d = .ok m := by
  obtain ⟨h1, h2, h3, h4⟩ := dist_spec h
  obtain ⟨-, -, -, -, hu⟩ := C180_probabilities h
  have hu := hu rfl
  have hmean : mean d = ((l.lo : Rat) + l.hi) / 2 := by
    have e1 : mean d = ((values l).map (fun v : Int => (v : Rat) * (1 / ((l.hi - l.lo + 1 : Int) : Rat)))).sum := by
      rw [← h1, List.map_map]
      unfold mean
      congr 1
      refine List.map_congr_left (fun p hp => ?_)
      rw [hu p hp]; rfl
    obtain ⟨n, hn⟩ : ∃ n : Nat, (n : Int) = l.hi - l.lo + 1 := ⟨(l.hi - l.lo + 1).toNat, by omega⟩
    have e2 : (values l).map (fun v : Int => (v : Rat) * (1 / ((l.hi - l.lo + 1 : Int) : Rat))) =
        (List.range n).map (fun i : Nat => ((l.lo : Rat) + (i : Rat)) * (1 / (n : Rat))) := by
      unfold values
      rw [← hn, List.map_map]
      refine List.map_congr_left (fun i _ => ?_)
      simp
    have hn0 : (n : Rat) ≠ 0 := by
      have : n ≠ 0 := by omega
      exact_mod_cast this
    have hq : (l.hi : Rat) = l.lo + n - 1 := by
      have : l.hi = l.lo + n - 1 := by omega
      rw [this]; push_cast; ring
    rw [e1, e2, List.sum_map_mul_right, sum_range, hq]
    field_simp
    ring
  refine ⟨hmean, by simp only [pick, hmean], ?_⟩
  rintro m r rfl
  simp only [pick, hmean]
  have : (((m - r : Int) : Rat) + ((m + r : Int) : Rat)) / 2 = ((m : Int) : Rat) := by push_cast; ring
  rw [this, trunc_int]

/-- An idle activity between source and sink, no machine. -/
def idle : Problem := ⟨[("R1", .const 0)], [], [(1, one 0 0), (2, one 3 0), (3, one 0 0)], [(1, [2]), (2, [3]), (3, [])], 20, 1⟩

/-- C180 refuted: with percentiles, what is not required at all becomes a requirement of one unit, and the project can no
longer be scheduled. -/
theorem C180_percentile_refuted : TidyLaws [(2, [(1, [("R1", (⟨0, 0, 0⟩ : Law))])])] ∧
    (sgs idle [0] [1]).map (·.feasible) = .ok true ∧
    (create idle [(2, [(1, [("R1", ⟨0, 0, 0⟩)])])] true (.percentile 90)).map (fun pb => needOf pb 2 1 "R1") = .ok (some 1) ∧
    (create idle [(2, [(1, [("R1", ⟨0, 0, 0⟩)])])] true (.percentile 90)).bind (fun pb => (sgs pb [0] [1]).map (·.feasible)) = .ok false := by
  refine ⟨⟨by decide, ?_⟩, by decide +kernel, by decide +kernel, by decide +kernel⟩
  intro q hq
  have : q = (2, [(1, [("R1", (⟨0, 0, 0⟩ : Law))])]) := by simpa using hq
  subst this
  exact ⟨by decide, fun p hp => by
    have : p = (1, [("R1", (⟨0, 0, 0⟩ : Law))]) := by simpa using hp
    subst this
    decide⟩

/-- C180 refuted: the average case of the generated laws is not the base project: a duration of 2 with range 3 becomes 3. -/
theorem C180_average_refuted : durOf (trio 2) 2 1 = some 2 ∧
    ((makeLaws (trio 2) 0 3 true true).bind (fun t => create (trio 2) t true .average)).map (fun pb => durOf pb 2 1) = .ok (some 3) := by
  decide +kernel

/-- C180 refuted: the best case of the generated laws can be longer than the base project: an activity without duration gets
the duration 1; with Poisson laws the project cannot be made. -/
theorem C180_best_refuted : durOf (trio 0) 2 1 = some 0 ∧
    ((makeLaws (trio 0) 0 3 true true).bind (fun t => create (trio 0) t true .best)).map (fun pb => durOf pb 2 1) = .ok (some 1) ∧
    ((makeLaws (trio 0) 0 3 true true).bind (fun t => create (trio 0) t false .best)).map (fun pb => durOf pb 2 1) = .error .valueError := by
  decide +kernel

/-- Activity 2 of `trio` lasts 1 to 3. -/
def trioLaws : Laws := [(2, [(1, [("duration", ⟨1, 2, 3⟩)])])]

theorem trioLaws_tidy : TidyLaws trioLaws := by
  refine ⟨by decide, ?_⟩
  intro q hq
  have : q = (2, [(1, [("duration", (⟨1, 2, 3⟩ : Law))])]) := by simpa [trioLaws] using hq
  subst this
  exact ⟨by decide, fun p hp => by
    have : p = (1, [("duration", (⟨1, 2, 3⟩ : Law))]) := by simpa using hp
    subst this
    decide⟩

/-- Worst, average, best, sampled and percentile cases of one law. -/
example : (create (trio 2) trioLaws true .worst).map (fun pb => durOf pb 2 1) = .ok (some 3) ∧
    (create (trio 2) trioLaws true .average).map (fun pb => durOf pb 2 1) = .ok (some 2) ∧
    (create (trio 2) trioLaws true .best).map (fun pb => durOf pb 2 1) = .ok (some 1) ∧
    (create (trio 2) trioLaws true (.sample (fun _ _ _ => 1 / 2))).map (fun pb => durOf pb 2 1) = .ok (some 2) ∧
    (create (trio 2) trioLaws true (.percentile 90)).map (fun pb => durOf pb 2 1) = .ok (some 3) ∧
    (create (trio 2) trioLaws false (.percentile 50)).map (fun pb => durOf pb 2 1) = .ok (some 2) := by
  decide +kernel

def shortLaws : Laws := [(2, [(1, [("duration", ⟨1, 1, 2⟩)])])]

/-- 2 and 3 side by side, then 4: valid in the worst case, hence for every sample. -/
example (u : Nat → Nat → String → Rat) (out : Problem) (h : create (trio 1) shortLaws true (.sample u) = .ok out) :
    Valid out (fun _ => 1) sideBySide := by
  have ht : TidyLaws shortLaws := by
    refine ⟨by decide, ?_⟩
    intro q hq
    have : q = (2, [(1, [("duration", (⟨1, 1, 2⟩ : Law))])]) := by simpa [shortLaws] using hq
    subst this
    exact ⟨by decide, fun p hp => by
      have : p = (1, [("duration", (⟨1, 1, 2⟩ : Law))]) := by simpa using hp
      subst this
      decide⟩
  obtain ⟨bad, hb, hm⟩ := okAnd_spec (e := create (trio 1) shortLaws true .worst)
    (p := fun pb => decide (pb.modes = (trio 2).modes)) (by decide +kernel)
  have hm := of_decide_eq_true hm
  obtain ⟨a1, -, a2, -⟩ := create_modes ht hb
  refine C180_worst ht (by decide) hb h trivial (trio_nonneg 1) ?_
    (valid_of_eq hm a2 a1 trio_valid)
  intro j k r l hl
  unfold lawOf at hl
  rw [Option.bind_eq_some_iff] at hl
  obtain ⟨x, hx, hl⟩ := hl
  rw [Option.bind_eq_some_iff] at hx
  obtain ⟨ms, hms, hx⟩ := hx
  have g1 := Dict.mem_of_get? hms
  have : (j, ms) = (2, [(1, [("duration", (⟨1, 1, 2⟩ : Law))])]) := by simpa [shortLaws] using g1
  obtain ⟨rfl, rfl⟩ := Prod.mk.inj this
  have g2 := Dict.mem_of_get? hx
  have : (k, x) = (1, [("duration", (⟨1, 1, 2⟩ : Law))]) := by simpa using g2
  obtain ⟨rfl, rfl⟩ := Prod.mk.inj this
  have g3 := Dict.mem_of_get? hl
  have : (r, l) = ("duration", (⟨1, 1, 2⟩ : Law)) := by simpa using g3
  obtain ⟨rfl, rfl⟩ := Prod.mk.inj this
  decide

end Verif.Robust
