import Verif.Lemmas.BindingNew

/-! The plans of the domain and the schedules of the problem. -/
namespace Verif.Binding
open Verif.Rcpsp (Problem Capacity capOf load total runsAt NeedTable Instance)
open Verif.Sched (sadd Dom Policy Plan needOf Ordinary HasMode ConstantModes)

theorem dom_modes {P : Project} {num : String → Nat} {x k : Nat} :
    ((P.dom num).modes.get? x).bind (fun d => Dict.get? d k) = (P.need? x k).map fun d => .constant (d.map fun e => (num e.1, e.2)) := by
  unfold Project.dom Project.need?
  show (Dict.get? (P.modes.map fun p => (p.1, p.2.map fun q => (q.1, Sched.Mode.constant (q.2.map fun e => (num e.1, e.2))))) x).bind _ = _
  rw [get?_mapv (f := fun d : Dict Nat (Dict String Int) => d.map fun q => (q.1, Sched.Mode.constant (q.2.map fun e => (num e.1, e.2))))]
  cases P.modes.get? x with
  | none => rfl
  | some d =>
    simp only [Option.map_some, Option.bind_some]
    exact get?_mapv (f := fun q : Dict String Int => Sched.Mode.constant (q.map fun e => (num e.1, e.2))) d k

theorem dom_hasMode {P : Project} {num : String → Nat} {x k : Nat} :
    HasMode (P.dom num) x k ↔ ∃ d, P.need? x k = some d := by
  have h := dom_modes (P := P) (num := num) (x := x) (k := k)
  constructor
  · rintro ⟨ms, dd, h1, h2⟩
    rw [h1] at h
    simp only [Option.bind_some] at h
    rw [h2] at h
    obtain ⟨d, hd, _⟩ := Option.map_eq_some_iff.1 h.symm
    exact ⟨d, hd⟩
  · rintro ⟨d, hd⟩
    rw [hd, Option.map_some] at h
    obtain ⟨ms, h1, h2⟩ := Option.bind_eq_some_iff.1 h
    exact ⟨ms, _, h1, h2⟩

theorem needOf_dom {P : Project} {num : String → Nat} (hc : Complete P)
    (hnum : ∀ r ∈ P.resources, ∀ r' ∈ P.resources, num r = num r' → r = r') {m : Nat → Nat} {x : Nat} {r : String} (hr : r ∈ P.resources) :
    needOf (P.dom num) m (num r) x = ((P.need? x (m x)).bind fun d => d.get? r).getD 0 := by
  have h := dom_modes (P := P) (num := num) (x := x) (k := m x)
  unfold needOf
  cases hm : (P.dom num).modes.get? x with
  | none =>
    rw [hm] at h
    simp only [Option.bind_none] at h
    rw [Option.map_eq_none_iff.1 h.symm]; rfl
  | some ms =>
    rw [hm] at h
    simp only [Option.bind_some] at h
    simp only [h]
    cases hn : P.need? x (m x) with
    | none => rfl
    | some d =>
      simp only [Option.map_some, Option.bind_some]
      rw [get?_mapk fun k' hk' e => (hnum k' ((hc.needs x _ d hn).2.2 k' hk') r hr e)]

theorem get?_mapk_mem {f : String → Nat} {d : Dict String Int} {k : Nat} {v : Int} (h : Dict.get? (d.map fun p => (f p.1, p.2)) k = some v) :
    ∃ r, (r, v) ∈ d := by
  obtain ⟨⟨r, w⟩, h1, h2⟩ := List.mem_map.1 (Dict.mem_of_get? h)
  simp only [Prod.mk.injEq] at h2
  exact ⟨r, h2.2 ▸ h1⟩

theorem dom_constant {P : Project} {num : String → Nat} (hc : Complete P) : ConstantModes (P.dom num) := by
  intro x ms m md h1 h2
  have h := dom_modes (P := P) (num := num) (x := x) (k := m)
  rw [h1] at h
  simp only [Option.bind_some] at h
  rw [h2] at h
  obtain ⟨d, hd, rfl⟩ := Option.map_eq_some_iff.1 h.symm
  refine ⟨_, rfl, fun r => ?_⟩
  unfold Sched.val
  cases hg : Dict.get? (d.map fun e => (num e.1, e.2)) r with
  | none => exact Int.le_refl _
  | some v =>
    obtain ⟨s, hs⟩ := get?_mapk_mem hg
    obtain ⟨k1, k2, k3⟩ := hc.needs x m d hd
    obtain ⟨n, hn, hp⟩ := k2 s (k3 s (List.mem_map.2 ⟨_, hs, rfl⟩))
    rw [Dict.get?_of_mem k1 hs] at hn
    cases hn
    exact hp

/-- A complete project is an ordinary scheduling domain. -/
theorem dom_ordinary {P : Project} {num : String → Nat} (hc : Complete P)
    (hnum : ∀ r ∈ P.resources, ∀ r' ∈ P.resources, num r = num r' → r = r') : Ordinary (P.dom num) := by
  have hren : ∀ r ∈ P.resources, Dict.get? (P.renewable.map fun e => (num e.1, e.2)) (num r) = P.renewable.get? r := fun r hr =>
    get?_mapk fun k' hk' e => hnum k' ((hc.renewable.2 k').1 hk') r hr e
  have hpre : ∀ x ∈ P.tasks, Dict.get? (P.tasks.map fun x => (x, false)) x = some false := fun x hx => get?_of_fun P.tasks (fun _ => false) hx
  refine ⟨⟨?_, ?_, ?_, ?_, ?_, nofun, fun h => absurd rfl h⟩, dom_constant hc, hc.tasks, rfl, fun x _ => .inl rfl, ?_⟩
  · intro x hx
    obtain ⟨d, hd⟩ := hc.first x hx
    obtain ⟨ms, _, h1, _⟩ := (dom_hasMode (num := num)).2 ⟨d, hd⟩
    rw [h1]; rfl
  · intro x ms m md h1 h2
    obtain ⟨dd, h3, _⟩ := dom_constant hc x ms m md h1 h2
    exact ⟨dd, h3⟩
  · intro r hr
    obtain ⟨s, hs, rfl⟩ := List.mem_map.1 hr
    rw [show (P.dom num).renewable.get? (num s) = _ from hren s hs]
    exact (Dict.get?_isSome_iff_mem_keys _ _).2 ((hc.renewable.2 s).2 hs)
  · intro r hr _ ⟨x, hx, hp⟩
    rw [show (P.dom num).preempt.get? x = _ from hpre x hx] at hp
    simp at hp
  · intro x hx
    rw [show (P.dom num).preempt.get? x = _ from hpre x hx]; rfl
  · obtain ⟨rank, hr⟩ := hc.acyclic
    refine ⟨rank, fun x hx q hq => ?_⟩
    obtain ⟨ss, h1, h2⟩ := (hc.preds x hx q).1 hq
    exact hr q ss h1 x h2

/-- The plan that a schedule and a list of modes (of the tasks 2 to n-1; the first and the last task are in mode 1) stand for. -/
def planOf (modes : List Nat) (sch : Dict Nat (Int × Int)) : Plan where
  start := fun x => match sch.get? x with | some p => p.1 | none => 0
  mode := fun x => (1 :: modes ++ [1]).getD (x - 1) 1
  dur := fun x => match sch.get? x with | some p => p.2 - p.1 | none => 0

theorem planOf_get {modes : List Nat} {sch : Dict Nat (Int × Int)} {x : Nat} {s e : Int} (h : sch.get? x = some (s, e)) :
    (planOf modes sch).start x = s ∧ (planOf modes sch).start x + (planOf modes sch).dur x = e ∧ (planOf modes sch).dur x = e - s := by
  have h1 : (planOf modes sch).start x = s := by simp only [planOf, h]
  have h2 : (planOf modes sch).dur x = e - s := by simp only [planOf, h]
  rw [h1, h2]
  omega

theorem planOf_mode {modes : List Nat} {sch : Dict Nat (Int × Int)} {x k : Nat} (h : (1 :: modes ++ [1])[x - 1]? = some k) :
    (planOf modes sch).mode x = k := by
  simp only [planOf, List.getD]
  rw [h]; rfl

/-- A schedule of the whole project: every task once, from its start on, at time zero or later, and the modes exist. -/
structure Whole (P : Project) (modes : List Nat) (sch : Dict Nat (Int × Int)) : Prop where
  length : modes.length + 2 = P.tasks.length
  nodup : sch.keys.Nodup
  keys : ∀ x, x ∈ sch.keys ↔ x ∈ P.tasks
  times : ∀ x s e, sch.get? x = some (s, e) → 0 ≤ s ∧ s ≤ e
  modes : ∀ x ∈ P.tasks, ∃ d, P.need? x ((1 :: modes ++ [1]).getD (x - 1) 1) = some d

theorem Whole.get {P : Project} {modes : List Nat} {sch : Dict Nat (Int × Int)} (hw : Whole P modes sch) {x : Nat} (hx : x ∈ P.tasks) :
    ∃ s e, sch.get? x = some (s, e) := by
  obtain ⟨q, hq⟩ := Option.isSome_iff_exists.1 ((Dict.get?_isSome_iff_mem_keys _ _).2 ((hw.keys x).2 hx))
  exact ⟨q.1, q.2, hq⟩

/-- What the task needs in its mode. -/
def planNeed (P : Project) (modes : List Nat) (r : String) (x : Nat) : Int :=
  ((P.need? x ((1 :: modes ++ [1]).getD (x - 1) 1)).bind fun d => d.get? r).getD 0

theorem planNeed_nonneg {P : Project} (hc : Complete P) {modes : List Nat} {r : String} (hr : r ∈ P.resources) (x : Nat) : 0 ≤ planNeed P modes r x := by
  unfold planNeed
  cases hd : P.need? x ((1 :: modes ++ [1]).getD (x - 1) 1) with
  | none => exact Int.le_refl _
  | some d =>
    obtain ⟨n, hn, h0⟩ := (hc.needs x _ d hd).2.1 r hr
    simp only [Option.bind_some, hn, Option.getD_some]
    exact h0

theorem planNeed_needOf {P : Project} {num : String → Nat} (hc : Complete P)
    (hnum : ∀ r ∈ P.resources, ∀ r' ∈ P.resources, num r = num r' → r = r') {modes : List Nat} {sch : Dict Nat (Int × Int)} {r : String}
    (hr : r ∈ P.resources) (x : Nat) : needOf (P.dom num) (planOf modes sch).mode (num r) x = planNeed P modes r x :=
  needOf_dom hc hnum hr

theorem planNeed_table {pb : Problem} {P : Project} (hc : Complete P) (ha : Agree pb P) {modes : List Nat} {sch : Dict Nat (Int × Int)} (hw : Whole P modes sch) :
    NeedTable pb (1 :: modes ++ [1]) (planNeed P modes) := by
  intro a hat r hr
  rw [ha.succKeys] at hat
  rw [ha.resources] at hr
  obtain ⟨d, hd⟩ := hw.modes a hat
  have hd' := hd
  rw [ha.modes] at hd'
  obtain ⟨m, hm, hmd⟩ := Option.map_eq_some_iff.1 hd'
  obtain ⟨ms, h1, h2⟩ := Option.bind_eq_some_iff.1 hm
  have hlt : a - 1 < (1 :: modes ++ [1]).length := by
    have := (hc.numbered a).1 hat
    have := hw.length
    simp; omega
  have hext : (1 :: modes ++ [1])[a - 1]? = some ((1 :: modes ++ [1]).getD (a - 1) 1) := by
    simp only [List.getD, List.getElem?_eq_getElem hlt, Option.getD_some]
  refine ⟨ms, _, m, h1, hext, h2, ?_⟩
  obtain ⟨n, hn, _⟩ := (hc.needs a _ d hd).2.1 r hr
  rw [show planNeed P modes r a = n by simp only [planNeed, hd, Option.bind_some, hn, Option.getD_some]]
  rw [← hmd, get?_filterk (fun s => decide (s ∈ P.resources)) _ (decide_eq_true hr)] at hn
  exact hn

/-- Feasible plans of the domain in terms of the schedule and the problem. -/
theorem feasible_char {pb : Problem} {P : Project} {num : String → Nat} {cap : Nat → Int} (hc : Complete P) (ha : Agree pb P)
    (hi : Instance pb)
    (hnum : ∀ r ∈ P.resources, ∀ r' ∈ P.resources, num r = num r' → r = r')
    {modes : List Nat} {sch : Dict Nat (Int × Int)} (hw : Whole P modes sch) :
    (planOf modes sch).Feasible (P.dom num) cap ↔
      (∀ r ∈ P.resources, r ∉ pb.nonRenewable → ∀ t : Int, load (planNeed P modes r) sch t P.tasks ≤ cap (num r)) ∧
      (∀ r ∈ P.resources, r ∈ pb.nonRenewable → total (planNeed P modes r) P.tasks ≤ cap (num r)) ∧
      (∀ a ss, (a, ss) ∈ pb.successors → ∀ b ∈ ss, ∃ sa ea sb eb, sch.get? a = some (sa, ea) ∧ sch.get? b = some (sb, eb) ∧ ea ≤ sb) := by
  have hget : ∀ x ∈ P.tasks, ∃ s e, sch.get? x = some (s, e) := fun x hx => hw.get hx
  have hneed : ∀ r ∈ P.resources, ∀ x, needOf (P.dom num) (planOf modes sch).mode (num r) x = planNeed P modes r x :=
    fun r hr x => planNeed_needOf hc hnum hr x
  have hrun : ∀ (r : String), r ∈ P.resources → ∀ t : Int, (((planOf modes sch).running (P.dom num) t).map (needOf (P.dom num) (planOf modes sch).mode (num r))).sum =
      load (planNeed P modes r) sch t P.tasks := by
    intro r hr t
    have e1 : (planOf modes sch).running (P.dom num) t = P.tasks.filter (runsAt sch t) := by
      unfold Plan.running
      apply List.filter_congr
      intro x hx
      obtain ⟨s, e, hse⟩ := hget x hx
      obtain ⟨k1, k2, _⟩ := planOf_get (modes := modes) hse
      rw [k2, k1]
      simp only [runsAt, hse]
      by_cases h1 : s ≤ t <;> by_cases h2 : t < e <;> simp [h1, h2]
    rw [e1]
    unfold load total
    rw [List.map_congr_left fun x _ => hneed r hr x]
  have htot : ∀ r, r ∈ P.resources → (P.tasks.map (needOf (P.dom num) (planOf modes sch).mode (num r))).sum = total (planNeed P modes r) P.tasks := by
    intro r hr
    unfold total
    rw [List.map_congr_left fun x _ => hneed r hr x]
  have hren : ∀ r ∈ P.resources, (P.dom num).renewable.get? (num r) = some (!pb.nonRenewable.contains r) := by
    intro r hr
    show Dict.get? (P.renewable.map fun e => (num e.1, e.2)) (num r) = _
    rw [get?_mapk fun k' hk' e => hnum k' ((hc.renewable.2 k').1 hk') r hr e]
    exact ha.renewable r hr
  constructor
  · intro hf
    refine ⟨?_, ?_, ?_⟩
    · intro r hr hb t
      rw [← hrun r hr]
      exact hf.renewable (num r) (List.mem_map.2 ⟨r, hr, rfl⟩) (by rw [hren r hr]; simpa using hb) t
    · intro r hr hb
      rw [← htot r hr]
      exact hf.consumed (num r) (List.mem_map.2 ⟨r, hr, rfl⟩) (by rw [hren r hr]; simpa using hb)
    · intro a ss hss b hb
      have hat : a ∈ P.tasks := (ha.succKeys a).1 (List.mem_map.2 ⟨_, hss, rfl⟩)
      obtain ⟨sa, ea, hsa⟩ := hget a hat
      have hbt : b ∈ P.tasks := by
        rw [hc.numbered, ← ha.size]
        exact hi.successors.2.2 a ss hss b hb
      obtain ⟨sb, eb, hsb⟩ := hget b hbt
      refine ⟨sa, ea, sb, eb, hsa, hsb, ?_⟩
      have := (hf.prec b hbt a ((ha.preds b hbt a).2 ⟨ss, hss, hb⟩)).2
      rw [(planOf_get hsa).2.1, (planOf_get hsb).1] at this
      exact this
  · rintro ⟨h1, h2, h3⟩
    refine ⟨?_, ?_, ?_, ?_, ?_, ?_⟩
    · intro x hx
      exact dom_hasMode.2 (hw.modes x hx)
    · intro x hx
      obtain ⟨s, e, hse⟩ := hget x hx
      rw [(planOf_get hse).1]; exact (hw.times x s e hse).1
    · intro x hx
      obtain ⟨s, e, hse⟩ := hget x hx
      rw [(planOf_get hse).2.2]; have := hw.times x s e hse; omega
    · intro x hx q hq
      obtain ⟨ss, g1, g2⟩ := (ha.preds x hx q).1 hq
      obtain ⟨sa, ea, sb, eb, k1, k2, k3⟩ := h3 q ss g1 x g2
      refine ⟨(ha.succKeys q).1 (List.mem_map.2 ⟨_, g1, rfl⟩), ?_⟩
      rw [(planOf_get k1).2.1, (planOf_get k2).1]
      exact k3
    · intro r hr hb t
      obtain ⟨s, hsr, rfl⟩ := List.mem_map.1 hr
      rw [hren s hsr] at hb
      rw [hrun s hsr]
      exact h1 s hsr (by simpa using hb) t
    · intro r hr hb
      obtain ⟨s, hsr, rfl⟩ := List.mem_map.1 hr
      rw [hren s hsr] at hb
      rw [show (P.dom num).tasks = P.tasks from rfl, htot s hsr]
      exact h2 s hsr (by simpa using hb)

/-- Nothing runs before time zero or after the end. -/
theorem load_outside {P : Project} {modes : List Nat} {sch : Dict Nat (Int × Int)} (hw : Whole P modes sch) {E : Int}
    (hE : ∀ x s e, sch.get? x = some (s, e) → e ≤ E) (need : Nat → Int) {t : Int} (ht : t < 0 ∨ E ≤ t) : load need sch t P.tasks = 0 := by
  have : P.tasks.filter (runsAt sch t) = [] := by
    rw [List.filter_eq_nil_iff]
    intro x hx
    obtain ⟨s, e, hse⟩ := hw.get hx
    have h1 := hw.times x s e hse
    have h2 := hE x s e hse
    simp only [runsAt, hse, decide_eq_true_eq, not_and]
    omega
  simp [load, total, this]

/-- A problem and a project that agree have the same feasible plans, as long as the last task ends last. -/
theorem feasible_iff {pb : Problem} {P : Project} {num : String → Nat} {cap : Nat → Int} (hc : Complete P) (ha : Agree pb P)
    (hi : Instance pb)
    (hnum : ∀ r ∈ P.resources, ∀ r' ∈ P.resources, num r = num r' → r = r') (hcap : ∀ r ∈ P.resources, P.avail.get? r = some (cap (num r)))
    {modes : List Nat} {sch : Dict Nat (Int × Int)} (hw : Whole P modes sch)
    (hlast : ∀ p, sch.get? P.tasks.length = some p → ∀ x s e, sch.get? x = some (s, e) → e ≤ p.2) :
    Rcpsp.satisfy pb none modes sch = .ok true ↔ (planOf modes sch).Feasible (P.dom num) cap := by
  have hs := hi.successors.1
  have hlen := hw.length
  have htwo := hc.two
  obtain ⟨ps, pe, hp⟩ := hw.get ((hc.numbered P.tasks.length).2 ⟨by omega, Nat.le_refl _⟩)
  have hperm : pb.successors.keys.Perm P.tasks := (List.perm_ext_iff_of_nodup hs hc.tasks).2 ha.succKeys
  have hload : ∀ r (t : Int), load (planNeed P modes r) sch t pb.successors.keys = load (planNeed P modes r) sch t P.tasks :=
    fun r t => perm_sum ((hperm.filter _).map _)
  have htotal : ∀ r, total (planNeed P modes r) pb.successors.keys = total (planNeed P modes r) P.tasks :=
    fun r => perm_sum (hperm.map _)
  have hrget : ∀ r ∈ P.resources, pb.resources.get? r = some (.const (cap (num r))) := by
    intro r hr
    obtain ⟨c, hcr⟩ := Option.isSome_iff_exists.1 ((Dict.get?_isSome_iff_mem_keys _ _).2 (show r ∈ pb.resources.keys by rw [ha.resources]; exact hr))
    obtain ⟨v, rfl, hv⟩ := ha.caps r c hcr
    rw [hcap r hr] at hv
    cases hv
    exact hcr
  have hcap0 : ∀ r ∈ P.resources, 0 ≤ cap (num r) := by
    intro r hr
    obtain ⟨c, h1, h2⟩ := hc.caps r hr
    rw [hcap r hr] at h1
    cases h1; exact h2
  have hiff := Rcpsp.C28_accepts_iff_partial (pb := pb) (modes := modes) (sch := sch) (need := planNeed P modes) (last := P.tasks.length) (p := (ps, pe)) none hp
    (fun a ha' => ((hc.numbered a).1 ((hw.keys a).1 ha')).2) (by rw [ha.resources]; exact hc.resources)
    (fun a ha' => by
      have hat := (ha.succKeys a).1 ha'
      exact ⟨(hw.keys a).2 hat, by have := (hc.numbered a).1 hat; omega⟩) (planNeed_table hc ha hw)
  rw [hiff, feasible_char hc ha hi hnum hw]
  constructor
  · rintro ⟨_, h1, h2, h3⟩
    refine ⟨?_, ?_, h3⟩
    · intro r hr _ t
      by_cases ht : t < 0 ∨ pe ≤ t
      · rw [load_outside hw (hlast _ hp) _ ht]; exact hcap0 r hr
      · obtain ⟨c, k1, k2⟩ := h1 r _ (hrget r hr) t.toNat (by show ((t.toNat : Nat) : Int) < pe; omega)
        cases k1
        rw [show ((t.toNat : Nat) : Int) = t by omega, hload] at k2
        exact k2
    · intro r hr hb
      obtain ⟨c, v, k1, k2, k3⟩ := h2 r hb
      rw [hrget r hr] at k1
      cases k1; cases k2
      rw [← htotal]
      exact k3
  · rintro ⟨h1, h2, h3⟩
    refine ⟨by simp, ?_, ?_, h3⟩
    · intro r c hrc t ht
      have hr : r ∈ P.resources := by rw [← ha.resources]; exact (Dict.get?_isSome_iff_mem_keys _ _).1 (by rw [hrc]; rfl)
      rw [hrget r hr] at hrc
      cases hrc
      refine ⟨_, rfl, ?_⟩
      rw [hload]
      by_cases hb : r ∈ pb.nonRenewable
      · refine Int.le_trans ?_ (h2 r hr hb)
        have := Rcpsp.total_filter_le (need := planNeed P modes r) (runsAt sch t) (fun _ => true) P.tasks (fun a _ => planNeed_nonneg hc hr a) (fun _ _ _ => .inl rfl)
        simpa [load] using this
      · exact h1 r hr hb t
    · intro r hb
      have hr := ha.nonRenewable r hb
      exact ⟨_, _, hrget r hr, rfl, by rw [htotal]; exact h2 r hr hb⟩

end Verif.Binding
