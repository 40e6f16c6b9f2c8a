import Verif.Lemmas.LpLns
import Verif.Props.RcpspLp
import Verif.Props.RcpspLpSingle
/- Helper lemmas about the neighbourhoods of the searches for projects. -/
namespace Verif.LpLns
open Verif.Milp Verif.RcpspLp Verif.Rcpsp

/-- A schedule of the tasks 1 to `n`. -/
def Scheduled (n : Nat) (sch : Schedule) : Prop := sch.keys.Nodup ∧ ∀ a, a ∈ sch.keys ↔ 1 ≤ a ∧ a ≤ n

theorem Scheduled.get {n : Nat} {sch : Schedule} (h : Scheduled n sch) {a : Nat} (ha : 1 ≤ a ∧ a ≤ n) : ∃ s e, sch.get? a = some (s, e) := by
  have := (h.2 a).2 ha
  rw [← Dict.get?_isSome_iff_mem_keys] at this
  obtain ⟨⟨s, e⟩, hq⟩ := Option.isSome_iff_exists.1 this
  exact ⟨s, e, hq⟩

theorem Scheduled.range {n : Nat} {sch : Schedule} (h : Scheduled n sch) {a : Nat} {q : Int × Int} (ha : sch.get? a = some q) : 1 ≤ a ∧ a ≤ n := by
  refine (h.2 a).1 ?_
  rw [← Dict.get?_isSome_iff_mem_keys, ha]; rfl

theorem get_ok {sch : Schedule} {a : Nat} {q : Int × Int} (ha : sch.get? a = some q) : sch.get a = .ok q := by
  rw [Dict.get, ha]

theorem maxEnd_spec {n : Nat} {sch : Schedule} (h : Scheduled n sch) (hn : 0 < n) :
    ∃ top, maxEnd sch = .ok top ∧ (∃ k s, sch.get? k = some (s, top)) ∧ ∀ k s e, sch.get? k = some (s, e) → e ≤ top := by
  have hne : sch.map (fun q => q.2.2) ≠ [] := by
    obtain ⟨s, e, hq⟩ := h.get (a := 1) ⟨by omega, by omega⟩
    have := Dict.mem_of_get? hq
    intro h0
    rw [List.map_eq_nil_iff] at h0
    rw [h0] at this; simp at this
  obtain ⟨top, htop⟩ := maxInt_ok hne
  obtain ⟨h1, h2⟩ := maxInt_spec htop
  refine ⟨top, htop, ?_, ?_⟩
  · obtain ⟨⟨k, s, e⟩, hq, rfl⟩ := List.mem_map.1 h1
    exact ⟨k, s, Dict.get?_of_mem h.1 hq⟩
  · intro k s e hq
    exact h2 e (List.mem_map.2 ⟨_, Dict.mem_of_get? hq, rfl⟩)

theorem mem_bound {n : Nat} {sch : Schedule} (h : Scheduled n sch) {top : Int} {jobs : List Nat} {job : Nat} {s e : Int} (hq : sch.get? job = some (s, e)) :
    job ∈ bound sch top jobs ↔ job ∈ jobs ∧ e < top - 5 := by
  unfold bound
  rw [List.mem_filter]
  refine and_congr_right fun _ => ?_
  rw [Bool.not_eq_true', ← Bool.not_eq_true, List.contains_iff_mem, List.mem_map]
  constructor
  · intro hno
    by_contra hge
    exact hno ⟨(job, s, e), List.mem_filter.2 ⟨Dict.mem_of_get? hq, by simp; omega⟩, rfl⟩
  · rintro hlt ⟨⟨k, s', e'⟩, hm, rfl⟩
    obtain ⟨hm, hd⟩ := List.mem_filter.1 hm
    have := Dict.get?_of_mem h.1 hm
    simp only at this hq hd
    rw [hq] at this
    cases this
    simp at hd
    omega

theorem outside_iff {s minus plus top : Int} {t : Nat} :
    outside s minus plus top t = false ↔ s - minus ≤ t ∧ (t : Int) ≤ s + plus ∧ (t : Int) ≤ top := by
  simp only [outside, Bool.or_eq_false_iff, decide_eq_false_iff_not]
  omega

theorem mem_flatten_map {α β : Type} {l : List α} {g : α → List β} {r : β} : r ∈ (l.map g).flatten ↔ ∃ x, x ∈ l ∧ r ∈ g x := by
  simp [List.mem_flatten]

theorem start_ok {n : Nat} {sch : Schedule} (h : Scheduled n sch) :
    ∃ ys, mapE (fun j => sch.get (j + 1)) (List.range n) = .ok ys := by
  refine ⟨_, mapE_ok (g := fun j => (sch.get? (j + 1)).getD (0, 0)) ?_⟩
  intro j hj
  have := List.mem_range.1 hj
  obtain ⟨s, e, hq⟩ := h.get (a := j + 1) ⟨by omega, by omega⟩
  rw [get_ok hq, hq]; rfl

theorem intervalRowsMulti_mem {pb : Problem} (w : Project pb) {T : Nat} {vd : Dict Nat (List Key)} (hvd : varDict pb T = .ok vd)
    {sch : Schedule} (h : Scheduled pb.modes.length sch) {jobs : List Nat} (hj : ∀ j, j ∈ jobs → 1 ≤ j ∧ j ≤ pb.modes.length) (minus plus : Int) :
    ∃ rows top, (∃ k s, sch.get? k = some (s, top)) ∧ (∀ k s e, sch.get? k = some (s, e) → e ≤ top) ∧ intervalRowsMulti vd sch jobs minus plus = .ok rows ∧
      ∀ r, r ∈ rows ↔ ∃ job s e k, job ∈ jobs ∧ sch.get? job = some (s, e) ∧ e < top - 5 ∧ k ∈ keysOf pb T job ∧
        outside s minus plus top k.2.2 = true ∧ r = fixed (.x k) 0 := by
  have htwo := w.two
  obtain ⟨top, htop, h1, h2⟩ := maxEnd_spec h (by omega)
  rw [varDict_eq w] at hvd
  cases hvd
  refine ⟨((bound sch top jobs).map (fun job => ((keysOf pb T job).filter (fun k => outside ((sch.get? job).getD (0, 0)).1 minus plus top k.2.2)).map (fun k => fixed (.x k) 0))).flatten,
    top, h1, h2, ?_, ?_⟩
  · unfold intervalRowsMulti
    rw [htop, bind_ok, mapE_ok (g := fun job => ((keysOf pb T job).filter (fun k => outside ((sch.get? job).getD (0, 0)).1 minus plus top k.2.2)).map (fun k => fixed (.x k) 0)), bind_ok]
    intro job hb
    have hjob := hj job (List.mem_filter.1 hb).1
    obtain ⟨s, e, hq⟩ := h.get hjob
    rw [get_ok hq, bind_ok, vd_get (mem_allTasks.2 hjob), bind_ok, hq]; rfl
  · intro r
    rw [mem_flatten_map]
    constructor
    · rintro ⟨job, hb, hr⟩
      have hjob := hj job (List.mem_filter.1 hb).1
      obtain ⟨s, e, hq⟩ := h.get hjob
      rw [mem_bound h hq] at hb
      rw [hq] at hr
      obtain ⟨k, hk, rfl⟩ := List.mem_map.1 hr
      obtain ⟨hk, ho⟩ := List.mem_filter.1 hk
      exact ⟨job, s, e, k, hb.1, hq, hb.2, hk, ho, rfl⟩
    · rintro ⟨job, s, e, k, hb, hq, hlt, hk, ho, rfl⟩
      refine ⟨job, (mem_bound h hq).2 ⟨hb, hlt⟩, ?_⟩
      rw [hq]
      exact List.mem_map.2 ⟨k, List.mem_filter.2 ⟨hk, ho⟩, rfl⟩

theorem row_ok {n job : Nat} (h : 1 ≤ job ∧ job ≤ n) : row n job = .ok (job - 1) := by
  rw [row, if_pos (by omega)]

theorem intervalRows_mem {n : Nat} (hn : 0 < n) (H : Nat) {sch : Schedule} (h : Scheduled n sch) {jobs : List Nat}
    (hj : ∀ j, j ∈ jobs → 1 ≤ j ∧ j ≤ n) (minus plus : Int) :
    ∃ rows top, (∃ k s, sch.get? k = some (s, top)) ∧ (∀ k s e, sch.get? k = some (s, e) → e ≤ top) ∧ intervalRows n H sch jobs minus plus = .ok rows ∧
      ∀ r, r ∈ rows ↔ ∃ job s e t, job ∈ jobs ∧ sch.get? job = some (s, e) ∧ e < top - 5 ∧ t < H + 1 ∧
        outside s minus plus top t = true ∧ r = fixed (job - 1, t) 0 := by
  obtain ⟨top, htop, h1, h2⟩ := maxEnd_spec h hn
  obtain ⟨ys, hys⟩ := start_ok h
  refine ⟨((bound sch top jobs).map (fun job => ((List.range (H + 1)).filter (outside ((sch.get? job).getD (0, 0)).1 minus plus top)).map (fun t => fixed (job - 1, t) 0))).flatten,
    top, h1, h2, ?_, ?_⟩
  · unfold intervalRows
    rw [hys, bind_ok, htop, bind_ok, mapE_ok (g := fun job => ((List.range (H + 1)).filter (outside ((sch.get? job).getD (0, 0)).1 minus plus top)).map (fun t => fixed (job - 1, t) 0)), bind_ok]
    intro job hb
    have hjob := hj job (List.mem_filter.1 hb).1
    obtain ⟨s, e, hq⟩ := h.get hjob
    rw [get_ok hq, bind_ok, row_ok hjob, bind_ok, hq]; rfl
  · intro r
    rw [mem_flatten_map]
    constructor
    · rintro ⟨job, hb, hr⟩
      have hjob := hj job (List.mem_filter.1 hb).1
      obtain ⟨s, e, hq⟩ := h.get hjob
      rw [mem_bound h hq] at hb
      rw [hq] at hr
      obtain ⟨t, ht, rfl⟩ := List.mem_map.1 hr
      obtain ⟨ht, ho⟩ := List.mem_filter.1 ht
      exact ⟨job, s, e, t, hb.1, hq, hb.2, List.mem_range.1 ht, ho, rfl⟩
    · rintro ⟨job, s, e, t, hb, hq, hlt, ht, ho, rfl⟩
      refine ⟨job, (mem_bound h hq).2 ⟨hb, hlt⟩, ?_⟩
      rw [hq]
      exact List.mem_map.2 ⟨t, List.mem_filter.2 ⟨List.mem_range.2 ht, ho⟩, rfl⟩

theorem fixStartRows_mem {n : Nat} (H : Nat) {sch : Schedule} (h : Scheduled n sch) {jobs : List Nat}
    (hj : ∀ j, j ∈ jobs → 1 ≤ j ∧ j ≤ n) :
    ∃ rows, fixStartRows n H sch jobs = .ok rows ∧
      ∀ r, r ∈ rows ↔ ∃ job s e t, job ∈ jobs ∧ sch.get? job = some (s, e) ∧ t < H + 1 ∧ r = fixed (job - 1, t) (if s = (t : Int) then 1 else 0) := by
  obtain ⟨ys, hys⟩ := start_ok h
  refine ⟨(jobs.map (fun job => (List.range (H + 1)).map (fun (t : Nat) => fixed (job - 1, t) (if ((sch.get? job).getD (0, 0)).1 = (t : Int) then 1 else 0)))).flatten, ?_, ?_⟩
  · unfold fixStartRows
    rw [hys, bind_ok, mapE_ok (g := fun job => (List.range (H + 1)).map (fun (t : Nat) => fixed (job - 1, t) (if ((sch.get? job).getD (0, 0)).1 = (t : Int) then 1 else 0))), bind_ok]
    intro job hb
    have hjob := hj job hb
    obtain ⟨s, e, hq⟩ := h.get hjob
    rw [get_ok hq, bind_ok, row_ok hjob, bind_ok, hq]; rfl
  · intro r
    rw [mem_flatten_map]
    constructor
    · rintro ⟨job, hb, hr⟩
      obtain ⟨s, e, hq⟩ := h.get (hj job hb)
      rw [hq] at hr
      obtain ⟨t, ht, rfl⟩ := List.mem_map.1 hr
      exact ⟨job, s, e, t, hb, hq, List.mem_range.1 ht, rfl⟩
    · rintro ⟨job, s, e, t, hb, hq, ht, rfl⟩
      refine ⟨job, hb, ?_⟩
      rw [hq]
      exact List.mem_map.2 ⟨t, List.mem_range.2 ht, rfl⟩

end Verif.LpLns
