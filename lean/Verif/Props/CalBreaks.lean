import Verif.Lemmas.CalBreaks
import Mathlib.Algebra.BigOperators.Group.List.Basic
import Mathlib.Algebra.Order.BigOperators.Group.List
import Mathlib.Algebra.Order.Group.Int
/- Property C189: breaks of a calendar, cuts and repaired solutions. -/
namespace Verif.CalBreaks
open Rcpsp

/-- Specification: what an activity requires of a resource in a mode. -/
def need (pb : Problem) (k : Nat) (j : Nat) (r : String) : Int :=
  (((pb.modes.get? j).bind (fun ms => ms.get? k)).bind (fun m => m.needs.get? r)).getD 0

/-- Specification: what the activities under way at a time require, each in its mode. -/
def demand (pb : Problem) (md : Nat → Nat) (sched : Sched) (r : String) (t : Nat) : Int :=
  (sched.map (fun p => if p.2.1 ≤ t ∧ t < p.2.2 then need pb (md p.1) p.1 r else 0)).sum

/-- Dictionaries have distinct keys and no resource is called `"None"`. -/
structure Sound (pb : Problem) (sched : Sched) : Prop where
  res : pb.resources.keys.Nodup
  name : "None" ∉ pb.resources.keys
  keys : sched.keys.Nodup
  needs : ∀ (j k : Nat) ms (m : Mode), pb.modes.get? j = some ms → ms.get? k = some m → m.needs.keys.Nodup

theorem first_eq {pb : Problem} {j : Nat} {m : Mode} (h : first pb j = .ok m) : ∃ ms, pb.modes.get? j = some ms ∧ ms.get? 1 = some m := by
  simp only [first, bind_eq_ok] at h
  obtain ⟨ms, h1, h2⟩ := h
  exact ⟨ms, get_some h1, get_some h2⟩

theorem first_need {pb : Problem} {j : Nat} {m : Mode} (h : first pb j = .ok m) (r : String) : (m.needs.get? r).getD 0 = need pb 1 j r := by
  obtain ⟨ms, h1, h2⟩ := first_eq h
  simp [need, h1, h2]

theorem load_eq {pb : Problem} {sched : Sched} {r : String} {t j : Nat} {se : Nat × Nat} (h : sched.get? j = some se) :
    load pb sched r t j = if se.1 ≤ t ∧ t < se.2 then need pb 1 j r else 0 := by
  unfold load
  rw [h]
  cases hf : first pb j with
  | ok m => simp only [first_need hf r]
  | error e =>
    have : need pb 1 j r = 0 := by
      unfold need
      unfold first Dict.get at hf
      cases h1 : pb.modes.get? j with
      | none => rfl
      | some ms =>
        simp only [h1, bind_ok] at hf
        cases h2 : ms.get? 1 with
        | none => simp [h2]
        | some m => simp only [h2] at hf; cases hf
    simp [this]

theorem sum_load {pb : Problem} {sched : Sched} (hk : sched.keys.Nodup) (r : String) (t : Nat) :
    ((order sched).map (load pb sched r t)).sum = demand pb (fun _ => 1) sched r t := by
  unfold order
  rw [((sortBy_perm (fun k : Nat => (k : Int)) sched.keys).map (load pb sched r t)).sum_eq]
  unfold demand Dict.keys
  rw [List.map_map]
  congr 1
  refine List.map_congr_left (fun p hp => ?_)
  exact load_eq (Dict.get?_of_mem hk hp)

theorem breaks_info {pb : Problem} {sched : Sched} {d : Dict String Found} (hs : Sound pb sched) (h : breaks pb sched = .ok d) :
    d.keys = pb.resources.keys ∧ ∀ r f, d.get? r = some f → ∃ l, pb.resources.get? r = some (.calendar l) ∧
      (∀ t, t ∈ f.index ↔ t < l.length ∧ l.getD t 0 < demand pb (fun _ => 1) sched r t) ∧ f.cuts = cuts pb sched r l f.index := by
  simp only [breaks, bind_eq_ok] at h
  obtain ⟨Z, h1, A, h2, h3⟩ := h
  obtain ⟨k1, k2⟩ := found_ok h3
  refine ⟨k1, ?_⟩
  intro r f hf
  obtain ⟨l, row, e1, e2, rfl⟩ := k2 hf
  refine ⟨l, e1, ?_, rfl⟩
  obtain ⟨l', e3, e4⟩ := zeros_ok h1 e1
  obtain rfl := Capacity.calendar.inj e3
  have hr : r ≠ "None" := by
    rintro rfl
    exact hs.name ((Dict.get?_isSome_iff_mem_keys _ _).1 (by rw [e1]; rfl))
  obtain ⟨row', e5, e6, e7⟩ := fill_ok (fun j m hm => by
    obtain ⟨ms, a, b⟩ := first_eq hm
    exact hs.needs j 1 ms m a b) h2 hr e4
  rw [e2] at e5
  obtain rfl := Option.some.inj e5
  rw [List.length_replicate] at e7
  intro t
  simp only [indexOf, List.mem_filter, List.mem_range, decide_eq_true_eq]
  constructor
  · rintro ⟨ht, hlt⟩
    refine ⟨ht, ?_⟩
    rw [e7 t ht, sum_load hs.keys] at hlt
    simpa [List.getD, List.getElem?_replicate, ht] using hlt
  · rintro ⟨ht, hlt⟩
    refine ⟨ht, ?_⟩
    rw [e7 t ht, sum_load hs.keys]
    simpa [List.getD, List.getElem?_replicate, ht] using hlt

/-- C189: the breaks of a resource are exactly the times within its calendar at which the activities under way require more, each in mode 1,
than there is. -/
theorem C189_breaks {pb : Problem} {sched : Sched} {d : Dict String Found} (hs : Sound pb sched) (h : breaks pb sched = .ok d) :
    d.keys = pb.resources.keys ∧ ∀ r f, d.get? r = some f → ∃ l, pb.resources.get? r = some (.calendar l) ∧
      ∀ t, t ∈ f.index ↔ t < l.length ∧ l.getD t 0 < demand pb (fun _ => 1) sched r t := by
  obtain ⟨h1, h2⟩ := breaks_info hs h
  refine ⟨h1, fun r f hf => ?_⟩
  obtain ⟨l, e1, e2, -⟩ := h2 r f hf
  exact ⟨l, e1, e2⟩

/-- C189: a solution is judged satisfying exactly if its schedule, with every activity in mode 1, fits into all calendars. -/
theorem C189_judge {pb : Problem} {s s' : Sol} (hs : Sound pb s.sched) (hn : s.satisfy = none) (h : judge pb s = .ok s') :
    s'.sched = s.sched ∧ ∃ b, s'.satisfy = some b ∧ (b = true ↔ ∀ r l, pb.resources.get? r = some (.calendar l) → ∀ t, t < l.length →
      demand pb (fun _ => 1) s.sched r t ≤ l.getD t 0) := by
  unfold judge at h
  rw [hn] at h
  simp only [bind_eq_ok, Except.ok.injEq] at h
  obtain ⟨d, h1, rfl⟩ := h
  obtain ⟨k1, k2⟩ := C189_breaks hs h1
  refine ⟨rfl, _, rfl, ?_⟩
  rw [Bool.not_eq_true', ← Bool.not_eq_true, List.any_eq_true]
  have hdn : d.keys.Nodup := by rw [k1]; exact hs.res
  constructor
  · intro hno r l hr t ht
    have hmem : r ∈ d.keys := by rw [k1]; exact (Dict.get?_isSome_iff_mem_keys _ _).1 (by rw [hr]; rfl)
    obtain ⟨f, hf⟩ := Option.isSome_iff_exists.1 ((Dict.get?_isSome_iff_mem_keys _ _).2 hmem)
    obtain ⟨l', e1, e2⟩ := k2 r f hf
    rw [hr] at e1
    obtain rfl := Capacity.calendar.inj (Option.some.inj e1)
    by_cases hle : demand pb (fun _ => 1) s.sched r t ≤ l.getD t 0
    · exact hle
    · have : t ∈ f.index := (e2 t).2 ⟨ht, by omega⟩
      exact absurd ⟨(r, f), Dict.mem_of_get? hf, decide_eq_true (List.length_pos_of_mem this)⟩ hno
  · rintro hall ⟨p, hp, hpos⟩
    have hf := Dict.get?_of_mem hdn hp
    obtain ⟨l, e1, e2⟩ := k2 p.1 p.2 hf
    obtain ⟨t, ht⟩ := List.exists_mem_of_length_pos (of_decide_eq_true hpos)
    obtain ⟨a, b⟩ := (e2 t).1 ht
    have := hall p.1 l e1 t a
    omega

/-- C189: a resource with a number for a capacity raises. -/
theorem C189_number {pb : Problem} {sched : Sched} {r : String} {c : Int} (h : pb.resources.get? r = some (.const c)) : ∀ d, breaks pb sched ≠ .ok d := by
  intro d hd
  simp only [breaks, bind_eq_ok] at hd
  obtain ⟨Z, h1, -⟩ := hd
  obtain ⟨l, e, -⟩ := zeros_ok h1 h
  cases e

theorem cut_info {pb : Problem} {sched : Sched} {d : Dict String Found} (hs : Sound pb sched) (h : breaks pb sched = .ok d) {r : String} {f : Found}
    (hf : d.get? r = some f) {j : Nat} {c : Option Nat × Option Nat} (hc : (j, c) ∈ f.cuts) :
    ∃ l se, pb.resources.get? r = some (.calendar l) ∧ sched.get? j = some se ∧ need pb 1 j r ≠ 0 ∧
      (∃ t, t < l.length ∧ l.getD t 0 = 0 ∧ 0 < demand pb (fun _ => 1) sched r t ∧ se.1 ≤ t ∧ t < se.2) ∧
      c = (before l (need pb 1 j r) se.1, future l (need pb 1 j r) se.1) := by
  obtain ⟨-, h2⟩ := breaks_info hs h
  obtain ⟨l, e1, e2, e3⟩ := h2 r f hf
  rw [e3, cuts, List.mem_map] at hc
  obtain ⟨j', hj, he⟩ := hc
  obtain ⟨-, hcon⟩ := List.mem_filter.1 hj
  unfold concerned at hcon
  split at hcon
  · rename_i m se hm hse
    rw [Bool.and_eq_true, decide_eq_true_eq, List.any_eq_true] at hcon
    obtain ⟨⟨-, hx⟩, t, ht, htt⟩ := hcon
    have htt := of_decide_eq_true htt
    obtain ⟨a, b⟩ := (e2 t).1 ht
    rw [hm, hse] at he
    simp only [Option.getD_some] at he
    obtain ⟨rfl, rfl⟩ := Prod.mk.inj he
    rw [first_need hm r] at hx ⊢
    exact ⟨l, se, e1, hse, hx, ⟨t, a, htt.1, by omega, htt.2.1, htt.2.2⟩, rfl⟩
  · cases hcon

theorem le_sum {α : Type} (g : α → Int) : ∀ {L : List α} (_ : ∀ a ∈ L, 0 ≤ g a) {a : α} (_ : a ∈ L), g a ≤ (L.map g).sum
  | b :: L, h, a, ha => by
    have hb := h b (by simp)
    have hL : 0 ≤ (L.map g).sum := List.sum_nonneg (by
      intro x hx
      obtain ⟨y, hy, rfl⟩ := List.mem_map.1 hx
      exact h y (List.mem_cons_of_mem _ hy))
    rw [List.map_cons, List.sum_cons]
    rcases List.mem_cons.1 ha with rfl | ha
    · omega
    · have := le_sum g (fun y hy => h y (List.mem_cons_of_mem _ hy)) ha
      omega

/-- C189: no cut excludes a schedule that fits into the calendar of its resource and in which the activity takes some time. -/
theorem C189_cut_valid {pb : Problem} {sched : Sched} {d : Dict String Found} (hs : Sound pb sched) (h : breaks pb sched = .ok d) {r : String} {f : Found}
    (hf : d.get? r = some f) {j : Nat} {c : Option Nat × Option Nat} (hc : (j, c) ∈ f.cuts)
    (hnn : ∀ j, 0 ≤ need pb 1 j r) {other : Sched} {l : List Int} (hl : pb.resources.get? r = some (.calendar l))
    (hfit : ∀ t, t < l.length → demand pb (fun _ => 1) other r t ≤ l.getD t 0) {se : Nat × Nat} (ho : other.get? j = some se) (hdur : se.1 < se.2)
    (hin : se.1 < l.length) : CutHolds c se.1 := by
  obtain ⟨l', se0, e1, e2, -, -, rfl⟩ := cut_info hs h hf hc
  rw [hl] at e1
  obtain rfl := Capacity.calendar.inj (Option.some.inj e1)
  have hx : need pb 1 j r ≤ l.getD se.1 0 := by
    refine Int.le_trans ?_ (hfit se.1 hin)
    have := le_sum (fun p : Nat × (Nat × Nat) => if p.2.1 ≤ se.1 ∧ se.1 < p.2.2 then need pb 1 p.1 r else 0) (L := other)
      (by intro p _; split; exact hnn _; exact Int.le_refl _) (Dict.mem_of_get? ho)
    simp only [le_refl, hdur, and_self, if_true] at this
    exact this
  rcases Nat.le_total se.1 se0.1 with hle | hle
  · obtain ⟨b, hb, hsb⟩ := before_ok hle hx
    rw [hb]
    cases hfu : future l (need pb 1 j r) se0.1 with
    | none => exact hsb
    | some f => exact .inl hsb
  · obtain ⟨f', hfu, hfs⟩ := future_ok hle hin hx
    rw [hfu]
    cases hb : before l (need pb 1 j r) se0.1 with
    | none => exact hfs
    | some b => exact .inr hfs

/-- C189: an activity that starts where there is not enough for it is cut off, unless there is never enough. -/
theorem C189_cut_excludes {pb : Problem} {sched : Sched} {d : Dict String Found} (hs : Sound pb sched) (h : breaks pb sched = .ok d) {r : String} {f : Found}
    (hf : d.get? r = some f) {j : Nat} {c : Option Nat × Option Nat} (hc : (j, c) ∈ f.cuts) {l : List Int}
    (hl : pb.resources.get? r = some (.calendar l)) {se : Nat × Nat} (hse : sched.get? j = some se) (hlow : l.getD se.1 0 < need pb 1 j r)
    (hex : ∃ t, t < l.length ∧ need pb 1 j r ≤ l.getD t 0) : ¬ CutHolds c se.1 := by
  obtain ⟨l', se0, e1, e2, -, -, rfl⟩ := cut_info hs h hf hc
  rw [hl] at e1
  obtain rfl := Capacity.calendar.inj (Option.some.inj e1)
  rw [hse] at e2
  obtain rfl := Option.some.inj e2
  obtain ⟨t, ht, hxt⟩ := hex
  have hb' : ∀ b, before l (need pb 1 j r) se.1 = some b → b < se.1 := by
    intro b hb
    obtain ⟨x, y⟩ := before_some hb
    rcases Nat.lt_or_ge b se.1 with h | h
    · exact h
    · have : b = se.1 := by omega
      subst this; omega
  have hf' : ∀ f, future l (need pb 1 j r) se.1 = some f → se.1 < f := by
    intro f hf
    obtain ⟨x, -, y⟩ := future_some hf
    rcases Nat.lt_or_ge se.1 f with h | h
    · exact h
    · have : f = se.1 := by omega
      subst this; omega
  cases hb : before l (need pb 1 j r) se.1 with
  | some b =>
    have := hb' b hb
    cases hfu : future l (need pb 1 j r) se.1 with
    | some f' =>
      have := hf' f' hfu
      simp only [CutHolds]; omega
    | none => simp only [CutHolds]; omega
  | none =>
    cases hfu : future l (need pb 1 j r) se.1 with
    | some f' =>
      have := hf' f' hfu
      simp only [CutHolds]; omega
    | none =>
      rcases Nat.le_total t se.1 with hle | hle
      · obtain ⟨b, hb2, -⟩ := before_ok hle hxt
        rw [hb] at hb2; cases hb2
      · obtain ⟨f', hf2, -⟩ := future_ok hle ht hxt
        rw [hfu] at hf2; cases hf2

/-- What the loop adds for judged solutions. -/
def added (partialSol : Bool) (repair : Sol → Sched) (l : List Sol) : List Sol :=
  if partialSol then [] else (l.filter (fun s => decide (s.satisfy = some false))).map (fun s => ⟨repair s, some true⟩)

theorem build_tail {pb : Problem} {p : Bool} {repair : Sol → Sched} : ∀ (n i fuel : Nat) (l : List Sol), l.length = i + n → n < fuel →
    (∀ k s, i ≤ k → l[k]? = some s → s.satisfy = some true) → build pb p repair fuel i l = .ok l
  | 0, i, fuel + 1, l, hl, _, _ => by
    rw [build, List.getElem?_eq_none (by omega)]
  | n + 1, i, fuel + 1, l, hl, hf, ht => by
    have hi : i < l.length := by omega
    rw [build, List.getElem?_eq_getElem hi]
    have hs := ht i _ (Nat.le_refl _) (List.getElem?_eq_getElem hi)
    have hj : judge pb l[i] = .ok l[i] := by unfold judge; rw [hs]
    simp only [hj, bind_ok, hs, List.set_getElem_self]
    rw [if_neg (by rintro ⟨h, -⟩; cases h)]
    exact build_tail n (i + 1) fuel l (by omega) (by omega) (fun k s hk => ht k s (by omega))

theorem build_ok {pb : Problem} {p : Bool} {repair : Sol → Sched} : ∀ (todo out done extra : List Sol) (fuel : Nat),
    todo.length = out.length → (∀ (k : Nat) s, todo[k]? = some s → ∃ s', judge pb s = .ok s' ∧ out[k]? = some s') →
    (∀ s ∈ extra, s.satisfy = some true) → 2 * todo.length + extra.length < fuel →
    build pb p repair fuel done.length (done ++ todo ++ extra) = .ok (done ++ out ++ extra ++ added p repair out)
  | [], out, done, extra, fuel, hlen, hj, he, hf => by
    obtain rfl : out = [] := List.length_eq_zero_iff.1 hlen.symm
    have ea : added p repair [] = [] := by unfold added; split <;> rfl
    rw [ea, List.append_nil, List.append_nil]
    refine build_tail extra.length _ fuel _ (by simp) (by simp at hf; omega) ?_
    intro k s hk hs
    rw [List.getElem?_append_right hk] at hs
    exact he s (List.mem_of_getElem? hs)
  | s :: todo, out, done, extra, fuel + 1, hlen, hj, he, hf => by
    cases out with
    | nil => cases hlen
    | cons s' out =>
      obtain ⟨s'', h1, h2⟩ := hj 0 s rfl
      obtain rfl := Option.some.inj h2
      have hlen' : todo.length = out.length := by simpa using hlen
      have hj' : ∀ (k : Nat) s, todo[k]? = some s → ∃ s', judge pb s = .ok s' ∧ out[k]? = some s' := fun k s hs => hj (k + 1) s hs
      have hget : (done ++ s :: todo ++ extra)[done.length]? = some s := by simp
      have hset : (done ++ s :: todo ++ extra).set done.length s' = done ++ [s'] ++ todo ++ extra := by simp
      have hdl : done.length + 1 = (done ++ [s']).length := by simp
      rw [build, hget]
      simp only [h1, bind_ok, hset, hdl]
      have hf' : 2 * todo.length + extra.length + 1 < fuel := by simp at hf; omega
      split
      · rename_i hc
        have := build_ok (p := p) (repair := repair) todo out (done ++ [s']) (extra ++ [⟨repair s', some true⟩]) fuel hlen' hj' (by
          intro x hx
          rcases List.mem_append.1 hx with hx | hx
          · exact he x hx
          · rw [List.mem_singleton.1 hx]) (by simp; omega)
        rw [← List.append_assoc] at this
        rw [this]
        have ea : added p repair (s' :: out) = ⟨repair s', some true⟩ :: added p repair out := by
          unfold added
          rw [hc.2]
          simp [hc.1]
        rw [ea]
        simp
      · rename_i hc
        rw [build_ok todo out (done ++ [s']) extra fuel hlen' hj' he (by omega)]
        have ea : added p repair (s' :: out) = added p repair out := by
          unfold added
          cases p with
          | true => rfl
          | false =>
            have : s'.satisfy ≠ some false := fun hh => hc ⟨hh, rfl⟩
            simp [this]
        rw [ea]
        simp

/-- C189: the loop over the growing store ends; the solutions are kept, judged, and followed by one repaired solution, declared satisfying,
for each that does not satisfy, or by none if there is a partial solution. -/
theorem C189_build {pb : Problem} {p : Bool} {repair : Sol → Sched} {l out : List Sol} (hlen : l.length = out.length)
    (hj : ∀ (k : Nat) s, l[k]? = some s → ∃ s', judge pb s = .ok s' ∧ out[k]? = some s') {fuel : Nat} (hf : 2 * l.length < fuel) :
    build pb p repair fuel 0 l = .ok (out ++ if p then [] else
      (out.filter (fun s => decide (s.satisfy = some false))).map (fun s => ⟨repair s, some true⟩)) := by
  have := build_ok (p := p) (repair := repair) l out [] [] fuel hlen hj (by simp) (by simpa using hf)
  simpa [added] using this

/-- One activity with two modes and a resource that is there at times 0 and 2 only. -/
def shift : Problem :=
  ⟨[("R", .calendar [2, 0, 2])], [], [(1, [(1, ⟨2, [("R", 1)]⟩), (2, ⟨1, [("R", 5)]⟩)])], [(1, [])], 10, 1⟩

theorem shift_sound {sched : Sched} (h : sched.keys.Nodup) : Sound shift sched := by
  refine ⟨by decide, by decide, h, ?_⟩
  intro j k ms m h1 h2
  have h3 := Dict.mem_of_get? h1
  simp only [shift, List.mem_singleton, Prod.mk.injEq] at h3
  obtain ⟨-, rfl⟩ := h3
  have h4 := Dict.mem_of_get? h2
  have : ∀ q ∈ [((1 : Nat), (⟨2, [("R", 1)]⟩ : Mode)), (2, ⟨1, [("R", 5)]⟩)], q.2.needs.keys.Nodup := by decide
  exact this _ h4

/-- C189 (refuted): a schedule in a mode other than 1 can require more than there is without a break. -/
theorem C189_modes_refuted : ∃ pb sched md d, Sound pb sched ∧ breaks pb sched = .ok d ∧ (∀ r f, d.get? r = some f → f.index = []) ∧
    ∃ r l t, pb.resources.get? r = some (.calendar l) ∧ t < l.length ∧ l.getD t 0 < demand pb md sched r t := by
  refine ⟨shift, [(1, 0, 1)], fun _ => 2, [("R", ⟨[], []⟩)], shift_sound (by decide), by decide +kernel, ?_, "R", [2, 0, 2], 0,
    by decide +kernel, by decide, by decide +kernel⟩
  intro r f h
  have := Dict.mem_of_get? h
  simp only [List.mem_singleton, Prod.mk.injEq] at this
  rw [this.2]

/-- C189 (refuted): a schedule beyond the calendar has no break. -/
theorem C189_beyond_refuted : ∃ pb sched d, Sound pb sched ∧ breaks pb sched = .ok d ∧ (∀ r f, d.get? r = some f → f.index = []) ∧
    ∃ r l t, pb.resources.get? r = some (.calendar l) ∧ l.length ≤ t ∧ 0 < demand pb (fun _ => 1) sched r t := by
  refine ⟨shift, [(1, 2, 4)], [("R", ⟨[], []⟩)], shift_sound (by decide), by decide +kernel, ?_, "R", [2, 0, 2], 3,
    by decide +kernel, by decide, by decide +kernel⟩
  intro r f h
  have := Dict.mem_of_get? h
  simp only [List.mem_singleton, Prod.mk.injEq] at this
  rw [this.2]

/-- C189 (refuted): a schedule with a break can meet all its cuts. -/
theorem C189_cut_void_refuted : ∃ pb sched d, Sound pb sched ∧ breaks pb sched = .ok d ∧ (∃ r f, d.get? r = some f ∧ f.index ≠ [] ∧ f.cuts ≠ []) ∧
    ∀ r f, d.get? r = some f → ∀ j c, (j, c) ∈ f.cuts → ∀ se, sched.get? j = some se → CutHolds c se.1 := by
  refine ⟨shift, [(1, 0, 2)], [("R", ⟨[1], [(1, some 0, some 0)]⟩)], shift_sound (by decide), by decide +kernel,
    ⟨"R", ⟨[1], [(1, some 0, some 0)]⟩, by decide +kernel, by decide, by decide⟩, ?_⟩
  intro r f h j c hc se hse
  have := Dict.mem_of_get? h
  simp only [List.mem_singleton, Prod.mk.injEq] at this
  rw [this.2] at hc
  simp only [List.mem_singleton, Prod.mk.injEq] at hc
  have h2 := Dict.mem_of_get? hse
  simp only [List.mem_singleton, Prod.mk.injEq] at h2
  rw [hc.2, h2.2]
  exact .inl (Nat.le_refl _)

/-- A start at the time without capacity is cut off; starts at 0 and 2 remain. -/
theorem shift_late : breaks shift [(1, 1, 3)] = .ok [("R", ⟨[1], [(1, some 0, some 2)]⟩)] := by decide +kernel

example : ¬ CutHolds (some 0, some 2) 1 :=
  C189_cut_excludes (shift_sound (by decide)) shift_late (r := "R") (f := ⟨[1], [(1, some 0, some 2)]⟩) (j := 1) (by decide +kernel) (by decide)
    (l := [2, 0, 2]) (by decide +kernel) (se := (1, 3)) (by decide +kernel) (by decide +kernel) ⟨0, by decide, by decide +kernel⟩

example : CutHolds (some 0, some 2) 2 := by
  refine C189_cut_valid (shift_sound (by decide)) shift_late (r := "R") (f := ⟨[1], [(1, some 0, some 2)]⟩) (j := 1) (by decide +kernel) (by decide)
    ?_ (other := [(1, 2, 3)]) (l := [2, 0, 2]) (by decide +kernel) ?_ (se := (2, 3)) (by decide +kernel) (by decide) (by decide)
  · intro j
    by_cases hj : j = 1
    · subst hj; decide +kernel
    · have : shift.modes.get? j = none := by
        show (if 1 = j then _ else _) = _
        rw [if_neg (Ne.symm hj)]; rfl
      simp [need, this]
  · intro t ht
    have : t = 0 ∨ t = 1 ∨ t = 2 := by simp at ht; omega
    rcases this with rfl | rfl | rfl <;> decide +kernel

example : build shift false (fun _ => [(1, 2, 4)]) 5 0 [⟨[(1, 1, 3)], none⟩, ⟨[(1, 0, 1)], none⟩] =
    .ok [⟨[(1, 1, 3)], some false⟩, ⟨[(1, 0, 1)], some true⟩, ⟨[(1, 2, 4)], some true⟩] := by
  refine (C189_build (fuel := 5) (l := [⟨[(1, 1, 3)], none⟩, ⟨[(1, 0, 1)], none⟩]) (out := [⟨[(1, 1, 3)], some false⟩, ⟨[(1, 0, 1)], some true⟩])
    rfl ?_ (by decide)).trans (by decide +kernel)
  intro k s hs
  match k with
  | 0 => obtain rfl := Option.some.inj hs; exact ⟨⟨[(1, 1, 3)], some false⟩, by decide +kernel, rfl⟩
  | 1 => obtain rfl := Option.some.inj hs; exact ⟨⟨[(1, 0, 1)], some true⟩, by decide +kernel, rfl⟩
  | k + 2 => cases hs

end Verif.CalBreaks
