import Verif.Lemmas.RcpspLoop
/- What the properties of schedules talk about, and its relation to the book-keeping of schedule generation. -/
namespace Verif.Rcpsp

/-- What there is of a resource at time `t`. -/
def capOf : Capacity → Nat → Option Int
  | .const c, _ => some c
  | .calendar l, t => l[t]?

/-- Does the activity run at time `t`? -/
def runsAt (sch : Dict Nat (Int × Int)) (t : Int) (a : Nat) : Bool :=
  match sch.get? a with
  | some p => decide (p.1 ≤ t ∧ t < p.2)
  | none => false

/-- Does the activity take any time? -/
def takesTime (sch : Dict Nat (Int × Int)) (a : Nat) : Bool :=
  match sch.get? a with
  | some p => decide (p.1 < p.2)
  | none => false

/-- Has the activity started at time `t`? -/
def startedBy (sch : Dict Nat (Int × Int)) (t : Int) (a : Nat) : Bool :=
  match sch.get? a with
  | some p => decide (p.1 ≤ t)
  | none => false

/-- The requirements of some activities together. -/
def total (need : Nat → Int) (acts : List Nat) : Int := (acts.map need).sum

/-- The requirements of those activities that run at time `t`. -/
def load (need : Nat → Int) (sch : Dict Nat (Int × Int)) (t : Int) (acts : List Nat) : Int := total need (acts.filter (runsAt sch t))

theorem placed_keys (pb : Problem) (ext : List Nat) (ends : Dict Nat Nat) : Dict.keys (placed pb ext ends) = ends.keys := by
  simp [placed, Dict.keys]

theorem mem_placed {pb : Problem} {ext : List Nat} {ends : Dict Nat Nat} {a : Nat} {s e : Int} :
    (a, (s, e)) ∈ placed pb ext ends ↔ ∃ e' : Nat, (a, e') ∈ ends ∧ s = (e' : Int) - dur pb ext a ∧ e = e' := by
  simp only [placed, List.mem_map, Prod.mk.injEq, Prod.exists]
  constructor
  · rintro ⟨a', e', hm, rfl, h1, h2⟩
    exact ⟨e', hm, h1.symm, h2.symm⟩
  · rintro ⟨e', hm, h1, h2⟩
    exact ⟨a, e', hm, rfl, h1.symm, h2.symm⟩

theorem all_placed {base : Nat → Nat} {pb : Problem} {ext E : List Nat} {st : St} (inv : Inv pb base ext E st) (h : st.perm = []) (a : Nat) : a ∈ st.ends.keys ↔ a ∈ E := by
  refine ⟨inv.sub a, fun ha => ?_⟩
  have := inv.perm
  rw [h] at this
  have := (List.filter_eq_nil_iff.1 this.symm) a ha
  simpa using this

theorem details_ok {pb : Problem} {ext : List Nat} {a : Nat} {m : Mode} (h : details pb ext a = .ok m) :
    ∃ d k, pb.modes.get? a = some d ∧ ext[a - 1]? = some k ∧ d.get? k = some m := by
  simp only [details] at h
  obtain ⟨d, hd, h⟩ := bind_eq_ok.1 h
  obtain ⟨k, hk, h⟩ := bind_eq_ok.1 h
  exact ⟨d, k, dict_get_ok.1 hd, pyGet_ok_iff.1 hk, dict_get_ok.1 h⟩

theorem fixModes_spec (pb : Problem) : ∀ (i : Nat) (ms ext : List Nat), fixModes pb i ms = .ok ext → ext.length = ms.length ∧
    ∀ (j m : Nat), ms[j]? = some m → ∃ d, pb.modes.get? (i + j + 1) = some d ∧ ext[j]? = some (if m ∈ d.keys then m else 1) := by
  intro i ms
  induction ms generalizing i with
  | nil => intro ext h; cases h; simp
  | cons m ms ih =>
    intro ext h
    simp only [fixModes] at h
    obtain ⟨d, hd, h⟩ := bind_eq_ok.1 h
    obtain ⟨rest, hr, h⟩ := bind_eq_ok.1 h
    cases h
    obtain ⟨h1, h2⟩ := ih _ _ hr
    refine ⟨by simp [h1], fun j m' hj => ?_⟩
    cases j with
    | zero =>
      simp only [List.getElem?_cons_zero, Option.some.injEq] at hj
      subst hj
      refine ⟨d, dict_get_ok.1 hd, ?_⟩
      simp [Dict.contains_iff, Dict.get?_isSome_iff_mem_keys]
    | succ j =>
      simp only [List.getElem?_cons_succ] at hj
      obtain ⟨d', g1, g2⟩ := h2 j m' hj
      exact ⟨d', by rw [← g1]; congr 1; omega, by simpa using g2⟩

theorem initRow_some {H : Nat} {cap : Capacity} {t : Nat} {c : Int} (ht : t < H) (h : capOf cap t = some c) : (initRow H cap)[t]? = some c := by
  cases cap with
  | const x => simp only [capOf] at h; cases h; simp [initRow, ht]
  | calendar l =>
    simp only [capOf] at h
    simp only [initRow]
    rw [List.getElem?_take_of_lt (by omega), h]

theorem capOf_initRow {H : Nat} {cap : Capacity} {t : Nat} {c : Int} (ht : t < H) (h : (initRow H cap)[t]? = some c) : capOf cap t = some c := by
  cases cap with
  | const x => simp [initRow, ht] at h; simp [capOf, h]
  | calendar l =>
    simp only [initRow] at h
    rw [List.getElem?_take_of_lt (by omega)] at h
    exact h

theorem sum_ite_filter (need : Nat → Int) (q : Nat × (Int × Int) → Bool) : ∀ l : Dict Nat (Int × Int),
    (l.map (fun p => if q p then need p.1 else 0)).sum = total need ((l.filter q).map (·.1)) := by
  intro l
  induction l with
  | nil => rfl
  | cons p l ih =>
    simp only [List.map_cons, List.sum_cons, ih, List.filter_cons]
    by_cases h : q p = true
    · rw [if_pos h, if_pos h]; simp [total]
    · rw [if_neg h, if_neg h]; omega

theorem filter_keys (f : Nat → Bool) (q : Nat × (Int × Int) → Bool) : ∀ l : Dict Nat (Int × Int), (∀ p ∈ l, f p.1 = q p) →
    l.keys.filter f = (l.filter q).map (·.1) := by
  intro l
  induction l with
  | nil => intro _; rfl
  | cons p l ih =>
    intro h
    have h0 := h p (by simp)
    have := ih (fun p hp => h p (by simp [hp]))
    simp only [Dict.keys] at this ⊢
    simp only [List.map_cons, List.filter_cons, h0, this]
    split <;> simp

theorem used_eq_load (need : Nat → Int) {sch : Dict Nat (Int × Int)} (hn : sch.keys.Nodup) {t : Int} :
    used false need sch t = load need sch t sch.keys := by
  unfold used load
  rw [sum_ite_filter need (fun p => charged false p.2.1 p.2.2 t)]
  rw [filter_keys (runsAt sch t) (fun p => charged false p.2.1 p.2.2 t)]
  intro p hp
  simp [runsAt, Dict.get?_of_mem hn (k := p.1) (v := p.2) hp, charged]

theorem used_eq_total (need : Nat → Int) {sch : Dict Nat (Int × Int)} (hn : sch.keys.Nodup) {t : Int}
    (ht : ∀ a s e, (a, (s, e)) ∈ sch → s < e → s ≤ t) :
    used true need sch t = total need (sch.keys.filter (takesTime sch)) := by
  unfold used
  rw [sum_ite_filter need (fun p => charged true p.2.1 p.2.2 t)]
  rw [filter_keys (takesTime sch) (fun p => charged true p.2.1 p.2.2 t)]
  intro p hp
  have := ht p.1 p.2.1 p.2.2 hp
  simp only [takesTime, Dict.get?_of_mem hn (k := p.1) (v := p.2) hp, charged, ↓reduceIte, decide_eq_decide]
  exact ⟨fun h => ⟨h, this h⟩, fun h => h.1⟩

theorem used_eq_started (need : Nat → Int) {sch : Dict Nat (Int × Int)} (hn : sch.keys.Nodup) {t : Int} :
    used true need sch t = total need (sch.keys.filter (fun a => takesTime sch a && startedBy sch t a)) := by
  unfold used
  rw [sum_ite_filter need (fun p => charged true p.2.1 p.2.2 t)]
  rw [filter_keys (fun a => takesTime sch a && startedBy sch t a) (fun p => charged true p.2.1 p.2.2 t)]
  intro p hp
  simp [takesTime, startedBy, Dict.get?_of_mem hn (k := p.1) (v := p.2) hp, charged]

theorem used_zero {nr : Bool} {need : Nat → Int} {sch : Dict Nat (Int × Int)} {t : Int}
    (h : ∀ p ∈ sch, charged nr p.2.1 p.2.2 t = false) : used nr need sch t = 0 := by
  unfold used
  induction sch with
  | nil => rfl
  | cons p sch ih =>
    simp only [List.map_cons, List.sum_cons, h p (by simp), Bool.false_eq_true, ↓reduceIte]
    rw [ih (fun p hp => h p (by simp [hp]))]; rfl

end Verif.Rcpsp
