import Verif.Model.CpFacility
import Verif.Props.FacilityLp
/- Lemmas for property C184. -/
namespace Verif.CpFacility
open Facility FacilityLp Milp

/-- The facility of a customer, from 0. -/
def col (v : Vars) (c : Nat) : Nat := v.facility.getD c 0 - 1

theorem facility_get {p : Problem} {v : Vars} (h : Solves p v) {c : Nat} (hc : c < p.customerCount) :
    v.facility[c]? = some (col v c + 1) ∧ col v c < p.facilities.length ∧ ((v.facility.getD c 0 : Nat) : Int) - 1 = col v c := by
  have hl : c < v.facility.length := by rw [h.len]; exact hc
  have hd := h.dom _ (List.getElem_mem hl)
  have hg : v.facility.getD c 0 = v.facility[c] := by simp [List.getD_eq_getElem?_getD, hl]
  simp only [col, hg, List.getElem?_eq_getElem hl]
  refine ⟨by congr 1; omega, by omega, by omega⟩

theorem decode_eq {p : Problem} {v : Vars} (h : Solves p v) :
    decode v = (List.range p.customerCount).map (fun c => (col v c : Int)) := by
  apply List.ext_getElem?
  intro c
  by_cases hc : c < p.customerCount
  · rw [decode, List.getElem?_map, (facility_get h hc).1, List.getElem?_map, List.getElem?_range hc]
    simp
  · rw [List.getElem?_eq_none (by rw [decode, List.length_map, h.len]; omega), List.getElem?_eq_none (by simp; omega)]

theorem load_eq {p : Problem} (hp : p.customers.length = p.customerCount) {v : Vars} (h : Solves p v) {f : Nat} (hf : f < p.facilities.length) :
    v.load f = demandAt p (decode v) f := by
  rw [decode_eq h, demandAt_eq hp, ← h.load f hf, hp]
  refine sum_map_congr ?_
  intro c hc
  rw [(facility_get h (List.mem_range.1 hc)).1]
  by_cases he : f = col v c
  · simp [he]
  · rw [if_neg (by simp; omega), if_neg he]; simp

theorem demandAt_nothing {p : Problem} (hp : p.customers.length = p.customerCount) (g : Nat → Nat) {f : Nat}
    (h : ∀ c, c < p.customerCount → g c ≠ f) : demandAt p ((List.range p.customerCount).map (fun c => (g c : Int))) f = 0 := by
  rw [demandAt_eq hp, sum_zero_int]
  intro x hx
  obtain ⟨c, hc, rfl⟩ := List.mem_map.1 hx
  rw [List.mem_range, hp] at hc
  have := h c hc
  rw [if_neg (by omega)]; simp

theorem demandAt_pos {p : Problem} (hp : p.customers.length = p.customerCount) (hd : ∀ d ∈ p.customers, 0 < d) (g : Nat → Nat) {c : Nat}
    (hc : c < p.customerCount) : 0 < demandAt p ((List.range p.customerCount).map (fun c => (g c : Int))) (g c : Nat) := by
  rw [demandAt_eq hp, hp]
  have hpos : ∀ x, x < p.customerCount → 0 < demandOf p x := by
    intro x hx
    have : x < p.customers.length := by omega
    rw [demandOf, List.getD_eq_getElem?_getD, List.getElem?_eq_getElem this]
    exact hd _ (List.getElem_mem this)
  have hnn : ∀ l : List Nat, (∀ x ∈ l, x < p.customerCount) → 0 ≤ (l.map (fun x => demandOf p x * (if g c = g x then 1 else 0))).sum ∧
      (c ∈ l → 0 < (l.map (fun x => demandOf p x * (if g c = g x then 1 else 0))).sum) := by
    intro l
    induction l with
    | nil => simp
    | cons x l ih =>
      intro hl
      obtain ⟨i1, i2⟩ := ih (fun y hy => hl y (List.mem_cons_of_mem _ hy))
      have hx := hpos x (hl x (by simp))
      rw [List.map_cons, List.sum_cons]
      have h0 : 0 ≤ demandOf p x * (if g c = g x then 1 else 0) := by split <;> omega
      refine ⟨by omega, ?_⟩
      intro hm
      rcases List.mem_cons.1 hm with rfl | hm
      · simp only [if_pos]; omega
      · have := i2 hm; omega
  exact (hnn _ (fun x hx => List.mem_range.1 hx)).2 (List.mem_range.2 hc)

/-- The value of a solution of the program and the evaluation of the assignment. -/
theorem value_spec {p : Problem} (hp : p.customers.length = p.customerCount) {v : Vars} (h : Solves p v) :
    ∃ e, evaluate p (decode v) = .ok e ∧
      v.objective = e.cost + e.setup - ((List.range p.facilities.length).map (fun (f : Nat) =>
        if (f : Int) ∈ decode v ∧ demandAt p (decode v) f ≤ 0 then setupOf p f else 0)).sum := by
  have hcol : ∀ c, c < p.customerCount → col v c < p.facilities.length := fun c hc => (facility_get h hc).2.1
  have hwf := wf_of_col hp hcol
  obtain ⟨e, opened, he, hon, hom, hos, -, hoc, -⟩ := C33_costs hwf
  have htake : ((List.range p.customerCount).map (fun c => (col v c : Int))).take p.customerCount =
      (List.range p.customerCount).map (fun c => (col v c : Int)) := List.take_of_length_le (by simp)
  rw [htake] at hom hoc
  rw [← decode_eq h] at hom
  have hir : ∀ f, f ∈ opened → 0 ≤ f ∧ f.toNat < p.facilities.length := by
    intro f hf
    have hm := (hom f).1 hf
    rw [decode_eq h] at hm
    obtain ⟨c, hc, rfl⟩ := List.mem_map.1 hm
    have := hcol c (List.mem_range.1 hc)
    exact ⟨by omega, by simpa using this⟩
  refine ⟨e, by rw [decode_eq h]; exact he, ?_⟩
  rw [h.objective, hos, hoc, costs_eq, setup_eq hon hir]
  have h1 : ((List.range p.customerCount).map (fun c => p.cost (((v.facility.getD c 0 : Nat) : Int) - 1) c)).sum =
      ((List.range p.customerCount).map (fun c => p.cost (col v c) c)).sum :=
    sum_map_congr (fun c hc => by rw [(facility_get h (List.mem_range.1 hc)).2.2])
  rw [h1]
  have h2 : ∀ l : List Nat, (∀ f ∈ l, f < p.facilities.length) →
      (l.map (fun f => (if v.opened f = true then 1 else 0) * setupOf p f)).sum =
      (l.map (fun (f : Nat) => setupOf p f * (if (f : Int) ∈ opened then 1 else 0))).sum -
      (l.map (fun (f : Nat) => if (f : Int) ∈ decode v ∧ demandAt p (decode v) f ≤ 0 then setupOf p f else 0)).sum := by
    intro l
    induction l with
    | nil => intro _; simp
    | cons f l ih =>
      intro hl
      have hf := hl f (by simp)
      have := ih (fun g hg => hl g (List.mem_cons_of_mem _ hg))
      rw [List.map_cons, List.map_cons, List.map_cons, List.sum_cons, List.sum_cons, List.sum_cons, this]
      have hterm : (if v.opened f = true then 1 else 0) * setupOf p f = setupOf p f * (if (f : Int) ∈ opened then 1 else 0) -
          (if (f : Int) ∈ decode v ∧ demandAt p (decode v) f ≤ 0 then setupOf p f else 0) := by
        have ho := h.opened f hf
        rw [load_eq hp h hf] at ho
        by_cases hm : (f : Int) ∈ decode v
        · rw [if_pos ((hom f).2 hm)]
          by_cases hd : 0 < demandAt p (decode v) f
          · rw [if_pos (ho.2 hd), if_neg (by omega)]; omega
          · rw [if_neg (fun x => hd (ho.1 x)), if_pos ⟨hm, by omega⟩]; omega
        · have hz : demandAt p (decode v) f = 0 := by
            rw [decode_eq h]
            refine demandAt_nothing hp _ ?_
            intro c hc he
            apply hm
            rw [decode_eq h]
            exact List.mem_map.2 ⟨c, List.mem_range.2 hc, by rw [he]⟩
          rw [if_neg (fun x => by have := ho.1 x; omega), if_neg (fun x => hm ((hom f).1 x)), if_neg (fun x => hm x.1)]; simp
      omega
  rw [h2 _ (fun f hf => List.mem_range.1 hf)]
  omega

/-- An assignment that overloads nothing, as a solution. -/
theorem exists_solution {p : Problem} (hp : p.customers.length = p.customerCount) (hcap : ∀ fac, fac ∈ p.facilities → 0 ≤ fac.capacity)
    {assign : List Int} (h : Assigned p assign) : ∃ v, Solves p v ∧ decode v = assign := by
  obtain ⟨g, hg, rfl⟩ := col_of_assign h
  have htake : ((List.range p.customerCount).map (fun c => (g c : Int))).take p.customerCount =
      (List.range p.customerCount).map (fun c => (g c : Int)) := List.take_of_length_le (by simp)
  let fs := (List.range p.customerCount).map (fun c => g c + 1)
  let ld : Nat → Int := fun f => ((List.range p.customerCount).map (fun c => if fs[c]? = some (f + 1) then demandOf p c else 0)).sum
  have hld : ∀ f, ld f = demandAt p ((List.range p.customerCount).map (fun c => (g c : Int))) f := by
    intro f
    rw [demandAt_eq hp, hp]
    refine sum_map_congr ?_
    intro c hc
    simp only [fs, List.getElem?_map, List.getElem?_range (List.mem_range.1 hc), Option.map_some, Option.some.injEq, Nat.add_right_cancel_iff]
    by_cases he : f = g c
    · rw [if_pos he.symm, if_pos he]; simp
    · rw [if_neg (fun x => he x.symm), if_neg he]; simp
  refine ⟨⟨fs, ld, fun f => decide (0 < ld f), ((List.range p.facilities.length).map (fun f => (if decide (0 < ld f) then 1 else 0) * setupOf p f)).sum +
    ((List.range p.customerCount).map (fun c => p.cost ((fs.getD c 0 : Nat) - 1 : Int) c)).sum⟩, ⟨by simp [fs], ?_, fun _ _ => rfl, ?_, fun _ _ => by simp, rfl⟩, ?_⟩
  · intro f hf
    obtain ⟨c, hc, rfl⟩ := List.mem_map.1 hf
    have := hg c (List.mem_range.1 hc)
    omega
  · intro f hf
    show ld f ≤ capOf p f
    rw [hld]
    have hfac : p.facilities[f]? = some p.facilities[f] := List.getElem?_eq_getElem hf
    have hc2 : capOf p f = p.facilities[f].capacity := by simp [capOf, hfac]
    rw [hc2]
    by_cases hu : ∃ c, c < p.customerCount ∧ g c = f
    · obtain ⟨c, hc, rfl⟩ := hu
      refine h.2.2 _ _ ?_ (by simp)
      rw [htake]
      exact List.mem_map.2 ⟨c, List.mem_range.2 hc, rfl⟩
    · rw [demandAt_nothing hp g (fun c hc he => hu ⟨c, hc, he⟩)]
      exact hcap _ (List.getElem_mem hf)
  · simp [decode, fs]

end Verif.CpFacility
