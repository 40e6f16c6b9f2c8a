import Verif.Model.FacilityLp
import Verif.Lemmas.Milp
import Verif.Props.Facility
import Mathlib.Data.List.Nodup
/- Helper lemmas about the program of the facility solver. -/
namespace Verif.FacilityLp
open Verif.Milp Verif.Facility

theorem term_value (keep : Nat → Nat → Bool) (w : Int) (f c : Nat) (a : Var → Int) :
    (term keep w f c).value a = w * valueOf keep a f c := by
  unfold term valueOf
  split
  · simp [Lin.value]
  · simp [Lin.value]

theorem sum_map_congr {α : Type} {l : List α} {f g : α → Int} (h : ∀ x, x ∈ l → f x = g x) :
    (l.map f).sum = (l.map g).sum := by rw [List.map_congr_left h]

theorem sum_swap {α β : Type} (l : List α) (m : List β) (f : α → β → Int) :
    (l.map (fun x => (m.map (fun y => f x y)).sum)).sum = (m.map (fun y => (l.map (fun x => f x y)).sum)).sum := by
  induction l with
  | nil => simp only [List.map_nil, List.sum_nil]; rw [sum_zero_int]; simp
  | cons x l ih =>
    simp only [List.map_cons, List.sum_cons, ih]
    rw [← sum_map_add_int]

/-- What feasibility says. -/
structure Sat (p : Problem) (keep : Nat → Nat → Bool) (a : Var → Int) : Prop where
  bin : ∀ f c, f < p.facilities.length → c < p.customers.length → valueOf keep a f c = 0 ∨ valueOf keep a f c = 1
  bin' : ∀ f, f < p.facilities.length → a (.used f) = 0 ∨ a (.used f) = 1
  one : ∀ c, c < p.customers.length → ((List.range p.facilities.length).map (fun f => valueOf keep a f c)).sum = 1
  used : ∀ f c, f < p.facilities.length → c < p.customers.length → valueOf keep a f c ≤ a (.used f)
  cap : ∀ f, f < p.facilities.length →
    ((List.range p.customers.length).map (fun c => demandOf p c * valueOf keep a f c)).sum ≤ capOf p f

theorem feasible_iff {p : Problem} {keep : Nat → Nat → Bool} {a : Var → Int} :
    (initModel p keep).Feasible a ↔ Sat p keep a := by
  have h1 : ∀ c, (customerRow p keep c).Holds a ↔
      ((List.range p.facilities.length).map (fun f => valueOf keep a f c)).sum = 1 := by
    intro c; simp only [Row.Holds, customerRow, value_flatMap, term_value, Int.one_mul]
  have h2 : ∀ f c, (usedRow keep f c).Holds a ↔ valueOf keep a f c ≤ a (.used f) := by
    intro f c; simp only [Row.Holds, usedRow, value_cons, term_value]
    omega
  have h3 : ∀ f, (capacityRow p keep f).Holds a ↔
      ((List.range p.customers.length).map (fun c => demandOf p c * valueOf keep a f c)).sum ≤ capOf p f := by
    intro f; simp only [Row.Holds, capacityRow, value_flatMap, term_value]
  constructor
  · rintro ⟨hv, hr⟩
    refine ⟨?_, ?_, ?_, ?_, ?_⟩
    · intro f c hf hc
      by_cases hk : keep f c
      · have := hv (.x f c) .binary (by
          simp only [initModel, List.mem_append, List.mem_flatMap, List.mem_map, List.mem_filter, List.mem_range]
          exact .inl ⟨f, hf, c, ⟨hc, hk⟩, rfl⟩)
        simpa [valueOf, hk, Kind.Allows] using this
      · left; simp [valueOf, hk]
    · intro f hf
      exact hv (.used f) .binary (by
        simp only [initModel, List.mem_append, List.mem_map, List.mem_range]
        exact .inr ⟨f, hf, rfl⟩)
    · intro c hc
      refine (h1 c).1 (hr _ ?_)
      simp only [initModel, List.mem_append, List.mem_map, List.mem_range]
      exact .inl ⟨c, hc, rfl⟩
    · intro f c hf hc
      refine (h2 f c).1 (hr _ ?_)
      simp only [initModel, List.mem_append, List.mem_flatMap, List.mem_map, List.mem_range]
      exact .inr ⟨f, hf, .inl ⟨c, hc, rfl⟩⟩
    · intro f hf
      refine (h3 f).1 (hr _ ?_)
      simp only [initModel, List.mem_append, List.mem_flatMap, List.mem_map, List.mem_range, List.mem_singleton]
      exact .inr ⟨f, hf, .inr rfl⟩
  · intro h
    constructor
    · intro v k hk
      simp only [initModel, List.mem_append, List.mem_flatMap, List.mem_map, List.mem_filter, List.mem_range] at hk
      rcases hk with ⟨f, hf, c, ⟨hc, hk⟩, heq⟩ | ⟨f, hf, heq⟩
      · cases heq
        have := h.bin f c hf hc
        simpa [valueOf, hk, Kind.Allows] using this
      · cases heq; exact h.bin' f hf
    · intro r hr
      simp only [initModel, List.mem_append, List.mem_flatMap, List.mem_map, List.mem_range, List.mem_singleton] at hr
      rcases hr with ⟨c, hc, rfl⟩ | ⟨f, hf, ⟨c, hc, rfl⟩ | rfl⟩
      · exact (h1 c).2 (h.one c hc)
      · exact (h2 f c).2 (h.used f c hf hc)
      · exact (h3 f).2 (h.cap f hf)

theorem objective_value (p : Problem) (keep : Nat → Nat → Bool) (a : Var → Int) :
    (initModel p keep).objective.value a =
      ((List.range p.facilities.length).map (fun f => setupOf p f * a (.used f))).sum +
      ((List.range p.customers.length).map (fun (c : Nat) =>
        ((List.range p.facilities.length).map (fun (f : Nat) => p.cost f c * valueOf keep a f c)).sum)).sum := by
  simp only [initModel, value_append, value_map, value_flatMap, term_value]
  rw [sum_swap]

theorem readFrom_spec {keep : Nat → Nat → Bool} {a : Var → Int} {col : Nat → Nat} {n : Nat} (ks : List (Nat × Nat))
    (hk : ∀ k, k ∈ ks → k.2 < n) (hc : ∀ k, k ∈ ks → 1 ≤ 2 * valueOf keep a k.1 k.2 → k.1 = col k.2) :
    ∀ sol : List Int, sol.length = n → ∃ out, readFrom keep a ks sol = .ok out ∧ out.length = n ∧
      ∀ c, c < n → ((col c, c) ∈ ks ∧ 1 ≤ 2 * valueOf keep a (col c) c ∨ sol[c]? = some (col c : Int)) → out[c]? = some (col c : Int) := by
  induction ks with
  | nil => intro sol h; exact ⟨sol, rfl, h, by simp⟩
  | cons k ks ih =>
    obtain ⟨f, d⟩ := k
    intro sol hlen
    have hk' : ∀ k, k ∈ ks → k.2 < n := fun k h => hk k (by simp [h])
    have hc' : ∀ k, k ∈ ks → 1 ≤ 2 * valueOf keep a k.1 k.2 → k.1 = col k.2 := fun k h => hc k (by simp [h])
    by_cases hsel : 1 ≤ 2 * valueOf keep a f d
    · have hd : d < n := hk (f, d) (by simp)
      have hset : pySet sol d (f : Int) = .ok (sol.set d f) := pySet_ok_iff.2 ⟨by omega, rfl⟩
      obtain ⟨out, ho, hol, hspec⟩ := ih hk' hc' (sol.set d f) (by simpa using hlen)
      have hf : f = col d := hc (f, d) (by simp) hsel
      refine ⟨out, by simp only [readFrom, hsel, if_true, hset, bind_ok, ho], hol, ?_⟩
      intro c hcn h
      apply hspec c hcn
      by_cases hcd : c = d
      · subst hcd; right; rw [List.getElem?_set_self (by omega), hf]
      · rcases h with ⟨h1, h2⟩ | h
        · rcases List.mem_cons.1 h1 with h1 | h1
          · cases h1; exact absurd rfl hcd
          · exact .inl ⟨h1, h2⟩
        · right; rw [List.getElem?_set_ne (Ne.symm hcd)]; exact h
    · obtain ⟨out, ho, hol, hspec⟩ := ih hk' hc' sol hlen
      refine ⟨out, by simp only [readFrom, hsel, if_false, ho], hol, ?_⟩
      intro c hcn h
      apply hspec c hcn
      rcases h with ⟨h1, h2⟩ | h
      · rcases List.mem_cons.1 h1 with h1 | h1
        · cases h1; exact absurd h2 hsel
        · exact .inl ⟨h1, h2⟩
      · exact .inr h

theorem retrieve_spec {p : Problem} (hp : p.customers.length = p.customerCount) {keep : Nat → Nat → Bool} {a : Var → Int}
    {col : Nat → Nat} (hc : ∀ c, c < p.customerCount → col c < p.facilities.length ∧ valueOf keep a (col c) c = 1 ∧
      ∀ f, f < p.facilities.length → 1 ≤ 2 * valueOf keep a f c → f = col c) :
    retrieve p keep a = .ok ((List.range p.customerCount).map (fun c => (col c : Int))) := by
  have hmem : ∀ k : Nat × Nat, k ∈ (List.range p.facilities.length).flatMap (fun f =>
      (List.range p.customers.length).map (fun c => (f, c))) ↔ k.1 < p.facilities.length ∧ k.2 < p.customers.length := by
    rintro ⟨f, c⟩
    simp only [List.mem_flatMap, List.mem_range, List.mem_map, Prod.mk.injEq]
    constructor
    · rintro ⟨f', h1, c', h2, rfl, rfl⟩; exact ⟨h1, h2⟩
    · rintro ⟨h1, h2⟩; exact ⟨f, h1, c, h2, rfl, rfl⟩
  obtain ⟨out, ho, hol, hspec⟩ := readFrom_spec (keep := keep) (a := a) (col := col) (n := p.customerCount)
    ((List.range p.facilities.length).flatMap (fun f => (List.range p.customers.length).map (fun c => (f, c))))
    (fun k hk => by have := (hmem k).1 hk; omega)
    (fun k hk h => (hc k.2 (by have := (hmem k).1 hk; omega)).2.2 k.1 ((hmem k).1 hk).1 h)
    (List.replicate p.customerCount 0) (by simp)
  unfold retrieve
  rw [ho]
  congr 1
  apply List.ext_getElem?
  intro c
  by_cases hcn : c < p.customerCount
  · obtain ⟨h1, h2, -⟩ := hc c hcn
    rw [hspec c hcn (.inl ⟨(hmem _).2 ⟨h1, by simp only; omega⟩, by omega⟩)]
    simp [hcn]
  · rw [List.getElem?_eq_none (by omega), List.getElem?_eq_none (by simp; omega)]

/-- The demand at a facility, as a sum over the customers. -/
theorem demandAt_eq {p : Problem} (hp : p.customers.length = p.customerCount) (col : Nat → Nat) (f : Nat) :
    demandAt p ((List.range p.customerCount).map (fun c => (col c : Int))) (f : Int) =
      ((List.range p.customers.length).map (fun c => demandOf p c * (if f = col c then 1 else 0))).sum := by
  have hz : (((List.range p.customerCount).map (fun c => (col c : Int))).zip p.customers).take p.customerCount =
      (List.range p.customerCount).map (fun c => ((col c : Int), demandOf p c)) := by
    apply List.ext_getElem?
    intro i
    rw [List.getElem?_take]
    by_cases hi : i < p.customerCount
    · have h2 : p.customers[i]? = some (demandOf p i) := by
        unfold demandOf
        rw [List.getD_eq_getElem?_getD, List.getElem?_eq_getElem (by omega)]; rfl
      have h3 : (((List.range p.customerCount).map (fun c => (col c : Int))).zip p.customers)[i]? =
          some ((col i : Int), demandOf p i) := List.getElem?_zip_eq_some.2 ⟨by simp [hi], h2⟩
      rw [if_pos hi, h3]
      simp [hi]
    · rw [if_neg hi, List.getElem?_eq_none (by simp; omega)]
  unfold demandAt
  rw [hz, hp]
  generalize List.range p.customerCount = l
  induction l with
  | nil => rfl
  | cons c l ih =>
    rw [List.map_cons, List.filter_cons, List.map_cons, List.sum_cons, ← ih]
    by_cases h : f = col c
    · have : (col c : Int) = (f : Int) := by omega
      simp [h]
    · have : ¬ (col c : Int) = (f : Int) := by omega
      simp [h, this]

/-- The connection costs, as a sum over the customers. -/
theorem costs_eq (p : Problem) (col : Nat → Nat) (n : Nat) :
    costs p 0 ((List.range n).map (fun c => (col c : Int))) = ((List.range n).map (fun c => p.cost (col c) c)).sum := by
  induction n with
  | zero => rfl
  | succ n ih =>
    rw [List.range_succ, List.map_append, List.map_append, sum_append_int, List.map_cons, List.map_nil, costs_snoc, ih]
    simp

theorem wf_of_col {p : Problem} (hp : p.customers.length = p.customerCount) {col : Nat → Nat}
    (hc : ∀ c, c < p.customerCount → col c < p.facilities.length) :
    WF p ((List.range p.customerCount).map (fun c => (col c : Int))) := by
  refine ⟨by simp, by omega, ?_⟩
  intro f hf
  obtain ⟨c, hc', rfl⟩ := List.mem_map.1 (List.mem_of_mem_take hf)
  have := hc c (List.mem_range.1 hc')
  exact ⟨by omega, by simpa using this⟩

/-- The setup costs of the opened facilities, as a sum over the facilities. -/
theorem setup_eq {p : Problem} {opened : List Int} (hn : opened.Nodup)
    (hr : ∀ f, f ∈ opened → 0 ≤ f ∧ f.toNat < p.facilities.length) :
    ((opened.filterMap (fun f => p.facilities[f.toNat]?)).map Fac.setup).sum =
      ((List.range p.facilities.length).map (fun (f : Nat) => setupOf p f * (if (f : Int) ∈ opened then 1 else 0))).sum := by
  have h1 : ((opened.filterMap (fun f => p.facilities[f.toNat]?)).map Fac.setup).sum =
      ((opened.map Int.toNat).map (fun (f : Nat) => setupOf p f * (if (f : Int) ∈ opened then 1 else 0))).sum := by
    have : ∀ l : List Int, (∀ f, f ∈ l → f ∈ opened) → ((l.filterMap (fun f => p.facilities[f.toNat]?)).map Fac.setup).sum =
      ((l.map Int.toNat).map (fun (f : Nat) => setupOf p f * (if (f : Int) ∈ opened then 1 else 0))).sum := by
      intro l
      induction l with
      | nil => simp
      | cons f l ih =>
        intro hl
        obtain ⟨h0, hlt⟩ := hr f (hl f (by simp))
        have hf := hl f (by simp)
        have he : p.facilities[f.toNat]? = some p.facilities[f.toNat] := List.getElem?_eq_getElem hlt
        rw [List.filterMap_cons, he]
        simp only [List.map_cons, List.sum_cons]
        rw [ih (fun g hg => hl g (by simp [hg]))]
        have : ((f.toNat : Nat) : Int) = f := by omega
        rw [this, if_pos hf]
        simp [setupOf, he]
    exact this opened (fun f h => h)
  rw [h1]
  symm
  apply sum_support
  · refine List.Nodup.map_on ?_ hn
    intro f hf g hg heq
    have := (hr f hf).1; have := (hr g hg).1
    omega
  · intro d hd
    obtain ⟨f, hf, rfl⟩ := List.mem_map.1 hd
    exact (hr f hf).2
  · intro i _ hi
    rw [if_neg]
    · simp
    · intro h
      exact hi (List.mem_map.2 ⟨(i : Int), h, by simp⟩)

end Verif.FacilityLp
