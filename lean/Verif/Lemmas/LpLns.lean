import Verif.Model.LpLns
import Verif.Lemmas.FacilityLp
import Verif.Props.FacilityLp
import Verif.Props.ColoringLp
/- Helper lemmas about the neighbourhoods of the searches with linear programs. -/
namespace Verif.LpLns
open Verif.Milp

theorem feasible_with {V : Type} {p : Program V} {rows : List (Row V)} {a : V → Int} :
    (withRows p rows).Feasible a ↔ p.Feasible a ∧ ∀ r, r ∈ rows → r.Holds a := by
  unfold withRows Program.Feasible
  simp only [List.mem_append]
  constructor
  · rintro ⟨h1, h2⟩
    exact ⟨⟨h1, fun r hr => h2 r (.inl hr)⟩, fun r hr => h2 r (.inr hr)⟩
  · rintro ⟨⟨h1, h2⟩, h3⟩
    exact ⟨h1, fun r hr => hr.elim (h2 r) (h3 r)⟩

theorem fixed_holds {V : Type} {v : V} {x : Int} {a : V → Int} : (fixed v x).Holds a ↔ a v = x := by
  simp [fixed, Row.Holds, Lin.value]

theorem objective_with {V : Type} (p : Program V) (rows : List (Row V)) : (withRows p rows).objective = p.objective := rfl

theorem maxInt_spec {l : List Int} {m : Int} (h : maxInt l = .ok m) : m ∈ l ∧ ∀ x, x ∈ l → x ≤ m := by
  cases l with
  | nil => cases h
  | cons x l =>
    simp only [maxInt, Except.ok.injEq] at h
    subst h
    induction l generalizing x with
    | nil => simp
    | cons y l ih =>
      rw [List.foldl_cons]
      obtain ⟨h1, h2⟩ := ih (max x y)
      constructor
      · rcases List.mem_cons.1 h1 with h1 | h1
        · rw [h1]
          rcases Int.le_total x y with h | h
          · rw [Int.max_eq_right h]; simp
          · rw [Int.max_eq_left h]; simp
        · simp [h1]
      · intro z hz
        have hm := h2 (max x y) (by simp)
        rcases List.mem_cons.1 hz with rfl | hz
        · omega
        · rcases List.mem_cons.1 hz with rfl | hz
          · omega
          · exact h2 z (by simp [hz])

theorem maxInt_ok {l : List Int} (h : l ≠ []) : ∃ m, maxInt l = .ok m := by
  cases l with
  | nil => exact absurd rfl h
  | cons x l => exact ⟨_, rfl⟩

/-- What a feasible assignment of the facility program says about the reading. -/
theorem facility_values {p : Facility.Problem} (hp : p.customers.length = p.customerCount) {keep : Nat → Nat → Bool}
    {a : FacilityLp.Var → Int} (ha : (FacilityLp.initModel p keep).Feasible a) :
    ∃ col : Nat → Nat, FacilityLp.retrieve p keep a = .ok ((List.range p.customerCount).map (fun c => (col c : Int))) ∧
      ∀ c, c < p.customerCount → col c < p.facilities.length ∧ keep (col c) c = true ∧
        ∀ f, f < p.facilities.length → keep f c = true → a (.x f c) = if f = col c then 1 else 0 := by
  rw [FacilityLp.feasible_iff] at ha
  have hex : ∀ c, ∃ f, c < p.customerCount → f < p.facilities.length ∧ FacilityLp.valueOf keep a f c = 1 ∧
      ∀ g, g < p.facilities.length → g ≠ f → FacilityLp.valueOf keep a g c = 0 := by
    intro c
    by_cases hc : c < p.customerCount
    · obtain ⟨f, hf, h1, h2, -⟩ := sum_one_unique List.nodup_range
        (fun f hf => ha.bin f c (List.mem_range.1 hf) (by omega)) (ha.one c (by omega))
      exact ⟨f, fun _ => ⟨List.mem_range.1 hf, h1, fun g hg => h2 g (List.mem_range.2 hg)⟩⟩
    · exact ⟨0, fun h => absurd h hc⟩
  choose col hcol using hex
  refine ⟨col, FacilityLp.retrieve_spec hp ?_, ?_⟩
  · intro c hc
    obtain ⟨h1, h2, h3⟩ := hcol c hc
    refine ⟨h1, h2, fun f hf h => ?_⟩
    by_contra hne
    have := h3 f hf hne
    omega
  · intro c hc
    obtain ⟨h1, h2, h3⟩ := hcol c hc
    refine ⟨h1, ?_, ?_⟩
    · by_contra hk
      have : keep (col c) c = false := by simpa using hk
      simp [FacilityLp.valueOf, this] at h2
    · intro f hf hk
      split
      · rename_i h; subst h; simpa [FacilityLp.valueOf, hk] using h2
      · rename_i h; simpa [FacilityLp.valueOf, hk] using h3 f hf h

/-- The rows of the facility handler. -/
theorem facilityRows_mem {p : Facility.Problem} {keep : Nat → Nat → Bool} {assign : List Int} {sub : List Nat}
    (hl : assign.length = p.customers.length) : ∃ rows, facilityRows p keep assign sub = .ok rows ∧
      ∀ r, r ∈ rows ↔ ∃ f c v, f < p.facilities.length ∧ c ∈ sub ∧ keep f c = true ∧ assign[c]? = some v ∧
        r = fixed (.x f c) (if (f : Int) = v then 1 else 0) := by
  have hstart : mapE (fun c => pyGet assign c) (List.range p.customers.length) = .ok ((List.range p.customers.length).map (fun c => assign.getD c 0)) := by
    refine mapE_ok ?_
    intro c hc
    have hc := List.mem_range.1 hc
    rw [pyGet_ok_iff, List.getD_eq_getElem?_getD, List.getElem?_eq_getElem (by omega)]; rfl
  refine ⟨_, by rw [facilityRows, hstart, bind_ok], fun r => ?_⟩
  simp only [List.mem_filterMap, List.mem_flatMap, List.mem_range, List.mem_map]
  constructor
  · rintro ⟨k, ⟨f, hf, c, hc, rfl⟩, h⟩
    simp only at h
    split at h
    · rename_i hk
      simp only [Bool.and_eq_true, List.contains_iff_mem] at hk
      have hg : assign[c]? = some (assign.getD c 0) := by
        rw [List.getD_eq_getElem?_getD, List.getElem?_eq_getElem (by omega)]; rfl
      refine ⟨f, c, assign.getD c 0, hf, hk.1, hk.2, hg, ?_⟩
      rw [← Option.some.inj h]
      have : ((List.range p.customers.length).map (fun c => assign.getD c 0)).getD c 0 = assign.getD c 0 := by
        rw [List.getD_eq_getElem?_getD, List.getElem?_map, List.getElem?_range hc]; rfl
      rw [this]
    · cases h
  · rintro ⟨f, c, v, hf, hc, hk, hv, rfl⟩
    have hlt : c < p.customers.length := by rw [← hl]; exact (List.getElem?_eq_some_iff.1 hv).1
    refine ⟨(f, c), ⟨f, hf, c, hlt, rfl⟩, ?_⟩
    have : ((List.range p.customers.length).map (fun c => assign.getD c 0)).getD c 0 = v := by
      rw [List.getD_eq_getElem?_getD, List.getElem?_map, List.getElem?_range hlt]
      simp [hv]
    simp only [List.contains_iff_mem.2 hc, hk, Bool.and_self, if_true, this]

/-- What a feasible assignment of the colouring program says about the reading. -/
theorem color_values {g : Coloring.Graph} {nb : Nat} {cliques : List (List Int)} {p : Program ColoringLp.Var}
    (hp : ColoringLp.initModel g nb cliques = .ok p) {a : ColoringLp.Var → Int} (ha : p.Feasible a) :
    ∃ col : Int → Nat, ColoringLp.retrieve g nb a = .ok (g.names.map (fun n => (col n : Int))) ∧
      ∀ n, n ∈ g.names → col n < nb ∧ ∀ d, d < nb → a (.x n d) = if d = col n then 1 else 0 := by
  obtain ⟨rfl, hr⟩ := ColoringLp.initModel_inv hp
  rw [ColoringLp.feasible_iff] at ha
  have hr' : ∀ n, n ∈ ColoringLp.rangeNode g → n ∈ g.names := by
    intro n hn
    apply hr _ n hn
    by_contra h0
    have : nb = 0 := by omega
    subst this
    have := ha.one n hn
    simp at this
  have hcol : ∀ n, ∃ c, n ∈ g.names → c < nb ∧ a (.x n c) = 1 ∧ (∀ d, d < nb → a (.x n d) = 1 → d = c) := by
    intro n
    by_cases hn : n ∈ g.names
    · obtain ⟨c, h1, h2, h3, -⟩ := ha.color ((ColoringLp.names_range hr').1 hn) hn
      exact ⟨c, fun _ => ⟨h1, h2, h3⟩⟩
    · exact ⟨0, fun h => absurd h hn⟩
  choose col hcol using hcol
  refine ⟨col, ColoringLp.retrieve_spec ?_, ?_⟩
  · intro n hn
    obtain ⟨h1, h2, h3⟩ := hcol n hn
    refine ⟨h1, h2, fun d hd hd' => h3 d hd ?_⟩
    rcases ha.bin n hn d hd with h | h <;> omega
  · intro n hn
    obtain ⟨h1, h2, h3⟩ := hcol n hn
    refine ⟨h1, fun d hd => ?_⟩
    split
    · rename_i h; rw [h]; exact h2
    · rename_i h
      rcases ha.bin n hn d hd with h' | h'
      · exact h'
      · exact absurd (h3 d hd h') h

/-- The rows of the colouring handler. -/
theorem colorRows_mem {g : Coloring.Graph} {nb : Nat} {colors : List Int} {sub : List Int} (hl : colors.length = g.names.length)
    (hne : colors ≠ []) : ∃ rows top, maxInt colors = .ok top ∧ colorRows g nb colors sub = .ok rows ∧
      ∀ r, r ∈ rows ↔ ∃ (i : Nat) (n v : Int) (d : Nat), g.names[i]? = some n ∧ colors[i]? = some v ∧ n ∈ sub ∧ v < top ∧ d < nb ∧
        r = fixed (.x n d) (if (d : Int) = v then 1 else 0) := by
  obtain ⟨top, htop⟩ := maxInt_ok hne
  -- the colour of a node
  have hval : ∀ n, ∃ v : Int, n ∈ g.names → ∀ i : Nat, g.names[i]? = some n → colors[i]? = some v := by
    intro n
    by_cases hn : n ∈ g.names
    · obtain ⟨i, hi⟩ := List.getElem?_of_mem hn
      have hil := (List.getElem?_eq_some_iff.1 hi).1
      refine ⟨colors[i]'(by omega), fun _ j hj => ?_⟩
      have hij : i = j := by
        have h1 : g.names[i]? = g.names[j]? := by rw [hi, hj]
        exact (List.getElem?_inj hil (Coloring.names_nodup g)).1 h1
      subst hij
      exact List.getElem?_eq_getElem _
    · exact ⟨0, fun h => absurd h hn⟩
  choose val hval using hval
  have hstart : mapE (fun n => do let i ← g.index.get n; let c ← pyGet colors i; .ok (n, c)) g.names = .ok (g.names.map (fun n => (n, val n))) := by
    refine mapE_ok (g := fun n => (n, val n)) ?_
    intro n hn
    obtain ⟨i, hi⟩ := List.getElem?_of_mem hn
    rw [(Coloring.index_get g n i).2 hi, bind_ok, pyGet_ok_iff.2 (hval n hn i hi), bind_ok]
  refine ⟨_, top, htop, by rw [colorRows, htop, bind_ok, hstart, bind_ok], fun r => ?_⟩
  have hget : ∀ n v, Dict.get? ((g.names.map (fun n => (n, val n))).filter (fun q => sub.contains q.1 && decide (q.2 ≤ top - 1))) n = some v ↔
      n ∈ g.names ∧ n ∈ sub ∧ v = val n ∧ v < top := by
    intro n v
    have hnd : Dict.keys ((g.names.map (fun n => (n, val n))).filter (fun q => sub.contains q.1 && decide (q.2 ≤ top - 1))) |>.Nodup := by
      refine List.Nodup.sublist (List.Sublist.map _ List.filter_sublist) ?_
      simp only [List.map_map, Function.comp_def, List.map_id']
      exact Coloring.names_nodup g
    constructor
    · intro h
      have hm := Dict.mem_of_get? h
      simp only [List.mem_filter, List.mem_map, Prod.mk.injEq, Bool.and_eq_true, List.contains_iff_mem, decide_eq_true_eq] at hm
      obtain ⟨⟨m, hm1, rfl, rfl⟩, hm2, hm3⟩ := hm
      exact ⟨hm1, hm2, rfl, by omega⟩
    · rintro ⟨h1, h2, rfl, h3⟩
      refine Dict.get?_of_mem hnd ?_
      simp only [List.mem_filter, List.mem_map, Prod.mk.injEq, Bool.and_eq_true, List.contains_iff_mem, decide_eq_true_eq]
      exact ⟨⟨n, h1, rfl, rfl⟩, h2, by omega⟩
  simp only [List.mem_filterMap]
  constructor
  · rintro ⟨k, hk, h⟩
    obtain ⟨hk1, hk2⟩ := ColoringLp.mem_keys.1 hk
    obtain ⟨v, hv, rfl⟩ := Option.map_eq_some_iff.1 h
    obtain ⟨h1, h2, rfl, h3⟩ := (hget _ _).1 hv
    obtain ⟨i, hi⟩ := List.getElem?_of_mem h1
    exact ⟨i, k.1, val k.1, k.2, hi, hval _ h1 i hi, h2, h3, hk2, rfl⟩
  · rintro ⟨i, n, v, d, hi, hv, hn, hlt, hd, rfl⟩
    have hmem := List.mem_of_getElem? hi
    have hvv : v = val n := by
      have := hval n hmem i hi
      rw [hv] at this; exact Option.some.inj this
    refine ⟨(n, d), ColoringLp.mem_keys.2 ⟨hmem, hd⟩, ?_⟩
    rw [(hget n v).2 ⟨hmem, hn, hvv, hlt⟩]; rfl

end Verif.LpLns
