import Verif.Lemmas.LpLns
/- Property C118: the neighbourhoods of the searches for facilities and colourings. -/
namespace Verif.LpLns
open Verif.Milp

/-! ### Facilities -/
section Facilities
open Verif.FacilityLp Verif.Facility

/-- C118: the rows leave exactly the assignments of the program that give each customer
drawn the facility it has. -/
theorem C118_facility_exact {p : Problem} (hp : p.customers.length = p.customerCount) {keep : Nat → Nat → Bool} {assign : List Int}
    (h : Assigned p assign) (sub : List Nat) :
    ∃ rows, facilityRows p keep assign sub = .ok rows ∧ ∀ a, (withRows (initModel p keep) rows).Feasible a ↔
      (initModel p keep).Feasible a ∧ ∀ out, retrieve p keep a = .ok out → ∀ c, c ∈ sub → out[c]? = assign[c]? := by
  obtain ⟨rows, hrows, hmem⟩ := facilityRows_mem (keep := keep) (sub := sub) (h.1.trans hp.symm)
  refine ⟨rows, hrows, fun a => ?_⟩
  rw [feasible_with]
  refine and_congr_right (fun ha => ?_)
  obtain ⟨col, hret, hcol⟩ := facility_values hp ha
  constructor
  · intro hr out hout c hc
    rw [hret] at hout
    cases hout
    by_cases hlt : c < p.customerCount
    · obtain ⟨h1, h2, h3⟩ := hcol c hlt
      have hg : assign[c]? = some (assign[c]'(by rw [h.1]; exact hlt)) := List.getElem?_eq_getElem _
      obtain ⟨hf0, hf1⟩ := h.2.1 _ (List.getElem_mem (by rw [h.1]; exact hlt : c < assign.length))
      have hrow := hr _ ((hmem _).2 ⟨col c, c, _, h1, hc, h2, hg, rfl⟩)
      rw [fixed_holds, h3 _ h1 h2, if_pos rfl] at hrow
      rw [hg]
      simp only [List.getElem?_map, List.getElem?_range hlt, Option.map_some]
      split at hrow
      · rename_i he; rw [he]
      · cases hrow
    · rw [List.getElem?_eq_none (by simp; omega), List.getElem?_eq_none (by rw [h.1]; omega)]
  · intro hr r hr'
    obtain ⟨f, c, v, hf, hc, hkf, hv, rfl⟩ := (hmem r).1 hr'
    have hlt : c < p.customerCount := by rw [← h.1]; exact (List.getElem?_eq_some_iff.1 hv).1
    have := hr _ hret c hc
    rw [hv] at this
    simp only [List.getElem?_map, List.getElem?_range hlt, Option.map_some, Option.some.injEq] at this
    rw [fixed_holds, (hcol c hlt).2.2 f hf hkf, ← this]
    by_cases he : f = col c
    · simp [he]
    · have : ¬ (f : Int) = (col c : Int) := by omega
      simp [he, this]

/-- C118: when the incumbent uses no pruned pair it stays possible, and a best assignment overloads no facility, keeps the facilities of
the customers drawn and is the cheapest of all that do so without pruned pairs; so it costs no more than the incumbent. -/
theorem C118_facility_best {p : Problem} (hp : p.customers.length = p.customerCount) (hs : ∀ fac, fac ∈ p.facilities → 0 ≤ fac.setup)
    (hcap : ∀ fac, fac ∈ p.facilities → 0 ≤ fac.capacity) {keep : Nat → Nat → Bool} {assign : List Int} (h : Assigned p assign)
    (hu : Unpruned keep assign) (sub : List Nat) :
    ∃ rows, facilityRows p keep assign sub = .ok rows ∧
      (∃ a, (withRows (initModel p keep) rows).Feasible a ∧ retrieve p keep a = .ok assign) ∧
      ∀ a, (withRows (initModel p keep) rows).Least a → ∃ out e, retrieve p keep a = .ok out ∧ Assigned p out ∧
        (∀ c, c ∈ sub → out[c]? = assign[c]?) ∧ evaluate p out = .ok e ∧
        ∀ other e', Assigned p other → Unpruned keep other → (∀ c, c ∈ sub → other[c]? = assign[c]?) → evaluate p other = .ok e' →
          e.cost + e.setup ≤ e'.cost + e'.setup := by
  obtain ⟨rows, hrows, hiff⟩ := C118_facility_exact hp h (keep := keep) sub
  refine ⟨rows, hrows, ?_, ?_⟩
  · obtain ⟨a, e, h1, h2, -, -⟩ := C109_complete hp hcap h hu
    refine ⟨a, (hiff a).2 ⟨h1, fun out hout c _ => ?_⟩, h2⟩
    rw [h2] at hout; cases hout; rfl
  · rintro a ⟨ha, hleast⟩
    obtain ⟨h1, h2⟩ := (hiff a).1 ha
    obtain ⟨out, e, g1, g2, -, -, g3, g4⟩ := C109_sound hp hs keep h1
    refine ⟨out, e, g1, g2, h2 out g1, g3, ?_⟩
    intro other e' k1 k2 k3 k4
    obtain ⟨b, e'', b1, b2, b3, b4⟩ := C109_complete hp hcap k1 k2
    rw [k4] at b3; cases b3
    have := hleast b ((hiff b).2 ⟨b1, fun o ho c hc => by rw [b2] at ho; cases ho; exact k3 c hc⟩)
    simp only [objective_with] at this
    omega

/-- C118: a customer drawn that uses a pruned pair leaves no assignment at all: the solver then has no solution. -/
theorem C118_facility_pruned_refuted {p : Problem} (hp : p.customers.length = p.customerCount) {keep : Nat → Nat → Bool} {assign : List Int}
    (h : Assigned p assign) {sub : List Nat} {c : Nat} {f : Int} (hc : c ∈ sub) (hf : assign[c]? = some f) (hk : keep f.toNat c = false) :
    ∃ rows, facilityRows p keep assign sub = .ok rows ∧ ¬ ∃ a, (withRows (initModel p keep) rows).Feasible a := by
  obtain ⟨rows, hrows, hmem⟩ := facilityRows_mem (keep := keep) (sub := sub) (h.1.trans hp.symm)
  refine ⟨rows, hrows, ?_⟩
  rintro ⟨a, ha⟩
  rw [feasible_with] at ha
  obtain ⟨col, -, hcol⟩ := facility_values hp ha.1
  have hlt : c < p.customerCount := by rw [← h.1]; exact (List.getElem?_eq_some_iff.1 hf).1
  obtain ⟨h1, h2, h3⟩ := hcol c hlt
  have hrow := ha.2 _ ((hmem _).2 ⟨col c, c, f, h1, hc, h2, hf, rfl⟩)
  rw [fixed_holds, h3 _ h1 h2, if_pos rfl] at hrow
  split at hrow
  · rename_i he
    rw [← he, Int.toNat_natCast, h2] at hk
    cases hk
  · cases hrow

/-- C118: with `skip_first_iter` the first call adds no row, whatever the start solution; from then on, and without it always, the rows of the
incumbent are added. -/
theorem C118_facility_first (p : Problem) (keep : Nat → Nat → Bool) (assign : List Int) (sub : List Nat) :
    facilityHandler true 0 p keep assign sub = .ok ([], 1) ∧
    (∀ rows, facilityRows p keep assign sub = .ok rows → facilityHandler true 1 p keep assign sub = .ok (rows, 1) ∧
      facilityHandler false 0 p keep assign sub = .ok (rows, 0)) := by
  refine ⟨rfl, fun rows h => ?_⟩
  simp [facilityHandler, h, bind_ok]

/-- C118: the handler raises `IndexError` exactly for an incumbent that is too short. -/
theorem C118_facility_short {p : Problem} {keep : Nat → Nat → Bool} {assign : List Int} {sub : List Nat} :
    facilityRows p keep assign sub = .error .indexError ↔ assign.length < p.customers.length := by
  constructor
  · intro h
    by_contra hge
    have hstart : mapE (fun c => pyGet assign c) (List.range p.customers.length) = .ok ((List.range p.customers.length).map (fun c => assign.getD c 0)) := by
      refine mapE_ok ?_
      intro c hc
      have hc := List.mem_range.1 hc
      rw [pyGet_ok_iff, List.getD_eq_getElem?_getD, List.getElem?_eq_getElem (by omega)]; rfl
    rw [facilityRows, hstart, bind_ok] at h
    cases h
  · intro h
    have herr : ∀ c e, pyGet assign c = .error e → e = .indexError := by
      intro c e h
      unfold pyGet at h; split at h <;> cases h; rfl
    rw [facilityRows, mapE_error (e := .indexError) herr ⟨assign.length, List.mem_range.2 h, ?_⟩, bind_error]
    simp [pyGet]

end Facilities

/-! ### Colourings -/
section Colourings
open Verif.ColoringLp Verif.Coloring

/-- The colouring `other` gives the nodes drawn the colour they have in `colors`, unless that is the highest one. -/
def Agrees (g : Graph) (colors : List Int) (sub : List Int) (other : List Int) : Prop :=
  ∀ (i : Nat) (n v : Int), g.names[i]? = some n → n ∈ sub → colors[i]? = some v → (∃ u, u ∈ colors ∧ v < u) → other[i]? = some v

/-- C118: the rows leave exactly the colourings of the program that keep
them. -/
theorem C118_color_exact {g : Graph} {nb : Nat} {cliques : List (List Int)} {p : Program Var} (hp : initModel g nb cliques = .ok p)
    {colors : List Int} (hl : colors.length = g.names.length) (hne : colors ≠ []) (sub : List Int) :
    ∃ rows, colorRows g nb colors sub = .ok rows ∧ ∀ a, p.Feasible a → ((withRows p rows).Feasible a → ∀ out, retrieve g nb a = .ok out →
      Agrees g colors sub out) ∧ ((∀ out, retrieve g nb a = .ok out → Agrees g colors sub out) → (withRows p rows).Feasible a) := by
  obtain ⟨rows, top, htop, hrows, hmem⟩ := colorRows_mem (nb := nb) (sub := sub) hl hne
  obtain ⟨ht1, ht2⟩ := maxInt_spec htop
  refine ⟨rows, hrows, fun a ha => ?_⟩
  obtain ⟨col, hret, hcol⟩ := color_values hp ha
  rw [feasible_with]
  constructor
  · rintro ⟨-, hr⟩ out hout i n v hi hn hv ⟨u, hu, hlt⟩
    rw [hret] at hout; cases hout
    have hm := List.mem_of_getElem? hi
    obtain ⟨h1, h2⟩ := hcol n hm
    have hrow := hr _ ((hmem _).2 ⟨i, n, v, col n, hi, hv, hn, by have := ht2 u hu; omega, h1, rfl⟩)
    rw [fixed_holds, h2 _ h1, if_pos rfl] at hrow
    rw [List.getElem?_map, hi]
    split at hrow
    · rename_i he; rw [← he]; rfl
    · cases hrow
  · intro hr
    refine ⟨ha, fun r hr' => ?_⟩
    obtain ⟨i, n, v, d, hi, hv, hn, hlt, hd, rfl⟩ := (hmem r).1 hr'
    have := hr _ hret i n v hi hn hv ⟨top, ht1, hlt⟩
    rw [List.getElem?_map, hi, Option.map_some, Option.some.injEq] at this
    rw [fixed_holds, (hcol n (List.mem_of_getElem? hi)).2 d hd, ← this]
    by_cases he : d = col n
    · simp [he]
    · have : ¬ (d : Int) = (col n : Int) := by omega
      simp [he, this]

/-- A proper colouring with colours from 0 on below `k` is read from a feasible assignment with the objective `k`. -/
theorem color_feasible {g : Graph} (hn : Numbered g) (hw : ∀ a b, (a, b) ∈ g.edges → a ∈ g.nodes ∧ b ∈ g.nodes) {nb : Nat}
    {cliques : List (List Int)} (hc : ∀ c, c ∈ cliques → Clique g c) {p : Program Var} (hp : initModel g nb cliques = .ok p)
    {colors : List Int} (hcol : Coloured g colors) {k : Nat} (hk : ∀ v, v ∈ colors → 0 ≤ v ∧ v < k) (hkn : k ≤ nb) :
    ∃ a, p.Feasible a ∧ retrieve g nb a = .ok colors ∧ p.objective.value a = k := by
  obtain ⟨rfl, -⟩ := initModel_inv hp
  have hr := numbered_range hn
  have hval : ∀ n, ∃ v : Nat, n ∈ g.names → ∀ i : Nat, g.names[i]? = some n → colors[i]? = some (v : Int) := by
    intro n
    by_cases hn : n ∈ g.names
    · obtain ⟨i, hi⟩ := List.getElem?_of_mem hn
      have hil := (List.getElem?_eq_some_iff.1 hi).1
      have hil' : i < colors.length := by rw [hcol.2]; exact hil
      refine ⟨(colors[i]).toNat, fun _ j hj => ?_⟩
      have hij : i = j := by
        have h1 : g.names[i]? = g.names[j]? := by rw [hi, hj]
        exact (List.getElem?_inj hil (names_nodup g)).1 h1
      subst hij
      rw [List.getElem?_eq_getElem hil']
      have := (hk _ (List.getElem_mem hil')).1
      congr 1; omega
    · exact ⟨0, fun h => absurd h hn⟩
  choose col hval using hval
  have hlt : ∀ n, n ∈ g.names → col n < k := by
    intro n hn
    obtain ⟨i, hi⟩ := List.getElem?_of_mem hn
    have := hk _ (List.mem_of_getElem? (hval n hn i hi))
    omega
  refine ⟨_, feasible_iff.2 (sat_of_col (col := col) (k := k) hr hlt hkn ?_ hc), ?_, by simp [program, Lin.value]⟩
  · intro e he
    obtain ⟨h1, h2⟩ := hw e.1 e.2 he
    rw [← mem_names] at h1 h2
    refine ⟨h1, h2, ?_⟩
    obtain ⟨c, d, ⟨i, hi, hci⟩, ⟨j, hj, hdj⟩, hne⟩ := hcol.1 e.1 e.2 he
    rw [hval _ h1 i hi] at hci
    rw [hval _ h2 j hj] at hdj
    cases hci; cases hdj
    intro heq
    exact hne (by rw [heq])
  · rw [retrieve_spec (col := col)]
    · congr 1
      apply List.ext_getElem?
      intro i
      rw [List.getElem?_map]
      cases hi : g.names[i]? with
      | none =>
        rw [Option.map_none, eq_comm, List.getElem?_eq_none_iff, hcol.2]
        exact List.getElem?_eq_none_iff.1 hi
      | some n => rw [hval n (List.mem_of_getElem? hi) i hi]; rfl
    · intro n hn
      have := hlt n hn
      refine ⟨by omega, by simp, fun d _ h => ?_⟩
      by_contra hne
      simp [hne] at h

/-- C118: when the colours of the incumbent are below the number of colours of the program, it stays possible, and a best assignment is a proper
colouring that keeps the colours of the nodes drawn (except the highest) and whose highest colour is as low as in any proper colouring that does so; so it is
no higher than that of the incumbent. -/
theorem C118_color_best {g : Graph} (hn : Numbered g) (hw : ∀ a b, (a, b) ∈ g.edges → a ∈ g.nodes ∧ b ∈ g.nodes) {nb : Nat}
    {cliques : List (List Int)} (hc : ∀ c, c ∈ cliques → Clique g c) {p : Program Var} (hp : initModel g nb cliques = .ok p)
    {colors : List Int} (hcol : Coloured g colors) (hne : colors ≠ []) (hk : ∀ v, v ∈ colors → 0 ≤ v ∧ v < nb) (sub : List Int) :
    ∃ rows, colorRows g nb colors sub = .ok rows ∧ (∃ a, (withRows p rows).Feasible a ∧ retrieve g nb a = .ok colors) ∧
      ∀ a, (withRows p rows).Least a → ∃ out, retrieve g nb a = .ok out ∧ Coloured g out ∧ Agrees g colors sub out ∧
        ∀ other (k : Nat), Coloured g other → Agrees g colors sub other → k ≤ nb → (∀ v, v ∈ other → 0 ≤ v ∧ v < k) →
          ∀ v, v ∈ out → 0 ≤ v ∧ v < k := by
  obtain ⟨rows, hrows, hiff⟩ := C118_color_exact hp hcol.2 hne sub
  refine ⟨rows, hrows, ?_, ?_⟩
  · obtain ⟨a, h1, h2, -⟩ := color_feasible hn hw hc hp hcol hk (Nat.le_refl _)
    refine ⟨a, (hiff a h1).2 (fun out hout => ?_), h2⟩
    rw [h2] at hout; cases hout
    intro i n v _ _ h _; exact h
  · rintro a ⟨ha, hleast⟩
    have h1 := (feasible_with.1 ha).1
    obtain ⟨out, g1, g2, -, g3, -⟩ := C108_sound hw hp h1
    refine ⟨out, g1, g2, (hiff a h1).1 ha out g1, ?_⟩
    intro other k k1 k2 k3 k4 v hv
    obtain ⟨b, b1, b2, b3⟩ := color_feasible hn hw hc hp k1 k4 k3
    have := hleast b ((hiff b b1).2 (fun o ho => by rw [b2] at ho; cases ho; exact k2))
    simp only [objective_with] at this
    have := g3 v hv
    omega

/-- C118: a node drawn whose colour is not below the number of colours of the program, and not the highest, leaves no colouring at all. -/
theorem C118_color_high_refuted {g : Graph} {nb : Nat} {cliques : List (List Int)} {p : Program Var} (hp : initModel g nb cliques = .ok p)
    {colors : List Int} (hl : colors.length = g.names.length) {sub : List Int} {i : Nat} {n v u : Int} (hi : g.names[i]? = some n)
    (hn : n ∈ sub) (hv : colors[i]? = some v) (hnb : nb ≤ v) (hu : u ∈ colors) (hlt : v < u) :
    ∃ rows, colorRows g nb colors sub = .ok rows ∧ ¬ ∃ a, (withRows p rows).Feasible a := by
  have hne : colors ≠ [] := by rintro rfl; simp at hu
  obtain ⟨rows, hrows, hiff⟩ := C118_color_exact hp hl hne sub
  refine ⟨rows, hrows, ?_⟩
  rintro ⟨a, ha⟩
  have h1 := (feasible_with.1 ha).1
  obtain ⟨col, hret, hcol⟩ := color_values hp h1
  have := (hiff a h1).1 ha _ hret i n v hi hn hv ⟨u, hu, hlt⟩
  rw [List.getElem?_map, hi, Option.map_some, Option.some.injEq] at this
  have := (hcol n (List.mem_of_getElem? hi)).1
  omega

/-- C118: without nodes the handler raises `ValueError`. -/
theorem C118_color_empty (g : Graph) (nb : Nat) (sub : List Int) : colorRows g nb [] sub = .error .valueError := rfl

end Colourings

/-! ### Examples -/

open Verif.FacilityLp Verif.Facility in
theorem exF_assigned : Assigned exF [0, 0, 1] := by
  refine ⟨rfl, ?_, ?_⟩
  · simp [exF]
  · intro f fac hf hfac
    simp only [exF, List.take, List.mem_cons, List.not_mem_nil, or_false] at hf
    rcases hf with rfl | rfl | rfl <;> simp [exF] at hfac <;> subst hfac <;> decide

/-- Two facilities, three customers, of which the first and the last are drawn. -/
example : ∃ rows, facilityRows FacilityLp.exF (fun _ _ => true) [0, 0, 1] [0, 2] = .ok rows ∧
    ∃ a, (withRows (FacilityLp.initModel FacilityLp.exF (fun _ _ => true)) rows).Feasible a := by
  obtain ⟨rows, h1, ⟨a, h2, -⟩, -⟩ := C118_facility_best (p := FacilityLp.exF) rfl (by simp [FacilityLp.exF]) (by simp [FacilityLp.exF]) (keep := fun _ _ => true)
    exF_assigned (fun _ _ _ => rfl) [0, 2]
  exact ⟨rows, h1, a, h2⟩

/-- The first customer uses a facility that is pruned for it. -/
example : ∃ rows, facilityRows FacilityLp.exF (fun f c => !(f == 0 && c == 0)) [0, 0, 1] [0, 2] = .ok rows ∧
    ¬ ∃ a, (withRows (FacilityLp.initModel FacilityLp.exF (fun f c => !(f == 0 && c == 0))) rows).Feasible a :=
  C118_facility_pruned_refuted (p := FacilityLp.exF) rfl exF_assigned (c := 0) (f := 0) (by simp) rfl rfl

example : facilityRows FacilityLp.exF (fun _ _ => true) [0, 0, 1] [2] = .ok [fixed (.x 0 2) 0, fixed (.x 1 2) 1] := by rfl

/-- A path of three nodes with the colours 0, 1, 2: the node of the highest colour is free although it is drawn. -/
example : colorRows ColoringLp.exG 3 [0, 1, 2] [0, 2] = .ok [fixed (.x 0 0) 1, fixed (.x 0 1) 0, fixed (.x 0 2) 0] := by rfl

example : ∃ p rows, ColoringLp.initModel ColoringLp.exG 3 [] = .ok p ∧ colorRows ColoringLp.exG 3 [0, 1, 2] [0, 2] = .ok rows ∧
    ∃ a, (withRows p rows).Feasible a ∧ ColoringLp.retrieve ColoringLp.exG 3 a = .ok [0, 1, 2] := by
  have hp : ∃ p, ColoringLp.initModel ColoringLp.exG 3 [] = .ok p := ⟨_, rfl⟩
  obtain ⟨p, hp⟩ := hp
  obtain ⟨rows, h1, h2, -⟩ := C118_color_best ColoringLp.exG_numbered
    (by intro a b h; simp only [ColoringLp.exG, List.mem_cons, Prod.mk.injEq, List.not_mem_nil, or_false] at h ⊢; omega)
    (by simp) hp ColoringLp.exG_start (by simp) (by simp) [0, 2]
  exact ⟨p, rows, hp, h1, h2⟩

/-- Three nodes without edges: the greedy solution of the program needs one colour, the incumbent has three. -/
example : ∃ p rows, ColoringLp.initModel ⟨[0, 1, 2], []⟩ 1 [] = .ok p ∧ colorRows ⟨[0, 1, 2], []⟩ 1 [0, 1, 2] [1] = .ok rows ∧
    ¬ ∃ a, (withRows p rows).Feasible a := by
  have hp : ∃ p, ColoringLp.initModel ⟨[0, 1, 2], []⟩ 1 [] = .ok p := ⟨_, rfl⟩
  obtain ⟨p, hp⟩ := hp
  obtain ⟨rows, h1, h2⟩ := C118_color_high_refuted hp (colors := [0, 1, 2]) (sub := [1]) (i := 1) (n := 1) (v := 1) (u := 2) (by decide +kernel)
    (by decide +kernel) (by simp) (by decide) (by decide) (by simp) (by decide)
  exact ⟨p, rows, hp, h1, h2⟩

end Verif.LpLns
