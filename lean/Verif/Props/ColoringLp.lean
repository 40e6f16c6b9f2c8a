import Verif.Lemmas.ColoringLp
import Verif.Props.Coloring
/- Property C108: the linear program of the colouring solver. -/
namespace Verif.ColoringLp
open Verif.Milp Verif.Coloring

/-- Specification: a clique of the graph: different nodes, each two joined by an edge. -/
def Clique (g : Graph) (c : List Int) : Prop :=
  c.Nodup ∧ (∀ n, n ∈ c → n ∈ g.nodes) ∧ ∀ u v, u ∈ c → v ∈ c → u ≠ v → (u, v) ∈ g.edges ∨ (v, u) ∈ g.edges

/-- Specification: the nodes are numbered from 0 on. -/
def Numbered (g : Graph) : Prop := ∃ N : Nat, ∀ n : Int, n ∈ g.nodes ↔ 0 ≤ n ∧ n < N

/-- Specification: a proper colouring, one colour per node. -/
def Coloured (g : Graph) (colors : List Int) : Prop := Proper g colors ∧ colors.length = g.names.length

theorem numbered_range {g : Graph} (h : Numbered g) : ∀ n, n ∈ rangeNode g → n ∈ g.names := by
  obtain ⟨N, hN⟩ := h
  have hd : ((List.range N).map Int.ofNat).Nodup := (List.nodup_range).map (fun a b h => Int.ofNat.inj h)
  have hp : (distinct g.nodes).Perm ((List.range N).map Int.ofNat) := by
    rw [List.perm_ext_iff_of_nodup (distinct_nodup _) hd]
    intro n
    rw [mem_distinct, hN]
    simp only [List.mem_map, List.mem_range]
    constructor
    · rintro ⟨h1, h2⟩; exact ⟨n.toNat, by omega, by simp; omega⟩
    · rintro ⟨i, hi, rfl⟩; simp; omega
  intro n hn
  have hlen : (distinct g.nodes).length = N := by rw [hp.length_eq]; simp
  rw [rangeNode, hlen] at hn
  rw [mem_names, ← mem_distinct]
  exact hp.mem_iff.2 hn

/-- C108: the program is built for every graph whose nodes are numbered from 0 on. -/
theorem C108_built_partial {g : Graph} (hn : Numbered g) (hw : ∀ a b, (a, b) ∈ g.edges → a ∈ g.nodes ∧ b ∈ g.nodes)
    (nb : Nat) {cliques : List (List Int)} (hc : ∀ c, c ∈ cliques → Clique g c) :
    ∃ p, initModel g nb cliques = .ok p :=
  ⟨_, initModel_ok (numbered_range hn) (fun e he => by
    obtain ⟨h1, h2⟩ := hw e.1 e.2 he
    exact ⟨mem_names.2 h1, mem_names.2 h2⟩) (fun c h n hn => mem_names.2 ((hc c h).2.1 n hn))⟩

/-- C108: for any other graph, building the program fails with a `KeyError`. -/
theorem C108_names_refuted {g : Graph} (hn : ¬ Numbered g) {nb : Nat} (h0 : 0 < nb) (cliques : List (List Int)) :
    initModel g nb cliques = .error .keyError := by
  have hex : ∃ n, n ∈ rangeNode g ∧ n ∉ g.names := by
    by_contra hno
    have hsub : ∀ n, n ∈ rangeNode g → n ∈ g.names := fun n h => by
      by_contra h'; exact hno ⟨n, h, h'⟩
    refine hn ⟨(distinct g.nodes).length, fun n => ?_⟩
    rw [← mem_names, names_range hsub, rangeNode]
    simp only [List.mem_map, List.mem_range]
    constructor
    · rintro ⟨i, hi, rfl⟩; simp; omega
    · rintro ⟨h1, h2⟩; exact ⟨n.toNat, by omega, by simp; omega⟩
  obtain ⟨n, hn1, hn2⟩ := hex
  have herr : ∀ m e, oneColor g nb m = .error e → e = .keyError := by
    intro m e h
    unfold oneColor at h
    cases hm : mapE (look g m) (List.range nb) with
    | ok vs => rw [hm, bind_ok] at h; cases h
    | error e' =>
      rw [hm, bind_error] at h; cases h
      exact mapE_err (fun c e h => look_err h) hm
  have h1 : oneColor g nb n = .error .keyError := by
    unfold oneColor
    rw [mapE_error (e := .keyError) (fun c e h => look_err h) ⟨0, List.mem_range.2 h0, by simp [look, hn2]⟩, bind_error]
  unfold initModel
  rw [mapE_error herr ⟨n, hn1, h1⟩, bind_error]

/-- C108: every feasible assignment of the program is read as a proper colouring whose colours are below the
value of the objective, which the colouring therefore does not exceed in number. -/
theorem C108_sound {g : Graph} (hw : ∀ a b, (a, b) ∈ g.edges → a ∈ g.nodes ∧ b ∈ g.nodes) {nb : Nat}
    {cliques : List (List Int)} {p : Program Var} (hp : initModel g nb cliques = .ok p) {a : Var → Int}
    (ha : p.Feasible a) :
    ∃ colors, retrieve g nb a = .ok colors ∧ Coloured g colors ∧ satisfy g colors = .ok true ∧
      (∀ v, v ∈ colors → 0 ≤ v ∧ v < p.objective.value a) ∧
      ((distinct colors).length : Int) ≤ p.objective.value a ∧ p.objective.value a ≤ nb := by
  obtain ⟨rfl, hr⟩ := initModel_inv hp
  rw [feasible_iff] at ha
  have hobj : (program g nb cliques).objective.value a = a .opt := by
    simp [program, Lin.value]
  have hr' : ∀ n, n ∈ rangeNode g → n ∈ g.names := by
    intro n hn
    apply hr _ n hn
    by_contra h0
    have : nb = 0 := by omega
    subst this
    have := ha.one n hn
    simp at this
  have hcol : ∀ n, ∃ c, n ∈ g.names → c < nb ∧ a (.x n c) = 1 ∧ (∀ d, d < nb → a (.x n d) = 1 → d = c) ∧ (c : Int) < a .opt := by
    intro n
    by_cases hn : n ∈ g.names
    · obtain ⟨c, hc⟩ := ha.color ((names_range hr').1 hn) hn
      exact ⟨c, fun _ => hc⟩
    · exact ⟨0, fun h => absurd h hn⟩
  choose col hcol using hcol
  have hret := retrieve_spec (a := a) (nb := nb) (col := col) (g := g) (by
    intro n hn
    obtain ⟨h1, h2, h3, -⟩ := hcol n hn
    refine ⟨h1, h2, fun d hd hd' => h3 d hd ?_⟩
    rcases ha.bin n hn d hd with h | h <;> omega)
  have hhas : ∀ n, n ∈ g.names → HasColor g (g.names.map (fun n => (col n : Int))) n (col n) := by
    intro n hn
    obtain ⟨i, hi⟩ := List.getElem?_of_mem hn
    exact ⟨i, hi, by rw [List.getElem?_map, hi]; rfl⟩
  have hprop : Proper g (g.names.map (fun n => (col n : Int))) := by
    intro u v huv
    obtain ⟨hu, hv⟩ := hw u v huv
    rw [← mem_names] at hu hv
    refine ⟨col u, col v, hhas u hu, hhas v hv, ?_⟩
    intro heq
    have heq : col u = col v := by omega
    obtain ⟨h1, h2, -, -⟩ := hcol u hu
    obtain ⟨h3, h4, -, -⟩ := hcol v hv
    have := ha.edge (u, v) huv (col u) h1
    simp only at this
    rw [h2, heq, h4] at this
    omega
  have hrange : ∀ v, v ∈ g.names.map (fun n => (col n : Int)) → 0 ≤ v ∧ v < a .opt := by
    intro v hv
    obtain ⟨n, hn, rfl⟩ := List.mem_map.1 hv
    exact ⟨by omega, (hcol n hn).2.2.2⟩
  refine ⟨_, hret, ⟨hprop, by simp⟩, (C32_accepts_iff ..).2 hprop, ?_, ?_, ?_⟩
  · rw [hobj]; exact hrange
  · rw [hobj]
    have hlo := ha.lo
    have hsub : distinct (g.names.map (fun n => (col n : Int))) ⊆ (List.range (a .opt).toNat).map Int.ofNat := by
      intro v hv
      have := hrange v (mem_distinct.1 hv)
      rw [List.mem_map]
      exact ⟨v.toNat, by rw [List.mem_range]; omega, by simp; omega⟩
    have := ((distinct_nodup _).subperm hsub).length_le
    simp at this
    omega
  · rw [hobj]; exact ha.hi

/-- The assignment that gives node `n` colour `col n`. -/
theorem sat_of_col {g : Graph} {nb : Nat} {cliques : List (List Int)} {col : Int → Nat} {k : Nat}
    (hr : ∀ n, n ∈ rangeNode g → n ∈ g.names) (hk : ∀ n, n ∈ g.names → col n < k) (hkn : k ≤ nb)
    (he : ∀ e, e ∈ g.edges → e.1 ∈ g.names ∧ e.2 ∈ g.names ∧ col e.1 ≠ col e.2)
    (hc : ∀ c, c ∈ cliques → Clique g c) :
    Sat g nb cliques (fun | .x n c => if c = col n then 1 else 0 | .opt => k) := by
  have hsum : ∀ n, n ∈ g.names → ∀ w : Nat → Int,
      ((List.range nb).map (fun c => w c * (if c = col n then 1 else 0))).sum = w (col n) := by
    intro n hn w
    exact sum_indicator List.nodup_range (List.mem_range.2 (by have := hk n hn; omega)) w
  have hsum1 : ∀ n, n ∈ g.names → ((List.range nb).map (fun c => if c = col n then (1 : Int) else 0)).sum = 1 := by
    intro n hn
    have := hsum n hn (fun _ => 1)
    simpa using this
  refine ⟨?_, by simp, by simpa using hkn, ?_, ?_, ?_, ?_, ?_⟩
  · intro n _ c _
    simp only; split <;> simp
  · intro n hn; exact hsum1 n (hr n hn)
  · intro e hem c _
    obtain ⟨-, -, hne⟩ := he e hem
    simp only
    split <;> split <;> omega
  · intro n hn
    simp only
    have := hsum n (hr n hn) (fun c => (c : Int) + 1)
    rw [this]
    have := hk n (hr n hn)
    omega
  · intro c hcm
    have hcl := hc c (List.mem_of_mem_take hcm)
    have hnames : ∀ n, n ∈ c → n ∈ g.names := fun n hn => mem_names.2 (hcl.2.1 n hn)
    have hnod : (c.map col).Nodup := by
      refine List.Nodup.map_on ?_ hcl.1
      intro u hu v hv heq
      by_contra hne
      rcases hcl.2.2 u v hu hv hne with h | h
      · exact (he _ h).2.2 heq
      · exact (he _ h).2.2 heq.symm
    have h1 := sum_range_le hnod
    rw [List.length_map, List.map_map] at h1
    refine Int.le_trans h1 (Int.le_of_eq ?_)
    congr 1
    refine List.map_congr_left ?_
    intro n hn
    simp only
    rw [hsum n (hnames n hn) (fun c => (c : Int) + 1)]; rfl
  · intro c hcm
    have hcl := hc c (List.mem_of_mem_take hcm)
    have hnames : ∀ n, n ∈ c → n ∈ g.names := fun n hn => mem_names.2 (hcl.2.1 n hn)
    have hnod : (c.map col).Nodup := by
      refine List.Nodup.map_on ?_ hcl.1
      intro u hu v hv heq
      by_contra hne
      rcases hcl.2.2 u v hu hv hne with h | h
      · exact (he _ h).2.2 heq
      · exact (he _ h).2.2 heq.symm
    have hsub : c.map col ⊆ List.range k := by
      intro x hx
      obtain ⟨n, hn, rfl⟩ := List.mem_map.1 hx
      exact List.mem_range.2 (hk n (hnames n hn))
    have hlen := (hnod.subperm hsub).length_le
    simp only [List.length_map, List.length_range] at hlen
    simp only
    rw [List.map_congr_left (g := fun _ => (1 : Int)) (fun n hn => hsum1 n (hnames n hn))]
    simp only [List.map_const', List.sum_replicate_int]
    omega

/-- C108: every proper colouring with at most as many colours as the start solution is, up to renumbering, the
reading of a feasible assignment whose objective is its number of colours.  The rows for cliques exclude none. -/
theorem C108_complete {g : Graph} (hn : Numbered g) (hw : ∀ a b, (a, b) ∈ g.edges → a ∈ g.nodes ∧ b ∈ g.nodes)
    {nb : Nat} {cliques : List (List Int)} (hc : ∀ c, c ∈ cliques → Clique g c) {p : Program Var}
    (hp : initModel g nb cliques = .ok p) {colors : List Int} (hcol : Coloured g colors)
    (hk : (distinct colors).length ≤ nb) :
    ∃ a out, p.Feasible a ∧ p.objective.value a = (distinct colors).length ∧ renumber colors = .ok out ∧
      retrieve g nb a = .ok (out.map Int.ofNat) := by
  obtain ⟨rfl, -⟩ := initModel_inv hp
  have hr := numbered_range hn
  obtain ⟨out, k, ho, hlen, hsame, ⟨d, hdn, hdl, hdm⟩, hval, -⟩ := C32_renumber colors
  have hkd : (distinct colors).length = k := by
    rw [← hdl]
    refine List.Perm.length_eq ?_
    rw [List.perm_ext_iff_of_nodup (distinct_nodup _) hdn]
    intro c; rw [mem_distinct, hdm]
  -- the colour of a node
  have hcolex : ∀ n, ∃ v : Nat, n ∈ g.names → ∀ i : Nat, g.names[i]? = some n → out[i]? = some v := by
    intro n
    by_cases hn : n ∈ g.names
    · obtain ⟨i, hi⟩ := List.getElem?_of_mem hn
      have hil := (List.getElem?_eq_some_iff.1 hi).1
      have hil' : i < out.length := by rw [hlen, hcol.2]; exact hil
      refine ⟨out[i], fun _ j hj => ?_⟩
      have hij : i = j := by
        have h1 : g.names[i]? = g.names[j]? := by rw [hi, hj]
        exact (List.getElem?_inj hil (names_nodup g)).1 h1
      subst hij
      simp [hil']
    · exact ⟨0, fun h => absurd h hn⟩
  choose col hcolv using hcolex
  have hlt : ∀ n, n ∈ g.names → col n < k := by
    intro n hn
    obtain ⟨i, hi⟩ := List.getElem?_of_mem hn
    exact (hval _).1 (List.mem_of_getElem? (hcolv n hn i hi))
  have he : ∀ e, e ∈ g.edges → e.1 ∈ g.names ∧ e.2 ∈ g.names ∧ col e.1 ≠ col e.2 := by
    rintro ⟨u, v⟩ huv
    obtain ⟨hu, hv⟩ := hw u v huv
    rw [← mem_names] at hu hv
    refine ⟨hu, hv, ?_⟩
    obtain ⟨c, d, ⟨i, hi, hic⟩, ⟨j, hj, hjd⟩, hne⟩ := hcol.1 u v huv
    intro heq
    have h1 := hcolv u hu i hi
    have h2 := hcolv v hv j hj
    simp only at heq
    exact hne ((hsame i j c d hic hjd).1 (by rw [h1, h2, heq]))
  have hsat := sat_of_col (cliques := cliques) hr hlt (by omega : k ≤ nb) he hc
  refine ⟨_, out, feasible_iff.2 hsat, ?_, ho, ?_⟩
  · simp [program, Lin.value, hkd]
  · rw [retrieve_spec (col := col)]
    · congr 1
      apply List.ext_getElem?
      intro i
      rw [List.getElem?_map, List.getElem?_map]
      cases hi : g.names[i]? with
      | none =>
        have h1 := List.getElem?_eq_none_iff.1 hi
        have h2 : out[i]? = none := by rw [List.getElem?_eq_none_iff, hlen, hcol.2]; exact h1
        rw [h2]; rfl
      | some n => rw [hcolv n (List.mem_of_getElem? hi) i hi]; rfl
    · intro n hn
      refine ⟨by have := hlt n hn; omega, by simp, ?_⟩
      intro d _ h
      simp only at h
      by_contra hne
      rw [if_neg hne] at h
      omega

/-- C108: the program started from a proper colouring has a feasible assignment, and any best one is read as a
proper colouring with the least number of colours of all proper colourings; the objective is that number. -/
theorem C108_optimal {g : Graph} (hn : Numbered g) (hw : ∀ a b, (a, b) ∈ g.edges → a ∈ g.nodes ∧ b ∈ g.nodes)
    {cliques : List (List Int)} (hc : ∀ c, c ∈ cliques → Clique g c) {start : List Int} (hs : Coloured g start) :
    ∃ p, initModel g (distinct start).length cliques = .ok p ∧ (∃ a, p.Feasible a) ∧
      ∀ a, p.Least a → ∃ colors, retrieve g (distinct start).length a = .ok colors ∧ Coloured g colors ∧
        p.objective.value a = (distinct colors).length ∧
        ∀ other, Coloured g other → (distinct colors).length ≤ (distinct other).length := by
  obtain ⟨p, hp⟩ := C108_built_partial hn hw (distinct start).length hc
  refine ⟨p, hp, ?_, ?_⟩
  · obtain ⟨a, -, h, -⟩ := C108_complete hn hw hc hp hs (Nat.le_refl _)
    exact ⟨a, h⟩
  · rintro a ⟨hf, hbest⟩
    obtain ⟨colors, h1, h2, -, -, h3, h4⟩ := C108_sound hw hp hf
    obtain ⟨b, -, hb1, hb2, -, -⟩ := C108_complete hn hw hc hp h2 (by omega)
    have hb := hbest b hb1
    rw [hb2] at hb
    refine ⟨colors, h1, h2, by omega, ?_⟩
    intro other ho
    by_cases hle : (distinct other).length ≤ (distinct start).length
    · obtain ⟨b, -, hb1, hb2, -, -⟩ := C108_complete hn hw hc hp ho hle
      have hb := hbest b hb1
      omega
    · omega

/-- A path of three nodes, started from three colours. -/
def exG : Graph := ⟨[0, 1, 2], [(0, 1), (1, 2)]⟩

theorem exG_numbered : Numbered exG := ⟨3, fun n => by simp [exG]; omega⟩

theorem exG_start : Coloured exG [0, 1, 2] := by
  refine ⟨(C32_accepts_iff ..).1 (by decide +kernel), by decide +kernel⟩

/-- The hypotheses of the theorems are met: the path, with its two cliques. -/
example : ∃ p, initModel exG 3 [[0, 1], [1, 2]] = .ok p ∧ ∃ a, p.Feasible a := by
  have h := C108_optimal (g := exG) (cliques := [[0, 1], [1, 2]]) exG_numbered
    (by intro a b h; simp only [exG, List.mem_cons, Prod.mk.injEq, List.not_mem_nil, or_false] at h ⊢; omega)
    (by
      intro c hc
      simp only [List.mem_cons, List.not_mem_nil, or_false] at hc
      rcases hc with rfl | rfl
      · refine ⟨by decide, by decide, ?_⟩
        intro u v hu hv hne
        simp only [exG, List.mem_cons, Prod.mk.injEq, List.not_mem_nil, or_false] at hu hv ⊢; omega
      · refine ⟨by decide, by decide, ?_⟩
        intro u v hu hv hne
        simp only [exG, List.mem_cons, Prod.mk.injEq, List.not_mem_nil, or_false] at hu hv ⊢; omega) exG_start
  obtain ⟨p, hp, ha, -⟩ := h
  exact ⟨p, hp, ha⟩

/-- The reading of an assignment with two colours on the path, and the count the solver then reports. -/
example : retrieve exG 3 (fun | .x 1 1 => 1 | .x 0 0 => 1 | .x 2 0 => 1 | .opt => 2 | _ => 0) = .ok [0, 1, 0] := by
  decide +kernel

/-- The same path numbered from 1 on. -/
example : initModel ⟨[1, 2, 3], [(1, 2), (2, 3)]⟩ 3 [] = .error .keyError := by decide +kernel

end Verif.ColoringLp
