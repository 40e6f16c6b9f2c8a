import Verif.Lemmas.CgpGenes
import Verif.Lemmas.CgpSpace
import Mathlib.Tactic.IntervalCases
import Mathlib.Data.List.Induction

/-! Properties C140–C143: Cartesian genetic programs. -/
namespace Verif.Cgp

variable {V : Type}

/-! ### C140: running programs -/

/-- A program with one input, one row, and the functions sum (of two) and minus (of one). -/
def exConfig : Config Rat :=
  { inputs := 1, outputs := 1, cols := 2, rows := 1,
    library := [⟨fun l => l.getD 0 0 + l.getD 1 0, 2⟩, ⟨fun l => - l.getD 0 0, 1⟩], zero := 0 }

/-- `-(x + x)`: node 0 is the sum, node 1 its opposite. -/
def exGenome : List Nat := [0, 0, 0, 1, 1, 0, 2]

theorem exForward : Fits exConfig (forward exConfig) exGenome := by
  refine ⟨by decide, ?_⟩
  intro i g h
  have : i < 7 := (List.getElem?_eq_some_iff.mp h).1
  interval_cases i <;> (cases h; decide)

/-- If all genes point into the graph, no run raises, whatever was run before. -/
theorem C140_total (c : Config V) (g : List Nat) (h : Fits c (anywhere c) g) (ind : Ind V) (hr : Ran c g ind) (x : List V) (hx : c.inputs ≤ x.length) :
    ∃ ys ind', run c ind x = .ok (ys, ind') ∧ ys.length = c.outputs ∧ Ran c g ind' := by
  obtain ⟨ys, ind', _, gr, e1, _, _, _, e2, _⟩ := run_ok h hr x hx
  refine ⟨ys, ind', e1, ?_, .run hr hx e1⟩
  have := congrArg List.length e2
  simp only [List.length_map, outsOf, List.length_drop, h.len] at this
  omega

example : ∃ ys ind', run exConfig { genome := exGenome } [3] = .ok (ys, ind') ∧ ys.length = 1 ∧ Ran exConfig exGenome ind' :=
  C140_total exConfig exGenome (exForward.weaken (by decide)) _ .new [3] (by decide)

/-- The nodes that are evaluated are those that some output needs, directly or through other nodes. -/
theorem C140_used (c : Config V) (g : List Nat) (h : Fits c (forward c) g) :
    ∃ gr, create c g = .ok gr ∧ ∀ q, q ∈ gr.used ↔ (q < c.size ∧ Needed c g q) := by
  obtain ⟨gr, e, _⟩ := create_ok (h.weaken (fun p hp => by simp only [forward, anywhere]; omega) : Fits c (anywhere c) g)
  exact ⟨gr, e, create_used h e⟩

example : (create exConfig exGenome).map (·.used) = .ok [1, 0] := by decide +kernel

/-- Node 0 is not needed here. -/
example : (create exConfig [0, 0, 0, 1, 0, 0, 2]).map (·.used) = .ok [1] := by decide +kernel

/-- After `n + 1` runs with the same input, from whatever state, each output whose expression is at most `n + 1` deep
is its value. -/
theorem C140_settles (c : Config V) (g : List Nat) (h : Fits c (forward c) g) (ind : Ind V) (hr : Ran c g ind) (x : List V) (hx : c.inputs ≤ x.length) (n : Nat) :
    ∃ ys ind', runs c n ind x = .ok (ys, ind') ∧ ys.length = c.outputs ∧
      ∀ (o i : Nat) (y v : V), (outsOf c g)[o]? = some i → ys[o]? = some y → value c g x (n + 1) i = some v → y = v := by
  obtain ⟨gr, e, _⟩ := create_ok (h.weaken (fun p hp => by simp only [forward, anywhere]; omega) : Fits c (anywhere c) g)
  obtain ⟨ys, ind', r1, _, r3, r4⟩ := runs_ok h x hx gr e n 0 ind hr (by
    intro gr' _ k hk p _ v hv
    have : k = 0 := by omega
    subst this
    simp [value] at hv) (fun _ => rfl)
  exact ⟨ys, ind', r1, r3, fun o i y v ho hy hv => r4 o i y v (n + 1) ho hy (by omega) hv⟩

example : value exConfig exGenome [3] 2 2 = some (-6) ∧ (runs exConfig 1 { genome := exGenome } [3]).map (·.1) = .ok [-6] :=
  ⟨by decide +kernel, by decide +kernel⟩

/-- After as many runs as there are nodes, the outputs are the values of the program, whatever was run before. -/
theorem C140_program (c : Config V) (g : List Nat) (h : Fits c (forward c) g) (ind : Ind V) (hr : Ran c g ind) (x : List V) (hx : c.inputs ≤ x.length)
    (n : Nat) (hn : c.size ≤ n + 1) :
    ∃ ys ind', runs c n ind x = .ok (ys, ind') ∧ (outsOf c g).map (value c g x (n + 1)) = ys.map some := by
  obtain ⟨ys, ind', r1, r2, r3⟩ := C140_settles c g h ind hr x hx n
  refine ⟨ys, ind', r1, ?_⟩
  have hlen : (outsOf c g).length = ys.length := by
    simp only [outsOf, List.length_drop, h.len, r2]
    omega
  refine List.ext_getElem? fun o => ?_
  rw [List.getElem?_map, List.getElem?_map]
  by_cases ho : o < ys.length
  · have h1 : (outsOf c g)[o]? = some ((outsOf c g)[o]'(by omega)) := List.getElem?_eq_getElem (by omega)
    have h2 : ys[o]? = some ys[o] := List.getElem?_eq_getElem ho
    have hb := h.outs (List.mem_of_getElem? h1)
    obtain ⟨v, hv⟩ := value_exists h x hx (n + 1) _ (by omega) hb
    rw [h1, h2]
    simp only [Option.map_some]
    rw [hv, r3 o _ _ v h1 h2 hv]
  · rw [List.getElem?_eq_none (by omega), List.getElem?_eq_none (by omega)]
    rfl

example : (outsOf exConfig exGenome).map (value exConfig exGenome [3] 2) = [some (-6)] ∧
    ((runs exConfig 0 { genome := exGenome } [7]).toOption.map (·.2)).map (fun ind => (runs exConfig 1 ind [3]).map (·.1)) = some (.ok [-6]) :=
  ⟨by decide +kernel, by decide +kernel⟩

/-- Programs whose outputs are inputs or nodes on inputs alone are right at once. -/
theorem C140_shallow (c : Config V) (g : List Nat) (h : Fits c (forward c) g) (ind : Ind V) (hr : Ran c g ind) (x : List V) (hx : c.inputs ≤ x.length)
    (hs : ∀ i ∈ outsOf c g, i < c.inputs ∨ ∀ a ∈ argsOf c g (i - c.inputs), a < c.inputs) :
    ∃ ys ind', run c ind x = .ok (ys, ind') ∧ (outsOf c g).map (value c g x 1) = ys.map some := by
  obtain ⟨ys, ind', r1, r2, r3⟩ := C140_settles c g h ind hr x hx 0
  refine ⟨ys, ind', r1, ?_⟩
  have hlen : (outsOf c g).length = ys.length := by
    simp only [outsOf, List.length_drop, h.len, r2]
    omega
  refine List.ext_getElem? fun o => ?_
  rw [List.getElem?_map, List.getElem?_map]
  by_cases ho : o < ys.length
  · have h1 : (outsOf c g)[o]? = some ((outsOf c g)[o]'(by omega)) := List.getElem?_eq_getElem (by omega)
    have h2 : ys[o]? = some ys[o] := List.getElem?_eq_getElem ho
    have hb := h.outs (List.mem_of_getElem? h1)
    have hv : ∃ v, value c g x 1 ((outsOf c g)[o]'(by omega)) = some v := by
      generalize (outsOf c g)[o]'(show o < (outsOf c g).length by omega) = i at h1 hb ⊢
      by_cases hin : i < c.inputs
      · exact ⟨_, (value_input c g x 1 hin).trans (List.getElem?_eq_getElem (Nat.lt_of_lt_of_le hin hx))⟩
      · have ha := (hs i (List.mem_of_getElem? h1)).resolve_left hin
        obtain ⟨f, fn, f1, f2⟩ := h.func (show i - c.inputs < c.size by omega)
        have hall : ∀ l : List Nat, (∀ a ∈ l, a < c.inputs) → ∃ vs, collect (l.map (value c g x 0)) = some vs := by
          intro l
          induction l with
          | nil => intro _; exact ⟨[], rfl⟩
          | cons a l ihl =>
            intro hl
            obtain ⟨vs, e⟩ := ihl (fun b hb => hl b (List.mem_cons_of_mem _ hb))
            have ha := hl a List.mem_cons_self
            have ev : value c g x 0 a = some (x[a]'(Nat.lt_of_lt_of_le ha hx)) := (value_input c g x 0 ha).trans (List.getElem?_eq_getElem _)
            exact ⟨x[a]'(Nat.lt_of_lt_of_le ha hx) :: vs, by rw [List.map_cons, ev, collect, e]; rfl⟩
        obtain ⟨vs, e⟩ := hall _ ha
        exact ⟨fn.apply vs, value_node hin f1 f2 e⟩
    obtain ⟨v, hv⟩ := hv
    rw [h1, h2]
    simp only [Option.map_some]
    rw [hv, r3 o _ _ v h1 h2 hv]
  · rw [List.getElem?_eq_none (by omega), List.getElem?_eq_none (by omega)]
    rfl

example : (run exConfig { genome := [0, 0, 0, 1, 1, 0, 1] } [3]).map (·.1) = .ok [6] := by decide +kernel

/-- The first run of a deeper program gives something else: nodes read what other nodes showed before the run. So the
answer also depends on the inputs of earlier runs. -/
theorem C140_first_run_refuted : Fits exConfig (forward exConfig) exGenome ∧
    value exConfig exGenome [3] 2 2 = some (-6) ∧
    (run exConfig { genome := exGenome } [3]).map (·.1) = .ok [0] ∧
    ((run exConfig { genome := exGenome } [7]).toOption.map (·.2)).map (fun ind => (run exConfig ind [3]).map (·.1)) = some (.ok [-14]) :=
  ⟨exForward, by decide +kernel, by decide +kernel, by decide +kernel⟩

/-- A connection to a later node: that node is needed, but it is never evaluated, so the output never settles on what the
nodes say. -/
theorem C140_backward_refuted : Fits exConfig (anywhere exConfig) [1, 2, 0, 0, 0, 0, 1] ∧ Needed exConfig [1, 2, 0, 0, 0, 0, 1] 1 ∧
    (create exConfig [1, 2, 0, 0, 0, 0, 1]).map (·.used) = .ok [0] ∧
    value exConfig [1, 2, 0, 0, 0, 0, 1] [3] 2 1 = some (-6) ∧
    (∀ n ind, ind.genome = [1, 2, 0, 0, 0, 0, 1] → ind.graph = none → (runs exConfig n ind [3]).map (·.1) = .ok [0]) := by
  refine ⟨⟨by decide, ?_⟩, .arg (q := 0) (.out (by decide)) (by decide), by decide +kernel, by decide +kernel, ?_⟩
  · intro i g h
    have : i < 7 := (List.getElem?_eq_some_iff.mp h).1
    interval_cases i <;> (cases h; decide)
  · have key : ∀ n (r : Rat), (runs exConfig n { genome := [1, 2, 0, 0, 0, 0, 1], recurrency := r, graph := some {
        nodes := [⟨1, [2, 0]⟩, ⟨0, [0, 0]⟩], outs := [1], used := [0], output := [3, 0, 0] } } [3]).map (·.1) = .ok [0] := by
      intro n
      induction n with
      | zero => intro r; rfl
      | succ n ih => intro r; exact ih r
    intro n ind h1 h2
    obtain ⟨g, r, gr⟩ := ind
    simp only at h1 h2
    subst h1
    subst h2
    cases n with
    | zero => rfl
    | succ n => exact key n r

/-- A genome whose connection points outside raises when it runs. -/
theorem C140_outside_refuted : (run exConfig { genome := [0, 3, 0, 1, 1, 0, 1] } [3]).map (·.1) = .error .indexError ∧
    (run exConfig { genome := [5, 0, 0, 1, 1, 0, 1] } [3]).map (·.1) = .error .indexError ∧
    (run exConfig { genome := [5, 0, 0, 1, 0, 0, 2] } [3]).map (·.1) = .ok [-3] :=
  ⟨by decide +kernel, by decide +kernel, by decide +kernel⟩

/-! ### C141: genomes -/

/-- With an input and a function, a random genome is made whatever is drawn; its connections go to inputs and to earlier
columns, so it is a forward genome. -/
theorem C141_random (c : Config V) (hin : 0 < c.inputs) (hl : c.library ≠ []) (draw : Nat → Nat) (r : Rat) :
    ∃ g, random c draw r = .ok { genome := g, recurrency := r } ∧ Fits c (columns c) g ∧ Fits c (forward c) g := by
  obtain ⟨g, e, h⟩ := random_ok hin hl draw r
  exact ⟨g, e, h, h.weaken (fun p _ => by simp only [columns, forward]; have := Nat.div_mul_le_self p c.rows; omega)⟩

example : (random exConfig (fun i => i) 1).map (·.genome) = .ok [0, 0, 0, 1, 0, 1, 0] := by decide +kernel

/-- Every such genome can be drawn. -/
theorem C141_random_onto (c : Config V) (g : List Nat) (h : Fits c (columns c) g) (r : Rat) :
    ∃ draw, random c draw r = .ok { genome := g, recurrency := r } := ⟨_, random_onto h r⟩

example : (random exConfig (fun i => exGenome.getD i 0) 1).map (·.genome) = .ok exGenome := by decide +kernel

/-- Without inputs, a genome with nodes that have connections is never made. -/
theorem C141_no_inputs_refuted (c : Config V) (hin : c.inputs = 0) (hs : 0 < c.size) (ha : 0 < c.arity) (draw : Nat → Nat) (r : Rat) :
    random c draw r = .error .valueError := by
  have hM : c.arity + 1 ≤ c.size * (c.arity + 1) := Nat.le_mul_of_pos_left _ hs
  have := mapM_err (randomGene c draw) .valueError (List.range (c.size * (c.arity + 1) + c.outputs)) (fun i _ e h => randomGene_error h)
    ⟨1, List.mem_range.mpr (by omega), by
      simp only [randomGene]
      rw [if_pos (show 1 < c.size * (c.arity + 1) by omega), if_neg (by rw [Nat.mod_eq_of_lt (by omega)]; omega),
        Nat.div_eq_of_lt (show 1 < c.arity + 1 by omega), Nat.zero_div, Nat.zero_mul]
      simp [randint, hin]⟩
  simp only [random, this]

example : (random { exConfig with inputs := 0 } (fun _ => 0) 1).map (·.genome) = .error .valueError :=
  congrArg (Except.map (·.genome)) (C141_no_inputs_refuted { exConfig with inputs := 0 } rfl (by decide) (by decide) (fun _ => 0) 1)

/-- With one row, changing genes at random keeps forward genomes. -/
theorem C141_mutate_partial (c : Config V) (hin : 0 < c.inputs) (hl : c.library ≠ []) (hr : c.rows = 1) (draws : List (Nat × Nat)) (ind : Ind V)
    (h : Fits c (forward c) ind.genome) (ho : 0 < c.outputs) :
    ∃ g, Ind.mutate c draws ind = .ok { ind with genome := g } ∧ Fits c (forward c) g := by
  exact mutate_ok hin hl hr draws ind h (by rw [h.len]; omega)

example : (Ind.mutate exConfig [(4, 4), (6, 1)] { genome := exGenome }).map (·.genome) = .ok [0, 0, 0, 1, 0, 0, 1] := by decide +kernel

/-- With one row and recurrency 1, changing each gene with a probability keeps forward genomes, and the genes that are
not hit. -/
theorem C141_per_gene_partial (c : Config V) (hin : 0 < c.inputs) (hl : c.library ≠ []) (hr : c.rows = 1) (hit : Nat → Bool) (draw : Nat → Nat) (ind : Ind V)
    (h : Fits c (forward c) ind.genome) (hrec : ind.recurrency = 1) :
    ∃ g, Ind.mutatePerGene c hit draw ind = .ok { ind with genome := g } ∧ Fits c (forward c) g ∧ ∀ i : Nat, hit i = false → g[i]? = ind.genome[i]? :=
  mutatePerGene_ok hin hl hr hit draw ind h hrec

example : (Ind.mutatePerGene exConfig (fun i => i == 4) (fun _ => 0) { genome := exGenome }).map (·.genome) = .ok [0, 0, 0, 1, 0, 0, 2] := by decide +kernel

/-- With any rows and any recurrency, the genes stay within the graph, or ValueError is raised. -/
theorem C141_per_gene_range (c : Config V) (hit : Nat → Bool) (draw : Nat → Nat) (ind : Ind V) (h : Fits c (anywhere c) ind.genome) :
    (∃ g, Ind.mutatePerGene c hit draw ind = .ok { ind with genome := g } ∧ Fits c (anywhere c) g) ∨
      Ind.mutatePerGene c hit draw ind = .error .valueError := by
  simp only [Ind.mutatePerGene]
  cases hm : mutateFrom c ind.recurrency hit draw 0 ind.genome with
  | error e => exact .inr (by rw [mutateFrom_error hit draw _ _ e hm])
  | ok g =>
    refine .inl ⟨g, rfl, ?_⟩
    obtain ⟨h1, h2⟩ := mutateFrom_range (anywhere c) hit draw (fun i x hx => mutateGene2_range hx) ind.genome 0 g
      (fun i x hx => by rw [Nat.zero_add]; exact h.gene i x hx) hm
    refine ⟨by rw [h1, h.len], fun i x hx => ?_⟩
    have := h2 i x hx
    rwa [Nat.zero_add] at this

/-- Two rows. -/
def exRows : Config Rat := { exConfig with rows := 2, cols := 1 }

example : (Ind.mutatePerGene exRows (fun i => i == 4) (fun _ => 1) { genome := [0, 0, 0, 1, 0, 0, 2] }).map (·.genome) = .ok [0, 0, 0, 1, 1, 0, 2] := by
  decide +kernel

/-- With two rows, the connections of the first node cannot be changed: ValueError. -/
theorem C141_rows_raise_refuted : Fits exRows (columns exRows) [0, 0, 0, 1, 0, 0, 2] ∧
    (∀ draw, Ind.mutatePerGene exRows (fun i => i == 1) draw { genome := [0, 0, 0, 1, 0, 0, 2] } = .error .valueError) ∧
    (∀ d, Ind.mutate exRows [(1, d)] { genome := [0, 0, 0, 1, 0, 0, 2] } = .error .valueError) := by
  refine ⟨⟨by decide, ?_⟩, ?_, ?_⟩
  · intro i g h
    have : i < 7 := (List.getElem?_eq_some_iff.mp h).1
    interval_cases i <;> (cases h; decide)
  · intro draw
    have key : ∀ d, mutateGene2 exRows 1 d 1 = .error .valueError := by
      intro d
      have hc : connection exRows 1 1 = -1 := by decide +kernel
      simp only [mutateGene2, hc]
      rfl
    simp [Ind.mutatePerGene, mutateFrom, key]
  · intro d; rfl

/-- With two rows and two columns, changing genes leaves the graph, and the next run raises IndexError; changing each
gene with a probability makes a node its own argument. -/
theorem C141_rows_refuted : Fits { exRows with cols := 2 } (columns { exRows with cols := 2 }) [1, 0, 0, 1, 0, 0, 1, 0, 0, 1, 0, 0, 4] ∧
    (Ind.mutate { exRows with cols := 2 } [(10, 5)] { genome := [1, 0, 0, 1, 0, 0, 1, 0, 0, 1, 0, 0, 4] }).map (·.genome) =
      .ok [1, 0, 0, 1, 0, 0, 1, 0, 0, 1, 5, 0, 4] ∧
    (run { exRows with cols := 2 } { genome := [1, 0, 0, 1, 0, 0, 1, 0, 0, 1, 5, 0, 4] } [3]).map (·.1) = .error .indexError ∧
    (Ind.mutatePerGene { exRows with cols := 2 } (fun i => i == 10) (fun _ => 4) { genome := [1, 0, 0, 1, 0, 0, 1, 0, 0, 1, 0, 0, 4] }).map (·.genome) =
      .ok [1, 0, 0, 1, 0, 0, 1, 0, 0, 1, 4, 0, 4] := by
  refine ⟨⟨by decide, ?_⟩, by decide +kernel, by decide +kernel, by decide +kernel⟩
  intro i g h
  have : i < 13 := (List.getElem?_eq_some_iff.mp h).1
  interval_cases i <;> (cases h; decide)

/-- A program that has run keeps its graph: changing its genome changes nothing of what it computes. -/
theorem C141_cached_refuted (c : Config V) (ind ind' ind'' : Ind V) (x y ys : List V) (draws : List (Nat × Nat)) (h : run c ind x = .ok (ys, ind'))
    (hm : Ind.mutate c draws ind' = .ok ind'') : (run c ind'' y).map (·.1) = (run c ind' y).map (·.1) := by
  have hg : ind''.graph = ind'.graph := by
    clear h
    induction draws generalizing ind' with
    | nil => cases hm; rfl
    | cons d draws ih =>
      obtain ⟨p, d⟩ := d
      simp only [Ind.mutate] at hm
      split at hm
      · cases hm
      · split at hm
        · cases hm
        · have := ih _ hm
          exact this
  have hs : ∃ gr, ind'.graph = some gr := by
    simp only [run] at h
    split at h
    · cases h
    · split at h
      · cases h
      · cases h; exact ⟨_, rfl⟩
  obtain ⟨gr, hs⟩ := hs
  simp only [run, graphOf, hg, hs]
  cases runGraph c gr y <;> rfl

example : (run exConfig { genome := [0, 0, 0, 1, 0, 0, 1] } [3]).map (·.1) = .ok [6] ∧
    ((run exConfig { genome := [0, 0, 0, 1, 0, 0, 1] } [3]).toOption.map (·.2)).map (fun ind =>
      ((Ind.mutate exConfig [(6, 2)] ind).map (·.genome), (Ind.mutate exConfig [(6, 2)] ind).bind (fun i => (run exConfig i [3]).map (·.1)))) =
      some (.ok [0, 0, 0, 1, 0, 0, 2], .ok [6]) ∧
    (run exConfig { genome := [0, 0, 0, 1, 0, 0, 2] } [3]).map (·.1) = .ok [-3] :=
  ⟨by decide +kernel, by decide +kernel, by decide +kernel⟩

/-- A clone forgets the recurrency distance: the same draws change it differently. -/
theorem C141_clone_refuted :
    (Ind.mutatePerGene exConfig (fun i => i == 4) (fun _ => 2) { genome := exGenome, recurrency := 2 }).map (·.genome) = .ok [0, 0, 0, 1, 2, 0, 2] ∧
    (Ind.mutatePerGene exConfig (fun i => i == 4) (fun _ => 2) (Ind.clone { genome := exGenome, recurrency := 2 })).map (·.genome) = .ok [0, 0, 0, 1, 0, 0, 2] ∧
    (Ind.mutatePerGene exConfig (fun i => i == 4) (fun _ => 2) { genome := exGenome, recurrency := 1 / 3 }).map (·.genome) = .error .valueError :=
  ⟨by decide +kernel, by decide +kernel, by decide +kernel⟩

/-! ### C142: evolution -/

/-- The final fitness is at least that of the first father and of every offspring of every iteration. -/
theorem C142_best (c : Config V) (evaluate : Nat → Ind V → Except PyErr (Rat × Ind V)) (father : Ind V) (draws : List (List Draws)) (es : Es V)
    (h : evolution c evaluate father draws = .ok es) :
    (∃ f father', evaluate 0 father = .ok (f, father') ∧ f ≤ es.fitness) ∧
    ∀ pre ks post, draws = pre ++ ks :: post → ∃ es1, evolution c evaluate father pre = .ok es1 ∧ es1.fitness ≤ es.fitness ∧
      ∀ k ∈ ks, ∃ r, Child c (evaluate (pre.length + 1)) es1.father k r ∧ r.1 ≤ es.fitness := by
  simp only [evolution] at h ⊢
  cases he : evaluate 0 father with
  | error e => rw [he] at h; cases h
  | ok r =>
    obtain ⟨f, father'⟩ := r
    rw [he] at h
    simp only at h ⊢
    refine ⟨⟨f, father', rfl, evolve_le _ _ _ _ h⟩, ?_⟩
    rintro pre ks post rfl
    rw [evolve_append] at h
    cases hp : evolve c evaluate 1 pre ⟨father', f⟩ with
    | error e => rw [hp] at h; cases h
    | ok es1 =>
      rw [hp] at h
      simp only [evolve] at h
      refine ⟨es1, rfl, ?_⟩
      cases hg : generation c (evaluate (1 + pre.length)) ks es1 with
      | error e => rw [hg] at h; cases h
      | ok es2 =>
        rw [hg] at h
        have hle := evolve_le _ _ _ _ h
        obtain ⟨rs, g1, _, g2, g3, _⟩ := generation_inv hg
        refine ⟨le_trans g2 hle, ?_⟩
        intro k hk
        obtain ⟨n1, n2⟩ := forall₂_get g1
        obtain ⟨i, hi⟩ := List.mem_iff_getElem?.mp hk
        have hil := (List.getElem?_eq_some_iff.mp hi).1
        have hr : rs[i]? = some (rs[i]'(by omega)) := List.getElem?_eq_getElem (by omega)
        refine ⟨_, ?_, le_trans (g3 _ (List.mem_of_getElem? hr)) hle⟩
        have := n2 i _ _ hi hr
        rwa [Nat.add_comm] at this

/-- The final father is the first one or an offspring of some iteration, as its evaluation left it, with the fitness this
evaluation gave. -/
theorem C142_witness (c : Config V) (evaluate : Nat → Ind V → Except PyErr (Rat × Ind V)) (father : Ind V) (draws : List (List Draws)) (es : Es V)
    (h : evolution c evaluate father draws = .ok es) :
    evaluate 0 father = .ok (es.fitness, es.father) ∨
    ∃ pre ks post es1 k, draws = pre ++ ks :: post ∧ k ∈ ks ∧ evolution c evaluate father pre = .ok es1 ∧
      Child c (evaluate (pre.length + 1)) es1.father k (es.fitness, es.father) := by
  induction draws using List.reverseRecOn generalizing es with
  | nil =>
    simp only [evolution] at h
    cases he : evaluate 0 father with
    | error e => rw [he] at h; cases h
    | ok r =>
      obtain ⟨f, father'⟩ := r
      rw [he] at h
      cases h
      exact .inl rfl
  | append_singleton draws ks ih =>
    have h' := h
    simp only [evolution] at h
    cases he : evaluate 0 father with
    | error e => rw [he] at h; cases h
    | ok r =>
      obtain ⟨f, father'⟩ := r
      rw [he] at h
      simp only [evolve_append] at h
      cases hp : evolve c evaluate 1 draws ⟨father', f⟩ with
      | error e => rw [hp] at h; cases h
      | ok es1 =>
        rw [hp] at h
        have hp' : evolution c evaluate father draws = .ok es1 := by simp only [evolution, he, hp]
        simp only [evolve] at h
        cases hg : generation c (evaluate (1 + draws.length)) ks es1 with
        | error e => rw [hg] at h; cases h
        | ok es2 =>
          rw [hg] at h
          cases h
          obtain ⟨rs, g1, _, _, _, g4⟩ := generation_inv hg
          rcases g4 with g4 | g4
          · rw [g4]
            rcases ih es1 hp' with h1 | ⟨pre, ks', post, es0, k, h1, h2, h3, h4⟩
            · exact .inl (he ▸ h1)
            · exact .inr ⟨pre, ks', post ++ [ks], es0, k, by rw [h1]; simp, h2, h3, h4⟩
          · obtain ⟨n1, n2⟩ := forall₂_get g1
            obtain ⟨i, hi⟩ := List.mem_iff_getElem?.mp g4
            have hil := (List.getElem?_eq_some_iff.mp hi).1
            have hk : ks[i]? = some (ks[i]'(by omega)) := List.getElem?_eq_getElem (by omega)
            refine .inr ⟨draws, ks, [], es1, ks[i]'(by omega), rfl, List.getElem_mem _, hp', ?_⟩
            have := n2 i _ _ hk hi
            rwa [Nat.add_comm] at this

/-- One iteration takes the first of the best offsprings if it is at least as good as the father, and else the father. -/
theorem C142_generation (c : Config V) (evaluate : Ind V → Except PyErr (Rat × Ind V)) (ks : List Draws) (es : Es V) (rs : List (Rat × Ind V))
    (h : List.Forall₂ (Child c evaluate es.father) ks rs) (i : Nat) (f : Rat) (ind : Ind V) (hi : rs[i]? = some (f, ind))
    (hbest : ∀ (j : Nat) (r : Rat × Ind V), rs[j]? = some r → r.1 ≤ f ∧ (j < i → r.1 < f)) :
    generation c evaluate ks es = .ok (if es.fitness ≤ f then ⟨ind, f⟩ else es) := by
  have ho := (offsprings_spec ks rs).mpr h
  cases rs with
  | nil => simp at hi
  | cons r rs =>
    have := firstMax_first rs r i (f, ind) hi hbest
    simp only [generation, ho, this]
    split <;> rfl

/-- The fitness is the sum of the genes here. -/
def exEval (_ : Nat) (ind : Ind Rat) : Except PyErr (Rat × Ind Rat) := .ok ((ind.genome.sum : Nat), ind)

/-- Changes the gene at `i` to the draw `d`. -/
def exDraw (i d : Nat) : Draws := ⟨(· == i), fun _ => d⟩

example : (evolution exConfig exEval { genome := exGenome } [[exDraw 6 1, exDraw 5 1], [exDraw 0 1]]).map (fun e => (e.father.genome, e.fitness)) =
    .ok ([1, 0, 0, 1, 1, 1, 2], 6) := by decide +kernel

/-- Without offsprings the first iteration raises. -/
theorem C142_no_offsprings_refuted (c : Config V) (evaluate : Nat → Ind V → Except PyErr (Rat × Ind V)) (father : Ind V) (more : List (List Draws))
    (f : Rat) (father' : Ind V) (h : evaluate 0 father = .ok (f, father')) : evolution c evaluate father ([] :: more) = .error .valueError := by
  simp only [evolution, h, evolve, generation, offsprings]

example : (evolution exConfig exEval { genome := exGenome } [[]]).map (fun e => e.fitness) = .error .valueError := by decide +kernel

/-- With one row, an evolution whose evaluations return never raises, and ends with a forward genome. -/
theorem C142_total_partial (c : Config V) (hin : 0 < c.inputs) (hl : c.library ≠ []) (hr : c.rows = 1) (evaluate : Nat → Ind V → Except PyErr (Rat × Ind V))
    (hev : ∀ it ind, ∃ f ind', evaluate it ind = .ok (f, ind') ∧ ind'.genome = ind.genome) (father : Ind V) (h : Fits c (forward c) father.genome)
    (draws : List (List Draws)) (hne : ∀ ks ∈ draws, ks ≠ []) :
    ∃ es, evolution c evaluate father draws = .ok es ∧ Fits c (forward c) es.father.genome := by
  obtain ⟨f, father', e1, e2⟩ := hev 0 father
  obtain ⟨es, e3, e4⟩ := evolve_fits hin hl hr hev draws 1 ⟨father', f⟩ hne (by rw [e2]; exact h)
  exact ⟨es, by simp only [evolution, e1, e3], e4⟩

example : ∃ es, evolution exConfig exEval { genome := exGenome } [[exDraw 6 1]] = .ok es ∧ Fits exConfig (forward exConfig) es.father.genome :=
  C142_total_partial exConfig (by decide) (by simp [exConfig]) rfl exEval (fun _ ind => ⟨_, ind, rfl, rfl⟩) _ exForward _ (by simp)

/-- With two rows, an evolution can raise ValueError from a genome that `random` made. -/
theorem C142_rows_refuted : (evolution exRows exEval { genome := [0, 0, 0, 1, 0, 0, 2] } [[exDraw 1 0]]).map (fun e => e.fitness) = .error .valueError := by
  decide +kernel

/-- The fitness of an individual is a weighted mean of the rewards of its episodes: between the least and the greatest, and the reward
itself for one episode. -/
theorem C142_weighted (fs : List Rat) (hne : fs ≠ []) (lo hi : Rat) (h : ∀ f ∈ fs, lo ≤ f ∧ f ≤ hi) :
    ∃ w, weighted fs = .ok w ∧ lo ≤ w ∧ w ≤ hi := by
  have hlen : fs.length ≠ 0 := by simpa using hne
  have key : ∀ (l : List Rat) (s : Nat), (∀ f ∈ l, lo ≤ f ∧ f ≤ hi) →
      lo * ((l.zipIdx s).map (fun x => (x.2 : Rat) + 1)).sum ≤ ((l.zipIdx s).map (fun x => x.1 * ((x.2 : Rat) + 1))).sum ∧
      ((l.zipIdx s).map (fun x => x.1 * ((x.2 : Rat) + 1))).sum ≤ hi * ((l.zipIdx s).map (fun x => (x.2 : Rat) + 1)).sum ∧
      0 ≤ ((l.zipIdx s).map (fun x => (x.2 : Rat) + 1)).sum ∧ (l ≠ [] → 0 < ((l.zipIdx s).map (fun x => (x.2 : Rat) + 1)).sum) := by
    intro l
    induction l with
    | nil => intro s _; simp
    | cons a l ih =>
      intro s hl
      obtain ⟨h1, h2, h3, _⟩ := ih (s + 1) (fun f hf => hl f (List.mem_cons_of_mem _ hf))
      obtain ⟨a1, a2⟩ := hl a List.mem_cons_self
      have hs : (0 : Rat) ≤ (s : Rat) := Nat.cast_nonneg s
      simp only [List.zipIdx_cons, List.map_cons, List.sum_cons]
      refine ⟨?_, ?_, by linarith, fun _ => by linarith⟩
      · nlinarith
      · nlinarith
  obtain ⟨h1, h2, _, h4⟩ := key fs 0 h
  have hp := h4 hne
  refine ⟨_, if_neg hlen, ?_, ?_⟩
  · rw [le_div_iff₀ hp]; exact h1
  · rw [div_le_iff₀ hp]; exact h2

example : weighted [5] = .ok 5 ∧ weighted [1, 4] = .ok 3 := ⟨by decide +kernel, by decide +kernel⟩

/-- The rewards are not sorted: the order of the episodes counts. No episode raises. -/
theorem C142_order_refuted : weighted [1, 4] = .ok 3 ∧ weighted [4, 1] = .ok 2 ∧ weighted [] = .error .zeroDivisionError :=
  ⟨by decide +kernel, by decide +kernel, by decide +kernel⟩

/-! ### C143: observations and actions -/

/-- Changing intervals: within the new one, growing, the ends and all beyond to the ends. -/
theorem C143_interval (lo hi a b : Rat) (h : lo < hi) (hab : a ≤ b) (x : Rat) :
    ∃ y, changeInterval x (some lo) (some hi) a b = .ok y ∧ a ≤ y ∧ y ≤ b ∧ (x ≤ lo → y = a) ∧ (hi ≤ x → y = b) ∧
      ∀ x' y', x ≤ x' → changeInterval x' (some lo) (some hi) a b = .ok y' → y ≤ y' := by
  obtain ⟨y, y1, y2, y3⟩ := change_range (x := x) h hab
  have hy := y1
  rw [change_eq h] at hy
  cases hy
  have hp : 0 < hi - lo := by linarith
  refine ⟨_, y1, y2, y3, ?_, ?_, ?_⟩
  · intro hx
    rw [min_eq_right (by linarith), max_eq_left hx]; simp
  · intro hx
    rw [min_eq_left hx, max_eq_right (le_of_lt h), div_self (ne_of_gt hp)]; ring
  · intro x' y' hx hy'
    rw [change_eq h] at hy'
    cases hy'
    have h1 : max lo (min hi x) ≤ max lo (min hi x') := max_le_max (le_refl _) (min_le_min (le_refl _) hx)
    have h2 : (max lo (min hi x) - lo) / (hi - lo) ≤ (max lo (min hi x') - lo) / (hi - lo) := by
      apply div_le_div_of_nonneg_right _ (le_of_lt hp); linarith
    have := mul_le_mul_of_nonneg_right h2 (sub_nonneg.mpr hab)
    linarith

example : changeInterval 3 (some 2) (some 6) (-1) 1 = .ok (-1 / 2) ∧ changeInterval 9 (some 2) (some 6) (-1) 1 = .ok 1 := ⟨by decide +kernel, by decide +kernel⟩

/-- A program output below 1 makes the choice whose share of [-1, 1) it lies in; 1 and more make the last choice, less
than -1 the first. -/
theorem C143_choice (n : Nat) (hn : 0 < n) (x : Rat) (k : Int) :
    (1 ≤ x → changeToInt x (some (-1)) (some 1) 0 ((n : Int) - 1) = .ok ((n : Int) - 1)) ∧
    (x < -1 → changeToInt x (some (-1)) (some 1) 0 ((n : Int) - 1) = .ok 0) ∧
    (-1 ≤ x → x < 1 → (changeToInt x (some (-1)) (some 1) 0 ((n : Int) - 1) = .ok k ↔
      (-1 + 2 * (k : Rat) / n ≤ x ∧ x < -1 + 2 * ((k : Rat) + 1) / n))) :=
  ⟨toInt_high, toInt_low, fun h1 h2 => toInt_iff hn h1 h2 k⟩

example : changeToInt (1 / 5) (some (-1)) (some 1) 0 ((3 : Nat) - 1 : Int) = .ok 1 ∧ changeToInt (1 / 2) (some (-1)) (some 1) 0 ((3 : Nat) - 1 : Int) = .ok 2 :=
  ⟨by decide +kernel, by decide +kernel⟩

/-- Whatever the outputs of the program, if there are enough the action is one of the space. -/
theorem C143_action (ks : List Kind) (vals : List Rat) (hs : Sound ks) (hc : cells ks ≤ vals.length) :
    ∃ items, denormAll ks vals = .ok items ∧ Member ks items := denormAll_ok ks vals hs hc

example : denormAll [.box [(some 0, some 10)], .discrete 3] [1 / 2, -7] = .ok [.real (some (15 / 2)), .int 0] := by decide +kernel

theorem cells_le (ks : List Kind) (hp : ∀ k ∈ ks, ∀ bs, k = .box bs → bs.length ≤ 1) : cells ks ≤ ks.length := by
  induction ks with
  | nil => simp [cells]
  | cons k ks ih =>
    have := ih (fun k hk => hp k (List.mem_cons_of_mem _ hk))
    cases k with
    | box bs => have := hp _ List.mem_cons_self bs rfl; simp only [cells, List.length_cons]; omega
    | discrete n => simp only [cells, List.length_cons]; omega
    | nested => simp only [cells, List.length_cons]; omega
    | other => simp only [cells, List.length_cons]; omega

/-- The solver's action, for a space that is no tuple or a tuple of choices and of boxes with one cell: no error from the
spaces, and an action of the space, when there are as many outputs as the solver makes. -/
theorem C143_solver_action (g : Given) (vals : List Rat) (hs : Sound g.kinds) (hp : ∀ ks, g = .tuple ks → ∀ k ∈ ks, ∀ bs, k = .box bs → bs.length ≤ 1)
    (hv : vals.length = g.places) (hne : g ≠ .tuple []) :
    ∃ r, denorm vals g = .ok r ∧ ∃ items, Member g.kinds items ∧ (r = .many items ∨ ∃ x, r = .one x ∧ items = [x]) := by
  have hc : cells g.kinds ≤ vals.length := by
    rw [hv]
    cases g with
    | single k => cases k <;> simp [Given.kinds, cells, Given.places]
    | tuple ks =>
      exact cells_le ks (hp ks rfl)
  obtain ⟨items, e1, e2⟩ := denormAll_ok g.kinds vals hs hc
  simp only [denorm, e1]
  split
  · exact ⟨_, rfl, items, e2, .inl rfl⟩
  · next k hk heq =>
    rw [heq] at e2 hs
    cases k with
    | box bs => exact absurd rfl (hk bs)
    | discrete n =>
      cases items with
      | nil => simp [Member] at e2
      | cons i items =>
        cases i with
        | real x => simp [Member] at e2
        | int z =>
          have h3 := e2
          simp only [Member] at h3
          refine ⟨.one (.int z), rfl, [.int z], ?_, .inr ⟨_, rfl, rfl⟩⟩
          rw [heq]
          exact ⟨h3.1, h3.2.1, rfl⟩
    | nested => exact hs.elim
    | other => exact hs.elim
  · exact ⟨_, rfl, items, e2, .inl rfl⟩

example : denorm [1 / 5] (.single (.discrete 3)) = .ok (.one (.int 1)) ∧ denorm [0] (.single (.box [(some 0, some 4)])) = .ok (.many [.real (some 2)]) :=
  ⟨by decide +kernel, by decide +kernel⟩

/-- Normalising gives values of [-1, 1], one per cell, and taking them back gives the value itself. -/
theorem C143_inverse (ks : List Kind) (l : List Item) (hw : Wide ks) (hm : Member ks l) :
    ∃ ys, normFlat ks (l.map Item.num) = .ok ys ∧ (∀ y ∈ ys, -1 ≤ y ∧ y ≤ 1) ∧ ys.length = cells ks ∧ denormAll ks ys = .ok l := by
  obtain ⟨ys, h1, h2, h3, h4⟩ := norm_denorm ks l hw hm
  exact ⟨ys, h1, h3, h4, h2⟩

example : normFlat [.box [(some 0, some 4)], .discrete 3] [1, 2] = .ok [-1 / 2, 1] ∧
    denormAll [.box [(some 0, some 4)], .discrete 3] [-1 / 2, 1] = .ok [.real (some 1), .int 2] := ⟨by decide +kernel, by decide +kernel⟩

/-- A choice among one: every observation raises ZeroDivisionError. -/
theorem C143_one_choice_refuted (x : Rat) : normFlat [.discrete 1] [x] = .error .zeroDivisionError := by
  simp [normFlat, changeInterval]

/-- A cell that is unbounded above and bounded below by more than 1: all observations look the same. -/
theorem C143_half_line_refuted (lo x : Rat) (h : 1 < lo) : changeInterval x (some lo) none (-1) 1 = .ok (-1) := by
  simp only [changeInterval, Option.getD_some, Option.getD_none]
  rw [if_neg (by linarith), max_eq_left (le_trans (min_le_left _ _) (le_of_lt h))]
  simp

example : changeInterval 50 (some 2) none (-1) 1 = .ok (-1) ∧ changeInterval 3 (some 2) none (-1) 1 = .ok (-1) := ⟨by decide +kernel, by decide +kernel⟩

/-- An unbounded cell cuts all observations beyond [-1, 1], and makes actions that are no finite numbers. -/
theorem C143_unbounded_refuted : changeInterval 50 none none (-1) 1 = changeInterval 1 none none (-1) 1 ∧
    denormAll [.box [(none, none)]] [1 / 2] = .ok [.real none] := ⟨by decide +kernel, by decide +kernel⟩

/-- A tuple with a box of two cells: the solver makes one output per part, which is too few; with enough outputs the
action is flat. -/
theorem C143_tuple_refuted : (Given.tuple [.box [(some 0, some 1), (some 0, some 1)], .discrete 2]).places = 2 ∧
    cells [.box [(some 0, some 1), (some 0, some 1)], .discrete 2] = 3 ∧
    (∀ a b, denorm [a, b] (.tuple [.box [(some 0, some 1), (some 0, some 1)], .discrete 2]) = .error .indexError) ∧
    denorm [0, 1, 1] (.tuple [.box [(some 0, some 1), (some 0, some 1)], .discrete 2]) = .ok (.many [.real (some (1 / 2)), .real (some 1), .int 1]) := by
  refine ⟨rfl, rfl, ?_, by decide +kernel⟩
  intro a b
  have h : (-1 : Rat) < 1 := by norm_num
  simp only [denorm, Given.kinds, denormAll, denormCells, change_eq h, Except.map]

/-- The check of the domain keeps the answer for the last part: spaces that are not supported pass, and then raise. -/
theorem C143_check_refuted : accepted (.tuple [.other, .discrete 2]) = true ∧ normFlat [.other, .discrete 2] [0, 0] = .error .valueError ∧
    accepted (.tuple [.nested, .discrete 2]) = true ∧ normFlat [.nested, .discrete 2] [0, 0] = .error .valueError ∧
    accepted (.tuple [.discrete 2, .other]) = false := ⟨by decide, by decide +kernel, by decide, by decide +kernel, by decide⟩

/-- What the check does guarantee: a space that is no tuple is supported. -/
theorem C143_check_partial (k : Kind) (hk : k ≠ .nested) : accepted (.single k) = true ↔ ((∃ bs, k = .box bs) ∨ ∃ n, k = .discrete n) := by
  cases k <;> simp_all [accepted, Given.kinds]

example : accepted (.single (.discrete 3)) = true ∧ accepted (.single .other) = false := ⟨by decide, by decide⟩

end Verif.Cgp
