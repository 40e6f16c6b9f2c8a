import Verif.Model.Cgp

/-! Lemmas on Cartesian genetic programs. -/
namespace Verif.Cgp

variable {V : Type}

/-! ### What genomes mean -/

/-- The values of a list, if all are there. -/
def collect : List (Option V) → Option (List V)
  | [] => some []
  | none :: _ => none
  | some v :: l => (collect l).map (v :: ·)

/-- The function gene of a node. -/
def funcOf (c : Config V) (genome : List Nat) (p : Nat) : Option Nat := genome[p * (c.arity + 1)]?

/-- The connection genes of a node. -/
def argsOf (c : Config V) (genome : List Nat) (p : Nat) : List Nat := (genome.drop (p * (c.arity + 1) + 1)).take c.arity

/-- The value of the expression that stands at place `i`, if it is at most `k` deep. -/
def value (c : Config V) (genome : List Nat) (x : List V) : Nat → Nat → Option V
  | k, i =>
    if i < c.inputs then x[i]?
    else match k with
      | 0 => none
      | k + 1 =>
        match (funcOf c genome (i - c.inputs)).bind (fun f => c.library[f]?) with
        | none => none
        | some fn => (collect ((argsOf c genome (i - c.inputs)).map (value c genome x k))).map fn.apply

/-- The output genes. -/
def outsOf (c : Config V) (genome : List Nat) : List Nat := genome.drop (c.size * (c.arity + 1))

/-- The least number that is too great for the gene at position `i`, if connections of node `p` are below `bound p`. -/
def limit (c : Config V) (bound : Nat → Nat) (i : Nat) : Nat :=
  if i < c.size * (c.arity + 1) then
    if i % (c.arity + 1) = 0 then c.library.length else bound (i / (c.arity + 1))
  else c.inputs + c.size

/-- A genome of the right length with genes within their limits. -/
structure Fits (c : Config V) (bound : Nat → Nat) (genome : List Nat) : Prop where
  len : genome.length = c.size * (c.arity + 1) + c.outputs
  gene : ∀ i g, genome[i]? = some g → g < limit c bound i

/-- Connections to places of the graph. -/
def anywhere (c : Config V) (_ : Nat) : Nat := c.inputs + c.size

/-- Connections to inputs and to earlier nodes. -/
def forward (c : Config V) (p : Nat) : Nat := c.inputs + p

/-- Connections to inputs and to nodes of earlier columns. -/
def columns (c : Config V) (p : Nat) : Nat := c.inputs + p / c.rows * c.rows

/-- A node whose value an output needs. -/
inductive Needed (c : Config V) (genome : List Nat) : Nat → Prop
  | out {p : Nat} : c.inputs + p ∈ outsOf c genome → Needed c genome p
  | arg {p q : Nat} : Needed c genome q → c.inputs + p ∈ argsOf c genome q → Needed c genome p

theorem Fits.weaken {c : Config V} {b b' : Nat → Nat} {g : List Nat} (h : Fits c b g) (hb : ∀ p < c.size, b p ≤ b' p) : Fits c b' g := by
  refine ⟨h.len, fun i x hx => ?_⟩
  have := h.gene i x hx
  simp only [limit] at this ⊢
  split at this
  · next hi =>
    rw [if_pos hi]
    split at this
    · next hm => rw [if_pos hm]; exact this
    · next hm =>
      rw [if_neg hm]
      exact Nat.lt_of_lt_of_le this (hb _ (Nat.div_lt_of_lt_mul (by rw [Nat.mul_comm]; exact hi)))
  · next hi => rw [if_neg hi]; exact this

/-- The genes of a node. -/
theorem Fits.func {c : Config V} {b : Nat → Nat} {g : List Nat} (h : Fits c b g) {p : Nat} (hp : p < c.size) :
    ∃ f fn, funcOf c g p = some f ∧ c.library[f]? = some fn := by
  have hl : p * (c.arity + 1) < c.size * (c.arity + 1) := Nat.mul_lt_mul_of_pos_right hp (Nat.succ_pos _)
  have hlt : p * (c.arity + 1) < g.length := by rw [h.len]; omega
  have := h.gene _ _ (List.getElem?_eq_getElem hlt)
  simp only [limit, hl, if_true, Nat.mul_mod_left] at this
  exact ⟨_, _, List.getElem?_eq_getElem hlt, List.getElem?_eq_getElem this⟩

theorem Fits.args_length {c : Config V} {b : Nat → Nat} {g : List Nat} (h : Fits c b g) {p : Nat} (hp : p < c.size) :
    (argsOf c g p).length = c.arity := by
  have hl : (p + 1) * (c.arity + 1) ≤ c.size * (c.arity + 1) := Nat.mul_le_mul_right _ hp
  rw [Nat.succ_mul] at hl
  simp only [argsOf, List.length_take, List.length_drop, h.len]
  omega

theorem Fits.args {c : Config V} {b : Nat → Nat} {g : List Nat} (h : Fits c b g) {p : Nat} (hp : p < c.size) {a : Nat} (ha : a ∈ argsOf c g p) : a < b p := by
  have hl : (p + 1) * (c.arity + 1) ≤ c.size * (c.arity + 1) := Nat.mul_le_mul_right _ hp
  rw [Nat.succ_mul] at hl
  obtain ⟨j, hj⟩ := List.mem_iff_getElem?.mp ha
  have hja : j < c.arity := by
    have := (List.getElem?_eq_some_iff.mp hj).1
    rwa [h.args_length hp] at this
  simp only [argsOf, List.getElem?_take, hja, if_true, List.getElem?_drop] at hj
  have := h.gene _ _ hj
  have h1 : p * (c.arity + 1) + 1 + j < c.size * (c.arity + 1) := by omega
  have h2 : (p * (c.arity + 1) + 1 + j) % (c.arity + 1) = 1 + j := by
    rw [Nat.add_assoc, Nat.add_comm, Nat.add_mul_mod_self_right, Nat.mod_eq_of_lt (by omega)]
  have h3 : (p * (c.arity + 1) + 1 + j) / (c.arity + 1) = p := by
    rw [Nat.add_assoc, Nat.add_comm, Nat.add_mul_div_right _ _ (Nat.succ_pos _), Nat.div_eq_of_lt (by omega), Nat.zero_add]
  simp only [limit, h1, if_true, h2, h3] at this
  rwa [if_neg (by omega)] at this

theorem Fits.outs {c : Config V} {b : Nat → Nat} {g : List Nat} (h : Fits c b g) {a : Nat} (ha : a ∈ outsOf c g) : a < c.inputs + c.size := by
  obtain ⟨j, hj⟩ := List.mem_iff_getElem?.mp ha
  simp only [outsOf, List.getElem?_drop] at hj
  have := h.gene _ _ hj
  simp only [limit] at this
  rwa [if_neg (by omega)] at this

/-! ### The graph -/

theorem nodesFrom_ok {c : Config V} {b : Nat → Nat} {g : List Nat} (h : Fits c b g) : ∀ (fuel q : Nat), q ≤ c.size → c.size - q ≤ fuel →
    ∃ l, nodesFrom g c.arity (c.size * (c.arity + 1)) fuel (q * (c.arity + 1)) = .ok l ∧ l.length = c.size - q ∧
      ∀ p, q + p < c.size → ∃ f, funcOf c g (q + p) = some f ∧ l[p]? = some ⟨f, argsOf c g (q + p)⟩ := by
  intro fuel
  induction fuel with
  | zero =>
    intro q hq hf
    exact ⟨[], rfl, by simp; omega, fun p hp => by omega⟩
  | succ fuel ih =>
    intro q hq hf
    by_cases hlt : q < c.size
    · have hl : (q + 1) * (c.arity + 1) ≤ c.size * (c.arity + 1) := Nat.mul_le_mul_right _ hlt
      have hs : (q + 1) * (c.arity + 1) = q * (c.arity + 1) + c.arity + 1 := by rw [Nat.succ_mul]; omega
      obtain ⟨f, fn, hf1, hf2⟩ := h.func hlt
      obtain ⟨l, h1, h2, h3⟩ := ih (q + 1) hlt (by omega)
      rw [hs] at h1
      have hpos : q * (c.arity + 1) < c.size * (c.arity + 1) := by omega
      have hlen : ¬ g.length < q * (c.arity + 1) + c.arity + 1 := by rw [h.len]; omega
      have hf1' : g[q * (c.arity + 1)]? = some f := hf1
      refine ⟨⟨f, argsOf c g q⟩ :: l, ?_, by simp [h2]; omega, ?_⟩
      · simp only [nodesFrom, hpos, if_true, hf1', hlen, if_false, h1]
        rfl
      · intro p hp
        cases p with
        | zero => exact ⟨f, hf1, rfl⟩
        | succ p =>
          obtain ⟨f', e1, e2⟩ := h3 p (by omega)
          have hqp : q + 1 + p = q + (p + 1) := by omega
          rw [hqp] at e1 e2
          exact ⟨f', e1, by simpa using e2⟩
    · have hq' : q = c.size := by omega
      subst hq'
      refine ⟨[], by simp [nodesFrom], by simp, fun p hp => by omega⟩

theorem mark_ok (inputs : Nat) : ∀ (l : List Nat) (m : List Bool), (∀ a ∈ l, a < inputs + m.length) →
    ∃ m', mark inputs l m = .ok m' ∧ m'.length = m.length ∧ ∀ q, m'[q]? = some true ↔ (m[q]? = some true ∨ inputs + q ∈ l) := by
  intro l
  induction l with
  | nil => intro m _; exact ⟨m, rfl, rfl, by simp⟩
  | cons a l ih =>
    intro m h
    by_cases ha : inputs ≤ a
    · have hlt : a - inputs < m.length := by have := h a List.mem_cons_self; omega
      obtain ⟨m', h1, h2, h3⟩ := ih (m.set (a - inputs) true) (by intro x hx; rw [List.length_set]; exact h x (List.mem_cons_of_mem _ hx))
      refine ⟨m', by simp only [mark, ha, if_true, hlt, h1], by rw [h2, List.length_set], fun q => ?_⟩
      rw [h3, List.getElem?_set, List.mem_cons]
      by_cases hq : a - inputs = q
      · subst hq
        simp only [if_true, hlt]
        constructor
        · intro _; right; left; omega
        · intro _; left; trivial
      · rw [if_neg hq]
        constructor
        · rintro (h | h)
          · exact .inl h
          · exact .inr (.inr h)
        · rintro (h | h | h)
          · exact .inl h
          · exact absurd (by omega) hq
          · exact .inr h
    · obtain ⟨m', h1, h2, h3⟩ := ih m (fun x hx => h x (List.mem_cons_of_mem _ hx))
      refine ⟨m', by simp only [mark, ha, if_false, h1], h2, fun q => ?_⟩
      rw [h3, List.mem_cons]
      constructor
      · rintro (h | h)
        · exact .inl h
        · exact .inr (.inr h)
      · rintro (h | h | h)
        · exact .inl h
        · omega
        · exact .inr h

/-- The nodes are those of the genome. -/
def NodesOf (c : Config V) (g : List Nat) (nodes : List Node) : Prop :=
  nodes.length = c.size ∧ ∀ p < c.size, ∃ f, funcOf c g p = some f ∧ nodes[p]? = some ⟨f, argsOf c g p⟩

theorem sweep_ok {c : Config V} {g : List Nat} (h : Fits c (anywhere c) g) {nodes : List Node} (hn : NodesOf c g nodes) : ∀ (p : Nat) (m : List Bool),
    p ≤ c.size → m.length = c.size → ∃ l, sweep c.inputs nodes p m = .ok l ∧ ∀ q ∈ l, q < p := by
  intro p
  induction p with
  | zero => intro m _ _; exact ⟨[], rfl, by simp⟩
  | succ p ih =>
    intro m hp hm
    simp only [sweep]
    split
    · obtain ⟨f, -, h2⟩ := hn.2 p hp
      obtain ⟨m', e1, e2, e3⟩ := mark_ok c.inputs (argsOf c g p) m (by intro a ha; rw [hm]; exact h.args hp ha)
      obtain ⟨l, e4, e5⟩ := ih m' (by omega) (by omega)
      simp only [h2, e1, e4]
      refine ⟨_, rfl, ?_⟩
      intro q hq
      rcases List.mem_cons.mp hq with rfl | hq
      · omega
      · have := e5 q hq; omega
    · obtain ⟨l, e4, e5⟩ := ih m (by omega) hm
      exact ⟨l, e4, fun q hq => by have := e5 q hq; omega⟩

theorem sweep_needed {c : Config V} {g : List Nat} (h : Fits c (forward c) g) {nodes : List Node} (hn : NodesOf c g nodes) : ∀ (p : Nat) (m : List Bool),
    p ≤ c.size → m.length = c.size →
    (∀ q, m[q]? = some true ↔ (q < c.size ∧ (c.inputs + q ∈ outsOf c g ∨ ∃ r, p ≤ r ∧ r < c.size ∧ Needed c g r ∧ c.inputs + q ∈ argsOf c g r))) →
    ∃ l, sweep c.inputs nodes p m = .ok l ∧ ∀ q, q ∈ l ↔ (q < p ∧ Needed c g q) := by
  intro p
  induction p with
  | zero => intro m _ _ _; exact ⟨[], rfl, by simp⟩
  | succ p ih =>
    intro m hp hm hinv
    have key : m[p]? = some true ↔ Needed c g p := by
      rw [hinv]
      constructor
      · rintro ⟨-, h1 | ⟨r, -, -, h2, h3⟩⟩
        · exact .out h1
        · exact .arg h2 h3
      · intro hN
        refine ⟨hp, ?_⟩
        cases hN with
        | out h1 => exact .inl h1
        | @arg _ q h1 h2 =>
          have hq : q < c.size := by
            refine Classical.byContradiction fun hge => ?_
            have h0 : q < c.size := by
              cases h1 with
              | out h3 => have := h.outs h3; omega
              | @arg _ r h3 h4 =>
                have hr : r < c.size ∨ c.size ≤ r := by omega
                rcases hr with hr | hr
                · have := h.args hr h4; simp only [forward] at this; omega
                · exfalso
                  have : argsOf c g r ⊆ outsOf c g := by
                    intro x hx
                    simp only [argsOf, outsOf] at hx ⊢
                    have hx' := List.mem_of_mem_take hx
                    have hle : c.size * (c.arity + 1) ≤ r * (c.arity + 1) := Nat.mul_le_mul_right _ hr
                    obtain ⟨k, hk⟩ : ∃ k, r * (c.arity + 1) + 1 = k + c.size * (c.arity + 1) := ⟨_, (Nat.sub_add_cancel (by omega)).symm⟩
                    rw [hk, Nat.add_comm, ← List.drop_drop] at hx'
                    exact List.mem_of_mem_drop hx'
                  have := h.outs (this h4)
                  omega
            exact hge h0
          have := h.args hq h2
          simp only [forward] at this
          exact .inr ⟨q, by omega, hq, h1, h2⟩
    simp only [sweep]
    by_cases hmp : m[p]? = some true
    · have hN := key.mp hmp
      obtain ⟨f, -, h2⟩ := hn.2 p hp
      obtain ⟨m', e1, e2, e3⟩ := mark_ok c.inputs (argsOf c g p) m (by
        intro a ha; have := h.args hp ha; simp only [forward] at this; omega)
      obtain ⟨l, e4, e5⟩ := ih m' (by omega) (by omega) (by
        intro q
        rw [e3, hinv]
        constructor
        · rintro (⟨h1, h2 | ⟨r, h2, h3, h4, h5⟩⟩ | h1)
          · exact ⟨h1, .inl h2⟩
          · exact ⟨h1, .inr ⟨r, by omega, h3, h4, h5⟩⟩
          · have := h.args hp h1
            simp only [forward] at this
            exact ⟨by omega, .inr ⟨p, Nat.le_refl _, hp, hN, h1⟩⟩
        · rintro ⟨h1, h2 | ⟨r, h2, h3, h4, h5⟩⟩
          · exact .inl ⟨h1, .inl h2⟩
          · by_cases hr : r = p
            · subst hr; exact .inr h5
            · exact .inl ⟨h1, .inr ⟨r, by omega, h3, h4, h5⟩⟩)
      simp only [hmp, if_true, h2, e1, e4]
      refine ⟨_, rfl, fun q => ?_⟩
      rw [List.mem_cons, e5]
      constructor
      · rintro (rfl | ⟨h1, h2⟩)
        · exact ⟨by omega, hN⟩
        · exact ⟨by omega, h2⟩
      · rintro ⟨h1, h2⟩
        by_cases hq : q = p
        · exact .inl hq
        · exact .inr ⟨by omega, h2⟩
    · have hN : ¬ Needed c g p := fun h => hmp (key.mpr h)
      obtain ⟨l, e4, e5⟩ := ih m (by omega) hm (by
        intro q
        rw [hinv]
        constructor
        · rintro ⟨h1, h2 | ⟨r, h2, h3, h4, h5⟩⟩
          · exact ⟨h1, .inl h2⟩
          · exact ⟨h1, .inr ⟨r, by omega, h3, h4, h5⟩⟩
        · rintro ⟨h1, h2 | ⟨r, h2, h3, h4, h5⟩⟩
          · exact ⟨h1, .inl h2⟩
          · refine ⟨h1, .inr ⟨r, ?_, h3, h4, h5⟩⟩
            have : r ≠ p := by rintro rfl; exact hN h4
            omega)
      rw [if_neg hmp]
      refine ⟨l, e4, fun q => ?_⟩
      rw [e5]
      constructor
      · rintro ⟨h1, h2⟩; exact ⟨by omega, h2⟩
      · rintro ⟨h1, h2⟩
        have : q ≠ p := by rintro rfl; exact hN h2
        exact ⟨by omega, h2⟩

/-- A graph made from a genome whose genes point into the graph. -/
structure Made (c : Config V) (g : List Nat) (gr : Graph V) : Prop where
  nodes : NodesOf c g gr.nodes
  outs : gr.outs = outsOf c g
  used : ∀ q ∈ gr.used, q < c.size
  len : gr.output.length = c.size + c.inputs

theorem create_ok {c : Config V} {g : List Nat} (h : Fits c (anywhere c) g) : ∃ gr, create c g = .ok gr ∧ Made c g gr := by
  have hlen : g.length - c.outputs = c.size * (c.arity + 1) := by rw [h.len]; omega
  obtain ⟨nodes, n1, n2, n3⟩ := nodesFrom_ok h g.length 0 (Nat.zero_le _) (by
    rw [h.len]; have := Nat.le_mul_of_pos_right c.size (Nat.succ_pos c.arity); rw [Nat.succ_eq_add_one] at this; omega)
  have hN : NodesOf c g nodes := ⟨by omega, fun p hp => by simpa using n3 p (by omega)⟩
  obtain ⟨m, m1, m2, m3⟩ := mark_ok c.inputs (outsOf c g) (List.replicate c.size false) (by
    intro a ha; rw [List.length_replicate]; exact h.outs ha)
  rw [List.length_replicate] at m2
  obtain ⟨l, l1, l2⟩ := sweep_ok h hN c.size m (Nat.le_refl _) m2
  refine ⟨⟨nodes, outsOf c g, l, List.replicate (c.size + c.inputs) c.zero⟩, ?_, hN, rfl, l2, by simp⟩
  have n1' : nodesFrom g c.arity (g.length - c.outputs) g.length 0 = .ok nodes := by rw [hlen]; simpa using n1
  have m1' : mark c.inputs (g.drop (g.length - c.outputs)) (List.replicate c.size false) = .ok m := by rw [hlen]; exact m1
  simp only [create, n1', m1', l1, if_neg (show ¬ g.length < c.outputs by rw [h.len]; omega)]
  rw [hlen]
  rfl

theorem create_used {c : Config V} {g : List Nat} (h : Fits c (forward c) g) {gr : Graph V} (e : create c g = .ok gr) :
    ∀ q, q ∈ gr.used ↔ (q < c.size ∧ Needed c g q) := by
  have ha : Fits c (anywhere c) g := h.weaken (fun p hp => by simp only [forward, anywhere]; omega)
  have hlen : g.length - c.outputs = c.size * (c.arity + 1) := by rw [h.len]; omega
  obtain ⟨nodes, n1, n2, n3⟩ := nodesFrom_ok h g.length 0 (Nat.zero_le _) (by
    rw [h.len]; have := Nat.le_mul_of_pos_right c.size (Nat.succ_pos c.arity); rw [Nat.succ_eq_add_one] at this; omega)
  have hN : NodesOf c g nodes := ⟨by omega, fun p hp => by simpa using n3 p (by omega)⟩
  obtain ⟨m, m1, m2, m3⟩ := mark_ok c.inputs (outsOf c g) (List.replicate c.size false) (by
    intro a ha; rw [List.length_replicate]; exact h.outs ha)
  rw [List.length_replicate] at m2
  obtain ⟨l, l1, l2⟩ := sweep_needed h hN c.size m (Nat.le_refl _) m2 (by
    intro q
    rw [m3]
    constructor
    · rintro (h1 | h1)
      · simp [List.getElem?_replicate] at h1
      · have := h.outs h1; exact ⟨by omega, .inl h1⟩
    · rintro ⟨h1, h2 | ⟨r, h2, h3, -⟩⟩
      · exact .inr h2
      · omega)
  have n1' : nodesFrom g c.arity (g.length - c.outputs) g.length 0 = .ok nodes := by rw [hlen]; simpa using n1
  have m1' : mark c.inputs (g.drop (g.length - c.outputs)) (List.replicate c.size false) = .ok m := by rw [hlen]; exact m1
  simp only [create, n1', m1', l1, if_neg (show ¬ g.length < c.outputs by rw [h.len]; omega), Except.ok.injEq] at e
  subst e
  exact l2

/-! ### Runs -/

theorem gather_ok (values : List V) : ∀ l : List Nat, (∀ i ∈ l, i < values.length) →
    ∃ vs, gather values l = .ok vs ∧ l.map (fun i => values[i]?) = vs.map some := by
  intro l
  induction l with
  | nil => intro _; exact ⟨[], rfl, rfl⟩
  | cons i l ih =>
    intro h
    obtain ⟨vs, e1, e2⟩ := ih (fun j hj => h j (List.mem_cons_of_mem _ hj))
    have := h i List.mem_cons_self
    refine ⟨values[i] :: vs, by simp only [gather, List.getElem?_eq_getElem this, e1], by simp [List.getElem?_eq_getElem this, e2]⟩

theorem load_ok : ∀ (n : Nat) (x out : List V), n ≤ x.length → n ≤ out.length →
    ∃ o, load n x out = .ok o ∧ o.length = out.length ∧ (∀ i < n, o[i]? = x[i]?) ∧ ∀ i, n ≤ i → o[i]? = out[i]? := by
  intro n
  induction n with
  | zero => intro x out _ _; exact ⟨out, rfl, rfl, fun i hi => by omega, fun _ _ => rfl⟩
  | succ p ih =>
    intro x out hx ho
    have h1 : p < x.length := by omega
    have h2 : p < out.length := by omega
    obtain ⟨o, e1, e2, e3, e4⟩ := ih x (out.set p x[p]) (by omega) (by rw [List.length_set]; omega)
    refine ⟨o, by simp only [load, List.getElem?_eq_getElem h1, h2, if_true, e1], by rw [e2, List.length_set], ?_, ?_⟩
    · intro i hi
      by_cases hip : i = p
      · subst hip
        rw [e4 i (Nat.le_refl _), List.getElem?_set_self h2, List.getElem?_eq_getElem h1]
      · exact e3 i (by omega)
    · intro i hi
      rw [e4 i (by omega), List.getElem?_set_ne (by omega)]

/-- What a node computes from the values `old`. -/
def Computes (c : Config V) (g : List Nat) (old : List V) (p : Nat) (v : V) : Prop :=
  ∃ f fn vs, funcOf c g p = some f ∧ c.library[f]? = some fn ∧ (argsOf c g p).map (fun i => old[i]?) = vs.map some ∧ v = fn.apply vs

theorem evalNodes_ok {c : Config V} {g : List Nat} (h : Fits c (anywhere c) g) {nodes : List Node} (hn : NodesOf c g nodes) (old : List V)
    (ho : old.length = c.size + c.inputs) : ∀ (l : List Nat) (out : List V), (∀ p ∈ l, p < c.size) → out.length = c.size + c.inputs →
    ∃ o, evalNodes c nodes old l out = .ok o ∧ o.length = c.size + c.inputs ∧ (∀ p ∈ l, ∃ v, o[p + c.inputs]? = some v ∧ Computes c g old p v) ∧
      ∀ i, (∀ p ∈ l, i ≠ p + c.inputs) → o[i]? = out[i]? := by
  intro l
  induction l with
  | nil => intro out _ hl; exact ⟨out, rfl, hl, by simp, fun _ _ => rfl⟩
  | cons p l ih =>
    intro out hp hl
    have hps := hp p List.mem_cons_self
    obtain ⟨f, f1, f2⟩ := hn.2 p hps
    obtain ⟨f', fn, f3, f4⟩ := h.func hps
    rw [f1] at f3
    cases f3
    obtain ⟨vs, g1, g2⟩ := gather_ok old (argsOf c g p) (by
      intro i hi; have := h.args hps hi; simp only [anywhere] at this; omega)
    obtain ⟨o, e1, e2, e3, e4⟩ := ih (out.set (p + c.inputs) (fn.apply vs)) (fun q hq => hp q (List.mem_cons_of_mem _ hq)) (by rw [List.length_set, hl])
    refine ⟨o, by simp only [evalNodes, f2, g1, f4, e1], e2, ?_, ?_⟩
    · intro q hq
      by_cases hql : q ∈ l
      · exact e3 q hql
      · have hqp : q = p := by simpa [hql] using hq
        subst hqp
        refine ⟨fn.apply vs, ?_, f, fn, vs, f1, f4, g2, rfl⟩
        rw [e4 _ (by intro r hr he; have : r = q := by omega
                     subst this; exact hql hr), List.getElem?_set_self (by omega)]
    · intro i hi
      rw [e4 i (fun q hq => hi q (List.mem_cons_of_mem _ hq)), List.getElem?_set_ne (by have := hi p List.mem_cons_self; omega)]

theorem runGraph_ok {c : Config V} {g : List Nat} (h : Fits c (anywhere c) g) {gr : Graph V} (hm : Made c g gr) (x : List V) (hx : c.inputs ≤ x.length) :
    ∃ ys out old, runGraph c gr x = .ok (ys, { gr with output := out }) ∧ out.length = c.size + c.inputs ∧
      (outsOf c g).map (fun i => out[i]?) = ys.map some ∧
      (∀ i < c.inputs, old[i]? = x[i]? ∧ out[i]? = x[i]?) ∧ (∀ i, c.inputs ≤ i → old[i]? = gr.output[i]?) ∧
      ∀ p ∈ gr.used, ∃ v, out[p + c.inputs]? = some v ∧ Computes c g old p v := by
  obtain ⟨old, l1, l2, l3, l4⟩ := load_ok c.inputs x gr.output hx (by rw [hm.len]; omega)
  obtain ⟨out, o1, o2, o3, o4⟩ := evalNodes_ok h hm.nodes old (by rw [l2, hm.len]) gr.used.reverse old
    (fun p hp => hm.used p (List.mem_reverse.mp hp)) (by rw [l2, hm.len])
  obtain ⟨ys, y1, y2⟩ := gather_ok out (outsOf c g) (by intro i hi; have := h.outs hi; omega)
  refine ⟨ys, out, old, ?_, o2, y2, ?_, l4, ?_⟩
  · rw [← hm.outs] at y1
    simp only [runGraph, l1, o1, y1]
  · intro i hi
    exact ⟨l3 i hi, by rw [o4 i (by intro p _ ; omega), l3 i hi]⟩
  · intro p hp
    exact o3 p (List.mem_reverse.mpr hp)

theorem Made.step {c : Config V} {g : List Nat} {gr : Graph V} (hm : Made c g gr) {out : List V} (ho : out.length = c.size + c.inputs) :
    Made c g { gr with output := out } := ⟨hm.nodes, hm.outs, hm.used, ho⟩

/-- The individuals with this genome after any runs. -/
inductive Ran (c : Config V) (g : List Nat) : Ind V → Prop
  | new {r : Rat} : Ran c g { genome := g, recurrency := r }
  | run {ind ind' : Ind V} {x ys : List V} : Ran c g ind → c.inputs ≤ x.length → run c ind x = .ok (ys, ind') → Ran c g ind'

theorem Ran.made {c : Config V} {g : List Nat} (h : Fits c (anywhere c) g) {ind : Ind V} (hr : Ran c g ind) :
    ind.genome = g ∧ ∀ gr, ind.graph = some gr → Made c g gr ∧ ∃ gr0, create c g = .ok gr0 ∧ gr.used = gr0.used := by
  induction hr with
  | new => exact ⟨rfl, by simp⟩
  | @run ind ind' x ys h0 hx e ih =>
    obtain ⟨gr0, c1, c2⟩ := create_ok h
    have key : ∃ gr, graphOf c ind = .ok gr ∧ Made c g gr ∧ gr.used = gr0.used := by
      cases hg : ind.graph with
      | none => exact ⟨gr0, by simpa [graphOf, hg, ih.1] using c1, c2, rfl⟩
      | some gr =>
        obtain ⟨k1, gr1, k2, k3⟩ := ih.2 gr hg
        rw [c1] at k2
        cases k2
        exact ⟨gr, by simp [graphOf, hg], k1, k3⟩
    obtain ⟨gr, k1, k2, k3⟩ := key
    obtain ⟨ys', out, old, e1, e2, -⟩ := runGraph_ok h k2 x hx
    simp only [Cgp.run, k1, e1, Except.ok.injEq, Prod.mk.injEq] at e
    obtain ⟨rfl, rfl⟩ := e
    refine ⟨ih.1, ?_⟩
    intro gr' hgr'
    cases hgr'
    exact ⟨k2.step e2, gr0, c1, k3⟩

/-- One run: it returns, and what it makes of the values before. -/
theorem run_ok {c : Config V} {g : List Nat} (h : Fits c (anywhere c) g) {ind : Ind V} (hr : Ran c g ind) (x : List V) (hx : c.inputs ≤ x.length) :
    ∃ ys ind' gr0 gr, Cgp.run c ind x = .ok (ys, ind') ∧ create c g = .ok gr0 ∧ ind'.graph = some gr ∧ gr.used = gr0.used ∧
      (outsOf c g).map (fun i => gr.output[i]?) = ys.map some ∧ ∃ old : List V,
      (∀ i < c.inputs, old[i]? = x[i]? ∧ gr.output[i]? = x[i]?) ∧
      (∀ gr1, ind.graph = some gr1 → ∀ i, c.inputs ≤ i → old[i]? = gr1.output[i]?) ∧
      ∀ p ∈ gr0.used, ∃ v, gr.output[p + c.inputs]? = some v ∧ Computes c g old p v := by
  obtain ⟨gr0, c1, c2⟩ := create_ok h
  obtain ⟨ih1, ih2⟩ := hr.made h
  have key : ∃ gr, graphOf c ind = .ok gr ∧ Made c g gr ∧ gr.used = gr0.used ∧
      ∀ gr1, ind.graph = some gr1 → gr1 = gr := by
    cases hg : ind.graph with
    | none => exact ⟨gr0, by simpa [graphOf, hg, ih1] using c1, c2, rfl, by simp⟩
    | some gr =>
      obtain ⟨k1, gr1, k2, k3⟩ := ih2 gr hg
      rw [c1] at k2
      cases k2
      exact ⟨gr, by simp [graphOf, hg], k1, k3, by rintro gr1 ⟨⟩; rfl⟩
  obtain ⟨gr, k1, k2, k3, k4⟩ := key
  obtain ⟨ys, out, old, e1, e2, e3, e4, e5, e6⟩ := runGraph_ok h k2 x hx
  refine ⟨ys, { ind with graph := some { gr with output := out } }, gr0, { gr with output := out }, by simp only [Cgp.run, k1, e1], c1, rfl, k3, e3, old, e4, ?_, ?_⟩
  · intro gr1 hg1 i hi
    rw [k4 gr1 hg1]
    exact e5 i hi
  · rw [← k3]; exact e6

theorem collect_map {α : Type} (l : List α) (f : α → Option V) (vs : List V) : collect (l.map f) = some vs ↔ l.map f = vs.map some := by
  induction l generalizing vs with
  | nil => cases vs <;> simp [collect]
  | cons a l ih =>
    cases hf : f a with
    | none => cases vs <;> simp [collect, hf]
    | some v =>
      simp only [List.map_cons, hf, collect, Option.map_eq_some_iff]
      constructor
      · rintro ⟨ws, h1, rfl⟩
        simp [(ih ws).mp h1]
      · intro h
        cases vs with
        | nil => simp at h
        | cons w ws =>
          simp only [List.map_cons, List.cons.injEq, Option.some.injEq] at h
          exact ⟨ws, (ih ws).mpr h.2, by rw [h.1]⟩

theorem value_input (c : Config V) (g : List Nat) (x : List V) (k : Nat) {i : Nat} (h : i < c.inputs) : value c g x k i = x[i]? := by
  cases k <;> simp only [value, if_pos h]

theorem value_node {c : Config V} {g : List Nat} {x : List V} {k i f : Nat} {fn : Func V} {vs : List V} (h : ¬ i < c.inputs) (h1 : funcOf c g (i - c.inputs) = some f)
    (h2 : c.library[f]? = some fn) (h3 : collect ((argsOf c g (i - c.inputs)).map (value c g x k)) = some vs) : value c g x (k + 1) i = some (fn.apply vs) := by
  simp only [value, if_neg h, h1, Option.bind_some, h2, h3, Option.map_some]

/-- Every place of a forward genome has a value. -/
theorem value_exists {c : Config V} {g : List Nat} (h : Fits c (forward c) g) (x : List V) (hx : c.inputs ≤ x.length) : ∀ (k i : Nat), i < c.inputs + k →
    i < c.inputs + c.size → ∃ v, value c g x k i = some v := by
  intro k
  induction k with
  | zero =>
    intro i hi _
    simp only [value, if_pos (show i < c.inputs by omega)]
    exact ⟨_, List.getElem?_eq_getElem (by omega)⟩
  | succ k ih =>
    intro i hi hs
    by_cases hin : i < c.inputs
    · simp only [value, if_pos hin]
      exact ⟨_, List.getElem?_eq_getElem (by omega)⟩
    · have hp : i - c.inputs < c.size := by omega
      obtain ⟨f, fn, f1, f2⟩ := h.func hp
      have hall : ∀ l : List Nat, (∀ a ∈ l, a < c.inputs + (i - c.inputs)) → ∃ vs, collect (l.map (value c g x k)) = some vs := by
        intro l
        induction l with
        | nil => intro _; exact ⟨[], rfl⟩
        | cons a l ihl =>
          intro hl
          obtain ⟨vs, e⟩ := ihl (fun b hb => hl b (List.mem_cons_of_mem _ hb))
          have ha := hl a List.mem_cons_self
          obtain ⟨v, ev⟩ := ih a (by omega) (by omega)
          exact ⟨v :: vs, by simp only [List.map_cons, ev, collect, e, Option.map_some]⟩
      obtain ⟨vs, e⟩ := hall (argsOf c g (i - c.inputs)) (fun a ha => h.args hp ha)
      exact ⟨fn.apply vs, by simp only [value, if_neg hin, f1, Option.bind_some, f2, e, Option.map_some]⟩

/-- After `n + 1` runs all places that are used show their value, if it is at most `n + 1` deep. -/
theorem runs_ok {c : Config V} {g : List Nat} (h : Fits c (forward c) g) (x : List V) (hx : c.inputs ≤ x.length) (gr0 : Graph V) (hc : create c g = .ok gr0) :
    ∀ (n j : Nat) (ind : Ind V), Ran c g ind →
      (∀ gr, ind.graph = some gr → ∀ k ≤ j, ∀ p ∈ gr0.used, ∀ v, value c g x k (p + c.inputs) = some v → gr.output[p + c.inputs]? = some v) →
      (ind.graph = none → j = 0) →
      ∃ ys ind', runs c n ind x = .ok (ys, ind') ∧ Ran c g ind' ∧ ys.length = c.outputs ∧
        ∀ (o i : Nat) (y v : V) (k : Nat), (outsOf c g)[o]? = some i → ys[o]? = some y → k ≤ j + n + 1 → value c g x k i = some v → y = v := by
  intro n
  have ha : Fits c (anywhere c) g := h.weaken (fun p hp => by simp only [forward, anywhere]; omega)
  have hused := create_used h hc
  have hone : ∀ (j : Nat) (ind : Ind V), Ran c g ind →
      (∀ gr, ind.graph = some gr → ∀ k ≤ j, ∀ p ∈ gr0.used, ∀ v, value c g x k (p + c.inputs) = some v → gr.output[p + c.inputs]? = some v) →
      (ind.graph = none → j = 0) →
      ∃ ys ind' gr, Cgp.run c ind x = .ok (ys, ind') ∧ ind'.graph = some gr ∧ (outsOf c g).map (fun i => gr.output[i]?) = ys.map some ∧
        (∀ i < c.inputs, gr.output[i]? = x[i]?) ∧
        ∀ k ≤ j + 1, ∀ p ∈ gr0.used, ∀ v, value c g x k (p + c.inputs) = some v → gr.output[p + c.inputs]? = some v := by
    intro j ind hr hj h0
    obtain ⟨ys, ind', gr0', gr, e1, e2, e3, e4, e5, old, e6, e7, e8⟩ := run_ok ha hr x hx
    rw [hc] at e2
    cases e2
    refine ⟨ys, ind', gr, e1, e3, e5, fun i hi => (e6 i hi).2, ?_⟩
    intro k hk p hp v hv
    cases k with
    | zero => simp [value] at hv
    | succ k =>
      obtain ⟨w, w1, f, fn, vs, w2, w3, w4, rfl⟩ := e8 p hp
      rw [w1]
      simp only [value, Nat.add_sub_cancel, w2, Option.bind_some, w3, if_neg (show ¬ p + c.inputs < c.inputs by omega), Option.map_eq_some_iff] at hv
      obtain ⟨us, u1, rfl⟩ := hv
      rw [collect_map] at u1
      have : us.map some = vs.map some := by
        rw [← u1, ← w4]
        refine List.map_congr_left ?_
        intro a hamem
        have hps := (hused p).mp hp
        by_cases hin : a < c.inputs
        · rw [(e6 a hin).1]
          exact value_input c g x k hin
        · have hq : a - c.inputs + c.inputs = a := by omega
          have hlt := h.args hps.1 hamem
          simp only [forward] at hlt
          have hqu : a - c.inputs ∈ gr0.used := (hused _).mpr ⟨by omega, .arg hps.2 (by rwa [show c.inputs + (a - c.inputs) = a by omega])⟩
          have hmem : value c g x k a ∈ (argsOf c g p).map (value c g x k) := List.mem_map.mpr ⟨a, hamem, rfl⟩
          rw [u1] at hmem
          obtain ⟨u, -, hu⟩ := List.mem_map.mp hmem
          rw [← hu]
          cases k with
          | zero => simp [value, hin] at hu
          | succ k =>
            cases hg : ind.graph with
            | none => have := h0 hg; omega
            | some gr1 =>
              rw [e7 gr1 hg a (by omega)]
              have := hj gr1 hg (k + 1) (by omega) _ hqu u (by rw [hq]; exact hu.symm)
              rw [hq] at this
              exact this.symm
      have hinj : us = vs := by
        have := congrArg (List.filterMap id) this
        simpa using this
      rw [hinj]
  induction n with
  | zero =>
    intro j ind hr hj h0
    obtain ⟨ys, ind', gr, e1, e2, e3, e4, e5⟩ := hone j ind hr hj h0
    have hlen : ys.length = c.outputs := by
      have := congrArg List.length e3
      simp only [List.length_map, outsOf, List.length_drop, h.len] at this
      omega
    refine ⟨ys, ind', e1, .run hr hx e1, hlen, ?_⟩
    intro o i y v k ho hy hk hv
    have hyi : gr.output[i]? = some y := by
      have := congrArg (·[o]?) e3
      simp only [List.getElem?_map, ho, hy, Option.map_some, Option.some.injEq] at this
      exact this
    by_cases hin : i < c.inputs
    · rw [e4 i hin] at hyi
      rw [value_input c g x k hin, hyi] at hv
      cases hv
      rfl
    · have hq : i - c.inputs + c.inputs = i := by omega
      have hio := h.outs (List.mem_of_getElem? ho)
      have hqu : i - c.inputs ∈ gr0.used := (hused _).mpr ⟨by omega, .out (by rw [show c.inputs + (i - c.inputs) = i by omega]; exact List.mem_of_getElem? ho)⟩
      have := e5 k (by omega) _ hqu v (by rw [hq]; exact hv)
      rw [hq, hyi] at this
      cases this
      rfl
  | succ n ih =>
    intro j ind hr hj h0
    obtain ⟨ys, ind', gr, e1, e2, e3, e4, e5⟩ := hone j ind hr hj h0
    obtain ⟨ys', ind'', r1, r2, r3, r4⟩ := ih (j + 1) ind' (.run hr hx e1) (by
      intro gr' hgr'
      rw [e2] at hgr'
      cases hgr'
      exact e5) (by rw [e2]; simp)
    refine ⟨ys', ind'', by simp only [runs, e1, r1], r2, r3, ?_⟩
    intro o i y v k ho hy hk hv
    exact r4 o i y v k ho hy (by omega) hv

end Verif.Cgp
