import Verif.Lemmas.CpColoring
/- Property C185: the constraint programs of graph colouring. -/
namespace Verif.CpColoring
open Coloring Milp ColoringLp

/-- Specification: every edge is listed once, in one direction, and joins two nodes. -/
def Simple (g : Graph) : Prop := g.edges.Nodup ∧ ∀ a b, (a, b) ∈ g.edges → (b, a) ∉ g.edges

/-- Specification: edges join nodes of the graph. -/
def Closed (g : Graph) : Prop := ∀ a b, (a, b) ∈ g.edges → a ∈ g.nodes ∧ b ∈ g.nodes

/-- C185: for undirected graphs, the number of edges the program is told is that of the list it is given exactly when every edge
is listed once, in one direction, and joins two nodes. -/
theorem C185_size {g : Graph} (hw : Closed g) {nb : Nat} {kind : Kind} {found : List (List Nat)} {D : Data} (h : init g true nb kind found = .ok D) :
    D.edges.length = D.nEdges ↔ Simple g := by
  obtain ⟨-, h1, -, h2, -⟩ := init_inv hw h
  rw [h1, h2, List.length_map, edgeKeys]
  simp only [if_true]
  rw [Simple, ← both_nodup, ← once_length_eq]
  have hle := once_length_le (g.edges.flatMap (fun e => [e, (e.2, e.1)]))
  have hl : (g.edges.flatMap (fun e => [e, (e.2, e.1)])).length = 2 * g.edges.length := by
    generalize g.edges = l
    induction l with
    | nil => rfl
    | cons e l ih => rw [List.flatMap_cons, List.length_append, ih]; simp; omega
  omega

/-- C185: directed graphs with edges have no solution at all: half as many edges are announced as are listed. -/
theorem C185_directed_refuted {g : Graph} (hw : Closed g) (hne : g.edges ≠ []) {nb : Nat} {kind : Kind} {found : List (List Nat)} {D : Data}
    (h : init g false nb kind found = .ok D) (cs : List Nat) (obj : Nat) : ¬ Solves kind D cs obj := by
  intro hs
  obtain ⟨-, h1, -, h2, -⟩ := init_inv hw h
  have hz := hs.size
  rw [h1, h2, List.length_map, edgeKeys] at hz
  have hle := once_length_le (g.edges.flatMap (fun e => if false = true then [e, (e.2, e.1)] else [e]))
  have hl : (g.edges.flatMap (fun e => if false = true then [e, (e.2, e.1)] else [e])).length = g.edges.length := by
    simp
  have hp : 0 < g.edges.length := List.length_pos_iff.2 hne
  omega

theorem chain_all {nb : Nat} {cs : List Nat} (h : Chain nb cs) {x : Nat} (hx : x ∈ cs) (hb : x ≤ nb) : ∀ k, 1 ≤ k → k ≤ x → k ∈ cs := by
  have : ∀ d k, k + d = x → 1 ≤ k → k ∈ cs := by
    intro d
    induction d with
    | zero => intro k hk _; rw [Nat.add_zero] at hk; rw [hk]; exact hx
    | succ d ih =>
      intro k hk h1
      obtain ⟨i, hi⟩ := List.getElem?_of_mem (ih (k + 1) (by omega) (by omega))
      obtain ⟨j, -, hj⟩ := h k h1 (by omega) i hi
      exact List.mem_of_getElem? hj
  intro k h1 h2
  exact this (x - k) k (by omega) h1

/-- C185: whatever the solver answers, the colouring retrieved is proper, uses colours below the objective, and has at most as many
colours as the objective; with the chain of colours exactly as many. -/
theorem C185_sound {g : Graph} (hw : Closed g) {nb : Nat} {kind : Kind} {found : List (List Nat)} {D : Data} (h : init g true nb kind found = .ok D)
    {cs : List Nat} {obj : Nat} (hs : Solves kind D cs obj) :
    ∃ colors, retrieve g cs = .ok colors ∧ Coloured g colors ∧ satisfy g colors = .ok true ∧ (∀ v ∈ colors, 0 ≤ v ∧ v < obj) ∧
      (distinct colors).length ≤ obj ∧ obj ≤ nb ∧ (kind ≠ .default → (distinct colors).length = obj) := by
  have hsim := (C185_size hw h).1 hs.size
  obtain ⟨h1, -, h3, h4, h5, -⟩ := init_inv hw h
  have hlen : cs.length = g.names.length := by rw [hs.len, h1]
  have hedge := (edges_iff hw h1 h4 cs).1 (hs.edges (fun _ => h5))
  have hprop : Proper g (cs.map (fun (c : Nat) => (c : Int) - 1)) := by
    intro a b hab
    obtain ⟨ha, hb⟩ := hw a b hab
    have la := pos_lt ha
    have lb := pos_lt hb
    rw [← hlen] at la lb
    have hne : a ≠ b := by
      rintro rfl
      exact hsim.2 a a hab hab
    have hd := hedge a b hab hne
    rw [List.getElem?_eq_getElem la, List.getElem?_eq_getElem lb] at hd
    refine ⟨_, _, ⟨_, pos_get ha, by rw [List.getElem?_map, List.getElem?_eq_getElem la]; rfl⟩,
      ⟨_, pos_get hb, by rw [List.getElem?_map, List.getElem?_eq_getElem lb]; rfl⟩, ?_⟩
    intro he
    apply hd
    have he2 : ((cs[pos g a] : Nat) : Int) - 1 = (cs[pos g b] : Nat) - 1 := he
    congr 1
    omega
  have hrange : ∀ v ∈ cs.map (fun (c : Nat) => (c : Int) - 1), 0 ≤ v ∧ v < obj := by
    intro v hv
    obtain ⟨c, hc, rfl⟩ := List.mem_map.1 hv
    have := hs.dom c hc
    have := hs.obj.2 c hc
    omega
  have hle : (distinct (cs.map (fun (c : Nat) => (c : Int) - 1))).length ≤ obj := by
    have hsub : distinct (cs.map (fun (c : Nat) => (c : Int) - 1)) ⊆ (List.range obj).map Int.ofNat := by
      intro v hv
      have := hrange v (mem_distinct.1 hv)
      rw [List.mem_map]
      exact ⟨v.toNat, by rw [List.mem_range]; omega, by simp; omega⟩
    have := ((distinct_nodup _).subperm hsub).length_le
    simpa using this
  have hnb := (hs.dom obj hs.obj.1).2
  rw [h3] at hnb
  refine ⟨_, retrieve_ok hlen, ⟨hprop, by simp [hlen]⟩, (C32_accepts_iff ..).2 hprop, hrange, hle, hnb, ?_⟩
  intro hk
  have hch := hs.chain hk
  rw [h3] at hch
  have hall := chain_all hch hs.obj.1 hnb
  have hsub : (List.range obj).map Int.ofNat ⊆ distinct (cs.map (fun (c : Nat) => (c : Int) - 1)) := by
    intro v hv
    obtain ⟨k, hk, rfl⟩ := List.mem_map.1 hv
    rw [List.mem_range] at hk
    rw [mem_distinct]
    exact List.mem_map.2 ⟨k + 1, hall (k + 1) (by omega) (by omega), by simp⟩
  have hnd : ((List.range obj).map Int.ofNat).Nodup := List.nodup_range.map (fun a b h => Int.ofNat.inj h)
  have := (hnd.subperm hsub).length_le
  simp at this
  omega

/-- Specification: nodes, numbered from 1, that are pairwise joined. -/
def IsClique (g : Graph) (c : List Nat) : Prop :=
  c.Pairwise (fun n m => ∃ a b, g.names[n - 1]? = some a ∧ g.names[m - 1]? = some b ∧ ((a, b) ∈ g.edges ∨ (b, a) ∈ g.edges))

/-- C185: every proper colouring with at most `nb` colours solves each program that was made, with its colours numbered in the order
of their first nodes; the objective is the number of its colours. -/
theorem C185_complete {g : Graph} (hw : Closed g) (hsim : Simple g) (hne : g.nodes ≠ []) {nb : Nat} {kind : Kind} {found : List (List Nat)}
    (hc : ∀ c ∈ found, IsClique g c) {D : Data} (h : init g true nb kind found = .ok D) {colors : List Int} (hcol : Coloured g colors)
    (hk : (distinct colors).length ≤ nb) :
    ∃ out, renumber colors = .ok out ∧ Solves kind D (out.map (· + 1)) (distinct colors).length := by
  have hsize := (C185_size hw h).2 hsim
  obtain ⟨h1, -, h3, h4, h5, h6, h7⟩ := init_inv hw h
  obtain ⟨out, ho, hlen, hsame, ⟨k, hval, hkd⟩, hprec⟩ := renumber_spec colors
  have hol : out.length = g.names.length := by rw [hlen, hcol.2]
  have hedge : ∀ a b, (a, b) ∈ g.edges → (out.map (· + 1))[pos g a]? ≠ (out.map (· + 1))[pos g b]? := by
    intro a b hab he
    obtain ⟨c, d, ⟨i, hi, hic⟩, ⟨j, hj, hjd⟩, hcd⟩ := hcol.1 a b hab
    rw [pos_of hi, pos_of hj, List.getElem?_map, List.getElem?_map] at he
    have li : i < out.length := by rw [hol]; exact (List.getElem?_eq_some_iff.1 hi).1
    have lj : j < out.length := by rw [hol]; exact (List.getElem?_eq_some_iff.1 hj).1
    apply hcd
    apply (hsame i j c d hic hjd).1
    rw [List.getElem?_eq_getElem li, List.getElem?_eq_getElem lj] at he ⊢
    simpa using he
  have hpos : 0 < k := by
    obtain ⟨n, hn⟩ := List.exists_mem_of_ne_nil _ hne
    have hl : pos g n < out.length := by rw [hol]; exact pos_lt hn
    have := (hval out[pos g n]).1 (List.getElem_mem hl)
    omega
  rw [← hkd] at hk ⊢
  refine ⟨out, ho, ⟨hsize, by rw [List.length_map, hol, h1], ?_, ?_, ?_, ?_, ?_⟩⟩
  · intro c hc
    obtain ⟨v, hv, rfl⟩ := List.mem_map.1 hc
    have := (hval v).1 hv
    rw [h3]
    omega
  · intro _
    exact (edges_iff hw h1 h4 _).2 (fun a b hab _ => hedge a b hab)
  · intro hkind c hcm
    obtain ⟨-, hcl⟩ := h7 hkind
    rw [hcl] at hcm
    refine (hc c (List.mem_of_mem_take hcm)).imp ?_
    rintro n m ⟨a, b, ha, hb, hab | hab⟩
    · have := hedge a b hab
      rw [pos_of ha, pos_of hb] at this
      exact this
    · have := hedge b a hab
      rw [pos_of ha, pos_of hb] at this
      exact this.symm
  · intro _ c hc1 _ i hi
    rw [List.getElem?_map, Option.map_eq_some_iff] at hi
    obtain ⟨v, hv, hvc⟩ := hi
    obtain ⟨j, hj, hju⟩ := hprec i v hv (c - 1) (by omega)
    exact ⟨j, hj, by rw [List.getElem?_map, hju]; simp; omega⟩
  · constructor
    · exact List.mem_map.2 ⟨k - 1, (hval _).2 (by omega), by omega⟩
    · intro c hc
      obtain ⟨v, hv, rfl⟩ := List.mem_map.1 hc
      have := (hval v).1 hv
      omega

/-- C185: started from a proper colouring, every program that was made has a solution, and a best one is retrieved as a proper colouring
with the least number of colours of all. -/
theorem C185_optimal {g : Graph} (hw : Closed g) (hsim : Simple g) (hne : g.nodes ≠ []) {kind : Kind} {found : List (List Nat)}
    (hc : ∀ c ∈ found, IsClique g c) {start : List Int} (hst : Coloured g start) {D : Data}
    (h : init g true (distinct start).length kind found = .ok D) :
    (∃ cs obj, Solves kind D cs obj) ∧
    ∀ cs obj, Solves kind D cs obj → (∀ cs' obj', Solves kind D cs' obj' → obj ≤ obj') →
      ∃ colors, retrieve g cs = .ok colors ∧ Coloured g colors ∧ (distinct colors).length = obj ∧
        ∀ other, Coloured g other → (distinct colors).length ≤ (distinct other).length := by
  constructor
  · obtain ⟨out, -, hs⟩ := C185_complete hw hsim hne hc h hst (Nat.le_refl _)
    exact ⟨_, _, hs⟩
  · intro cs obj hs hbest
    obtain ⟨colors, r1, r2, -, -, r5, r6, -⟩ := C185_sound hw h hs
    obtain ⟨_, -, hs1⟩ := C185_complete hw hsim hne hc h r2 (by omega)
    have b1 := hbest _ _ hs1
    refine ⟨colors, r1, r2, by omega, ?_⟩
    intro other hoth
    by_cases hle : (distinct other).length ≤ (distinct start).length
    · obtain ⟨_, -, hs2⟩ := C185_complete hw hsim hne hc h hoth hle
      have := hbest _ _ hs2
      omega
    · omega

/-- C185: the program with cliques is not made for graphs with less than 200 maximal cliques: `not_all` is unbound. For the others
all edges are constrained, and every clique that is not among the first 200 is dropped. -/
theorem C185_cliques_refuted {g : Graph} (hw : Closed g) (u : Bool) (nb : Nat) (found : List (List Nat)) :
    (found.length < 200 → init g u nb .cliques found = .error .nameError) ∧
    (200 ≤ found.length → ∃ D, init g u nb .cliques found = .ok D ∧ D.cliques = found.take 200 ∧ D.allCliques = false) := by
  rw [init, edges_ok hw, bind_ok]
  simp only [computeCliques]
  constructor
  · intro h
    by_cases h0 : found = []
    · rw [if_pos h0]; rfl
    · rw [if_neg h0, if_neg (by decide), if_neg (by omega)]; rfl
  · intro h
    have h0 : found ≠ [] := by rintro rfl; simp at h
    rw [if_neg h0, if_neg (by decide), if_pos h, bind_ok]
    exact ⟨_, rfl, rfl, rfl⟩

/-- C185: the other two programs are always made; edges to unknown nodes raise `KeyError`. -/
theorem C185_built {g : Graph} (u : Bool) (nb : Nat) {kind : Kind} (hk : kind ≠ .cliques) (found : List (List Nat)) :
    (Closed g → ∃ D, init g u nb kind found = .ok D) ∧ (¬ Closed g → init g u nb kind found = .error .keyError) := by
  have hkey : ∀ n, n ∉ g.nodes → g.index.get n = .error .keyError := by
    intro n hn
    cases hx : g.index.get n with
    | error e =>
      rw [Dict.get] at hx
      split at hx
      · cases hx
      · exact hx.symm ▸ rfl
    | ok i => exact absurd (mem_names.1 (List.mem_of_getElem? ((index_get g n i).1 hx))) hn
  constructor
  · intro hw
    rw [init, edges_ok hw, bind_ok]
    cases kind with
    | cliques => exact absurd rfl hk
    | default => exact ⟨_, rfl⟩
    | lns => exact ⟨_, rfl⟩
  · intro hw
    have hex : ∃ e, e ∈ g.edges ∧ edgeOf g e = .error .keyError := by
      apply Classical.byContradiction
      intro hno
      apply hw
      intro a b hab
      constructor
      · apply Classical.byContradiction
        intro ha
        exact hno ⟨(a, b), hab, by rw [edgeOf, hkey a ha, bind_error]⟩
      · apply Classical.byContradiction
        intro hb
        apply hno
        refine ⟨(a, b), hab, ?_⟩
        rw [edgeOf]
        by_cases ha : a ∈ g.nodes
        · rw [(index_get g a _).2 (pos_get ha), bind_ok, hkey b hb, bind_error]
        · rw [hkey a ha, bind_error]
    have : mapE (edgeOf g) g.edges = .error .keyError := by
      refine mapE_error ?_ hex
      intro x e' he
      rw [edgeOf] at he
      by_cases h1 : x.1 ∈ g.nodes
      · rw [(index_get g x.1 _).2 (pos_get h1), bind_ok] at he
        by_cases h2 : x.2 ∈ g.nodes
        · rw [(index_get g x.2 _).2 (pos_get h2), bind_ok] at he; cases he
        · rw [hkey _ h2, bind_error] at he; cases he; rfl
      · rw [hkey _ h1, bind_error] at he; cases he; rfl
    rw [init, this, bind_error]

/-! ### Large neighbourhood search -/

/-- C185: the neighbourhoods of `ConstraintHandlerFixColorsCP` contain the colouring they are made of, whatever is fixed, and nothing
with a greater objective. -/
theorem C185_neighbourhood {g : Graph} (hw : Closed g) {nb : Nat} {kind : Kind} {found : List (List Nat)} {D : Data} (h : init g true nb kind found = .ok D)
    {cs : List Nat} {obj : Nat} (hs : Solves kind D cs obj) {colors : List Int} (hr : retrieve g cs = .ok colors) (fixed : List Nat) :
    Child kind D colors fixed cs obj ∧ ∀ cs' obj', Child kind D colors fixed cs' obj' → obj' ≤ obj := by
  obtain ⟨h1, -⟩ := init_inv hw h
  have hlen : cs.length = g.names.length := by rw [hs.len, h1]
  rw [retrieve_ok hlen] at hr
  obtain rfl := Except.ok.inj hr
  constructor
  · refine ⟨hs, (obj : Int) - 1, ⟨List.mem_map.2 ⟨obj, hs.obj.1, rfl⟩, ?_⟩, ?_, ?_⟩
    · intro c hc
      obtain ⟨v, hv, rfl⟩ := List.mem_map.1 hc
      have := hs.obj.2 v hv
      omega
    · intro i _ c hi _
      rw [List.getElem?_map, Option.map_eq_some_iff] at hi
      obtain ⟨v, hv, rfl⟩ := hi
      exact ⟨v, hv, by omega⟩
    · intro x hx
      have := hs.obj.2 x hx
      omega
  · rintro cs' obj' ⟨hs', top, ⟨ht, -⟩, -, hle⟩
    obtain ⟨v, hv, rfl⟩ := List.mem_map.1 ht
    have := hle obj' hs'.obj.1
    have := hs.obj.2 v hv
    omega

/-- C185: `solve_lns` returns the first colouring or a proper one, with the number of its colours, at most that of the first and that
of every answer. -/
theorem C185_lns {g : Graph} (hw : Closed g) {nb : Nat} {kind : Kind} {found : List (List Nat)} {D : Data} (h : init g true nb kind found = .ok D)
    (first : List Int) (answers : List (List Nat)) (ha : ∀ cs ∈ answers, ∃ obj, Solves kind D cs obj) :
    ∃ out, lns g first answers = .ok out ∧ out.nbColor = (distinct out.colors).length ∧ (out.colors = first ∨ Coloured g out.colors) ∧
      out.nbColor ≤ (distinct first).length ∧ ∀ cs ∈ answers, ∃ colors, retrieve g cs = .ok colors ∧ out.nbColor ≤ (distinct colors).length := by
  have key : ∀ (answers : List (List Nat)) (st : State), (∀ cs ∈ answers, ∃ obj, Solves kind D cs obj) →
      st.nbColor = (distinct st.colors).length → (st.colors = first ∨ Coloured g st.colors) →
      ∃ out, answers.foldlM (lnsStep g) st = .ok out ∧ out.nbColor = (distinct out.colors).length ∧ (out.colors = first ∨ Coloured g out.colors) ∧
        out.nbColor ≤ st.nbColor ∧ ∀ cs ∈ answers, ∃ colors, retrieve g cs = .ok colors ∧ out.nbColor ≤ (distinct colors).length := by
    intro answers
    induction answers with
    | nil => intro st _ h1 h2; exact ⟨st, rfl, h1, h2, Nat.le_refl _, by simp⟩
    | cons cs rest ih =>
      intro st hall h1 h2
      obtain ⟨obj, hs⟩ := hall cs (by simp)
      obtain ⟨colors, r1, r2, -⟩ := C185_sound hw h hs
      have hstep : ∃ st', lnsStep g st cs = .ok st' ∧ st'.nbColor = (distinct st'.colors).length ∧ (st'.colors = first ∨ Coloured g st'.colors) ∧
          st'.nbColor ≤ st.nbColor ∧ st'.nbColor ≤ (distinct colors).length := by
        simp only [lnsStep, r1, bind_ok]
        by_cases hlt : (distinct colors).length < st.nbColor
        · rw [if_pos hlt]; exact ⟨_, rfl, rfl, Or.inr r2, by show (distinct colors).length ≤ _; omega, Nat.le_refl _⟩
        · rw [if_neg hlt]; exact ⟨_, rfl, h1, h2, Nat.le_refl _, by omega⟩
      obtain ⟨st', e, a1, a2, a3, a4⟩ := hstep
      obtain ⟨out, e', b1, b2, b3, b4⟩ := ih st' (fun c hc => hall c (List.mem_cons_of_mem _ hc)) a1 a2
      refine ⟨out, by rw [List.foldlM_cons, e]; exact e', b1, b2, by omega, ?_⟩
      intro c hc
      rcases List.mem_cons.1 hc with rfl | hc
      · exact ⟨colors, r1, by omega⟩
      · exact b4 c hc
  exact key answers _ ha rfl (Or.inl rfl)

/-- C185: the post-processing keeps the length, which colours are equal and their order, and uses the colours 0, …, k - 1 for k
different ones. -/
theorem C185_squeeze (colors : List Int) : ∃ out, squeeze colors = .ok out ∧ out.length = colors.length ∧
    (∀ (i j : Nat) c d, colors[i]? = some c → colors[j]? = some d → ∃ c' d', out[i]? = some c' ∧ out[j]? = some d' ∧ (c' < d' ↔ c < d)) ∧
    ∀ v, v ∈ out ↔ 0 ≤ v ∧ v < (distinct colors).length := by
  have hnd : (pySorted (distinct colors)).Nodup := (pySorted_perm _).nodup_iff.2 (distinct_nodup _)
  have hsorted := pySorted_sorted (distinct colors)
  have hmem : ∀ c, c ∈ pySorted (distinct colors) ↔ c ∈ colors := fun c => by rw [(pySorted_perm _).mem_iff, mem_distinct]
  have hlen : (pySorted (distinct colors)).length = (distinct colors).length := (pySorted_perm _).length_eq
  rw [squeeze]
  generalize pySorted (distinct colors) = l at hnd hsorted hmem hlen ⊢
  have hstrict : ∀ (i j : Nat) (c d : Int), l[i]? = some c → l[j]? = some d → i < j → c < d := by
    intro i j c d hi hj hij
    obtain ⟨li, rfl⟩ := List.getElem?_eq_some_iff.1 hi
    obtain ⟨lj, rfl⟩ := List.getElem?_eq_some_iff.1 hj
    have h1 := List.pairwise_iff_getElem.1 hsorted i j li lj hij
    have h2 := List.pairwise_iff_getElem.1 hnd i j li lj hij
    omega
  have hat : ∀ c ∈ colors, l[l.idxOf c]? = some c := by
    intro c hc
    have hl := List.idxOf_lt_length_of_mem ((hmem c).2 hc)
    rw [List.getElem?_eq_getElem hl, List.getElem_idxOf]
  have hget : ∀ c ∈ colors, (do
      let i ← Dict.get (l.zipIdx : Dict Int Nat) c
      .ok (i : Int) : Except PyErr Int) = .ok ((l.idxOf c : Nat) : Int) := by
    intro c hc
    have := (zipIdx_get? l hnd c 0 (l.idxOf c)).2 ⟨Nat.zero_le _, hat c hc⟩
    rw [Dict.get, this]
    rfl
  refine ⟨_, mapE_ok hget, by rw [List.length_map], ?_, ?_⟩
  · intro i j c d hi hj
    refine ⟨_, _, by rw [List.getElem?_map, hi]; rfl, by rw [List.getElem?_map, hj]; rfl, ?_⟩
    show ((l.idxOf c : Nat) : Int) < ((l.idxOf d : Nat) : Int) ↔ c < d
    have hc := hat c (List.mem_of_getElem? hi)
    have hd := hat d (List.mem_of_getElem? hj)
    constructor
    · intro hlt
      exact hstrict _ _ c d hc hd (by omega)
    · intro hlt
      apply Classical.byContradiction
      intro hge
      by_cases he : l.idxOf c = l.idxOf d
      · rw [he, hd] at hc
        have := Option.some.inj hc
        omega
      · have := hstrict _ _ d c hd hc (by omega)
        omega
  · intro v
    rw [List.mem_map]
    constructor
    · rintro ⟨c, hc, rfl⟩
      have := List.idxOf_lt_length_of_mem ((hmem c).2 hc)
      omega
    · rintro ⟨h0, h1⟩
      have hl : v.toNat < l.length := by omega
      refine ⟨l[v.toNat], (hmem _).1 (List.getElem_mem hl), ?_⟩
      have := hnd.idxOf_getElem v.toNat hl
      omega

/-- C185: so it keeps proper colourings proper and the number of colours. -/
theorem C185_squeeze_proper {g : Graph} {colors : List Int} (hc : Coloured g colors) : ∃ out, squeeze colors = .ok out ∧ Coloured g out ∧
    (distinct out).length = (distinct colors).length := by
  obtain ⟨out, ho, hlen, hord, hval⟩ := C185_squeeze colors
  refine ⟨out, ho, ⟨?_, by rw [hlen, hc.2]⟩, ?_⟩
  · intro a b hab
    obtain ⟨c, d, ⟨i, hi, hic⟩, ⟨j, hj, hjd⟩, hcd⟩ := hc.1 a b hab
    obtain ⟨c', d', h1, h2, h3⟩ := hord i j c d hic hjd
    obtain ⟨d'', c'', h4, h5, h6⟩ := hord j i d c hjd hic
    rw [h2] at h4; rw [h1] at h5
    obtain rfl := Option.some.inj h4
    obtain rfl := Option.some.inj h5
    exact ⟨_, _, ⟨i, hi, h1⟩, ⟨j, hj, h2⟩, by omega⟩
  · have hp : (distinct out).Perm ((List.range (distinct colors).length).map Int.ofNat) := by
      rw [List.perm_ext_iff_of_nodup (distinct_nodup _) (List.nodup_range.map (fun a b h => Int.ofNat.inj h))]
      intro v
      rw [mem_distinct, hval, List.mem_map]
      constructor
      · rintro ⟨h0, h1⟩; exact ⟨v.toNat, by rw [List.mem_range]; omega, by simp; omega⟩
      · rintro ⟨k, hk, rfl⟩; rw [List.mem_range] at hk; constructor <;> simp; omega
    rw [hp.length_eq]; simp

/-! ### Concrete instances -/

theorem exG_closed : Closed exG := by
  intro a b h; simp only [exG, List.mem_cons, Prod.mk.injEq, List.not_mem_nil, or_false] at h ⊢; omega

theorem exG_simple : Simple exG := by
  refine ⟨by decide, ?_⟩
  intro a b h; simp only [exG, List.mem_cons, Prod.mk.injEq, List.not_mem_nil, or_false] at h ⊢; omega

def exData : Data := ⟨3, 2, 3, [(1, 2), (2, 3)], [], false⟩

theorem exG_init : init exG true 3 .lns [] = .ok exData := by decide +kernel

/-- The program of a path of three nodes has a solution, and its best one has the least number of colours. -/
example : ∃ cs obj, Solves .lns exData cs obj :=
  (C185_optimal (start := [0, 1, 2]) exG_closed exG_simple (by decide) (by simp) exG_start exG_init).1

theorem exSol : Solves .lns exData [1, 2, 1] 2 := by
  obtain ⟨out, h1, h2⟩ := C185_complete (colors := [5, 3, 5]) exG_closed exG_simple (by decide) (by simp) exG_init
    ⟨(C32_accepts_iff ..).1 (by decide +kernel), by decide +kernel⟩ (by decide +kernel)
  have : renumber [5, 3, 5] = .ok [0, 1, 0] := by decide +kernel
  rw [this] at h1
  obtain rfl := Except.ok.inj h1
  exact h2

example : ∃ colors, CpColoring.retrieve exG [1, 2, 1] = .ok colors ∧ Coloured exG colors ∧ (distinct colors).length = 2 := by
  obtain ⟨colors, h1, h2, -, -, -, -, h3⟩ := C185_sound exG_closed exG_init exSol
  exact ⟨colors, h1, h2, h3 (by decide)⟩

/-- The same path as a directed graph. -/
example (cs : List Nat) (obj : Nat) : ¬ Solves .default ⟨3, 1, 3, [(1, 2), (2, 3)], [], false⟩ cs obj :=
  C185_directed_refuted (g := exG) (nb := 3) (found := []) exG_closed (by decide) (by decide +kernel) cs obj

/-- An edge listed in both directions: one edge is announced, two are listed. -/
example : init ⟨[0, 1], [(0, 1), (1, 0)]⟩ true 2 .default [] = .ok ⟨2, 1, 2, [(1, 2), (2, 1)], [], false⟩ := by decide +kernel

/-- Neither the path nor most small graphs have 200 maximal cliques. -/
example : init exG true 3 .cliques [[1, 2], [2, 3]] = .error .nameError :=
  (C185_cliques_refuted exG_closed true 3 _).1 (by decide)

example : init ⟨[0, 1], [(0, 7)]⟩ true 2 .default [] = .error .keyError := by decide +kernel

example : Child .lns exData [0, 1, 0] [0, 2] [1, 2, 1] 2 :=
  (C185_neighbourhood exG_closed exG_init exSol (by decide +kernel) [0, 2]).1

example : lns exG [0, 1, 2] [[1, 2, 1], [1, 2, 3]] = .ok ⟨[0, 1, 0], 2⟩ := by decide +kernel

example : squeeze [7, 3, 7, 4] = .ok [2, 0, 2, 1] := by decide +kernel

end Verif.CpColoring
