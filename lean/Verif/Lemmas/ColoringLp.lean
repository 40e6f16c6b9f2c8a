import Verif.Model.ColoringLp
import Verif.Lemmas.Milp
import Verif.Lemmas.Coloring
import Mathlib.Data.List.Perm.Subperm
import Mathlib.Data.List.Nodup
/- Helper lemmas about the program of the colouring solver. -/
namespace Verif.ColoringLp
open Verif.Milp Verif.Coloring

theorem length_names (g : Graph) : g.names.length = (distinct g.nodes).length := (pySorted_perm _).length_eq

theorem look_ok {g : Graph} {n : Int} {c : Nat} (h : n ∈ g.names) : look g n c = .ok (.x n c) := by simp [look, h]

theorem look_inv {g : Graph} {n : Int} {c : Nat} {v : Var} (h : look g n c = .ok v) : v = .x n c ∧ n ∈ g.names := by
  unfold look at h; split at h <;> cases h; exact ⟨rfl, by assumption⟩

theorem look_err {g : Graph} {n : Int} {c : Nat} {e : PyErr} (h : look g n c = .error e) : e = .keyError := by
  unfold look at h; split at h <;> cases h; rfl

def oneP (nb : Nat) (n : Int) : Row Var := ⟨(List.range nb).map (fun c => (1, .x n c)), .eq, 1⟩

def pairs (nb : Nat) (c : List Int) : List (Int × Nat) := c.flatMap (fun n => (List.range nb).map (fun i => (n, i)))

def termsP (nb : Nat) (coef : Nat → Int) (c : List Int) : Lin Var :=
  (pairs nb c).map (fun k => (coef k.2, .x k.1 k.2))

def cliqueP (nb : Nat) (c : List Int) : List (Row Var) :=
  [⟨termsP nb (fun i => (i : Int) + 1) c, .ge, ((List.range c.length).map (fun (i : Nat) => (i : Int) + 1)).sum⟩,
   ⟨termsP nb (fun _ => 1) c ++ [(-1, .opt)], .le, 0⟩]

def edgeP (e : Int × Int) (c : Nat) : Row Var := ⟨[(1, .x e.1 c), (1, .x e.2 c)], .le, 1⟩

def topP (nb : Nat) (n : Int) : Row Var := ⟨termsP nb (fun i => (i : Int) + 1) [n] ++ [(-1, .opt)], .le, 0⟩

def program (g : Graph) (nb : Nat) (cliques : List (List Int)) : Program Var :=
  { vars := (keys g nb).map (fun k => (.x k.1 k.2, .binary)) ++ [(.opt, .integer 0 (some nb))],
    rows := (rangeNode g).map (oneP nb) ++ ((cliques.take 100).map (cliqueP nb)).flatten ++
      (g.edges.map (fun e => (List.range nb).map (edgeP e))).flatten ++ (rangeNode g).map (topP nb),
    objective := [(1, .opt)] }

theorem oneColor_ok {g : Graph} {nb : Nat} {n : Int} (h : n ∈ g.names) : oneColor g nb n = .ok (oneP nb n) := by
  unfold oneColor
  rw [mapE_ok (g := fun c => .x n c) (fun c _ => look_ok h), bind_ok, List.map_map]; rfl

theorem oneColor_inv {g : Graph} {nb : Nat} {n : Int} {r : Row Var} (h : oneColor g nb n = .ok r) :
    r = oneP nb n ∧ (0 < nb → n ∈ g.names) := by
  obtain ⟨vs, hv, h⟩ := (bind_eq_ok ..).1 h
  obtain ⟨rfl, hv'⟩ := mapE_inv (g := fun c => .x n c) (fun c v hv => (look_inv hv).1) hv
  cases h
  refine ⟨by rw [List.map_map]; rfl, ?_⟩
  intro h0
  exact (look_inv (hv' 0 (List.mem_range.2 h0))).2

theorem mem_pairs {nb : Nat} {c : List Int} {k : Int × Nat} : k ∈ pairs nb c ↔ k.1 ∈ c ∧ k.2 < nb := by
  obtain ⟨n, i⟩ := k
  simp only [pairs, List.mem_flatMap, List.mem_map, List.mem_range, Prod.mk.injEq]
  constructor
  · rintro ⟨a, ha, b, hb, rfl, rfl⟩; exact ⟨ha, hb⟩
  · rintro ⟨h1, h2⟩; exact ⟨n, h1, i, h2, rfl, rfl⟩

theorem mem_keys {g : Graph} {nb : Nat} {k : Int × Nat} : k ∈ keys g nb ↔ k.1 ∈ g.names ∧ k.2 < nb := mem_pairs

theorem cliqueTerms_ok {g : Graph} {nb : Nat} {coef : Nat → Int} {c : List Int} (h : ∀ n, n ∈ c → n ∈ g.names) :
    cliqueTerms g nb coef c = .ok (termsP nb coef c) := by
  unfold cliqueTerms termsP
  refine mapE_ok (g := fun k : Int × Nat => (coef k.2, Var.x k.1 k.2)) ?_
  intro k hk
  rw [look_ok (h _ (mem_pairs.1 hk).1), bind_ok]

theorem cliqueTerms_inv {g : Graph} {nb : Nat} {coef : Nat → Int} {c : List Int} {l : Lin Var}
    (h : cliqueTerms g nb coef c = .ok l) : l = termsP nb coef c := by
  refine (mapE_inv (g := fun k : Int × Nat => (coef k.2, Var.x k.1 k.2)) ?_ h).1
  intro k y hk
  obtain ⟨v, hv, hk⟩ := (bind_eq_ok ..).1 hk
  cases hk
  rw [(look_inv hv).1]

theorem cliqueRows_ok {g : Graph} {nb : Nat} {c : List Int} (h : ∀ n, n ∈ c → n ∈ g.names) :
    cliqueRows g nb c = .ok (cliqueP nb c) := by
  unfold cliqueRows
  rw [cliqueTerms_ok h, cliqueTerms_ok h]; rfl

theorem cliqueRows_inv {g : Graph} {nb : Nat} {c : List Int} {l : List (Row Var)} (h : cliqueRows g nb c = .ok l) :
    l = cliqueP nb c := by
  obtain ⟨a, ha, h⟩ := (bind_eq_ok ..).1 h
  obtain ⟨b, hb, h⟩ := (bind_eq_ok ..).1 h
  cases h
  rw [cliqueTerms_inv ha, cliqueTerms_inv hb]; rfl

theorem edgeRow_ok {g : Graph} {e : Int × Int} {c : Nat} (h1 : e.1 ∈ g.names) (h2 : e.2 ∈ g.names) :
    edgeRow g e c = .ok (edgeP e c) := by
  unfold edgeRow
  rw [look_ok h1, look_ok h2]; rfl

theorem edgeRow_inv {g : Graph} {e : Int × Int} {c : Nat} {r : Row Var} (h : edgeRow g e c = .ok r) : r = edgeP e c := by
  obtain ⟨a, ha, h⟩ := (bind_eq_ok ..).1 h
  obtain ⟨b, hb, h⟩ := (bind_eq_ok ..).1 h
  cases h
  rw [(look_inv ha).1, (look_inv hb).1]; rfl

theorem topRow_ok {g : Graph} {nb : Nat} {n : Int} (h : n ∈ g.names) : topRow g nb n = .ok (topP nb n) := by
  unfold topRow
  rw [cliqueTerms_ok (by simpa using h)]; rfl

theorem topRow_inv {g : Graph} {nb : Nat} {n : Int} {r : Row Var} (h : topRow g nb n = .ok r) : r = topP nb n := by
  obtain ⟨a, ha, h⟩ := (bind_eq_ok ..).1 h
  cases h
  rw [cliqueTerms_inv ha]; rfl

theorem initModel_ok {g : Graph} {nb : Nat} {cliques : List (List Int)}
    (hr : ∀ n, n ∈ rangeNode g → n ∈ g.names) (he : ∀ e, e ∈ g.edges → e.1 ∈ g.names ∧ e.2 ∈ g.names)
    (hc : ∀ c, c ∈ cliques → ∀ n, n ∈ c → n ∈ g.names) :
    initModel g nb cliques = .ok (program g nb cliques) := by
  unfold initModel program
  rw [mapE_ok (g := oneP nb) (fun n hn => oneColor_ok (hr n hn)), bind_ok,
    mapE_ok (g := cliqueP nb) (fun c h => cliqueRows_ok (hc c (List.mem_of_mem_take h))), bind_ok,
    mapE_ok (g := fun e => (List.range nb).map (edgeP e)) (fun e h => mapE_ok (fun c _ => edgeRow_ok (he e h).1 (he e h).2)),
    bind_ok, mapE_ok (g := topP nb) (fun n hn => topRow_ok (hr n hn)), bind_ok]

theorem initModel_inv {g : Graph} {nb : Nat} {cliques : List (List Int)} {p : Program Var}
    (h : initModel g nb cliques = .ok p) :
    p = program g nb cliques ∧ (0 < nb → ∀ n, n ∈ rangeNode g → n ∈ g.names) := by
  obtain ⟨a, ha, h⟩ := (bind_eq_ok ..).1 h
  obtain ⟨b, hb, h⟩ := (bind_eq_ok ..).1 h
  obtain ⟨c, hc, h⟩ := (bind_eq_ok ..).1 h
  obtain ⟨d, hd, h⟩ := (bind_eq_ok ..).1 h
  cases h
  obtain ⟨rfl, ha'⟩ := mapE_inv (g := oneP nb) (fun n r h => (oneColor_inv h).1) ha
  obtain ⟨rfl, -⟩ := mapE_inv (g := cliqueP nb) (fun n r h => cliqueRows_inv h) hb
  obtain ⟨rfl, -⟩ := mapE_inv (g := fun e => (List.range nb).map (edgeP e))
    (fun e r h => (mapE_inv (g := edgeP e) (fun c r h => edgeRow_inv h) h).1) hc
  obtain ⟨rfl, -⟩ := mapE_inv (g := topP nb) (fun n r h => topRow_inv h) hd
  exact ⟨rfl, fun h0 n hn => (oneColor_inv (ha' n hn)).2 h0⟩

/-- The names are `0..n-1` when each of those numbers is a name. -/
theorem names_range {g : Graph} (h : ∀ n, n ∈ rangeNode g → n ∈ g.names) {n : Int} : n ∈ g.names ↔ n ∈ rangeNode g := by
  have hd : (rangeNode g).Nodup := (List.nodup_range).map (fun a b h => Int.ofNat.inj h)
  have hs : (rangeNode g).Subperm g.names := hd.subperm h
  have hp := hs.perm_of_length_le (by rw [length_names]; simp [rangeNode])
  exact hp.mem_iff.symm

theorem terms_value (nb : Nat) (coef : Nat → Int) (c : List Int) (a : Var → Int) :
    (termsP nb coef c).value a = (c.map (fun n => ((List.range nb).map (fun i => coef i * a (.x n i))).sum)).sum := by
  have : termsP nb coef c = c.flatMap (fun n => (List.range nb).map (fun i => (coef i, Var.x n i))) := by
    unfold termsP pairs
    rw [List.map_flatMap]
    simp only [List.map_map, Function.comp_def]
  rw [this, value_flatMap]
  simp only [value_map]

/-- What feasibility says. -/
structure Sat (g : Graph) (nb : Nat) (cliques : List (List Int)) (a : Var → Int) : Prop where
  bin : ∀ n, n ∈ g.names → ∀ c, c < nb → a (.x n c) = 0 ∨ a (.x n c) = 1
  lo : 0 ≤ a .opt
  hi : a .opt ≤ nb
  one : ∀ n, n ∈ rangeNode g → ((List.range nb).map (fun c => a (.x n c))).sum = 1
  edge : ∀ e, e ∈ g.edges → ∀ c, c < nb → a (.x e.1 c) + a (.x e.2 c) ≤ 1
  top : ∀ n, n ∈ rangeNode g → ((List.range nb).map (fun (c : Nat) => ((c : Int) + 1) * a (.x n c))).sum ≤ a .opt
  weight : ∀ c, c ∈ cliques.take 100 → ((List.range c.length).map (fun (i : Nat) => (i : Int) + 1)).sum ≤
    (c.map (fun n => ((List.range nb).map (fun (i : Nat) => ((i : Int) + 1) * a (.x n i))).sum)).sum
  size : ∀ c, c ∈ cliques.take 100 →
    (c.map (fun n => ((List.range nb).map (fun i => a (.x n i))).sum)).sum ≤ a .opt

theorem feasible_iff {g : Graph} {nb : Nat} {cliques : List (List Int)} {a : Var → Int} :
    (program g nb cliques).Feasible a ↔ Sat g nb cliques a := by
  have h1 : ∀ n, (oneP nb n).Holds a ↔ ((List.range nb).map (fun c => a (.x n c))).sum = 1 := by
    intro n; simp only [Row.Holds, oneP, value_map, Int.one_mul]
  have h2 : ∀ e c, (edgeP e c).Holds a ↔ a (.x e.1 c) + a (.x e.2 c) ≤ 1 := by
    intro e c; simp only [Row.Holds, edgeP, value_cons, value_nil]
    rw [show (1 * a (Var.x e.1 c) + (1 * a (Var.x e.2 c) + 0)) = a (.x e.1 c) + a (.x e.2 c) by omega]
  have h3 : ∀ n, (topP nb n).Holds a ↔ ((List.range nb).map (fun (c : Nat) => ((c : Int) + 1) * a (.x n c))).sum ≤ a .opt := by
    intro n; simp only [Row.Holds, topP, value_append, value_cons, value_nil, terms_value]
    simp only [List.map_cons, List.map_nil, List.sum_cons, List.sum_nil]
    omega
  have h4 : ∀ c, (∀ r, r ∈ cliqueP nb c → r.Holds a) ↔
      (((List.range c.length).map (fun (i : Nat) => (i : Int) + 1)).sum ≤
        (c.map (fun n => ((List.range nb).map (fun (i : Nat) => ((i : Int) + 1) * a (.x n i))).sum)).sum ∧
      (c.map (fun n => ((List.range nb).map (fun i => a (.x n i))).sum)).sum ≤ a .opt) := by
    intro c
    simp only [cliqueP, List.mem_cons, List.not_mem_nil, or_false, forall_eq_or_imp, forall_eq, Row.Holds,
      value_append, value_cons, value_nil, terms_value, Int.one_mul]
    constructor
    · rintro ⟨x, y⟩; exact ⟨x, by omega⟩
    · rintro ⟨x, y⟩; exact ⟨x, by omega⟩
  constructor
  · rintro ⟨hv, hr⟩
    have hopt := hv .opt (.integer 0 (some nb)) (by simp [program])
    refine ⟨?_, hopt.1, hopt.2 _ rfl, ?_, ?_, ?_, ?_, ?_⟩
    · intro n hn c hc
      exact hv (.x n c) .binary (List.mem_append_left _ (List.mem_map.2 ⟨(n, c), mem_keys.2 ⟨hn, hc⟩, rfl⟩))
    · intro n hn
      exact (h1 n).1 (hr _ (by simp only [program, List.mem_append, List.mem_map]; exact .inl (.inl (.inl ⟨n, hn, rfl⟩))))
    · intro e he c hc
      refine (h2 e c).1 (hr _ ?_)
      simp only [program, List.mem_append, List.mem_flatten, List.mem_map]
      exact .inl (.inr ⟨_, ⟨e, he, rfl⟩, List.mem_map.2 ⟨c, List.mem_range.2 hc, rfl⟩⟩)
    · intro n hn
      exact (h3 n).1 (hr _ (by simp only [program, List.mem_append, List.mem_map]; exact .inr ⟨n, hn, rfl⟩))
    · intro c hc
      refine ((h4 c).1 (fun r hr' => hr r ?_)).1
      simp only [program, List.mem_append, List.mem_flatten, List.mem_map]
      exact .inl (.inl (.inr ⟨_, ⟨c, hc, rfl⟩, hr'⟩))
    · intro c hc
      refine ((h4 c).1 (fun r hr' => hr r ?_)).2
      simp only [program, List.mem_append, List.mem_flatten, List.mem_map]
      exact .inl (.inl (.inr ⟨_, ⟨c, hc, rfl⟩, hr'⟩))
  · intro h
    constructor
    · intro v k hk
      simp only [program, List.mem_append, List.mem_map, List.mem_singleton] at hk
      rcases hk with ⟨q, hq, hk⟩ | hk
      · cases hk
        exact h.bin _ (mem_keys.1 hq).1 _ (mem_keys.1 hq).2
      · cases hk
        refine ⟨h.lo, ?_⟩
        rintro u hu; cases hu; exact h.hi
    · intro r hr
      simp only [program, List.mem_append, List.mem_flatten, List.mem_map] at hr
      rcases hr with ((⟨n, hn, rfl⟩ | ⟨l, ⟨c, hc, rfl⟩, hr⟩) | ⟨l, ⟨e, he, rfl⟩, hr⟩) | ⟨n, hn, rfl⟩
      · exact (h1 n).2 (h.one n hn)
      · exact (h4 c).2 ⟨h.weight c hc, h.size c hc⟩ r hr
      · obtain ⟨c, hc, rfl⟩ := List.mem_map.1 hr
        exact (h2 e c).2 (h.edge e he c (List.mem_range.1 hc))
      · exact (h3 n).2 (h.top n hn)

/-- The colour each node receives. -/
theorem Sat.color {g : Graph} {nb : Nat} {cliques : List (List Int)} {a : Var → Int} (h : Sat g nb cliques a)
    {n : Int} (hn : n ∈ rangeNode g) (hn' : n ∈ g.names) :
    ∃ c, c < nb ∧ a (.x n c) = 1 ∧ (∀ d, d < nb → a (.x n d) = 1 → d = c) ∧ (c : Int) < a .opt := by
  obtain ⟨c, hc, h1, h0, hw⟩ := sum_one_unique List.nodup_range
    (fun c hc => h.bin n hn' c (List.mem_range.1 hc)) (h.one n hn)
  refine ⟨c, List.mem_range.1 hc, h1, ?_, ?_⟩
  · intro d hd hd1
    by_contra hne
    have := h0 d (List.mem_range.2 hd) hne
    omega
  · have := h.top n hn
    rw [hw (fun (c : Nat) => (c : Int) + 1)] at this
    omega

theorem readFrom_spec (g : Graph) (a : Var → Int) (col : Int → Nat) (ks : List (Int × Nat))
    (hk : ∀ k, k ∈ ks → k.1 ∈ g.names) (hc : ∀ k, k ∈ ks → 1 ≤ 2 * a (.x k.1 k.2) → k.2 = col k.1) :
    ∀ sol : List Int, sol.length = g.names.length → ∃ out, readFrom g a ks sol = .ok out ∧ out.length = sol.length ∧
      ∀ (i : Nat) (n : Int), g.names[i]? = some n →
        ((∃ c, (n, c) ∈ ks ∧ 1 ≤ 2 * a (.x n c)) → out[i]? = some (col n : Int)) ∧
        ((¬ ∃ c, (n, c) ∈ ks ∧ 1 ≤ 2 * a (.x n c)) → out[i]? = sol[i]?) := by
  induction ks with
  | nil => intro sol _; exact ⟨sol, rfl, rfl, by simp⟩
  | cons k ks ih =>
    obtain ⟨m, c⟩ := k
    intro sol hlen
    have hk' : ∀ k, k ∈ ks → k.1 ∈ g.names := fun k h => hk k (by simp [h])
    have hc' : ∀ k, k ∈ ks → 1 ≤ 2 * a (.x k.1 k.2) → k.2 = col k.1 := fun k h => hc k (by simp [h])
    by_cases hsel : 1 ≤ 2 * a (.x m c)
    · obtain ⟨j, hj⟩ := List.getElem?_of_mem (hk (m, c) (by simp))
      have hjl : j < g.names.length := (List.getElem?_eq_some_iff.1 hj).1
      have hset : pySet sol j (c : Int) = .ok (sol.set j c) := pySet_ok_iff.2 ⟨by omega, rfl⟩
      obtain ⟨out, ho, hol, hspec⟩ := ih hk' hc' (sol.set j c) (by simpa using hlen)
      refine ⟨out, ?_, by simpa using hol, ?_⟩
      · simp only [readFrom, hsel, if_true, (index_get ..).2 hj, bind_ok, hset, ho]
      · intro i n hn
        obtain ⟨hA, hB⟩ := hspec i n hn
        have hcm : c = col m := hc (m, c) (by simp) hsel
        by_cases hin : ∃ d, (n, d) ∈ ks ∧ 1 ≤ 2 * a (.x n d)
        · refine ⟨fun _ => hA hin, ?_⟩
          intro hno
          obtain ⟨d, hd, hd'⟩ := hin
          exact absurd ⟨d, List.mem_cons_of_mem _ hd, hd'⟩ hno
        · have hout := hB hin
          by_cases hij : i = j
          · subst hij
            have hnm : n = m := by rw [hj] at hn; cases hn; rfl
            subst hnm
            refine ⟨fun _ => ?_, fun hno => absurd ⟨c, by simp, hsel⟩ hno⟩
            rw [hout, List.getElem?_set_self (by omega), hcm]
          · have hne : n ≠ m := by
              rintro rfl
              have h1 : g.names[i]? = g.names[j]? := by rw [hn, hj]
              exact hij ((List.getElem?_inj (List.getElem?_eq_some_iff.1 hn).1 (names_nodup g)).1 h1)
            refine ⟨?_, fun _ => by rw [hout, List.getElem?_set_ne (Ne.symm hij)]⟩
            rintro ⟨d, hd, hd'⟩
            rcases List.mem_cons.1 hd with h | h
            · cases h; exact absurd rfl hne
            · exact absurd ⟨d, h, hd'⟩ hin
    · obtain ⟨out, ho, hol, hspec⟩ := ih hk' hc' sol hlen
      refine ⟨out, ?_, hol, ?_⟩
      · simp only [readFrom, hsel, if_false, ho]
      · intro i n hn
        obtain ⟨hA, hB⟩ := hspec i n hn
        constructor
        · rintro ⟨d, hd, hd'⟩
          rcases List.mem_cons.1 hd with h | h
          · cases h; exact absurd hd' hsel
          · exact hA ⟨d, h, hd'⟩
        · intro hno
          exact hB (fun ⟨d, hd, hd'⟩ => hno ⟨d, List.mem_cons_of_mem _ hd, hd'⟩)

/-- Reading a feasible assignment. -/
theorem retrieve_spec {g : Graph} {nb : Nat} {a : Var → Int} {col : Int → Nat}
    (hc : ∀ n, n ∈ g.names → col n < nb ∧ a (.x n (col n)) = 1 ∧ ∀ d, d < nb → 1 ≤ 2 * a (.x n d) → d = col n) :
    retrieve g nb a = .ok (g.names.map (fun n => (col n : Int))) := by
  obtain ⟨out, ho, hol, hspec⟩ := readFrom_spec g a col (keys g nb) (fun k hk => (mem_keys.1 hk).1)
    (fun k hk h => (hc k.1 (mem_keys.1 hk).1).2.2 k.2 (mem_keys.1 hk).2 h)
    (List.replicate (distinct g.nodes).length 0) (by simp [length_names])
  unfold retrieve
  rw [ho]
  congr 1
  apply List.ext_getElem?
  intro i
  rw [List.getElem?_map]
  cases hn : g.names[i]? with
  | none =>
    have := List.getElem?_eq_none_iff.1 hn
    rw [Option.map_none, List.getElem?_eq_none_iff, hol, List.length_replicate, ← length_names]
    exact this
  | some n =>
    have hmem := List.mem_of_getElem? hn
    obtain ⟨h1, h2, -⟩ := hc n hmem
    rw [(hspec i n hn).1 ⟨col n, mem_keys.2 ⟨hmem, h1⟩, by omega⟩]; rfl

/-- A list of distinct naturals sums to at least the first ones. -/
theorem sum_range_le {l : List Nat} (hl : l.Nodup) :
    ((List.range l.length).map (fun (i : Nat) => (i : Int) + 1)).sum ≤ (l.map (fun (i : Nat) => (i : Int) + 1)).sum := by
  generalize hm : l.length = m
  induction m generalizing l with
  | zero => have := List.length_eq_zero_iff.1 hm; subst this; simp
  | succ m ih =>
    -- some element is at least m
    have : ∃ x, x ∈ l ∧ m ≤ x := by
      by_contra hno
      have hsub : l ⊆ List.range m := by
        intro x hx
        rw [List.mem_range]
        by_contra hge
        exact hno ⟨x, hx, by omega⟩
      have := (hl.subperm hsub).length_le
      simp only [hm, List.length_range] at this
      omega
    obtain ⟨x, hx, hge⟩ := this
    have hp := List.perm_cons_erase hx
    have h1 := ih (hl.erase x) (by rw [List.length_erase_of_mem hx, hm]; rfl)
    rw [perm_sum (hp.map _), List.map_cons, List.sum_cons, List.range_succ, List.map_append, sum_append_int]
    simp only [List.map_cons, List.map_nil, List.sum_cons, List.sum_nil]
    omega

end Verif.ColoringLp
