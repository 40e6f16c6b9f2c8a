import Verif.Model.CpColoring
import Verif.Props.ColoringLp
import Mathlib.Data.List.Perm.Subperm
import Mathlib.Data.List.Nodup
/- Lemmas for property C185. -/
namespace Verif.CpColoring
open Coloring Milp ColoringLp

section
variable {α : Type} [DecidableEq α]

theorem once_aux (l : List α) : ∀ acc : List α, acc.Nodup →
    (l.foldl (fun acc x => if x ∈ acc then acc else acc ++ [x]) acc).Nodup ∧
    (∀ x, x ∈ l.foldl (fun acc x => if x ∈ acc then acc else acc ++ [x]) acc ↔ x ∈ acc ∨ x ∈ l) ∧
    ((acc ++ l).Nodup → l.foldl (fun acc x => if x ∈ acc then acc else acc ++ [x]) acc = acc ++ l) := by
  induction l with
  | nil => intro acc h; simp [h]
  | cons y l ih =>
    intro acc h
    rw [List.foldl_cons]
    by_cases hy : y ∈ acc
    · rw [if_pos hy]
      obtain ⟨a, b, _⟩ := ih acc h
      refine ⟨a, ?_, ?_⟩
      · intro x; rw [b]; simp only [List.mem_cons]
        constructor
        · rintro (h | h); exact Or.inl h; exact Or.inr (Or.inr h)
        · rintro (h | rfl | h); exact Or.inl h; exact Or.inl hy; exact Or.inr h
      · intro hn
        exact absurd rfl ((List.nodup_append.1 hn).2.2 y hy y (by simp))
    · rw [if_neg hy]
      have hn' : (acc ++ [y]).Nodup := by
        rw [List.nodup_append]
        refine ⟨h, by simp, ?_⟩
        intro a ha b hb he
        rw [List.mem_singleton] at hb
        subst hb; subst he; exact hy ha
      obtain ⟨a, b, c⟩ := ih (acc ++ [y]) hn'
      refine ⟨a, ?_, ?_⟩
      · intro x; rw [b]; simp [or_assoc]
      · intro hn
        rw [c (by simpa using hn)]; simp

theorem once_nodup (l : List α) : (once l).Nodup := (once_aux l [] (by simp)).1

theorem mem_once {l : List α} {x : α} : x ∈ once l ↔ x ∈ l := by
  rw [once, (once_aux l [] (by simp)).2.1]; simp

theorem once_length_le (l : List α) : (once l).length ≤ l.length :=
  ((once_nodup l).subperm (fun _ h => mem_once.1 h)).length_le

theorem once_length_eq {l : List α} : (once l).length = l.length ↔ l.Nodup := by
  constructor
  · intro h
    have hp := ((once_nodup l).subperm (fun _ h => mem_once.1 h)).perm_of_length_le (by omega)
    exact hp.nodup_iff.1 (once_nodup l)
  · intro h
    rw [once, (once_aux l [] (by simp)).2.2 (by simpa using h)]; simp
end

/-- Edges both ways round are different: no edge twice, in neither direction, and no loop. -/
theorem both_nodup {l : List (Int × Int)} : (l.flatMap (fun e => [e, (e.2, e.1)])).Nodup ↔
    l.Nodup ∧ (∀ a b, (a, b) ∈ l → (b, a) ∉ l) := by
  induction l with
  | nil => simp
  | cons e l ih =>
    obtain ⟨x, y⟩ := e
    rw [List.flatMap_cons, List.nodup_append, ih]
    have hm : ∀ z : Int × Int, z ∈ l.flatMap (fun e => [e, (e.2, e.1)]) ↔ z ∈ l ∨ (z.2, z.1) ∈ l := by
      intro z
      rw [List.mem_flatMap]
      constructor
      · rintro ⟨w, hw, hz⟩
        simp only [List.mem_cons, List.not_mem_nil, or_false] at hz
        rcases hz with rfl | rfl
        · exact Or.inl hw
        · exact Or.inr hw
      · rintro (h | h)
        · exact ⟨z, h, by simp⟩
        · exact ⟨_, h, by simp⟩
    constructor
    · rintro ⟨h1, ⟨h2, h3⟩, h4⟩
      have hxy : (x, y) ≠ (y, x) := by
        simp only [List.nodup_cons, List.mem_cons, List.not_mem_nil, or_false, not_false_eq_true, List.nodup_nil, and_true] at h1
        exact h1
      have n1 : (x, y) ∉ l := fun h => h4 (x, y) (by simp) (x, y) ((hm _).2 (Or.inl h)) rfl
      have n2 : (y, x) ∉ l := fun h => h4 (x, y) (by simp) (x, y) ((hm _).2 (Or.inr h)) rfl
      refine ⟨List.nodup_cons.2 ⟨n1, h2⟩, ?_⟩
      intro a b hab hba
      rcases List.mem_cons.1 hab with hab | hab
      · obtain ⟨rfl, rfl⟩ := Prod.mk.inj hab
        rcases List.mem_cons.1 hba with hba | hba
        · exact hxy hba.symm
        · exact n2 hba
      · have hab' := hab
        rcases List.mem_cons.1 hba with hba | hba
        · have hba := Prod.mk.inj hba
          rw [hba.1, hba.2] at hab'
          exact n2 hab'
        · exact h3 a b hab hba
    · rintro ⟨h1, h2⟩
      obtain ⟨n1, h1⟩ := List.nodup_cons.1 h1
      have n2 : (y, x) ∉ (x, y) :: l := h2 x y (by simp)
      have hxy : (x, y) ≠ (y, x) := fun h => n2 (by rw [h]; simp)
      have n3 : (y, x) ∉ l := fun h => n2 (List.mem_cons_of_mem _ h)
      refine ⟨?_, ⟨h1, fun a b hab hba => h2 a b (List.mem_cons_of_mem _ hab) (List.mem_cons_of_mem _ hba)⟩, ?_⟩
      · simp only [List.nodup_cons, List.mem_cons, List.not_mem_nil, or_false, not_false_eq_true, List.nodup_nil, and_true]
        exact hxy
      · intro a ha b hb hab
        subst hab
        simp only [List.mem_cons, List.not_mem_nil, or_false] at ha
        rw [hm] at hb
        rcases ha with rfl | rfl
        · exact hb.elim n1 n3
        · exact hb.elim n3 n1

/-- Position of a node. -/
def pos (g : Graph) (n : Int) : Nat := g.names.idxOf n

theorem pos_get {g : Graph} {n : Int} (h : n ∈ g.nodes) : g.names[pos g n]? = some n := by
  have hm : n ∈ g.names := mem_names.2 h
  have hl := List.idxOf_lt_length_of_mem hm
  rw [pos, List.getElem?_eq_getElem hl, List.getElem_idxOf hl]

theorem pos_lt {g : Graph} {n : Int} (h : n ∈ g.nodes) : pos g n < g.names.length :=
  List.idxOf_lt_length_of_mem (mem_names.2 h)

theorem pos_of {g : Graph} {n : Int} {i : Nat} (h : g.names[i]? = some n) : pos g n = i := by
  have hm : n ∈ g.names := List.mem_of_getElem? h
  have h1 := pos_get (mem_names.1 hm)
  exact (List.getElem?_inj (pos_lt (mem_names.1 hm)) (names_nodup g)).1 (by rw [h1, h])

theorem edgeOf_ok {g : Graph} {e : Int × Int} (h1 : e.1 ∈ g.nodes) (h2 : e.2 ∈ g.nodes) :
    edgeOf g e = .ok (pos g e.1 + 1, pos g e.2 + 1) := by
  rw [edgeOf, (index_get g e.1 _).2 (pos_get h1), bind_ok, (index_get g e.2 _).2 (pos_get h2), bind_ok]

theorem edges_ok {g : Graph} (hw : ∀ a b, (a, b) ∈ g.edges → a ∈ g.nodes ∧ b ∈ g.nodes) :
    mapE (edgeOf g) g.edges = .ok (g.edges.map (fun e => (pos g e.1 + 1, pos g e.2 + 1))) :=
  mapE_ok (fun e he => by
    obtain ⟨h1, h2⟩ := hw e.1 e.2 he
    exact edgeOf_ok h1 h2)

/-- What `init_model` gives when it does not raise. -/
theorem init_inv {g : Graph} (hw : ∀ a b, (a, b) ∈ g.edges → a ∈ g.nodes ∧ b ∈ g.nodes) {u : Bool} {nb : Nat} {kind : Kind}
    {found : List (List Nat)} {D : Data} (h : init g u nb kind found = .ok D) :
    D.n = g.names.length ∧ D.nEdges = (edgeKeys g u).length / 2 ∧ D.nb = nb ∧
      D.edges = g.edges.map (fun e => (pos g e.1 + 1, pos g e.2 + 1)) ∧ D.allCliques = false ∧
      (kind ≠ .cliques → D.cliques = []) ∧ (kind = .cliques → 200 ≤ found.length ∧ D.cliques = found.take 200) := by
  rw [init, edges_ok hw, bind_ok] at h
  cases kind with
  | default => obtain rfl := Except.ok.inj h; exact ⟨rfl, rfl, rfl, rfl, rfl, fun _ => rfl, fun h => (by cases h)⟩
  | lns => obtain rfl := Except.ok.inj h; exact ⟨rfl, rfl, rfl, rfl, rfl, fun _ => rfl, fun h => (by cases h)⟩
  | cliques =>
    simp only [computeCliques] at h
    by_cases h0 : found = []
    · rw [if_pos h0] at h; cases h
    · rw [if_neg h0, if_neg (by decide)] at h
      by_cases h2 : 200 ≤ found.length
      · rw [if_pos h2, bind_ok] at h
        obtain rfl := Except.ok.inj h
        exact ⟨rfl, rfl, rfl, rfl, rfl, fun h => absurd rfl h, fun _ => ⟨h2, rfl⟩⟩
      · rw [if_neg h2] at h; cases h

theorem mem_around {D : Data} {n m : Nat} : m ∈ around D n ↔ (n, m) ∈ D.edges ∨ (m, n) ∈ D.edges := by
  simp only [around, List.mem_append, List.mem_filterMap, Option.ite_none_right_eq_some, Option.some.injEq]
  constructor
  · rintro (⟨⟨a, b⟩, h, rfl, rfl⟩ | ⟨⟨a, b⟩, h, rfl, rfl⟩)
    · exact Or.inl h
    · exact Or.inr h
  · rintro (h | h)
    · exact Or.inl ⟨_, h, rfl, rfl⟩
    · exact Or.inr ⟨_, h, rfl, rfl⟩

/-- The constraints on edges: different colours at different ends. -/
theorem edges_iff {g : Graph} (hw : ∀ a b, (a, b) ∈ g.edges → a ∈ g.nodes ∧ b ∈ g.nodes) {D : Data} (hn : D.n = g.names.length)
    (he : D.edges = g.edges.map (fun e => (pos g e.1 + 1, pos g e.2 + 1))) (cs : List Nat) :
    (∀ n, 1 ≤ n → n ≤ D.n → ∀ m ∈ around D n, n < m → colorAt cs n ≠ colorAt cs m) ↔
      ∀ a b, (a, b) ∈ g.edges → a ≠ b → cs[pos g a]? ≠ cs[pos g b]? := by
  constructor
  · intro h a b hab hne
    obtain ⟨ha, hb⟩ := hw a b hab
    have hp : pos g a ≠ pos g b := by
      intro hp
      have h1 := pos_get ha
      rw [hp, pos_get hb] at h1
      exact hne (Option.some.inj h1).symm
    have hmem : (pos g a + 1, pos g b + 1) ∈ D.edges := by
      rw [he]; exact List.mem_map.2 ⟨(a, b), hab, rfl⟩
    have la := pos_lt ha
    have lb := pos_lt hb
    rcases Nat.lt_or_gt_of_ne hp with hlt | hlt
    · exact h (pos g a + 1) (by omega) (by omega) (pos g b + 1) (mem_around.2 (Or.inl hmem)) (by omega)
    · exact (h (pos g b + 1) (by omega) (by omega) (pos g a + 1) (mem_around.2 (Or.inr hmem)) (by omega)).symm
  · intro h n _ _ m hm hlt
    rw [mem_around, he, List.mem_map, List.mem_map] at hm
    rcases hm with ⟨⟨a, b⟩, hab, heq⟩ | ⟨⟨a, b⟩, hab, heq⟩
    · obtain ⟨rfl, rfl⟩ := Prod.mk.inj heq
      exact h a b hab (fun hx => by subst hx; exact absurd hlt (Nat.lt_irrefl _))
    · obtain ⟨rfl, rfl⟩ := Prod.mk.inj heq
      exact (h a b hab (fun hx => by subst hx; exact absurd hlt (Nat.lt_irrefl _))).symm

theorem retrieve_ok {g : Graph} {cs : List Nat} (hl : cs.length = g.names.length) :
    retrieve g cs = .ok (cs.map (fun (c : Nat) => (c : Int) - 1)) := by
  have h1 : retrieve g cs = .ok (g.names.map (fun n => ((cs.getD (pos g n) 0 : Nat) : Int) - 1)) := by
    refine mapE_ok ?_
    intro n hn
    have hn' := mem_names.1 hn
    have hp := pos_lt hn'
    rw [← hl] at hp
    simp only [(index_get g n _).2 (pos_get hn'), bind_ok, pyGet, List.getElem?_eq_getElem hp, List.getD_eq_getElem?_getD, Option.getD_some]
  rw [h1]
  congr 1
  apply List.ext_getElem?
  intro i
  rw [List.getElem?_map, List.getElem?_map]
  cases hi : g.names[i]? with
  | none =>
    have := List.getElem?_eq_none_iff.1 hi
    rw [List.getElem?_eq_none (by omega)]; rfl
  | some n =>
    have hil := (List.getElem?_eq_some_iff.1 hi).1
    rw [← hl] at hil
    simp only [Option.map_some, pos_of hi, List.getD_eq_getElem?_getD, List.getElem?_eq_getElem hil, Option.getD_some]

end Verif.CpColoring
