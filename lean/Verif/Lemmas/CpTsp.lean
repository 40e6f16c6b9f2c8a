import Verif.Model.CpTsp
import Verif.Lemmas.Tsp
import Verif.Lemmas.TspLp
import Mathlib.Data.List.Nodup
/- Helper lemmas about the constraint programs of tours. -/
namespace Verif.CpTsp
open Tsp

theorem follows_join {x : List Nat} {a : Nat} {r : List Nat} : ∀ l : List Nat,
    Follows x (l ++ a :: r) ↔ Follows x (l ++ [a]) ∧ Follows x (a :: r)
  | [] => by simp [Follows]
  | [b] => by
    show Follows x (b :: a :: r) ↔ Follows x [b, a] ∧ _
    simp [Follows]
  | b :: c :: l => by
    show (x[b]? = some (c + 1) ∧ Follows x ((c :: l) ++ a :: r)) ↔ (x[b]? = some (c + 1) ∧ Follows x ((c :: l) ++ [a])) ∧ _
    rw [follows_join (c :: l), and_assoc]

/-- A circuit seen from another node. -/
theorem circuit_from {n : Nat} {x : List Nat} (h : Circuit n x) {v : Nat} (hv : v < n) :
    ∃ rest, (v :: rest).Perm (List.range n) ∧ Follows x (v :: rest ++ [v]) := by
  obtain ⟨s, rest, hp, hf⟩ := h
  have hm : v ∈ s :: rest := hp.mem_iff.2 (List.mem_range.2 hv)
  obtain ⟨A, B, hAB⟩ := List.append_of_mem hm
  cases A with
  | nil =>
    rw [List.nil_append] at hAB
    obtain ⟨rfl, rfl⟩ := List.cons.inj hAB
    exact ⟨rest, hp, hf⟩
  | cons a A =>
    rw [List.cons_append] at hAB
    obtain ⟨rfl, rfl⟩ := List.cons.inj hAB
    refine ⟨B ++ s :: A, ?_, ?_⟩
    · refine List.Perm.trans ?_ hp
      have : (v :: B ++ s :: A).Perm (s :: A ++ v :: B) := List.perm_append_comm
      simpa using this
    · have h1 : s :: (A ++ v :: B) ++ [s] = (s :: A) ++ v :: (B ++ [s]) := by simp
      rw [h1, follows_join] at hf
      have h2 : v :: (B ++ s :: A) ++ [v] = (v :: B) ++ s :: (A ++ [v]) := by simp
      rw [h2, follows_join]
      refine ⟨?_, ?_⟩
      · have := hf.2; simpa using this
      · have := hf.1; simpa using this

/-- Reading off a path. -/
theorem decodeLoop_ok {x : List Nat} {fin : Nat} : ∀ (L : List Nat) (c : Nat) (fuel : Nat) (started : Bool) (path : List Nat),
    Follows x (c :: L ++ [fin]) → fin ∉ L → (c = fin → started = false) → L.length + 1 < fuel →
    decodeLoop x fin fuel c started path = .ok (path ++ L ++ [fin])
  | [], c, fuel + 1, started, path, hf, hL, hc, hl => by
    have h1 : x[c]? = some (fin + 1) := hf.1
    have hg : ¬ (c = fin ∧ started = true) := by rintro ⟨h, h'⟩; rw [hc h] at h'; cases h'
    rw [decodeLoop, if_neg hg, pyGet_ok_iff.2 h1, bind_ok]
    cases fuel with
    | zero => simp at hl
    | succ fuel =>
      simp only [Nat.add_sub_cancel]
      rw [decodeLoop, if_pos ⟨rfl, rfl⟩]
      simp
  | b :: L, c, fuel + 1, started, path, hf, hL, hc, hl => by
    have h1 : x[c]? = some (b + 1) := hf.1
    have hg : ¬ (c = fin ∧ started = true) := by rintro ⟨h, h'⟩; rw [hc h] at h'; cases h'
    rw [decodeLoop, if_neg hg, pyGet_ok_iff.2 h1, bind_ok]
    simp only [Nat.add_sub_cancel]
    rw [List.mem_cons, not_or] at hL
    rw [decodeLoop_ok L b fuel true (path ++ [b]) hf.2 hL.2 (fun h => absurd h.symm hL.1) (by simp only [List.length_cons] at hl; omega)]
    simp

/-- The sum over the nodes of a circuit is that over its legs. -/
theorem walk_sum {x : List Nat} (M : Nat → Nat → Int) : ∀ (l : List Nat) (z : Nat), Follows x (l ++ [z]) →
    (walk M (l ++ [z])).sum = (l.map (fun a => M a ((x[a]?.getD 0) - 1))).sum
  | [], z, _ => rfl
  | [a], z, h => by
    have h1 : x[a]? = some (z + 1) := h.1
    show M a z + 0 = _
    simp [h1]
  | a :: b :: l, z, h => by
    have h1 : x[a]? = some (b + 1) := h.1
    have ih := walk_sum M (b :: l) z h.2
    show M a b + (walk M (b :: l ++ [z])).sum = _
    rw [ih]
    simp [h1]

theorem legs_sum {M : Nat → Nat → Int} : ∀ {x : List Nat} {d : List Int}, d.length = x.length →
    (∀ (i v : Nat), x[i]? = some v → d[i]? = some (M i (v - 1))) →
    d.sum = ((List.range x.length).map (fun a => M a ((x[a]?.getD 0) - 1))).sum := by
  intro x d hl h
  congr 1
  apply List.ext_getElem?
  intro i
  rw [List.getElem?_map]
  by_cases hi : i < x.length
  · rw [h i x[i] (List.getElem?_eq_getElem hi), List.getElem?_range hi]
    simp [List.getElem?_eq_getElem hi]
  · rw [List.getElem?_eq_none (by omega), List.getElem?_eq_none (by simp; omega)]; rfl

theorem matrix_eq {m : Model} (hs : ∀ a b, m.dist a b = m.dist b a) {i j : Nat} (h : i ≠ j) : matrix m i j = m.dist i j := by
  unfold matrix
  by_cases h1 : i < j
  · rw [if_pos h1]
  · rw [if_neg h1, if_pos (by omega), hs]

/-- The walk of a solution: all nodes but start and end, in order, between start and end. -/
theorem solves_path {m : Model} {dist : Nat → Nat → Int} {x : List Nat} {d : List Int} {obj : Int} (hst : m.start < m.nodeCount)
    (hfi : m.fin < m.nodeCount) (hs : Solves m dist x d obj) :
    ∃ perm, decode m x = .ok perm ∧ perm.Perm m.inner ∧ Follows x (m.start :: perm ++ [m.fin]) ∧
      obj = (walk dist (m.start :: perm ++ [m.fin])).sum + (if m.fin = m.start then 0 else dist m.fin m.start) := by
  obtain ⟨rest, hp, hf⟩ := circuit_from hs.circuit hst
  have hnd : (m.start :: rest).Nodup := hp.nodup_iff.2 List.nodup_range
  rw [List.nodup_cons] at hnd
  have hlen : rest.length + 1 = m.nodeCount := by have := hp.length_eq; simpa using this
  have hin : ∀ v, v ∈ m.inner ↔ v ∈ rest ∧ v ≠ m.fin := by
    intro v
    have := hp.mem_iff (a := v)
    rw [List.mem_range, List.mem_cons] at this
    simp only [Model.inner, List.mem_filter, List.mem_range, Bool.and_eq_true, decide_eq_true_eq]
    constructor
    · rintro ⟨h1, h2, h3⟩
      exact ⟨(this.2 h1).resolve_left h2, h3⟩
    · rintro ⟨h1, h2⟩
      refine ⟨this.1 (Or.inr h1), ?_, h2⟩
      rintro rfl
      exact hnd.1 h1
  have hinn : m.inner.Nodup := List.Pairwise.filter _ List.nodup_range
  have hobj : obj = (walk dist (m.start :: rest ++ [m.start])).sum := by
    rw [hs.obj, legs_sum (by rw [hs.range.1, hs.len]) hs.legs, walk_sum dist (m.start :: rest) m.start hf, hs.len]
    exact perm_sum (hp.symm.map _)
  by_cases he : m.fin = m.start
  · rw [if_pos he]
    refine ⟨rest, ?_, ?_, by rw [he]; exact hf, by rw [hobj, he]; omega⟩
    · rw [decode, decodeLoop_ok rest m.start _ false [] (by rw [he]; exact hf) (by rw [he]; exact hnd.1) (fun _ => rfl) (by rw [hs.len]; omega), bind_ok]
      simp
    · rw [List.perm_ext_iff_of_nodup hnd.2 hinn]
      intro v
      rw [hin]
      constructor
      · intro h; exact ⟨h, by rintro rfl; rw [he] at h; exact hnd.1 h⟩
      · exact fun h => h.1
  · have hfm : m.fin ∈ rest := by
      have := hp.mem_iff.2 (List.mem_range.2 hfi)
      rcases List.mem_cons.1 this with h | h
      · exact absurd h he
      · exact h
    obtain ⟨A, B, rfl⟩ := List.append_of_mem hfm
    have hB : B = [] := by
      cases B with
      | nil => rfl
      | cons b B =>
        exfalso
        have h1 : m.start :: (A ++ m.fin :: b :: B) ++ [m.start] = (m.start :: A) ++ m.fin :: (b :: (B ++ [m.start])) := by simp
        rw [h1, follows_join] at hf
        have h2 : x[m.fin]? = some (b + 1) := hf.2.1
        rw [hs.close he] at h2
        have h3 : m.start = b := by have := Option.some.inj h2; omega
        exact hnd.1 (by rw [h3]; simp)
    subst hB
    have hfA : m.fin ∉ A := by
      have := hnd.2
      rw [List.nodup_append] at this
      intro h
      exact this.2.2 _ h _ (by simp) rfl
    have h1 : m.start :: (A ++ [m.fin]) ++ [m.start] = (m.start :: A) ++ m.fin :: [m.start] := by simp
    have hf' := hf
    rw [h1, follows_join] at hf
    refine ⟨A, ?_, ?_, hf.1, ?_⟩
    · rw [decode, decodeLoop_ok A m.start _ false [] hf.1 hfA (fun h => rfl) (by rw [hs.len]; simp at hlen; omega), bind_ok]
      simp
    · have hA : A.Nodup := (List.nodup_append.1 hnd.2).1
      rw [List.perm_ext_iff_of_nodup hA hinn]
      intro v
      rw [hin, List.mem_append, List.mem_singleton]
      constructor
      · intro h; exact ⟨Or.inl h, by rintro rfl; exact hfA h⟩
      · rintro ⟨h | h, h2⟩
        · exact h
        · exact absurd h h2
    · rw [hobj, if_neg he, h1]
      have := walk_append dist (m.start :: A) m.fin m.start []
      rw [List.append_assoc] at this
      show (walk dist (m.start :: A ++ ([m.fin] ++ [m.start]))).sum = _
      rw [this, List.sum_append]
      simp [walk]

/-! ### Circuits of given tours -/

/-- What follows `i` in a list. -/
def nextIn : List Nat → Nat → Nat
  | a :: b :: l, i => if i = a then b else nextIn (b :: l) i
  | _, _ => 0

theorem follows_next {x : List Nat} : ∀ (l : List Nat) (z : Nat), l.Nodup → (∀ a ∈ l, x[a]? = some (nextIn (l ++ [z]) a + 1)) →
    Follows x (l ++ [z])
  | [], z, _, _ => trivial
  | [a], z, _, h => by
    have := h a (by simp)
    exact ⟨by simpa [nextIn] using this, trivial⟩
  | a :: b :: l, z, hn, h => by
    rw [List.nodup_cons] at hn
    refine ⟨?_, follows_next (b :: l) z hn.2 ?_⟩
    · have := h a (by simp)
      simpa [nextIn] using this
    · intro c hc
      have := h c (List.mem_cons_of_mem _ hc)
      have hne : c ≠ a := by rintro rfl; exact hn.1 hc
      simpa [nextIn, hne] using this

theorem nextIn_mem : ∀ (l : List Nat) (z a : Nat), a ∈ l → ∃ b ∈ l.drop 1 ++ [z], nextIn (l ++ [z]) a = b
  | [], _, _, h => by simp at h
  | [b], z, a, h => by
    rw [List.mem_singleton] at h
    exact ⟨z, by simp, by simp [nextIn, h]⟩
  | b :: c :: l, z, a, h => by
    by_cases he : a = b
    · exact ⟨c, by simp, by simp [nextIn, he]⟩
    · obtain ⟨v, hv, h2⟩ := nextIn_mem (c :: l) z a ((List.mem_cons.1 h).resolve_left he)
      refine ⟨v, ?_, by simpa [nextIn, he] using h2⟩
      simp only [List.drop_succ_cons, List.drop_zero, List.mem_append, List.mem_cons] at hv ⊢
      rcases hv with hv | hv
      · exact Or.inl (Or.inr hv)
      · exact Or.inr hv

theorem nextIn_inj : ∀ (l : List Nat) (z a b : Nat), (l.drop 1).Nodup → z ∉ l.drop 1 → a ∈ l → b ∈ l →
    nextIn (l ++ [z]) a = nextIn (l ++ [z]) b → a = b
  | [], _, _, _, _, _, h, _, _ => by simp at h
  | [c], z, a, b, _, _, h, h', _ => by simp at h h'; rw [h, h']
  | c :: e :: l, z, a, b, hn, hz, ha, hb, h => by
    simp only [List.drop_succ_cons, List.drop_zero] at hn hz
    rw [List.nodup_cons] at hn
    have hz' : z ∉ (e :: l).drop 1 := fun hh => hz (List.mem_cons_of_mem _ hh)
    have key : ∀ y, y ∈ e :: l → nextIn (e :: l ++ [z]) y ≠ e := by
      intro y hy hh
      obtain ⟨v, hv, h2⟩ := nextIn_mem (e :: l) z y hy
      rw [hh] at h2
      subst h2
      simp only [List.drop_succ_cons, List.drop_zero, List.mem_append, List.mem_singleton] at hv
      rcases hv with hv | hv
      · exact hn.1 hv
      · exact hz (by rw [← hv]; simp)
    have hcons : ∀ y, nextIn (c :: e :: l ++ [z]) y = if y = c then e else nextIn (e :: l ++ [z]) y := fun _ => rfl
    rw [hcons, hcons] at h
    by_cases h1 : a = c
    · by_cases h2 : b = c
      · rw [h1, h2]
      · rw [if_pos h1, if_neg h2] at h
        exact absurd h.symm (key b ((List.mem_cons.1 hb).resolve_left h2))
    · by_cases h2 : b = c
      · rw [if_neg h1, if_pos h2] at h
        exact absurd h (key a ((List.mem_cons.1 ha).resolve_left h1))
      · rw [if_neg h1, if_neg h2] at h
        exact nextIn_inj (e :: l) z a b hn.2 hz' ((List.mem_cons.1 ha).resolve_left h1) ((List.mem_cons.1 hb).resolve_left h2) h

end Verif.CpTsp
