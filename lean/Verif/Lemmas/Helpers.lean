import Verif.Model.Helpers
import Verif.Lemmas.Sched
import Verif.Lemmas.UnitsRun
import Verif.Props.GraphApi
import Mathlib.Data.List.Nodup
import Mathlib.Data.List.Perm.Subperm

/-! Lemmas for the generator of projects with helper tasks. -/
namespace Verif.Helpers
open Rcpsp Views

theorem get_ok {κ : Type} {α : Type} [DecidableEq κ] {d : Dict κ α} {k : κ} {v : α} (h : d.get? k = some v) :
    d.get k = .ok v := Dict.get_ok_iff.2 h

/-- The successors of an activity. -/
def suc (s : Succ) (x : Nat) : List Nat := (s.get? x).getD []

theorem suc_of {s : Succ} {x : Nat} {l : List Nat} (h : s.get? x = some l) : suc s x = l := by
  unfold suc; rw [h]; rfl

theorem suc_congr {s s' : Succ} {x : Nat} (h : s.get? x = s'.get? x) : suc s x = suc s' x := by
  unfold suc; rw [h]

theorem suc_set (s : Succ) (k x : Nat) (l : List Nat) : suc (s.set k l) x = if x = k then l else suc s x := by
  unfold suc
  split
  · rename_i h; subst h; rw [Dict.get?_set_self]; rfl
  · rename_i h; rw [Dict.get?_set_ne _ _ h]

theorem mem_keys {s : Succ} {x : Nat} : x ∈ s.keys ↔ ∃ l, s.get? x = some l := by
  rw [← Dict.get?_isSome_iff_mem_keys, Option.isSome_iff_exists]

theorem keys_set_mem {s : Succ} {k x : Nat} {l : List Nat} : x ∈ (s.set k l).keys ↔ x = k ∨ x ∈ s.keys := by
  rw [Dict.keys_set]
  split
  · rename_i h
    constructor
    · exact Or.inr
    · rintro (rfl | h')
      · exact h
      · exact h'
  · simp only [List.mem_append, List.mem_singleton]
    exact Or.comm

theorem mem_erase_once {l : List Nat} {a y : Nat} (h : l.count a ≤ 1) : y ∈ l.erase a ↔ y ∈ l ∧ y ≠ a := by
  by_cases hy : y = a
  · subst hy
    have : y ∉ l.erase y := by
      intro hm
      have := List.count_pos_iff.2 hm
      rw [List.count_erase_self] at this
      omega
    simp [this]
  · rw [List.mem_erase_of_ne hy]
    simp [hy]

/-- Renaming the sink in the successors. -/
theorem renameSucc_ok {s : Succ} {old new : Nat} (hn : s.keys.Nodup) (ho : old ∈ s.keys) :
    ∃ s', renameSucc old new s = .ok s' ∧ s'.keys.Nodup ∧ s'.get? new = some [] ∧
      (old ≠ new → s'.get? old = none) ∧
      ∀ x, x ≠ old → x ≠ new → s'.get? x = (s.get? x).map (replaceIn old new) := by
  have hk : Dict.keys (s.map (fun p => (p.1, replaceIn old new p.2))) = s.keys := by
    simp [Dict.keys, Function.comp_def]
  refine ⟨Dict.set (Dict.erase (s.map (fun p => (p.1, replaceIn old new p.2))) old) new [], ?_, ?_, ?_, ?_, ?_⟩
  · unfold renameSucc
    rw [if_pos]
    rw [Dict.contains_iff, Dict.get?_isSome_iff_mem_keys, hk]
    exact ho
  · apply Dict.nodup_keys_set
    rw [Dict.keys_erase, hk]
    exact hn.erase _
  · rw [Dict.get?_set_self]
  · intro h
    rw [Dict.get?_set_ne _ _ h, Dict.get?_erase_self (by rw [hk]; exact hn)]
  · intro x h1 h2
    rw [Dict.get?_set_ne _ _ h2, Dict.get?_erase_ne _ h1]
    exact get_map s (fun _ l => replaceIn old new l) x

theorem mem_replaceIn {l : List Nat} {old new y : Nat} (h : l.Nodup) :
    y ∈ replaceIn old new l ↔ (y ∈ l ∧ y ≠ old) ∨ (y = new ∧ old ∈ l) := by
  unfold replaceIn
  split
  · rename_i ho
    have ho : old ∈ l := by simpa using ho
    rw [List.mem_append, List.mem_singleton, mem_erase_once (List.nodup_iff_count.1 h _)]
    simp [ho]
  · rename_i ho
    have ho : old ∉ l := by simpa using ho
    constructor
    · intro hy; exact .inl ⟨hy, fun h => ho (h ▸ hy)⟩
    · rintro (⟨hy, _⟩ | ⟨_, hy⟩)
      · exact hy
      · exact absurd hy ho

theorem count_replaceIn {l : List Nat} {old new : Nat} (h : new ∉ l) : (replaceIn old new l).count new ≤ 1 := by
  unfold replaceIn
  split
  · rw [List.count_append, List.count_eq_zero.2 (fun hm => h (List.mem_of_mem_erase hm))]
    simp
  · rw [List.count_eq_zero.2 h]; omega

/-- One assisted activity. -/
theorem helpOne_ok {s : Succ} {new pre post a : Nat} {l : List Nat} (hn : s.keys.Nodup) (h1 : pre ≠ a) (h2 : post ≠ a)
    (h3 : pre ≠ post) (h4 : post ≠ new) (ha : s.get? a = some l) :
    ∃ s', helpOne new pre post a s = .ok s' ∧ s'.keys.Nodup ∧ s'.get? pre = some [a] ∧
      s'.get? post = some (if new ∈ l then [new] else []) ∧ s'.get? a = some ((l ++ [post]).erase new) ∧
      ∀ x, x ≠ pre → x ≠ post → x ≠ a → s'.get? x = s.get? x := by
  have e1 : ((s.set pre [a]) : Succ).get a = .ok l := get_ok (by rw [Dict.get?_set_ne _ _ h1.symm]; exact ha)
  have e2 : ((((s.set pre [a]) : Succ).set a (l ++ [post])).set post []).get a = .ok (l ++ [post]) :=
    get_ok (by rw [Dict.get?_set_ne _ _ h2.symm, Dict.get?_set_self])
  by_cases hm : new ∈ l
  · have hc : (l ++ [post]).contains new = true := by simp [hm]
    have e3 : (((((s.set pre [a]) : Succ).set a (l ++ [post])).set post []).set a ((l ++ [post]).erase new)).get post =
        .ok [] := get_ok (by rw [Dict.get?_set_ne _ _ h2, Dict.get?_set_self])
    refine ⟨_, by simp only [helpOne, e1, bind_ok, e2, hc, if_true, e3]; rfl, ?_, ?_, ?_, ?_, ?_⟩
    · exact Dict.nodup_keys_set _ _ (Dict.nodup_keys_set _ _ (Dict.nodup_keys_set _ _ (Dict.nodup_keys_set _ _
        (Dict.nodup_keys_set _ _ hn))))
    · rw [Dict.get?_set_ne _ _ h3, Dict.get?_set_ne _ _ h1, Dict.get?_set_ne _ _ h3, Dict.get?_set_ne _ _ h1,
        Dict.get?_set_self]
    · rw [Dict.get?_set_self, if_pos hm]; rfl
    · rw [Dict.get?_set_ne _ _ h2.symm, Dict.get?_set_self]
    · intro x g1 g2 g3
      rw [Dict.get?_set_ne _ _ g2, Dict.get?_set_ne _ _ g3, Dict.get?_set_ne _ _ g2, Dict.get?_set_ne _ _ g3,
        Dict.get?_set_ne _ _ g1]
  · have hc : (l ++ [post]).contains new = false := by simp [hm, h4.symm]
    refine ⟨_, by simp only [helpOne, e1, bind_ok, e2, hc, Bool.false_eq_true, if_false]; rfl, ?_, ?_, ?_, ?_, ?_⟩
    · exact Dict.nodup_keys_set _ _ (Dict.nodup_keys_set _ _ (Dict.nodup_keys_set _ _ hn))
    · rw [Dict.get?_set_ne _ _ h3, Dict.get?_set_ne _ _ h1, Dict.get?_set_self]
    · rw [Dict.get?_set_self, if_neg hm]
    · rw [Dict.get?_set_ne _ _ h2.symm, Dict.get?_set_self, List.erase_of_not_mem]
      simpa [hm] using h4.symm
    · intro x g1 g2 g3
      rw [Dict.get?_set_ne _ _ g2, Dict.get?_set_ne _ _ g3, Dict.get?_set_ne _ _ g1]

/-- All assisted activities, from index `i` on. -/
theorem helpAll_ok {old n new : Nat} {as : List Nat} (hl : as.length = n) (hnd : as.Nodup) (hb : ∀ a ∈ as, a < old)
    (hnew : new = old + 2 * n) : ∀ (k i : Nat) (s : Succ), i + k = n → s.keys.Nodup →
    (∀ j a, i ≤ j → as[j]? = some a → ∃ l, s.get? a = some l) →
    ∃ s', helpAll old n new as k i s = .ok s' ∧ s'.keys.Nodup ∧
      (∀ j a, i ≤ j → as[j]? = some a → s'.get? (old + j) = some [a] ∧
        s'.get? (old + n + j) = some (if new ∈ suc s a then [new] else []) ∧
        s'.get? a = some ((suc s a ++ [old + n + j]).erase new)) ∧
      ∀ x, (∀ j a, i ≤ j → as[j]? = some a → x ≠ old + j ∧ x ≠ old + n + j ∧ x ≠ a) → s'.get? x = s.get? x
  | 0, i, s, hk, hs, _ => by
    refine ⟨s, rfl, hs, ?_, fun x _ => rfl⟩
    intro j a hj ha
    have := (List.getElem?_eq_some_iff.1 ha).1
    omega
  | k + 1, i, s, hk, hs, hg => by
    have hi : i < as.length := by omega
    have hai : as[i]? = some as[i] := List.getElem?_eq_getElem hi
    obtain ⟨l, hl1⟩ := hg i as[i] (Nat.le_refl _) hai
    have hlt : as[i] < old := hb _ (List.getElem_mem hi)
    obtain ⟨s1, e1, n1, p1, p2, p3, p4⟩ := helpOne_ok (new := new) (pre := old + i) (post := old + n + i) hs
      (by omega) (by omega) (by omega) (by omega) hl1
    have hne : ∀ j a, i + 1 ≤ j → as[j]? = some a → a ≠ as[i] := by
      intro j a hj ha h
      obtain ⟨hj', rfl⟩ := List.getElem?_eq_some_iff.1 ha
      have := (List.Nodup.getElem_inj_iff hnd).1 h
      omega
    have hsame : ∀ j a, i + 1 ≤ j → as[j]? = some a → s1.get? a = s.get? a := by
      intro j a hj ha
      have hlt' : a < old := hb _ (List.mem_of_getElem? ha)
      exact p4 a (by omega) (by omega) (hne j a hj ha)
    obtain ⟨s2, e2, n2, q1, q2⟩ := helpAll_ok hl hnd hb hnew k (i + 1) s1 (by omega) n1 (by
      intro j a hj ha
      rw [hsame j a hj ha]
      exact hg j a (by omega) ha)
    have hfix : ∀ x, (∀ j a, i + 1 ≤ j → as[j]? = some a → x ≠ old + j ∧ x ≠ old + n + j ∧ x ≠ a) →
      s2.get? x = s1.get? x := q2
    refine ⟨s2, by simp only [helpAll, pyGet_ok_iff.2 hai, bind_ok, e1]; exact e2, n2, ?_, ?_⟩
    · intro j a hj ha
      rcases Nat.lt_or_ge i j with hij | hij
      · have := q1 j a hij ha
        rw [suc_congr (hsame j a hij ha)] at this
        exact this
      · have hji : j = i := by omega
        subst hji
        have : a = as[j] := by rw [hai] at ha; exact (Option.some.inj ha).symm
        subst this
        rw [suc_of hl1]
        refine ⟨?_, ?_, ?_⟩
        · rw [hfix, p1]
          intro j' a' hj' ha'
          have := hb _ (List.mem_of_getElem? ha')
          have := (List.getElem?_eq_some_iff.1 ha').1
          exact ⟨by omega, by omega, by omega⟩
        · rw [hfix, p2]
          intro j' a' hj' ha'
          have := hb _ (List.mem_of_getElem? ha')
          have := (List.getElem?_eq_some_iff.1 ha').1
          exact ⟨by omega, by omega, by omega⟩
        · rw [hfix, p3]
          intro j' a' hj' ha'
          exact ⟨by omega, by omega, (hne j' a' hj' ha').symm⟩
    · intro x hx
      rw [q2 x (fun j a hj ha => hx j a (by omega) ha)]
      obtain ⟨g1, g2, g3⟩ := hx i as[i] (Nat.le_refl _) hai
      exact p4 x g1 g2 g3

/-- Helpers by activity. -/
theorem helperMap_get {first : Nat} {as : List Nat} (hnd : as.Nodup) {j a : Nat} (h : as[j]? = some a) :
    (helperMap first as).get? a = some (first + j) := by
  apply Dict.get?_of_mem
  · unfold helperMap Dict.keys
    rw [List.map_map]
    have : (Prod.fst ∘ fun p : Nat × Nat => (p.1, first + p.2)) = Prod.fst := rfl
    rw [this, List.zipIdx_map_fst]
    exact hnd
  · unfold helperMap
    rw [List.mem_map]
    exact ⟨(a, j), List.mem_zipIdx_iff_getElem?.2 h, rfl⟩

theorem suc_append {s : Succ} {k x y q : Nat} {l : List Nat} (h : s.get? k = some l) :
    y ∈ suc (s.set k (l ++ [q])) x ↔ y ∈ suc s x ∨ (x = k ∧ y = q) := by
  rw [suc_set]
  split
  · rename_i hx
    subst hx
    rw [suc_of h]
    simp
  · rename_i hx
    simp [hx]

/-- The draws for one activity. -/
theorem crossOne_ok (cross : Nat → Nat → Bool) (pre post : Dict Nat Nat) {a p : Nat} (hp : post.get? a = some p) :
    ∀ (bs : List Nat) (s : Succ), s.keys.Nodup → p ∈ s.keys → (∀ b ∈ bs, ∃ q, pre.get? b = some q) →
    ∃ s', crossOne cross pre post a bs s = .ok s' ∧ s'.keys.Nodup ∧ (∀ x, x ∈ s'.keys ↔ x ∈ s.keys) ∧
      ∀ x y, y ∈ suc s' x ↔ y ∈ suc s x ∨ (x = p ∧ ∃ b ∈ bs, cross a b = true ∧ pre.get? b = some y)
  | [], s, hn, _, _ => ⟨s, rfl, hn, fun _ => Iff.rfl, by simp⟩
  | b :: bs, s, hn, hps, hb => by
    by_cases hc : cross a b = true
    · obtain ⟨q, hq⟩ := hb b List.mem_cons_self
      obtain ⟨l, hl⟩ := mem_keys.1 hps
      obtain ⟨s', e, n, k, r⟩ := crossOne_ok cross pre post hp bs (s.set p (l ++ [q])) (Dict.nodup_keys_set _ _ hn)
        (keys_set_mem.2 (.inl rfl)) (fun b' h => hb b' (List.mem_cons_of_mem _ h))
      refine ⟨s', by simp only [crossOne, hc, if_true, get_ok hp, get_ok hq, get_ok hl, bind_ok]; exact e, n, ?_, ?_⟩
      · intro x
        rw [k, keys_set_mem]
        constructor
        · rintro (rfl | h)
          · exact hps
          · exact h
        · exact Or.inr
      · intro x y
        rw [r, suc_append hl]
        simp only [List.mem_cons, exists_eq_or_imp, hc, true_and, hq, Option.some.injEq]
        constructor
        · rintro ((h | ⟨h1, h2⟩) | ⟨h1, h2⟩)
          · exact .inl h
          · exact .inr ⟨h1, .inl h2.symm⟩
          · exact .inr ⟨h1, .inr h2⟩
        · rintro (h | ⟨h1, h2 | h2⟩)
          · exact .inl (.inl h)
          · exact .inl (.inr ⟨h1, h2.symm⟩)
          · exact .inr ⟨h1, h2⟩
    · obtain ⟨s', e, n, k, r⟩ := crossOne_ok cross pre post hp bs s hn hps
        (fun b' h => hb b' (List.mem_cons_of_mem _ h))
      refine ⟨s', by simp only [crossOne, hc, Bool.false_eq_true, if_false]; exact e, n, k, ?_⟩
      intro x y
      rw [r]
      simp [hc]

/-- All draws. -/
theorem crossAll_ok (cross : Nat → Nat → Bool) (pre post : Dict Nat Nat) : ∀ (as : List Nat) (s : Succ),
    as.Pairwise (· < ·) → s.keys.Nodup → (∀ a ∈ as, ∃ p, post.get? a = some p ∧ p ∈ s.keys) →
    (∀ a ∈ as, ∃ q, pre.get? a = some q) →
    ∃ s', crossAll cross pre post as s = .ok s' ∧ s'.keys.Nodup ∧ (∀ x, x ∈ s'.keys ↔ x ∈ s.keys) ∧
      ∀ x y, y ∈ suc s' x ↔ y ∈ suc s x ∨ ∃ a ∈ as, ∃ b ∈ as, a < b ∧ cross a b = true ∧ post.get? a = some x ∧
        pre.get? b = some y
  | [], s, _, hn, _, _ => ⟨s, rfl, hn, fun _ => Iff.rfl, by simp⟩
  | a :: as, s, hs, hn, hpost, hpre => by
    rw [List.pairwise_cons] at hs
    obtain ⟨p, hp, hpk⟩ := hpost a List.mem_cons_self
    obtain ⟨s1, e1, n1, k1, r1⟩ := crossOne_ok cross pre post hp as s hn hpk
      (fun b h => hpre b (List.mem_cons_of_mem _ h))
    obtain ⟨s2, e2, n2, k2, r2⟩ := crossAll_ok cross pre post as s1 hs.2 n1
      (fun b h => (hpost b (List.mem_cons_of_mem _ h)).imp fun _ g => ⟨g.1, (k1 _).2 g.2⟩)
      (fun b h => hpre b (List.mem_cons_of_mem _ h))
    refine ⟨s2, by simp only [crossAll, e1, bind_ok]; exact e2, n2, fun x => (k2 x).trans (k1 x), ?_⟩
    intro x y
    rw [r2, r1]
    constructor
    · rintro ((h | ⟨rfl, b, hb, hc, hy⟩) | ⟨a', ha', b, hb, h1, h2, h3, h4⟩)
      · exact .inl h
      · exact .inr ⟨a, List.mem_cons_self, b, List.mem_cons_of_mem _ hb, hs.1 b hb, hc, hp, hy⟩
      · exact .inr ⟨a', List.mem_cons_of_mem _ ha', b, List.mem_cons_of_mem _ hb, h1, h2, h3, h4⟩
    · rintro (h | ⟨a', ha', b, hb, h1, h2, h3, h4⟩)
      · exact .inl (.inl h)
      · rcases List.mem_cons.1 ha' with rfl | ha''
        · rcases List.mem_cons.1 hb with rfl | hb
          · omega
          · refine .inl (.inr ⟨?_, b, hb, h2, h4⟩)
            rw [hp] at h3; exact (Option.some.inj h3).symm
        · rcases List.mem_cons.1 hb with rfl | hb
          · have := hs.1 _ ha''; omega
          · exact .inr ⟨a', ha'', b, hb, h1, h2, h3, h4⟩

/-- Further precedences to the sink. -/
theorem toSink_ok (new : Nat) : ∀ (ms : List Nat) (s : Succ), s.keys.Nodup → (∀ m ∈ ms, m ∈ s.keys) →
    ∃ s', toSink new ms s = .ok s' ∧ s'.keys.Nodup ∧ (∀ x, x ∈ s'.keys ↔ x ∈ s.keys) ∧
      ∀ x y, y ∈ suc s' x ↔ y ∈ suc s x ∨ (x ∈ ms ∧ y = new)
  | [], s, hn, _ => ⟨s, rfl, hn, fun _ => Iff.rfl, by simp⟩
  | m :: ms, s, hn, hk => by
    have hm := hk m List.mem_cons_self
    obtain ⟨l, hl⟩ := mem_keys.1 hm
    obtain ⟨s', e, n, k, r⟩ := toSink_ok new ms (s.set m (l ++ [new])) (Dict.nodup_keys_set _ _ hn)
      (fun x hx => keys_set_mem.2 (.inr (hk x (List.mem_cons_of_mem _ hx))))
    refine ⟨s', by simp only [toSink, get_ok hl, bind_ok]; exact e, n, ?_, ?_⟩
    · intro x
      rw [k, keys_set_mem]
      constructor
      · rintro (rfl | h)
        · exact hm
        · exact h
      · exact Or.inr
    · intro x y
      rw [r, suc_append hl, List.mem_cons]
      constructor
      · rintro ((h | ⟨h1, h2⟩) | ⟨h1, h2⟩)
        · exact .inl h
        · exact .inr ⟨.inl h1, h2⟩
        · exact .inr ⟨.inr h1, h2⟩
      · rintro (h | ⟨h1 | h1, h2⟩)
        · exact .inl (.inl h)
        · exact .inl (.inr ⟨h1, h2⟩)
        · exact .inr ⟨h1, h2⟩

/-- A relation of activities as a path: the first one has a successor. -/
theorem path_start {s : Succ} {x y : Nat} (h : Relation.TransGen (fun a b => b ∈ suc s a) x y) : x ∈ s.keys := by
  have hx : ∃ z, z ∈ suc s x := by
    induction h with
    | single h => exact ⟨_, h⟩
    | tail _ _ ih => exact ih
  obtain ⟨z, hz⟩ := hx
  rw [mem_keys]
  unfold suc at hz
  cases hg : s.get? x with
  | none => rw [hg] at hz; cases hz
  | some l => exact ⟨l, rfl⟩

theorem mem_suc_iff {s : Succ} (hn : s.keys.Nodup) {u v : Nat} : v ∈ suc s u ↔ ∃ ss, (u, ss) ∈ s ∧ v ∈ ss := by
  unfold suc
  constructor
  · intro h
    cases hg : s.get? u with
    | none => rw [hg] at h; cases h
    | some l => rw [hg] at h; exact ⟨l, Dict.mem_of_get? hg, h⟩
  · rintro ⟨ss, h1, h2⟩
    rw [Dict.get?_of_mem hn h1]
    exact h2

/-- Every activity that does not precede the sink gets it as successor. -/
theorem fixSink_ok (pb : Problem) (M : Nat) (hM : 1 ≤ M) (hm : pb.modes.keys.Perm (List.range' 1 M))
    (hn : pb.successors.keys.Nodup) (hk : ∀ x, x ∈ pb.successors.keys ↔ 1 ≤ x ∧ x ≤ M) :
    ∃ s', fixSink pb M = .ok { pb with successors := s' } ∧ s'.keys.Nodup ∧ (∀ x, x ∈ s'.keys ↔ 1 ≤ x ∧ x ≤ M) ∧
      ∀ x y, y ∈ suc s' x ↔ y ∈ suc pb.successors x ∨
        (y = M ∧ 1 ≤ x ∧ x < M ∧ ¬ Relation.TransGen (fun a b => b ∈ suc pb.successors a) x M) := by
  have hlen : pb.modes.length = M := by
    have := hm.length_eq
    rw [List.length_range'] at this
    rw [← this]; simp [Dict.keys]
  have hmem : ∀ k, 1 ≤ k → k ≤ pb.modes.length → ∃ ms, pb.modes.get? k = some ms := by
    intro k h1 h2
    rw [← Option.isSome_iff_exists, Dict.get?_isSome_iff_mem_keys, hm.mem_iff, List.mem_range'_1]
    omega
  obtain ⟨g, hg, hnodes, _, hnb⟩ := (GraphApi.C173_graph pb).1 hmem
  have hrel : (fun a b => b ∈ GraphApi.getNeighbors g a) = fun a b => b ∈ suc pb.successors a := by
    funext a b
    rw [hnb, mem_suc_iff hn]
  have hMg : M ∈ (GraphApi.toNetworkx g).nodes.keys := by
    rw [GraphApi.toNetworkx_nodes]
    left
    rw [← (GraphApi.C172_nodes g).2.1, hnodes, List.mem_range'_1]
    omega
  obtain ⟨l, hl, hnd, hl'⟩ := (GraphApi.C172_ancestors g M).1 hMg
  rw [hrel] at hl'
  have hsub : ∀ u ∈ l, 1 ≤ u ∧ u < M := by
    intro u hu
    obtain ⟨h1, h2⟩ := (hl' u).1 hu
    have := (hk u).1 (path_start h2)
    omega
  by_cases hlM : l.length = M - 1
  · refine ⟨pb.successors, ?_, hn, hk, ?_⟩
    · simp only [fixSink, hg, hl, bind_ok, hlen, hlM, if_true]
    · intro x y
      constructor
      · exact Or.inl
      · rintro (h | ⟨_, h1, h2, h3⟩)
        · exact h
        · exfalso
          apply h3
          have hp : l.Perm (List.range' 1 (M - 1)) := by
            apply List.Subperm.perm_of_length_le
            · apply List.Nodup.subperm hnd
              intro u hu
              have := hsub u hu
              rw [List.mem_range'_1]; omega
            · rw [List.length_range']; omega
          have : x ∈ l := hp.mem_iff.2 (by rw [List.mem_range'_1]; omega)
          exact ((hl' x).1 this).2
  · obtain ⟨s', e, n, k, r⟩ := toSink_ok M ((List.range' 1 (M - 1)).filter (fun i => !l.contains i)) pb.successors hn (by
      intro m hm'
      rw [List.mem_filter, List.mem_range'_1] at hm'
      rw [hk]; omega)
    refine ⟨s', ?_, n, fun x => (k x).trans (hk x), ?_⟩
    · simp only [fixSink, hg, hl, bind_ok, hlen, hlM, if_false, e]
    · intro x y
      rw [r, List.mem_filter, List.mem_range'_1]
      have hx : x ∈ l ↔ x ≠ M ∧ _ := hl' x
      simp only [Bool.not_eq_true', List.contains_eq_mem, decide_eq_false_iff_not, hx]
      constructor
      · rintro (h | ⟨⟨⟨h1, h2⟩, h3⟩, h4⟩)
        · exact .inl h
        · exact .inr ⟨h4, h1, by omega, fun h => h3 ⟨by omega, h⟩⟩
      · rintro (h | ⟨h4, h1, h2, h3⟩)
        · exact .inl h
        · exact .inr ⟨⟨⟨h1, by omega⟩, fun h => h3 h.2⟩, h4⟩

theorem mem_keys_set' {α : Type} {d : Dict Nat α} {k x : Nat} {v : α} : x ∈ (d.set k v).keys ↔ x = k ∨ x ∈ d.keys := by
  rw [Dict.keys_set]
  split
  · rename_i h
    constructor
    · exact Or.inr
    · rintro (rfl | h')
      · exact h
      · exact h'
  · simp only [List.mem_append, List.mem_singleton]
    exact Or.comm

theorem addHelpers_spec (m : Mode) (old : Nat) (modes : Dict Nat (Dict Nat Mode)) (hn : modes.keys.Nodup) : ∀ k,
    (addHelpers m old k modes).keys.Nodup ∧
    (∀ x, x ∈ (addHelpers m old k modes).keys ↔ (old ≤ x ∧ x < old + k) ∨ x ∈ modes.keys) ∧
    ∀ x, (addHelpers m old k modes).get? x = if old ≤ x ∧ x < old + k then some [(1, m)] else modes.get? x
  | 0 => by
    refine ⟨hn, fun x => ?_, fun x => ?_⟩
    · simp only [addHelpers]
      constructor
      · exact Or.inr
      · rintro (h | h)
        · omega
        · exact h
    · rw [if_neg (by omega)]; rfl
  | k + 1 => by
    obtain ⟨h1, h2, h3⟩ := addHelpers_spec m old modes hn k
    refine ⟨Dict.nodup_keys_set _ _ h1, fun x => ?_, fun x => ?_⟩
    · simp only [addHelpers]
      rw [mem_keys_set', h2]
      constructor
      · rintro (h | h | h)
        · left; omega
        · left; omega
        · exact .inr h
      · rintro (h | h)
        · by_cases hx : x = old + k
          · exact .inl hx
          · right; left; omega
        · exact .inr (.inr h)
    · simp only [addHelpers]
      by_cases hx : x = old + k
      · subst hx
        rw [Dict.get?_set_self, if_pos (by omega)]
      · rw [Dict.get?_set_ne _ _ hx, h3]
        by_cases hb : old ≤ x ∧ x < old + k
        · rw [if_pos hb, if_pos (by omega)]
        · rw [if_neg hb, if_neg (by omega)]

/-- What becomes of a mode of the project. -/
def changed (k : Nat) (r : String) (ms : Dict Nat Mode) : Dict Nat Mode :=
  ms.map (fun q => (q.1, { duration := q.2.duration * k, needs := q.2.needs.set r 0 }))

/-- The modes of the new project. -/
theorem modes_spec (m : Mode) (r : String) (k n N : Nat) (modes : Dict Nat (Dict Nat Mode)) (hN : 1 ≤ N)
    (hp : modes.keys.Perm (List.range' 1 N)) :
    (addHelpers m N (2 * n) (addNeed r (renameModes N (N + 2 * n) (multiply k modes)))).keys.Perm (List.range' 1 (N + 2 * n)) ∧
    ∀ x, (addHelpers m N (2 * n) (addNeed r (renameModes N (N + 2 * n) (multiply k modes)))).get? x =
      if N ≤ x ∧ x < N + 2 * n then some [(1, m)]
      else if x = N + 2 * n then (modes.get? N).map (changed k r)
      else (modes.get? x).map (changed k r) := by
  have hmul : ∀ x, (multiply k modes).get? x = (modes.get? x).map
      (fun ms => ms.map (fun q => (q.1, { q.2 with duration := q.2.duration * k }))) :=
    fun x => get_map modes (β := Dict Nat Mode) (fun _ ms => List.map (fun q : Nat × Mode => (q.1, ({ duration := q.2.duration * k, needs := q.2.needs } : Mode))) ms) x
  have hkm : (multiply k modes).keys = modes.keys := by simp [multiply, Dict.keys, Function.comp_def]
  have hnd : modes.keys.Nodup := hp.nodup_iff.2 List.nodup_range'
  have hmemk : ∀ x, x ∈ modes.keys ↔ 1 ≤ x ∧ x ≤ N := by
    intro x; rw [hp.mem_iff, List.mem_range'_1]; omega
  have hnr : (renameModes N (N + 2 * n) (multiply k modes)).keys.Nodup := by
    apply Dict.nodup_keys_set
    rw [Dict.keys_erase, hkm]
    exact hnd.erase _
  have hkr : ∀ x, x ∈ (renameModes N (N + 2 * n) (multiply k modes)).keys ↔ x = N + 2 * n ∨ (1 ≤ x ∧ x < N) := by
    intro x
    unfold renameModes
    rw [mem_keys_set', Dict.keys_erase, hkm, hnd.mem_erase_iff, hmemk]
    omega
  have hgr : ∀ x, (renameModes N (N + 2 * n) (multiply k modes)).get? x =
      if x = N + 2 * n then (multiply k modes).get? N else if x = N then none else (multiply k modes).get? x := by
    intro x
    unfold renameModes
    by_cases hx : x = N + 2 * n
    · subst hx
      rw [Dict.get?_set_self, if_pos rfl]
      obtain ⟨ms, hms⟩ := Option.isSome_iff_exists.1 ((Dict.get?_isSome_iff_mem_keys _ _).2 ((hmemk N).2 ⟨hN, Nat.le_refl _⟩))
      rw [hmul, hms]; rfl
    · rw [Dict.get?_set_ne _ _ hx, if_neg hx]
      by_cases hx' : x = N
      · subst hx'
        rw [Dict.get?_erase_self (by rw [hkm]; exact hnd), if_pos rfl]
      · rw [Dict.get?_erase_ne _ hx', if_neg hx']
  have hka : (addNeed r (renameModes N (N + 2 * n) (multiply k modes))).keys =
      (renameModes N (N + 2 * n) (multiply k modes)).keys := by simp [addNeed, Dict.keys, Function.comp_def]
  have hga : ∀ x, (addNeed r (renameModes N (N + 2 * n) (multiply k modes))).get? x =
      ((renameModes N (N + 2 * n) (multiply k modes)).get? x).map
        (fun ms => ms.map (fun q => (q.1, { q.2 with needs := q.2.needs.set r 0 }))) :=
    fun x => get_map (renameModes N (N + 2 * n) (multiply k modes))
      (fun _ ms => List.map (fun q : Nat × Mode => (q.1, ({ duration := q.2.duration, needs := q.2.needs.set r 0 } : Mode))) ms) x
  obtain ⟨h1, h2, h3⟩ := addHelpers_spec m N (addNeed r (renameModes N (N + 2 * n) (multiply k modes))) (by rw [hka]; exact hnr)
    (2 * n)
  constructor
  · rw [List.perm_ext_iff_of_nodup h1 List.nodup_range']
    intro x
    rw [h2, hka, hkr, List.mem_range'_1]
    omega
  · intro x
    rw [h3]
    by_cases hb : N ≤ x ∧ x < N + 2 * n
    · rw [if_pos hb, if_pos hb]
    · rw [if_neg hb, if_neg hb, hga, hgr]
      have hcomp : ∀ o : Option (Dict Nat Mode), (o.map (fun ms => ms.map (fun q =>
            (q.1, ({ q.2 with duration := q.2.duration * k } : Mode))))).map
          (fun ms => ms.map (fun q => (q.1, ({ q.2 with needs := q.2.needs.set r 0 } : Mode)))) =
          o.map (changed k r) := by
        intro o
        cases o <;> simp [changed, Function.comp_def]
      by_cases hx : x = N + 2 * n
      · rw [if_pos hx, if_pos hx, hmul, hcomp]
      · rw [if_neg hx, if_neg hx, if_neg (by omega), hmul, hcomp]

/-- Fewer assisted activities than asked for. -/
theorem helpAll_error {old n new : Nat} {as : List Nat} (hl : as.length < n) (hnd : as.Nodup) (hb : ∀ a ∈ as, a < old)
    (hnew : new = old + 2 * n) : ∀ (k i : Nat) (s : Succ), i + k = n → i ≤ as.length → s.keys.Nodup →
    (∀ j a, i ≤ j → as[j]? = some a → ∃ l, s.get? a = some l) →
    helpAll old n new as k i s = .error .indexError
  | 0, i, s, hk, hi, _, _ => by omega
  | k + 1, i, s, hk, hi, hs, hg => by
    rcases Nat.lt_or_ge i as.length with hi | hi
    · have hai : as[i]? = some as[i] := List.getElem?_eq_getElem hi
      obtain ⟨l, hl1⟩ := hg i as[i] (Nat.le_refl _) hai
      have hlt : as[i] < old := hb _ (List.getElem_mem hi)
      obtain ⟨s1, e1, n1, p1, p2, p3, p4⟩ := helpOne_ok (new := new) (pre := old + i) (post := old + n + i) hs
        (by omega) (by omega) (by omega) (by omega) hl1
      simp only [helpAll, pyGet_ok_iff.2 hai, bind_ok, e1]
      apply helpAll_error hl hnd hb hnew k (i + 1) s1 (by omega) (by omega) n1
      intro j a hj ha
      have hlt' : a < old := hb _ (List.mem_of_getElem? ha)
      rw [p4 a (by omega) (by omega) ?_]
      · exact hg j a (by omega) ha
      · intro h
        obtain ⟨hj', rfl⟩ := List.getElem?_eq_some_iff.1 ha
        have := (List.Nodup.getElem_inj_iff hnd).1 h
        omega
    · have : pyGet as i = .error .indexError := by
        unfold pyGet
        rw [List.getElem?_eq_none hi]
      simp only [helpAll, this, bind_error]

/-- The old sink is the largest number. -/
theorem last_key {N : Nat} {modes : Dict Nat (Dict Nat Mode)} (k : Nat) (hN : 1 ≤ N) (hids : modes.keys.Perm (List.range' 1 N)) :
    (sortBy (fun k : Nat => (k : Int)) (multiply k modes).keys).getLast? = some N := by
  have hkm : (multiply k modes).keys = modes.keys := by
    simp [multiply, Dict.keys, Function.comp_def]
  rw [hkm]
  have hpp := (sortBy_perm (fun k : Nat => (k : Int)) modes.keys).trans hids
  have heq : sortBy (fun k : Nat => (k : Int)) modes.keys = List.range' 1 N := by
    apply List.Perm.eq_of_pairwise (le := fun a b : Nat => a ≤ b)
    · intro a b _ _ h1 h2; omega
    · exact (sortBy_sorted (fun k : Nat => (k : Int)) modes.keys).imp (fun h => by omega)
    · exact List.Pairwise.imp (fun h => Nat.le_of_lt h) List.pairwise_lt_range'
    · exact hpp
  rw [heq, List.getLast?_eq_getElem?, List.length_range', List.getElem?_range' (by omega)]
  congr 1
  omega

end Verif.Helpers
