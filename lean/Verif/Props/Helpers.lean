import Verif.Lemmas.Helpers

/-!
C176: projects with helper tasks.

`generate_rcpsp_with_helper_tasks_data` picks activities of a project and adds, for each of them, a helper task that
precedes it and one that follows it; a new resource, the assistants, is used by the helpers only.
-/
namespace Verif.Helpers
open Rcpsp

/-- `y` is listed as a successor of `x`. -/
def Prec (s : Dict Nat (List Nat)) (x y : Nat) : Prop := ∃ l, s.get? x = some l ∧ y ∈ l

/-- Projects as the readers of files make them: the activities are numbered from 1 to the number of activities, each has
a list of successors without repetition, and the last one, the sink, has none. -/
structure Fit (pb : Problem) : Prop where
  two : 2 ≤ pb.modes.length
  ids : pb.modes.keys.Perm (List.range' 1 pb.modes.length)
  keys : pb.successors.keys.Perm (List.range' 1 pb.modes.length)
  lists : ∀ x l, pb.successors.get? x = some l → l.Nodup ∧ ∀ y ∈ l, 1 ≤ y ∧ y ≤ pb.modes.length
  sink : pb.successors.get? pb.modes.length = some []

/-- The permutation is one of the activities other than the source and the sink, and there are enough of them. -/
structure Drawn (pb : Problem) (p : Params) : Prop where
  perm : p.perm.Perm (List.range' 2 (pb.modes.length - 2))
  enough : p.assisted ≤ pb.modes.length - 2

/-- The precedences asked for, where `N` is the old sink: helper `N + i` comes before and helper `N + n + i` after the
assisted activity with index `i`, and `N + 2 * n` is the new sink. -/
inductive Asked (pb : Problem) (p : Params) : Nat → Nat → Prop where
  | kept {x y} : Prec pb.successors x y → y ≠ pb.modes.length → Asked pb p x y
  | sink {x} : Prec pb.successors x pb.modes.length → x ∉ p.perm.take p.assisted →
      Asked pb p x (pb.modes.length + 2 * p.assisted)
  | before {i a} : (p.perm.take p.assisted)[i]? = some a → Asked pb p (pb.modes.length + i) a
  | after {i a} : (p.perm.take p.assisted)[i]? = some a → Asked pb p a (pb.modes.length + p.assisted + i)
  | last {i a} : (p.perm.take p.assisted)[i]? = some a → Prec pb.successors a pb.modes.length →
      Asked pb p (pb.modes.length + p.assisted + i) (pb.modes.length + 2 * p.assisted)
  | cross {i j a b} : (p.perm.take p.assisted)[i]? = some a → (p.perm.take p.assisted)[j]? = some b → a < b →
      p.cross a b = true → Asked pb p (pb.modes.length + p.assisted + i) (pb.modes.length + j)

theorem prec_iff {s : Succ} {x y : Nat} : Prec s x y ↔ y ∈ suc s x := by
  unfold Prec suc
  cases s.get? x <;> simp

/-- The whole run. -/
theorem run {c : Class} {pb : Problem} {p : Params} (hc : c ≠ .plain) (hf : Fit pb) (hd : Drawn pb p) :
    ∃ s', generate c pb p = .ok
        { problem :=
            { pb with
              resources := pb.resources.set (newResource pb) (.const p.assistants)
              modes := addHelpers (helperMode p.helperDuration (newResource pb)
                (pb.resources.set (newResource pb) (.const p.assistants))) pb.modes.length (2 * p.assisted)
                (addNeed (newResource pb) (renameModes pb.modes.length (pb.modes.length + 2 * p.assisted)
                  (multiply p.multiplier pb.modes)))
              successors := s' }
          pre := helperMap pb.modes.length (p.perm.take p.assisted)
          post := helperMap (pb.modes.length + p.assisted) (p.perm.take p.assisted)
          given := pb.resources.set (newResource pb) (.const p.assistants) } ∧
      s'.keys.Perm (List.range' 1 (pb.modes.length + 2 * p.assisted)) ∧
      ∀ x y, Prec s' x y ↔ Asked pb p x y ∨ (y = pb.modes.length + 2 * p.assisted ∧ 1 ≤ x ∧
        x < pb.modes.length + 2 * p.assisted ∧
        ¬ Relation.TransGen (Asked pb p) x (pb.modes.length + 2 * p.assisted)) := by
  obtain ⟨htwo, hids, hkeys, hlists, hsink⟩ := hf
  obtain ⟨hperm, henough⟩ := hd
  generalize hN : pb.modes.length = N at *
  generalize hn : p.assisted = n at *
  generalize has : p.perm.take n = as at *
  have hlen : as.length = n := by
    rw [← has, List.length_take, hperm.length_eq, List.length_range']; omega
  have hnd : as.Nodup := by
    rw [← has]
    exact (hperm.nodup_iff.2 List.nodup_range').sublist (List.take_sublist _ _)
  have hrange : ∀ a ∈ as, 2 ≤ a ∧ a < N := by
    intro a ha
    rw [← has] at ha
    have := hperm.mem_iff.1 (List.mem_of_mem_take ha)
    rw [List.mem_range'_1] at this; omega
  have hlt : ∀ a ∈ as, a < N := fun a ha => (hrange a ha).2
  have hskn : pb.successors.keys.Nodup := hkeys.nodup_iff.2 List.nodup_range'
  have hsk : ∀ x, x ∈ pb.successors.keys ↔ 1 ≤ x ∧ x ≤ N := by
    intro x; rw [hkeys.mem_iff, List.mem_range'_1]; omega
  have hidx : ∀ {j a : Nat}, as[j]? = some a → j < n ∧ 2 ≤ a ∧ a < N := by
    intro j a ha
    have := (List.getElem?_eq_some_iff.1 ha).1
    have := hrange a (List.mem_of_getElem? ha)
    omega
  have hinj : ∀ {i j a : Nat}, as[i]? = some a → as[j]? = some a → i = j := by
    intro i j a hi hj
    obtain ⟨h1, h2⟩ := List.getElem?_eq_some_iff.1 hi
    obtain ⟨h3, h4⟩ := List.getElem?_eq_some_iff.1 hj
    exact (List.Nodup.getElem_inj_iff hnd).1 (h2.trans h4.symm)
  have hlast := last_key p.multiplier (by omega) hids
  -- renaming
  obtain ⟨s1, e1, n1, r1, r2, r3⟩ := renameSucc_ok (new := N + 2 * n) hskn ((hsk N).2 (by omega))
  have hs1 : ∀ x, x ≠ N → x ≠ N + 2 * n → ∀ y, y ∈ suc s1 x ↔ (y ∈ suc pb.successors x ∧ y ≠ N) ∨
      (y = N + 2 * n ∧ N ∈ suc pb.successors x) := by
    intro x h1 h2 y
    unfold suc
    rw [r3 x h1 h2]
    cases hx : pb.successors.get? x with
    | none => simp
    | some l => exact mem_replaceIn (hlists x l hx).1
  have hnewnot : ∀ x, n ≠ 0 → N + 2 * n ∉ suc pb.successors x := by
    intro x h0 hx
    unfold suc at hx
    cases hg : pb.successors.get? x with
    | none => rw [hg] at hx; cases hx
    | some l =>
      rw [hg] at hx
      have := (hlists x l hg).2 _ hx
      omega
  have hget1 : ∀ a ∈ as, ∃ l, s1.get? a = some l ∧ l.count (N + 2 * n) ≤ 1 ∧ l = suc s1 a := by
    intro a ha
    have hb := hrange a ha
    obtain ⟨l, hl⟩ := mem_keys.1 ((hsk a).2 (by omega))
    have h0 : n ≠ 0 := by
      intro h0; rw [h0] at hlen; rw [List.length_eq_zero_iff.1 hlen] at ha; cases ha
    have hx := r3 a (by omega) (by omega)
    rw [hl] at hx
    refine ⟨_, hx, count_replaceIn ?_, (suc_of hx).symm⟩
    have := hnewnot a h0
    rw [suc_of hl] at this
    exact this
  -- helpers
  obtain ⟨s2, e2, n2, q1, q2⟩ := helpAll_ok (new := N + 2 * n) hlen hnd hlt rfl n 0 s1 (by omega) n1
    (fun j a _ ha => (hget1 a (List.mem_of_getElem? ha)).imp fun _ h => h.1)
  have hk2 : ∀ x, x ∈ s2.keys ↔ 1 ≤ x ∧ x ≤ N + 2 * n := by
    intro x
    have hgetas : ∀ j, j < n → ∃ a, as[j]? = some a := fun j hj => ⟨as[j], List.getElem?_eq_getElem (by omega)⟩
    by_cases hh : N ≤ x ∧ x < N + 2 * n
    · have : x ∈ s2.keys := by
        rw [mem_keys]
        by_cases hb : x < N + n
        · obtain ⟨a, ha⟩ := hgetas (x - N) (by omega)
          have := (q1 _ _ (Nat.zero_le _) ha).1
          rw [show N + (x - N) = x by omega] at this
          exact ⟨_, this⟩
        · obtain ⟨a, ha⟩ := hgetas (x - N - n) (by omega)
          have := (q1 _ _ (Nat.zero_le _) ha).2.1
          rw [show N + n + (x - N - n) = x by omega] at this
          exact ⟨_, this⟩
      simp only [this, true_iff]; omega
    · by_cases hx : x ∈ as
      · obtain ⟨j, hj⟩ := List.mem_iff_getElem?.1 hx
        have h1 := (q1 _ _ (Nat.zero_le _) hj).2.2
        have : x ∈ s2.keys := mem_keys.2 ⟨_, h1⟩
        have := hrange x hx
        simp only [*, true_iff]; omega
      · have hsame : s2.get? x = s1.get? x := q2 x (by
          intro j a _ ha
          have := hidx ha
          exact ⟨by omega, by omega, fun h => hx (h ▸ List.mem_of_getElem? ha)⟩)
        rw [mem_keys, hsame]
        by_cases hxn : x = N + 2 * n
        · rw [hxn, r1]
          simp only [Option.some.injEq, exists_eq', true_iff]; omega
        · rw [r3 x (by omega) hxn]
          have := hsk x
          rw [mem_keys] at this
          cases hg : pb.successors.get? x with
          | none =>
            rw [hg] at this
            simp only [reduceCtorEq, exists_false, false_iff, Option.map_none] at this ⊢
            omega
          | some l =>
            rw [hg] at this
            simp only [Option.some.injEq, exists_eq', true_iff, Option.map_some] at this ⊢
            omega
  -- precedences between helpers
  have hsortp := sortBy_perm (fun k : Nat => (k : Int)) as
  have hsorted : (sortBy (fun k : Nat => (k : Int)) as).Pairwise (· < ·) := by
    have h1 := sortBy_sorted (fun k : Nat => (k : Int)) as
    have h2 : (sortBy (fun k : Nat => (k : Int)) as).Pairwise (· ≠ ·) := hsortp.nodup_iff.2 hnd
    exact (h1.and h2).imp (fun h => by omega)
  obtain ⟨s3, e3, n3, k3, c3⟩ := crossAll_ok p.cross (helperMap N as) (helperMap (N + n) as)
    (sortBy (fun k : Nat => (k : Int)) as) s2 hsorted n2 (by
      intro a ha
      obtain ⟨j, hj⟩ := List.mem_iff_getElem?.1 (hsortp.mem_iff.1 ha)
      refine ⟨_, helperMap_get hnd hj, ?_⟩
      have := hidx hj
      rw [hk2]; omega) (by
      intro a ha
      obtain ⟨j, hj⟩ := List.mem_iff_getElem?.1 (hsortp.mem_iff.1 ha)
      exact ⟨_, helperMap_get hnd hj⟩)
  -- what the precedences are so far
  have hasked : ∀ x y, y ∈ suc s3 x ↔ Asked pb p x y := by
    intro x y
    rw [c3]
    constructor
    · rintro (h | ⟨a, ha, b, hb, hab, hcr, hpost, hpre⟩)
      · by_cases hh : N ≤ x ∧ x < N + 2 * n
        · by_cases hb : x < N + n
          · have ha : as[x - N]? = some as[x - N] := List.getElem?_eq_getElem (by omega)
            have h1 := (q1 _ _ (Nat.zero_le _) ha).1
            rw [show N + (x - N) = x by omega] at h1
            rw [suc_of h1, List.mem_singleton] at h
            have := Asked.before (pb := pb) (p := p) (i := x - N) (a := y) (by rw [hn, has, h]; exact ha)
            rwa [hN, show N + (x - N) = x by omega] at this
          · have ha : as[x - N - n]? = some as[x - N - n] := List.getElem?_eq_getElem (by omega)
            have h1 := (q1 _ _ (Nat.zero_le _) ha).2.1
            rw [show N + n + (x - N - n) = x by omega] at h1
            rw [suc_of h1] at h
            split at h
            · rename_i hnew
              rw [List.mem_singleton] at h
              have hr := hrange _ (List.mem_of_getElem? ha)
              have hold : N ∈ suc pb.successors as[x - N - n] := by
                rcases (hs1 _ (by omega) (by omega) _).1 hnew with ⟨h2, _⟩ | ⟨_, h2⟩
                · exact absurd h2 (hnewnot _ (by omega))
                · exact h2
              have := Asked.last (pb := pb) (p := p) (i := x - N - n) (by rw [hn, has]; exact ha)
                (prec_iff.2 (by rw [hN]; exact hold))
              rwa [hN, hn, show N + n + (x - N - n) = x by omega, ← h] at this
            · cases h
        · by_cases hx : x ∈ as
          · obtain ⟨j, hj⟩ := List.mem_iff_getElem?.1 hx
            have hi := hidx hj
            obtain ⟨l, hl1, hl2, hl3⟩ := hget1 x hx
            have hz : List.count (N + 2 * n) [N + n + j] = 0 := List.count_eq_zero.2 (by
              simp only [List.mem_singleton]; omega)
            rw [suc_of (q1 _ _ (Nat.zero_le _) hj).2.2, ← hl3, mem_erase_once (by
              rw [List.count_append, hz]
              exact hl2)] at h
            obtain ⟨h1, h2⟩ := h
            rcases List.mem_append.1 h1 with h1 | h1
            · rw [hl3] at h1
              rcases (hs1 _ (by omega) (by omega) _).1 h1 with ⟨h3, h4⟩ | ⟨h3, _⟩
              · exact .kept (prec_iff.2 h3) (by rw [hN]; exact h4)
              · exact absurd h3 h2
            · rw [List.mem_singleton] at h1
              have := Asked.after (pb := pb) (p := p) (i := j) (a := x) (by rw [hn, has]; exact hj)
              rwa [hN, hn, ← h1] at this
          · have hsame : s2.get? x = s1.get? x := q2 x (by
              intro j a _ ha
              have := hidx ha
              exact ⟨by omega, by omega, fun h => hx (h ▸ List.mem_of_getElem? ha)⟩)
            rw [suc_congr hsame] at h
            by_cases hxn : x = N + 2 * n
            · rw [hxn, suc_of r1] at h; cases h
            · rcases (hs1 _ (by omega) hxn _).1 h with ⟨h3, h4⟩ | ⟨h3, h4⟩
              · exact .kept (prec_iff.2 h3) (by rw [hN]; exact h4)
              · have := Asked.sink (pb := pb) (p := p) (x := x) (prec_iff.2 (by rw [hN]; exact h4))
                  (by rw [hn, has]; exact hx)
                rwa [hN, hn, ← h3] at this
      · obtain ⟨i, hi⟩ := List.mem_iff_getElem?.1 (hsortp.mem_iff.1 ha)
        obtain ⟨j, hj⟩ := List.mem_iff_getElem?.1 (hsortp.mem_iff.1 hb)
        rw [helperMap_get hnd hi] at hpost
        rw [helperMap_get hnd hj] at hpre
        have := Asked.cross (pb := pb) (p := p) (by rw [hn, has]; exact hi) (by rw [hn, has]; exact hj) hab hcr
        rwa [hN, hn, Option.some.inj hpost, Option.some.inj hpre] at this
    · intro h
      cases h with
      | kept h hy =>
        left
        rw [prec_iff] at h
        rw [hN] at hy
        have hxk : x ≠ N := by
          rintro rfl
          rw [suc_of hsink] at h; cases h
        have hx1 : 1 ≤ x ∧ x ≤ N := (hsk x).1 (by
          rw [mem_keys]
          unfold suc at h
          cases hg : pb.successors.get? x with
          | none => rw [hg] at h; cases h
          | some l => exact ⟨l, rfl⟩)
        have h1 : y ∈ suc s1 x := (hs1 _ hxk (by omega) _).2 (.inl ⟨h, hy⟩)
        by_cases hx : x ∈ as
        · obtain ⟨j, hj⟩ := List.mem_iff_getElem?.1 hx
          have hi := hidx hj
          rw [suc_of (q1 _ _ (Nat.zero_le _) hj).2.2]
          rw [List.mem_erase_of_ne]
          · exact List.mem_append_left _ h1
          · rintro rfl
            exact hnewnot x (by omega) h
        · rw [suc_congr (q2 x (by
            intro j a _ ha
            have := hidx ha
            exact ⟨by omega, by omega, fun h => hx (h ▸ List.mem_of_getElem? ha)⟩))]
          exact h1
      | sink h hx =>
        left
        rw [hn, has] at hx
        rw [prec_iff, hN] at h
        have hxk : x ≠ N := by
          rintro rfl
          rw [suc_of hsink] at h; cases h
        have hx1 : 1 ≤ x ∧ x ≤ N := (hsk x).1 (by
          rw [mem_keys]
          unfold suc at h
          cases hg : pb.successors.get? x with
          | none => rw [hg] at h; cases h
          | some l => exact ⟨l, rfl⟩)
        rw [hN, hn, suc_congr (q2 x (by
            intro j a _ ha
            have := hidx ha
            exact ⟨by omega, by omega, fun h => hx (h ▸ List.mem_of_getElem? ha)⟩))]
        exact (hs1 _ hxk (by omega) _).2 (.inr ⟨rfl, h⟩)
      | @before i a ha =>
        left
        rw [hn, has] at ha
        rw [hN, suc_of (q1 _ _ (Nat.zero_le _) ha).1]
        exact List.mem_singleton_self _
      | @after i a ha =>
        left
        rw [hn, has] at ha
        have hi := hidx ha
        rw [hN, hn, suc_of (q1 _ _ (Nat.zero_le _) ha).2.2, List.mem_erase_of_ne (by omega)]
        exact List.mem_append_right _ (List.mem_singleton_self _)
      | @last i a ha hp =>
        left
        rw [hn, has] at ha
        rw [prec_iff, hN] at hp
        have hi := hidx ha
        rw [hN, hn, suc_of (q1 _ _ (Nat.zero_le _) ha).2.1, if_pos]
        · exact List.mem_singleton_self _
        · exact (hs1 _ (by omega) (by omega) _).2 (.inr ⟨rfl, hp⟩)
      | @cross i j a b ha hb hab hcr =>
        right
        rw [hn, has] at ha hb
        rw [hN, hn]
        exact ⟨a, hsortp.mem_iff.2 (List.mem_of_getElem? ha), b, hsortp.mem_iff.2 (List.mem_of_getElem? hb), hab, hcr,
          helperMap_get hnd ha, helperMap_get hnd hb⟩
  have hrel : (fun a b => b ∈ suc s3 a) = Asked pb p := by
    funext a b; exact propext (hasked a b)
  -- the sink
  have hmodes := modes_spec (helperMode p.helperDuration (newResource pb)
    (pb.resources.set (newResource pb) (.const p.assistants))) (newResource pb) p.multiplier n N pb.modes (by omega) hids
  obtain ⟨s4, e4, n4, k4, c4⟩ := fixSink_ok
    { pb with
      resources := pb.resources.set (newResource pb) (.const p.assistants)
      modes := addHelpers (helperMode p.helperDuration (newResource pb)
        (pb.resources.set (newResource pb) (.const p.assistants))) N (2 * n)
        (addNeed (newResource pb) (renameModes N (N + 2 * n) (multiply p.multiplier pb.modes)))
      successors := s3 } (N + 2 * n) (by omega) hmodes.1 n3 (fun x => (k3 x).trans (hk2 x))
  refine ⟨s4, ?_, ?_, ?_⟩
  · unfold generate
    simp only [hlast, hn, has, e1, e2, e3, bind_ok, hc, if_false, e4]
  · rw [List.perm_ext_iff_of_nodup n4 List.nodup_range']
    intro x
    rw [k4, List.mem_range'_1]; omega
  · intro x y
    rw [prec_iff, c4]
    show y ∈ suc s3 x ∨ (_ ∧ _ ∧ _ ∧ ¬ Relation.TransGen (fun a b => b ∈ suc s3 a) x _) ↔ _
    rw [hrel, hasked]

/-- A project with three activities between source and sink. -/
def demo : Problem where
  resources := [("R1", .const 2)]
  nonRenewable := []
  modes := [(1, [(1, ⟨0, [("R1", 0)]⟩)]), (2, [(1, ⟨3, [("R1", 1)]⟩)]), (3, [(1, ⟨2, [("R1", 2)]⟩), (2, ⟨4, [("R1", 1)]⟩)]),
    (4, [(1, ⟨1, [("R1", 1)]⟩)]), (5, [(1, ⟨0, [("R1", 0)]⟩)])]
  successors := [(1, [2, 3]), (2, [4]), (3, [5]), (4, [5]), (5, [])]
  horizon := 20
  multiplier := 1

/-- Two assisted activities, 3 and 2, and all precedences between helpers. -/
def twice : Params where
  multiplier := 10
  assisted := 2
  assistants := 1
  helperDuration := 2
  perm := [3, 2, 4]
  cross := fun _ _ => true

theorem demo_fit : Fit demo where
  two := by decide
  ids := by decide
  keys := by decide
  lists := by
    intro x l h
    have h := Dict.mem_of_get? h
    revert h
    simp only [demo, List.mem_cons, Prod.mk.injEq, List.not_mem_nil, or_false]
    rintro (⟨rfl, rfl⟩ | ⟨rfl, rfl⟩ | ⟨rfl, rfl⟩ | ⟨rfl, rfl⟩ | ⟨rfl, rfl⟩) <;> decide
  sink := by decide

theorem twice_drawn : Drawn demo twice where
  perm := by decide
  enough := by decide

/-- C176: for a project numbered from source to sink and a permutation of the other activities the generator succeeds
unless the project is a plain one; the activities are numbered from 1 to the new sink, and the precedences are exactly
those asked for and one from each activity that would not precede the sink otherwise; the maps tell the helpers. -/
theorem C176_precedences {c : Class} {pb : Problem} {p : Params} (hc : c ≠ .plain) (hf : Fit pb) (hd : Drawn pb p) :
    ∃ out, generate c pb p = .ok out ∧
      out.problem.successors.keys.Perm (List.range' 1 (pb.modes.length + 2 * p.assisted)) ∧
      out.problem.modes.keys.Perm (List.range' 1 (pb.modes.length + 2 * p.assisted)) ∧
      (∀ x y, Prec out.problem.successors x y ↔ Asked pb p x y ∨ (y = pb.modes.length + 2 * p.assisted ∧ 1 ≤ x ∧
        x < pb.modes.length + 2 * p.assisted ∧
        ¬ Relation.TransGen (Asked pb p) x (pb.modes.length + 2 * p.assisted))) ∧
      ∀ i a, (p.perm.take p.assisted)[i]? = some a → out.pre.get? a = some (pb.modes.length + i) ∧
        out.post.get? a = some (pb.modes.length + p.assisted + i) := by
  obtain ⟨s', e, k, r⟩ := run hc hf hd
  refine ⟨_, e, k, ?_, r, ?_⟩
  · exact (modes_spec _ _ _ _ _ _ (by have := hf.two; omega) hf.ids).1
  · intro i a h
    have hnd : (p.perm.take p.assisted).Nodup :=
      (hd.perm.nodup_iff.2 List.nodup_range').sublist (List.take_sublist _ _)
    exact ⟨helperMap_get hnd h, helperMap_get hnd h⟩

example : (generate .multi demo twice).toOption.map (fun out => out.problem.successors) =
    some [(1, [2, 3]), (2, [4, 8]), (3, [7]), (4, [9]), (9, []), (5, [3]), (7, [9]), (6, [2]), (8, [5])] := by
  decide +kernel

/-- C176: in the project made every activity other than the sink precedes the sink. -/
theorem C176_sink_last {c : Class} {pb : Problem} {p : Params} {out : Out} (hc : c ≠ .plain) (hf : Fit pb) (hd : Drawn pb p)
    (h : generate c pb p = .ok out) {x : Nat} (h1 : 1 ≤ x) (h2 : x < pb.modes.length + 2 * p.assisted) :
    Relation.TransGen (Prec out.problem.successors) x (pb.modes.length + 2 * p.assisted) := by
  obtain ⟨s', e, k, r⟩ := run hc hf hd
  rw [e] at h
  have h := (Except.ok.inj h).symm; subst h
  by_cases hp : Relation.TransGen (Asked pb p) x (pb.modes.length + 2 * p.assisted)
  · exact Relation.TransGen.mono (fun a b hab => (r a b).2 (.inl hab)) _ _ hp
  · exact .single ((r _ _).2 (.inr ⟨rfl, h1, h2, hp⟩))

/-- Helper 8, which nothing follows, precedes the sink because of the last step. -/
example : (generate .single demo { twice with cross := fun _ _ => false }).toOption.map (fun out => out.problem.successors) =
    some [(1, [2, 3]), (2, [4, 8]), (3, [7]), (4, [9]), (9, []), (5, [3]), (7, [9]), (6, [2]), (8, [9])] := by
  decide +kernel

/-- C176: no precedence of the project is lost, and an activity that had to be finished before the sink or that was
assisted still is. -/
theorem C176_kept {c : Class} {pb : Problem} {p : Params} {out : Out} (hc : c ≠ .plain) (hf : Fit pb) (hd : Drawn pb p)
    (h : generate c pb p = .ok out) {x y : Nat} (hxy : Relation.TransGen (Prec pb.successors) x y) :
    Relation.TransGen (Prec out.problem.successors) x
      (if y = pb.modes.length then pb.modes.length + 2 * p.assisted else y) := by
  have hfrom : ∀ {a b}, Prec pb.successors a b → 1 ≤ a ∧ a < pb.modes.length := by
    intro a b hab
    obtain ⟨l, hl, hb⟩ := hab
    have hk : a ∈ pb.successors.keys := mem_keys.2 ⟨l, hl⟩
    rw [hf.keys.mem_iff, List.mem_range'_1] at hk
    have : a ≠ pb.modes.length := by
      intro ha
      rw [ha, hf.sink] at hl
      have := (Option.some.inj hl).symm; subst this; cases hb
    omega
  by_cases hy : y = pb.modes.length
  · rw [if_pos hy]
    have hx : 1 ≤ x ∧ x < pb.modes.length := by
      clear hy
      induction hxy with
      | single h => exact hfrom h
      | tail _ _ ih => exact ih
    exact C176_sink_last hc hf hd h hx.1 (by omega)
  · rw [if_neg hy]
    obtain ⟨s', e, k, r⟩ := run hc hf hd
    rw [e] at h
    have h := (Except.ok.inj h).symm; subst h
    induction hxy with
    | single h => exact .single ((r _ _).2 (.inl (.kept h hy)))
    | tail h1 h2 ih =>
      have := hfrom h2
      exact .tail (ih (by omega)) ((r _ _).2 (.inl (.kept h2 hy)))

example : Relation.TransGen (Prec demo.successors) 1 4 :=
  .tail (b := 2) (.single ⟨[2, 3], by decide, by decide⟩) ⟨[4], by decide, by decide⟩

/-- The order in which the activities of a project numbered along its precedences, and the helpers, may be done. -/
def rank (pb : Problem) (p : Params) (x : Nat) : Nat :=
  if x < pb.modes.length then 3 * x + 1
  else if x < pb.modes.length + p.assisted then 3 * (p.perm.take p.assisted).getD (x - pb.modes.length) 0
  else if x < pb.modes.length + 2 * p.assisted then 3 * (p.perm.take p.assisted).getD (x - pb.modes.length - p.assisted) 0 + 2
  else 3 * pb.modes.length + 3

/-- C176: when the numbers of the project follow its precedences, the project made has no cycle. -/
theorem C176_acyclic {c : Class} {pb : Problem} {p : Params} {out : Out} (hc : c ≠ .plain) (hf : Fit pb) (hd : Drawn pb p)
    (h : generate c pb p = .ok out) (htop : ∀ x y, Prec pb.successors x y → x < y) (x : Nat) :
    ¬ Relation.TransGen (Prec out.problem.successors) x x := by
  obtain ⟨s', e, k, r⟩ := run hc hf hd
  rw [e] at h
  have h := (Except.ok.inj h).symm; subst h
  have hlen : (p.perm.take p.assisted).length = p.assisted := by
    rw [List.length_take, hd.perm.length_eq, List.length_range']; have := hd.enough; omega
  have hidx : ∀ {j a : Nat}, (p.perm.take p.assisted)[j]? = some a → j < p.assisted ∧ 2 ≤ a ∧ a < pb.modes.length ∧
      (p.perm.take p.assisted).getD j 0 = a := by
    intro j a ha
    have h1 := (List.getElem?_eq_some_iff.1 ha).1
    have h2 := hd.perm.mem_iff.1 (List.mem_of_mem_take (List.mem_of_getElem? ha))
    rw [List.mem_range'_1] at h2
    refine ⟨by omega, by omega, by omega, ?_⟩
    rw [List.getD_eq_getElem?_getD, ha]; rfl
  have htwo := hf.two
  have hany : ∀ a, a < pb.modes.length + 2 * p.assisted → rank pb p a < 3 * pb.modes.length + 3 := by
    intro a ha
    have hlt : ∀ j, (p.perm.take p.assisted).getD j 0 < pb.modes.length := by
      intro j
      rw [List.getD_eq_getElem?_getD]
      cases hj : (p.perm.take p.assisted)[j]? with
      | none => show 0 < _; omega
      | some b => exact (hidx hj).2.2.1
    unfold rank
    have h1 := hlt (a - pb.modes.length)
    have h2 := hlt (a - pb.modes.length - p.assisted)
    generalize (p.perm.take p.assisted).getD (a - pb.modes.length) 0 = u at *
    generalize (p.perm.take p.assisted).getD (a - pb.modes.length - p.assisted) 0 = v at *
    split
    · omega
    · split
      · omega
      · omega
  have hsinkrank : rank pb p (pb.modes.length + 2 * p.assisted) = 3 * pb.modes.length + 3 := by
    unfold rank
    rw [if_neg (by omega), if_neg (by omega), if_neg (by omega)]
  have hsmall : ∀ a, a < pb.modes.length → rank pb p a = 3 * a + 1 := fun a ha => if_pos ha
  have hpre : ∀ {j a : Nat}, (p.perm.take p.assisted)[j]? = some a → rank pb p (pb.modes.length + j) = 3 * a := by
    intro j a ha
    have := hidx ha
    unfold rank
    rw [if_neg (by omega), if_pos (by omega), show pb.modes.length + j - pb.modes.length = j by omega, this.2.2.2]
  have hpost : ∀ {j a : Nat}, (p.perm.take p.assisted)[j]? = some a →
      rank pb p (pb.modes.length + p.assisted + j) = 3 * a + 2 := by
    intro j a ha
    have := hidx ha
    unfold rank
    rw [if_neg (by omega), if_neg (by omega), if_pos (by omega),
      show pb.modes.length + p.assisted + j - pb.modes.length - p.assisted = j by omega, this.2.2.2]
  have hfrom : ∀ {a b}, Prec pb.successors a b → a < pb.modes.length ∧ b ≤ pb.modes.length := by
    intro a b hab
    have hlt := htop a b hab
    obtain ⟨l, hl, hb⟩ := hab
    have := (hf.lists a l hl).2 b hb
    omega
  have hstep : ∀ {a b}, Prec s' a b → rank pb p a < rank pb p b := by
    intro a b hab
    rcases (r a b).1 hab with hq | ⟨rfl, _, h2, _⟩
    · cases hq with
      | kept h hy =>
        have h1 := hfrom h
        have h2 := htop _ _ h
        rw [hsmall a h1.1, hsmall b (by omega)]; omega
      | sink h _ =>
        have h1 := hfrom h
        rw [hsinkrank]; exact hany a (by omega)
      | @before i b hb =>
        rw [hpre hb, hsmall b (hidx hb).2.2.1]; omega
      | @after i a ha =>
        rw [hpost ha, hsmall a (hidx ha).2.2.1]; omega
      | @last i a ha _ =>
        rw [hsinkrank]; have := hidx ha; exact hany _ (by omega)
      | @cross i j a b ha hb hlt _ =>
        rw [hpost ha, hpre hb]; omega
    · rw [hsinkrank]; exact hany a h2
  intro hcyc
  have hmono : ∀ {a b}, Relation.TransGen (Prec s') a b → rank pb p a < rank pb p b := by
    intro a b hab
    induction hab with
    | single h => exact hstep h
    | tail _ h ih => exact Nat.lt_trans ih (hstep h)
  exact Nat.lt_irrefl _ (hmono hcyc)

example : ∀ x y, Prec demo.successors x y → x < y := by
  rintro x y ⟨l, hl, hy⟩
  have h := Dict.mem_of_get? hl
  revert h hy
  simp only [demo, List.mem_cons, Prod.mk.injEq, List.not_mem_nil, or_false]
  rintro hy (⟨rfl, rfl⟩ | ⟨rfl, rfl⟩ | ⟨rfl, rfl⟩ | ⟨rfl, rfl⟩ | ⟨rfl, rfl⟩) <;> revert hy <;> simp <;> omega

theorem get_changed {k : Nat} {r : String} {ms : Dict Nat Mode} {m : Nat} {md : Mode} (h : ms.get? m = some md) :
    (changed k r ms).get? m = some { duration := md.duration * k, needs := md.needs.set r 0 } := by
  have := Views.get_map ms (β := Mode) (fun _ q => { duration := q.duration * k, needs := q.needs.set r 0 }) m
  unfold changed
  rw [this, h]; rfl

/-- C176: the modes of the activities last `multiplier` times as long, need what they needed of every other resource and
no assistant; those of the sink are found under its new number; helpers have one mode with the duration asked for, which
needs one assistant and nothing else. -/
theorem C176_modes {c : Class} {pb : Problem} {p : Params} {out : Out} (hc : c ≠ .plain) (hf : Fit pb) (hd : Drawn pb p)
    (h : generate c pb p = .ok out) :
    out.problem.resources.get? (newResource pb) = some (.const p.assistants) ∧
    (∀ r, r ≠ newResource pb → out.problem.resources.get? r = pb.resources.get? r) ∧
    (∀ x ms m md, pb.modes.get? x = some ms → ms.get? m = some md → ∃ ms' md',
      out.problem.modes.get? (if x = pb.modes.length then pb.modes.length + 2 * p.assisted else x) = some ms' ∧
      ms'.get? m = some md' ∧ md'.duration = md.duration * p.multiplier ∧ md'.needs.get? (newResource pb) = some 0 ∧
      ∀ r, r ≠ newResource pb → md'.needs.get? r = md.needs.get? r) ∧
    ∀ x, pb.modes.length ≤ x → x < pb.modes.length + 2 * p.assisted → ∃ md, out.problem.modes.get? x = some [(1, md)] ∧
      md.duration = p.helperDuration ∧ md.needs.get? (newResource pb) = some 1 ∧
      ∀ r, r ≠ newResource pb → md.needs.get? r = (pb.resources.get? r).map (fun _ => 0) := by
  obtain ⟨s', e, k, r⟩ := run hc hf hd
  rw [e] at h
  have h := (Except.ok.inj h).symm; subst h
  have hm := (modes_spec (helperMode p.helperDuration (newResource pb)
    (pb.resources.set (newResource pb) (.const p.assistants))) (newResource pb) p.multiplier p.assisted pb.modes.length pb.modes
    (by have := hf.two; omega) hf.ids).2
  refine ⟨Dict.get?_set_self _ _ _, fun r hr => Dict.get?_set_ne _ _ hr, ?_, ?_⟩
  · intro x ms m md hx hmd
    have hxk := (Dict.get?_isSome_iff_mem_keys pb.modes x).1 (by rw [hx]; rfl)
    rw [hf.ids.mem_iff, List.mem_range'_1] at hxk
    refine ⟨changed p.multiplier (newResource pb) ms, _, ?_, get_changed hmd, rfl, Dict.get?_set_self _ _ _,
      fun r hr => Dict.get?_set_ne _ _ hr⟩
    dsimp only
    rw [hm]
    by_cases hxN : x = pb.modes.length
    · rw [if_pos hxN, if_neg (by omega), if_pos rfl, ← hxN, hx]; rfl
    · rw [if_neg hxN, if_neg (by omega), if_neg (by omega), hx]; rfl
  · intro x h1 h2
    refine ⟨helperMode p.helperDuration (newResource pb) (pb.resources.set (newResource pb) (.const p.assistants)), ?_, rfl, ?_, ?_⟩
    · exact (hm x).trans (if_pos ⟨h1, h2⟩)
    · have := Views.get_map (pb.resources.set (newResource pb) (.const p.assistants))
        (fun r _ => if r = newResource pb then (1 : Int) else 0) (newResource pb)
      unfold helperMode
      dsimp only
      rw [this, Dict.get?_set_self, Option.map_some, if_pos rfl]
    · intro r hr
      have := Views.get_map (pb.resources.set (newResource pb) (.const p.assistants))
        (fun r _ => if r = newResource pb then (1 : Int) else 0) r
      unfold helperMode
      dsimp only
      rw [this, Dict.get?_set_ne _ _ hr]
      cases pb.resources.get? r with
      | none => rfl
      | some c => simp [hr]

example : (generate .single demo twice).toOption.map (fun out => (out.problem.modes.get? 3, out.problem.modes.get? 5)) =
    some (some [(1, ⟨20, [("R1", 2), ("R2", 0)]⟩), (2, ⟨40, [("R1", 1), ("R2", 0)]⟩)], some [(1, ⟨2, [("R1", 0), ("R2", 1)]⟩)]) := by
  decide +kernel

/-- C176: too many assisted activities raise `IndexError`. -/
theorem C176_too_many {c : Class} {pb : Problem} {p : Params} (hf : Fit pb)
    (hp : p.perm.Perm (List.range' 2 (pb.modes.length - 2))) (hmany : pb.modes.length - 2 < p.assisted) :
    generate c pb p = .error .indexError := by
  obtain ⟨htwo, hids, hkeys, hlists, hsink⟩ := hf
  have hskn : pb.successors.keys.Nodup := hkeys.nodup_iff.2 List.nodup_range'
  have hsk : ∀ x, x ∈ pb.successors.keys ↔ 1 ≤ x ∧ x ≤ pb.modes.length := by
    intro x; rw [hkeys.mem_iff, List.mem_range'_1]; omega
  have hlen : (p.perm.take p.assisted).length = pb.modes.length - 2 := by
    rw [List.length_take, hp.length_eq, List.length_range']; omega
  have hnd : (p.perm.take p.assisted).Nodup := (hp.nodup_iff.2 List.nodup_range').sublist (List.take_sublist _ _)
  have hrange : ∀ a ∈ p.perm.take p.assisted, 2 ≤ a ∧ a < pb.modes.length := by
    intro a ha
    have := hp.mem_iff.1 (List.mem_of_mem_take ha)
    rw [List.mem_range'_1] at this; omega
  obtain ⟨s1, e1, n1, r1, r2, r3⟩ := renameSucc_ok (new := pb.modes.length + 2 * p.assisted) hskn
    ((hsk pb.modes.length).2 (by omega))
  have hall := helpAll_error (old := pb.modes.length) (new := pb.modes.length + 2 * p.assisted) (n := p.assisted) (by omega) hnd
    (fun a ha => (hrange a ha).2) rfl p.assisted 0 s1 (by omega) (by omega) n1 (by
      intro j a _ ha
      have ha := hrange a (List.mem_of_getElem? ha)
      obtain ⟨l, hl⟩ := mem_keys.1 ((hsk a).2 (by omega))
      rw [r3 a (by omega) (by omega), hl]
      exact ⟨_, rfl⟩)
  unfold generate
  simp only [last_key p.multiplier (by omega) hids, e1, bind_ok, hall, bind_error]

example : (generate .single demo { twice with assisted := 4 }).map (fun out => out.pre) = .error .indexError := by
  decide +kernel

/-- C176: a plain project raises `UnboundLocalError`. -/
theorem C176_plain {pb : Problem} {p : Params} (hf : Fit pb) (hd : Drawn pb p) :
    generate .plain pb p = .error .nameError := by
  obtain ⟨s', e, _⟩ := run (c := .single) (by decide) hf hd
  have htwo := hf.two
  unfold generate at e ⊢
  simp only [last_key p.multiplier (by omega) hf.ids] at e ⊢
  obtain ⟨s1, e1, e⟩ := bind_eq_ok.1 e
  obtain ⟨s2, e2, e⟩ := bind_eq_ok.1 e
  obtain ⟨s3, e3, e⟩ := bind_eq_ok.1 e
  simp only [e1, e2, e3, bind_ok, if_true]

example : (generate .plain demo twice).map (fun out => out.pre) = .error .nameError := by decide +kernel

/-- C176 refuted: the resources of the project given are changed, too: its own activities have no entry for the new
resource, so its schedule generation, which worked before, raises `KeyError`. -/
theorem C176_given_unchanged_refuted : ∃ (pb : Problem) (p : Params) (out : Out), Fit pb ∧ Drawn pb p ∧
    generate .single pb p = .ok out ∧ out.given ≠ pb.resources ∧
    (sgs pb [0, 1, 2] [1, 1, 1]).map (·.feasible) = .ok true ∧
    (sgs { pb with resources := out.given } [0, 1, 2] [1, 1, 1]).map (·.feasible) = .error .keyError := by
  have ⟨out, h, h1, h2⟩ := okAnd_spec (e := generate .single demo twice) (p := fun out => out.given ≠ demo.resources ∧
    (sgs { demo with resources := out.given } [0, 1, 2] [1, 1, 1]).map (·.feasible) = .error .keyError) (by decide +kernel)
  exact ⟨demo, twice, out, demo_fit, twice_drawn, h, h1, by decide +kernel, h2⟩

/-- C176 refuted: the durations are multiplied but the horizon is not: of a project whose activities fit into it one by
one, schedule generation finds no schedule any more. -/
theorem C176_horizon_refuted : ∃ (pb : Problem) (p : Params) (out : Out), Fit pb ∧ Drawn pb p ∧
    generate .single pb p = .ok out ∧ out.problem.horizon = pb.horizon ∧
    (sgs pb [0, 1, 2] [1, 1, 1]).map (·.feasible) = .ok true ∧
    (sgs out.problem [0, 1, 2, 3, 4, 5, 6] [1, 1, 1, 1, 1, 1, 1]).map (·.feasible) = .ok false := by
  have ⟨out, h, h1, h2⟩ := okAnd_spec (e := generate .single demo twice) (p := fun out => out.problem.horizon = demo.horizon ∧
    (sgs out.problem [0, 1, 2, 3, 4, 5, 6] [1, 1, 1, 1, 1, 1, 1]).map (·.feasible) = .ok false) (by decide +kernel)
  exact ⟨demo, twice, out, demo_fit, twice_drawn, h, h1, by decide +kernel, h2⟩

/-- A project whose numbers do not follow its precedences: 1, 3, 2, 4. -/
def crossed : Problem where
  resources := [("R1", .const 2)]
  nonRenewable := []
  modes := [(1, [(1, ⟨0, [("R1", 0)]⟩)]), (2, [(1, ⟨3, [("R1", 1)]⟩)]), (3, [(1, ⟨2, [("R1", 2)]⟩)]), (4, [(1, ⟨0, [("R1", 0)]⟩)])]
  successors := [(1, [3]), (2, [4]), (3, [2]), (4, [])]
  horizon := 100
  multiplier := 1

theorem crossed_fit : Fit crossed where
  two := by decide
  ids := by decide
  keys := by decide
  lists := by
    intro x l h
    have h := Dict.mem_of_get? h
    revert h
    simp only [crossed, List.mem_cons, Prod.mk.injEq, List.not_mem_nil, or_false]
    rintro (⟨rfl, rfl⟩ | ⟨rfl, rfl⟩ | ⟨rfl, rfl⟩ | ⟨rfl, rfl⟩) <;> decide
  sink := by decide

/-- C176 refuted: helpers of activities are ordered by the numbers of the activities, not by their precedences: a project
without cycle is turned into one in which a helper precedes itself. -/
theorem C176_acyclic_refuted : ∃ (pb : Problem) (p : Params) (out : Out), Fit pb ∧ Drawn pb p ∧
    generate .single pb p = .ok out ∧ (∃ f : Nat → Nat, ∀ x y, Prec pb.successors x y → f x < f y) ∧
    ∃ x, Relation.TransGen (Prec out.problem.successors) x x := by
  have ⟨out, h, h1, h2, h3, h4⟩ := okAnd_spec (e := generate .single crossed { twice with perm := [2, 3] })
    (p := fun out => out.problem.successors.get? 6 = some [8, 5] ∧ out.problem.successors.get? 5 = some [3] ∧
      out.problem.successors.get? 3 = some [2, 7] ∧ out.problem.successors.get? 2 = some [6]) (by decide +kernel)
  refine ⟨crossed, _, out, crossed_fit, ⟨by decide, by decide⟩, h, ⟨fun x => if x = 2 then 3 else if x = 3 then 2 else x, ?_⟩, 6, ?_⟩
  · rintro x y ⟨l, hl, hy⟩
    have h := Dict.mem_of_get? hl
    revert h hy
    simp only [crossed, List.mem_cons, Prod.mk.injEq, List.not_mem_nil, or_false]
    rintro hy (⟨rfl, rfl⟩ | ⟨rfl, rfl⟩ | ⟨rfl, rfl⟩ | ⟨rfl, rfl⟩) <;> revert hy <;> simp <;> (rintro rfl; decide)
  · exact .tail (.tail (.tail (.single ⟨_, h1, by decide⟩) ⟨_, h2, List.mem_cons_self⟩) ⟨_, h3, List.mem_cons_self⟩)
      ⟨_, h4, List.mem_cons_self⟩

/-- C176 refuted: in the project given the source precedes every other activity; in the one made it does not, for helpers
before an activity have no predecessor. -/
theorem C176_source_first_refuted : ∃ (pb : Problem) (p : Params) (out : Out), Fit pb ∧ Drawn pb p ∧
    generate .single pb p = .ok out ∧ (∀ x, 2 ≤ x → x ≤ pb.modes.length → Relation.TransGen (Prec pb.successors) 1 x) ∧
    ∃ x, 2 ≤ x ∧ x ≤ out.problem.modes.length ∧ ¬ Relation.TransGen (Prec out.problem.successors) 1 x := by
  have ⟨out, h, h1, h2⟩ := okAnd_spec (e := generate .single demo twice)
    (p := fun out => 6 ≤ out.problem.modes.length ∧ ∀ q ∈ out.problem.successors, 6 ∉ q.2) (by decide +kernel)
  refine ⟨demo, twice, out, demo_fit, twice_drawn, h, ?_, 6, by omega, h1, ?_⟩
  · have s2 : Relation.TransGen (Prec demo.successors) 1 2 := .single ⟨[2, 3], by decide, by decide⟩
    have s3 : Relation.TransGen (Prec demo.successors) 1 3 := .single ⟨[2, 3], by decide, by decide⟩
    have s4 : Relation.TransGen (Prec demo.successors) 1 4 := .tail s2 ⟨[4], by decide, by decide⟩
    have s5 : Relation.TransGen (Prec demo.successors) 1 5 := .tail s3 ⟨[5], by decide, by decide⟩
    intro x hx1 hx2
    have hx2 : x ≤ 5 := hx2
    rcases (show x = 2 ∨ x = 3 ∨ x = 4 ∨ x = 5 by omega) with rfl | rfl | rfl | rfl
    · exact s2
    · exact s3
    · exact s4
    · exact s5
  · intro hp
    obtain ⟨z, ⟨l, hl, hz⟩⟩ : ∃ z, Prec out.problem.successors z 6 := by
      cases hp with
      | single h => exact ⟨_, h⟩
      | tail _ h => exact ⟨_, h⟩
    exact h2 _ (Dict.mem_of_get? hl) hz

/-- C176 refuted: the name of the new resource may be taken: with one resource called `R2` its capacity is overwritten,
and no activity needs it any more. -/
theorem C176_new_resource_refuted : ∃ (pb : Problem) (p : Params) (out : Out), Fit pb ∧ Drawn pb p ∧
    generate .single pb p = .ok out ∧ pb.resources.get? "R2" = some (.const 2) ∧
    out.problem.resources = [("R2", .const 1)] ∧ pb.modes.get? 2 = some [(1, ⟨3, [("R2", 1)]⟩)] ∧
    out.problem.modes.get? 2 = some [(1, ⟨30, [("R2", 0)]⟩)] := by
  have ⟨out, h, h1, h2⟩ := okAnd_spec
    (e := generate .single { demo with
      resources := [("R2", .const 2)], modes := demo.modes.set 2 [(1, ⟨3, [("R2", 1)]⟩)] } twice)
    (p := fun out => out.problem.resources = [("R2", .const 1)] ∧
      out.problem.modes.get? 2 = some [(1, ⟨30, [("R2", 0)]⟩)]) (by decide +kernel)
  refine ⟨_, twice, out, ⟨by decide, by decide, by decide, ?_, by decide⟩, ⟨by decide, by decide⟩, h, by decide, h1, by decide, h2⟩
  exact demo_fit.lists

end Verif.Helpers
