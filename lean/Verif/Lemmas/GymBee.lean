import Verif.Model.Gym
import Mathlib.Tactic.Linarith
import Mathlib.Data.List.Infix

/-! Helper lemmas about the interval features of Gym states. -/
namespace Verif.Gym

/-! ### Nodes of `bee1_features` -/

/-- Increments ascend from zero, and there is a child for each of them but the first. -/
inductive Bee1.WF : Bee1 → Prop where
  | mk (r : Rat) (inc : List Rat) (ch : List Bee1) (sorted : inc.Pairwise (· < ·)) (zero : inc.head? = some 0)
      (len : ch.length + 1 = inc.length) (sub : ∀ c ∈ ch, Bee1.WF c) : Bee1.WF (.mk r inc ch)

theorem Bee1.WF.sorted {n : Bee1} (h : n.WF) : n.increments.Pairwise (· < ·) := by cases h; assumption
theorem Bee1.WF.zero {n : Bee1} (h : n.WF) : n.increments.head? = some 0 := by cases h; assumption
theorem Bee1.WF.len {n : Bee1} (h : n.WF) : n.children.length + 1 = n.increments.length := by cases h; assumption
theorem Bee1.WF.sub {n : Bee1} (h : n.WF) : ∀ c ∈ n.children, c.WF := by cases h; assumption

theorem Bee1.wf_new (r : Rat) : (Bee1.new r).WF := .mk _ _ _ (by simp) (by simp) (by simp) (by simp)

theorem bisectLeft_le (l : List Rat) (v : Rat) : bisectLeft l v ≤ l.length := List.findIdx_le_length

theorem bisectLeft_full {l : List Rat} {v : Rat} (h : l.length ≤ bisectLeft l v) : ∀ a ∈ l, a < v := by
  intro a ha
  have : bisectLeft l v = l.length := le_antisymm (bisectLeft_le l v) h
  unfold bisectLeft at this
  have := (List.findIdx_eq_length).mp this a ha
  simpa using this

theorem bisectLeft_append {l m : List Rat} {v : Rat} (h : bisectLeft l v < l.length) :
    bisectLeft (l ++ m) v = bisectLeft l v := by
  unfold bisectLeft at h ⊢
  rw [List.findIdx_append, if_pos h]

theorem bisectLeft_new {l : List Rat} {v : Rat} (h : l.length ≤ bisectLeft l v) :
    bisectLeft (l ++ [v]) v = l.length := by
  have h1 : bisectLeft l v = l.length := le_antisymm (bisectLeft_le l v) h
  unfold bisectLeft at h1 ⊢
  rw [List.findIdx_append, h1, if_neg (lt_irrefl _)]
  simp

/-- The result of the bisection is the number of smaller entries. -/
theorem bisectLeft_count {l : List Rat} (hs : l.Pairwise (· < ·)) (v : Rat) :
    bisectLeft l v = (l.filter (fun a => decide (a < v))).length := by
  induction l with
  | nil => rfl
  | cons a l ih =>
    obtain ⟨h1, h2⟩ := List.pairwise_cons.mp hs
    unfold bisectLeft at ih ⊢
    rw [List.findIdx_cons]
    by_cases hv : v ≤ a
    · have h3 : ∀ b ∈ a :: l, ¬ (decide (b < v) = true) := by
        intro b hb
        simp only [decide_eq_true_eq]
        rcases List.mem_cons.mp hb with rfl | hb
        · exact not_lt.mpr hv
        · exact not_lt.mpr (le_of_lt (lt_of_le_of_lt hv (h1 b hb)))
      rw [List.filter_eq_nil_iff.mpr h3]
      simp [hv]
    · have hlt : a < v := not_le.mp hv
      rw [List.filter_cons]
      simp [hv, hlt, ih h2]

theorem Bee1.eval_ok (sign : Int) (cell : Rat) (f : Nat) {n : Bee1} (hn : n.WF) :
    ∃ fs n', n.eval sign cell f = .ok (fs, n') ∧ fs.length = f ∧ n'.WF := by
  induction f generalizing n with
  | zero => exact ⟨[], n, rfl, rfl, hn⟩
  | succ f ih =>
    simp only [Bee1.eval]
    by_cases h1 : n.increments.length ≤ bisectLeft n.increments (sign * (cell - n.reference))
    · rw [if_pos h1]
      refine ⟨_, _, rfl, by simp, ?_⟩
      refine .mk _ _ _ ?_ ?_ ?_ ?_
      · rw [List.pairwise_append]
        refine ⟨hn.sorted, by simp, fun a ha b hb => ?_⟩
        rw [List.mem_singleton.mp hb]
        exact bisectLeft_full h1 a ha
      · rw [List.head?_append, hn.zero]
        rfl
      · have := hn.len
        simp
        omega
      · intro c hc
        rcases List.mem_append.mp hc with hc | hc
        · exact hn.sub c hc
        · rw [List.mem_singleton.mp hc]
          exact Bee1.wf_new _
    · rw [if_neg h1]
      by_cases h2 : 0 < bisectLeft n.increments (sign * (cell - n.reference))
      · rw [if_pos h2]
        have hlt : bisectLeft n.increments (sign * (cell - n.reference)) - 1 < n.children.length := by
          have := hn.len
          omega
        rw [List.getElem?_eq_getElem hlt]
        obtain ⟨fs, c', e, hl, hc'⟩ := ih (hn.sub _ (List.getElem_mem hlt))
        simp only [e]
        refine ⟨_, _, rfl, by simp [hl], ?_⟩
        refine .mk _ _ _ hn.sorted hn.zero ?_ ?_
        · have := hn.len
          simpa using this
        · intro c hc
          rcases List.mem_or_eq_of_mem_set hc with hc | rfl
          · exact hn.sub c hc
          · exact hc'
      · rw [if_neg h2]
        obtain ⟨fs, n', e, hl, hn'⟩ := ih hn
        simp only [e]
        exact ⟨_, _, rfl, by simp [hl], hn'⟩

/-- Evaluations keep the reference and only add increments at the end. -/
theorem Bee1.eval_grows {sign : Int} {cell : Rat} {f : Nat} {n n' : Bee1} {fs : List Int}
    (e : n.eval sign cell f = .ok (fs, n')) : n'.reference = n.reference ∧ n.increments <+: n'.increments := by
  induction f generalizing n n' fs with
  | zero =>
    simp only [Bee1.eval, Except.ok.injEq, Prod.mk.injEq] at e
    obtain ⟨-, rfl⟩ := e
    exact ⟨rfl, List.prefix_refl _⟩
  | succ f ih =>
    simp only [Bee1.eval] at e
    split at e
    · simp only [Except.ok.injEq, Prod.mk.injEq] at e
      obtain ⟨-, rfl⟩ := e
      exact ⟨rfl, List.prefix_append _ _⟩
    · split at e
      · cases hc : n.children[bisectLeft n.increments (sign * (cell - n.reference)) - 1]? with
        | none => rw [hc] at e; simp at e
        | some c =>
          rw [hc] at e
          cases he : c.eval sign cell f with
          | error er => simp only [he] at e; simp at e
          | ok q =>
            simp only [he] at e
            simp only [Except.ok.injEq, Prod.mk.injEq] at e
            obtain ⟨-, rfl⟩ := e
            exact ⟨rfl, List.prefix_refl _⟩
      · cases he : n.eval sign cell f with
        | error er => simp only [he] at e; simp at e
        | ok q =>
          simp only [he] at e
          simp only [Except.ok.injEq, Prod.mk.injEq] at e
          obtain ⟨-, rfl⟩ := e
          exact ih he

/-- The first feature, and that it is settled afterwards. -/
theorem Bee1.eval_first {sign : Int} {cell : Rat} {f : Nat} {n n' : Bee1} {fs : List Int}
    (e : n.eval sign cell (f + 1) = .ok (fs, n')) :
    fs.head? = some (sign * (bisectLeft n.increments (sign * (cell - n.reference)) : Nat)) ∧
    bisectLeft n'.increments (sign * (cell - n'.reference)) = bisectLeft n.increments (sign * (cell - n.reference)) ∧
    bisectLeft n'.increments (sign * (cell - n'.reference)) < n'.increments.length := by
  have hg := Bee1.eval_grows e
  simp only [Bee1.eval] at e
  by_cases h1 : n.increments.length ≤ bisectLeft n.increments (sign * (cell - n.reference))
  · rw [if_pos h1] at e
    simp only [Except.ok.injEq, Prod.mk.injEq] at e
    obtain ⟨rfl, rfl⟩ := e
    refine ⟨rfl, ?_, ?_⟩
    · show bisectLeft (n.increments ++ [_]) _ = _
      rw [show (Bee1.mk n.reference _ _).reference = n.reference from rfl, bisectLeft_new h1]
      exact le_antisymm h1 (bisectLeft_le _ _)
    · show bisectLeft (n.increments ++ [_]) _ < (n.increments ++ [_]).length
      rw [show (Bee1.mk n.reference _ _).reference = n.reference from rfl, bisectLeft_new h1]
      simp
  · have h2 : bisectLeft n.increments (sign * (cell - n.reference)) < n.increments.length := not_le.mp h1
    have hhead : fs.head? = some (sign * (bisectLeft n.increments (sign * (cell - n.reference)) : Nat)) := by
      rw [if_neg h1] at e
      split at e
      · cases hc : n.children[bisectLeft n.increments (sign * (cell - n.reference)) - 1]? with
        | none => rw [hc] at e; simp at e
        | some c =>
          rw [hc] at e
          cases he : c.eval sign cell f with
          | error er => simp only [he] at e; simp at e
          | ok q =>
            simp only [he] at e
            simp only [Except.ok.injEq, Prod.mk.injEq] at e
            obtain ⟨rfl, -⟩ := e
            rfl
      · cases he : n.eval sign cell f with
        | error er => simp only [he] at e; simp at e
        | ok q =>
          simp only [he] at e
          simp only [Except.ok.injEq, Prod.mk.injEq] at e
          obtain ⟨rfl, -⟩ := e
          rfl
    obtain ⟨hr, m, hm⟩ := hg
    refine ⟨hhead, ?_, ?_⟩
    · rw [hr, ← hm, bisectLeft_append h2]
    · rw [hr, ← hm, bisectLeft_append h2, List.length_append]
      omega

/-- Nothing changes when no increment is below. -/
theorem Bee1.eval_zero {sign : Int} {cell : Rat} (f : Nat) {n : Bee1} (h : bisectLeft n.increments (sign * (cell - n.reference)) = 0)
    (hl : 0 < n.increments.length) : n.eval sign cell f = .ok (List.replicate f 0, n) := by
  induction f with
  | zero => rfl
  | succ f ih =>
    simp only [Bee1.eval]
    rw [if_neg (by omega), if_neg (by omega), ih, h]
    simp [List.replicate_succ]

/-! ### Nodes of `bee2_features` -/

/-- An empty node, or intervals within the bounds that cover all between the bounds. -/
inductive Bee2.WF : Bee2 → Prop where
  | empty (l g : Rat) : Bee2.WF (.mk [] l g [])
  | mk (I : List (Rat × Rat)) (l g : Rat) (ch : List Bee2) (ne : I ≠ []) (len : ch.length = I.length)
      (le : l ≤ g) (cover : ∀ x, l ≤ x → x ≤ g → ∃ i ∈ I, i.1 ≤ x ∧ x ≤ i.2)
      (within : ∀ i ∈ I, l ≤ i.1 ∧ i.2 ≤ g) (sub : ∀ c ∈ ch, Bee2.WF c) : Bee2.WF (.mk I l g ch)

theorem Bee2.wf_new : Bee2.new.WF := .empty _ _

/-- The test of line 372. -/
def inside (x : Rat) (i : Rat × Rat) : Bool := decide (i.1 ≤ x) && decide (x ≤ i.2)

theorem inside_iff {x : Rat} {i : Rat × Rat} : inside x i = true ↔ i.1 ≤ x ∧ x ≤ i.2 := by simp [inside]

/-- The four cases of an evaluation of a well-formed node. -/
theorem Bee2.eval_ok (x : Rat) (level : Nat) {n : Bee2} (hn : n.WF) :
    ∃ k fs n', n.eval x level = .ok (k :: fs, n') ∧ fs.length = level ∧ n'.WF ∧
      n.I <+: n'.I ∧ n'.I.findIdx? (inside x) = some k.toNat ∧ 0 ≤ k ∧
      (n.I ≠ [] → n'.llb ≤ n.llb ∧ n.gub ≤ n'.gub) ∧ n'.llb ≤ x ∧ x ≤ n'.gub ∧ n'.I ≠ [] := by
  induction level generalizing n with
  | zero =>
    cases hn with
    | empty l g =>
      refine ⟨0, [], .mk [(x, x)] x x [Bee2.new], by simp [Bee2.eval, Bee2.I], rfl, ?_, ?_, ?_, le_refl _, ?_, ?_, ?_, ?_⟩
      · refine .mk _ _ _ _ (by simp) rfl (le_refl _) ?_ (by simp) (by simp [Bee2.wf_new])
        intro y h1 h2
        exact ⟨(x, x), by simp, h1, h2⟩
      · exact List.nil_prefix
      · simp [Bee2.I, inside, List.findIdx?_cons]
      · intro h; exact absurd rfl h
      · exact le_refl x
      · exact le_refl x
      · simp [Bee2.I]
    | mk I l g ch ne len le cover within sub =>
      have hne : ¬ I.length = 0 := by simpa using ne
      by_cases h1 : x < l
      · refine ⟨I.length, [], .mk (I ++ [(x, l)]) x g (ch ++ [Bee2.new]), ?_, rfl, ?_, ?_, ?_, by simp, ?_, ?_, ?_, ?_⟩
        · simp [Bee2.eval, Bee2.I, Bee2.llb, Bee2.gub, Bee2.children, ne, h1]
        · refine .mk _ _ _ _ (by simp) (by simp [len]) (by linarith) ?_ ?_ ?_
          · intro y hy1 hy2
            by_cases hy : y ≤ l
            · exact ⟨(x, l), by simp, hy1, hy⟩
            · obtain ⟨i, hi, h⟩ := cover y (by linarith [not_le.mp hy]) hy2
              exact ⟨i, by simp [hi], h⟩
          · intro i hi
            rcases List.mem_append.mp hi with hi | hi
            · have := within i hi
              exact ⟨by linarith, this.2⟩
            · rw [List.mem_singleton.mp hi]
              exact ⟨le_refl x, le⟩
          · intro c hc
            rcases List.mem_append.mp hc with hc | hc
            · exact sub c hc
            · rw [List.mem_singleton.mp hc]; exact Bee2.wf_new
        · exact List.prefix_append _ _
        · have hnone : I.findIdx? (inside x) = none := by
            rw [List.findIdx?_eq_none_iff]
            intro i hi
            have := within i hi
            simp only [inside, Bool.and_eq_false_iff, decide_eq_false_iff_not]
            left
            linarith
          show (I ++ [(x, l)]).findIdx? (inside x) = _
          rw [List.findIdx?_append, hnone]
          simp [inside, List.findIdx?_cons, le_of_lt h1]
        · intro _; exact ⟨le_of_lt h1, le_refl _⟩
        · exact le_refl x
        · show x ≤ g; linarith
        · simp [Bee2.I]
      · by_cases h2 : g < x
        · refine ⟨I.length, [], .mk (I ++ [(g, x)]) l x (ch ++ [Bee2.new]), ?_, rfl, ?_, ?_, ?_, by simp, ?_, ?_, ?_, ?_⟩
          · simp [Bee2.eval, Bee2.I, Bee2.llb, Bee2.gub, Bee2.children, ne, h1, h2]
          · refine .mk _ _ _ _ (by simp) (by simp [len]) (by linarith) ?_ ?_ ?_
            · intro y hy1 hy2
              by_cases hy : g ≤ y
              · exact ⟨(g, x), by simp, hy, hy2⟩
              · obtain ⟨i, hi, h⟩ := cover y hy1 (by linarith [not_le.mp hy])
                exact ⟨i, by simp [hi], h⟩
            · intro i hi
              rcases List.mem_append.mp hi with hi | hi
              · have := within i hi
                exact ⟨this.1, by linarith⟩
              · rw [List.mem_singleton.mp hi]
                exact ⟨le, le_refl x⟩
            · intro c hc
              rcases List.mem_append.mp hc with hc | hc
              · exact sub c hc
              · rw [List.mem_singleton.mp hc]; exact Bee2.wf_new
          · exact List.prefix_append _ _
          · have hnone : I.findIdx? (inside x) = none := by
              rw [List.findIdx?_eq_none_iff]
              intro i hi
              have := within i hi
              simp only [inside, Bool.and_eq_false_iff, decide_eq_false_iff_not]
              right
              linarith
            show (I ++ [(g, x)]).findIdx? (inside x) = _
            rw [List.findIdx?_append, hnone]
            simp [inside, List.findIdx?_cons, le_of_lt h2]
          · intro _; exact ⟨le_refl _, le_of_lt h2⟩
          · show l ≤ x; linarith
          · exact le_refl x
          · simp [Bee2.I]
        · have hl := not_lt.mp h1
          have hg := not_lt.mp h2
          obtain ⟨i, hi, hin⟩ := cover x hl hg
          cases hf : I.findIdx? (inside x) with
          | none =>
            have := List.findIdx?_eq_none_iff.mp hf i hi
            rw [inside_iff.mpr hin] at this
            simp at this
          | some k =>
            have hf' : I.findIdx? (fun i => decide (i.1 ≤ x) && decide (x ≤ i.2)) = some k := hf
            refine ⟨k, [], .mk I l g ch, ?_, rfl, .mk I l g ch ne len le cover within sub, List.prefix_refl _, hf, by simp,
              fun _ => ⟨le_refl _, le_refl _⟩, hl, hg, ne⟩
            have a1 : ¬ (Bee2.mk I l g ch).I.length = 0 := hne
            have a2 : ¬ x < (Bee2.mk I l g ch).llb := h1
            have a3 : ¬ (Bee2.mk I l g ch).gub < x := h2
            have a4 : (Bee2.mk I l g ch).I.findIdx? (fun i => decide (i.1 ≤ x) && decide (x ≤ i.2)) = some k := hf'
            rw [Bee2.eval, if_neg a1, if_neg a2, if_neg a3, a4]
  | succ level ih =>
    cases hn with
    | empty l g =>
      refine ⟨0, List.replicate (level + 1) (-1), .mk [(x, x)] x x [Bee2.new], by simp [Bee2.eval, Bee2.I], by simp, ?_, ?_, ?_, le_refl _, ?_, ?_, ?_, ?_⟩
      · refine .mk _ _ _ _ (by simp) rfl (le_refl _) ?_ (by simp) (by simp [Bee2.wf_new])
        intro y h1 h2
        exact ⟨(x, x), by simp, h1, h2⟩
      · exact List.nil_prefix
      · simp [Bee2.I, inside, List.findIdx?_cons]
      · intro h; exact absurd rfl h
      · exact le_refl x
      · exact le_refl x
      · simp [Bee2.I]
    | mk I l g ch ne len le cover within sub =>
      have hne : ¬ I.length = 0 := by simpa using ne
      by_cases h1 : x < l
      · refine ⟨I.length, List.replicate (level + 1) (-1), .mk (I ++ [(x, l)]) x g (ch ++ [Bee2.new]), ?_, by simp, ?_, ?_, ?_, by simp, ?_, ?_, ?_, ?_⟩
        · simp [Bee2.eval, Bee2.I, Bee2.llb, Bee2.gub, Bee2.children, ne, h1]
        · refine .mk _ _ _ _ (by simp) (by simp [len]) (by linarith) ?_ ?_ ?_
          · intro y hy1 hy2
            by_cases hy : y ≤ l
            · exact ⟨(x, l), by simp, hy1, hy⟩
            · obtain ⟨i, hi, h⟩ := cover y (by linarith [not_le.mp hy]) hy2
              exact ⟨i, by simp [hi], h⟩
          · intro i hi
            rcases List.mem_append.mp hi with hi | hi
            · have := within i hi
              exact ⟨by linarith, this.2⟩
            · rw [List.mem_singleton.mp hi]
              exact ⟨le_refl x, le⟩
          · intro c hc
            rcases List.mem_append.mp hc with hc | hc
            · exact sub c hc
            · rw [List.mem_singleton.mp hc]; exact Bee2.wf_new
        · exact List.prefix_append _ _
        · have hnone : I.findIdx? (inside x) = none := by
            rw [List.findIdx?_eq_none_iff]
            intro i hi
            have := within i hi
            simp only [inside, Bool.and_eq_false_iff, decide_eq_false_iff_not]
            left
            linarith
          show (I ++ [(x, l)]).findIdx? (inside x) = _
          rw [List.findIdx?_append, hnone]
          simp [inside, List.findIdx?_cons, le_of_lt h1]
        · intro _; exact ⟨le_of_lt h1, le_refl _⟩
        · exact le_refl x
        · show x ≤ g; linarith
        · simp [Bee2.I]
      · by_cases h2 : g < x
        · refine ⟨I.length, List.replicate (level + 1) (-1), .mk (I ++ [(g, x)]) l x (ch ++ [Bee2.new]), ?_, by simp, ?_, ?_, ?_, by simp, ?_, ?_, ?_, ?_⟩
          · simp [Bee2.eval, Bee2.I, Bee2.llb, Bee2.gub, Bee2.children, ne, h1, h2]
          · refine .mk _ _ _ _ (by simp) (by simp [len]) (by linarith) ?_ ?_ ?_
            · intro y hy1 hy2
              by_cases hy : g ≤ y
              · exact ⟨(g, x), by simp, hy, hy2⟩
              · obtain ⟨i, hi, h⟩ := cover y hy1 (by linarith [not_le.mp hy])
                exact ⟨i, by simp [hi], h⟩
            · intro i hi
              rcases List.mem_append.mp hi with hi | hi
              · have := within i hi
                exact ⟨this.1, by linarith⟩
              · rw [List.mem_singleton.mp hi]
                exact ⟨le, le_refl x⟩
            · intro c hc
              rcases List.mem_append.mp hc with hc | hc
              · exact sub c hc
              · rw [List.mem_singleton.mp hc]; exact Bee2.wf_new
          · exact List.prefix_append _ _
          · have hnone : I.findIdx? (inside x) = none := by
              rw [List.findIdx?_eq_none_iff]
              intro i hi
              have := within i hi
              simp only [inside, Bool.and_eq_false_iff, decide_eq_false_iff_not]
              right
              linarith
            show (I ++ [(g, x)]).findIdx? (inside x) = _
            rw [List.findIdx?_append, hnone]
            simp [inside, List.findIdx?_cons, le_of_lt h2]
          · intro _; exact ⟨le_refl _, le_of_lt h2⟩
          · show l ≤ x; linarith
          · exact le_refl x
          · simp [Bee2.I]
        · have hl := not_lt.mp h1
          have hg := not_lt.mp h2
          obtain ⟨i, hi, hin⟩ := cover x hl hg
          cases hf : I.findIdx? (inside x) with
          | none =>
            have := List.findIdx?_eq_none_iff.mp hf i hi
            rw [inside_iff.mpr hin] at this
            simp at this
          | some k =>
            have hf' : I.findIdx? (fun i => decide (i.1 ≤ x) && decide (x ≤ i.2)) = some k := hf
            have hk : k < ch.length := by
              rw [len]
              obtain ⟨h, -⟩ := List.findIdx?_eq_some_iff_getElem.mp hf
              exact h
            obtain ⟨k', fs, c', e, hlen, hc', -⟩ := ih (sub _ (List.getElem_mem hk))
            refine ⟨k, k' :: fs, .mk I l g (ch.set k c'), ?_, by simp [hlen], ?_, List.prefix_refl _, hf, by simp,
              fun _ => ⟨le_refl _, le_refl _⟩, hl, hg, ne⟩
            · have a1 : ¬ (Bee2.mk I l g ch).I.length = 0 := hne
              have a2 : ¬ x < (Bee2.mk I l g ch).llb := h1
              have a3 : ¬ (Bee2.mk I l g ch).gub < x := h2
              have a4 : (Bee2.mk I l g ch).I.findIdx? (fun i => decide (i.1 ≤ x) && decide (x ≤ i.2)) = some k := hf'
              have a5 : (Bee2.mk I l g ch).children[k]? = some ch[k] := List.getElem?_eq_getElem hk
              rw [Bee2.eval, if_neg a1, if_neg a2, if_neg a3, a4]
              simp only [a5, e]
              rfl
            · refine .mk I l g _ ne (by simp [len]) le cover within ?_
              intro c hc
              rcases List.mem_or_eq_of_mem_set hc with hc | rfl
              · exact sub c hc
              · exact hc'

theorem findIdx?_prefix {α : Type} {p : α → Bool} {l m : List α} (h : l <+: m) {k : Nat}
    (e : l.findIdx? p = some k) : m.findIdx? p = some k := by
  obtain ⟨t, rfl⟩ := h
  rw [List.findIdx?_append, e]
  rfl

end Verif.Gym
