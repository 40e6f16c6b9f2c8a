import Verif.Model.Explore
import Verif.Lemmas.Sched
import Mathlib.Tactic.Set
import Mathlib.Data.List.Basic
/-
Helper lemmas for the graph explorers.
-/
namespace Verif.Explore

variable {σ α ν : Type} [DecidableEq σ] [DecidableEq α]

theorem mem_keys {κ β : Type} [DecidableEq κ] {d : Dict κ β} {k : κ} : k ∈ d.keys ↔ ∃ v, d.get? k = some v := by
  rw [← Dict.get?_isSome_iff_mem_keys, Option.isSome_iff_exists]

theorem not_mem_keys {κ β : Type} [DecidableEq κ] {d : Dict κ β} {k : κ} : k ∉ d.keys ↔ d.get? k = none := by
  rw [← Dict.get?_isSome_iff_mem_keys]; cases d.get? k <;> simp

theorem contains_keys {κ β : Type} [DecidableEq κ] (d : Dict κ β) (k : κ) : d.contains k = decide (k ∈ d.keys) := by
  rw [Dict.contains_eq, Bool.eq_iff_iff, Dict.get?_isSome_iff_mem_keys, decide_eq_true_iff]

theorem keys_set_mem {κ β : Type} [DecidableEq κ] {d : Dict κ β} {k : κ} (h : k ∈ d.keys) (v : β) : (d.set k v).keys = d.keys := by
  rw [Dict.keys_set, if_pos h]

theorem keys_set_fresh {κ β : Type} [DecidableEq κ] {d : Dict κ β} {k : κ} (h : k ∉ d.keys) (v : β) :
    (d.set k v).keys = d.keys ++ [k] := by
  rw [Dict.keys_set, if_neg h]

theorem set_fresh {κ β : Type} [DecidableEq κ] {d : Dict κ β} {k : κ} (h : k ∉ d.keys) (v : β) : d.set k v = d ++ [(k, v)] := by
  induction d with
  | nil => rfl
  | cons p d ih =>
    obtain ⟨k', v'⟩ := p
    simp only [Dict.keys, List.map_cons, List.mem_cons, not_or] at h
    simp only [Dict.set, Ne.symm h.1, if_false, List.cons_append]
    rw [ih h.2]

theorem sum_set {κ β : Type} [DecidableEq κ] {d : Dict κ β} {k : κ} {w : β} (f : β → Nat) (h : d.get? k = some w) (v : β) :
    ((d.set k v).map fun q => f q.2).sum + f w = (d.map fun q => f q.2).sum + f v := by
  induction d with
  | nil => simp at h
  | cons p d ih =>
    obtain ⟨k', v'⟩ := p
    by_cases hk : k' = k
    · simp only [Dict.get?, hk, if_true, Option.some.injEq] at h
      subst h
      simp [Dict.set, hk]; omega
    · simp only [Dict.get?, hk, if_false] at h
      simp only [Dict.set, hk, if_false, List.map_cons, List.sum_cons]
      have := ih h
      omega

theorem put_ok {κ : Type} {m : Dict σ (Dict α κ)} {v : σ} {e : Dict α κ} (h : m.get? v = some e) (a : α) (x : κ) :
    put m v a x = .ok (m.set v (e.set a x)) := by
  unfold put
  rw [Dict.get_ok_iff.2 h, bind_ok]

theorem mem_keys_cons {κ β : Type} [DecidableEq κ] {d : Dict κ β} {k k' : κ} {v : β} :
    k ∈ Dict.keys ((k', v) :: d) ↔ k = k' ∨ k ∈ d.keys := by
  simp [Dict.keys]

/-- The states an explorer is meant to find: those met from the start, going on from the start and from states that are
not goals. -/
inductive Reach (d : Dom σ α ν) (init : σ) : σ → Prop
  | init : Reach d init init
  | step {s : σ} {a : α} : Reach d init s → (s = init ∨ d.goal s = false) → a ∈ d.acts s → Reach d init (d.next s a)

def upd (pre : σ → List α) (v : σ) (a : α) : σ → List α := fun s => if s = v then pre v ++ [a] else pre s

/-- What holds while exploring: `pre s` are the actions of `s` dealt with, `o` the state being expanded, if any. -/
structure Inv (d : Dom σ α ν) (init : σ) (pre : σ → List α) (o : Option σ) (st : St σ α ν) : Prop where
  nodup : st.map.keys.Nodup
  same : st.attrs.keys = st.map.keys
  start : init ∈ st.map.keys
  reach : ∀ s ∈ st.map.keys, Reach d init s
  row : ∀ s e, st.map.get? s = some e → e.keys.Nodup ∧ ∀ a n, e.get? a = some n ↔ a ∈ pre s ∧ n = d.next s a
  arow : ∀ s t, st.attrs.get? s = some t → ∀ a x, t.get? a = some x ↔ a ∈ pre s ∧ x = d.info s a (d.next s a)
  stk : ∀ s ∈ st.stack, s ∈ st.map.keys ∧ pre s = [] ∧ (s = init ∨ d.goal s = false)
  stkN : st.stack.Nodup
  part : ∀ s ∈ st.map.keys, s ∈ st.stack ∨ o = some s ∨ (pre s = d.acts s ∧ (s = init ∨ d.goal s = false)) ∨
    (pre s = [] ∧ d.goal s = true ∧ s ≠ init)
  closed : ∀ s, ∀ a ∈ pre s, d.next s a ∈ st.map.keys
  sub : ∀ s, ∀ a ∈ pre s, a ∈ d.acts s
  out : ∀ s, s ∉ st.map.keys → pre s = []
  nodes : st.nodes = st.map.keys.length
  edges : st.edges = (st.map.map fun q => q.2.length).sum
  paths : st.paths = (st.map.map fun q => (q.2.filter fun r => d.goal r.2).length).sum

omit [DecidableEq α] in
theorem upd_mem {pre : σ → List α} {v s : σ} {a b : α} : b ∈ upd pre v a s ↔ b ∈ pre s ∨ (s = v ∧ b = a) := by
  unfold upd
  split
  · rename_i h; subst h; simp
  · rename_i h; simp [h]

theorem act_step {d : Dom σ α ν} {init v : σ} {pre : σ → List α} {st : St σ α ν} {a : α} (I : Inv d init pre (some v) st)
    (hv : v ∈ st.map.keys) (hs : v ∉ st.stack) (hg : v = init ∨ d.goal v = false) (ha : a ∈ d.acts v) :
    ∃ st', act d v st a = .ok st' ∧ Inv d init (upd pre v a) (some v) st' ∧ v ∈ st'.map.keys ∧ v ∉ st'.stack ∧
      (∀ s ∈ st.map.keys, s ∈ st'.map.keys) ∧ st.paths ≤ st'.paths ∧
      ∀ L : List σ, d.next v a ∈ L → (L.filter fun s => decide (s ∉ st'.map.keys)).length + st'.stack.length ≤
        (L.filter fun s => decide (s ∉ st.map.keys)).length + st.stack.length := by
  obtain ⟨e, he⟩ := mem_keys.1 hv
  obtain ⟨t, ht⟩ := mem_keys.1 (I.same ▸ hv : v ∈ st.attrs.keys)
  have hrow := I.row v e he
  unfold act
  simp only [Dict.get_ok_iff.2 he, bind_ok]
  by_cases hc : a ∈ e.keys
  · rw [contains_keys, if_pos (by simpa using hc)]
    have hp : a ∈ pre v := by
      obtain ⟨n, hn⟩ := mem_keys.1 hc
      exact ((hrow.2 a n).1 hn).1
    have hm : ∀ s b, b ∈ upd pre v a s ↔ b ∈ pre s := by
      intro s b
      rw [upd_mem]
      constructor
      · rintro (h | ⟨rfl, rfl⟩)
        · exact h
        · exact hp
      · exact Or.inl
    have hne : ∀ s, s ≠ v → upd pre v a s = pre s := by intro s h; simp [upd, h]
    refine ⟨st, rfl, ⟨I.nodup, I.same, I.start, I.reach, ?_, ?_, ?_, I.stkN, ?_, ?_, ?_, ?_, I.nodes, I.edges, I.paths⟩, hv, hs,
      fun _ h => h, Nat.le_refl _, fun _ _ => Nat.le_refl _⟩
    · intro s e' h
      refine ⟨(I.row s e' h).1, fun b n => ?_⟩
      rw [hm]; exact (I.row s e' h).2 b n
    · intro s t' h b x
      rw [hm]; exact I.arow s t' h b x
    · intro s h
      rw [hne s (by rintro rfl; exact hs h)]
      exact I.stk s h
    · intro s h
      by_cases hsv : s = v
      · exact Or.inr (Or.inl (by rw [hsv]))
      · rw [hne s hsv]; exact I.part s h
    · intro s b h
      exact I.closed s b ((hm s b).1 h)
    · intro s b h
      exact I.sub s b ((hm s b).1 h)
    · intro s h
      rw [hne s (by rintro rfl; exact h hv)]
      exact I.out s h
  · rw [contains_keys, if_neg (by simpa using hc), put_ok he, put_ok ht]
    simp only [bind_ok]
    set n := d.next v a with hn
    have hk : (st.map.set v (e.set a n)).keys = st.map.keys := keys_set_mem hv _
    have hk2 : (st.attrs.set v (t.set a (d.info v a n))).keys = st.map.keys := by
      rw [keys_set_mem (I.same ▸ hv), I.same]
    rw [contains_keys, hk]
    have hp : a ∉ pre v := by
      intro h
      exact hc (mem_keys.2 ⟨_, (hrow.2 a _).2 ⟨h, rfl⟩⟩)
    have hne : ∀ s, s ≠ v → upd pre v a s = pre s := by intro s h; simp [upd, h]
    have hel : (e.set a n).length = e.length + 1 := by rw [set_fresh hc]; simp
    have hgl : ((e.set a n).filter fun r => d.goal r.2).length = (e.filter fun r => d.goal r.2).length + (if d.goal n then 1 else 0) := by
      rw [set_fresh hc, List.filter_append, List.length_append]
      congr 1
      by_cases hgn : d.goal n <;> simp [hgn]
    have hs1 := sum_set (fun q : Dict α σ => q.length) he (e.set a n)
    have hs2 := sum_set (fun q : Dict α σ => (q.filter fun r => d.goal r.2).length) he (e.set a n)
    have hrow' : ∀ s e', (st.map.set v (e.set a n)).get? s = some e' →
        e'.keys.Nodup ∧ ∀ b m, e'.get? b = some m ↔ b ∈ upd pre v a s ∧ m = d.next s b := by
      intro s e' h
      rw [Dict.get?_set] at h
      by_cases hsv : s = v
      · subst hsv
        simp only [if_true, Option.some.injEq] at h
        subst h
        refine ⟨Dict.nodup_keys_set _ _ hrow.1, fun b m => ?_⟩
        rw [Dict.get?_set, upd_mem]
        by_cases hb : b = a
        · subst hb; simp [hn, hp, eq_comm]
        · simp only [hb, if_false, and_false, or_false]
          exact hrow.2 b m
      · simp only [hsv, if_false] at h
        rw [hne s hsv]
        exact I.row s e' h
    have harow' : ∀ s t', (st.attrs.set v (t.set a (d.info v a n))).get? s = some t' →
        ∀ b x, t'.get? b = some x ↔ b ∈ upd pre v a s ∧ x = d.info s b (d.next s b) := by
      intro s t' h b x
      rw [Dict.get?_set] at h
      by_cases hsv : s = v
      · subst hsv
        simp only [if_true, Option.some.injEq] at h
        subst h
        rw [Dict.get?_set, upd_mem]
        by_cases hb : b = a
        · subst hb; simp [hn, hp, eq_comm]
        · simp only [hb, if_false, and_false, or_false]
          exact I.arow s t ht b x
      · simp only [hsv, if_false] at h
        rw [hne s hsv]
        exact I.arow s t' h b x
    have hreach : Reach d init n := .step (I.reach v hv) hg ha
    have hempty : ∀ s, s ∉ st.map.keys → upd pre v a s = [] := by
      intro s h
      rw [hne s (by rintro rfl; exact h hv)]
      exact I.out s h
    have hpaths : st.paths + (if d.goal n then 1 else 0) =
        ((st.map.set v (e.set a n)).map fun q => (q.2.filter fun r => d.goal r.2).length).sum := by
      have := I.paths
      simp only [hgl] at hs2
      omega
    have hpe : (if d.goal n = true then st.paths + 1 else st.paths) = st.paths + (if d.goal n then 1 else 0) := by
      split <;> rfl
    have hedges : st.edges + 1 = ((st.map.set v (e.set a n)).map fun q => q.2.length).sum := by
      have := I.edges
      simp only [hel] at hs1
      omega
    have hsubu : ∀ s, ∀ b ∈ upd pre v a s, b ∈ d.acts s := by
      intro s b h
      rcases upd_mem.1 h with h | ⟨rfl, rfl⟩
      · exact I.sub s b h
      · exact ha
    by_cases hf : n ∈ st.map.keys
    · simp only [hf, decide_true, Bool.not_true, Bool.and_false, Bool.false_eq_true, if_false]
      refine ⟨_, rfl, ⟨?_, ?_, ?_, ?_, hrow', harow', ?_, I.stkN, ?_, ?_, hsubu, ?_, ?_, hedges, ?_⟩, ?_, hs, ?_, ?_, ?_⟩
      · exact hk ▸ I.nodup
      · exact hk2.trans hk.symm
      · exact hk ▸ I.start
      · simp only [hk]; exact I.reach
      · intro s h
        simp only [hk]
        rw [hne s (by rintro rfl; exact hs h)]
        exact I.stk s h
      · intro s h
        simp only [hk] at h
        by_cases hsv : s = v
        · exact Or.inr (Or.inl (by rw [hsv]))
        · rw [hne s hsv]; exact I.part s h
      · intro s b h
        simp only [hk]
        rcases upd_mem.1 h with h | ⟨rfl, rfl⟩
        · exact I.closed s b h
        · exact hf
      · intro s h
        simp only [hk] at h
        exact hempty s h
      · simp only [hk]; exact I.nodes
      · simp only [hpe]; exact hpaths
      · simp only [hk]; exact hv
      · intro s h; simp only [hk]; exact h
      · simp only [hpe]; omega
      · intro L _
        simp only [hk]; exact Nat.le_refl _
    · simp only [hf, decide_false, Bool.not_false, Bool.and_true, if_true]
      have hk3 : ((st.map.set v (e.set a n)).set n ([] : Dict α σ)).keys = st.map.keys ++ [n] := by
        rw [keys_set_fresh (by rw [hk]; exact hf), hk]
      have hk4 : ((st.attrs.set v (t.set a (d.info v a n))).set n ([] : Dict α ν)).keys = st.map.keys ++ [n] := by
        rw [keys_set_fresh (by rw [hk2]; exact hf), hk2]
      have hnv : n ≠ v := by rintro h; exact hf (h ▸ hv)
      have hni : n ≠ init := by rintro h; exact hf (h ▸ I.start)
      have hpn : upd pre v a n = [] := hempty n hf
      have hns : n ∉ st.stack := fun h => hf (I.stk n h).1
      have hset : (st.map.set v (e.set a n)).set n ([] : Dict α σ) = st.map.set v (e.set a n) ++ [(n, [])] :=
        set_fresh (by rw [hk]; exact hf) _
      refine ⟨_, rfl, ⟨?_, ?_, ?_, ?_, ?_, ?_, ?_, ?_, ?_, ?_, hsubu, ?_, ?_, ?_, ?_⟩, ?_, ?_, ?_, ?_, ?_⟩
      · show Dict.keys _ |>.Nodup
        exact Dict.nodup_keys_set _ _ (hk ▸ I.nodup)
      · exact hk4.trans hk3.symm
      · simp only [hk3]; exact List.mem_append_left _ I.start
      · simp only [hk3]
        intro s h
        rcases List.mem_append.1 h with h | h
        · exact I.reach s h
        · rw [List.mem_singleton.1 h]; exact hreach
      · intro s e' h
        simp only [Dict.get?_set _ n] at h
        by_cases hsn : s = n
        · subst hsn
          simp only [if_true, Option.some.injEq] at h
          subst h
          refine ⟨by simp [Dict.keys], fun b m => ?_⟩
          rw [hpn]; simp
        · simp only [hsn, if_false] at h
          exact hrow' s e' h
      · intro s t' h
        simp only [Dict.get?_set _ n] at h
        by_cases hsn : s = n
        · subst hsn
          simp only [if_true, Option.some.injEq] at h
          subst h
          intro b m
          rw [hpn]; simp
        · simp only [hsn, if_false] at h
          exact harow' s t' h
      · intro s h
        simp only [hk3]
        have hcase : s ∈ st.stack ∨ (s = n ∧ d.goal n = false) := by
          by_cases hgn : d.goal n = true
          · simp [hgn] at h; exact Or.inl h
          · simp only [Bool.not_eq_true] at hgn
            simp [hgn] at h
            rcases h with h | h
            · exact Or.inr ⟨h, hgn⟩
            · exact Or.inl h
        rcases hcase with h1 | ⟨h1, h2⟩
        · rw [hne s (by rintro rfl; exact hs h1)]
          have := I.stk s h1
          exact ⟨List.mem_append_left _ this.1, this.2⟩
        · rw [h1]
          exact ⟨by simp, hpn, Or.inr h2⟩
      · show List.Nodup (if _ then _ else _)
        split
        · exact List.nodup_cons.2 ⟨hns, I.stkN⟩
        · exact I.stkN
      · intro s h
        simp only [hk3] at h
        rcases List.mem_append.1 h with h | h
        · by_cases hsv : s = v
          · exact Or.inr (Or.inl (by rw [hsv]))
          · rw [hne s hsv]
            rcases I.part s h with h | h
            · left
              show s ∈ (if _ then _ else _)
              split
              · exact List.mem_cons_of_mem _ h
              · exact h
            · exact Or.inr h
        · rw [List.mem_singleton.1 h]
          by_cases hgn : d.goal n = true
          · exact Or.inr (Or.inr (Or.inr ⟨hpn, hgn, hni⟩))
          · left
            show n ∈ (if _ then _ else _)
            rw [if_pos (by simp [hgn])]
            exact List.mem_cons_self
      · intro s b h
        simp only [hk3]
        rcases upd_mem.1 h with h | ⟨rfl, rfl⟩
        · exact List.mem_append_left _ (I.closed s b h)
        · exact List.mem_append_right _ (by simp [hn])
      · intro s h
        simp only [hk3] at h
        exact hempty s (fun h' => h (List.mem_append_left _ h'))
      · simp only [hk3, List.length_append, List.length_singleton]
        rw [I.nodes]
      · simp only [hset, List.map_append, List.sum_append]
        rw [← hedges]; simp
      · simp only [hset, List.map_append, List.sum_append]
        rw [hpe, hpaths]; simp
      · simp only [hk3]; exact List.mem_append_left _ hv
      · show v ∉ (if _ then _ else _)
        split
        · intro h
          rcases List.mem_cons.1 h with h | h
          · exact hnv h.symm
          · exact hs h
        · exact hs
      · intro s h; simp only [hk3]; exact List.mem_append_left _ h
      · simp only [hpe]; omega
      · intro L hL
        simp only [hk3]
        have h1 : (L.filter fun s => decide (s ∉ st.map.keys ++ [n])).length + 1 ≤ (L.filter fun s => decide (s ∉ st.map.keys)).length := by
          clear hset hk3 hk4 hpn hrow' harow' hpaths hedges hs1 hs2
          induction L with
          | nil => simp at hL
          | cons x L ih =>
            by_cases hx : x = n
            · rw [hx]
              have : (L.filter fun s => decide (s ∉ st.map.keys ++ [n])).length ≤ (L.filter fun s => decide (s ∉ st.map.keys)).length := by
                apply List.Sublist.length_le
                apply List.monotone_filter_right
                intro y hy
                simp at hy ⊢
                exact hy.1
              simp only [List.filter_cons]
              simp [hf] at this ⊢
              exact this
            · have hL' : n ∈ L := by
                rcases List.mem_cons.1 hL with h | h
                · exact absurd h.symm hx
                · exact h
              have := ih hL'
              by_cases hxk : x ∈ st.map.keys
              · simp [hxk] at this ⊢; exact this
              · simp [hxk, hx] at this ⊢; exact this
        have h2 : (if (!d.goal n) = true then n :: st.stack else st.stack).length ≤ st.stack.length + 1 := by
          split <;> simp
        show _ + List.length (if _ then _ else _) ≤ _
        omega

/-- The number of states of `L` still unknown and of states on the stack. -/
def left (L : List σ) (st : St σ α ν) : Nat := (L.filter fun s => decide (s ∉ st.map.keys)).length + st.stack.length

theorem acts_fold {d : Dom σ α ν} {init v : σ} (hg : v = init ∨ d.goal v = false) (l : List α) :
    ∀ {pre : σ → List α} {st : St σ α ν}, Inv d init pre (some v) st → v ∈ st.map.keys → v ∉ st.stack → (∀ a ∈ l, a ∈ d.acts v) →
    ∃ st' pre', l.foldlM (act d v) st = .ok st' ∧ Inv d init pre' (some v) st' ∧ pre' v = pre v ++ l ∧ v ∉ st'.stack ∧
      (∀ s ∈ st.map.keys, s ∈ st'.map.keys) ∧ st.paths ≤ st'.paths ∧
      ∀ L : List σ, (∀ a ∈ l, d.next v a ∈ L) → left L st' ≤ left L st := by
  induction l with
  | nil =>
    intro pre st I _ hs _
    exact ⟨st, pre, rfl, I, by simp, hs, fun _ h => h, Nat.le_refl _, fun _ _ => Nat.le_refl _⟩
  | cons a l ih =>
    intro pre st I hv hs hl
    obtain ⟨st1, h1, I1, hv1, hs1, hk1, hp1, hm1⟩ := act_step I hv hs hg (hl a (by simp))
    obtain ⟨st2, pre2, h2, I2, he2, hs2, hk2, hp2, hm2⟩ := ih I1 hv1 hs1 (fun b hb => hl b (by simp [hb]))
    refine ⟨st2, pre2, ?_, I2, ?_, hs2, fun s h => hk2 s (hk1 s h), Nat.le_trans hp1 hp2, ?_⟩
    · rw [List.foldlM_cons, h1, bind_ok]; exact h2
    · rw [he2]; simp [upd]
    · intro L hL
      exact Nat.le_trans (hm2 L fun b hb => hL b (by simp [hb])) (hm1 L (hL a (by simp)))

theorem vertex_step {d : Dom σ α ν} {init v : σ} {rest : List σ} {pre : σ → List α} {st : St σ α ν} (I : Inv d init pre none st)
    (hst : st.stack = v :: rest) :
    ∃ st' pre', (d.acts v).foldlM (act d v) { st with stack := rest } = .ok st' ∧ Inv d init pre' none st' ∧
      (∀ s ∈ st.map.keys, s ∈ st'.map.keys) ∧ st.paths ≤ st'.paths ∧
      ∀ L : List σ, (∀ a ∈ d.acts v, d.next v a ∈ L) → left L st' < left L st := by
  have hv := I.stk v (by simp [hst])
  have hN := I.stkN
  rw [hst, List.nodup_cons] at hN
  have I0 : Inv d init pre (some v) { st with stack := rest } := by
    refine ⟨I.nodup, I.same, I.start, I.reach, I.row, I.arow, ?_, hN.2, ?_, I.closed, I.sub, I.out, I.nodes, I.edges, I.paths⟩
    · intro s h; exact I.stk s (by rw [hst]; exact List.mem_cons_of_mem _ h)
    · intro s h
      rcases I.part s h with h | h | h
      · rw [hst] at h
        rcases List.mem_cons.1 h with h | h
        · exact Or.inr (Or.inl (by rw [h]))
        · exact Or.inl h
      · cases h
      · exact Or.inr (Or.inr h)
  obtain ⟨st', pre', h1, I1, he, hs, hk, hp, hm⟩ := acts_fold hv.2.2 (d.acts v) I0 hv.1 hN.1 (fun _ h => h)
  rw [hv.2.1, List.nil_append] at he
  refine ⟨st', pre', h1, ?_, hk, hp, ?_⟩
  · refine ⟨I1.nodup, I1.same, I1.start, I1.reach, I1.row, I1.arow, I1.stk, I1.stkN, ?_, I1.closed, I1.sub, I1.out, I1.nodes,
      I1.edges, I1.paths⟩
    intro s h
    rcases I1.part s h with h | h | h
    · exact Or.inl h
    · cases h
      exact Or.inr (Or.inr (Or.inl ⟨he, hv.2.2⟩))
    · exact Or.inr (Or.inr h)
  · intro L hL
    have := hm L hL
    have h2 : left L st = left L ({ st with stack := rest } : St σ α ν) + 1 := by
      simp only [left, hst, List.length_cons]; omega
    omega

theorem first_inv (d : Dom σ α ν) (init : σ) : Inv d init (fun _ => []) none (first init : St σ α ν) := by
  refine ⟨by simp [first, Dict.keys], rfl, by simp [first, Dict.keys], ?_, ?_, ?_, ?_, by simp [first], ?_, ?_, ?_, ?_, rfl, rfl, rfl⟩
  · intro s h
    simp [first, Dict.keys] at h
    subst h; exact .init
  · intro s e h
    simp only [first, Dict.get?] at h
    split at h
    · cases h
      exact ⟨by simp [Dict.keys], by simp⟩
    · cases h
  · intro s e h
    simp only [first, Dict.get?] at h
    split at h
    · cases h; simp
    · cases h
  · intro s h
    simp [first] at h
    subst h
    exact ⟨by simp [first, Dict.keys], rfl, Or.inl rfl⟩
  · intro s h
    simp [first, Dict.keys] at h
    exact Or.inl (by simp [first, h])
  · intro s a h; cases h
  · intro s a h; cases h
  · intro s _; rfl

theorem loop_inv {d : Dom σ α ν} {l : Limits} {init : σ} (fuel : Nat) : ∀ {pre : σ → List α} {st st' : St σ α ν},
    Inv d init pre none st → loop d l fuel st = .ok (some st') →
    ∃ pre', Inv d init pre' none st' ∧ (st'.stack = [] ∨ stop l st' = .ok true) ∧ ∀ s ∈ st.map.keys, s ∈ st'.map.keys := by
  induction fuel with
  | zero => intro pre st st' _ h; cases h
  | succ fuel ih =>
    intro pre st st' I h
    unfold loop at h
    split at h
    · rename_i hst
      cases h
      exact ⟨pre, I, Or.inl hst, fun _ h => h⟩
    · rename_i v rest hst
      obtain ⟨st1, pre1, h1, I1, hk, _, _⟩ := vertex_step I hst
      rw [h1, bind_ok] at h
      obtain ⟨b, hb, h⟩ := bind_eq_ok.1 h
      cases b with
      | true =>
        rw [if_pos rfl] at h
        cases h
        exact ⟨pre1, I1, Or.inr hb, hk⟩
      | false =>
        rw [if_neg (by simp)] at h
        obtain ⟨p2, I2, h2, hk2⟩ := ih I1 h
        exact ⟨p2, I2, h2, fun s hs => hk2 s (hk s hs)⟩

omit [DecidableEq σ] [DecidableEq α] in
theorem stop_total {e n p : Nat} (st : St σ α ν) : stop ⟨some e, some n, some p⟩ st =
    .ok (decide (st.paths > p ∨ (st.paths ≥ 1 ∧ (st.nodes > n ∨ st.edges > e)))) := by
  unfold stop over
  simp only [bind_ok]
  by_cases h1 : st.paths > p
  · simp [h1]
  · by_cases h2 : st.paths ≥ 1
    · by_cases h3 : st.nodes > n <;> simp [h1, h2, h3]
    · have : st.paths = 0 := by omega
      simp [this]

theorem loop_safe {d : Dom σ α ν} {e n p : Nat} {init : σ} (fuel : Nat) : ∀ {pre : σ → List α} {st : St σ α ν},
    Inv d init pre none st → ∃ r, loop d ⟨some e, some n, some p⟩ fuel st = .ok r := by
  induction fuel with
  | zero => intro pre st _; exact ⟨none, rfl⟩
  | succ fuel ih =>
    intro pre st I
    unfold loop
    split
    · exact ⟨_, rfl⟩
    · rename_i v rest hst
      obtain ⟨st1, pre1, h1, I1, hk, _, _⟩ := vertex_step I hst
      rw [h1, bind_ok, stop_total, bind_ok]
      split
      · exact ⟨_, rfl⟩
      · exact ih I1

theorem loop_ends {d : Dom σ α ν} {l : Limits} {init : σ} {L : List σ} (hL : ∀ s, Reach d init s → s ∈ L) (fuel : Nat) :
    ∀ {pre : σ → List α} {st : St σ α ν}, Inv d init pre none st → left L st < fuel → loop d l fuel st ≠ .ok none := by
  induction fuel with
  | zero => intro pre st _ h; omega
  | succ fuel ih =>
    intro pre st I h h0
    unfold loop at h0
    split at h0
    · cases h0
    · rename_i v rest hst
      obtain ⟨st1, pre1, h1, I1, hk, _, hm⟩ := vertex_step I hst
      rw [h1, bind_ok] at h0
      obtain ⟨b, hb, h0⟩ := bind_eq_ok.1 h0
      cases b with
      | true => rw [if_pos rfl] at h0; cases h0
      | false =>
        rw [if_neg (by simp)] at h0
        have hv := I.stk v (by simp [hst])
        have := hm L (fun a ha => hL _ (.step (I.reach v hv.1) hv.2.2 ha))
        exact ih I1 (by omega) h0

theorem inv_complete {d : Dom σ α ν} {init : σ} {pre : σ → List α} {st : St σ α ν} (I : Inv d init pre none st) (h : st.stack = []) :
    ∀ s, Reach d init s → s ∈ st.map.keys ∧ ((s = init ∨ d.goal s = false) → pre s = d.acts s) := by
  have key : ∀ s ∈ st.map.keys, (s = init ∨ d.goal s = false) → pre s = d.acts s := by
    intro s hs hg
    rcases I.part s hs with h1 | h1 | h1 | h1
    · rw [h] at h1; cases h1
    · cases h1
    · exact h1.1
    · rcases hg with hg | hg
      · exact absurd hg h1.2.2
      · rw [hg] at h1; cases h1.2.1
  intro s hr
  suffices s ∈ st.map.keys from ⟨this, key s this⟩
  induction hr with
  | init => exact I.start
  | step hr hg ha ih =>
    apply I.closed
    rw [key _ ih hg]
    exact ha

theorem inv_no_goal {d : Dom σ α ν} {init : σ} {pre : σ → List α} {o : Option σ} {st : St σ α ν} (I : Inv d init pre o st)
    (hi : ∀ s a, Reach d init s → a ∈ d.acts s → d.goal (d.next s a) = false) :
    st.paths = 0 := by
  rw [I.paths]
  have : ∀ q ∈ st.map, (q.2.filter fun r => d.goal r.2).length = 0 := by
    intro q hq
    have h1 := Dict.get?_of_mem I.nodup hq
    have h2 := I.row q.1 q.2 h1
    simp only [List.length_eq_zero_iff, List.filter_eq_nil_iff]
    intro r hr
    have h3 := (h2.2 r.1 r.2).1 (Dict.get?_of_mem h2.1 hr)
    rw [h3.2, hi q.1 r.1 (I.reach _ (mem_keys.2 ⟨_, h1⟩)) (I.sub _ _ h3.1)]
    simp
  generalize st.map = m at this
  induction m with
  | nil => rfl
  | cons q m ih =>
    simp only [List.map_cons, List.sum_cons]
    rw [this q (by simp), ih (fun q hq => this q (by simp [hq]))]

/-! ### The other deterministic explorer -/

structure FInv (d : Dom σ α ν) (init : σ) (l : List α) (st : St σ α ν) : Prop where
  stack : st.stack = []
  row : ∃ e, st.map.get? init = some e ∧ ∀ a n, e.get? a = some n ↔ a ∈ l ∧ n = d.next init a
  arow : ∃ e, st.attrs.get? init = some e
  other : ∀ s e, s ≠ init → st.map.get? s = some e → e = []
  keys : ∀ s, s ∈ st.map.keys ↔ s = init ∨ ∃ a ∈ l, s = d.next init a

theorem fullAct_step {d : Dom σ α ν} {init : σ} {l : List α} {st : St σ α ν} (I : FInv d init l st) (a : α) :
    ∃ st', fullAct d init st a = .ok st' ∧ FInv d init (l ++ [a]) st' := by
  obtain ⟨e, he, hrow⟩ := I.row
  obtain ⟨t, ht⟩ := I.arow
  unfold fullAct
  set n := d.next init a with hn
  simp only []
  have hi : init ∈ st.map.keys := mem_keys.2 ⟨_, he⟩
  have hm0 : (if (!st.map.contains n) = true then st.map.set n [] else st.map).get? init = some e := by
    split
    · rename_i h
      rw [contains_keys] at h
      rw [Dict.get?_set_ne]
      · exact he
      · rintro h'; simp [← h', hi] at h
    · exact he
  have ht0 : ∃ t', (if (!st.map.contains n) = true then st.attrs.set n [] else st.attrs).get? init = some t' := by
    split
    · rw [Dict.get?_set]
      split
      · exact ⟨_, rfl⟩
      · exact ⟨_, ht⟩
    · exact ⟨_, ht⟩
  obtain ⟨t', ht'⟩ := ht0
  have hkm : ∀ s, s ∈ (if (!st.map.contains n) = true then st.map.set n [] else st.map).keys ↔ s ∈ st.map.keys ∨ s = n := by
    intro s
    rw [contains_keys]
    by_cases h : n ∈ st.map.keys
    · simp only [h, decide_true, Bool.not_true, Bool.false_eq_true, if_false]
      constructor
      · exact Or.inl
      · rintro (h' | rfl)
        · exact h'
        · exact h
    · simp only [h, decide_false, Bool.not_false, if_true]
      rw [keys_set_fresh h]; simp
  have hoth : ∀ s e', s ≠ init → (if (!st.map.contains n) = true then st.map.set n [] else st.map).get? s = some e' → e' = [] := by
    intro s e' hs h
    split at h
    · rw [Dict.get?_set] at h
      split at h
      · cases h; rfl
      · exact I.other s e' hs h
    · exact I.other s e' hs h
  generalize (if (!st.map.contains n) = true then st.map.set n [] else st.map) = m0 at hm0 hkm hoth
  generalize (if (!st.map.contains n) = true then st.attrs.set n [] else st.attrs) = t0 at ht'
  rw [Dict.get_ok_iff.2 hm0, bind_ok, put_ok hm0, bind_ok, put_ok ht', bind_ok]
  have hi0 : init ∈ m0.keys := mem_keys.2 ⟨_, hm0⟩
  have hkk : (m0.set init (e.set a n)).keys = m0.keys := keys_set_mem hi0 _
  refine ⟨_, rfl, ⟨?_, ?_, ?_, ?_, ?_⟩⟩
  · show (if _ then _ else _) = _
    rw [contains_keys, hkk, if_neg, I.stack]
    have : n ∈ m0.keys := (hkm n).2 (Or.inr rfl)
    simp [this]
  · refine ⟨_, Dict.get?_set_self _ _ _, fun b m => ?_⟩
    rw [Dict.get?_set]
    by_cases hb : b = a
    · subst hb; simp [hn, eq_comm]
    · simp only [hb, if_false, List.mem_append, List.mem_singleton, or_false]
      exact hrow b m
  · exact ⟨_, Dict.get?_set_self _ _ _⟩
  · intro s e' hs h
    simp only [Dict.get?_set_ne _ _ hs] at h
    exact hoth s e' hs h
  · intro s
    simp only [hkk, hkm, I.keys, List.mem_append, List.mem_singleton]
    constructor
    · rintro ((h | ⟨b, hb, h⟩) | h)
      · exact Or.inl h
      · exact Or.inr ⟨b, Or.inl hb, h⟩
      · exact Or.inr ⟨a, Or.inr rfl, h⟩
    · rintro (h | ⟨b, hb | hb, h⟩)
      · exact Or.inl (Or.inl h)
      · exact Or.inl (Or.inr ⟨b, hb, h⟩)
      · subst hb; exact Or.inr h

theorem full_fold {d : Dom σ α ν} {init : σ} (l : List α) : ∀ {l0 : List α} {st : St σ α ν}, FInv d init l0 st →
    ∃ st', l.foldlM (fullAct d init) st = .ok st' ∧ FInv d init (l0 ++ l) st' := by
  induction l with
  | nil => intro l0 st I; exact ⟨st, rfl, by simpa using I⟩
  | cons a l ih =>
    intro l0 st I
    obtain ⟨st1, h1, I1⟩ := fullAct_step I a
    obtain ⟨st2, h2, I2⟩ := ih I1
    refine ⟨st2, ?_, by simpa using I2⟩
    rw [List.foldlM_cons, h1, bind_ok]; exact h2

theorem full_first (d : Dom σ α ν) (init : σ) :
    ∃ st', (d.acts init).foldlM (fullAct d init) { (first init : St σ α ν) with stack := [] } = .ok st' ∧ FInv d init (d.acts init) st' := by
  have I : FInv d init [] { (first init : St σ α ν) with stack := [] } := by
    refine ⟨rfl, ⟨[], by simp [first, Dict.get?], by simp⟩, ⟨[], by simp [first, Dict.get?]⟩, ?_, ?_⟩
    · intro s e hs h
      simp [first, Dict.get?, Ne.symm hs] at h
    · intro s; simp [first, Dict.keys]
  obtain ⟨st', h1, I1⟩ := full_fold (d.acts init) I
  exact ⟨st', h1, by simpa using I1⟩

/-! ### Merging -/

/-- The entry for a state and an action. -/
def entry {κ : Type} (m : Dict σ (Dict α κ)) (s : σ) (a : α) : Option κ := (m.get? s).bind fun e => e.get? a

theorem entry_set {κ : Type} (m : Dict σ (Dict α κ)) (k s : σ) (e : Dict α κ) (a : α) :
    entry (m.set k e) s a = if s = k then e.get? a else entry m s a := by
  unfold entry
  rw [Dict.get?_set]
  split <;> simp

/-- Each transition has attributes, and the other way round. -/
structure Agree (g : Graph σ α) : Prop where
  keys : ∀ s, s ∈ g.attrs.keys ↔ s ∈ g.map.keys
  entries : ∀ s a, (entry g.attrs s a).isSome = (entry g.map s a).isSome

theorem mergeActs_spec {other : Graph σ α} {k : σ} {f : Dict α (Dict (Option String) Int)} (hf : other.attrs.get? k = some f)
    (r : List (α × σ)) : ∀ {g : Graph σ α}, Agree g → k ∈ g.map.keys → (∀ q ∈ r, (f.get? q.1).isSome) → (Dict.keys r).Nodup →
    ∃ g', mergeActs other k r g = .ok g' ∧ Agree g' ∧ (∀ s, s ∈ g'.map.keys ↔ s ∈ g.map.keys) ∧
      g'.targets = g.targets ∧ g'.weight = g.weight ∧
      (∀ s a, entry g'.map s a = (entry g.map s a).or (if s = k then Dict.get? r a else none)) ∧
      (∀ s a, entry g'.attrs s a = (entry g.attrs s a).or (if s = k ∧ a ∈ Dict.keys r then f.get? a else none)) := by
  induction r with
  | nil =>
    intro g hg _ _ _
    exact ⟨g, rfl, hg, fun _ => Iff.rfl, rfl, rfl, by simp, by simp [Dict.keys]⟩
  | cons q r ih =>
    obtain ⟨a, n⟩ := q
    intro g hg hk hr hN
    obtain ⟨e, he⟩ := mem_keys.1 hk
    obtain ⟨t, ht⟩ := mem_keys.1 ((hg.keys k).2 hk)
    simp only [Dict.keys, List.map_cons, List.nodup_cons] at hN
    have hN2 : a ∉ Dict.keys r := hN.1
    have hra : Dict.get? r a = none := not_mem_keys.1 hN2
    have hent : (entry g.map k a).isSome = decide (a ∈ e.keys) := by
      simp only [entry, he, Option.bind_some]
      rw [Bool.eq_iff_iff, Dict.get?_isSome_iff_mem_keys, decide_eq_true_iff]
    have hent2 := hg.entries k a
    simp only [mergeActs]
    rw [Dict.get_ok_iff.2 he, bind_ok, contains_keys]
    by_cases hc : a ∈ e.keys
    · simp only [hc, decide_true, if_true]
      obtain ⟨g', h1, h2, h3, h4, h5, h6, h7⟩ := ih hg hk (fun q hq => hr q (by simp [hq])) hN.2
      simp only [hc, decide_true] at hent
      refine ⟨g', h1, h2, h3, h4, h5, ?_, ?_⟩
      · intro s b
        rw [h6]
        by_cases hs : s = k
        · subst hs
          simp only [if_true, Dict.get?]
          by_cases hb : a = b
          · subst hb
            obtain ⟨x, hx⟩ := Option.isSome_iff_exists.1 hent
            simp [hx]
          · simp [hb]
        · simp [hs]
      · intro s b
        rw [h7]
        by_cases hs : s = k
        · subst hs
          by_cases hb : b = a
          · subst hb
            rw [hent] at hent2
            obtain ⟨x, hx⟩ := Option.isSome_iff_exists.1 hent2
            simp [hx]
          · simp [mem_keys_cons, hb]
        · simp [hs]
    · simp only [hc, decide_false] at hent
      simp only [hc, decide_false, Bool.false_eq_true, if_false]
      obtain ⟨x, hx⟩ := Option.isSome_iff_exists.1 (hr (a, n) (by simp))
      simp only at hx
      rw [put_ok he, bind_ok, Dict.get_ok_iff.2 hf, bind_ok, Dict.get_ok_iff.2 hx, bind_ok, put_ok ht, bind_ok]
      have hk1 : ∀ s, s ∈ (g.map.set k (e.set a n)).keys ↔ s ∈ g.map.keys := by
        intro s; rw [keys_set_mem hk]
      have hk2 : ∀ s, s ∈ (g.attrs.set k (t.set a x)).keys ↔ s ∈ g.attrs.keys := by
        intro s; rw [keys_set_mem ((hg.keys k).2 hk)]
      have em : ∀ s b, entry (g.map.set k (e.set a n)) s b = if s = k ∧ b = a then some n else entry g.map s b := by
        intro s b
        rw [entry_set]
        by_cases hs : s = k
        · subst hs
          simp only [if_true, true_and, Dict.get?_set]
          split
          · rfl
          · simp [entry, he]
        · simp [hs]
      have ea : ∀ s b, entry (g.attrs.set k (t.set a x)) s b = if s = k ∧ b = a then some x else entry g.attrs s b := by
        intro s b
        rw [entry_set]
        by_cases hs : s = k
        · subst hs
          simp only [if_true, true_and, Dict.get?_set]
          split
          · rfl
          · simp [entry, ht]
        · simp [hs]
      have hg1 : Agree ({ g with map := g.map.set k (e.set a n), attrs := g.attrs.set k (t.set a x) } : Graph σ α) := by
        refine ⟨fun s => ?_, fun s b => ?_⟩
        · simp only [hk1, hk2]; exact hg.keys s
        · simp only [em, ea]
          split
          · rfl
          · exact hg.entries s b
      obtain ⟨g', h1, h2, h3, h4, h5, h6, h7⟩ := ih hg1 ((hk1 k).2 hk) (fun q hq => hr q (by simp [hq])) hN.2
      refine ⟨g', h1, h2, fun s => (h3 s).trans (hk1 s), h4, h5, ?_, ?_⟩
      · intro s b
        rw [h6]
        simp only [em]
        by_cases hs : s = k
        · subst hs
          by_cases hb : b = a
          · subst hb
            have : entry g.map s b = none := by simpa using hent
            simp [this, Dict.get?]
          · simp [hb, Dict.get?, Ne.symm hb]
        · simp [hs]
      · intro s b
        rw [h7]
        simp only [ea]
        by_cases hs : s = k
        · subst hs
          by_cases hb : b = a
          · subst hb
            have : entry g.attrs s b = none := by
              rw [hent] at hent2; simpa using hent2
            simp [this, mem_keys_cons, hx]
          · simp [hb, mem_keys_cons]
        · simp [hs]

theorem merge_fold {other : Graph σ α} (ho : Agree other) (hoN : ∀ s e, other.map.get? s = some e → e.keys.Nodup)
    (rest : Dict σ (Dict α σ)) : ∀ {g : Graph σ α}, Agree g → rest.keys.Nodup → (∀ q ∈ rest, other.map.get? q.1 = some q.2) →
    ∃ g', rest.foldlM (fun g q => if g.map.contains q.1 then mergeActs other q.1 q.2 g
        else do
          let t ← other.attrs.get q.1
          .ok { g with map := g.map.set q.1 q.2, attrs := g.attrs.set q.1 t }) g = Except.ok (ε := PyErr) g' ∧ Agree g' ∧
      (∀ s, s ∈ g'.map.keys ↔ s ∈ g.map.keys ∨ s ∈ rest.keys) ∧ g'.targets = g.targets ∧ g'.weight = g.weight ∧
      (∀ s a, entry g'.map s a = (entry g.map s a).or (if s ∈ rest.keys then entry other.map s a else none)) ∧
      (∀ s a, entry g'.attrs s a = (entry g.attrs s a).or (if s ∈ rest.keys then entry other.attrs s a else none)) := by
  induction rest with
  | nil =>
    intro g hg _ _
    exact ⟨g, rfl, hg, by simp [Dict.keys], rfl, rfl, by simp [Dict.keys], by simp [Dict.keys]⟩
  | cons q rest ih =>
    obtain ⟨k, row⟩ := q
    intro g hg hN hq
    have hN' := hN
    simp only [Dict.keys, List.map_cons, List.nodup_cons] at hN'
    have hkr : k ∉ Dict.keys rest := hN'.1
    have hrow : other.map.get? k = some row := hq (k, row) (by simp)
    obtain ⟨f, hf⟩ := mem_keys.1 ((ho.keys k).2 (mem_keys.2 ⟨_, hrow⟩))
    have hfr : ∀ a, (f.get? a).isSome = decide (a ∈ row.keys) := by
      intro a
      have := ho.entries k a
      simp only [entry, hf, hrow, Option.bind_some] at this
      rw [this, Bool.eq_iff_iff, Dict.get?_isSome_iff_mem_keys, decide_eq_true_iff]
    have step : ∃ g1, (if g.map.contains k then mergeActs other k row g
        else do
          let t ← other.attrs.get k
          .ok { g with map := g.map.set k row, attrs := g.attrs.set k t }) = Except.ok (ε := PyErr) g1 ∧ Agree g1 ∧
      (∀ s, s ∈ g1.map.keys ↔ s ∈ g.map.keys ∨ s = k) ∧ g1.targets = g.targets ∧ g1.weight = g.weight ∧
      (∀ s a, entry g1.map s a = (entry g.map s a).or (if s = k then entry other.map s a else none)) ∧
      (∀ s a, entry g1.attrs s a = (entry g.attrs s a).or (if s = k then entry other.attrs s a else none)) := by
      rw [contains_keys]
      by_cases hk : k ∈ g.map.keys
      · simp only [hk, decide_true, if_true]
        obtain ⟨g', h1, h2, h3, h4, h5, h6, h7⟩ := mergeActs_spec hf row hg hk (by
          intro q hq
          rw [hfr]
          simp only [decide_eq_true_iff]
          exact List.mem_map.2 ⟨q, hq, rfl⟩) (hoN k row hrow)
        refine ⟨g', h1, h2, ?_, h4, h5, ?_, ?_⟩
        · intro s
          rw [h3]
          constructor
          · exact Or.inl
          · rintro (h | rfl)
            · exact h
            · exact hk
        · intro s a
          rw [h6]
          by_cases hs : s = k
          · subst hs; simp [entry, hrow]
          · simp [hs]
        · intro s a
          rw [h7]
          by_cases hs : s = k
          · subst hs
            simp only [true_and, if_true, entry, hf, Option.bind_some]
            congr 1
            split
            · rfl
            · rename_i h
              have := hfr a
              simp only [h, decide_false] at this
              cases hfa : f.get? a with
              | none => rfl
              | some x => rw [hfa] at this; cases this
          · simp [hs]
      · simp only [hk, decide_false, Bool.false_eq_true, if_false]
        rw [Dict.get_ok_iff.2 hf, bind_ok]
        have hk' : k ∉ g.attrs.keys := fun h => hk ((hg.keys k).1 h)
        refine ⟨_, rfl, ⟨?_, ?_⟩, ?_, rfl, rfl, ?_, ?_⟩
        · intro s
          show s ∈ (g.attrs.set k f).keys ↔ s ∈ (g.map.set k row).keys
          rw [keys_set_fresh hk, keys_set_fresh hk']
          simp [hg.keys s]
        · intro s a
          show (entry (g.attrs.set k f) s a).isSome = (entry (g.map.set k row) s a).isSome
          rw [entry_set, entry_set]
          by_cases hs : s = k
          · simp only [hs, if_true]
            rw [hfr, Bool.eq_iff_iff, Dict.get?_isSome_iff_mem_keys, decide_eq_true_iff]
          · simp only [hs, if_false]; exact hg.entries s a
        · intro s
          show s ∈ (g.map.set k row).keys ↔ _
          rw [keys_set_fresh hk]; simp
        · intro s a
          show entry (g.map.set k row) s a = _
          rw [entry_set]
          by_cases hs : s = k
          · subst hs; simp [entry, hrow, not_mem_keys.1 hk]
          · simp [hs]
        · intro s a
          show entry (g.attrs.set k f) s a = _
          rw [entry_set]
          by_cases hs : s = k
          · subst hs; simp [entry, hf, not_mem_keys.1 hk']
          · simp [hs]
    obtain ⟨g1, h1, h2, h3, h4, h5, h6, h7⟩ := step
    obtain ⟨g2, k1, k2, k3, k4, k5, k6, k7⟩ := ih h2 hN'.2 (fun q hq' => hq q (by simp [hq']))
    refine ⟨g2, ?_, k2, ?_, k4.trans h4, k5.trans h5, ?_, ?_⟩
    · rw [List.foldlM_cons]
      simp only
      rw [h1, bind_ok]; exact k1
    · intro s
      rw [k3, h3]
      simp only [Dict.keys, List.map_cons, List.mem_cons]
      exact or_assoc
    · intro s a
      rw [k6, h6]
      by_cases hs : s = k
      · subst hs
        simp [hkr, mem_keys_cons]
      · simp [hs, mem_keys_cons]
    · intro s a
      rw [k7, h7]
      by_cases hs : s = k
      · subst hs
        simp [hkr, mem_keys_cons]
      · simp [hs, mem_keys_cons]

end Verif.Explore
