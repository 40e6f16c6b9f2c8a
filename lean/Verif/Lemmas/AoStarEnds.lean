import Verif.Lemmas.AoStarLoop
import Mathlib.Data.Finset.Card
import Mathlib.Logic.Relation

/-! When the loops of the model of aostar.hh end, and that they leave no cycle. -/
namespace Verif.AoStar
open Relation
variable [DecidableEq σ] {m : Mdp σ α} {c : Config σ}

/-! ### Paths in finite graphs without cycles are short -/

/-- All paths from `x` have fewer than `k` steps. -/
def Short (R : β → β → Prop) : Nat → β → Prop
  | 0, _ => False
  | k + 1, x => ∀ y, R x y → Short R k y

theorem Short.mono {R : β → β → Prop} {k k' : Nat} (hk : k ≤ k') {x : β} (h : Short R k x) : Short R k' x := by
  induction k generalizing k' x with
  | zero => exact h.elim
  | succ k ih =>
    cases k' with
    | zero => omega
    | succ k' => exact fun y hy => ih (by omega) (h y hy)

theorem Short.no_cycle {R : β → β → Prop} {k : Nat} {x : β} (h : Short R k x) : ¬ TransGen R x x := by
  have step : ∀ x y, TransGen R x y → ∀ k, Short R (k + 1) x → Short R k y := by
    intro x y hxy
    induction hxy with
    | single hr => exact fun k h => h _ hr
    | tail _ hr ih =>
      intro k h
      have h1 := ih k h
      cases k with
      | zero => exact h1.elim
      | succ k => exact Short.mono (Nat.le_succ _) (h1 _ hr)
  intro hx
  induction k generalizing x with
  | zero => exact h
  | succ k ih => exact ih (step x x hx k h) hx

theorem short_of_acyclic {R : σ → σ → Prop} {S : List σ} (hS : ∀ x y, R x y → y ∈ S) (hac : ∀ x, ¬ TransGen R x x) (x : σ) :
    Short R (S.length + 1) x := by
  classical
  have key : ∀ n x, (S.toFinset.filter (TransGen R x ·)).card ≤ n → Short R (n + 1) x := by
    intro n
    induction n with
    | zero =>
      intro x hx y hy
      have hm : y ∈ S.toFinset.filter (TransGen R x ·) := Finset.mem_filter.2 ⟨List.mem_toFinset.2 (hS x y hy), .single hy⟩
      have := Finset.card_pos.2 ⟨y, hm⟩
      omega
    | succ n ih =>
      intro x hx y hy
      refine ih y ?_
      have hm : y ∈ S.toFinset.filter (TransGen R x ·) := Finset.mem_filter.2 ⟨List.mem_toFinset.2 (hS x y hy), .single hy⟩
      have hlt : (S.toFinset.filter (TransGen R y ·)).card < (S.toFinset.filter (TransGen R x ·)).card := by
        refine Finset.card_lt_card (Finset.ssubset_iff_subset_ne.2 ⟨fun z hz => ?_, fun he => ?_⟩)
        · obtain ⟨h1, h2⟩ := Finset.mem_filter.1 hz
          exact Finset.mem_filter.2 ⟨h1, .head hy h2⟩
        · rw [← he] at hm
          exact hac y (Finset.mem_filter.1 hm).2
      omega
  refine key _ x ((Finset.card_filter_le _ _).trans (List.toFinset_card_le _))

/-- `x` is a parent of `y`. -/
def Edge (g : Graph σ α) (x y : σ) : Prop := x ∈ parentsOf g y

def Acyclic (g : Graph σ α) : Prop := ∀ x, ¬ TransGen (Edge g) x x

theorem SameShape.edge {g g' : Graph σ α} (h : SameShape g g') : Edge g' = Edge g := by
  funext x y; unfold Edge; rw [h.parentsOf]

theorem edge_iff {g : Graph σ α} {x y : σ} : Edge g x y ↔ ∃ n, g.get? y = some n ∧ x ∈ n.parents := by
  unfold Edge parentsOf
  cases g.get? y <;> simp

/-- A successful back-propagation of `k` rounds has followed all paths back to their ends. -/
theorem backprop_short (harr : ∀ l x, x ∈ c.arrange l ↔ x ∈ l) {k : Nat} {F E : List σ} {g g' : Graph σ α}
    (h : backprop m c k F E g = some (.ok g')) : ∀ f ∈ F, Short (fun x y => Edge g y x) k f := by
  induction k generalizing F E g with
  | zero =>
    cases F with
    | nil => simp
    | cons f fs => simp [backprop] at h
  | succ k ih =>
    cases F with
    | nil => simp
    | cons f fs =>
      simp only [backprop] at h
      split at h
      · simp at h
      · rename_i g1 nf hl
        split at h
        · simp at h
        · obtain ⟨hss, hnf⟩ := level_sameShape hl
          intro x hx y hy
          have := ih h y ((hnf y).2 (.inr ⟨x, (harr _ _).2 hx, hy⟩))
          rw [hss.edge] at this
          exact this

theorem transGen_flip {β : Type} {R : β → β → Prop} {x y : β} (h : TransGen R x y) : TransGen (fun a b => R b a) y x := by
  induction h with
  | single h => exact .single h
  | tail _ h ih => exact .head h ih

omit [DecidableEq σ] in
theorem cycle_split {R R' : σ → σ → Prop} {T : List σ} (h : ∀ x y, R' x y → x ∈ T ∨ R x y) {s : σ} (hc : TransGen R' s s) :
    (∃ t ∈ T, TransGen R' t t) ∨ TransGen R s s := by
  have key : ∀ u, TransGen R' s u → TransGen R s u ∨ ∃ t ∈ T, ReflTransGen R' s t ∧ TransGen R' t u := by
    intro u hu
    induction hu with
    | single hr =>
      rcases h _ _ hr with ht | ht
      · exact .inr ⟨s, ht, .refl, .single hr⟩
      · exact .inl (.single ht)
    | @tail b d hp hr ih =>
      rcases ih with ih | ⟨t, ht, h1, h2⟩
      · rcases h _ _ hr with ht | ht
        · exact .inr ⟨b, ht, hp.to_reflTransGen, .single hr⟩
        · exact .inl (.tail ih ht)
      · exact .inr ⟨t, ht, h1, .tail h2 hr⟩
  rcases key s hc with h | ⟨t, ht, h1, h2⟩
  · exact .inr h
  · exact .inl ⟨t, ht, h2.trans_left h1⟩

/-- If the back-propagation succeeds, the expansions made no cycle. -/
theorem round_acyclic (harr : ∀ l x, x ∈ c.arrange l ↔ x ∈ l) {ts E : List σ} {k : Nat} {g g1 g' : Graph σ α} (hac : Acyclic g)
    (hgrew : Grew m ts g g1) (h : backprop m c k (insertAll [] ts) E g1 = some (.ok g')) : Acyclic g' := by
  intro s hs
  rw [(backprop_sameShape h).edge] at hs
  have hnew : ∀ x y, Edge g1 x y → x ∈ ts ∨ Edge g x y := by
    intro x y hxy
    obtain ⟨n, e, hp⟩ := edge_iff.1 hxy
    cases e0 : g.get? y with
    | none => exact .inl ((hgrew.new y n e0 e).2.2.2 x hp)
    | some n0 =>
      obtain ⟨n', e1, -, -, -, -, -, -, -, hp'⟩ := hgrew.old y n0 e0
      rw [e] at e1; cases e1
      rcases hp' x hp with h | h
      · exact .inr (edge_iff.2 ⟨n0, e0, h⟩)
      · exact .inl h
  rcases cycle_split hnew hs with ⟨t, ht, hc⟩ | hc
  · exact (backprop_short harr h t (by rw [mem_insertAll]; exact .inr ht)).no_cycle (transGen_flip hc)
  · exact hac s hc

/-! ### No crash -/

/-- Every state that is no goal can be left. -/
def Escape (m : Mdp σ α) (S : List σ) : Prop :=
  ∀ s ∈ S, m.goal s = false → ∃ a ∈ m.actions s, ∀ o ∈ m.outcomes s a, o.2.2 ≠ s

theorem update_ok {S : List σ} (hesc : Escape m S) {g : Graph σ α} (hsh : Shape m g) {s : σ} {n : Node σ α} (e : g.get? s = some n)
    (hS : s ∈ S) (hacts : n.acts ≠ []) (hng : m.goal s = false) (hfin : ∀ t n, g.get? t = some n → t ≠ s → n.value ≠ none) :
    ∃ g', update m c g s = .ok g' ∧ ∀ t n, g'.get? t = some n → n.value ≠ none := by
  obtain ⟨a, ha, hne⟩ := hesc s hS hng
  have ham : a ∈ n.acts := (((hsh.acts s n e).resolve_left hacts) a).2 ha
  unfold update
  have hacts' : actsOf (modify g s fun n => { n with best := none, value := none }) s = n.acts := by
    unfold actsOf; rw [get?_modify]; simp [e]
  have hf : finite m (modify g s fun n => { n with best := none, value := none }) s a = true := by
    unfold finite
    rw [List.all_eq_true]
    intro o ho
    obtain ⟨n', e', -⟩ := hsh.kids s n e a ham o ho
    unfold value
    rw [get?_modify, if_neg (hne o ho), e']
    exact Option.isSome_iff_ne_none.2 (hfin _ n' e' (hne o ho))
  simp only [hacts']
  split
  · rename_i h0
    have := Mdp.greedy_none h0
    rw [List.filter_eq_nil_iff] at this
    exact absurd hf (this a ham)
  · rename_i b v h0
    refine ⟨_, rfl, fun t nt et => ?_⟩
    by_cases hts : t = s
    · subst hts
      rw [get?_modify, if_pos rfl, get?_modify, if_pos rfl, get?_modify, if_pos rfl, e] at et
      simp only [Option.map_some, Option.some.injEq] at et
      subst et
      simp
    · rw [get?_modify, if_neg hts, get?_modify, if_neg hts, get?_modify, if_neg hts] at et
      exact hfin t nt et hts

theorem level_ok {S : List σ} (hesc : Escape m S) {fs nf : List σ} {g : Graph σ α} (hsh : Shape m g)
    (hin : ∀ t n, g.get? t = some n → n.acts ≠ [] → m.goal t = false)
    (hex : ∀ f ∈ fs, f ∈ S ∧ actsOf g f ≠ []) (hfin : ∀ t n, g.get? t = some n → n.value = none → ∀ f ∈ fs, f = t) :
    ∃ g' nf', level m c fs g nf = .ok (g', nf') ∧ ((fs ≠ [] ∨ ∀ t n, g.get? t = some n → n.value ≠ none) → ∀ t n, g'.get? t = some n → n.value ≠ none) := by
  induction fs generalizing g nf with
  | nil => exact ⟨g, nf, rfl, fun h => h.resolve_left (by simp)⟩
  | cons f fs ih =>
    obtain ⟨hfS, hfa⟩ := hex f List.mem_cons_self
    cases e : g.get? f with
    | none => simp [actsOf, e] at hfa
    | some n =>
      rw [actsOf_eq e] at hfa
      obtain ⟨g1, h1, hfin1⟩ := update_ok (c := c) hesc hsh e hfS hfa (hin f n e hfa) fun t nt et hne hv =>
        hne (hfin t nt et hv f List.mem_cons_self).symm
      have hss := update_sameShape h1
      obtain ⟨g', nf', h2, h3⟩ := ih (nf := insertAll nf (parentsOf g1 f)) (hsh.same hss)
        (fun t nt et ha => by
          obtain ⟨n0, e0, ha0, -⟩ := hss.symm.some et
          exact hin t n0 e0 (ha0 ▸ ha))
        (fun x hx => ⟨(hex x (List.mem_cons_of_mem _ hx)).1, by rw [hss.actsOf]; exact (hex x (List.mem_cons_of_mem _ hx)).2⟩)
        (fun t nt et hv => absurd hv (hfin1 t nt et))
      refine ⟨g', nf', ?_, fun _ => h3 (.inr hfin1)⟩
      simp only [level, h1, bind_ok]
      exact h2

/-- Ended without a crash: either well or with the report of a cycle. -/
def Fine (c : Config σ) (r : Option (Except PyErr (Graph σ α))) : Prop :=
  (∃ g, r = some (.ok g)) ∨ c.detect = true ∧ r = some (.error .runtimeError)

theorem backprop_fine {S : List σ} (hesc : Escape m S) (harr : ∀ l x, x ∈ c.arrange l ↔ x ∈ l) {k : Nat} {F E : List σ} {g : Graph σ α} (hsh : Shape m g)
    (hin : ∀ t n, g.get? t = some n → n.acts ≠ [] → m.goal t = false) (hS : ∀ t n, g.get? t = some n → t ∈ S)
    (hex : ∀ f ∈ F, f ∈ S ∧ actsOf g f ≠ []) (hfin : ∀ t n, g.get? t = some n → n.value = none → ∀ f ∈ F, f = t)
    (h : backprop m c k F E g ≠ none) : Fine c (backprop m c k F E g) := by
  induction k generalizing F E g with
  | zero =>
    cases F with
    | nil => exact .inl ⟨g, by simp [backprop]⟩
    | cons f fs => exact absurd (by simp [backprop]) h
  | succ k ih =>
    cases F with
    | nil => exact .inl ⟨g, by simp [backprop]⟩
    | cons f fs =>
      obtain ⟨g1, nf, hl, hfin1⟩ := level_ok (c := c) hesc (nf := []) (fs := c.arrange (f :: fs)) hsh hin
        (fun x hx => hex x ((harr _ _).1 hx)) (fun t n e hv x hx => hfin t n e hv x ((harr _ _).1 hx))
      have hfin1 := hfin1 (.inl (List.ne_nil_of_mem ((harr (f :: fs) f).2 List.mem_cons_self)))
      simp only [backprop, hl] at h ⊢
      obtain ⟨hss, hnf⟩ := level_sameShape hl
      by_cases hd : (c.detect && nf.any (· ∈ E)) = true
      · rw [if_pos hd]
        exact .inr ⟨(Bool.and_eq_true_iff.1 hd).1, rfl⟩
      · rw [if_neg hd] at h ⊢
        refine ih (hsh.same hss) (fun t nt et ha => ?_) (fun t nt et => ?_) (fun x hx => ?_) (fun t nt et hv => absurd hv (hfin1 t nt et)) h
        · obtain ⟨n0, e0, ha0, -⟩ := hss.symm.some et
          exact hin t n0 e0 (ha0 ▸ ha)
        · obtain ⟨n0, e0, -⟩ := hss.symm.some et
          exact hS t n0 e0
        · rcases (hnf x).1 hx with hx | ⟨y, hy, hxy⟩
          · cases hx
          · obtain ⟨ny, ey, hp⟩ := edge_iff.1 (show Edge g x y from hxy)
            obtain ⟨-, n', e', ha⟩ := hsh.par y ny ey x hp
            exact ⟨hS x n' e', by rw [hss.actsOf, actsOf_eq e']; exact ha⟩

/-! ### Ends -/

theorem backprop_ends_acyclic (harr : ∀ l x, x ∈ c.arrange l ↔ x ∈ l) {k : Nat} {F E : List σ} {g : Graph σ α}
    (h : ∀ f ∈ F, Short (fun x y => Edge g y x) k f) : backprop m c k F E g ≠ none := by
  induction k generalizing F E g with
  | zero =>
    cases F with
    | nil => simp [backprop]
    | cons f fs => exact (h f List.mem_cons_self).elim
  | succ k ih =>
    cases F with
    | nil => simp [backprop]
    | cons f fs =>
      simp only [backprop]
      split
      · simp
      · rename_i g1 nf hl
        split
        · simp
        · obtain ⟨hss, hnf⟩ := level_sameShape hl
          refine ih fun x hx => ?_
          rw [hss.edge]
          rcases (hnf x).1 hx with hx | ⟨y, hy, hxy⟩
          · cases hx
          · exact h y ((harr _ _).1 hy) x hxy

theorem backprop_ends_detect (hdet : c.detect = true) {S : List σ} {k : Nat} {F E : List σ} {g : Graph σ α}
    (hS : ∀ x y, Edge g x y → x ∈ S) (hk : (S.filter (fun x => !decide (x ∈ E))).length < k) : backprop m c k F E g ≠ none := by
  induction k generalizing F E g with
  | zero => omega
  | succ k ih =>
    cases F with
    | nil => simp [backprop]
    | cons f fs =>
      simp only [backprop]
      split
      · simp
      · rename_i g1 nf hl
        split
        · simp
        · rename_i hnd
          obtain ⟨hss, hnf⟩ := level_sameShape hl
          cases nf with
          | nil => cases k <;> simp [backprop]
          | cons x nf =>
            refine ih (fun a b hab => hS a b (by rw [hss.edge] at hab; exact hab)) ?_
            have hxE : x ∉ E := by
              intro hx
              apply hnd
              rw [hdet]
              simp [hx]
            have hxS : x ∈ S := by
              rcases (hnf x).1 List.mem_cons_self with hx | ⟨y, hy, hxy⟩
              · cases hx
              · exact hS x y hxy
            have hlt : (S.filter (fun y => !decide (y ∈ E ++ x :: nf))).length < (S.filter (fun y => !decide (y ∈ E))).length := by
              rw [← List.countP_eq_length_filter, ← List.countP_eq_length_filter]
              have : ∀ (L : List σ), x ∈ L → L.countP (fun y => !decide (y ∈ E ++ x :: nf)) < L.countP (fun y => !decide (y ∈ E)) := by
                intro L
                have hle : ∀ (L : List σ), L.countP (fun y => !decide (y ∈ E ++ x :: nf)) ≤ L.countP (fun y => !decide (y ∈ E)) := by
                  intro L
                  refine List.countP_mono_left fun y _ hy => ?_
                  simp only [Bool.not_eq_true', decide_eq_false_iff_not, List.mem_append, not_or] at hy ⊢
                  exact hy.1
                induction L with
                | nil => intro h; cases h
                | cons z L ihL =>
                  intro hx
                  rw [List.countP_cons, List.countP_cons]
                  by_cases hzx : z = x
                  · subst hzx
                    have h1 := hle L
                    simp [hxE]
                    simp at h1
                    omega
                  · have h1 := ihL ((List.mem_cons.1 hx).resolve_left (Ne.symm hzx))
                    have h2 : (if (!decide (z ∈ E ++ x :: nf)) = true then 1 else 0) ≤ if (!decide (z ∈ E)) = true then 1 else 0 := by
                      by_cases hz : z ∈ E
                      · simp [hz]
                      · simp [hz]; split <;> omega
                    omega
              exact this S hxS
            omega

theorem tips_ends (harr : ∀ l x, x ∈ c.arrange l ↔ x ∈ l) {g : Graph σ α} (hsh : Shape m g) (hc : Clean m c g fun _ => False) {k : Nat} {F q0 : List σ}
    (h : ∀ f ∈ F, Short (Edge g) k f) : ∃ q, tips m c g k F q0 = some q := by
  induction k generalizing F q0 with
  | zero =>
    cases F with
    | nil => exact ⟨q0, by simp [tips]⟩
    | cons f fs => exact (h f List.mem_cons_self).elim
  | succ k ih =>
    cases F with
    | nil => exact ⟨q0, by simp [tips]⟩
    | cons f fs =>
      simp only [tips]
      rcases hw : walk m g (c.arrange (f :: fs)) [] q0 with ⟨nf, q1⟩
      refine ih fun x hx => ?_
      rcases (walk_spec hw).2.2.2.1 x hx with h' | ⟨y, hy, -, a, hb, o, ho, rfl⟩
      · cases h'
      · refine h y ((harr _ _).1 hy) _ ?_
        cases e : g.get? y with
        | none => simp [bestOf, e] at hb
        | some n =>
          rw [bestOf_eq e] at hb
          obtain ⟨-, ha, -⟩ := best_kids hsh hc e hb
          obtain ⟨n', e', hp⟩ := hsh.kids y n e a ha o ho
          exact edge_iff.2 ⟨n', e', hp⟩

/-! ### The whole solver -/

omit [DecidableEq σ] in
theorem countP_lt {p q : σ → Bool} {x : σ} (hp : p x = true) (hq : q x = false) : ∀ {L : List σ}, (∀ y ∈ L, q y = true → p y = true) → x ∈ L →
    L.countP q < L.countP p
  | [], _, h => by cases h
  | z :: L, hle, h => by
    rw [List.countP_cons, List.countP_cons]
    have hL : L.countP q ≤ L.countP p := List.countP_mono_left fun y hy => hle y (List.mem_cons_of_mem _ hy)
    have hz := hle z List.mem_cons_self
    rcases List.mem_cons.1 h with rfl | h
    · simp only [hp, hq, Bool.false_eq_true, ↓reduceIte]; omega
    · have := countP_lt hp hq (fun y hy => hle y (List.mem_cons_of_mem _ hy)) h
      cases hqz : q z with
      | true => simp only [hz hqz, ↓reduceIte]; omega
      | false => simp only [Bool.false_eq_true, ↓reduceIte]; omega

/-- The states `S` are not left. -/
def Closed (m : Mdp σ α) (S : List σ) : Prop := ∀ s ∈ S, m.goal s = false → ∀ t, Next m s t → t ∈ S

def Within (S : List σ) (g : Graph σ α) : Prop := ∀ t n, g.get? t = some n → t ∈ S

theorem acyclic_stable (harr : ∀ l x, x ∈ c.arrange l ↔ x ∈ l) : Stable m c (Acyclic (σ := σ) (α := α)) :=
  fun _ _ _ _ _ _ hac _ hgrew h => round_acyclic harr hac hgrew h

theorem Within.grew {S : List σ} (hcl : Closed m S) {ts : List σ} {g g1 : Graph σ α} (h : Within S g)
    (hts : ∀ t ∈ ts, (g.get? t).isSome = true ∧ m.goal t = false) (hgrew : Grew m ts g g1) : Within S g1 := by
  intro t n e
  cases e0 : g.get? t with
  | some n0 => exact h t n0 e0
  | none =>
    obtain ⟨-, -, ⟨p, hp, hn⟩, -⟩ := hgrew.new t n e0 e
    obtain ⟨np, ep⟩ := Option.isSome_iff_exists.1 (hts p hp).1
    exact hcl p (h p np ep) (hts p hp).2 t hn

theorem Within.same {S : List σ} {g g1 : Graph σ α} (h : Within S g) (hss : SameShape g g1) : Within S g1 := by
  intro t n e
  obtain ⟨n0, e0, -⟩ := hss.symm.some e
  exact h t n0 e0

theorem within_stable {S : List σ} (hcl : Closed m S) : Stable m c (Within (α := α) S) :=
  fun _ _ _ _ _ _ hw hts hgrew h => (hw.grew hcl hts hgrew).same (backprop_sameShape h)

/-- Either cycles are looked for, or there are none. -/
def Tame (m : Mdp σ α) (c : Config σ) (S : List σ) : Prop :=
  c.detect = true ∨ ∃ r : σ → Nat, ∀ s ∈ S, m.goal s = false → ∀ t, Next m s t → r t < r s

theorem edge_next {g : Graph σ α} (hsh : Shape m g) (hin : ∀ t n, g.get? t = some n → n.acts ≠ [] → m.goal t = false) {x y : σ} (h : Edge g x y) :
    Next m x y ∧ m.goal x = false ∧ (g.get? x).isSome = true := by
  obtain ⟨n, e, hp⟩ := edge_iff.1 h
  obtain ⟨hn, n', e', ha⟩ := hsh.par y n e x hp
  exact ⟨hn, hin x n' e' ha, by simp [e']⟩

theorem round_noerr {S : List σ} (hesc : Escape m S) (hcl : Closed m S) (harr : ∀ l x, x ∈ c.arrange l ↔ x ∈ l) {ts : List σ} {k : Nat} {g : Graph σ α}
    (hsh : Shape m g) (hw : Within S g) (hc : Clean m c g fun _ => False)
    (hfin : ∀ t n, g.get? t = some n → n.value = none → ∀ x ∈ ts, x = t) (hex : ∀ t ∈ ts, (g.get? t).isSome = true ∧ m.goal t = false)
    (hne : backprop m c k (insertAll [] ts) (insertAll [] ts) (ts.foldl (expand m c) g) ≠ none) :
    Fine c (backprop m c k (insertAll [] ts) (insertAll [] ts) (ts.foldl (expand m c) g)) := by
  have hP : Bound m c (fun _ _ => True) := ⟨fun _ _ => trivial, fun _ _ => trivial, fun _ _ _ _ _ _ _ _ _ => trivial⟩
  obtain ⟨h1, h2, -, h4⟩ := expandAll_spec hP hsh hc (fun _ _ _ _ _ => trivial) hex
  have hmem : ∀ x, x ∈ insertAll [] ts ↔ x ∈ ts := fun x => by rw [mem_insertAll]; simp
  have hw1 := hw.grew hcl hex h4
  have htS : ∀ t ∈ ts, t ∈ S := fun t ht => by
    obtain ⟨n, e⟩ := Option.isSome_iff_exists.1 (hex t ht).1
    exact hw t n e
  refine backprop_fine hesc harr h1 h2.inner hw1 (fun f hf => ?_) (fun t n e hv f hf => ?_) hne
  · have hft := (hmem f).1 hf
    obtain ⟨n, e⟩ := Option.isSome_iff_exists.1 (hex f hft).1
    obtain ⟨n', e', -, -, -, -, -, ha, -⟩ := h4.old f n e
    refine ⟨htS f hft, ?_⟩
    rw [actsOf_eq e']
    refine ha hft ?_
    obtain ⟨a, ha, -⟩ := hesc f (htS f hft) (hex f hft).2
    exact List.ne_nil_of_mem ha
  · cases e0 : g.get? t with
    | none => exact absurd hv (h4.new t n e0 e).1
    | some n0 =>
      obtain ⟨n', e1, -, hv', -⟩ := h4.old t n0 e0
      rw [e] at e1; cases e1
      exact hfin t n0 e0 (hv' ▸ hv) f ((hmem f).1 hf)

theorem round_fine {S : List σ} (hesc : Escape m S) (hcl : Closed m S) (htame : Tame m c S) (harr : ∀ l x, x ∈ c.arrange l ↔ x ∈ l) {ts : List σ} {k : Nat} {g : Graph σ α}
    (hk : S.length + 1 ≤ k) (hsh : Shape m g) (hw : Within S g) (hc : Clean m c g fun _ => False)
    (hfin : ∀ t n, g.get? t = some n → n.value = none → ∀ x ∈ ts, x = t) (hex : ∀ t ∈ ts, (g.get? t).isSome = true ∧ m.goal t = false) :
    Fine c (backprop m c k (insertAll [] ts) (insertAll [] ts) (ts.foldl (expand m c) g)) := by
  have hP : Bound m c (fun _ _ => True) := ⟨fun _ _ => trivial, fun _ _ => trivial, fun _ _ _ _ _ _ _ _ _ => trivial⟩
  obtain ⟨h1, h2, -, h4⟩ := expandAll_spec hP hsh hc (fun _ _ _ _ _ => trivial) hex
  have hw1 := hw.grew hcl hex h4
  have hedge : ∀ x y, Edge (ts.foldl (expand m c) g) x y → x ∈ S := by
    intro x y h
    obtain ⟨n, e⟩ := Option.isSome_iff_exists.1 (edge_next h1 h2.inner h).2.2
    exact hw1 x n e
  refine round_noerr hesc hcl harr hsh hw hc hfin hex ?_
  rcases htame with hd | ⟨r, hr⟩
  · refine backprop_ends_detect hd hedge (Nat.lt_of_le_of_lt (List.length_filter_le _ _) (by omega))
  · refine backprop_ends_acyclic harr fun f _ => Short.mono hk (short_of_acyclic (S := S) (fun x y h => hedge y x h) (fun x hx => ?_) f)
    have key : ∀ x y, TransGen (fun x y => Edge (ts.foldl (expand m c) g) y x) x y → r x < r y := by
      intro x y hxy
      induction hxy with
      | single h => obtain ⟨hn, hg, -⟩ := edge_next h1 h2.inner h; exact hr _ (hedge _ _ h) hg _ hn
      | tail _ h ih => obtain ⟨hn, hg, -⟩ := edge_next h1 h2.inner h; exact ih.trans (hr _ (hedge _ _ h) hg _ hn)
    exact absurd (key x x hx) (lt_irrefl _)

theorem loop_fine {S : List σ} (hesc : Escape m S) (hcl : Closed m S) (htame : Tame m c S) (harr : ∀ l x, x ∈ c.arrange l ↔ x ∈ l) (hmax : 1 ≤ c.maxTips)
    {root : σ} {k n : Nat} {q : List σ} {g : Graph σ α} (hk : S.length + 1 ≤ k)
    (hok : Ok m c (fun _ _ => True) g) (hac : Acyclic g) (hw : Within S g) (hroot : (g.get? root).isSome = true)
    (hex : ∀ t ∈ q, (g.get? t).isSome = true ∧ m.goal t = false ∧ actsOf g t = [])
    (hn : S.countP (fun x => (actsOf g x).isEmpty) < n) : Fine c (loop m c root k n q g) := by
  have hP : Bound m c (fun _ _ => True) := ⟨fun _ _ => trivial, fun _ _ => trivial, fun _ _ _ _ _ _ _ _ _ => trivial⟩
  induction n generalizing q g with
  | zero => omega
  | succ n ih =>
    by_cases hq0 : q = []
    · subst hq0
      exact .inl ⟨g, loop_nil root k _ g⟩
    · rw [loop_succ root k n hq0]
      have hex' : ∀ t ∈ taken c g q, (g.get? t).isSome = true ∧ m.goal t = false := fun t ht =>
        ⟨(hex t (taken_mem harr ht)).1, (hex t (taken_mem harr ht)).2.1⟩
      rcases round_fine hesc hcl htame harr hk hok.shape hw hok.clean (fun t n e hv => absurd (hok.fin t n e hv).1 (by simp)) hex' with ⟨g1, hb⟩ | ⟨hd, hb⟩
      · rw [hb]
        simp only
        obtain ⟨hok1, hss, hgrew⟩ := round_spec hP harr hok.shape hok.noSelf (fun t n e hv => absurd (hok.fin t n e hv).1 (by simp)) hok.clean hok.low hex' hb
        have hac1 := round_acyclic harr hac hgrew hb
        have hw1 : Within S g1 := (hw.grew hcl hex' hgrew).same hss
        have hroot1 : (g1.get? root).isSome = true := by rw [hss.isSome]; exact hgrew.keep hroot
        have htarget : ∀ x y, Edge g1 x y → y ∈ S := by
          intro x y h
          obtain ⟨n, e, -⟩ := edge_iff.1 h
          exact hw1 y n e
        obtain ⟨q1, ht⟩ := tips_ends (q0 := []) (F := [root]) harr hok1.shape hok1.clean fun f _ => Short.mono hk (short_of_acyclic htarget hac1 f)
        rw [ht]
        simp only
        refine ih hok1 hac1 hw1 hroot1 (fun t htm => ?_) ?_
        · rcases tips_mem harr hok1.shape hok1.clean ht (by simpa using hroot1) t htm with h' | ⟨h1, h2, h3⟩
          · cases h'
          · exact ⟨h1, tip_nongoal hok1 h1 h2 h3⟩
        · obtain ⟨x, hx⟩ := taken_some harr hmax (g := g) hq0
          obtain ⟨hxs, hxg, hxa⟩ := hex x (taken_mem harr hx)
          obtain ⟨nx, ex⟩ := Option.isSome_iff_exists.1 hxs
          have hxS := hw x nx ex
          have hlt : S.countP (fun x => (actsOf g1 x).isEmpty) < S.countP (fun x => (actsOf g x).isEmpty) := by
            refine countP_lt (x := x) (by simp [hxa]) ?_ (fun y _ hy => ?_) hxS
            · obtain ⟨n', e', -, -, -, -, -, ha, -⟩ := hgrew.old x nx ex
              obtain ⟨a, ham, -⟩ := hesc x hxS hxg
              rw [hss.actsOf, actsOf_eq e']
              have := ha hx (List.ne_nil_of_mem ham)
              simpa using this
            · rw [hss.actsOf] at hy
              cases ey : g.get? y with
              | none => simp [actsOf, ey]
              | some ny =>
                obtain ⟨n', e', -, -, -, ha, -⟩ := hgrew.old y ny ey
                rw [actsOf_eq e'] at hy
                rw [actsOf_eq ey]
                by_contra h0
                exact ha (by simpa using h0) (by simpa using hy)
          omega
      · rw [hb]
        exact .inr ⟨hd, rfl⟩

theorem solve_fine {S : List σ} (hesc : Escape m S) (hcl : Closed m S) (htame : Tame m c S) (harr : ∀ l x, x ∈ c.arrange l ↔ x ∈ l) (hmax : 1 ≤ c.maxTips)
    {fuel : Nat} {s : σ} {g : Graph σ α} (hfuel : S.length + 2 ≤ fuel) (hok : Ok m c (fun _ _ => True) g) (hac : Acyclic g) (hw : Within S g)
    (hs : s ∈ S) (hg : m.goal s = false) : Fine c (solve m c fuel g s) := by
  have hP : Bound m c (fun _ _ => True) := ⟨fun _ _ => trivial, fun _ _ => trivial, fun _ _ _ _ _ _ _ _ _ => trivial⟩
  obtain ⟨h1, h2, h3, h4, h5, h6⟩ := start_spec hok hg
  have hw0 : Within S (if g.contains s then g else g.set s {}) := by
    intro t n e
    split at e
    · exact hw t n e
    · rw [Dict.get?_set] at e
      by_cases hts : t = s
      · rw [hts]; exact hs
      · rw [if_neg hts] at e; exact hw t n e
  have hac0 : Acyclic (if g.contains s then g else g.set s {}) := by
    have he : ∀ x y, Edge (if g.contains s then g else g.set s {}) x y → Edge g x y := by
      intro x y h
      obtain ⟨n, e, hp⟩ := edge_iff.1 h
      split at e
      · exact edge_iff.2 ⟨n, e, hp⟩
      · rw [Dict.get?_set] at e
        by_cases hys : y = s
        · rw [if_pos hys] at e; cases e; cases hp
        · rw [if_neg hys] at e; exact edge_iff.2 ⟨n, e, hp⟩
    exact fun x hx => hac x (TransGen.mono he _ _ hx)
  unfold solve
  generalize hg0 : (if g.contains s then g else g.set s {}) = g0 at *
  simp only [hg, Bool.or_false]
  by_cases hsol : isSolved g0 s = true
  · rw [if_pos hsol]; exact .inl ⟨_, rfl⟩
  · rw [if_neg hsol]
    obtain ⟨n, rfl⟩ : ∃ n, fuel = n + 1 := ⟨fuel - 1, by omega⟩
    rw [loop_succ s (n + 1) n (by simp)]
    have hts : ∀ x ∈ taken c g0 [s], x = s := fun x hx => by simpa using taken_mem harr hx
    have hsm : s ∈ taken c g0 [s] := by
      obtain ⟨x, hx⟩ := taken_some harr hmax (g := g0) (q := [s]) (by simp)
      exact hts x hx ▸ hx
    have hex : ∀ t ∈ taken c g0 [s], (g0.get? t).isSome = true ∧ m.goal t = false := fun t ht => by rw [hts t ht]; exact ⟨h6, hg⟩
    have hfin : ∀ t n, g0.get? t = some n → n.value = none → (∀ x ∈ taken c g0 [s], x = t) ∧ t ∈ taken c g0 [s] ∧ n.parents = [] := by
      intro t n e hv
      obtain ⟨rfl, hp⟩ := h3 t n e hv
      exact ⟨hts, hsm, hp⟩
    have hk : S.length + 1 ≤ n + 1 := by omega
    rcases round_fine hesc hcl htame harr hk h1 hw0 h4 (fun t n e hv => (hfin t n e hv).1) hex with ⟨g1, hb⟩ | ⟨hd, hb⟩
    · rw [hb]
      simp only
      obtain ⟨hok1, hss, hgrew⟩ := round_spec hP harr h1 h2 hfin h4 h5 hex hb
      have hac1 := round_acyclic harr hac0 hgrew hb
      have hw1 : Within S g1 := (hw0.grew hcl hex hgrew).same hss
      have hroot1 : (g1.get? s).isSome = true := by rw [hss.isSome]; exact hgrew.keep h6
      have htarget : ∀ x y, Edge g1 x y → y ∈ S := by
        intro x y h
        obtain ⟨n, e, -⟩ := edge_iff.1 h
        exact hw1 y n e
      obtain ⟨q1, ht⟩ := tips_ends (q0 := []) (F := [s]) harr hok1.shape hok1.clean fun f _ => Short.mono hk (short_of_acyclic htarget hac1 f)
      rw [ht]
      simp only
      refine loop_fine hesc hcl htame harr hmax hk hok1 hac1 hw1 hroot1 (fun t htm => ?_) ?_
      · rcases tips_mem harr hok1.shape hok1.clean ht (by simpa using hroot1) t htm with h' | ⟨h1, h2, h3⟩
        · cases h'
        · exact ⟨h1, tip_nongoal hok1 h1 h2 h3⟩
      · exact Nat.lt_of_le_of_lt (List.countP_le_length) (by omega)
    · rw [hb]
      exact .inr ⟨hd, rfl⟩

end Verif.AoStar
