import Verif.Lemmas.AoStarEnds

/-! Errors, layered domains and policies in the model of aostar.hh. -/
namespace Verif.AoStar
open Relation
variable [DecidableEq σ] {m : Mdp σ α} {c : Config σ}

omit [DecidableEq σ] in
theorem bound_true : Bound m c (fun _ _ => True) := ⟨fun _ _ => trivial, fun _ _ => trivial, fun _ _ _ _ _ _ _ _ _ => trivial⟩

/-! ### The only error -/

theorem loop_noerr {S : List σ} (hesc : Escape m S) (hcl : Closed m S) (harr : ∀ l x, x ∈ c.arrange l ↔ x ∈ l)
    {root : σ} {k n : Nat} {q : List σ} {g : Graph σ α}
    (hok : Ok m c (fun _ _ => True) g) (hw : Within S g) (hroot : (g.get? root).isSome = true)
    (hex : ∀ t ∈ q, (g.get? t).isSome = true ∧ m.goal t = false) (hne : loop m c root k n q g ≠ none) : Fine c (loop m c root k n q g) := by
  induction n generalizing q g with
  | zero =>
    cases q with
    | nil => exact .inl ⟨g, rfl⟩
    | cons t q => exact absurd rfl hne
  | succ n ih =>
    by_cases hq0 : q = []
    · subst hq0
      exact .inl ⟨g, loop_nil root k _ g⟩
    · rw [loop_succ root k n hq0] at hne ⊢
      have hex' : ∀ t ∈ taken c g q, (g.get? t).isSome = true ∧ m.goal t = false := fun t ht => hex t (taken_mem harr ht)
      have hb0 : backprop m c k (insertAll [] (taken c g q)) (insertAll [] (taken c g q)) ((taken c g q).foldl (expand m c) g) ≠ none := by
        intro h0; rw [h0] at hne; exact hne rfl
      rcases round_noerr hesc hcl harr hok.shape hw hok.clean (fun t n e hv => absurd (hok.fin t n e hv).1 (by simp)) hex' hb0 with ⟨g1, hb⟩ | ⟨hd, hb⟩
      · rw [hb] at hne ⊢
        simp only at hne ⊢
        obtain ⟨hok1, hss, hgrew⟩ := round_spec bound_true harr hok.shape hok.noSelf (fun t n e hv => absurd (hok.fin t n e hv).1 (by simp)) hok.clean hok.low hex' hb
        have hw1 : Within S g1 := (hw.grew hcl hex' hgrew).same hss
        have hroot1 : (g1.get? root).isSome = true := by rw [hss.isSome]; exact hgrew.keep hroot
        cases ht : tips m c g1 k [root] [] with
        | none => rw [ht] at hne; exact absurd rfl hne
        | some q1 =>
          rw [ht] at hne
          refine ih hok1 hw1 hroot1 (fun t htm => ?_) hne
          rcases tips_mem harr hok1.shape hok1.clean ht (by simpa using hroot1) t htm with h' | ⟨h1, h2, h3⟩
          · cases h'
          · exact ⟨h1, (tip_nongoal hok1 h1 h2 h3).1⟩
      · rw [hb]
        exact .inr ⟨hd, rfl⟩

theorem Within.start {S : List σ} {g : Graph σ α} (hw : Within S g) {s : σ} (hs : s ∈ S) : Within S (if g.contains s then g else g.set s {}) := by
  intro t n e
  split at e
  · exact hw t n e
  · rw [Dict.get?_set] at e
    by_cases hts : t = s
    · rw [hts]; exact hs
    · rw [if_neg hts] at e; exact hw t n e

theorem Acyclic.start {g : Graph σ α} (hac : Acyclic g) (s : σ) : Acyclic (if g.contains s then g else g.set s {}) := by
  have he : ∀ x y, Edge (if g.contains s then g else g.set s {}) x y → Edge g x y := by
    intro x y h
    obtain ⟨n, e, hp⟩ := edge_iff.1 h
    split at e
    · exact edge_iff.2 ⟨n, e, hp⟩
    · rw [Dict.get?_set] at e
      by_cases hys : y = s
      · rw [if_pos hys] at e; cases e; cases hp
      · rw [if_neg hys] at e; exact edge_iff.2 ⟨n, e, hp⟩
  exact fun x hx => hac x (TransGen.mono he _ _ hx)

theorem solve_noerr {S : List σ} (hesc : Escape m S) (hcl : Closed m S) (harr : ∀ l x, x ∈ c.arrange l ↔ x ∈ l) (hmax : 1 ≤ c.maxTips)
    {fuel : Nat} {s : σ} {g : Graph σ α} (hok : Ok m c (fun _ _ => True) g) (hw : Within S g)
    (hs : s ∈ S) (hg : m.goal s = false) (hne : solve m c fuel g s ≠ none) : Fine c (solve m c fuel g s) := by
  obtain ⟨h1, h2, h3, h4, h5, h6⟩ := start_spec hok hg
  have hw0 := hw.start hs
  unfold solve at hne ⊢
  generalize hg0 : (if g.contains s then g else g.set s {}) = g0 at *
  simp only [hg, Bool.or_false] at hne ⊢
  by_cases hsol : isSolved g0 s = true
  · rw [if_pos hsol]; exact .inl ⟨_, rfl⟩
  · rw [if_neg hsol] at hne ⊢
    cases fuel with
    | zero => exact absurd rfl hne
    | succ n =>
      rw [loop_succ s (n + 1) n (by simp)] at hne ⊢
      have hts : ∀ x ∈ taken c g0 [s], x = s := fun x hx => by simpa using taken_mem harr hx
      have hsm : s ∈ taken c g0 [s] := by
        obtain ⟨x, hx⟩ := taken_some harr hmax (g := g0) (q := [s]) (by simp)
        exact hts x hx ▸ hx
      have hex : ∀ t ∈ taken c g0 [s], (g0.get? t).isSome = true ∧ m.goal t = false := fun t ht => by rw [hts t ht]; exact ⟨h6, hg⟩
      have hfin : ∀ t n, g0.get? t = some n → n.value = none → (∀ x ∈ taken c g0 [s], x = t) ∧ t ∈ taken c g0 [s] ∧ n.parents = [] := by
        intro t n e hv
        obtain ⟨rfl, hp⟩ := h3 t n e hv
        exact ⟨hts, hsm, hp⟩
      have hb0 : backprop m c (n + 1) (insertAll [] (taken c g0 [s])) (insertAll [] (taken c g0 [s])) ((taken c g0 [s]).foldl (expand m c) g0) ≠ none := by
        intro h0; rw [h0] at hne; exact hne rfl
      rcases round_noerr hesc hcl harr h1 hw0 h4 (fun t n e hv => (hfin t n e hv).1) hex hb0 with ⟨g1, hb⟩ | ⟨hd, hb⟩
      · rw [hb] at hne ⊢
        simp only at hne ⊢
        obtain ⟨hok1, hss, hgrew⟩ := round_spec bound_true harr h1 h2 hfin h4 h5 hex hb
        have hw1 : Within S g1 := (hw0.grew hcl hex hgrew).same hss
        have hroot1 : (g1.get? s).isSome = true := by rw [hss.isSome]; exact hgrew.keep h6
        cases ht : tips m c g1 (n + 1) [s] [] with
        | none => rw [ht] at hne; exact absurd rfl hne
        | some q1 =>
          rw [ht] at hne
          refine loop_noerr hesc hcl harr hok1 hw1 hroot1 (fun t htm => ?_) hne
          rcases tips_mem harr hok1.shape hok1.clean ht (by simpa using hroot1) t htm with h' | ⟨h1, h2, h3⟩
          · cases h'
          · exact ⟨h1, (tip_nongoal hok1 h1 h2 h3).1⟩
      · rw [hb]
        exact .inr ⟨hd, rfl⟩

/-! ### Layered domains -/

theorem level_detect (b : Bool) (fs : List σ) (g : Graph σ α) (nf : List σ) : level m { c with detect := b } fs g nf = level m c fs g nf := by
  induction fs generalizing g nf with
  | nil => rfl
  | cons f fs ih =>
    have hu : update m { c with detect := b } g f = update m c g f := rfl
    simp only [level, hu, ih]

theorem tips_detect (b : Bool) (g : Graph σ α) (k : Nat) (F q : List σ) : tips m { c with detect := b } g k F q = tips m c g k F q := by
  induction k generalizing F q with
  | zero => cases F <;> rfl
  | succ k ih =>
    cases F with
    | nil => rfl
    | cons f fs => simp only [tips, ih]

/-- All ways from a state to another have the same number of steps. -/
def Layered (m : Mdp σ α) (L : σ → Nat) : Prop := ∀ s, m.goal s = false → ∀ t, Next m s t → L t = L s + 1

theorem backprop_layered {L : σ → Nat} (hL : Layered m L) (harr : ∀ l x, x ∈ c.arrange l ↔ x ∈ l) {k l : Nat} {F E : List σ} {g : Graph σ α} (hsh : Shape m g)
    (hin : ∀ t n, g.get? t = some n → n.acts ≠ [] → m.goal t = false) (hF : ∀ f ∈ F, L f = l) (hE : ∀ e ∈ E, l ≤ L e) :
    backprop m { c with detect := false } k F E g = backprop m c k F E g := by
  induction k generalizing F E g l with
  | zero => cases F <;> simp [backprop]
  | succ k ih =>
    cases F with
    | nil => simp [backprop]
    | cons f fs =>
      simp only [backprop, level_detect]
      cases hl : level m c (c.arrange (f :: fs)) g [] with
      | error e => rfl
      | ok r =>
        obtain ⟨g1, nf⟩ := r
        obtain ⟨hss, hnf⟩ := level_sameShape hl
        have hnfL : ∀ x ∈ nf, L x + 1 = l := by
          intro x hx
          rcases (hnf x).1 hx with h | ⟨y, hy, hxy⟩
          · cases h
          · obtain ⟨hn, hg, -⟩ := edge_next hsh hin (show Edge g x y from hxy)
            rw [← hF y ((harr _ _).1 hy), hL x hg y hn]
        have hno : nf.any (· ∈ E) = false := by
          rw [List.any_eq_false]
          intro x hx
          simp only [decide_eq_true_eq]
          intro hxE
          have h1 := hnfL x hx
          have h2 := hE x hxE
          omega
        simp only [hno, Bool.and_false, Bool.false_eq_true, ↓reduceIte]
        refine ih (l := l - 1) (hsh.same hss) (fun t n e ha => ?_) (fun x hx => ?_) (fun x hx => ?_)
        · obtain ⟨n0, e0, ha0, -⟩ := hss.symm.some e
          exact hin t n0 e0 (ha0 ▸ ha)
        · have := hnfL x hx; omega
        · rcases List.mem_append.1 hx with hx | hx
          · have := hE x hx; omega
          · have := hnfL x hx; omega

theorem round_layered {L : σ → Nat} (hL : Layered m L) (harr : ∀ l x, x ∈ c.arrange l ↔ x ∈ l) {k : Nat} {t : σ} {ts : List σ} {g : Graph σ α}
    (hsh : Shape m g) (hc : Clean m c g fun _ => False) (hex : ∀ t ∈ ts, (g.get? t).isSome = true ∧ m.goal t = false) (hone : ∀ x ∈ ts, x = t) :
    backprop m { c with detect := false } k (insertAll [] ts) (insertAll [] ts) (ts.foldl (expand m { c with detect := false }) g) =
      backprop m c k (insertAll [] ts) (insertAll [] ts) (ts.foldl (expand m c) g) := by
  obtain ⟨h1, h2, -, -⟩ := expandAll_spec (bound_true (m := m) (c := c)) hsh hc (fun _ _ _ _ _ => trivial) hex
  have hmem : ∀ x, x ∈ insertAll [] ts ↔ x ∈ ts := fun x => by rw [mem_insertAll]; simp
  have he : ts.foldl (expand m { c with detect := false }) g = ts.foldl (expand m c) g := rfl
  rw [he]
  exact backprop_layered hL harr h1 h2.inner (l := L t) (fun f hf => by rw [hone f ((hmem f).1 hf)]) (fun f hf => by rw [hone f ((hmem f).1 hf)])

theorem taken_one (hmax : c.maxTips = 1) (g : Graph σ α) (q : List σ) (s : σ) : ∃ t, ∀ x ∈ taken c g q, x = t := by
  unfold taken
  rw [hmax]
  cases popOrder (value g) (c.arrange q) with
  | nil => exact ⟨s, by simp⟩
  | cons z zs => exact ⟨z, by simp⟩

theorem loop_layered {L : σ → Nat} (hL : Layered m L) (harr : ∀ l x, x ∈ c.arrange l ↔ x ∈ l) (hmax : c.maxTips = 1)
    {root : σ} {k n : Nat} {q : List σ} {g : Graph σ α}
    (hok : Ok m c (fun _ _ => True) g) (hroot : (g.get? root).isSome = true)
    (hex : ∀ t ∈ q, (g.get? t).isSome = true ∧ m.goal t = false) :
    loop m { c with detect := false } root k n q g = loop m c root k n q g := by
  induction n generalizing q g with
  | zero => cases q <;> rfl
  | succ n ih =>
    by_cases hq0 : q = []
    · subst hq0
      rw [loop_nil, loop_nil]
    · rw [loop_succ root k n hq0, loop_succ root k n hq0]
      have htk : taken { c with detect := false } g q = taken c g q := rfl
      have hex' : ∀ t ∈ taken c g q, (g.get? t).isSome = true ∧ m.goal t = false := fun t ht => hex t (taken_mem harr ht)
      obtain ⟨t, hone⟩ := taken_one hmax g q root
      rw [htk, round_layered hL harr hok.shape hok.clean hex' hone]
      rcases hb : backprop m c k (insertAll [] (taken c g q)) (insertAll [] (taken c g q)) ((taken c g q).foldl (expand m c) g) with _ | e | g1
      · rfl
      · rfl
      · simp only [tips_detect]
        obtain ⟨hok1, hss, hgrew⟩ := round_spec bound_true harr hok.shape hok.noSelf (fun t n e hv => absurd (hok.fin t n e hv).1 (by simp)) hok.clean hok.low hex' hb
        have hroot1 : (g1.get? root).isSome = true := by rw [hss.isSome]; exact hgrew.keep hroot
        cases ht : tips m c g1 k [root] [] with
        | none => rfl
        | some q1 =>
          refine ih hok1 hroot1 fun t htm => ?_
          rcases tips_mem harr hok1.shape hok1.clean ht (by simpa using hroot1) t htm with h' | ⟨h1, h2, h3⟩
          · cases h'
          · exact ⟨h1, (tip_nongoal hok1 h1 h2 h3).1⟩

theorem solve_layered {L : σ → Nat} (hL : Layered m L) (harr : ∀ l x, x ∈ c.arrange l ↔ x ∈ l) (hmax : c.maxTips = 1)
    {fuel : Nat} {s : σ} {g : Graph σ α} (hok : Ok m c (fun _ _ => True) g) (hg : m.goal s = false) :
    solve m { c with detect := false } fuel g s = solve m c fuel g s := by
  obtain ⟨h1, h2, h3, h4, h5, h6⟩ := start_spec hok hg
  unfold solve
  generalize hg0 : (if g.contains s then g else g.set s {}) = g0 at *
  simp only [hg, Bool.or_false]
  by_cases hsol : isSolved g0 s = true
  · rw [if_pos hsol, if_pos hsol]
  · rw [if_neg hsol, if_neg hsol]
    cases fuel with
    | zero => rfl
    | succ n =>
      rw [loop_succ s (n + 1) n (by simp), loop_succ s (n + 1) n (by simp)]
      have htk : taken { c with detect := false } g0 [s] = taken c g0 [s] := rfl
      have hts : ∀ x ∈ taken c g0 [s], x = s := fun x hx => by simpa using taken_mem harr hx
      have hsm : s ∈ taken c g0 [s] := by
        obtain ⟨x, hx⟩ := taken_some harr (show 1 ≤ c.maxTips by omega) (g := g0) (q := [s]) (by simp)
        exact hts x hx ▸ hx
      have hex : ∀ t ∈ taken c g0 [s], (g0.get? t).isSome = true ∧ m.goal t = false := fun t ht => by rw [hts t ht]; exact ⟨h6, hg⟩
      have hfin : ∀ t n, g0.get? t = some n → n.value = none → (∀ x ∈ taken c g0 [s], x = t) ∧ t ∈ taken c g0 [s] ∧ n.parents = [] := by
        intro t n e hv
        obtain ⟨rfl, hp⟩ := h3 t n e hv
        exact ⟨hts, hsm, hp⟩
      rw [htk, round_layered hL harr h1 h4 hex hts]
      rcases hb : backprop m c (n + 1) (insertAll [] (taken c g0 [s])) (insertAll [] (taken c g0 [s])) ((taken c g0 [s]).foldl (expand m c) g0) with _ | e | g1
      · rfl
      · rfl
      · simp only [tips_detect]
        obtain ⟨hok1, hss, hgrew⟩ := round_spec bound_true harr h1 h2 hfin h4 h5 hex hb
        have hroot1 : (g1.get? s).isSome = true := by rw [hss.isSome]; exact hgrew.keep h6
        cases ht : tips m c g1 (n + 1) [s] [] with
        | none => rfl
        | some q1 =>
          refine loop_layered hL harr hmax hok1 hroot1 fun t htm => ?_
          rcases tips_mem harr hok1.shape hok1.clean ht (by simpa using hroot1) t htm with h' | ⟨h1, h2, h3⟩
          · cases h'
          · exact ⟨h1, (tip_nongoal hok1 h1 h2 h3).1⟩

/-! ### Solved states -/

/-- A solved state that is no goal agrees with the outcomes of its best action, which are solved. -/
theorem solved_step {P : σ → Rat → Prop} {g : Graph σ α} (hok : Ok m c P g) {s : σ} (hs : isSolved g s = true) :
    (m.goal s = true ∧ value g s = some 0) ∨
    (m.goal s = false ∧ ∃ a ∈ m.actions s, ∃ v, bestOf g s = some a ∧ value g s = some v ∧ v = m.q c.discount (val g) s a ∧
      ∀ o ∈ m.outcomes s a, isSolved g o.2.2 = true ∧ Edge g s o.2.2) := by
  cases e : g.get? s with
  | none => simp [isSolved, e] at hs
  | some n =>
    rw [isSolved_eq e] at hs
    rw [value_eq e, bestOf_eq e]
    by_cases h0 : n.acts = []
    · obtain ⟨-, hgl, hng⟩ := hok.clean.tip s n e h0
      cases hg : m.goal s with
      | true => exact .inl ⟨rfl, (hgl hg).1⟩
      | false => rw [(hng hg).2] at hs; cases hs
    · obtain ⟨hg, a, v, hb, hv, hgr, hso⟩ := hok.clean.clean s n e h0 id
      obtain ⟨ha, hq, -⟩ := Mdp.greedy_some hgr
      refine .inr ⟨hg, a, ((hok.shape.acts s n e).resolve_left h0 a).1 ha, v, hb, hv, hq, fun o ho => ⟨?_, ?_⟩⟩
      · rw [hs] at hso
        exact List.all_eq_true.1 hso.symm o ho
      · obtain ⟨n', e', hp⟩ := hok.shape.kids s n e a ha o ho
        exact edge_iff.2 ⟨n', e', hp⟩

theorem graph_short {g : Graph σ α} (hac : Acyclic g) (s : σ) : Short (Edge g) (g.keys.length + 1) s := by
  refine short_of_acyclic (fun x y h => ?_) hac s
  obtain ⟨n, e, -⟩ := edge_iff.1 h
  exact (Dict.get?_isSome_iff_mem_keys g y).1 (by simp [e])

end Verif.AoStar
