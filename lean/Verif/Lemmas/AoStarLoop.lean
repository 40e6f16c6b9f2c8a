import Verif.Lemmas.AoStar

/-! The main loop of the model of aostar.hh: what holds when it ends, and when it ends. -/
namespace Verif.AoStar
variable [DecidableEq σ] {m : Mdp σ α} {c : Config σ}

/-- The tips taken from the queue. -/
def taken (c : Config σ) (g : Graph σ α) (q : List σ) : List σ := (popOrder (value g) (c.arrange q)).take c.maxTips

theorem taken_mem (harr : ∀ l x, x ∈ c.arrange l ↔ x ∈ l) {g : Graph σ α} {q : List σ} {x : σ} (h : x ∈ taken c g q) : x ∈ q :=
  (harr _ _).1 (mem_popOrder.1 (List.mem_of_mem_take h))

theorem taken_some (harr : ∀ l x, x ∈ c.arrange l ↔ x ∈ l) (hmax : 1 ≤ c.maxTips) {g : Graph σ α} {q : List σ} (hq : q ≠ []) :
    ∃ x, x ∈ taken c g q := by
  obtain ⟨y, hy⟩ := List.exists_mem_of_ne_nil _ hq
  have hy' := mem_popOrder (key := value g).2 ((harr _ _).2 hy)
  unfold taken
  cases hp : popOrder (value g) (c.arrange q) with
  | nil => rw [hp] at hy'; cases hy'
  | cons z zs =>
    obtain ⟨k, hk⟩ : ∃ k, c.maxTips = k + 1 := ⟨c.maxTips - 1, by omega⟩
    exact ⟨z, by rw [hk, List.take_succ_cons]; exact List.mem_cons_self⟩

theorem loop_nil (root : σ) (k n : Nat) (g : Graph σ α) : loop m c root k n [] g = some (.ok g) := by
  cases n <;> rfl

theorem loop_succ (root : σ) (k n : Nat) {q : List σ} (hq : q ≠ []) (g : Graph σ α) :
    loop m c root k (n + 1) q g =
      match backprop m c k (insertAll [] (taken c g q)) (insertAll [] (taken c g q)) ((taken c g q).foldl (expand m c) g) with
      | none => none
      | some (.error e) => some (.error e)
      | some (.ok g) =>
        match tips m c g k [root] [] with
        | none => none
        | some q => loop m c root k n q g := by
  cases q with
  | nil => exact absurd rfl hq
  | cons t q => rfl

theorem Grew.keep {ts : List σ} {g g' : Graph σ α} (h : Grew m ts g g') {t : σ} (ht : (g.get? t).isSome = true) : (g'.get? t).isSome = true := by
  obtain ⟨n, e⟩ := Option.isSome_iff_exists.1 ht
  obtain ⟨n', e', -⟩ := h.old t n e
  simp [e']

/-- Tips are no goals. -/
theorem tip_nongoal {P : σ → Rat → Prop} {g : Graph σ α} (h : Ok m c P g) {t : σ} (ht : (g.get? t).isSome = true)
    (hs : isSolved g t = false) (hb : bestOf g t = none) : m.goal t = false ∧ actsOf g t = [] := by
  obtain ⟨n, e⟩ := Option.isSome_iff_exists.1 ht
  rw [isSolved_eq e] at hs
  rw [bestOf_eq e] at hb
  rw [actsOf_eq e]
  by_cases h0 : n.acts = []
  · refine ⟨?_, h0⟩
    cases hg : m.goal t with
    | false => rfl
    | true => rw [((h.clean.tip t n e h0).2.1 hg).2] at hs; cases hs
  · obtain ⟨-, a, v, hb', -⟩ := h.clean.clean t n e h0 id
    rw [hb] at hb'; cases hb'

/-- `I` is kept by a round. -/
def Stable (m : Mdp σ α) (c : Config σ) (I : Graph σ α → Prop) : Prop :=
  ∀ ts g g1 g' k E, I g → (∀ t ∈ ts, (g.get? t).isSome = true ∧ m.goal t = false) → Grew m ts g g1 →
    backprop m c k (insertAll [] ts) E g1 = some (.ok g') → I g'

theorem loop_spec {P : σ → Rat → Prop} (hP : Bound m c P) {I : Graph σ α → Prop} (hI : Stable m c I) (harr : ∀ l x, x ∈ c.arrange l ↔ x ∈ l) {root : σ} {k n : Nat} {q : List σ} {g g' : Graph σ α}
    (hok : Ok m c P g) (hi : I g) (hroot : (g.get? root).isSome = true) (hex : ∀ t ∈ q, (g.get? t).isSome = true ∧ m.goal t = false)
    (hq : q = [] → isSolved g root = true) (h : loop m c root k n q g = some (.ok g')) :
    Ok m c P g' ∧ I g' ∧ (g'.get? root).isSome = true ∧ isSolved g' root = true := by
  induction n generalizing q g with
  | zero =>
    cases q with
    | nil => simp only [loop, Option.some.injEq, Except.ok.injEq] at h; subst h; exact ⟨hok, hi, hroot, hq rfl⟩
    | cons t q => simp [loop] at h
  | succ n ih =>
    by_cases hq0 : q = []
    · subst hq0
      rw [loop_nil] at h
      simp only [Option.some.injEq, Except.ok.injEq] at h; subst h; exact ⟨hok, hi, hroot, hq rfl⟩
    · rw [loop_succ root k n hq0] at h
      split at h
      · simp at h
      · simp at h
      · rename_i g1 hb
        split at h
        · simp at h
        · rename_i q1 ht
          obtain ⟨hok1, hss, hgrew⟩ := round_spec hP harr hok.shape hok.noSelf (fun t n e hv => absurd (hok.fin t n e hv).1 (by simp)) hok.clean hok.low
            (fun t ht => hex t (taken_mem harr ht)) hb
          have hroot1 : (g1.get? root).isSome = true := by rw [hss.isSome]; exact hgrew.keep hroot
          have hF : ∀ f ∈ [root], (g1.get? f).isSome = true := by simpa using hroot1
          refine ih hok1 (hI _ _ _ _ _ _ hi (fun t ht => hex t (taken_mem harr ht)) hgrew hb) hroot1 (fun t htm => ?_) (fun h0 => ?_) h
          · rcases tips_mem harr hok1.shape hok1.clean ht hF t htm with h' | ⟨h1, h2, h3⟩
            · cases h'
            · exact ⟨h1, (tip_nongoal hok1 h1 h2 h3).1⟩
          · subst h0
            exact (tips_solved harr hok1.shape hok1.clean ht hF).2 root (by simp)

theorem Ok.nil (P : σ → Rat → Prop) : Ok m c P ([] : Graph σ α) := by
  refine ⟨⟨fun s n e => ?_, fun s n e => ?_, fun s n e => ?_⟩, fun s n e => ?_, fun s n e => ?_,
    ⟨fun s n e => ?_, fun s n e => ?_, fun s n e => ?_⟩, fun s n v e => ?_⟩ <;> cases e

/-- The graph of `solve` when the main loop starts, from a graph between two calls. -/
theorem start_spec {P : σ → Rat → Prop} {g : Graph σ α} (hok : Ok m c P g) {s : σ} (hg : m.goal s = false) :
    let g0 := if g.contains s then g else g.set s {}
    Shape m g0 ∧ NoSelf g0 ∧ (∀ t n, g0.get? t = some n → n.value = none → t = s ∧ n.parents = []) ∧ Clean m c g0 (fun _ => False) ∧ Low P g0 ∧
      (g0.get? s).isSome = true := by
  intro g0
  cases e : g.get? s with
  | some n =>
    have hc : g.contains s = true := by rw [Dict.contains_eq]; simp [e]
    have h0 : g0 = g := by simp only [g0, hc, ↓reduceIte]
    rw [h0]
    exact ⟨hok.shape, hok.noSelf, fun t n e hv => absurd (hok.fin t n e hv).1 (by simp), hok.clean, hok.low, by simp [e]⟩
  | none =>
    have hc : g.contains s = false := by rw [Dict.contains_eq]; simp [e]
    have h0 : g0 = g.set s {} := by simp only [g0, hc, Bool.false_eq_true, ↓reduceIte]
    rw [h0]
    have hget : ∀ t n, (Dict.set g s ({} : Node σ α)).get? t = some n → (t = s ∧ n = {}) ∨ (t ≠ s ∧ g.get? t = some n) := by
      intro t n et
      rw [Dict.get?_set] at et
      by_cases hts : t = s
      · rw [if_pos hts] at et; cases et; exact .inl ⟨hts, rfl⟩
      · rw [if_neg hts] at et; exact .inr ⟨hts, et⟩
    have hold : ∀ t n, g.get? t = some n → (Dict.set g s ({} : Node σ α)).get? t = some n := by
      intro t n et
      rw [Dict.get?_set_ne]
      · exact et
      · rintro rfl; rw [e] at et; cases et
    refine ⟨⟨fun t n et => ?_, fun t n et a ha o ho => ?_, fun t n et p hp => ?_⟩, fun t n et => ?_, fun t n et hv => ?_,
      ⟨fun t n et h0 => ?_, fun t n et h0 => ?_, fun t n et h0 _ => ?_⟩, fun t n v et hv => ?_, by rw [Dict.get?_set_self]; rfl⟩
    · rcases hget t n et with ⟨rfl, rfl⟩ | ⟨-, et⟩
      · exact .inl rfl
      · exact hok.shape.acts t n et
    · rcases hget t n et with ⟨rfl, rfl⟩ | ⟨-, et⟩
      · cases ha
      · obtain ⟨n', e', hp⟩ := hok.shape.kids t n et a ha o ho
        exact ⟨n', hold _ _ e', hp⟩
    · rcases hget t n et with ⟨rfl, rfl⟩ | ⟨-, et⟩
      · cases hp
      · obtain ⟨hn, n', e', ha⟩ := hok.shape.par t n et p hp
        exact ⟨hn, n', hold _ _ e', ha⟩
    · rcases hget t n et with ⟨rfl, rfl⟩ | ⟨-, et⟩
      · simp
      · exact hok.noSelf t n et
    · rcases hget t n et with ⟨rfl, rfl⟩ | ⟨-, et⟩
      · exact ⟨rfl, rfl⟩
      · exact absurd (hok.fin t n et hv).1 (by simp)
    · rcases hget t n et with ⟨rfl, rfl⟩ | ⟨-, et⟩
      · refine ⟨rfl, fun h => ?_, fun _ => ⟨.inr rfl, rfl⟩⟩
        rw [hg] at h; cases h
      · exact hok.clean.tip t n et h0
    · rcases hget t n et with ⟨rfl, rfl⟩ | ⟨-, et⟩
      · exact hg
      · exact hok.clean.inner t n et h0
    · rcases hget t n et with ⟨rfl, rfl⟩ | ⟨-, et⟩
      · exact absurd rfl h0
      · obtain ⟨hng, a, v, hb, hv, hq, hsol⟩ := hok.clean.clean t n et h0 id
        have hk : ∀ b ∈ n.acts, ∀ o ∈ m.outcomes t b, (Dict.set g s ({} : Node σ α)).get? o.2.2 = g.get? o.2.2 := by
          intro b hb o ho
          obtain ⟨n', e', -⟩ := hok.shape.kids t n et b hb o ho
          rw [e', hold _ _ e']
        refine ⟨hng, a, v, hb, hv, ?_, ?_⟩
        · rw [← hq]
          refine Mdp.greedy_congr fun b hb => m.q_congr _ fun o ho => ?_
          unfold val value
          rw [hk b hb o ho]
        · rw [hsol, Bool.eq_iff_iff, List.all_eq_true, List.all_eq_true]
          refine forall₂_congr fun o ho => ?_
          unfold isSolved
          rw [hk a (Mdp.greedy_some hq).1 o ho]
    · rcases hget t n et with ⟨rfl, rfl⟩ | ⟨-, et⟩
      · cases hv
      · exact hok.low t n v et hv

theorem solve_spec {P : σ → Rat → Prop} (hP : Bound m c P) {I : Graph σ α → Prop} (hI : Stable m c I) (harr : ∀ l x, x ∈ c.arrange l ↔ x ∈ l) (hmax : 1 ≤ c.maxTips) {fuel : Nat} {s : σ} {g g' : Graph σ α}
    (hok : Ok m c P g) (hi : I (if g.contains s then g else g.set s {})) (hg : m.goal s = false) (h : solve m c fuel g s = some (.ok g')) :
    Ok m c P g' ∧ I g' ∧ (g'.get? s).isSome = true ∧ isSolved g' s = true := by
  obtain ⟨h1, h2, h3, h4, h5, h6⟩ := start_spec hok hg
  unfold solve at h
  generalize hg0 : (if g.contains s then g else g.set s {}) = g0 at *
  simp only [hg, Bool.or_false] at h
  by_cases hs : isSolved g0 s = true
  · rw [if_pos hs] at h
    simp only [Option.some.injEq, Except.ok.injEq] at h; subst h
    refine ⟨⟨h1, h2, fun t n e hv => ?_, h4, h5⟩, hi, h6, hs⟩
    obtain ⟨rfl, hp⟩ := h3 t n e hv
    exfalso
    rw [isSolved_eq e] at hs
    by_cases h0 : n.acts = []
    · rw [((h4.tip t n e h0).2.2 hg).2] at hs; cases hs
    · obtain ⟨-, a, v, -, hv', -⟩ := h4.clean t n e h0 id
      rw [hv] at hv'; cases hv'
  · rw [if_neg hs] at h
    cases fuel with
    | zero => simp [loop] at h
    | succ n =>
      rw [loop_succ s (n + 1) n (by simp)] at h
      split at h
      · simp at h
      · simp at h
      · rename_i g1 hb
        split at h
        · simp at h
        · rename_i q1 ht
          have hts : ∀ x ∈ taken c g0 [s], x = s := fun x hx => by simpa using taken_mem harr hx
          have hsm : s ∈ taken c g0 [s] := by
            obtain ⟨x, hx⟩ := taken_some harr hmax (g := g0) (q := [s]) (by simp)
            exact hts x hx ▸ hx
          have hfin : ∀ t n, g0.get? t = some n → n.value = none → (∀ x ∈ taken c g0 [s], x = t) ∧ t ∈ taken c g0 [s] ∧ n.parents = [] := by
            intro t n e hv
            obtain ⟨rfl, hp⟩ := h3 t n e hv
            exact ⟨hts, hsm, hp⟩
          obtain ⟨hok1, hss, hgrew⟩ := round_spec hP harr h1 h2 hfin h4 h5
            (fun t ht => by rw [hts t ht]; exact ⟨h6, hg⟩) hb
          · have hroot1 : (g1.get? s).isSome = true := by rw [hss.isSome]; exact hgrew.keep h6
            have hF : ∀ f ∈ [s], (g1.get? f).isSome = true := by simpa using hroot1
            refine loop_spec hP hI harr hok1 (hI _ _ _ _ _ _ hi (fun t ht => by rw [hts t ht]; exact ⟨h6, hg⟩) hgrew hb) hroot1 (fun t htm => ?_) (fun h0 => ?_) h
            · rcases tips_mem harr hok1.shape hok1.clean ht hF t htm with h' | ⟨h1, h2, h3⟩
              · cases h'
              · exact ⟨h1, (tip_nongoal hok1 h1 h2 h3).1⟩
            · subst h0
              exact (tips_solved harr hok1.shape hok1.clean ht hF).2 s (by simp)

end Verif.AoStar
