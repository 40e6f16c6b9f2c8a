import Verif.Lemmas.TspLpJoin
/- Helper lemmas: the rounds of the solver. -/
namespace Verif.TspLp
open Verif.Milp Verif.Tsp

theorem sorted_perm (comps : List (List Nat)) : (sorted comps).Perm comps := sortBy_perm _ _

theorem components_sorted {n : Nat} {sel : List Edge} {comps : List (List Nat)} (h : Components n sel comps) :
    Components n sel (sorted comps) := by
  obtain ⟨h1, h2, h3⟩ := h
  have hp := sorted_perm comps
  refine ⟨?_, ?_, fun s hs => h3 s (hp.mem_iff.1 hs)⟩
  · intro v hv
    obtain ⟨s, hs, hvs⟩ := h1 v hv
    exact ⟨s, hp.mem_iff.2 hs, hvs⟩
  · refine (List.Perm.pairwise_iff ?_ hp).2 h2
    intro s t hst v hv hv'
    exact hst v hv' hv

/-- A tour with its exact length. -/
def GoodSol (m : Model) (sol : Solution) : Prop :=
  sol.perm.Perm m.inner ∧ sol.length = some (walk m.dist (tour m sol.perm)).sum

theorem tour_tail_dropLast (m : Model) (q : List Nat) : (m.start :: q ++ [m.fin]).tail.dropLast = q := by
  show (q ++ [m.fin]).dropLast = q
  exact List.dropLast_concat

theorem rebuild_spec {m : Model} {edges sel g : List Edge} {comps : List (List Nat)} (hg : Graph m edges) (hs : ∀ a b, m.dist a b = m.dist b a)
    (hne : m.inner ≠ []) (hf : Flow m sel) (hsel : ∀ e, e ∈ sel → e ∈ edges) (hc : Components m.nodeCount sel comps)
    (hge : ∀ e, e ∈ edges → e ∈ g) :
    ∃ ps, parts m sel comps = .ok ps ∧
      ((rebuild m ps g edges comps.length = .error .typeError ∧ ¬ ∃ p, TourOn m edges p) ∨
       ∃ g' sol, rebuild m ps g edges comps.length = .ok (g', tour m sol.perm, sol) ∧ (∀ e, e ∈ edges → e ∈ g') ∧ GoodSol m sol ∧
         (comps.length = 1 → ∀ e, e ∈ legs (tour m sol.perm) → e ∈ sel)) := by
  obtain ⟨ps, cs, q, hps, hr, hsp, hcs⟩ := parts_spec hf hg.start_lt hc
  refine ⟨ps, hps, ?_⟩
  obtain ⟨s, hcs1, hcs2⟩ := (hr.comp _ _).1 hsp.comp
  have hce : ps.comp.get? m.fin = some cs := (hr.comp _ _).2 ⟨s, hcs1, (hr.ends cs s hcs1).1 hcs2⟩
  have hj : Joined m comps edges g (m.start :: q ++ [m.fin]) [cs] cs q := by
    refine ⟨rfl, hsp.nodup, hsp.fin, ?_, by simp, by simpa using hcs, by simp, ⟨s, hcs1, hcs2⟩, hge,
      fun e he => hge e (hsel e (hsp.legs e he)), ?_⟩
    · intro v
      have : v ∈ m.start :: q ++ [m.fin] ↔ v = m.start ∨ v ∈ q ∨ v = m.fin := by simp
      rw [this, ← hsp.mem s hcs1 v]
      constructor
      · intro h; exact ⟨cs, s, by simp, hcs1, h⟩
      · rintro ⟨c, s', h1, h2, h3⟩
        simp only [List.mem_singleton] at h1; subst h1
        rw [hcs1] at h2; cases h2; exact h3
    · intro hsf hq
      subst hq
      have := hsel _ (hsp.legs (m.start, m.fin) (by simp [legs_cons_cons]))
      rw [← hsf] at this
      exact hg.loop _ this
  have hfinal : ∀ g' path' joined' q', Joined m comps edges g' path' joined' cs q' → (∀ c, c < comps.length → c ∈ joined') →
      ∃ sol, build m computeLength path'.tail.dropLast = .ok sol ∧ path' = tour m sol.perm ∧ GoodSol m sol := by
    intro g' path' joined' q' hj' hall
    have hmem : ∀ v, v ∈ q' ↔ v ∈ m.inner := by
      intro v
      rw [inner_mem]
      constructor
      · intro hv
        have hvp : v ∈ path' := by rw [hj'.shape]; simp [hv]
        obtain ⟨c, s', _, h2, h3⟩ := (hj'.mem v).1 hvp
        refine ⟨hr.lt c s' v h2 h3, ?_, fun h => hj'.fin (h ▸ hv)⟩
        rintro rfl
        exact (List.nodup_cons.1 hj'.nodup).1 hv
      · rintro ⟨h1, h2, h3⟩
        obtain ⟨c, s', h4, h5⟩ := hr.cover v h1
        have : v ∈ path' := (hj'.mem v).2 ⟨c, s', hall c (List.getElem?_eq_some_iff.1 h4).1, h4, h5⟩
        rw [hj'.shape] at this
        simp only [List.cons_append, List.mem_cons, List.mem_append, List.not_mem_nil, or_false] at this
        rcases this with h | h | h
        · exact absurd h h2
        · exact h
        · exact absurd h h3
    have hperm : q'.Perm m.inner := (List.perm_ext_iff_of_nodup (List.nodup_cons.1 hj'.nodup).2 (inner_nodup m)).2 hmem
    obtain ⟨sol, h1, h2, h3⟩ := build_ok hs hperm hne
    refine ⟨sol, ?_, ?_, ?_⟩
    · rw [hj'.shape, tour_tail_dropLast]; exact h1
    · rw [hj'.shape, h2]; rfl
    · unfold GoodSol; rw [h2]; exact ⟨hperm, h3⟩
  unfold rebuild
  rw [(Dict.get_ok_iff ..).2 hsp.comp, bind_ok, pyGet_ok_iff.2 hsp.path, bind_ok, (Dict.get_ok_iff ..).2 hce, bind_ok]
  by_cases h1 : comps.length = 1
  · right
    have hrun : joinLoop m ps edges comps.length cs cs (comps.length + 1) g (m.start :: q ++ [m.fin]) [cs] = .ok (g, m.start :: q ++ [m.fin]) := by
      unfold joinLoop; rw [if_neg (by simp; omega)]
    obtain ⟨sol, b1, b2, b3⟩ := hfinal g _ [cs] q hj (by intro c hc; simp; omega)
    rw [hrun, bind_ok]
    simp only []
    rw [b1, bind_ok]
    refine ⟨g, sol, by rw [b2], hge, b3, fun _ => ?_⟩
    rw [← b2]; exact hsp.legs
  · rcases joinLoop_spec hg hr (comps.length + 1) g _ [cs] q hj (by simp) with ⟨hrun, hno⟩ | ⟨g', path', joined', q', hrun, hj', hall⟩
    · left
      rw [hrun]; exact ⟨rfl, hno⟩
    · right
      obtain ⟨sol, b1, b2, b3⟩ := hfinal g' path' joined' q' hj' hall
      rw [hrun, bind_ok]
      simp only []
      rw [b1, bind_ok]
      exact ⟨g', sol, by rw [b2], hj'.edges, b3, fun h => absurd h h1⟩

/-- With one component the choice is the tour. -/
theorem chosen_is_tour {m : Model} {sel : List Edge} (hf : Flow m sel) (hn : sel.Nodup) {p : List Nat} (hp : p.Perm m.inner)
    (hl : ∀ e, e ∈ legs (tour m p) → e ∈ sel) :
    (∀ e, e ∈ legs (tour m p) ↔ e ∈ sel) ∧ (sel.map (fun e => m.dist e.1 e.2)).sum = (walk m.dist (tour m p)).sum := by
  have hq : ∀ v, v ∈ p ↔ v < m.nodeCount ∧ v ≠ m.start ∧ v ≠ m.fin := fun v => by rw [hp.mem_iff, inner_mem]
  obtain ⟨hd, ht⟩ := path_parts m.start m.fin p
  have htour : tour m p = m.start :: p ++ [m.fin] := rfl
  have nd : (tour m p).dropLast.Nodup := by
    rw [htour, hd, List.nodup_cons]; exact ⟨fun h => ((hq _).1 h).2.1 rfl, hp.nodup_iff.2 (inner_nodup m)⟩
  have hiff : ∀ e, e ∈ legs (tour m p) ↔ e ∈ sel := by
    intro e
    refine ⟨hl e, ?_⟩
    obtain ⟨u, v⟩ := e
    intro huv
    have hud : u ∈ (tour m p).dropLast := by
      rw [htour, hd, List.mem_cons, hq]
      by_cases h : u = m.start
      · exact .inl h
      · right
        refine ⟨(hf.lt _ _ huv).1, h, ?_⟩
        rintro rfl
        exact hf.out0 (fun h' => h h'.symm) v huv
    obtain ⟨w, hw⟩ := legs_out hud
    have := hf.out1 u v w huv (hl _ hw)
    rw [this]; exact hw
  refine ⟨hiff, ?_⟩
  rw [walk_eq_legs]
  exact (sum_of_same (legs_nodup nd) hn hiff _).symm

/-- The number compared by the solver. -/
def len (s : Solution) : Int := s.length.getD 0

theorem rounds_spec {m : Model} {edges : List Edge} (hg : Graph m edges) (hs : ∀ a b, m.dist a b = m.dist b a)
    (hne : m.inner ≠ []) (ans : Nat → Answer) :
    ∀ (left k : Nat) (g : List Edge) (best : Option Solution), (∀ e, e ∈ edges → e ∈ g) → (∀ b, best = some b → GoodSol m b) →
      (∀ j, k ≤ j → (j = k ∨ j < k + left) → (∀ i, k ≤ i → i < j → 1 < (ans i).comps.length) →
        Flow m (chosen edges (ans j).value) ∧ Components m.nodeCount (chosen edges (ans j).value) (ans j).comps) →
      (rounds m edges ans left k g best = .error .typeError ∧ ¬ ∃ p, TourOn m edges p) ∨
      ∃ sol, rounds m edges ans left k g best = .ok (some sol) ∧ GoodSol m sol ∧ (∀ b, best = some b → len sol ≤ len b) ∧
        ∀ j, k ≤ j → (j = k ∨ j < k + left) → (∀ i, k ≤ i → i < j → 1 < (ans i).comps.length) → (ans j).comps.length = 1 →
          len sol ≤ ((chosen edges (ans j).value).map (fun e => m.dist e.1 e.2)).sum := by
  intro left
  induction left with
  | zero =>
    intro k g best hge hb hon
    obtain ⟨hf, hc⟩ := hon k (Nat.le_refl k) (.inl rfl) (fun i h1 h2 => by omega)
    obtain ⟨ps, hps, hreb⟩ := rebuild_spec hg hs hne hf (fun e he => (mem_chosen.1 he).1) (components_sorted hc) hge
    unfold rounds
    simp only []
    rw [hps, bind_ok]
    rcases hreb with ⟨hrun, hno⟩ | ⟨g', sol, hrun, hge', hsol, hone⟩
    · left; rw [hrun]; exact ⟨rfl, hno⟩
    · right
      rw [hrun, bind_ok]
      simp only []
      have hlen1 : (ans k).comps.length = 1 → len sol = ((chosen edges (ans k).value).map (fun e => m.dist e.1 e.2)).sum := by
        intro h
        have hl := hone (by rw [(sorted_perm _).length_eq]; exact h)
        have := (chosen_is_tour hf (hg.nodup.filter _) hsol.1 hl).2
        rw [this]; unfold len; rw [hsol.2]; rfl
      unfold keepBest
      cases hbe : best with
      | none =>
        refine ⟨sol, rfl, hsol, by simp, ?_⟩
        intro j h1 h2 _ h3
        have : j = k := by omega
        subst this
        rw [hlen1 h3]; exact Int.le_refl _
      | some b =>
        simp only []
        by_cases hlt : sol.length.getD 0 < b.length.getD 0
        · rw [if_pos hlt]
          refine ⟨sol, rfl, hsol, ?_, ?_⟩
          · intro b' h; cases h; exact Int.le_of_lt hlt
          · intro j h1 h2 _ h3
            have : j = k := by omega
            subst this
            rw [hlen1 h3]; exact Int.le_refl _
        · rw [if_neg hlt]
          refine ⟨b, rfl, hb b hbe, ?_, ?_⟩
          · intro b' h; cases h; exact Int.le_refl _
          · intro j h1 h2 _ h3
            have : j = k := by omega
            subst this
            rw [← hlen1 h3]; exact Int.not_lt.1 hlt
  | succ left ih =>
    intro k g best hge hb hon
    obtain ⟨hf, hc⟩ := hon k (Nat.le_refl k) (.inl rfl) (fun i h1 h2 => by omega)
    obtain ⟨ps, hps, hreb⟩ := rebuild_spec hg hs hne hf (fun e he => (mem_chosen.1 he).1) (components_sorted hc) hge
    unfold rounds
    simp only []
    rw [hps, bind_ok]
    rcases hreb with ⟨hrun, hno⟩ | ⟨g', sol, hrun, hge', hsol, hone⟩
    · left; rw [hrun]; exact ⟨rfl, hno⟩
    · rw [hrun, bind_ok]
      simp only []
      have hlen1 : (ans k).comps.length = 1 → len sol = ((chosen edges (ans k).value).map (fun e => m.dist e.1 e.2)).sum := by
        intro h
        have hl := hone (by rw [(sorted_perm _).length_eq]; exact h)
        have := (chosen_is_tour hf (hg.nodup.filter _) hsol.1 hl).2
        rw [this]; unfold len; rw [hsol.2]; rfl
      -- the best so far
      obtain ⟨b', hbest, hgood, hle, hle'⟩ : ∃ b', keepBest best sol = some b' ∧ GoodSol m b' ∧
          len b' ≤ len sol ∧ ∀ b, best = some b → len b' ≤ len b := by
        unfold keepBest
        cases hbe : best with
        | none => exact ⟨sol, rfl, hsol, Int.le_refl _, by simp⟩
        | some b =>
          simp only []
          by_cases hlt : sol.length.getD 0 < b.length.getD 0
          · rw [if_pos hlt]
            refine ⟨sol, rfl, hsol, Int.le_refl _, ?_⟩
            intro b' h; cases h; exact Int.le_of_lt hlt
          · rw [if_neg hlt]
            refine ⟨b, rfl, hb b hbe, Int.not_lt.1 hlt, ?_⟩
            intro b' h; cases h; exact Int.le_refl _
      rw [hbest]
      have hsl : (sorted (ans k).comps).length = (ans k).comps.length := (sorted_perm _).length_eq
      by_cases hgo : (sorted (ans k).comps).length > 1 ∧ left ≠ 0
      · rw [if_pos hgo]
        have hk1 : 1 < (ans k).comps.length := by omega
        rcases ih (k + 1) g' (some b') hge' (by intro b h; cases h; exact hgood) (by
            intro j h1 h2 h3
            refine hon j (by omega) (by omega) ?_
            intro i hi1 hi2
            by_cases hik : i = k
            · subst hik; exact hk1
            · exact h3 i (by omega) hi2) with h | ⟨sol', hrun', hgood', hle1, hle2⟩
        · exact .inl h
        · right
          refine ⟨sol', hrun', hgood', ?_, ?_⟩
          · intro b h
            exact Int.le_trans (hle1 b' rfl) (hle' b h)
          · intro j h1 h2 h3 h4
            by_cases hjk : j = k
            · subst hjk; omega
            · exact hle2 j (by omega) (by omega) (fun i hi1 hi2 => h3 i (by omega) hi2) h4
      · rw [if_neg hgo]
        right
        refine ⟨b', rfl, hgood, hle', ?_⟩
        intro j h1 h2 h3 h4
        by_cases hjk : j = k
        · subst hjk; rw [← hlen1 h4]; exact hle
        · exfalso
          have hk1 := h3 k (Nat.le_refl k) (by omega)
          omega

/-! ### The rows added -/

theorem sum_ge_one_iff {α : Type} {l : List α} {f : α → Int} (h01 : ∀ x, x ∈ l → f x = 0 ∨ f x = 1) :
    (l.map f).sum ≥ 1 ↔ ∃ x, x ∈ l ∧ f x = 1 := by
  constructor
  · intro h
    apply Classical.byContradiction
    intro hno
    have := (sum_zero_iff h01).2 (fun x hx hx1 => hno ⟨x, hx, hx1⟩)
    omega
  · rintro ⟨x, hx, hx1⟩
    have hn : ∀ v, v ∈ l.map f → 0 ≤ v := by
      intro v hv
      obtain ⟨w, hw, rfl⟩ := List.mem_map.1 hv
      rcases h01 w hw with h | h <;> omega
    have := le_sum_of_mem_int hn (List.mem_map.2 ⟨x, hx, rfl⟩)
    omega

theorem cut_holds {edges : List Edge} {a : Edge → Int} (h01 : ∀ e, e ∈ edges → a e = 0 ∨ a e = 1) (s : List Nat) :
    (∀ r, r ∈ cutRows edges s → r.Holds a) ↔
      (∃ x y, (x, y) ∈ chosen edges a ∧ x ∉ s ∧ y ∈ s) ∧ ∃ x y, (x, y) ∈ chosen edges a ∧ x ∈ s ∧ y ∉ s := by
  have h1 : Row.Holds ⟨ones (edges.filter (fun e => decide (e.2 ∈ s) && decide (e.1 ∉ s))), .ge, 1⟩ a ↔
      ∃ x y, (x, y) ∈ chosen edges a ∧ x ∉ s ∧ y ∈ s := by
    simp only [Row.Holds]
    rw [value_ones, sum_ge_one_iff (fun x hx => h01 x (List.mem_of_mem_filter hx))]
    constructor
    · rintro ⟨⟨x, y⟩, h1, h2⟩
      simp only [List.mem_filter, Bool.and_eq_true, decide_eq_true_eq] at h1
      exact ⟨x, y, mem_chosen.2 ⟨h1.1, by omega⟩, h1.2.2, h1.2.1⟩
    · rintro ⟨x, y, h1, h2, h3⟩
      rw [mem_chosen] at h1
      refine ⟨(x, y), by simp [h1.1, h2, h3], ?_⟩
      rcases h01 _ h1.1 with h | h <;> omega
  have h2 : Row.Holds ⟨ones (edges.filter (fun e => decide (e.1 ∈ s) && decide (e.2 ∉ s))), .ge, 1⟩ a ↔
      ∃ x y, (x, y) ∈ chosen edges a ∧ x ∈ s ∧ y ∉ s := by
    simp only [Row.Holds]
    rw [value_ones, sum_ge_one_iff (fun x hx => h01 x (List.mem_of_mem_filter hx))]
    constructor
    · rintro ⟨⟨x, y⟩, h1, h2⟩
      simp only [List.mem_filter, Bool.and_eq_true, decide_eq_true_eq] at h1
      exact ⟨x, y, mem_chosen.2 ⟨h1.1, by omega⟩, h1.2.1, h1.2.2⟩
    · rintro ⟨x, y, h1, h2, h3⟩
      rw [mem_chosen] at h1
      refine ⟨(x, y), by simp [h1.1, h2, h3], ?_⟩
      rcases h01 _ h1.1 with h | h <;> omega
  rw [← h1, ← h2]
  unfold cutRows
  constructor
  · intro h; exact ⟨h _ (by simp), h _ (by simp)⟩
  · rintro ⟨a1, a2⟩ r hr
    simp only [List.mem_cons, List.not_mem_nil, or_false] at hr
    rcases hr with rfl | rfl
    · exact a1
    · exact a2

theorem programAt_feasible {m : Model} {edges : List Edge} (hg : Graph m edges) (ans : Nat → Answer) (k : Nat) (a : Edge → Int) :
    (programAt (prog m edges) edges ans k).Feasible a ↔ (∀ e, e ∈ edges → a e = 0 ∨ a e = 1) ∧ Flow m (chosen edges a) ∧
      ∀ j, j < k → ∀ s, s ∈ (ans j).comps →
        (∃ x y, (x, y) ∈ chosen edges a ∧ x ∉ s ∧ y ∈ s) ∧ ∃ x y, (x, y) ∈ chosen edges a ∧ x ∈ s ∧ y ∉ s := by
  have hbase := feasible_iff hg a
  have hsplit : (programAt (prog m edges) edges ans k).Feasible a ↔ (prog m edges).Feasible a ∧
      ∀ j, j < k → ∀ s, s ∈ (ans j).comps → ∀ r, r ∈ cutRows edges s → r.Holds a := by
    unfold Program.Feasible programAt
    constructor
    · rintro ⟨h1, h2⟩
      refine ⟨⟨h1, fun r hr => h2 r (List.mem_append_left _ hr)⟩, ?_⟩
      intro j hj s hs r hr
      refine h2 r (List.mem_append_right _ ?_)
      exact List.mem_flatMap.2 ⟨j, List.mem_range.2 hj, List.mem_flatMap.2 ⟨s, (sorted_perm _).mem_iff.2 hs, hr⟩⟩
    · rintro ⟨⟨h1, h2⟩, h3⟩
      refine ⟨h1, ?_⟩
      intro r hr
      rcases List.mem_append.1 hr with hr | hr
      · exact h2 r hr
      · obtain ⟨j, hj, hr⟩ := List.mem_flatMap.1 hr
        obtain ⟨s, hs, hr⟩ := List.mem_flatMap.1 hr
        exact h3 j (List.mem_range.1 hj) s ((sorted_perm _).mem_iff.1 hs) r hr
  rw [hsplit, hbase, and_assoc]
  apply and_congr_right
  intro h01
  apply and_congr_right
  intro _
  constructor
  · intro h j hj s hs; exact (cut_holds h01 s).1 (h j hj s hs)
  · intro h j hj s hs; exact (cut_holds h01 s).2 (h j hj s hs)

/-- Components, when there are several, are proper sets. -/
theorem comp_proper {n : Nat} {sel : List Edge} {comps : List (List Nat)} (h : Components n sel comps) (h1 : 1 < comps.length)
    {s : List Nat} (hs : s ∈ comps) : (∃ v, v < n ∧ v ∈ s) ∧ ∃ v, v < n ∧ v ∉ s := by
  obtain ⟨_, hpw, hall⟩ := h
  obtain ⟨v, hv⟩ := List.exists_mem_of_ne_nil s (hall s hs).1
  refine ⟨⟨v, (hall s hs).2.2.1 v hv, hv⟩, ?_⟩
  obtain ⟨i, hi⟩ := List.mem_iff_getElem?.1 hs
  obtain ⟨hil, hie⟩ := List.getElem?_eq_some_iff.1 hi
  obtain ⟨j, hj, hij⟩ : ∃ j, j < comps.length ∧ j ≠ i := by
    by_cases h : i = 0
    · exact ⟨1, h1, by omega⟩
    · exact ⟨0, by omega, by omega⟩
  have htm : comps[j] ∈ comps := List.getElem_mem hj
  obtain ⟨w, hw⟩ := List.exists_mem_of_ne_nil _ (hall _ htm).1
  refine ⟨w, (hall _ htm).2.2.1 w hw, ?_⟩
  intro hws
  rcases Nat.lt_or_gt_of_ne hij with hlt | hlt
  · have := List.pairwise_iff_getElem.1 hpw j i hj hil hlt w hw
    rw [hie] at this; exact this hws
  · have := List.pairwise_iff_getElem.1 hpw i j hil hj hlt w
    rw [hie] at this
    exact this hws hw

end Verif.TspLp
