import Verif.Model.Vrp
/- Helper lemmas about the vehicle routing model. -/
namespace Verif.Vrp

/-- Total demand of a list of customers. -/
def total (p : Problem) (cs : List Nat) : Int := (cs.filterMap (fun c => p.demands[c]?)).sum

theorem total_nil (p : Problem) : total p [] = 0 := rfl

theorem total_append (p : Problem) (a b : List Nat) : total p (a ++ b) = total p a + total p b := by
  simp [total, List.filterMap_append, List.sum_append]

theorem total_cons {p : Problem} {c : Nat} {d : Int} (h : p.demands[c]? = some d) (cs : List Nat) :
    total p (c :: cs) = d + total p cs := by
  simp [total, h]

theorem withDemand_ok {p : Problem} {cs : List Nat} {r : List (Nat × Int)} (h : withDemand p cs = .ok r) :
    r.map Prod.fst = cs ∧ ∀ c d, (c, d) ∈ r → p.demands[c]? = some d := by
  induction cs generalizing r with
  | nil => cases h; simp
  | cons c cs ih =>
    simp only [withDemand, bind_eq_ok, pyGet_ok_iff] at h
    obtain ⟨d, hd, r', hr, h⟩ := h
    cases h
    obtain ⟨h1, h2⟩ := ih hr
    refine ⟨by simp [h1], ?_⟩
    intro c' d' hm
    rcases List.mem_cons.1 hm with hm | hm
    · cases hm; exact hd
    · exact h2 c' d' hm

theorem withDemand_total {p : Problem} {cs : List Nat} (h : ∀ c, c ∈ cs → c < p.demands.length) :
    ∃ r, withDemand p cs = .ok r := by
  induction cs with
  | nil => exact ⟨[], rfl⟩
  | cons c cs ih =>
    obtain ⟨r, hr⟩ := ih (fun c hc => h c (List.mem_cons_of_mem _ hc))
    exact ⟨_, by simp only [withDemand, pyGet_of_lt (h c (by simp)), hr, bind_ok]; rfl⟩

theorem addAll_spec {p : Problem} (ds : List (Nat × Int)) (hd : ∀ c d, (c, d) ∈ ds → p.demands[c]? = some d) :
    ∀ cap, (addAll cap ds).2.Sublist (ds.map Prod.fst) ∧
      (addAll cap ds).1 = cap - total p (addAll cap ds).2 ∧
      ((addAll cap ds).2 ≠ [] → 0 ≤ (addAll cap ds).1) ∧
      ((∃ q, q ∈ ds ∧ q.2 ≤ cap) → (addAll cap ds).2 ≠ []) := by
  induction ds with
  | nil => intro cap; simp [addAll, total]
  | cons q ds ih =>
    intro cap
    obtain ⟨c, d⟩ := q
    have hd' := fun c' d' h => hd c' d' (List.mem_cons_of_mem _ h)
    simp only [addAll]
    split
    · rename_i hge
      obtain ⟨h1, h2, h3, h4⟩ := ih hd' (cap - d)
      refine ⟨by simpa using h1.cons_cons c, ?_, ?_, by simp⟩
      · simp only [total_cons (hd c d (by simp)), h2]; omega
      · intro _
        by_cases hne : (addAll (cap - d) ds).2 = []
        · simp only at *; rw [h2, hne, total_nil]; omega
        · exact h3 hne
    · rename_i hge
      obtain ⟨h1, h2, h3, h4⟩ := ih hd' cap
      refine ⟨by simpa using h1.cons c, h2, h3, ?_⟩
      rintro ⟨q, hq, hle⟩
      rcases List.mem_cons.1 hq with rfl | hq
      · simp only at hle; omega
      · exact h4 ⟨q, hq, hle⟩

theorem split_perm {rem used : List Nat} (hr : rem.Nodup) (hu : used.Nodup) (hs : ∀ c, c ∈ used → c ∈ rem) :
    (used ++ rem.filter (fun c => !used.contains c)).Perm rem := by
  rw [List.perm_ext_iff_of_nodup _ hr]
  · intro c
    simp only [List.mem_append, List.mem_filter, List.contains_eq_mem, Bool.not_eq_true', decide_eq_false_iff_not]
    constructor
    · rintro (h | h)
      · exact hs c h
      · exact h.1
    · intro h
      by_cases hc : c ∈ used
      · exact .inl hc
      · exact .inr ⟨h, hc⟩
  · rw [List.nodup_append]
    refine ⟨hu, hr.sublist List.filter_sublist, ?_⟩
    rintro a ha b hb rfl
    simp [ha] at hb

theorem fill_spec {p : Problem} : ∀ (n : Nat) (cap : Int) (rem tour rest : List Nat), rem.Nodup → rem.length ≤ n →
    fill p n cap rem = .ok (tour, rest) →
    (tour ++ rest).Perm rem ∧ (tour ≠ [] → total p tour ≤ cap) ∧
      (∀ c d, c ∈ rest → p.demands[c]? = some d → cap - total p tour < d) := by
  intro n
  induction n with
  | zero =>
    intro cap rem tour rest _ hl h
    cases h
    have : rem = [] := List.length_eq_zero_iff.1 (by omega)
    simp [this]
  | succ n ih =>
    intro cap rem tour rest hn hl h
    simp only [fill, bind_eq_ok] at h
    obtain ⟨ds, hds, h⟩ := h
    obtain ⟨h1, h2⟩ := withDemand_ok hds
    split at h
    · rename_i hany
      simp only [bind_eq_ok] at h
      obtain ⟨⟨tour', rest'⟩, h3, h4⟩ := h
      have hperm := sortBy_perm (fun q : Nat × Int => -q.2 * p.customerCount + q.1) ds
      have hspec := addAll_spec (p := p) (sortBy (fun q : Nat × Int => -q.2 * p.customerCount + q.1) ds)
        (fun c d hm => h2 c d (hperm.mem_iff.1 hm)) cap
      generalize sortBy (fun q : Nat × Int => -q.2 * p.customerCount + q.1) ds = sd at *
      cases h4
      obtain ⟨a1, a2, a3, a4⟩ := hspec
      have hsub : (addAll cap sd).2.Sublist (sd.map Prod.fst) := a1
      have hpm : (sd.map Prod.fst).Perm rem := by rw [← h1]; exact hperm.map _
      have hun : (addAll cap sd).2.Nodup := (hpm.nodup_iff.2 hn).sublist hsub
      have hus : ∀ c, c ∈ (addAll cap sd).2 → c ∈ rem := fun c hc => hpm.mem_iff.1 (hsub.subset hc)
      have hsp := split_perm hn hun hus
      have hne : (addAll cap sd).2 ≠ [] := by
        apply a4
        simp only [List.any_eq_true, decide_eq_true_eq] at hany
        obtain ⟨q, hq, hle⟩ := hany
        exact ⟨q, hperm.mem_iff.2 hq, hle⟩
      have hlen := hsp.length_eq
      simp only [List.length_append] at hlen
      have : 0 < (addAll cap sd).2.length := List.length_pos_iff.2 hne
      obtain ⟨b1, b2, b3⟩ := ih _ _ _ _ (hn.sublist List.filter_sublist) (by omega) h3
      have hpos := a3 hne
      refine ⟨?_, ?_, ?_⟩
      · rw [List.append_assoc]
        exact (b1.append_left _).trans hsp
      · intro _
        show total p ((addAll cap sd).2 ++ tour') ≤ cap
        rw [total_append]
        by_cases ht : tour' = []
        · subst ht; rw [total_nil]; omega
        · have := b2 ht; omega
      · intro c d hc hd
        have := b3 c d hc hd
        show cap - total p ((addAll cap sd).2 ++ tour') < d
        rw [total_append]; omega
    · rename_i hany
      cases h
      refine ⟨by simp, by simp, ?_⟩
      intro c d hc hd
      rw [total_nil]
      simp only [List.any_eq_true, decide_eq_true_eq, not_exists, not_and] at hany
      rw [← h1] at hc
      obtain ⟨⟨c', d'⟩, hm, rfl⟩ := List.mem_map.1 hc
      have := h2 c' d' hm
      have h5 := hany (c', d') hm
      simp only at hd h5
      rw [this] at hd; cases hd
      omega

theorem fill_total {p : Problem} : ∀ (n : Nat) (cap : Int) (rem : List Nat), (∀ c, c ∈ rem → c < p.demands.length) →
    ∃ r, fill p n cap rem = .ok r := by
  intro n
  induction n with
  | zero => intro cap rem _; exact ⟨_, rfl⟩
  | succ n ih =>
    intro cap rem h
    obtain ⟨ds, hds⟩ := withDemand_total h
    simp only [fill, hds, bind_ok]
    split
    · obtain ⟨r, hr⟩ := ih (addAll cap (sortBy (fun q => -q.2 * p.customerCount + q.1) ds)).1
        (rem.filter (fun c => !(addAll cap (sortBy (fun q => -q.2 * p.customerCount + q.1) ds)).2.contains c))
        (fun c hc => h c (List.mem_filter.1 hc).1)
      exact ⟨_, by rw [hr]; rfl⟩
    · exact ⟨_, rfl⟩

theorem fillAll_spec {p : Problem} : ∀ (caps : List Int) (rem : List Nat) (tours : List (List Nat)) (rest : List Nat),
    rem.Nodup → fillAll p caps rem = .ok (tours, rest) →
    tours.length = caps.length ∧ (tours.flatten ++ rest).Perm rem ∧
      ∀ (v : Nat) tour cap, tours[v]? = some tour → caps[v]? = some cap →
        (tour ≠ [] → total p tour ≤ cap) ∧ ∀ c d, c ∈ rest → p.demands[c]? = some d → cap - total p tour < d := by
  intro caps
  induction caps with
  | nil => intro rem tours rest _ h; cases h; simp
  | cons cap caps ih =>
    intro rem tours rest hn h
    simp only [fillAll, bind_eq_ok] at h
    obtain ⟨⟨tour, rem'⟩, h1, ⟨tours', rest'⟩, h2, h3⟩ := h
    cases h3
    obtain ⟨a1, a2, a3⟩ := fill_spec _ _ _ _ _ hn (Nat.le_refl _) h1
    have hn' : rem'.Nodup := (List.nodup_append.1 (a1.nodup_iff.2 hn)).2.1
    obtain ⟨b1, b2, b3⟩ := ih _ _ _ hn' h2
    refine ⟨by simp [b1], ?_, ?_⟩
    · simp only [List.flatten_cons, List.append_assoc]
      exact (b2.append_left _).trans a1
    · intro v t c hv hc
      cases v with
      | zero =>
        simp only [List.getElem?_cons_zero, Option.some.injEq] at hv hc
        subst hv; subst hc
        refine ⟨a2, fun c d hc hd => a3 c d ?_ hd⟩
        exact b2.mem_iff.1 (List.mem_append_right _ hc)
      | succ v =>
        exact b3 v t c (by simpa using hv) (by simpa using hc)

theorem fillAll_total {p : Problem} : ∀ (caps : List Int) (rem : List Nat), rem.Nodup →
    (∀ c, c ∈ rem → c < p.demands.length) → ∃ r, fillAll p caps rem = .ok r := by
  intro caps
  induction caps with
  | nil => intro rem _ _; exact ⟨_, rfl⟩
  | cons cap caps ih =>
    intro rem hn h
    obtain ⟨⟨tour, rem'⟩, hr⟩ := fill_total rem.length cap rem h
    obtain ⟨a1, _, _⟩ := fill_spec _ _ _ _ _ hn (Nat.le_refl _) hr
    obtain ⟨r, hr'⟩ := ih rem' (List.nodup_append.1 (a1.nodup_iff.2 hn)).2.1
      (fun c hc => h c (a1.mem_iff.1 (List.mem_append_right _ hc)))
    exact ⟨_, by simp only [fillAll, hr, hr', bind_ok]; rfl⟩

/-- The depots of a vehicle: the start, and the end when it is another place. -/
def depotList (start fin : Nat) : List Nat := if fin ≠ start then [start, fin] else [start]

theorem endDemand_ok {p : Problem} {s e : Nat} {a b : Int} (ha : p.demands[s]? = some a) (hb : endDemand p s e = .ok b) :
    total p (depotList s e) = a + b := by
  unfold endDemand at hb
  unfold depotList
  split at hb
  · rename_i h
    rw [pyGet_ok_iff] at hb
    simp [h, total, ha, hb]
  · rename_i h
    cases hb
    simp [h, total, ha]

theorem depots_spec {p : Problem} : ∀ (n v : Nat) (rem : List Nat) (caps : List Int) (rem' : List Nat),
    depots p n v rem = .ok (caps, rem') →
    caps.length = n ∧ rem'.Sublist rem ∧
      (∀ c, c ∈ rem' ↔ c ∈ rem ∧ ∀ i : Nat, v ≤ i → i < v + n → p.starts[i]? ≠ some c ∧ p.ends[i]? ≠ some c) ∧
      ∀ (i : Nat) cap, caps[i]? = some cap → ∃ s e q, p.starts[v + i]? = some s ∧ p.ends[v + i]? = some e ∧
        p.capacities[v + i]? = some q ∧ cap = q - total p (depotList s e) := by
  intro n
  induction n with
  | zero =>
    intro v rem caps rem' h
    cases h
    refine ⟨rfl, List.Sublist.refl _, ?_, by simp⟩
    intro c
    exact ⟨fun h => ⟨h, fun i h1 h2 => by omega⟩, fun h => h.1⟩
  | succ n ih =>
    intro v rem caps rem' h
    simp only [depots, bind_eq_ok, pyGet_ok_iff] at h
    obtain ⟨s, hs, e, he, q, hq, a, ha, b, hb, ⟨caps1, rem1⟩, hr, h⟩ := h
    cases h
    obtain ⟨h1, h2, h3, h4⟩ := ih _ _ _ _ hr
    refine ⟨by simp [h1], h2.trans List.filter_sublist, ?_, ?_⟩
    · intro c
      rw [h3]
      simp only [List.mem_filter, Bool.and_eq_true, decide_eq_true_eq]
      constructor
      · rintro ⟨⟨h5, h6, h7⟩, h8⟩
        refine ⟨h5, fun i hi1 hi2 => ?_⟩
        by_cases hiv : i = v
        · subst hiv
          rw [hs, he]
          exact ⟨fun h => h6 (Option.some.inj h).symm, fun h => h7 (Option.some.inj h).symm⟩
        · exact h8 i (by omega) (by omega)
      · rintro ⟨h5, h6⟩
        refine ⟨⟨h5, ?_, ?_⟩, fun i hi1 hi2 => h6 i (by omega) (by omega)⟩
        · rintro rfl; exact (h6 v (by omega) (by omega)).1 hs
        · rintro rfl; exact (h6 v (by omega) (by omega)).2 he
    · intro i cap hi
      cases i with
      | zero =>
        simp at hi
        refine ⟨s, e, q, hs, he, hq, ?_⟩
        rw [endDemand_ok ha hb]; omega
      | succ i =>
        obtain ⟨s', e', q', g⟩ := h4 i cap (by simpa using hi)
        refine ⟨s', e', q', ?_⟩
        rw [show v + (i + 1) = v + 1 + i by omega]; exact g

/-- Legs of a walk `prev, c₁, c₂, …`. -/
def walk (dist : Nat → Nat → Int) : List Nat → List Int
  | [] => []
  | [_] => []
  | a :: b :: l => dist a b :: walk dist (b :: l)

theorem legsFrom_spec {p : Problem} (cs : List Nat) : ∀ (prev : Nat) (obj load : Int) (r : List Int × Int × Int × Nat),
    legsFrom p prev obj load cs = .ok r →
    r.1 = walk p.dist (prev :: cs) ∧ r.2.1 = obj + r.1.sum ∧ r.2.2.1 = load + total p cs ∧
      (prev :: cs).getLast? = some r.2.2.2 := by
  induction cs with
  | nil => intro prev obj load r h; cases h; simp [walk, total]
  | cons c cs ih =>
    intro prev obj load r h
    simp only [legsFrom, bind_eq_ok, pyGet_ok_iff] at h
    obtain ⟨d, hd, r', hr, h⟩ := h
    cases h
    obtain ⟨h1, h2, h3, h4⟩ := ih _ _ _ _ hr
    refine ⟨by simp [walk, h1], ?_, ?_, ?_⟩
    · simp only [h2, List.sum_cons]; omega
    · simp only [h3, total_cons hd]; omega
    · simpa [List.getLast?_cons_cons] using h4

theorem walk_snoc (dist : Nat → Nat → Int) (l : List Nat) (x y : Nat) (h : l.getLast? = some x) :
    walk dist (l ++ [y]) = walk dist l ++ [dist x y] := by
  induction l with
  | nil => simp at h
  | cons a l ih =>
    cases l with
    | nil => simp at h; subst h; simp [walk]
    | cons b l =>
      rw [List.getLast?_cons_cons] at h
      have := ih h
      simp only [List.cons_append] at this ⊢
      simp only [walk, this, List.cons_append]

/-- Load, legs and length of one route. -/
theorem computeLength_spec {p : Problem} {s e : Nat} {path : List Nat} {r : List Int × Int × Int}
    (h : computeLength p s e path = .ok r) :
    r.2.1 = r.1.sum ∧ r.2.2 = total p (depotList s e ++ path) ∧ r.1.length = path.length + 1 ∧
      (∀ (_ : ∀ a b, p.dist a b = p.dist b a), r.1 = walk p.dist (s :: path ++ [e])) := by
  cases path with
  | nil =>
    simp only [computeLength, bind_eq_ok, pyGet_ok_iff] at h
    obtain ⟨a, ha, b, hb, h⟩ := h
    cases h
    refine ⟨by simp, ?_, by simp, fun _ => by simp [walk]⟩
    rw [List.append_nil, endDemand_ok ha hb]
  | cons c cs =>
    simp only [computeLength, bind_eq_ok, pyGet_ok_iff] at h
    obtain ⟨a, ha, d, hd, r', hr, b, hb, h⟩ := h
    cases h
    obtain ⟨h1, h2, h3, h4⟩ := legsFrom_spec _ _ _ _ _ hr
    have hlen : ∀ (l : List Nat) (x : Nat), (walk p.dist (x :: l)).length = l.length := by
      intro l
      induction l with
      | nil => intro x; rfl
      | cons y l ih => intro x; simp [walk, ih]
    refine ⟨?_, ?_, ?_, ?_⟩
    · simp only [h2, List.sum_append, List.sum_cons, List.sum_nil]; omega
    · rw [total_append, endDemand_ok ha hb, total_cons hd]
      simp only [h3]; omega
    · simp [h1, hlen]
    · intro hsym
      simp only [List.cons_append, walk]
      have := walk_snoc p.dist (c :: cs) r'.2.2.2 e h4
      simp only [List.cons_append] at this
      rw [this, ← h1, hsym e]

theorem sequential_spec {p : Problem} {starts ends : List Nat} : ∀ (paths : List (List Nat)) (i : Nat)
    (rs : List (List Int × Int × Int)), sequential p starts ends i paths = .ok rs →
    rs.length = paths.length ∧ ∀ (v : Nat) path, paths[v]? = some path → ∃ s e r, starts[i + v]? = some s ∧
      ends[i + v]? = some e ∧ rs[v]? = some r ∧ computeLength p s e path = .ok r := by
  intro paths
  induction paths with
  | nil => intro i rs h; cases h; simp
  | cons path paths ih =>
    intro i rs h
    simp only [sequential, bind_eq_ok, pyGet_ok_iff] at h
    obtain ⟨s, hs, e, he, r, hr, rest, hrest, h⟩ := h
    cases h
    obtain ⟨h1, h2⟩ := ih _ _ hrest
    refine ⟨by simp [h1], ?_⟩
    intro v q hv
    cases v with
    | zero => simp at hv; subst hv; exact ⟨s, e, r, hs, he, by simp, hr⟩
    | succ v =>
      obtain ⟨s', e', r', g1, g2, g3, g4⟩ := h2 v q (by simpa using hv)
      refine ⟨s', e', r', ?_, ?_, by simpa using g3, g4⟩
      · rw [show i + (v + 1) = i + 1 + v by omega]; exact g1
      · rw [show i + (v + 1) = i + 1 + v by omega]; exact g2

theorem violation_spec {p : Problem} {loads : List Int} : ∀ (n i : Nat) (w : Int), violation p loads n i = .ok w →
    0 ≤ w ∧ (w = 0 ↔ ∀ (v : Nat) l c, i ≤ v → v < i + n → loads[v]? = some l → p.capacities[v]? = some c → l ≤ c) ∧
      ∀ v : Nat, i ≤ v → v < i + n → v < loads.length ∧ v < p.capacities.length := by
  intro n
  induction n with
  | zero => intro i w h; cases h; exact ⟨by omega, ⟨fun _ v l c h1 h2 => by omega, fun _ => rfl⟩, fun v h1 h2 => by omega⟩
  | succ n ih =>
    intro i w h
    simp only [violation, bind_eq_ok, pyGet_ok_iff] at h
    obtain ⟨l, hl, c, hc, r, hr, h⟩ := h
    cases h
    obtain ⟨h1, h2, h3⟩ := ih _ _ hr
    refine ⟨by omega, ?_, ?_⟩
    · constructor
      · intro hz v l' c' g1 g2 g3 g4
        by_cases hv : v = i
        · subst hv; rw [hl] at g3; rw [hc] at g4; cases g3; cases g4; omega
        · exact h2.1 (by omega) v l' c' (by omega) (by omega) g3 g4
      · intro hz
        have := hz i l c (by omega) (by omega) hl hc
        have h4 := h2.2 (fun v l' c' g1 g2 g3 g4 => hz v l' c' (by omega) (by omega) g3 g4)
        omega
    · intro v g1 g2
      by_cases hv : v = i
      · subst hv; exact ⟨(List.getElem?_eq_some_iff.1 hl).1, (List.getElem?_eq_some_iff.1 hc).1⟩
      · exact h3 v (by omega) (by omega)

end Verif.Vrp
