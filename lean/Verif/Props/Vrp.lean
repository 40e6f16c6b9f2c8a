import Verif.Lemmas.Vrp
/- Property C34: vehicle routing. -/
namespace Verif.Vrp

/-- Specification: load of a vehicle, depots included: the demands of the start, of the end when it is
another place, and of the customers served. -/
def loadOf (p : Problem) (start fin : Nat) (path : List Nat) : Int :=
  (((if fin ≠ start then [start, fin] else [start]) ++ path).filterMap (fun c => p.demands[c]?)).sum

/-- The instance is complete: capacities, starts and ends for all vehicles, demands for all customers and
depots. -/
structure WF (p : Problem) : Prop where
  caps : p.vehicleCount ≤ p.capacities.length
  starts : p.vehicleCount ≤ p.starts.length
  ends : p.vehicleCount ≤ p.ends.length
  cust : p.customerCount ≤ p.demands.length
  depots : ∀ c, c ∈ p.starts ∨ c ∈ p.ends → c < p.demands.length

/-- Not the start or end of any vehicle. -/
def NoDepot (p : Problem) (c : Nat) : Prop :=
  ∀ v : Nat, v < p.vehicleCount → p.starts[v]? ≠ some c ∧ p.ends[v]? ≠ some c

theorem trivial_spec {p : Problem} {tours : List (List Nat)} (h : trivial p = .ok tours) :
    ∃ rest, tours.length = p.vehicleCount ∧ (tours.flatten ++ rest).Nodup ∧
      (∀ c, c ∈ tours.flatten ++ rest ↔ c < p.customerCount ∧ NoDepot p c) ∧
      ∀ (v : Nat) tour, tours[v]? = some tour → ∃ s e q, p.starts[v]? = some s ∧ p.ends[v]? = some e ∧
        p.capacities[v]? = some q ∧ (tour ≠ [] → loadOf p s e tour ≤ q) ∧
        ∀ c d, c ∈ rest → p.demands[c]? = some d → q < loadOf p s e tour + d := by
  simp only [trivial, trivialFull, bind_eq_ok] at h
  obtain ⟨⟨tours', rest⟩, ⟨⟨caps, rem⟩, h1, h2⟩, h3⟩ := h
  cases h3
  obtain ⟨d1, d2, d3, d4⟩ := depots_spec _ _ _ _ _ h1
  have hn : rem.Nodup := List.nodup_range.sublist d2
  obtain ⟨f1, f2, f3⟩ := fillAll_spec _ _ _ _ hn h2
  refine ⟨rest, by simp only at *; omega, f2.nodup_iff.2 hn, ?_, ?_⟩
  · intro c
    rw [f2.mem_iff, d3]
    simp only [List.mem_range, Nat.zero_le, Nat.zero_add, true_implies, NoDepot]
  · intro v tour hv
    have hlt : v < caps.length := by
      rw [← f1]; exact (List.getElem?_eq_some_iff.1 hv).1
    obtain ⟨s, e, q, hs, he, hq, hc⟩ := d4 v caps[v] (List.getElem?_eq_getElem hlt)
    rw [Nat.zero_add] at hs he hq
    obtain ⟨g1, g2⟩ := f3 v tour caps[v] hv (List.getElem?_eq_getElem hlt)
    have hload : loadOf p s e tour = total p (depotList s e) + total p tour := by
      rw [← total_append]; rfl
    refine ⟨s, e, q, hs, he, hq, ?_, ?_⟩
    · intro hne; have := g1 hne; omega
    · intro c d hc' hd; have := g2 c d hc' hd; omega

/-- C34: the constructive solution has one tour per vehicle, serves no customer twice, serves only
customers that are no depot, and never loads a vehicle that serves somebody above its capacity. -/
theorem C34_trivial {p : Problem} {tours : List (List Nat)} (h : trivial p = .ok tours) :
    tours.length = p.vehicleCount ∧ tours.flatten.Nodup ∧
      (∀ c, c ∈ tours.flatten → c < p.customerCount ∧ NoDepot p c) ∧
      ∀ (v : Nat) tour, tours[v]? = some tour → tour ≠ [] → ∃ s e q, p.starts[v]? = some s ∧
        p.ends[v]? = some e ∧ p.capacities[v]? = some q ∧ loadOf p s e tour ≤ q := by
  obtain ⟨rest, h1, h2, h3, h4⟩ := trivial_spec h
  refine ⟨h1, (List.nodup_append.1 h2).1, fun c hc => (h3 c).1 (List.mem_append_left _ hc), ?_⟩
  intro v tour hv hne
  obtain ⟨s, e, q, hs, he, hq, h5, _⟩ := h4 v tour hv
  exact ⟨s, e, q, hs, he, hq, h5 hne⟩

/-- C34: a customer left unserved by the constructive solution fits in no vehicle any more. -/
theorem C34_trivial_maximal {p : Problem} {tours : List (List Nat)} (h : trivial p = .ok tours)
    {c : Nat} {d : Int} (hc : c < p.customerCount) (hd : NoDepot p c) (hu : c ∉ tours.flatten)
    (hdem : p.demands[c]? = some d) {v : Nat} {tour : List Nat} (hv : tours[v]? = some tour)
    {s e : Nat} {q : Int} (hs : p.starts[v]? = some s) (he : p.ends[v]? = some e)
    (hq : p.capacities[v]? = some q) : q < loadOf p s e (tour ++ [c]) := by
  obtain ⟨rest, h1, h2, h3, h4⟩ := trivial_spec h
  obtain ⟨s', e', q', hs', he', hq', _, h5⟩ := h4 v tour hv
  rw [hs] at hs'; rw [he] at he'; rw [hq] at hq'
  cases hs'; cases he'; cases hq'
  have hrest : c ∈ rest := by
    rcases List.mem_append.1 ((h3 c).2 ⟨hc, hd⟩) with h | h
    · exact absurd h hu
    · exact h
  have := h5 c d hrest hdem
  have hsum : loadOf p s e (tour ++ [c]) = loadOf p s e tour + d := by
    unfold loadOf
    rw [← List.append_assoc, List.filterMap_append, List.sum_append]
    simp [hdem]
  omega

theorem depots_total {p : Problem} (hw : WF p) : ∀ (n v : Nat) (rem : List Nat), v + n ≤ p.vehicleCount →
    ∃ r, depots p n v rem = .ok r := by
  intro n
  induction n with
  | zero => intro v rem _; exact ⟨_, rfl⟩
  | succ n ih =>
    intro v rem hv
    have h1 := hw.caps
    have h2 := hw.starts
    have h3 := hw.ends
    have hs : v < p.starts.length := by omega
    have he : v < p.ends.length := by omega
    have ha := hw.depots p.starts[v] (.inl (List.getElem_mem hs))
    have hb := hw.depots p.ends[v] (.inr (List.getElem_mem he))
    obtain ⟨r, hr⟩ := ih (v + 1) (rem.filter (fun c => c ≠ p.starts[v] && c ≠ p.ends[v])) (by omega)
    obtain ⟨b, hb'⟩ : ∃ b, endDemand p p.starts[v] p.ends[v] = .ok b := by
      unfold endDemand
      split
      · exact ⟨_, pyGet_of_lt hb⟩
      · exact ⟨_, rfl⟩
    have hc : v < p.capacities.length := by omega
    refine ⟨((p.capacities[v] - p.demands[p.starts[v]] - b) :: r.1, r.2), ?_⟩
    simp only [depots, pyGet_of_lt hs, pyGet_of_lt he, pyGet_of_lt hc, pyGet_of_lt ha, hb', bind_ok, hr]

/-- C34: on a complete instance the construction always returns. -/
theorem C34_trivial_returns {p : Problem} (hw : WF p) : ∃ tours, trivial p = .ok tours := by
  obtain ⟨⟨caps, rem⟩, h1⟩ := depots_total hw p.vehicleCount 0 (List.range p.customerCount) (by omega)
  obtain ⟨_, d2, d3, _⟩ := depots_spec _ _ _ _ _ h1
  have hcust := hw.cust
  obtain ⟨r, h2⟩ := fillAll_total (p := p) caps rem (List.nodup_range.sublist d2) (fun c hc => by
    have := ((d3 c).1 hc).1
    simp only [List.mem_range] at this; omega)
  exact ⟨r.1, by simp only [trivial, trivialFull, h1, h2, bind_ok]⟩

/-- C34 (what the check tests): a solution is accepted exactly when no vehicle is loaded above its capacity.
Missing from the claim: that every customer is served, and served once; see `C34_accepts_unserved` and
`C34_accepts_twice`. -/
theorem C34_satisfy_iff_partial {p : Problem} {starts ends : List Nat} {paths : List (List Nat)} {b : Bool}
    (h : satisfy p starts ends paths = .ok b) :
    b = true ↔ ∀ (v : Nat) path s e q, v < p.vehicleCount → paths[v]? = some path → starts[v]? = some s →
      ends[v]? = some e → p.capacities[v]? = some q → loadOf p s e path ≤ q := by
  simp only [satisfy, evaluate, bind_eq_ok] at h
  obtain ⟨⟨len, viol⟩, ⟨rs, h1, w, h2, h3⟩, h4⟩ := h
  cases h3
  cases h4
  obtain ⟨s1, s2⟩ := sequential_spec _ _ _ h1
  obtain ⟨v1, v2, v3⟩ := violation_spec _ _ _ h2
  simp only [decide_eq_true_eq]
  rw [v2]
  constructor
  · intro h v path s e q hv hpath hs he hq
    obtain ⟨s', e', r, g1, g2, g3, g4⟩ := s2 v path hpath
    rw [Nat.zero_add] at g1 g2
    rw [hs] at g1; rw [he] at g2
    cases g1; cases g2
    have := h v r.2.2 q (by omega) (by omega) (by simp [g3]) hq
    rw [(computeLength_spec g4).2.1] at this
    exact this
  · intro h v l c _ hv hl hc
    have hlt := (v3 v (by omega) hv).1
    simp only [List.length_map, s1] at hlt
    obtain ⟨s', e', r, g1, g2, g3, g4⟩ := s2 v paths[v] (List.getElem?_eq_getElem hlt)
    rw [Nat.zero_add] at g1 g2
    have := h v paths[v] s' e' c (by omega) (List.getElem?_eq_getElem hlt) g1 g2 hc
    simp only [List.getElem?_map, g3, Option.map_some, Option.some.injEq] at hl
    rw [← hl, (computeLength_spec g4).2.1]
    exact this

/-- C34: legs, length and load computed for one route: one leg more than customers, the length is the sum of
the legs, the load is the demand of depots and customers, and for a symmetric distance the legs are those of
the walk start, customers, end. -/
theorem C34_route {p : Problem} {s e : Nat} {path : List Nat} {r : List Int × Int × Int}
    (h : computeLength p s e path = .ok r) :
    r.1.length = path.length + 1 ∧ r.2.1 = r.1.sum ∧ r.2.2 = loadOf p s e path ∧
      ((∀ a b, p.dist a b = p.dist b a) → ∀ (i : Nat) a b, (s :: path ++ [e])[i]? = some a →
        (s :: path ++ [e])[i + 1]? = some b → r.1[i]? = some (p.dist a b)) := by
  obtain ⟨h1, h2, h3, h4⟩ := computeLength_spec h
  refine ⟨h3, h1, h2, ?_⟩
  intro hsym
  rw [h4 hsym]
  have : ∀ (l : List Nat) (i a b : Nat), l[i]? = some a → l[i + 1]? = some b → (walk p.dist l)[i]? = some (p.dist a b) := by
    intro l
    induction l with
    | nil => intro i a b h; simp at h
    | cons x l ih =>
      intro i a b h5 h6
      cases l with
      | nil => simp at h6
      | cons y l =>
        cases i with
        | zero => simp at h5 h6; simp [walk, h5, h6]
        | succ i =>
          simp only [List.getElem?_cons_succ] at h5 h6
          simp only [walk, List.getElem?_cons_succ]
          exact ih i a b h5 (by simpa using h6)
  exact this _

theorem computeLength_total {p : Problem} {s e : Nat} {path : List Nat} (hs : s < p.demands.length)
    (he : e < p.demands.length) (hp : ∀ c, c ∈ path → c < p.demands.length) :
    ∃ r, computeLength p s e path = .ok r := by
  have hl : ∀ (cs : List Nat) (prev : Nat) (obj load : Int), (∀ c, c ∈ cs → c < p.demands.length) →
      ∃ r, legsFrom p prev obj load cs = .ok r := by
    intro cs
    induction cs with
    | nil => intro prev obj load _; exact ⟨_, rfl⟩
    | cons c cs ih =>
      intro prev obj load h
      have hc := h c (by simp)
      obtain ⟨r, hr⟩ := ih c (obj + p.dist prev c) (load + p.demands[c]) (fun x hx => h x (List.mem_cons_of_mem _ hx))
      exact ⟨(p.dist prev c :: r.1, r.2), by simp only [legsFrom, pyGet_of_lt hc, bind_ok, hr]⟩
  obtain ⟨b, hb⟩ : ∃ b, endDemand p s e = .ok b := by
    unfold endDemand
    split
    · exact ⟨_, pyGet_of_lt he⟩
    · exact ⟨_, rfl⟩
  cases path with
  | nil => exact ⟨([p.dist s e], p.dist s e, p.demands[s] + b), by simp only [computeLength, pyGet_of_lt hs, hb, bind_ok]⟩
  | cons c cs =>
    have hc := hp c (by simp)
    obtain ⟨r, hr⟩ := hl cs c (p.dist s c) (p.demands[s] + p.demands[c]) (fun x hx => hp x (List.mem_cons_of_mem _ hx))
    exact ⟨(p.dist s c :: r.1 ++ [p.dist e r.2.2.2], r.2.1 + p.dist e r.2.2.2, r.2.2.1 + b), by
      simp only [computeLength, pyGet_of_lt hs, pyGet_of_lt hc, hr, hb, bind_ok]⟩

theorem sequential_total {p : Problem} {starts ends : List Nat}
    (hd : ∀ c, c ∈ starts ∨ c ∈ ends → c < p.demands.length) : ∀ (paths : List (List Nat)) (i : Nat),
    (∀ c, c ∈ paths.flatten → c < p.demands.length) → i + paths.length ≤ starts.length →
    i + paths.length ≤ ends.length → ∃ rs, sequential p starts ends i paths = .ok rs := by
  intro paths
  induction paths with
  | nil => intro i _ _ _; exact ⟨_, rfl⟩
  | cons path paths ih =>
    intro i h1 h2 h3
    simp only [List.length_cons] at h2 h3
    have hs : i < starts.length := by omega
    have he : i < ends.length := by omega
    obtain ⟨r, hr⟩ := computeLength_total (path := path) (hd starts[i] (.inl (List.getElem_mem hs)))
      (hd ends[i] (.inr (List.getElem_mem he))) (fun c hc => h1 c (by simp [hc]))
    obtain ⟨rs, hrs⟩ := ih (i + 1) (fun c hc => h1 c (by
      rw [List.flatten_cons]; exact List.mem_append_right _ hc)) (by omega) (by omega)
    exact ⟨r :: rs, by simp only [sequential, pyGet_of_lt hs, pyGet_of_lt he, hr, hrs, bind_ok]⟩

theorem violation_total {p : Problem} {loads : List Int} : ∀ (n i : Nat), i + n ≤ loads.length →
    i + n ≤ p.capacities.length → ∃ w, violation p loads n i = .ok w := by
  intro n
  induction n with
  | zero => intro i _ _; exact ⟨_, rfl⟩
  | succ n ih =>
    intro i h1 h2
    obtain ⟨w, hw⟩ := ih (i + 1) (by omega) (by omega)
    have h3 : i < loads.length := by omega
    have h4 : i < p.capacities.length := by omega
    exact ⟨max (loads[i] - p.capacities[i]) 0 + w, by
      simp only [violation, pyGet_of_lt h3, pyGet_of_lt h4, hw, bind_ok]⟩

/-- C34: on a complete instance whose vehicles can carry the demand of their own depots, the constructive
solution is accepted. -/
theorem C34_trivial_accepted {p : Problem} (hw : WF p)
    (hd : ∀ (v : Nat) s e q, v < p.vehicleCount → p.starts[v]? = some s → p.ends[v]? = some e →
      p.capacities[v]? = some q → loadOf p s e [] ≤ q) {tours : List (List Nat)} (h : trivial p = .ok tours) :
    satisfy p p.starts p.ends tours = .ok true := by
  obtain ⟨h1, _, h3, h4⟩ := C34_trivial h
  have hcust := hw.cust
  have hst := hw.starts
  have hen := hw.ends
  have hca := hw.caps
  obtain ⟨rs, hrs⟩ := sequential_total hw.depots tours 0 (fun c hc => by have := (h3 c hc).1; omega) (by omega) (by omega)
  have hlen := (sequential_spec _ _ _ hrs).1
  obtain ⟨w, hv⟩ := violation_total (p := p) (loads := rs.map (fun r => r.2.2)) p.vehicleCount 0
    (by rw [List.length_map]; omega) (by omega)
  obtain ⟨b, hb⟩ : ∃ b, satisfy p p.starts p.ends tours = .ok b :=
    ⟨decide (w = 0), by simp only [satisfy, evaluate, hrs, hv, bind_ok]⟩
  have hiff := C34_satisfy_iff_partial hb
  have : b = true := by
    rw [hiff]
    intro v path s e q hvv hpath hs he hq
    by_cases hne : path = []
    · subst hne; exact hd v s e q hvv hs he hq
    · obtain ⟨s', e', q', g1, g2, g3, g4⟩ := h4 v path hpath hne
      rw [hs] at g1; rw [he] at g2; rw [hq] at g3
      cases g1; cases g2; cases g3
      exact g4
  rw [hb, this]

/-- Two vehicles from depot 0; the second ends at depot 4. -/
def prob : Problem :=
  { vehicleCount := 2, capacities := [10, 7], customerCount := 5, demands := [0, 6, 5, 4, 1]
    starts := [0, 0], ends := [0, 4], dist := fun a b => if a ≤ b then b - a else a - b }

example : WF prob := ⟨by decide, by decide, by decide, by decide, by simp [prob]⟩
example : trivial prob = .ok [[1, 3], [2]] := by decide +kernel
example : satisfy prob [0, 0] [0, 4] [[1, 3], [2]] = .ok true := by decide +kernel
example : satisfy prob [0, 0] [0, 4] [[1, 2], [3]] = .ok false := by decide +kernel

/-- C34 fails: a solution that leaves a customer unserved is accepted, among them the constructive solution itself. -/
theorem C34_accepts_unserved :
    ∃ (p : Problem) (tours : List (List Nat)), WF p ∧ trivial p = .ok tours ∧
      satisfy p p.starts p.ends tours = .ok true ∧ NoDepot p 2 ∧ 2 < p.customerCount ∧ 2 ∉ tours.flatten := by
  refine ⟨{ prob with demands := [0, 6, 9, 4, 1] , capacities := [8, 8] }, [[1], [3]],
    ⟨by decide, by decide, by decide, by decide, by simp [prob]⟩, by decide +kernel, by decide +kernel, ?_,
    by decide, by decide⟩
  intro v hv
  have : v = 0 ∨ v = 1 := by simp only [prob] at hv; omega
  rcases this with rfl | rfl <;> simp [prob]

/-- C34 fails: a solution that serves a customer twice is accepted. -/
theorem C34_accepts_twice :
    ∃ (p : Problem) (tours : List (List Nat)), WF p ∧ satisfy p p.starts p.ends tours = .ok true ∧
      ¬ tours.flatten.Nodup :=
  ⟨prob, [[1], [1]], ⟨by decide, by decide, by decide, by decide, by simp [prob]⟩, by decide +kernel, by decide⟩

/-- With an asymmetric distance the last leg is measured the wrong way round. -/
theorem C34_asymmetric_last_leg :
    ∃ (p : Problem) (legs : List Int) (len load : Int), computeLength p 0 0 [1] = .ok (legs, len, load) ∧
      len ≠ p.dist 0 1 + p.dist 1 0 :=
  ⟨{ prob with dist := fun a b => if a ≤ b then 1 else 5 }, [1, 1], 2, 6, by decide +kernel, by decide⟩

end Verif.Vrp
