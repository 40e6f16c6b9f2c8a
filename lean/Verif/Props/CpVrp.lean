import Verif.Lemmas.CpVrp
import Mathlib.Algebra.BigOperators.Group.List.Basic
/- Property C191: the constraint program of vehicle routing. -/
namespace Verif.CpVrp

/-- Specification: a route for each vehicle, every customer on exactly one of them, no route with more than the capacity (nor with
less than nothing). -/
structure Plan (D : Data) (rs : List (List Nat)) : Prop where
  number : rs.length = D.vehicles
  visits : rs.flatten.Perm (List.range' 1 D.customers)
  loads : ∀ r ∈ rs, 0 ≤ (r.map D.demand).sum ∧ (r.map D.demand).sum ≤ D.capacity

/-- Specification: the lengths, in whole units, of the routes from the depot and back. -/
def cost (D : Data) (rs : List (List Nat)) : Int := (rs.map (fun r => legs (units D) (0 :: r ++ [0]))).sum

/-- Specification: from the second route on, no route has more customers than the one before. -/
def Falling (rs : List (List Nat)) : Prop :=
  ∀ (i : Nat) (r r' : List Nat), rs[i + 1]? = some r → rs[i + 2]? = some r' → r'.length ≤ r.length

theorem plan_le {D : Data} {rs : List (List Nat)} (h : rs.flatten.Perm (List.range' 1 D.customers)) :
    ∀ r ∈ rs, ∀ c ∈ r, 1 ≤ c ∧ c ≤ D.customers := by
  intro r hr c hc
  have := h.mem_iff.1 (List.mem_flatten.2 ⟨r, hr, hc⟩)
  rw [List.mem_range'_1] at this
  omega

theorem load_eq {D : Data} {r : List Nat} (h : ∀ c ∈ r, c ≤ D.customers) : (r.map (demandOf D)).sum = (r.map D.demand).sum := by
  congr 1
  apply List.map_congr_left
  intro c hc
  unfold demandOf
  rw [if_pos (h c hc)]

theorem depot_zero (D : Data) : demandOf D (D.customers + 1) = 0 := by unfold demandOf; rw [if_neg (by omega)]

/-- C191: what solves the program is a plan: cut at the copies of the depot, the list gives the routes, and the objective is their cost. -/
theorem C191_sound {D : Data} {cs ends : List Nat} {capa : List Int} {obj : Int} (h : Solves D cs ends capa obj) :
    ∃ rs, Plan D rs ∧ cs = (D.customers + 1) :: enc D 0 rs ∧ obj = cost D rs ∧ Falling rs := by
  have hsize : D.size = D.customers + D.vehicles + 1 := rfl
  have hpos : 0 < cs.length := by rw [h.len.1]; omega
  have hinj : ∀ {i j : Nat} {x : Nat}, cs[i]? = some x → cs[j]? = some x → i = j := by
    intro i j x hi hj
    exact (List.getElem?_inj (List.getElem?_eq_some_iff.1 hi).1 h.diff).1 (hi.trans hj.symm)
  have hstrict : (1 :: ends).Pairwise (· < ·) := by
    rw [List.pairwise_cons]
    constructor
    · intro e he
      obtain ⟨v, hv, rfl⟩ := List.getElem_of_mem he
      have h1 := (h.dom.2.1 _ he).1
      rcases Nat.lt_or_ge 1 ends[v] with hlt | hge
      · exact hlt
      · have h2 := h.close v ends[v] (by simp [hv])
        rw [show ends[v] - 1 = 0 by omega, h.first] at h2
        have := Option.some.inj h2
        omega
    · rw [List.pairwise_iff_getElem]
      intro i j hi hj hij
      have h1 := List.pairwise_iff_getElem.1 h.incr i j hi hj hij
      rcases Nat.lt_or_ge ends[i] ends[j] with hlt | hge
      · exact hlt
      · have e : ends[i] = ends[j] := by omega
        have h2 := h.close i ends[i] (by simp [hi])
        have h3 := h.close j ends[j] (by simp [hj])
        rw [e, h3] at h2
        have := Option.some.inj h2
        omega
  have hlast : (1 :: ends).getLast? = some cs.length := by
    rcases List.eq_nil_or_concat ends with he | ⟨es, e, he⟩
    · have hv : D.vehicles = 0 := by rw [← h.len.2.1, he]; rfl
      have h1 := h.last
      rw [hv, hsize, hv] at h1
      have := hinj h.first h1
      rw [he, h.len.1, hsize, hv]
      simp only [List.getLast?_singleton, Option.some.injEq]
      omega
    · have hv : es.length + 1 = D.vehicles := by rw [← h.len.2.1, he]; simp
      have h1 := h.close es.length e (by rw [he]; simp)
      have h2 := h.last
      rw [show D.customers + D.vehicles + 1 = D.customers + es.length + 2 by omega] at h2
      have h3 := hinj h1 h2
      have h4 := (h.dom.2.1 e (by rw [he]; simp)).1
      rw [he, h.len.1]
      have : 1 :: es.concat e = (1 :: es) ++ [e] := by simp
      rw [this, List.getLast?_append]
      simp
      omega
  obtain ⟨h1, h2⟩ := slices_enc D cs ends 1 0 hstrict (fun v e hv => by rw [h.close v e hv, show D.customers + 0 + v + 2 = D.customers + v + 2 by omega]) hlast
  generalize slices cs 1 ends = rs at h1 h2
  have hcs : cs = (D.customers + 1) :: enc D 0 rs := by
    rw [← h1]
    cases cs with
    | nil => simp at hpos
    | cons c cs =>
      have := h.first
      simp only [List.getElem?_cons_zero, Option.some.injEq] at this
      rw [this]; rfl
  have hn : rs.length = D.vehicles := by rw [← h.len.2.1, ← h2, endsOf_length]
  have hperm : cs.Perm (List.range' 1 D.size) := by
    apply (h.diff.subperm (fun x hx => by
      have := h.dom.1 x hx
      rw [List.mem_range'_1]; omega)).perm_of_length_le
    rw [h.len.1]; simp
  have hvis : rs.flatten.Perm (List.range' 1 D.customers) := by
    have a1 : cs.Perm (rs.flatten ++ List.range' (D.customers + 1) (D.vehicles + 1)) := by
      rw [hcs, List.range'_succ, ← hn]
      exact ((enc_perm D rs 0).cons _).trans List.perm_middle.symm
    have a2 : List.range' 1 D.size = List.range' 1 D.customers ++ List.range' (D.customers + 1) (D.vehicles + 1) := by
      rw [hsize, show D.customers + D.vehicles + 1 = D.customers + (D.vehicles + 1) by omega, ← List.range'_append_1, Nat.add_comm 1]
    rw [a2] at hperm
    exact (List.perm_append_right_iff _).1 (a1.symm.trans hperm)
  have hle := plan_le hvis
  have hseg := seg D rs [] (D.customers + 1) 0 (depot_zero D)
  simp only [List.length_nil, List.nil_append, Nat.zero_add, ← hcs, h2] at hseg
  have hload : ∀ (i : Nat) (r : List Nat), rs[i]? = some r → capa[i]? = some (r.map D.demand).sum := by
    intro i r hr
    have hi : i < ends.length := by rw [h.len.2.1, ← hn]; exact (List.getElem?_eq_some_iff.1 hr).1
    obtain ⟨r', a, e1, e2, e3, e4, e5, _⟩ := hseg i ends[i] (by simp [hi])
    rw [hr] at e1
    have := Option.some.inj e1
    subst this
    rw [load_eq (fun c hc => (hle r (List.mem_of_getElem? hr) c hc).2)] at e5
    cases i with
    | zero =>
      simp only [List.getElem?_cons_zero, Option.some.injEq] at e2
      subst e2
      rw [← e5]
      exact h.loadFirst _ (by simp [hi])
    | succ i =>
      simp only [List.getElem?_cons_succ] at e2
      rw [← e5]
      exact h.load i a _ e2 (by simp [hi])
  refine ⟨rs, ⟨hn, hvis, ?_⟩, hcs, ?_, ?_⟩
  · intro r hr
    obtain ⟨i, hi, rfl⟩ := List.getElem_of_mem hr
    exact h.dom.2.2 _ (List.mem_of_getElem? (hload i _ (by simp [hi])))
  · rw [h.obj, hcs]
    exact legs_enc D rs _ 0 (by omega) (fun r hr c hc => (hle r hr c hc).2)
  · intro i r r' hr hr'
    have hi : i + 2 < ends.length := by rw [h.len.2.1, ← hn]; exact (List.getElem?_eq_some_iff.1 hr').1
    obtain ⟨q, a, e1, e2, e3, _⟩ := hseg (i + 1) ends[i + 1] (by simp [show i + 1 < ends.length by omega])
    obtain ⟨q', a', f1, f2, f3, _⟩ := hseg (i + 2) ends[i + 2] (by simp [hi])
    rw [hr] at e1
    rw [hr'] at f1
    have hq := Option.some.inj e1
    have hq' := Option.some.inj f1
    subst hq
    subst hq'
    simp only [List.getElem?_cons_succ] at e2 f2
    have hd := h.decr i a a' ends[i + 2] e2 f2 (by simp [hi])
    have : ends[i + 1] = a' := by
      have hx : ends[i + 1]? = some ends[i + 1] := by simp [show i + 1 < ends.length by omega]
      rw [f2] at hx
      exact (Option.some.inj hx).symm
    omega

/-- C191: every plan in that order solves the program, with its cost as objective. -/
theorem C191_complete {D : Data} {rs : List (List Nat)} (h : Plan D rs) (hf : Falling rs) :
    ∃ ends capa, Solves D ((D.customers + 1) :: enc D 0 rs) ends capa (cost D rs) := by
  have hle := plan_le h.visits
  have hfl : rs.flatten.length = D.customers := by rw [h.visits.length_eq]; simp
  have hsize : D.size = D.customers + D.vehicles + 1 := rfl
  have hseg := seg D rs [] (D.customers + 1) 0 (depot_zero D)
  simp only [List.length_nil, List.nil_append, Nat.zero_add] at hseg
  obtain ⟨hb1, hb2⟩ := endsOf_bounds rs 1
  have hlen : ((D.customers + 1) :: enc D 0 rs).length = D.size := by
    rw [List.length_cons, enc_length, hfl, h.number, hsize]
  have hperm : ((D.customers + 1) :: enc D 0 rs).Perm (List.range' 1 D.size) := by
    refine ((enc_perm D rs 0).cons _).trans ?_
    refine List.perm_middle.symm.trans ?_
    have a2 : List.range' 1 D.size = List.range' 1 D.customers ++ (D.customers + 1) :: List.range' (D.customers + 0 + 2) rs.length := by
      rw [hsize, show D.customers + D.vehicles + 1 = D.customers + (D.vehicles + 1) by omega, ← List.range'_append_1, List.range'_succ,
        h.number, Nat.add_comm 1]
    rw [a2]
    exact h.visits.append_right _
  have hcap : ∀ (v b : Nat), (endsOf 1 rs)[v]? = some b → ∃ r a, rs[v]? = some r ∧ (1 :: endsOf 1 rs)[v]? = some a ∧ b = a + r.length + 1 ∧
      demandSum D ((D.customers + 1) :: enc D 0 rs) a b = (r.map D.demand).sum ∧
      ((D.customers + 1) :: enc D 0 rs)[b - 1]? = some (D.customers + v + 2) := by
    intro v b hv
    obtain ⟨r, a, e1, e2, e3, _, e5, e6⟩ := hseg v b hv
    rw [load_eq (fun c hc => (hle r (List.mem_of_getElem? e1) c hc).2)] at e5
    rw [Nat.add_zero] at e6
    exact ⟨r, a, e1, e2, e3, e5, e6⟩
  refine ⟨endsOf 1 rs, rs.map (fun r => (r.map D.demand).sum), ⟨hlen, by rw [endsOf_length, h.number], by simp [h.number]⟩,
    ⟨?_, ?_, ?_⟩, ?_, ?_, ?_, rfl, ?_, ?_, hb1, ?_, ?_⟩
  · intro x hx
    have := hperm.mem_iff.1 hx
    rw [List.mem_range'_1] at this
    omega
  · intro e he
    have := hb2 e he
    rw [hfl, h.number] at this
    omega
  · intro x hx
    obtain ⟨r, hr, rfl⟩ := List.mem_map.1 hx
    exact h.loads r hr
  · intro v e hv
    obtain ⟨_, _, _, _, _, _, e6⟩ := hcap v e hv
    exact e6
  · intro v a b ha hb
    obtain ⟨r, a', e1, e2, e3, e5, _⟩ := hcap (v + 1) b hb
    simp only [List.getElem?_cons_succ] at e2
    rw [ha] at e2
    have := Option.some.inj e2
    subst this
    rw [List.getElem?_map, e1, e5]; rfl
  · intro b hb
    obtain ⟨r, a', e1, e2, e3, e5, _⟩ := hcap 0 b hb
    simp only [List.getElem?_cons_zero, Option.some.injEq] at e2
    subst e2
    rw [List.getElem?_map, e1, e5]; rfl
  · rcases List.eq_nil_or_concat rs with he | ⟨qs, q, he⟩
    · have hv : D.vehicles = 0 := by rw [← h.number, he]; rfl
      have hc : D.customers = 0 := by rw [← hfl, he]; rfl
      rw [hsize, hv, hc, he]
      simp [enc]
    · have hv : qs.length + 1 = D.vehicles := by rw [← h.number, he]; simp
      have hl : qs.length < (endsOf 1 rs).length := by rw [endsOf_length, h.number]; omega
      obtain ⟨r, a, e1, e2, e3, e5, e6⟩ := hcap qs.length (endsOf 1 rs)[qs.length] (by simp [hl])
      have hend : (endsOf 1 rs)[qs.length] = D.size := by
        have key : ∀ (l : List (List Nat)) (s : Nat) (x : List Nat), (endsOf s (l.concat x))[l.length]? = some (s + (l.concat x).flatten.length + (l.concat x).length) := by
          intro l
          induction l with
          | nil => intro s x; simp [endsOf]
          | cons y l ih =>
            intro s x
            have := ih (s + y.length + 1) x
            simp only [List.concat_cons, endsOf, List.length_cons, List.getElem?_cons_succ, this, List.flatten_cons, List.length_append]
            congr 1
            omega
        have := key qs 1 q
        rw [← he, hfl, h.number] at this
        have hx : (endsOf 1 rs)[qs.length]? = some (endsOf 1 rs)[qs.length] := by simp [hl]
        rw [this] at hx
        have := Option.some.inj hx
        omega
      rw [hend] at e6
      rw [e6]; congr 1; omega
  · exact hperm.nodup_iff.2 (List.nodup_range' (step := 1))
  · intro i a b c ha hb hc
    obtain ⟨r, x, e1, e2, e3, _⟩ := hcap (i + 1) b hb
    obtain ⟨r', y, f1, f2, f3, _⟩ := hcap (i + 2) c hc
    simp only [List.getElem?_cons_succ] at e2 f2
    rw [ha] at e2
    rw [hb] at f2
    have := Option.some.inj e2
    have := Option.some.inj f2
    have := hf i r r' e1 f1
    omega
  · exact (legs_enc D rs _ 0 (by omega) (fun r hr c hc => (hle r hr c hc).2)).symm

/-- C191: as vehicles are alike, every plan can be put in that order: no cost is lost. -/
theorem C191_any {D : Data} {rs : List (List Nat)} (h : Plan D rs) :
    ∃ rs', rs'.Perm rs ∧ ∃ ends capa, Solves D ((D.customers + 1) :: enc D 0 rs') ends capa (cost D rs) := by
  have hp := sortBy_perm (fun r : List Nat => -(r.length : Int)) rs
  have hs := sortBy_sorted (fun r : List Nat => -(r.length : Int)) rs
  have hplan : Plan D (sortBy (fun r : List Nat => -(r.length : Int)) rs) :=
    ⟨by rw [hp.length_eq, h.number], hp.flatten.trans h.visits, fun r hr => h.loads r (hp.mem_iff.1 hr)⟩
  have hc : cost D (sortBy (fun r : List Nat => -(r.length : Int)) rs) = cost D rs := (hp.map _).sum_eq
  refine ⟨_, hp, ?_⟩
  rw [← hc]
  apply C191_complete hplan
  intro i r r' hr hr'
  obtain ⟨g1, g2⟩ := List.getElem?_eq_some_iff.1 hr
  obtain ⟨g3, g4⟩ := List.getElem?_eq_some_iff.1 hr'
  have := List.pairwise_iff_getElem.1 hs (i + 1) (i + 2) g1 g3 (by omega)
  rw [g2, g4] at this
  omega

/-- C191: a best solution of the program is a best plan in whole units. -/
theorem C191_best {D : Data} {cs ends : List Nat} {capa : List Int} {obj : Int} (h : Solves D cs ends capa obj)
    (hb : ∀ cs' ends' capa' obj', Solves D cs' ends' capa' obj' → obj ≤ obj') :
    (∃ rs, Plan D rs ∧ cost D rs = obj) ∧ ∀ rs, Plan D rs → obj ≤ cost D rs := by
  obtain ⟨rs, h1, _, h2, _⟩ := C191_sound h
  refine ⟨⟨rs, h1, h2.symm⟩, ?_⟩
  intro rs' h'
  obtain ⟨q, _, ends', capa', hs⟩ := C191_any h'
  exact hb _ _ _ _ hs

/-- C191: with symmetric distances in whole units, the cost is that of the distances themselves. -/
theorem C191_exact {D : Data} (hu : D.u = 1) (hs : ∀ i j, D.dist i j = D.dist j i) (h0 : ∀ i, D.dist i i = 0) (rs : List (List Nat)) :
    cost D rs = (rs.map (fun r => legs D.dist (0 :: r ++ [0]))).sum := by
  have : units D = D.dist := by
    funext i j
    unfold units
    rw [hu]
    simp only [Int.natCast_one, Int.tdiv_one]
    split
    · rfl
    · split
      · exact hs j i
      · have : i = j := by omega
        rw [this, h0]
  unfold cost
  rw [this]

/-- C191: the neighbourhood of a solution contains it, and whatever the solver answers, the incumbent stays a solution and its
objective never grows. -/
theorem C191_search {D : Data} {cur : List Nat × Int} (hc : ∃ ends capa, Solves D cur.1 ends capa cur.2) :
    (∀ free, Child free cur.1 cur.1) ∧
    ∀ answers : List (Option (List Nat × Int)), (∀ r, some r ∈ answers → ∃ ends capa, Solves D r.1 ends capa r.2) →
      (improve cur answers).2 ≤ cur.2 ∧ (∀ r, some r ∈ answers → (improve cur answers).2 ≤ r.2) ∧
      ∃ ends capa, Solves D (improve cur answers).1 ends capa (improve cur answers).2 := by
  refine ⟨fun _ _ _ => rfl, ?_⟩
  intro answers
  induction answers generalizing cur with
  | nil => intro _; exact ⟨Int.le_refl _, by simp, hc⟩
  | cons r l ih =>
    intro hall
    have hk : (keep cur r).2 ≤ cur.2 ∧ (∀ q, r = some q → (keep cur r).2 ≤ q.2) ∧ ∃ ends capa, Solves D (keep cur r).1 ends capa (keep cur r).2 := by
      cases r with
      | none => exact ⟨Int.le_refl _, by simp, hc⟩
      | some q =>
        simp only [keep]
        split
        · rename_i hle
          refine ⟨hle, ?_, hall q (by simp)⟩
          intro q' hq; rw [Option.some.inj hq]; exact Int.le_refl _
        · rename_i hgt
          refine ⟨Int.le_refl _, ?_, hc⟩
          intro q' hq; rw [← Option.some.inj hq]; omega
    obtain ⟨a1, a2, a3⟩ := ih hk.2.2 (fun q hq => hall q (List.mem_cons_of_mem _ hq))
    simp only [improve]
    refine ⟨Int.le_trans a1 hk.1, ?_, a3⟩
    intro q hq
    rcases List.mem_cons.1 hq with hq | hq
    · exact Int.le_trans a1 (hk.2.1 q hq.symm)
    · exact a2 q hq

/-- Two customers and two vehicles; distances in tenths: the depot is 9 tenths away from each, the customers 11 from each other. -/
def pair : Data :=
  { customers := 2, vehicles := 2, capacity := 5, demand := fun _ => 2, u := 10,
    dist := fun i j => if i = j then 0 else if i = 0 ∨ j = 0 then 9 else 11 }

/-- As fractions are cut off, a plan that is best for the program need not be best: here two routes cost 0 whole units and one route
1, while they take 36 and 29 tenths. -/
theorem C191_cut_refuted :
    ¬ ∀ (D : Data) (rs rs' : List (List Nat)), Plan D rs → Plan D rs' → (∀ q, Plan D q → cost D rs ≤ cost D q) →
      (rs.map (fun r => legs D.dist (0 :: r ++ [0]))).sum ≤ (rs'.map (fun r => legs D.dist (0 :: r ++ [0]))).sum := by
  intro h
  have hp : Plan pair [[1], [2]] := ⟨by decide, by decide, by decide⟩
  have hp' : Plan pair [[1, 2], []] := ⟨by decide, by decide, by decide⟩
  have hnn : ∀ i j, 0 ≤ units pair i j := by
    intro i j
    unfold units
    apply Int.tdiv_nonneg
    · simp only [pair]
      split
      · split
        · omega
        · split <;> omega
      · split
        · split
          · omega
          · split <;> omega
        · omega
    · decide
  have hlegs : ∀ l : List Nat, 0 ≤ legs (units pair) l := by
    intro l
    induction l with
    | nil => simp [legs]
    | cons a l ih =>
      cases l with
      | nil => simp [legs]
      | cons b l => rw [legs_cons]; have := hnn a b; omega
  have hbest : ∀ q, Plan pair q → cost pair [[1], [2]] ≤ cost pair q := by
    intro q hq
    have e : cost pair [[1], [2]] = 0 := by decide
    rw [e]
    clear hq
    unfold cost
    induction q with
    | nil => simp
    | cons r q ih =>
      simp only [List.map_cons, List.sum_cons]
      have := hlegs (0 :: r ++ [0])
      have := ih
      omega
  exact absurd (h pair _ _ hp hp' hbest) (by decide)

/-- Three customers, two vehicles, distances along a line. -/
def line : Data :=
  { customers := 3, vehicles := 2, capacity := 4, demand := fun c => c,
    dist := fun i j => ((i : Int) - j).natAbs }

example : Plan line [[3], [1, 2]] ∧ Falling [[3], [1, 2]] ∧ cost line [[3], [1, 2]] = 10 ∧
    (line.customers + 1) :: enc line 0 [[3], [1, 2]] = [4, 3, 5, 1, 2, 6] :=
  ⟨⟨by decide, by decide, by decide⟩, by intro i r r' h h'; simp at h', by decide, by decide⟩
example : ∃ ends capa, Solves line [4, 3, 5, 1, 2, 6] ends capa 10 :=
  C191_complete (D := line) (rs := [[3], [1, 2]]) ⟨by decide, by decide, by decide⟩ (by intro i r r' h h'; simp at h')
example : (improve ([1], 7) [some ([2], 9), none, some ([3], 5), some ([4], 5)]) = ([4], 5) := by decide
example : line.u = 1 ∧ (∀ i, line.dist i i = 0) ∧ ∀ i j, line.dist i j = line.dist j i :=
  ⟨rfl, by intro i; simp [line], by intro i j; simp only [line]; omega⟩

end Verif.CpVrp
