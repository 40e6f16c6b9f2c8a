import Verif.Model.Facility
import Verif.Lemmas.Coloring
/- Helper lemmas about the facility model. -/
namespace Verif.Facility
open Verif.Coloring (distinct distinct_nodup mem_distinct)

/-- Demand assigned to `f` in a list of (facility, demand) pairs. -/
def load (l : List (Int × Int)) (f : Int) : Int := ((l.filter (fun q => q.1 = f)).map Prod.snd).sum

theorem load_snoc (l : List (Int × Int)) (f g d : Int) :
    load (l ++ [(f, d)]) g = load l g + if f = g then d else 0 := by
  unfold load
  rw [List.filter_append, List.map_append, List.sum_append]
  by_cases h : f = g <;> simp [h]

theorem distinct_snoc (l : List Int) (x : Int) :
    distinct (l ++ [x]) = if x ∈ distinct l then distinct l else distinct l ++ [x] := by
  unfold distinct
  rw [List.foldl_append]
  rfl

/-- The facility records of a list of facility numbers. -/
def records (p : Problem) (fs : List Int) : List Fac := fs.filterMap (fun f => p.facilities[f.toNat]?)

/-- Numbers in range. -/
def InRange (p : Problem) (fs : List Int) : Prop := ∀ f, f ∈ fs → 0 ≤ f ∧ f.toNat < p.facilities.length

theorem pyGetI_ok {p : Problem} {f : Int} {fac : Fac} (h : 0 ≤ f) :
    pyGetI p.facilities f = .ok fac ↔ p.facilities[f.toNat]? = some fac := by
  simp [pyGetI, h, pyGet_ok_iff]

/-- Connection costs of customers `k, k+1, …` with the given facilities. -/
def costs (p : Problem) : Nat → List Int → Int
  | _, [] => 0
  | k, f :: fs => p.cost f k + costs p (k + 1) fs

theorem costs_snoc (p : Problem) (fs : List Int) (f : Int) :
    ∀ k, costs p k (fs ++ [f]) = costs p k fs + p.cost f (k + fs.length) := by
  induction fs with
  | nil => intro k; simp [costs]
  | cons g fs ih =>
    intro k
    simp only [List.cons_append, costs, ih, List.length_cons]
    rw [show k + 1 + fs.length = k + (fs.length + 1) by omega]
    omega

/-- What the accumulators hold after the customers of `l`. -/
structure Inv (p : Problem) (l : List (Int × Int)) (acc : Acc) : Prop where
  keys : Dict.keys acc.details = distinct (l.map Prod.fst)
  used : ∀ f d, acc.details.get? f = some d → d.used = load l f
  setup : acc.setup = ((records p (distinct (l.map Prod.fst))).map Fac.setup).sum
  cost : acc.cost = costs p 0 (l.map Prod.fst)

theorem Inv.nil (p : Problem) : Inv p [] {} := ⟨rfl, by simp, rfl, rfl⟩

theorem keys_set_mem {α : Type} {d : Dict Int α} {k : Int} {v : α} (h : k ∈ Dict.keys d) :
    Dict.keys (d.set k v) = Dict.keys d := by rw [Dict.keys_set, if_pos h]

theorem step_inv {p : Problem} {assign : List Int} {l : List (Int × Int)} {acc : Acc} (hi : Inv p l acc)
    {f d : Int} (hf : assign[l.length]? = some f) (hd : p.customers[l.length]? = some d)
    (h0 : 0 ≤ f) (hlt : f.toNat < p.facilities.length) :
    ∃ acc', stepCost p assign acc l.length = .ok acc' ∧ Inv p (l ++ [(f, d)]) acc' := by
  have hfac : pyGetI p.facilities f = .ok p.facilities[f.toNat] := by
    rw [pyGetI_ok h0]; simp [hlt]
  have hrec : records p [f] = [p.facilities[f.toNat]] := by simp [records, hlt]
  by_cases hc : f ∈ Dict.keys acc.details
  · -- an open facility
    obtain ⟨e, he⟩ := Option.isSome_iff_exists.1 ((Dict.get?_isSome_iff_mem_keys acc.details f).2 hc)
    have hcon : acc.details.contains f = true := by rw [Dict.contains_eq, he]; rfl
    refine ⟨_, by
      simp only [stepCost, pyGet_ok_iff.2 hf, pyGet_ok_iff.2 hd, bind_ok, openFac, hcon, if_true, Dict.get, he, hfac]
      rfl, ?_⟩
    have hk : distinct (List.map Prod.fst (l ++ [(f, d)])) = distinct (l.map Prod.fst) := by
      rw [List.map_append, List.map_cons, List.map_nil, distinct_snoc, if_pos]
      rw [← hi.keys]; exact hc
    refine ⟨?_, ?_, ?_, ?_⟩
    · rw [hk, ← hi.keys]; exact keys_set_mem hc
    · intro g e' hg
      simp only at hg
      rw [Dict.get?_set] at hg
      rw [load_snoc]
      split at hg
      · rename_i hgf; subst hgf; cases hg; simp [hi.used _ _ he]
      · rename_i hgf; rw [hi.used _ _ hg, if_neg (Ne.symm hgf), Int.add_zero]
    · rw [hk]; exact hi.setup
    · simp only [List.map_append, List.map_cons, List.map_nil, costs_snoc, hi.cost, List.length_map, Nat.zero_add]
  · -- a new facility
    have hnone : acc.details.get? f = none := by
      rcases h : acc.details.get? f with _ | e
      · rfl
      · exact absurd ((Dict.get?_isSome_iff_mem_keys acc.details f).1 (by simp [h])) hc
    have hcon : acc.details.contains f = false := by rw [Dict.contains_eq, hnone]; rfl
    have hk : distinct (List.map Prod.fst (l ++ [(f, d)])) = distinct (l.map Prod.fst) ++ [f] := by
      rw [List.map_append, List.map_cons, List.map_nil, distinct_snoc, if_neg]
      rw [← hi.keys]; exact hc
    refine ⟨_, by
      simp only [stepCost, pyGet_ok_iff.2 hf, pyGet_ok_iff.2 hd, bind_ok, openFac, hcon, hfac, Dict.get,
        Dict.get?_set_self, Bool.false_eq_true, if_false]
      rfl, ?_⟩
    have hk1 : Dict.keys (acc.details.set f { used := 0, cost := 0, setup := p.facilities[f.toNat].setup }) =
        Dict.keys acc.details ++ [f] := by rw [Dict.keys_set, if_neg hc]
    refine ⟨?_, ?_, ?_, ?_⟩
    · rw [hk, ← hi.keys, ← hk1]
      exact keys_set_mem (by rw [hk1]; simp)
    · intro g e' hg
      simp only at hg
      rw [Dict.get?_set] at hg
      rw [load_snoc]
      split at hg
      · rename_i hgf
        subst hgf
        cases hg
        have hz : load l g = 0 := by
          have : ∀ q, q ∈ l → q.1 ≠ g := by
            intro q hq h
            apply hc
            rw [hi.keys, mem_distinct]
            exact List.mem_map.2 ⟨q, hq, h⟩
          unfold load
          rw [List.filter_eq_nil_iff.2 (by intro q hq; simpa using this q hq)]
          rfl
        simp [hz]
      · rename_i hgf
        rw [Dict.get?_set, if_neg hgf] at hg
        rw [hi.used _ _ hg, if_neg (Ne.symm hgf), Int.add_zero]
    · rw [hk]
      simp only [hi.setup, records, List.filterMap_append, List.map_append, List.sum_append]
      have := hrec
      simp only [records] at this
      rw [this]; simp
    · simp only [List.map_append, List.map_cons, List.map_nil, costs_snoc, hi.cost, List.length_map, Nat.zero_add]

/-- The pairs (facility, demand) of the customers. -/
def pairs (p : Problem) (assign : List Int) : List (Int × Int) :=
  (assign.zip p.customers).take p.customerCount

/-- All customers are known and assigned to a facility in range. -/
structure WF (p : Problem) (assign : List Int) : Prop where
  len : p.customerCount ≤ assign.length
  cust : p.customerCount ≤ p.customers.length
  range : InRange p (assign.take p.customerCount)

theorem loop_inv {p : Problem} {assign : List Int} (hw : WF p assign) : ∀ (n : Nat) (l : List (Int × Int)) (acc : Acc),
    l = (assign.zip p.customers).take l.length → l.length + n = p.customerCount → Inv p l acc →
    ∃ acc', costLoop p assign n l.length acc = .ok acc' ∧ Inv p (pairs p assign) acc' := by
  intro n
  induction n with
  | zero =>
    intro l acc hl hn hi
    refine ⟨acc, rfl, ?_⟩
    have : l.length = p.customerCount := by omega
    rw [pairs, ← this, ← hl]; exact hi
  | succ n ih =>
    intro l acc hl hn hi
    have h1 := hw.len
    have h2 := hw.cust
    have ha : l.length < assign.length := by omega
    have hc : l.length < p.customers.length := by omega
    have hr := hw.range assign[l.length] (by
      rw [List.mem_take_iff_getElem]
      exact ⟨l.length, by omega, rfl⟩)
    obtain ⟨acc', hs, hi'⟩ := step_inv hi (List.getElem?_eq_getElem ha) (List.getElem?_eq_getElem hc) hr.1 hr.2
    have hz : l.length < (assign.zip p.customers).length := by simp; omega
    have hl' : l ++ [(assign[l.length], p.customers[l.length])] =
        (assign.zip p.customers).take (l.length + 1) := by
      rw [List.take_succ_eq_append_getElem hz, ← hl]; simp
    have hlen : (l ++ [(assign[l.length], p.customers[l.length])]).length = l.length + 1 := by simp
    obtain ⟨acc'', h3, h4⟩ := ih (l ++ [(assign[l.length], p.customers[l.length])]) acc'
      (by rw [hlen]; exact hl') (by rw [hlen]; omega) hi'
    refine ⟨acc'', ?_, h4⟩
    rw [hlen] at h3
    simp [costLoop, hs, h3]

theorem evaluateCost_inv {p : Problem} {assign : List Int} (hw : WF p assign) :
    ∃ acc, evaluateCost p assign = .ok acc ∧ Inv p (pairs p assign) acc := by
  exact loop_inv hw p.customerCount [] {} rfl (by simp) (Inv.nil p)

theorem pairs_fst {p : Problem} {assign : List Int} (hw : WF p assign) :
    (pairs p assign).map Prod.fst = assign.take p.customerCount := by
  have h1 := hw.len
  have h2 := hw.cust
  apply List.ext_getElem?
  intro i
  simp only [pairs, List.getElem?_map, List.getElem?_take]
  by_cases hi : i < p.customerCount
  · have ha : i < assign.length := by omega
    have hc : i < p.customers.length := by omega
    have hz : i < (assign.zip p.customers).length := by simp; omega
    rw [if_pos hi, List.getElem?_eq_getElem hz, if_pos hi, List.getElem?_eq_getElem ha]
    simp
  · simp [hi]

/-- The violation loop returns the value of the last facility. -/
theorem violationLoop_spec (p : Problem) (ds : Dict Int Detail) (hr : InRange p (Dict.keys ds)) : ∀ v,
    ∃ w, violationLoop p ds v = .ok w ∧
      (ds = [] → w = v) ∧
      ∀ f d, ds.getLast? = some (f, d) → ∃ fac, p.facilities[f.toNat]? = some fac ∧ w = max (d.used - fac.capacity) 0 := by
  induction ds with
  | nil => intro v; exact ⟨v, rfl, fun _ => rfl, by simp⟩
  | cons q ds ih =>
    intro v
    obtain ⟨f, d⟩ := q
    have h := hr f (by simp [Dict.keys])
    have hfac : pyGetI p.facilities f = .ok p.facilities[f.toNat] := by
      rw [pyGetI_ok h.1]; simp [h.2]
    obtain ⟨w, h1, h2, h3⟩ := ih (fun g hg => hr g (by
      simp only [Dict.keys, List.map_cons] at hg ⊢; exact List.mem_cons_of_mem _ hg))
      (max (d.used - p.facilities[f.toNat].capacity) 0)
    refine ⟨w, by simp [violationLoop, hfac, h1], by simp, ?_⟩
    intro g e hg
    cases ds with
    | nil =>
      simp at hg
      obtain ⟨rfl, rfl⟩ := hg
      exact ⟨_, List.getElem?_eq_getElem h.2, h2 rfl⟩
    | cons q' ds' =>
      exact h3 g e (by simpa [List.getLast?_cons_cons] using hg)

/-- The greedy loop after the customers of `l` (pairs of chosen facility and demand). -/
structure GInv (p : Problem) (l : List (Int × Int)) (g : Greedy) : Prop where
  le : l.length ≤ p.customerCount
  sol : g.solution = l.map Prod.fst ++ List.replicate (p.customerCount - l.length) (-1)
  len : g.remaining.length = p.facilities.length
  rem : ∀ (f : Nat) (fac : Fac), p.facilities[f]? = some fac → g.remaining[f]? = some (fac.capacity - load l f)
  range : InRange p (l.map Prod.fst)
  fits : ∀ (f : Nat) (fac : Fac), (f : Int) ∈ l.map Prod.fst → p.facilities[f]? = some fac → load l f ≤ fac.capacity

theorem GInv.init (p : Problem) : GInv p []
    { solution := List.replicate p.customerCount (-1), remaining := p.facilities.map Fac.capacity, index := 0 } := by
  refine ⟨by simp, by simp, by simp, ?_, ?_, by simp⟩
  · intro f fac h; simp [h, load]
  · intro f hf; simp at hf

theorem place_inv {p : Problem} {l : List (Int × Int)} {g g' : Greedy} (hi : GInv p l g) {f : Nat} {rem d : Int}
    (hr : g.remaining[f]? = some rem) (hd : d ≤ rem) (h : place g l.length f rem d = .ok g') :
    GInv p (l ++ [((f : Int), d)]) g' := by
  simp only [place, bind_eq_ok, pySet_ok_iff] at h
  obtain ⟨sol, ⟨h1, rfl⟩, rem', ⟨h2, rfl⟩, h3⟩ := h
  cases h3
  have hlt : l.length < p.customerCount := by
    rw [hi.sol] at h1
    have := hi.le
    simp at h1; omega
  have hf : f < p.facilities.length := by rw [← hi.len]; exact h2
  have hrem : rem = p.facilities[f].capacity - load l f := by
    have := hi.rem f _ (List.getElem?_eq_getElem hf)
    rw [hr] at this; exact Option.some.inj this
  refine ⟨by simp; omega, ?_, by simp [hi.len], ?_, ?_, ?_⟩
  · show g.solution.set l.length (f : Int) = _
    rw [hi.sol]
    obtain ⟨m, hm⟩ : ∃ m, p.customerCount - l.length = m + 1 := ⟨p.customerCount - l.length - 1, by omega⟩
    have hm' : p.customerCount - (l ++ [((f : Int), d)]).length = m := by simp; omega
    rw [hm, hm']
    rw [List.set_append_right _ _ (by simp)]
    simp [List.replicate_succ]
  · intro f' fac hfac
    show (g.remaining.set f (rem - d))[f']? = _
    rw [load_snoc, List.getElem?_set]
    by_cases hff : f = f'
    · subst hff
      have : fac = p.facilities[f] := by
        rw [List.getElem?_eq_getElem hf] at hfac; exact (Option.some.inj hfac).symm
      simp [h2, hrem, this]; omega
    · have : (f : Int) ≠ (f' : Int) := by omega
      simp [hff, this, hi.rem f' fac hfac]
  · intro x hx
    simp only [List.map_append, List.map_cons, List.map_nil, List.mem_append, List.mem_singleton] at hx
    rcases hx with hx | rfl
    · exact hi.range x hx
    · exact ⟨by omega, by simpa using hf⟩
  · intro f' fac hx hfac
    rw [load_snoc]
    by_cases hff : f = f'
    · subst hff
      have : fac = p.facilities[f] := by
        rw [List.getElem?_eq_getElem hf] at hfac; exact (Option.some.inj hfac).symm
      simp [this]; omega
    · have hne : (f : Int) ≠ (f' : Int) := by omega
      simp only [List.map_append, List.map_cons, List.map_nil, List.mem_append, List.mem_singleton] at hx
      rcases hx with hx | hx
      · simp [hne]; exact hi.fits f' fac hx hfac
      · exact absurd hx.symm hne

theorem greedyStep_inv {p : Problem} {l : List (Int × Int)} {g g' : Greedy} (hi : GInv p l g) {d : Int}
    (h : greedyStep g l.length d = .ok g') : ∃ f : Nat, GInv p (l ++ [((f : Int), d)]) g' := by
  simp only [greedyStep, bind_eq_ok, pyGet_ok_iff] at h
  obtain ⟨rem, hr, h⟩ := h
  split at h
  · exact ⟨_, place_inv hi hr (by omega) h⟩
  · simp only [bind_eq_ok, pyGet_ok_iff] at h
    obtain ⟨rem', hr', h⟩ := h
    split at h
    · exact ⟨_, place_inv hi hr' (by omega) h⟩
    · cases h

theorem greedyLoop_inv {p : Problem} (ds : List Int) : ∀ (l : List (Int × Int)) (g g' : Greedy), GInv p l g →
    greedyLoop ds l.length g = .ok g' → ∃ l', l'.map Prod.snd = ds ∧ GInv p (l ++ l') g' := by
  induction ds with
  | nil => intro l g g' hi h; cases h; exact ⟨[], rfl, by simpa using hi⟩
  | cons d ds ih =>
    intro l g g' hi h
    simp only [greedyLoop, bind_eq_ok] at h
    obtain ⟨g1, h1, h2⟩ := h
    obtain ⟨f, hi'⟩ := greedyStep_inv hi h1
    obtain ⟨l', h3, h4⟩ := ih (l ++ [((f : Int), d)]) g1 g' hi' (by simpa using h2)
    exact ⟨((f : Int), d) :: l', by simp [h3], by simpa using h4⟩

end Verif.Facility
