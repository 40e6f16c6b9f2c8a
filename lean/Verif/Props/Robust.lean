import Verif.Lemmas.Robust
import Mathlib.Tactic.IntervalCases

/-!
C178: one project for many instances.
-/
namespace Verif.Robust
open Rcpsp Milp

/-- `mode_details[j][k]["duration"]`. -/
def durOf (pb : Problem) (j k : Nat) : Option Int :=
  ((pb.modes.get? j).bind (fun ms => ms.get? k)).map (fun m => (m.duration : Int))

/-- `mode_details[j][k][r]` for a resource. -/
def needOf (pb : Problem) (j k : Nat) (r : String) : Option Int :=
  ((pb.modes.get? j).bind (fun ms => ms.get? k)).bind (fun m => m.needs.get? r)

theorem get_eq {κ α : Type} [DecidableEq κ] {d : Dict κ α} {k : κ} {v : α} (h : d.get k = .ok v) : d.get? k = some v := by
  unfold Dict.get at h
  split at h
  · rename_i w hw
    rw [hw, Except.ok.inj h]
  · cases h

theorem get_of {κ α : Type} [DecidableEq κ] {d : Dict κ α} {k : κ} {v : α} (h : d.get? k = some v) : d.get k = .ok v := by
  unfold Dict.get; rw [h]

theorem column_dur {j k : Nat} {pbs : List Problem} {xs : List Int}
    (h : column j k (fun m => .ok (m.duration : Int)) pbs = .ok xs) : pbs.map (fun pb => durOf pb j k) = xs.map some := by
  have := mapE_forall h
  clear h
  induction this with
  | nil => rfl
  | cons hx _ ih =>
    simp only [bind_eq_ok, Except.ok.injEq] at hx
    obtain ⟨ms, h1, m, h2, h3⟩ := hx
    rw [List.map_cons, ih, List.map_cons]
    congr 1
    simp only [durOf, get_eq h1, Option.bind_some, get_eq h2, Option.map_some, h3]

theorem column_need {j k : Nat} {r : String} {pbs : List Problem} {xs : List Int}
    (h : column j k (fun m => m.needs.get r) pbs = .ok xs) : pbs.map (fun pb => needOf pb j k r) = xs.map some := by
  have := mapE_forall h
  clear h
  induction this with
  | nil => rfl
  | cons hx _ ih =>
    simp only [bind_eq_ok] at hx
    obtain ⟨ms, h1, m, h2, h3⟩ := hx
    rw [List.map_cons, ih, List.map_cons]
    congr 1
    simp only [needOf, get_eq h1, Option.bind_some, get_eq h2, get_eq h3]

/-- What the project made says of one mode. -/
theorem mode_entries {agg : Agg} {pbs : List Problem} {out : Problem} (h : unique agg pbs = .ok out) :
    ∃ first rest, pbs = first :: rest ∧ out.resources = first.resources ∧ out.nonRenewable = first.nonRenewable ∧
      out.successors = first.successors ∧ out.horizon = first.horizon ∧ out.multiplier = first.multiplier ∧
      out.modes.keys = first.modes.keys ∧
      ∀ j k, (first.modes.get? j).bind (fun ms => ms.get? k) = none ∧ (out.modes.get? j).bind (fun ms => ms.get? k) = none ∨
        ∃ m m', (first.modes.get? j).bind (fun ms => ms.get? k) = some m ∧
          (out.modes.get? j).bind (fun ms => ms.get? k) = some m' ∧ uniqueMode agg pbs j k m = .ok m' := by
  simp only [unique, bind_eq_ok, Except.ok.injEq] at h
  obtain ⟨first, h1, modes, h2, rfl⟩ := h
  cases pbs with
  | nil => simp [pyGet] at h1
  | cons p rest =>
    have : p = first := by simpa [pyGet] using h1
    subst this
    obtain ⟨g1, g2, g3⟩ := mapD_inv h2
    refine ⟨p, rest, rfl, rfl, rfl, rfl, rfl, rfl, g1, ?_⟩
    intro j k
    cases hj : p.modes.get? j with
    | none => left; exact ⟨by rfl, by dsimp only; rw [g3 j hj]; rfl⟩
    | some ms =>
      obtain ⟨ms', e1, e2⟩ := g2 j ms hj
      obtain ⟨_, f2, f3⟩ := mapD_inv e1
      dsimp only
      rw [e2]
      simp only [Option.bind_some]
      cases hk : ms.get? k with
      | none => left; exact ⟨rfl, f3 k hk⟩
      | some m =>
        obtain ⟨m', e3, e4⟩ := f2 k m hk
        right; exact ⟨m, m', rfl, e4, e3⟩

/-- C178: the project made has the precedences, capacities and horizon of the first instance; it has the modes of the
first instance; each duration and each requirement is the aggregated value over all instances, cut to an integer. -/
theorem C178_entries {agg : Agg} {pbs : List Problem} {out : Problem} (h : unique agg pbs = .ok out) :
    ∃ first rest, pbs = first :: rest ∧ out.resources = first.resources ∧ out.nonRenewable = first.nonRenewable ∧
      out.successors = first.successors ∧ out.horizon = first.horizon ∧ out.multiplier = first.multiplier ∧
      out.modes.keys = first.modes.keys ∧
      (∀ j k, ((durOf out j k).isSome ↔ (durOf first j k).isSome) ∧
        ∀ r, ((needOf out j k r).isSome ↔ (needOf first j k r).isSome)) ∧
      (∀ j k d, durOf out j k = some d → ∃ (xs : List Int) (x : Rat), pbs.map (fun pb => durOf pb j k) = xs.map some ∧
        agg.apply (xs.map (fun z : Int => (z : Rat))) = .ok x ∧ d = max 0 (trunc x)) ∧
      ∀ j k r n, needOf out j k r = some n → ∃ (xs : List Int) (x : Rat), pbs.map (fun pb => needOf pb j k r) = xs.map some ∧
        agg.apply (xs.map (fun z : Int => (z : Rat))) = .ok x ∧ n = trunc x := by
  obtain ⟨first, rest, h1, h2, h3, h4, h5, h6, h7, h8⟩ := mode_entries h
  have hin : ∀ {j k : Nat} {m m' : Mode}, uniqueMode agg pbs j k m = .ok m' →
      (∃ (xs : List Int) (x : Rat), pbs.map (fun pb => durOf pb j k) = xs.map some ∧
        agg.apply (xs.map (fun z : Int => (z : Rat))) = .ok x ∧ (m'.duration : Int) = max 0 (trunc x)) ∧
      (∀ r, ((m'.needs.get? r).isSome ↔ (m.needs.get? r).isSome)) ∧
      ∀ r n, m'.needs.get? r = some n → ∃ (xs : List Int) (x : Rat), pbs.map (fun pb => needOf pb j k r) = xs.map some ∧
        agg.apply (xs.map (fun z : Int => (z : Rat))) = .ok x ∧ n = trunc x := by
    intro j k m m' hm
    simp only [uniqueMode, bind_eq_ok, Except.ok.injEq] at hm
    obtain ⟨d, hd, needs, hn, rfl⟩ := hm
    simp only [entry, bind_eq_ok, Except.ok.injEq] at hd
    obtain ⟨xs, hx, x, hx', rfl⟩ := hd
    obtain ⟨g1, g2, g3⟩ := mapD_inv hn
    refine ⟨⟨xs, x, column_dur hx, hx', by dsimp only; omega⟩, ?_, ?_⟩
    · intro r
      rw [Dict.get?_isSome_iff_mem_keys, Dict.get?_isSome_iff_mem_keys, g1]
    · intro r n hr
      cases hm : m.needs.get? r with
      | none => rw [g3 r hm] at hr; cases hr
      | some v =>
        obtain ⟨v', e1, e2⟩ := g2 r v hm
        have : v' = n := Option.some.inj (e2.symm.trans hr)
        subst this
        simp only [entry, bind_eq_ok, Except.ok.injEq] at e1
        obtain ⟨xs, hx, x, hx', rfl⟩ := e1
        exact ⟨xs, x, column_need hx, hx', rfl⟩
  refine ⟨first, rest, h1, h2, h3, h4, h5, h6, h7, ?_, ?_, ?_⟩
  · intro j k
    rcases h8 j k with ⟨e1, e2⟩ | ⟨m, m', e1, e2, e3⟩
    · refine ⟨by simp only [durOf, e1, e2], fun r => by simp only [needOf, e1, e2]⟩
    · refine ⟨by simp [durOf, e1, e2], fun r => ?_⟩
      simp only [needOf, e1, e2, Option.bind_some]
      exact (hin e3).2.1 r
  · intro j k d hd
    rcases h8 j k with ⟨e1, e2⟩ | ⟨m, m', e1, e2, e3⟩
    · simp [durOf, e2] at hd
    · obtain ⟨xs, x, a, b, c⟩ := (hin e3).1
      simp only [durOf, e2, Option.map_some, Option.some.injEq] at hd
      exact ⟨xs, x, a, b, by rw [← hd]; exact c⟩
  · intro j k r n hn
    rcases h8 j k with ⟨e1, e2⟩ | ⟨m, m', e1, e2, e3⟩
    · simp [needOf, e2] at hn
    · simp only [needOf, e2, Option.bind_some] at hn
      exact (hin e3).2.2 r n hn

theorem map_some_mem {α : Type} {f : α → Option Int} {l : List α} {xs : List Int} (h : l.map f = xs.map some) :
    (∀ a ∈ l, ∃ x ∈ xs, f a = some x) ∧ ∀ x ∈ xs, ∃ a ∈ l, f a = some x := by
  constructor
  · intro a ha
    have : f a ∈ xs.map some := h ▸ List.mem_map.2 ⟨a, ha, rfl⟩
    obtain ⟨x, hx, e⟩ := List.mem_map.1 this
    exact ⟨x, hx, e.symm⟩
  · intro x hx
    have : some x ∈ l.map f := h ▸ List.mem_map.2 ⟨x, hx, rfl⟩
    exact List.mem_map.1 this

/-- C178: unless the instances are weighted, every requirement and every duration is between the smallest and the largest
one of the instances. -/
theorem C178_between {agg : Agg} {pbs : List Problem} {out : Problem} (h : unique agg pbs = .ok out)
    (hp : ∀ ws, agg ≠ .ponderation ws) :
    (∀ j k d, durOf out j k = some d → (∃ pb ∈ pbs, ∃ x, durOf pb j k = some x ∧ x ≤ d) ∧
      ∃ pb ∈ pbs, ∃ x, durOf pb j k = some x ∧ d ≤ x) ∧
    ∀ j k r n, needOf out j k r = some n → (∃ pb ∈ pbs, ∃ x, needOf pb j k r = some x ∧ x ≤ n) ∧
      ∃ pb ∈ pbs, ∃ x, needOf pb j k r = some x ∧ n ≤ x := by
  obtain ⟨first, rest, h1, -, -, -, -, -, -, -, h9, h10⟩ := C178_entries h
  have key : ∀ (f : Problem → Option Int) (xs : List Int) (x : Rat), pbs.map f = xs.map some →
      agg.apply (xs.map (fun z : Int => (z : Rat))) = .ok x →
      (∃ pb ∈ pbs, ∃ y, f pb = some y ∧ y ≤ trunc x) ∧ ∃ pb ∈ pbs, ∃ y, f pb = some y ∧ trunc x ≤ y := by
    intro f xs x e1 e2
    have hne : xs ≠ [] := by
      intro h0
      rw [h0, h1] at e1
      simp at e1
    obtain ⟨lo, hlo⟩ : ∃ lo, xs.min? = some lo := by
      cases hx : xs.min? with
      | none => exact absurd (List.min?_eq_none_iff.1 hx) hne
      | some a => exact ⟨a, rfl⟩
    obtain ⟨hi, hhi⟩ : ∃ hi, xs.max? = some hi := by
      cases hx : xs.max? with
      | none => exact absurd (List.max?_eq_none_iff.1 hx) hne
      | some a => exact ⟨a, rfl⟩
    obtain ⟨l1, l2⟩ := List.min?_eq_some_iff.1 hlo
    obtain ⟨m1, m2⟩ := List.max?_eq_some_iff.1 hhi
    have hb := apply_bounds (lo := (lo : Rat)) (hi := (hi : Rat)) hp (by simpa using hne) e2 (by
      intro y hy
      obtain ⟨z, hz, rfl⟩ := List.mem_map.1 hy
      exact ⟨by exact_mod_cast l2 z hz, by exact_mod_cast m2 z hz⟩)
    have ht := trunc_bounds hb.1 hb.2
    obtain ⟨a, ha, ea⟩ := (map_some_mem e1).2 lo l1
    obtain ⟨b, hb', eb⟩ := (map_some_mem e1).2 hi m1
    exact ⟨⟨a, ha, lo, ea, ht.1⟩, ⟨b, hb', hi, eb, ht.2⟩⟩
  have hpos : ∀ pb j k x, durOf pb j k = some x → 0 ≤ x := by
    intro pb j k x hx
    simp only [durOf, Option.map_eq_some_iff] at hx
    obtain ⟨m, -, rfl⟩ := hx
    omega
  refine ⟨?_, ?_⟩
  · intro j k d hd
    obtain ⟨xs, x, e1, e2, e3⟩ := h9 j k d hd
    obtain ⟨⟨a, ha, y, ea, la⟩, ⟨b, hb, z, eb, lb⟩⟩ := key _ xs x e1 e2
    have := hpos _ _ _ _ eb
    exact ⟨⟨a, ha, y, ea, by omega⟩, ⟨b, hb, z, eb, by omega⟩⟩
  · intro j k r n hn
    obtain ⟨xs, x, e1, e2, e3⟩ := h10 j k r n hn
    obtain ⟨⟨a, ha, y, ea, la⟩, ⟨b, hb, z, eb, lb⟩⟩ := key _ xs x e1 e2
    exact ⟨⟨a, ha, y, ea, by omega⟩, ⟨b, hb, z, eb, by omega⟩⟩

/-- Two projects that differ in durations and requirements only. -/
structure Alike (p q : Problem) : Prop where
  resources : p.resources = q.resources
  successors : p.successors = q.successors
  keys : p.modes.keys.Perm q.modes.keys
  durs : ∀ j k, (durOf p j k).isSome ↔ (durOf q j k).isSome
  needs : ∀ j k r, (needOf p j k r).isSome ↔ (needOf q j k r).isSome

/-- C178: for instances that differ in durations and requirements only, the project is made, and it is one of them. -/
theorem C178_made {agg : Agg} {first : Problem} {rest : List Problem} (hp : ∀ ws, agg ≠ .ponderation ws)
    (hq : ∀ q, agg = .percentile q → 0 ≤ q ∧ q ≤ 100) (hn : first.modes.keys.Nodup)
    (hn' : ∀ j ms, first.modes.get? j = some ms → ms.keys.Nodup ∧ ∀ k m, ms.get? k = some m → m.needs.keys.Nodup)
    (ha : ∀ pb ∈ rest, Alike pb first) : ∃ out, unique agg (first :: rest) = .ok out ∧ Alike out first := by
  have hcol : ∀ j k (f : Mode → Except PyErr Int), (∀ pb ∈ first :: rest, ∃ ms m x, pb.modes.get? j = some ms ∧
      ms.get? k = some m ∧ f m = .ok x) → ∃ y, entry agg (first :: rest) j k f = .ok y := by
    intro j k f hf
    obtain ⟨xs, hxs⟩ := mapE_total (f := fun pb : Problem => do
      let ms ← pb.modes.get j
      let m ← ms.get k
      f m) (l := first :: rest) (by
        intro pb hpb
        obtain ⟨ms, m, x, e1, e2, e3⟩ := hf pb hpb
        exact ⟨x, by simp only [get_of e1, get_of e2, bind_ok, e3]⟩)
    have hxs' : column j k f (first :: rest) = .ok xs := hxs
    have hlen := (mapE_forall hxs).length_eq
    obtain ⟨x, hx⟩ := apply_ok (agg := agg) (l := xs.map (fun z : Int => (z : Rat))) hp hq (by
      intro h0
      have : xs = [] := List.map_eq_nil_iff.1 h0
      rw [this] at hlen
      simp at hlen)
    exact ⟨trunc x, by simp only [entry, hxs', hx, bind_ok]⟩
  have hmode : ∀ j ms k m, first.modes.get? j = some ms → ms.get? k = some m →
      ∃ m', uniqueMode agg (first :: rest) j k m = .ok m' := by
    intro j ms k m e1 e2
    have hall : ∀ pb ∈ first :: rest, ∃ ms m, pb.modes.get? j = some ms ∧ ms.get? k = some m := by
      intro pb hpb
      have hd : (durOf pb j k).isSome := by
        rcases List.mem_cons.1 hpb with rfl | hpb
        · simp [durOf, e1, e2]
        · exact ((ha pb hpb).durs j k).2 (by simp [durOf, e1, e2])
      obtain ⟨x, hx⟩ := Option.isSome_iff_exists.1 hd
      simp only [durOf, Option.map_eq_some_iff, Option.bind_eq_some_iff] at hx
      obtain ⟨m1, ⟨ms1, a, b⟩, -⟩ := hx
      exact ⟨ms1, m1, a, b⟩
    obtain ⟨d, hd⟩ := hcol j k (fun m => .ok (m.duration : Int)) (by
      intro pb hpb
      obtain ⟨ms1, m1, a, b⟩ := hall pb hpb
      exact ⟨ms1, m1, _, a, b, rfl⟩)
    obtain ⟨ns, hns⟩ := mapD_total (f := fun r (_ : Int) => entry agg (first :: rest) j k (fun m => m.needs.get r)) (d := m.needs) (by
        intro p hpm
        have hnd := ((hn' j ms e1).2 k m e2)
        have hg : m.needs.get? p.1 = some p.2 := Dict.get?_of_mem hnd hpm
        obtain ⟨y, hy⟩ := hcol j k (fun m => m.needs.get p.1) (by
          intro pb hpb
          have hd : (needOf pb j k p.1).isSome := by
            rcases List.mem_cons.1 hpb with rfl | hpb
            · simp [needOf, e1, e2, hg]
            · exact ((ha pb hpb).needs j k p.1).2 (by simp [needOf, e1, e2, hg])
          obtain ⟨x, hx⟩ := Option.isSome_iff_exists.1 hd
          simp only [needOf, Option.bind_eq_some_iff] at hx
          obtain ⟨m1, ⟨ms1, a, b⟩, c⟩ := hx
          exact ⟨ms1, m1, x, a, b, get_of c⟩)
        exact ⟨y, hy⟩)
    exact ⟨⟨d.toNat, ns⟩, by simp only [uniqueMode, hd, bind_ok, hns]⟩
  obtain ⟨modes, hm⟩ := mapD_total
    (f := fun j (ms : Dict Nat Mode) => mapD (fun k m => uniqueMode agg (first :: rest) j k m) ms) (d := first.modes) (by
      intro j hj
      have hg : first.modes.get? j.1 = some j.2 := Dict.get?_of_mem hn hj
      exact mapD_total (fun k hk => hmode j.1 j.2 k.1 k.2 hg (Dict.get?_of_mem (hn' _ _ hg).1 hk)))
  have hout : unique agg (first :: rest) = .ok { first with modes := modes } := by
    simp only [unique, pyGet, List.getElem?_cons_zero, bind_ok, hm]
  obtain ⟨f, r, e0, e1, -, e3, -, -, e6, e7, -, -⟩ := C178_entries hout
  have : f = first := (List.cons.inj e0).1.symm
  subst this
  exact ⟨_, hout, ⟨e1, e3, by rw [e6], fun j k => (e7 j k).1, fun j k r => (e7 j k).2 r⟩⟩

/-- What is required of `r` at time `t` when activity `a` starts at `start a` in mode `md a`. -/
def required (pb : Problem) (md : Nat → Nat) (start : Nat → Int) (r : String) (t : Int) : Int :=
  ((pb.modes.keys.filter (fun a => decide (start a ≤ t ∧ t < start a + (durOf pb a (md a)).getD 0))).map
    (fun a => (needOf pb a (md a) r).getD 0)).sum

/-- Starting times that keep precedences and constant capacities. -/
structure Valid (pb : Problem) (md : Nat → Nat) (start : Nat → Int) : Prop where
  prec : ∀ a l b, pb.successors.get? a = some l → b ∈ l → start a + (durOf pb a (md a)).getD 0 ≤ start b
  res : ∀ r c, pb.resources.get? r = some (.const c) → ∀ t, required pb md start r t ≤ c

theorem sum_filter_mono {P P' : Nat → Bool} {f f' : Nat → Int} (hP : ∀ a, P' a = true → P a = true) (h0 : ∀ a, 0 ≤ f a)
    (hf : ∀ a, f' a ≤ f a) : ∀ l : List Nat, ((l.filter P').map f').sum ≤ ((l.filter P).map f).sum
  | [] => by simp
  | a :: l => by
    have ih := sum_filter_mono hP h0 hf l
    have := h0 a
    have := hf a
    simp only [List.filter_cons]
    by_cases h1 : P' a = true
    · rw [if_pos h1, if_pos (hP a h1)]
      simp only [List.map_cons, List.sum_cons]; omega
    · rw [if_neg h1]
      by_cases h2 : P a = true
      · rw [if_pos h2]; simp only [List.map_cons, List.sum_cons]; omega
      · rw [if_neg h2]; exact ih

/-- Starting times stay valid when activities get shorter and require less. -/
theorem valid_mono {p q : Problem} {md : Nat → Nat} {start : Nat → Int} (ha : Alike p q)
    (hd : ∀ a k, (durOf q a k).getD 0 ≤ (durOf p a k).getD 0)
    (hr : ∀ a k r, 0 ≤ (needOf p a k r).getD 0 ∧ (needOf q a k r).getD 0 ≤ (needOf p a k r).getD 0)
    (hv : Valid p md start) : Valid q md start := by
  refine ⟨?_, ?_⟩
  · intro a l b hl hb
    have := hv.prec a l b (by rw [ha.successors]; exact hl) hb
    have := hd a (md a)
    omega
  · intro r c hc t
    have h1 := hv.res r c (by rw [ha.resources]; exact hc) t
    refine le_trans ?_ h1
    unfold required
    rw [← ((ha.keys.filter _).map _).sum_eq]
    refine sum_filter_mono ?_ (fun a => (hr a (md a) r).1) (fun a => (hr a (md a) r).2) _
    intro a h
    simp only [decide_eq_true_eq] at h ⊢
    have := hd a (md a)
    omega

/-- C178: starting times valid for the project of largest values are valid for every instance. -/
theorem C178_worst {first : Problem} {rest : List Problem} {out : Problem} {md : Nat → Nat} {start : Nat → Int}
    (h : unique .max (first :: rest) = .ok out) (ha : ∀ pb ∈ first :: rest, Alike pb first)
    (h0 : ∀ pb ∈ first :: rest, ∀ a k r x, needOf pb a k r = some x → 0 ≤ x) (hv : Valid out md start) :
    ∀ pb ∈ first :: rest, Valid pb md start := by
  obtain ⟨f, r, e0, e1, -, e3, -, -, e6, e7, e8, e9⟩ := C178_entries h
  have : f = first := (List.cons.inj e0).1.symm
  subst this
  have key : ∀ (xs : List Int) (x : Rat), Agg.max.apply (xs.map (fun z : Int => (z : Rat))) = .ok x → ∀ y ∈ xs, y ≤ trunc x := by
    intro xs x hx y hy
    cases xs with
    | nil => cases hy
    | cons z zs =>
      obtain ⟨m, em, hm, hm'⟩ := (Objectives.C54_methods (z : Rat) (zs.map (fun z : Int => (z : Rat)))).2.1
      have : x = m := by
        have hx' : Objectives.Method.max.apply ((z : Rat) :: zs.map (fun z : Int => (z : Rat))) = .ok x := hx
        rw [em] at hx'; exact (Except.ok.inj hx').symm
      subst this
      have h1 : x ∈ (z :: zs).map (fun z : Int => (z : Rat)) := hm
      obtain ⟨w, hw, ew⟩ := List.mem_map.1 h1
      have h2 := hm' (y : Rat) ((List.mem_map (f := fun z : Int => (z : Rat)) (l := z :: zs)).2 ⟨y, hy, rfl⟩)
      rw [← ew] at h2 ⊢
      rw [trunc_int]
      exact_mod_cast h2
  intro pb hpb
  have hal : Alike out pb := by
    have := ha pb hpb
    exact ⟨e1.trans this.resources.symm, e3.trans this.successors.symm, (e6 ▸ List.Perm.refl _ : out.modes.keys.Perm f.modes.keys).trans this.keys.symm,
      fun j k => ((e7 j k).1).trans (this.durs j k).symm, fun j k r => ((e7 j k).2 r).trans (this.needs j k r).symm⟩
  refine valid_mono hal ?_ ?_ hv
  · intro a k
    cases hq : durOf pb a k with
    | none =>
      have : durOf out a k = none := by
        cases ho : durOf out a k with
        | none => rfl
        | some v => have := (hal.durs a k).1 (by rw [ho]; rfl); rw [hq] at this; cases this
      rw [this]
    | some v =>
      obtain ⟨d, hd⟩ := Option.isSome_iff_exists.1 ((hal.durs a k).2 (by rw [hq]; rfl))
      obtain ⟨xs, x, f1, f2, f3⟩ := e8 a k d hd
      obtain ⟨y, hy, ey⟩ := (map_some_mem f1).1 pb hpb
      have hyv : y = v := Option.some.inj (ey.symm.trans hq)
      subst hyv
      have := key xs x f2 y hy
      rw [hd]
      simp only [Option.getD_some]
      omega
  · intro a k r
    cases hq : needOf pb a k r with
    | none =>
      have : needOf out a k r = none := by
        cases ho : needOf out a k r with
        | none => rfl
        | some v => have := (hal.needs a k r).1 (by rw [ho]; rfl); rw [hq] at this; cases this
      rw [this]; simp
    | some v =>
      obtain ⟨d, hd⟩ := Option.isSome_iff_exists.1 ((hal.needs a k r).2 (by rw [hq]; rfl))
      obtain ⟨xs, x, f1, f2, f3⟩ := e9 a k r d hd
      obtain ⟨y, hy, ey⟩ := (map_some_mem f1).1 pb hpb
      have hyv : y = v := Option.some.inj (ey.symm.trans hq)
      subst hyv
      have := key xs x f2 y hy
      have := h0 pb hpb a k r y hq
      rw [hd]
      simp only [Option.getD_some]
      omega

/-- C178: starting times valid for an instance are valid for the project of smallest values. -/
theorem C178_best {first : Problem} {rest : List Problem} {out : Problem} {md : Nat → Nat} {start : Nat → Int}
    (h : unique .min (first :: rest) = .ok out) (ha : ∀ pb ∈ first :: rest, Alike pb first)
    (h0 : ∀ pb ∈ first :: rest, ∀ a k r x, needOf pb a k r = some x → 0 ≤ x) {pb : Problem} (hpb : pb ∈ first :: rest)
    (hv : Valid pb md start) : Valid out md start := by
  obtain ⟨f, r, e0, e1, -, e3, -, -, e6, e7, e8, e9⟩ := C178_entries h
  have : f = first := (List.cons.inj e0).1.symm
  subst this
  have key : ∀ (xs : List Int) (x : Rat), Agg.min.apply (xs.map (fun z : Int => (z : Rat))) = .ok x → ∀ y ∈ xs, trunc x ≤ y := by
    intro xs x hx y hy
    cases xs with
    | nil => cases hy
    | cons z zs =>
      obtain ⟨m, em, hm, hm'⟩ := (Objectives.C54_methods (z : Rat) (zs.map (fun z : Int => (z : Rat)))).1
      have : x = m := by
        have hx' : Objectives.Method.min.apply ((z : Rat) :: zs.map (fun z : Int => (z : Rat))) = .ok x := hx
        rw [em] at hx'; exact (Except.ok.inj hx').symm
      subst this
      have h1 : x ∈ (z :: zs).map (fun z : Int => (z : Rat)) := hm
      obtain ⟨w, hw, ew⟩ := List.mem_map.1 h1
      have h2 := hm' (y : Rat) ((List.mem_map (f := fun z : Int => (z : Rat)) (l := z :: zs)).2 ⟨y, hy, rfl⟩)
      rw [← ew] at h2 ⊢
      rw [trunc_int]
      exact_mod_cast h2
  have hal : Alike pb out := by
    have := ha pb hpb
    exact ⟨this.resources.trans e1.symm, this.successors.trans e3.symm, this.keys.trans (e6 ▸ List.Perm.refl _),
      fun j k => (this.durs j k).trans ((e7 j k).1).symm, fun j k r => (this.needs j k r).trans ((e7 j k).2 r).symm⟩
  have hpos : ∀ pb j k x, durOf pb j k = some x → 0 ≤ x := by
    intro pb j k x hx
    simp only [durOf, Option.map_eq_some_iff] at hx
    obtain ⟨m, -, rfl⟩ := hx
    omega
  refine valid_mono hal ?_ ?_ hv
  · intro a k
    cases hq : durOf out a k with
    | none =>
      have : durOf pb a k = none := by
        cases ho : durOf pb a k with
        | none => rfl
        | some v => have := (hal.durs a k).1 (by rw [ho]; rfl); rw [hq] at this; cases this
      rw [this]
    | some d =>
      obtain ⟨v, hd⟩ := Option.isSome_iff_exists.1 ((hal.durs a k).2 (by rw [hq]; rfl))
      obtain ⟨xs, x, f1, f2, f3⟩ := e8 a k d hq
      obtain ⟨y, hy, ey⟩ := (map_some_mem f1).1 pb hpb
      have hyv : y = v := Option.some.inj (ey.symm.trans hd)
      subst hyv
      have := key xs x f2 y hy
      have := hpos _ _ _ _ hd
      rw [hd]
      simp only [Option.getD_some]
      omega
  · intro a k r
    cases hq : needOf out a k r with
    | none =>
      have : needOf pb a k r = none := by
        cases ho : needOf pb a k r with
        | none => rfl
        | some v => have := (hal.needs a k r).1 (by rw [ho]; rfl); rw [hq] at this; cases this
      rw [this]; simp
    | some d =>
      obtain ⟨v, hd⟩ := Option.isSome_iff_exists.1 ((hal.needs a k r).2 (by rw [hq]; rfl))
      obtain ⟨xs, x, f1, f2, f3⟩ := e9 a k r d hq
      obtain ⟨y, hy, ey⟩ := (map_some_mem f1).1 pb hpb
      have hyv : y = v := Option.some.inj (ey.symm.trans hd)
      subst hyv
      have := key xs x f2 y hy
      have := h0 pb hpb a k r y hd
      rw [hd]
      simp only [Option.getD_some]
      omega

/-- C178: an entry of the first instance that another one lacks raises `KeyError`. -/
theorem C178_missing {agg : Agg} {first : Problem} {rest : List Problem} {out : Problem} {j k : Nat}
    (hd : (durOf first j k).isSome) {pb : Problem} (hpb : pb ∈ rest) (hm : durOf pb j k = none) :
    unique agg (first :: rest) ≠ .ok out := by
  intro h
  obtain ⟨f, r, e0, -, -, -, -, -, -, e7, e8, -⟩ := C178_entries h
  have : f = first := (List.cons.inj e0).1.symm
  subst this
  obtain ⟨d, ho⟩ := Option.isSome_iff_exists.1 (((e7 j k).1).2 hd)
  obtain ⟨xs, x, f1, -, -⟩ := e8 j k d ho
  obtain ⟨y, -, ey⟩ := (map_some_mem f1).1 pb (List.mem_cons_of_mem _ hpb)
  rw [hm] at ey; cases ey

/-- One mode of length `d` that requires `x`. -/
def one (d : Nat) (x : Int) : Dict Nat Mode := [(1, ⟨d, [("R1", x)]⟩)]

/-- Activities 2 and 3 require one unit, 4 both; the first lasts `d`. -/
def trio (d : Nat) : Problem :=
  ⟨[("R1", .const 2)], [], [(1, one 0 0), (2, one d 1), (3, one 2 1), (4, one 1 2), (5, one 0 0)],
    [(1, [2, 3, 4]), (2, [5]), (3, [5]), (4, [5]), (5, [])], 20, 1⟩

theorem trio_alike (d d' : Nat) : Alike (trio d) (trio d') := by
  have hk : (trio d).modes.keys = (trio d').modes.keys := rfl
  have hm : ∀ j k, ((trio d).modes.get? j).bind (fun ms => ms.get? k) =
      (((trio d').modes.get? j).bind (fun ms => ms.get? k)).map (fun m => if j = 2 then { m with duration := d } else m) := by
    intro j k
    by_cases h1 : j = 1
    · subst h1
      by_cases hk : 1 = k
      · subst hk; rfl
      · simp [trio, Dict.get?, one, hk]
    by_cases h2 : j = 2
    · subst h2
      by_cases hk : 1 = k
      · subst hk; rfl
      · simp [trio, Dict.get?, one, hk]
    by_cases h3 : j = 3
    · subst h3
      by_cases hk : 1 = k
      · subst hk; rfl
      · simp [trio, Dict.get?, one, hk]
    by_cases h4 : j = 4
    · subst h4
      by_cases hk : 1 = k
      · subst hk; rfl
      · simp [trio, Dict.get?, one, hk]
    by_cases h5 : j = 5
    · subst h5
      by_cases hk : 1 = k
      · subst hk; rfl
      · simp [trio, Dict.get?, one, hk]
    simp [trio, Dict.get?, Ne.symm h1, Ne.symm h2, Ne.symm h3, Ne.symm h4, Ne.symm h5]
  refine ⟨rfl, rfl, by rw [hk], ?_, ?_⟩
  · intro j k
    simp only [durOf, hm, Option.isSome_map]
  · intro j k r
    simp only [needOf, hm]
    cases (((trio d').modes.get? j).bind (fun ms => ms.get? k)) with
    | none => rfl
    | some m => simp only [Option.map_some, Option.bind_some]; split <;> rfl

example : ∃ out, unique .median [trio 2, trio 1, trio 2] = .ok out ∧ Alike out (trio 2) :=
  C178_made (by intro ws h; cases h) (by intro q h; cases h) (by decide) (by
    intro j ms h
    have := Dict.mem_of_get? h
    have hall : ∀ q ∈ (trio 2).modes, q.2.keys.Nodup ∧ ∀ k m, q.2.get? k = some m → m.needs.keys.Nodup := by
      have h2 : ∀ q ∈ (trio 2).modes, q.2.keys.Nodup ∧ ∀ p ∈ q.2, p.2.needs.keys.Nodup := by decide +kernel
      exact fun q hq => ⟨(h2 q hq).1, fun k m hm => (h2 q hq).2 _ (Dict.mem_of_get? hm)⟩
    exact hall _ this) (by
    intro pb hpb
    have hpb : pb = trio 1 ∨ pb = trio 2 := by simpa using hpb
    rcases hpb with rfl | rfl <;> exact trio_alike _ _)

/-- 2 and 3 side by side, then 4. -/
def sideBySide (a : Nat) : Int := if a = 4 then 2 else if a = 5 then 3 else 0

theorem trio_valid : Valid (trio 2) (fun _ => 1) sideBySide := by
  refine ⟨?_, ?_⟩
  · intro a l b h hb
    have : ∀ q ∈ (trio 2).successors, ∀ b ∈ q.2, sideBySide q.1 + (durOf (trio 2) q.1 1).getD 0 ≤ sideBySide b := by
      decide +kernel
    exact this _ (Dict.mem_of_get? h) b hb
  · intro r c hc t
    have hr : r = "R1" ∧ c = 2 := by
      have h := Dict.mem_of_get? hc
      have h : (r, Capacity.const c) = ("R1", .const 2) := by simpa [trio] using h
      have h1 := congrArg Prod.fst h
      have h2 := congrArg Prod.snd h
      exact ⟨h1, by injection h2⟩
    obtain ⟨rfl, rfl⟩ := hr
    by_cases ht : 0 ≤ t ∧ t < 3
    · obtain ⟨h1, h2⟩ := ht
      interval_cases t <;> decide +kernel
    · have : (trio 2).modes.keys.filter (fun a => decide (sideBySide a ≤ t ∧ t < sideBySide a + (durOf (trio 2) a 1).getD 0)) = [] := by
        rw [List.filter_eq_nil_iff]
        intro a ha
        have : ∀ a ∈ (trio 2).modes.keys, 0 ≤ sideBySide a ∧ sideBySide a + (durOf (trio 2) a 1).getD 0 ≤ 3 := by decide +kernel
        have := this a ha
        simp only [decide_eq_true_eq]; omega
      unfold required
      rw [this]; simp

theorem valid_of_eq {p q : Problem} {md : Nat → Nat} {start : Nat → Int} (h1 : q.modes = p.modes) (h2 : q.successors = p.successors)
    (h3 : q.resources = p.resources) (hv : Valid p md start) : Valid q md start := by
  obtain ⟨a, b⟩ := hv
  cases p; cases q
  dsimp only at h1 h2 h3
  subst h1; subst h2; subst h3
  exact ⟨a, b⟩

theorem trio_nonneg (d : Nat) : ∀ a k r x, needOf (trio d) a k r = some x → 0 ≤ x := by
  intro a k r x h
  simp only [needOf, Option.bind_eq_some_iff] at h
  obtain ⟨m, ⟨ms, h1, h2⟩, h3⟩ := h
  have g1 := Dict.mem_of_get? h1
  have g2 := Dict.mem_of_get? h2
  have g3 := Dict.mem_of_get? h3
  have hall : ∀ q ∈ (trio d).modes, ∀ p ∈ q.2, ∀ n ∈ p.2.needs, 0 ≤ n.2 := by
    intro q hq p hp n hn
    simp only [trio, one, List.mem_cons, List.not_mem_nil, or_false] at hq
    rcases hq with rfl | rfl | rfl | rfl | rfl <;> simp at hp <;> subst hp <;> simp at hn <;> subst hn <;> decide
  exact hall _ g1 _ g2 _ g3

/-- The hypotheses of `C178_worst` and `C178_best` are met. -/
example : ∃ out, unique .max [trio 1, trio 2] = .ok out ∧ ∀ pb ∈ [trio 1, trio 2], Valid pb (fun _ => 1) sideBySide := by
  have ⟨out, h, h1, h2, h3⟩ := okAnd_spec (e := unique .max [trio 1, trio 2]) (p := fun out => out.modes = (trio 2).modes ∧
    out.successors = (trio 2).successors ∧ out.resources = (trio 2).resources) (by decide +kernel)
  have ha : ∀ pb ∈ [trio 1, trio 2], ∃ d, pb = trio d := by
    intro pb hpb
    have hpb : pb = trio 1 ∨ pb = trio 2 := by simpa using hpb
    rcases hpb with rfl | rfl
    · exact ⟨1, rfl⟩
    · exact ⟨2, rfl⟩
  exact ⟨out, h, C178_worst h (fun pb hpb => by obtain ⟨d, rfl⟩ := ha pb hpb; exact trio_alike _ _)
    (fun pb hpb => by obtain ⟨d, rfl⟩ := ha pb hpb; exact trio_nonneg d) (valid_of_eq h1 h2 h3 trio_valid)⟩
example : ∃ out, unique .min [trio 1, trio 2] = .ok out ∧ Valid out (fun _ => 1) sideBySide := by
  have ⟨out, h, _⟩ := okAnd_spec (e := unique .min [trio 1, trio 2]) (p := fun _ => True) (by decide +kernel)
  have ha : ∀ pb ∈ [trio 1, trio 2], ∃ d, pb = trio d := by
    intro pb hpb
    have hpb : pb = trio 1 ∨ pb = trio 2 := by simpa using hpb
    rcases hpb with rfl | rfl
    · exact ⟨1, rfl⟩
    · exact ⟨2, rfl⟩
  exact ⟨out, h, C178_best h (fun pb hpb => by obtain ⟨d, rfl⟩ := ha pb hpb; exact trio_alike _ _)
    (fun pb hpb => by obtain ⟨d, rfl⟩ := ha pb hpb; exact trio_nonneg d) (pb := trio 2) (by simp) trio_valid⟩
example : (unique .max [trio 1, { trio 2 with modes := (trio 2).modes.erase 3 }]).map (·.horizon) = .error .keyError := by
  decide +kernel

/-- C178 refuted: the makespan that a permutation has in the project of largest values is no bound: in an instance in
which an activity is shorter the same permutation has a larger makespan. -/
theorem C178_makespan_refuted :
    ∃ (pbs : List Problem) (out : Problem) (perm : List Nat), unique .max pbs = .ok out ∧ trio 1 ∈ pbs ∧
      ((sgs out perm [1, 1, 1]).toOption.bind (fun r => (makespan r.schedule).toOption)) = some 3 ∧
      ((sgs (trio 1) perm [1, 1, 1]).toOption.bind (fun r => (makespan r.schedule).toOption)) = some 4 := by
  have ⟨out, h, h1⟩ := okAnd_spec (e := unique .max [trio 2, trio 1]) (p := fun out =>
    ((sgs out [0, 2, 1] [1, 1, 1]).toOption.bind (fun r => (makespan r.schedule).toOption)) = some 3) (by decide +kernel)
  exact ⟨[trio 2, trio 1], out, [0, 2, 1], h, by simp, h1, by decide +kernel⟩

/-- C178 refuted: the mean is cut, not rounded: of four instances three of which take 2 and one 1 the duration 1 is made. -/
theorem C178_rounded_refuted : ∃ out, unique .mean [trio 2, trio 2, trio 2, trio 1] = .ok out ∧ durOf out 2 1 = some 1 :=
  okAnd_spec (p := fun out => durOf out 2 1 = some 1) (by decide +kernel)

/-- C178: training and test instances are the instances shuffled, cut after the proportion asked for. -/
theorem C178_split {α : Type} {l : List α} {q : Rat} (h0 : 0 ≤ q) (h1 : q ≤ 1) {n : Nat}
    (hn : (n : Rat) ≤ q * l.length ∧ q * l.length < n + 1) :
    split l none none q = if n = 0 then .error .indexError else .ok (l.take n, some (l.drop n)) := by
  have hx : (0 : Rat) ≤ q * l.length := mul_nonneg h0 (by positivity)
  have hle : (n : Rat) ≤ l.length := by
    have : (0 : Rat) ≤ l.length := by positivity
    nlinarith [hn.1]
  have hle : n ≤ l.length := by exact_mod_cast hle
  have hfl : (q * l.length).floor = (n : Int) := by
    have := floor_bounds (q * l.length)
    have a1 : (n : Int) ≤ (q * l.length).floor := Rat.le_floor_iff.2 (by exact_mod_cast hn.1)
    have a2 : ((q * l.length).floor : Rat) < ((n : Int) + 1 : Int) := by push_cast; linarith [this.1, hn.2]
    have a3 : (q * l.length).floor < (n : Int) + 1 := by exact_mod_cast a2
    omega
  unfold split
  simp only [trunc, if_pos hx, hfl]
  rw [if_neg (by omega : ¬ (n : Int) < 0), Int.toNat_natCast]
  by_cases hz : n = 0
  · subst hz
    simp [pyGet, bind_error]
  · rw [if_neg hz]
    cases l with
    | nil => simp at hle; exact absurd hle hz
    | cons a l =>
      cases n with
      | zero => exact absurd rfl hz
      | succ n => simp [pyGet, bind_ok]

example : split [1, 2, 3, 4, 5] none none (1 / 2) = .ok ([1, 2], some [3, 4, 5]) := by decide +kernel

/-- C178 refuted: with training instances only, the tool has no test instances, and evaluating raises `TypeError`
(`len(None)`). -/
theorem C178_no_test_refuted {α : Type} (l : List α) (a : α) (t : List α) (q : Rat) :
    split l (some (a :: t)) none q = .ok (a :: t, none) := by
  simp [split, pyGet, bind_ok]

end Verif.Robust
