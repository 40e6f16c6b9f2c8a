import Verif.Lemmas.Correct

/-!
C177: correction of schedules with helper tasks.

`rcpsp_pre_helper_correction` moves the helpers before activities to the latest start that the resources allow.
-/
namespace Verif.Correct
open Rcpsp Views Helpers

/-- What is required of resource `r` at time `t`: the sum over the activities that run. -/
def required (use : Nat → String → Int) (sch : Schedule) (r : String) (t : Nat) : Int :=
  ((sch.filter (fun q => decide (q.2.1 ≤ t ∧ t < q.2.2))).map (fun q => use q.1 r)).sum

/-- A schedule that keeps precedences and constant capacities; the makespan, which is the end of the activity with the
largest number, is not exceeded; `use` is what the activities need in the modes given. -/
structure Feasible (pb : Problem) (modes : List Nat) (use : Nat → String → Int) (cap : String → Int) (mk : Nat)
    (sch : Schedule) : Prop where
  nodup : sch.keys.Nodup
  uses : ∀ a ∈ sch.keys, ∀ r ∈ pb.resources.keys, useOf pb (extend modes) a r = .ok (use a r)
  caps : ∀ r ∈ pb.resources.keys, pb.resources.get? r = some (.const (cap r))
  last : lastEnd sch = .ok mk
  times : ∀ a p, sch.get? a = some p → p.1 ≤ p.2 ∧ p.2 ≤ mk
  prec : ∀ a l b p q, pb.successors.get? a = some l → b ∈ l → sch.get? a = some p → sch.get? b = some q → p.2 ≤ q.1
  res : ∀ r ∈ pb.resources.keys, ∀ t, required use sch r t ≤ cap r

/-- A helper: it has successors, all of them scheduled, its needs are those of its mode 1, and it is not the activity
with the largest number. -/
structure Helper (pb : Problem) (use : Nat → String → Int) (sch : Schedule) (h : Nat) : Prop where
  here : h ∈ sch.keys
  succs : ∃ l, pb.successors.get? h = some l ∧ l ≠ [] ∧ ∀ b ∈ l, b ∈ sch.keys
  mode : ∀ r ∈ pb.resources.keys, need pb h r = .ok (use h r)
  nonneg : ∀ r ∈ pb.resources.keys, 0 ≤ use h r
  other : ∃ k ∈ sch.keys, h < k

/-- C177: a helper is moved to the latest start that its successors and the resources allow. -/
theorem C177_step {pb : Problem} {modes : List Nat} {use : Nat → String → Int} {cap : String → Int} {mk : Nat}
    {sch : Schedule} {h s e : Nat} (hf : Feasible pb modes use cap mk sch) (hh : Helper pb use sch h)
    (hp : sch.get? h = some (s, e)) :
    ∃ s', s ≤ s' ∧ shiftOne pb modes sch h = .ok (sch.set h (s', s' + (e - s))) ∧
      Feasible pb modes use cap mk (sch.set h (s', s' + (e - s))) ∧
      (∀ l b q, pb.successors.get? h = some l → b ∈ l → sch.get? b = some q → h = b ∨ s' + (e - s) ≤ q.1) ∧
      ∀ s'', s' < s'' → (∀ l b q, pb.successors.get? h = some l → b ∈ l → sch.get? b = some q → s'' + (e - s) ≤ q.1) →
        ¬ Feasible pb modes use cap mk (sch.set h (s'', s'' + (e - s))) := by
  obtain ⟨hnd, huses, hcaps, hlast, htimes, hprec, hres⟩ := hf
  obtain ⟨hhere, ⟨l, hl, hlne, hlall⟩, hmode, hnn, ⟨k, hk, hhk⟩⟩ := hh
  have hse := htimes h _ hp
  dsimp only at hse
  obtain ⟨ss, e1, hss⟩ := starts_ok (sch := sch) l (fun y hy => by
    have := (Dict.get?_isSome_iff_mem_keys sch y).2 (hlall y hy)
    exact Option.isSome_iff_exists.1 this)
  have hssne : ss ≠ [] := by
    obtain ⟨b, hb⟩ := List.exists_mem_of_ne_nil l hlne
    obtain ⟨q, hq⟩ := Option.isSome_iff_exists.1 ((Dict.get?_isSome_iff_mem_keys sch b).2 (hlall b hb))
    intro h0
    have := (hss q.1).2 ⟨b, hb, q, hq, rfl⟩
    rw [h0] at this; cases this
  cases hmin : ss.min? with
  | none => exact absurd (List.min?_eq_none_iff.1 hmin) hssne
  | some latest =>
    obtain ⟨hmem, hle⟩ := List.min?_eq_some_iff.1 hmin
    obtain ⟨b0, hb0, q0, hq0, hq0'⟩ := (hss latest).1 hmem
    have hbound : e ≤ latest := by
      have := hprec h l b0 _ _ hl hb0 hp hq0
      dsimp only at this; omega
    have hlmk : latest ≤ mk := by
      have := htimes b0 q0 hq0; omega
    have huses' : ∀ q ∈ sch, ∀ r ∈ pb.resources.keys, useOf pb (extend modes) q.1 r = .ok (use q.1 r) :=
      fun q hq r hr => huses q.1 (List.mem_map.2 ⟨q, hq, rfl⟩) r hr
    obtain ⟨rows, e2, hnames, hcells⟩ := rows_consumption hlast huses'
    have hrk : ∀ q ∈ rows, q.1 ∈ pb.resources.keys := by
      intro q hq; rw [← hnames]; exact List.mem_map.2 ⟨q, hq, rfl⟩
    obtain ⟨rows', e3, hn', hcells'⟩ := remove_rows (pb := pb) (h := h) (s := s) (e := e) (n := fun r => use h r) hse.2 rows
      (fun q hq => hmode q.1 (hrk q hq)) hcells
    have hrk' : ∀ q ∈ rows', q.1 ∈ pb.resources.keys := by
      intro q hq; rw [← hnames, ← hn']; exact List.mem_map.2 ⟨q, hq, rfl⟩
    have hrow' : ∀ r ∈ pb.resources.keys, ∃ q ∈ rows', q.1 = r := by
      intro r hr
      rw [← hnames, ← hn'] at hr
      exact List.mem_map.1 hr
    have hrest : ∀ r t, load use sch r t - (if s ≤ t ∧ t < e then use h r else 0) = load use (sch.erase h) r t := by
      intro r t
      rw [load_erase use hp]; dsimp only; omega
    have hcells'' : ∀ q ∈ rows', q.2.length = mk + 1 ∧ ∀ t, t < mk → q.2[t + 1]? = some (load use (sch.erase h) q.1 t) := by
      intro q hq
      refine ⟨(hcells' q hq).1, fun t ht => ?_⟩
      rw [(hcells' q hq).2 t ht, hrest]
    obtain ⟨t', e4, g1, g2, g3, g4⟩ := search_ok (len := e - s) (fun q hq => hmode q.1 (hrk' q hq))
      (fun q hq => hcaps q.1 (hrk' q hq)) hcells'' s (by
        intro u u1 u2 q hq
        have := hres q.1 (hrk' q hq) u
        change load use sch q.1 u ≤ _ at this
        rw [load_erase use hp, if_pos (by dsimp only; omega)] at this
        exact this) (latest + mk + 5) (latest - (e - s)) (by omega) (by omega) (by omega)
    have hnewload : ∀ s'' r t, required use (sch.set h (s'', s'' + (e - s))) r t =
        load use (sch.erase h) r t + if s'' ≤ t ∧ t < s'' + (e - s) then use h r else 0 := by
      intro s'' r t
      change load use (sch.set h (s'', s'' + (e - s))) r t = _
      rw [load_erase use (Dict.get?_set_self sch h (s'', s'' + (e - s))), erase_set hp]
    have hnk : (sch.set h (t', t' + (e - s))).keys = sch.keys := keys_set_same hp
    have hother : ∀ b, b ≠ h → (sch.set h (t', t' + (e - s))).get? b = sch.get? b := fun b hb => Dict.get?_set_ne _ _ hb
    refine ⟨t', g1, ?_, ?_, ?_, ?_⟩
    · have e5 : search pb h rows' (e - s) (latest + mk + 5) ((latest : Int) - ((e : Int) - s)) = .ok (t' : Int) := by
        rw [show (latest : Int) - ((e : Int) - s) = ((latest - (e - s) : Nat) : Int) by omega]
        exact e4
      simp only [shiftOne, get_ok hl, e1, bind_ok, hmin, get_ok hp, e2, hlast, e3, e5]
      rw [if_neg (by omega)]
      congr 3
      omega
    · refine ⟨by rw [hnk]; exact hnd, by rw [hnk]; exact huses, hcaps, ?_, ?_, ?_, ?_⟩
      · unfold lastEnd at hlast ⊢
        rw [hnk]
        cases hm : sch.keys.max? with
        | none => rw [hm] at hlast; exact hlast
        | some a =>
          rw [hm] at hlast
          dsimp only at hlast ⊢
          have ha : a ≠ h := by
            have := (List.max?_eq_some_iff.1 hm).2 k hk
            omega
          rw [show (sch.set h (t', t' + (e - s))).get a = sch.get a by
            unfold Dict.get; rw [hother a ha]]
          exact hlast
      · intro a p ha
        by_cases hah : a = h
        · subst hah
          rw [Dict.get?_set_self] at ha
          have := (Option.some.inj ha).symm
          subst this
          exact ⟨by dsimp only; omega, by dsimp only; omega⟩
        · rw [hother a hah] at ha
          exact htimes a p ha
      · intro a l' b p q hal hb hpa hqb
        by_cases hah : a = h
        · subst hah
          have hal : l' = l := Option.some.inj (hal.symm.trans hl)
          subst hal
          rw [Dict.get?_set_self] at hpa
          have := (Option.some.inj hpa).symm
          subst this
          by_cases hbh : b = a
          · subst hbh
            rw [Dict.get?_set_self] at hqb
            have := (Option.some.inj hqb).symm
            subst this
            have := hprec b _ b _ _ hl hb hp hp
            dsimp only at this ⊢; omega
          · rw [hother b hbh] at hqb
            have := hle q.1 ((hss q.1).2 ⟨b, hb, q, hqb, rfl⟩)
            dsimp only; omega
        · rw [hother a hah] at hpa
          by_cases hbh : b = h
          · subst hbh
            rw [Dict.get?_set_self] at hqb
            have := (Option.some.inj hqb).symm
            subst this
            have := hprec a l' b _ _ hal hb hpa hp
            dsimp only at this ⊢; omega
          · rw [hother b hbh] at hqb
            exact hprec a l' b p q hal hb hpa hqb
      · intro r hr t
        rw [hnewload]
        by_cases ht : t' ≤ t ∧ t < t' + (e - s)
        · rw [if_pos ht]
          obtain ⟨q, hq, rfl⟩ := hrow' r hr
          exact g3 t ht.1 ht.2 q hq
        · rw [if_neg ht]
          have h1 := hres r hr t
          change load use sch r t ≤ _ at h1
          rw [← hrest]
          by_cases ht2 : s ≤ t ∧ t < e
          · rw [if_pos ht2]
            have := hnn r hr
            omega
          · rw [if_neg ht2]; omega
    · intro l' b q hal hb hqb
      rw [hl] at hal
      have hal := (Option.some.inj hal).symm
      subst hal
      have := hle q.1 ((hss q.1).2 ⟨b, hb, q, hqb, rfl⟩)
      right; omega
    · intro s'' h1 h2 hfe
      have hs'' : s'' ≤ latest - (e - s) := by
        have := h2 l b0 q0 hl hb0 hq0
        omega
      obtain ⟨u, u1, u2, q, hq, hlt⟩ := g4 s'' h1 hs''
      have := hfe.res q.1 (hrk' q hq) u
      rw [hnewload, if_pos ⟨u1, u2⟩] at this
      omega

theorem helper_set {pb : Problem} {use : Nat → String → Int} {sch : Schedule} {h h' : Nat} {p p' : Nat × Nat}
    (hp : sch.get? h = some p) (hh : Helper pb use sch h') : Helper pb use (sch.set h p') h' := by
  have hk : (sch.set h p').keys = sch.keys := keys_set_same hp
  obtain ⟨a, ⟨l, b, c, d⟩, e, f, g⟩ := hh
  exact ⟨hk ▸ a, ⟨l, b, c, fun y hy => hk ▸ d y hy⟩, e, f, hk ▸ g⟩

/-- The helpers are moved one after the other, whatever the order. -/
theorem shiftAll_ok {pb : Problem} {modes : List Nat} {use : Nat → String → Int} {cap : String → Int} {mk : Nat} :
    ∀ (hs : List Nat) (sch : Schedule), Feasible pb modes use cap mk sch → (∀ h ∈ hs, Helper pb use sch h) →
      ∃ sch', shiftAll pb modes hs sch = .ok sch' ∧ Feasible pb modes use cap mk sch' ∧ sch'.keys = sch.keys ∧
        (∀ a, a ∉ hs → sch'.get? a = sch.get? a) ∧
        ∀ a p, sch.get? a = some p → ∃ s', p.1 ≤ s' ∧ sch'.get? a = some (s', s' + (p.2 - p.1))
  | [], sch, hf, _ => by
    refine ⟨sch, rfl, hf, rfl, fun _ _ => rfl, fun a p hp => ⟨p.1, Nat.le_refl _, ?_⟩⟩
    have := (hf.times a p hp).1
    rw [hp, show p.1 + (p.2 - p.1) = p.2 by omega]
  | h :: hs, sch, hf, hh => by
    obtain ⟨⟨s, e⟩, hp⟩ := Option.isSome_iff_exists.1
      ((Dict.get?_isSome_iff_mem_keys sch h).2 (hh h (List.mem_cons_self ..)).here)
    obtain ⟨s', h1, h2, h3, -, -⟩ := C177_step hf (hh h (List.mem_cons_self ..)) hp
    obtain ⟨sch', g1, g2, g3, g4, g5⟩ := shiftAll_ok hs (sch.set h (s', s' + (e - s))) h3
      (fun x hx => helper_set hp (hh x (List.mem_cons_of_mem _ hx)))
    refine ⟨sch', by simp only [shiftAll, h2, bind_ok, g1], g2, g3.trans (keys_set_same hp), ?_, ?_⟩
    · intro a ha
      rw [g4 a (fun hx => ha (List.mem_cons_of_mem _ hx))]
      exact Dict.get?_set_ne _ _ (fun hx => ha (hx ▸ List.mem_cons_self ..))
    · intro a p hpa
      by_cases hah : a = h
      · subst hah
        have : p = (s, e) := Option.some.inj (hpa.symm.trans hp)
        subst this
        obtain ⟨s2, k1, k2⟩ := g5 a _ (Dict.get?_set_self sch a _)
        dsimp only at k1 k2 ⊢
        refine ⟨s2, by omega, ?_⟩
        rw [k2]; congr 2; omega
      · exact g5 a p (by rw [Dict.get?_set_ne _ _ hah]; exact hpa)

theorem withStarts_ok {sch : Schedule} : ∀ (l : List Nat), (∀ h ∈ l, h ∈ sch.keys) →
    ∃ r, withStarts sch l = .ok r ∧ r.map Prod.snd = l
  | [], _ => ⟨[], rfl, rfl⟩
  | h :: l, hl => by
    obtain ⟨p, hp⟩ := Option.isSome_iff_exists.1
      ((Dict.get?_isSome_iff_mem_keys sch h).2 (hl h (List.mem_cons_self ..)))
    obtain ⟨r, h1, h2⟩ := withStarts_ok l (fun x hx => hl x (List.mem_cons_of_mem _ hx))
    exact ⟨(p.1, h) :: r, by simp only [withStarts, get_ok hp, h1, bind_ok], by simp [h2]⟩

theorem latestFirst_mem {l : List (Nat × Nat)} {h : Nat} : h ∈ latestFirst l ↔ h ∈ l.map Prod.snd := by
  unfold latestFirst
  exact (((sortBy_perm _ _).trans (sortBy_perm _ _)).map Prod.snd).mem_iff

/-- The helpers are moved one after another, those that start later before those that start earlier. -/
theorem C177_order {pb : Problem} {modes : List Nat} {sch : Schedule} {pre : Dict Nat Nat}
    (hk : ∀ q ∈ pre, q.2 ∈ sch.keys) :
    ∃ hs : List Nat, hs.Perm (pre.map Prod.snd) ∧
      hs.Pairwise (fun a b => ∀ p q, sch.get? a = some p → sch.get? b = some q → q.1 ≤ p.1) ∧
      correct pb modes pre sch = hs.foldlM (shiftOne pb modes) sch := by
  have key : ∀ l : List Nat, (∀ h ∈ l, h ∈ sch.keys) →
      ∃ r, withStarts sch l = .ok r ∧ r.map Prod.snd = l ∧ ∀ x ∈ r, ∃ e, sch.get? x.2 = some (x.1, e) := by
    intro l
    induction l with
    | nil => intro _; exact ⟨[], rfl, rfl, by simp⟩
    | cons h l ih =>
      intro hl
      obtain ⟨p, hp⟩ := Option.isSome_iff_exists.1
        ((Dict.get?_isSome_iff_mem_keys sch h).2 (hl h (List.mem_cons_self ..)))
      obtain ⟨r, h1, h2, h3⟩ := ih (fun x hx => hl x (List.mem_cons_of_mem _ hx))
      refine ⟨(p.1, h) :: r, by simp only [withStarts, get_ok hp, h1, bind_ok], by simp [h2], ?_⟩
      intro x hx
      rcases List.mem_cons.1 hx with rfl | hx
      · exact ⟨p.2, hp⟩
      · exact h3 x hx
  have fold : ∀ (hs : List Nat) (s : Schedule), shiftAll pb modes hs s = hs.foldlM (shiftOne pb modes) s := by
    intro hs
    induction hs with
    | nil => intro s; rfl
    | cons h hs ih =>
      intro s
      simp only [shiftAll, List.foldlM_cons, ih]
  obtain ⟨r, h1, h2, h3⟩ := key (pre.map Prod.snd) (by
    intro h hm
    obtain ⟨q, hq, rfl⟩ := List.mem_map.1 hm
    exact hk q hq)
  have hperm : (sortBy (fun p : Nat × Nat => -(p.1 : Int)) (sortBy (fun p => -(p.2 : Int)) r)).Perm r :=
    (sortBy_perm _ _).trans (sortBy_perm _ _)
  refine ⟨latestFirst r, ?_, ?_, by simp only [correct, h1, bind_ok, fold]⟩
  · rw [← h2]; exact hperm.map Prod.snd
  · unfold latestFirst
    rw [List.pairwise_map]
    refine (sortBy_sorted (fun p : Nat × Nat => -(p.1 : Int)) _).imp_of_mem ?_
    intro a b ha hb hab p q hp hq
    obtain ⟨e, he⟩ := h3 a (hperm.mem_iff.1 ha)
    obtain ⟨e', he'⟩ := h3 b (hperm.mem_iff.1 hb)
    rw [hp] at he
    rw [hq] at he'
    have := Option.some.inj he
    have := Option.some.inj he'
    subst_vars
    dsimp only at hab ⊢
    omega

/-- A feasible schedule is corrected to a feasible schedule of the same makespan: the other activities stay, and the
helpers start no earlier and last as long. -/
theorem C177_correct {pb : Problem} {modes : List Nat} {use : Nat → String → Int} {cap : String → Int} {mk : Nat}
    {sch : Schedule} {pre : Dict Nat Nat} (hf : Feasible pb modes use cap mk sch)
    (hh : ∀ q ∈ pre, Helper pb use sch q.2) :
    ∃ sch', correct pb modes pre sch = .ok sch' ∧ Feasible pb modes use cap mk sch' ∧ sch'.keys = sch.keys ∧
      (∀ a, (∀ q ∈ pre, q.2 ≠ a) → sch'.get? a = sch.get? a) ∧
      ∀ a p, sch.get? a = some p → ∃ s', p.1 ≤ s' ∧ sch'.get? a = some (s', s' + (p.2 - p.1)) := by
  obtain ⟨r, h1, h2⟩ := withStarts_ok (sch := sch) (pre.map Prod.snd) (by
    intro h hm
    obtain ⟨q, hq, rfl⟩ := List.mem_map.1 hm
    exact (hh q hq).here)
  obtain ⟨sch', g1, g2, g3, g4, g5⟩ := shiftAll_ok (latestFirst r) sch hf (by
    intro h hm
    rw [latestFirst_mem, h2] at hm
    obtain ⟨q, hq, rfl⟩ := List.mem_map.1 hm
    exact hh q hq)
  refine ⟨sch', by simp only [correct, h1, bind_ok, g1], g2, g3, ?_, g5⟩
  intro a ha
  refine g4 a (fun hm => ?_)
  rw [latestFirst_mem, h2] at hm
  obtain ⟨q, hq, he⟩ := List.mem_map.1 hm
  exact ha q hq he

/-- The gap of a feasible schedule is never negative and zero exactly when every helper runs next to its activity. -/
theorem C177_gap {pb : Problem} {modes : List Nat} {use : Nat → String → Int} {cap : String → Int} {mk : Nat}
    {sch : Schedule} (hf : Feasible pb modes use cap mk sch) {post : Dict Nat Nat} :
    ∀ (pre : Dict Nat Nat), (∀ q ∈ pre, ∃ k l l', post.get? q.1 = some k ∧
        pb.successors.get? q.2 = some l ∧ q.1 ∈ l ∧ pb.successors.get? q.1 = some l' ∧ k ∈ l' ∧
        q.1 ∈ sch.keys ∧ q.2 ∈ sch.keys ∧ k ∈ sch.keys) →
      ∃ g : Int, gap sch post pre = .ok g ∧ 0 ≤ g ∧
        (g = 0 ↔ ∀ q ∈ pre, ∃ k pa ph pk, post.get? q.1 = some k ∧ sch.get? q.1 = some pa ∧ sch.get? q.2 = some ph ∧
          sch.get? k = some pk ∧ ph.2 = pa.1 ∧ pa.2 = pk.1)
  | [], _ => ⟨0, rfl, by omega, by simp⟩
  | (a, h) :: rest, hall => by
    obtain ⟨k, l, l', h1, h2, h3, h4, h5, h6, h7, h8⟩ := hall _ (List.mem_cons_self ..)
    dsimp only at h1 h2 h3 h4 h5 h6 h7 h8
    obtain ⟨g, e1, e2, e3⟩ := C177_gap hf (post := post) rest (fun q hq => hall q (List.mem_cons_of_mem _ hq))
    obtain ⟨pa, hpa⟩ := Option.isSome_iff_exists.1 ((Dict.get?_isSome_iff_mem_keys sch a).2 h6)
    obtain ⟨ph, hph⟩ := Option.isSome_iff_exists.1 ((Dict.get?_isSome_iff_mem_keys sch h).2 h7)
    obtain ⟨pk, hpk⟩ := Option.isSome_iff_exists.1 ((Dict.get?_isSome_iff_mem_keys sch k).2 h8)
    have c1 := hf.prec h l a _ _ h2 h3 hph hpa
    have c2 := hf.prec a l' k _ _ h4 h5 hpa hpk
    refine ⟨((pa.1 : Int) - ph.2) + ((pk.1 : Int) - pa.2) + g, ?_, by omega, ?_⟩
    · simp only [gap, get_ok hpa, get_ok hph, get_ok h1, get_ok hpk, e1, bind_ok]
    · constructor
      · intro h0 q hq
        rcases List.mem_cons.1 hq with rfl | hq
        · exact ⟨k, pa, ph, pk, h1, hpa, hph, hpk, by omega, by omega⟩
        · exact e3.1 (by omega) q hq
      · intro hz
        have := e3.2 (fun q hq => hz q (List.mem_cons_of_mem _ hq))
        obtain ⟨k', pa', ph', pk', z1, z2, z3, z4, z5, z6⟩ := hz _ (List.mem_cons_self ..)
        have b1 : k' = k := Option.some.inj (z1.symm.trans h1)
        subst b1
        have b2 : pa' = pa := Option.some.inj (z2.symm.trans hpa)
        have b3 : ph' = ph := Option.some.inj (z3.symm.trans hph)
        have b4 : pk' = pk := Option.some.inj (z4.symm.trans hpk)
        subst b2; subst b3; subst b4
        omega

/-- A helper that is not scheduled (the schedule could not be completed): KeyError. -/
theorem C177_missing {pb : Problem} {modes : List Nat} {pre : Dict Nat Nat} {sch : Schedule} {q : Nat × Nat}
    (hq : q ∈ pre) (hn : q.2 ∉ sch.keys) : correct pb modes pre sch = .error .keyError := by
  have key : ∀ l : List Nat, q.2 ∈ l → withStarts sch l = .error .keyError := by
    intro l
    induction l with
    | nil => intro h; cases h
    | cons x l ih =>
      intro h
      cases hx : sch.get? x with
      | none => simp only [withStarts, Dict.get, hx]; rfl
      | some p =>
        have hne : q.2 ≠ x := by
          intro he
          exact hn ((Dict.get?_isSome_iff_mem_keys sch q.2).1 (by rw [he, hx]; rfl))
        rcases List.mem_cons.1 h with h | h
        · exact absurd h hne
        · simp only [withStarts, get_ok hx, bind_ok, ih h]; rfl
  simp only [correct, key _ (List.mem_map.2 ⟨q, hq, rfl⟩)]; rfl

/-- A helper without successors: `min` of an empty list. -/
theorem C177_alone {pb : Problem} {modes : List Nat} {sch : Schedule} {a h : Nat} (hh : h ∈ sch.keys)
    (hs : pb.successors.get? h = some []) : correct pb modes [(a, h)] sch = .error .valueError := by
  obtain ⟨p, hp⟩ := Option.isSome_iff_exists.1 ((Dict.get?_isSome_iff_mem_keys sch h).2 hh)
  have e : latestFirst [(p.1, h)] = [h] := rfl
  simp only [correct, withStarts, List.map_cons, List.map_nil, get_ok hp, bind_ok, e, shiftAll, shiftOne, get_ok hs,
    starts, List.min?_nil]
  rfl

/-- One mode of length `d` that needs `x` assistants. -/
def one (d : Nat) (x : Int) : Dict Nat Mode := [(1, ⟨d, [("R1", x)]⟩)]

/-- Activities 1 (source), 2 and 3 (assisted), 4 and 5 (their helpers before, of lengths 3 and 1), 6 and 7 (helpers
after), 8 (another activity that needs an assistant) and 9 (sink); there are two assistants. -/
def crew : Problem :=
  ⟨[("R1", .const 2)], [],
    [(1, one 0 0), (2, one 1 0), (3, one 1 0), (4, one 3 1), (5, one 1 1), (6, one 0 0), (7, one 0 0), (8, one 1 1),
      (9, one 0 0)],
    [(1, [4, 5, 8]), (2, [6]), (3, [7]), (4, [2]), (5, [3]), (6, [9]), (7, [9]), (8, [9]), (9, [])], 20, 1⟩

def before : Dict Nat Nat := [(2, 4), (3, 5)]
def after : Dict Nat Nat := [(2, 6), (3, 7)]

def plan : Schedule :=
  [(1, (0, 0)), (2, (6, 7)), (3, (3, 4)), (4, (0, 3)), (5, (0, 1)), (6, (7, 7)), (7, (4, 4)), (8, (2, 3)), (9, (7, 7))]

def crewUse (a : Nat) (_ : String) : Int := if a = 4 ∨ a = 5 ∨ a = 8 then 1 else 0

theorem plan_feasible : Feasible crew [1, 1, 1, 1, 1, 1, 1] crewUse (fun _ => 2) 7 plan := by
  refine ⟨by decide, ?_, ?_, by decide +kernel, ?_, ?_, ?_⟩
  · have : ∀ a ∈ plan.keys, ∀ r ∈ crew.resources.keys,
        useOf crew (extend [1, 1, 1, 1, 1, 1, 1]) a r = .ok (crewUse a r) := by decide +kernel
    exact this
  · decide +kernel
  · intro a p hp
    have : ∀ q ∈ plan, q.2.1 ≤ q.2.2 ∧ q.2.2 ≤ 7 := by decide +kernel
    exact this _ (Dict.mem_of_get? hp)
  · intro a l b p q h1 h2 h3 h4
    have : ∀ x ∈ crew.successors, ∀ y ∈ x.2, ∀ p ∈ plan, ∀ q ∈ plan, p.1 = x.1 → q.1 = y → p.2.2 ≤ q.2.1 := by
      decide +kernel
    exact this _ (Dict.mem_of_get? h1) _ h2 _ (Dict.mem_of_get? h3) _ (Dict.mem_of_get? h4) rfl rfl
  · intro r hr t
    by_cases ht : t < 7
    · have : ∀ r ∈ crew.resources.keys, ∀ t < 7, required crewUse plan r t ≤ 2 := by decide +kernel
      exact this r hr t ht
    · have : plan.filter (fun q => decide (q.2.1 ≤ t ∧ t < q.2.2)) = [] := by
        rw [List.filter_eq_nil_iff]
        intro q hq
        have : ∀ q ∈ plan, q.2.2 ≤ 7 := by decide +kernel
        have := this q hq
        simp only [decide_eq_true_eq]; omega
      unfold required
      rw [this]; simp

theorem plan_helpers : ∀ q ∈ before, Helper crew crewUse plan q.2 := by
  intro q hq
  have hq : q = (2, 4) ∨ q = (3, 5) := by simpa [before] using hq
  rcases hq with rfl | rfl
  · exact ⟨by decide, ⟨[2], by decide +kernel, by decide, by decide⟩, by decide +kernel, by decide +kernel, ⟨9, by decide, by decide⟩⟩
  · exact ⟨by decide, ⟨[3], by decide +kernel, by decide, by decide⟩, by decide +kernel, by decide +kernel, ⟨9, by decide, by decide⟩⟩

/-- The hypotheses of `C177_correct` are met; both helpers move. -/
example : correct crew [1, 1, 1, 1, 1, 1, 1] before plan =
    .ok ((plan.set 4 (3, 6)).set 5 (1, 2)) := by decide +kernel
example : ∃ sch', correct crew [1, 1, 1, 1, 1, 1, 1] before plan = .ok sch' ∧
    Feasible crew [1, 1, 1, 1, 1, 1, 1] crewUse (fun _ => 2) 7 sch' :=
  let ⟨s, h, f, _⟩ := C177_correct plan_feasible plan_helpers
  ⟨s, h, f⟩
example : ∃ hs : List Nat, hs.Perm [4, 5] ∧
    correct crew [1, 1, 1, 1, 1, 1, 1] before plan = hs.foldlM (shiftOne crew [1, 1, 1, 1, 1, 1, 1]) plan :=
  let ⟨hs, h, _, e⟩ := C177_order (pb := crew) (modes := [1, 1, 1, 1, 1, 1, 1]) (sch := plan) (pre := before) (by decide +kernel)
  ⟨hs, h, e⟩
example : gap plan after before = .ok 5 := by decide +kernel
example : ∃ g : Int, gap plan after before = .ok g ∧ 0 ≤ g :=
  let ⟨g, h, f, _⟩ := C177_gap plan_feasible (post := after) before (by
    intro q hq
    have hq : q = (2, 4) ∨ q = (3, 5) := by simpa [before] using hq
    rcases hq with rfl | rfl
    · exact ⟨6, [2], [6], by decide +kernel, by decide +kernel, by decide, by decide +kernel, by decide, by decide,
        by decide, by decide⟩
    · exact ⟨7, [3], [7], by decide +kernel, by decide +kernel, by decide, by decide +kernel, by decide, by decide,
        by decide, by decide⟩)
  ⟨g, h, f⟩
example : correct crew [1, 1, 1, 1, 1, 1, 1] before (plan.erase 5) = .error .keyError :=
  C177_missing (q := (3, 5)) (by decide) (by decide)
example : correct crew [1, 1, 1, 1, 1, 1, 1] [(2, 9)] plan = .error .valueError :=
  C177_alone (by decide) (by decide +kernel)

/-- Helpers need not end up as late as possible: the helper moved first may be kept back by one that leaves
afterwards.  As the schedule of the solution is replaced, evaluating a solution a second time moves the helper again
and gives another gap. -/
theorem C177_latest_refuted :
    ¬ ∀ (pb : Problem) (modes : List Nat) (use : Nat → String → Int) (cap : String → Int) (mk : Nat) (sch sch' : Schedule)
      (pre post : Dict Nat Nat), Feasible pb modes use cap mk sch → (∀ q ∈ pre, Helper pb use sch q.2) →
      correct pb modes pre sch = .ok sch' →
      ∀ sch'', correct pb modes pre sch' = .ok sch'' → gap sch'' post pre = gap sch' post pre := by
  intro h
  have := h crew [1, 1, 1, 1, 1, 1, 1] crewUse (fun _ => 2) 7 plan ((plan.set 4 (3, 6)).set 5 (1, 2)) before after
    plan_feasible plan_helpers (by decide +kernel) ((plan.set 4 (3, 6)).set 5 (2, 3)) (by decide +kernel)
  revert this
  decide +kernel

end Verif.Correct
