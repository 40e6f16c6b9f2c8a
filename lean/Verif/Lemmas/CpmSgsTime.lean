import Verif.Lemmas.CpmSgs

/-! Lemmas on the schedule generation along time. -/
namespace Verif.CpmSgs

theorem scanFirst_nil {net : Net} {j cur : Nat} : ∀ {av : Avail}, scanFirst net j cur av = .ok [] → 0 < net.dur j →
    ∀ x ∈ av, ∃ a, x.2[cur]? = some a ∧ net.need j x.1 ≤ a := by
  intro av
  induction av with
  | nil => intro _ _ x hx; cases hx
  | cons y av ih =>
    obtain ⟨r, l⟩ := y
    intro h hd x hx
    simp only [scanFirst] at h
    rw [if_neg (by omega)] at h
    split at h
    · cases h
    · next a ha =>
      split at h
      · split at h
        · split at h <;> cases h
        · cases h
      · rcases List.mem_cons.mp hx with rfl | hx
        · exact ⟨a, ha, by simp only; omega⟩
        · exact ih h hd x hx

theorem scanFirst_mem {net : Net} {j cur : Nat} : ∀ {av : Avail} {rs : List Nat}, scanFirst net j cur av = .ok rs → ∀ r ∈ rs,
    ∃ l, (r, l) ∈ av ∧ ∃ a, l[cur]? = some a ∧ a < net.need j r := by
  intro av
  induction av with
  | nil => intro rs h r hr; cases h; cases hr
  | cons y av ih =>
    obtain ⟨r', l⟩ := y
    intro rs h r hr
    have step : ∀ {rs}, scanFirst net j cur av = .ok rs → r ∈ rs → ∃ l', (r, l') ∈ (r', l) :: av ∧ ∃ a, l'[cur]? = some a ∧ a < net.need j r := by
      intro rs h hr
      obtain ⟨l', h1, h2⟩ := ih h r hr
      exact ⟨l', List.mem_cons_of_mem _ h1, h2⟩
    simp only [scanFirst] at h
    split at h
    · exact step h hr
    · split at h
      · cases h
      · next a ha =>
        split at h
        · next hlt =>
          split at h
          · split at h
            · cases h
            · next rs' hrs =>
              cases h
              rcases List.mem_cons.mp hr with rfl | hr
              · exact ⟨l, List.mem_cons_self, a, ha, hlt⟩
              · exact step hrs hr
          · cases h
        · exact step h hr

theorem scanFirst_total {net : Net} {j cur : Nat} (hc : cur < net.horizon) : ∀ {av : Avail}, (∀ x ∈ av, x.2.length = net.horizon) → ∃ rs, scanFirst net j cur av = .ok rs := by
  intro av
  induction av with
  | nil => intro _; exact ⟨[], rfl⟩
  | cons y av ih =>
    obtain ⟨r, l⟩ := y
    intro hl
    obtain ⟨rs, hrs⟩ := ih (fun x hx => hl x (List.mem_cons_of_mem _ hx))
    have hlt : cur < l.length := by rw [hl (r, l) List.mem_cons_self]; exact hc
    simp only [scanFirst, List.getElem?_eq_getElem hlt, hrs, if_pos hc]
    split
    · exact ⟨_, rfl⟩
    · split <;> exact ⟨_, rfl⟩

theorem scanFirst_free {net : Net} {j cur : Nat} {av : Avail} (hc : cur < net.horizon) (hl : ∀ x ∈ av, x.2.length = net.horizon)
    (hf : ∀ x ∈ av, ∀ a, x.2[cur]? = some a → net.need j x.1 ≤ a) : scanFirst net j cur av = .ok [] := by
  obtain ⟨rs, hrs⟩ := scanFirst_total (j := j) hc hl
  cases rs with
  | nil => exact hrs
  | cons r rs =>
    obtain ⟨l, h1, a, h2, h3⟩ := scanFirst_mem hrs r List.mem_cons_self
    have := hf _ h1 a h2
    simp only at this
    omega

theorem ready_iff {net : Net} {st : St} {cur j : Nat} (hnd : st.sched.keys.Nodup) :
    ready net st cur j = true ↔ (∀ i ∈ net.pred j, ∃ s e, (i, (s, e)) ∈ st.sched ∧ e ≤ cur) ∧ st.least j ≤ cur := by
  simp only [ready, Bool.and_eq_true, List.all_eq_true, decide_eq_true_eq]
  refine and_congr_left (fun _ => forall_congr' fun i => forall_congr' fun _ => ?_)
  cases hg : st.sched.get? i with
  | none =>
    simp only [Bool.false_eq_true, false_iff]
    rintro ⟨s, e, h, _⟩
    rw [Dict.get?_of_mem hnd h] at hg
    cases hg
  | some p =>
    obtain ⟨s, e⟩ := p
    simp only [decide_eq_true_eq]
    constructor
    · intro h; exact ⟨s, e, Dict.mem_of_get? hg, h⟩
    · rintro ⟨s', e', h, h'⟩
      rw [Dict.get?_of_mem hnd h] at hg
      cases hg
      exact h'

/-- Schedules whose activities start before `cur`, one at a time. -/
structure TInv (net : Net) (cap : Avail) (cur : Nat) (order : List Nat) (st : St) : Prop where
  inv : Inv net cap st
  past : ∀ j s e, (j, (s, e)) ∈ st.sched → s < cur
  sorted : st.sched.Pairwise (fun x y => x.2.1 < y.2.1)
  among : ∀ k ∈ st.sched.keys, k ∈ order

theorem TInv.next {net : Net} {cap : Avail} {cur : Nat} {order : List Nat} {st : St} (h : TInv net cap cur order st) : TInv net cap (cur + 1) order st :=
  ⟨h.inv, fun j s e hj => Nat.lt_succ_of_lt (h.past j s e hj), h.sorted, h.among⟩

theorem TInv.withCauses {net : Net} {cap : Avail} {cur : Nat} {order : List Nat} {st : St} (h : TInv net cap cur order st) (cs : List Cause) :
    TInv net cap cur order { st with causes := cs } :=
  ⟨inv_causes h.inv cs, h.past, h.sorted, h.among⟩

/-- When all activities have started, what is used does not grow any more. -/
theorem used_later {net : Net} (hn : ∀ j r, 0 ≤ net.need j r) {cur u : Nat} (hu : cur ≤ u) (r : Nat) : ∀ {d : Dict Nat (Nat × Nat)}, (∀ j s e, (j, (s, e)) ∈ d → s < cur) →
    used net d r u ≤ used net d r cur := by
  intro d
  induction d with
  | nil => intro _; exact Int.le_refl _
  | cons x d ih =>
    obtain ⟨j, s, e⟩ := x
    intro h
    have h1 : used net ((j, (s, e)) :: d) r u = used net [(j, (s, e))] r u + used net d r u := used_append net [(j, (s, e))] d r u
    have h2 : used net ((j, (s, e)) :: d) r cur = used net [(j, (s, e))] r cur + used net d r cur := used_append net [(j, (s, e))] d r cur
    rw [h1, h2, used_one, used_one]
    have := ih (fun j s e hj => h j s e (List.mem_cons_of_mem _ hj))
    have := hn j r
    have := h j s e List.mem_cons_self
    split <;> split <;> omega

/-- One step of the loop with constant capacities: at most one activity is placed, and it starts now. -/
theorem tryAll_spec {net : Net} {caps : List (Nat × Int)} (hnet : ∀ j, ∀ i ∈ net.pred j, j ∈ net.desc i) (hn : ∀ j r, 0 ≤ net.need j r) {cur : Nat} {order : List Nat} :
    ∀ {js : List Nat} {st st' : St}, TInv net (constant net.horizon caps) cur order st → (∀ j ∈ js, j ∈ order ∧ j ∉ st.sched.keys) → tryAll net cur js st = .ok st' →
      TInv net (constant net.horizon caps) (cur + 1) order st' ∧
        ((st'.sched = st.sched ∧ ∀ j ∈ js, ready net st cur j = true → ∃ r rs, scanFirst net j cur st.avail = .ok (r :: rs)) ∨
          ∃ j ∈ js, st'.sched = st.sched ++ [(j, (cur, cur + net.dur j))]) := by
  intro js
  induction js with
  | nil => intro st st' h _ e; cases e; exact ⟨h.next, .inl ⟨rfl, by simp⟩⟩
  | cons j js ih =>
    intro st st' h hjs e
    simp only [tryAll] at e
    split at e
    · next hr =>
      split at e
      · cases e
      · next hs =>
        obtain ⟨r1, r2⟩ := (ready_iff h.inv.nodup).mp hr
        obtain ⟨hjo, hnew⟩ := hjs j List.mem_cons_self
        obtain ⟨i1, i2, -⟩ := inv_place hnet h.inv hnew (fun i hi => by
            obtain ⟨s, e, h1, _⟩ := r1 i hi
            exact mem_keys_iff.mpr ⟨_, h1⟩) r2 (by
            intro x hx u a u1 u2 ha h0
            obtain ⟨y, hy, y1, y2, y3⟩ := h.inv.agree.right hx
            obtain ⟨b, b1, b2⟩ := scanFirst_nil hs (by omega) y hy
            simp only [constant, List.mem_map] at hx
            obtain ⟨z, hz, rfl⟩ := hx
            have hlen : u < net.horizon := by
              have := (List.getElem?_eq_some_iff.mp ha).1
              simpa using this
            rw [List.getElem?_replicate, if_pos hlen] at ha
            cases ha
            have hcur := y3 cur z.2 (by rw [List.getElem?_replicate, if_pos (by omega)])
            rw [b1] at hcur
            cases hcur
            have := used_later hn u1 z.1 h.past
            simp only at y1 ⊢
            rw [← y1] at b2
            simp only at b2
            omega) e
        have hk : ∀ k ∈ st'.sched.keys, k ∈ st.sched.keys ∨ k = j := by
          intro k hk
          rw [i2] at hk
          simpa [Dict.keys] using hk
        refine ⟨⟨i1, ?_, ?_, ?_⟩, .inr ⟨j, List.mem_cons_self, i2⟩⟩
        · intro k s e hk
          rw [i2] at hk
          rcases List.mem_append.mp hk with hk | hk
          · exact Nat.lt_succ_of_lt (h.past k s e hk)
          · simp only [List.mem_singleton, Prod.mk.injEq] at hk
            omega
        · rw [i2, List.pairwise_append]
          refine ⟨h.sorted, by simp, ?_⟩
          rintro ⟨k, s, e⟩ hk b hb
          rw [List.mem_singleton.mp hb]
          exact h.past k s e hk
        · intro k hk'
          rcases hk k hk' with h' | rfl
          · exact h.among k h'
          · exact hjo
      · next r rs hs =>
        obtain ⟨g1, g2⟩ := ih (h.withCauses (st.causes ++ (r :: rs).map (fun r => { task := j, res := r, time := cur, users := users net st j r cur }))) (fun k hk => hjs k (List.mem_cons_of_mem _ hk)) e
        refine ⟨g1, ?_⟩
        rcases g2 with ⟨g2, g3⟩ | ⟨k, hk, g2⟩
        · refine .inl ⟨g2, fun k hk hrk => ?_⟩
          rcases List.mem_cons.mp hk with rfl | hk
          · exact ⟨r, rs, hs⟩
          · exact g3 k hk hrk
        · exact .inr ⟨k, List.mem_cons_of_mem _ hk, g2⟩
    · next hr =>
      obtain ⟨g1, g2⟩ := ih h (fun k hk => hjs k (List.mem_cons_of_mem _ hk)) e
      refine ⟨g1, ?_⟩
      rcases g2 with ⟨g2, g3⟩ | ⟨k, hk, g2⟩
      · refine .inl ⟨g2, fun k hk hrk => ?_⟩
        rcases List.mem_cons.mp hk with rfl | hk
        · exact absurd hrk hr
        · exact g3 k hk hrk
      · exact .inr ⟨k, List.mem_cons_of_mem _ hk, g2⟩

theorem tryAll_causes {net : Net} {cur : Nat} : ∀ {js : List Nat} {st st' : St}, tryAll net cur js st = .ok st' → ∀ x ∈ st'.causes, x ∈ st.causes ∨ x.task ∈ js := by
  intro js
  induction js with
  | nil => intro st st' e x hx; cases e; exact .inl hx
  | cons j js ih =>
    intro st st' e x hx
    simp only [tryAll] at e
    split at e
    · split at e
      · cases e
      · simp only [place] at e
        split at e
        · cases e
        · cases e; exact .inl hx
      · rcases ih e x hx with h | h
        · rcases List.mem_append.mp h with h | h
          · exact .inl h
          · obtain ⟨r, _, rfl⟩ := List.mem_map.mp h
            exact .inr List.mem_cons_self
        · exact .inr (List.mem_cons_of_mem _ h)
    · rcases ih e x hx with h | h
      · exact .inl h
      · exact .inr (List.mem_cons_of_mem _ h)

theorem mem_todo {order : List Nat} {st : St} {j : Nat} (h : j ∈ (order.filter (fun t => !st.sched.contains t)).take 10) : j ∈ order ∧ j ∉ st.sched.keys := by
  have := List.mem_of_mem_take h
  rw [List.mem_filter, Bool.not_eq_true', ← Bool.not_eq_true, contains_iff_keys] at this
  exact this

/-- Everything that the loop returns satisfies the invariant. -/
theorem timeLoop_spec {net : Net} {caps : List (Nat × Int)} (hnet : ∀ j, ∀ i ∈ net.pred j, j ∈ net.desc i) (hn : ∀ j r, 0 ≤ net.need j r) {nodes : Nat} {order : List Nat} :
    ∀ {fuel cur : Nat} {st st' : St}, TInv net (constant net.horizon caps) cur order st → timeLoop net nodes order fuel cur st = .ok (some st') →
      nodes ≤ st'.sched.length ∧ ∃ cur', TInv net (constant net.horizon caps) cur' order st' := by
  intro fuel
  induction fuel with
  | zero =>
    intro cur st st' h e
    unfold timeLoop at e
    split at e
    · cases e
    · cases e; exact ⟨by omega, cur, h⟩
  | succ fuel ih =>
    intro cur st st' h e
    unfold timeLoop at e
    split at e
    · dsimp only at e
      split at e
      · cases e
      · next st1 h1 => exact ih (tryAll_spec hnet hn h (fun j hj => mem_todo hj) h1).1 e
    · cases e; exact ⟨by omega, cur, h⟩

theorem tinv_start (net : Net) (cap : Avail) (order : List Nat) : TInv net cap 0 order (start net cap) :=
  ⟨inv_start net cap, by simp [start], by simp [start], by simp [start, Dict.keys]⟩

theorem all_done {order : List Nat} {d : Dict Nat (Nat × Nat)} (hnd : d.keys.Nodup) (hsub : ∀ k ∈ d.keys, k ∈ order) (hlen : order.length ≤ d.length) :
    d.keys.Perm order := by
  have := List.subperm_of_subset hnd hsub
  exact this.perm_of_length_le (by simpa [Dict.keys] using hlen)

/-! ### Enough time -/

/-- At least one unit for each activity. -/
def span (net : Net) (j : Nat) : Nat := max 1 (net.dur j)

theorem total_keys_append (f : Nat → Nat) (d : Dict Nat (Nat × Nat)) (j : Nat) (v : Nat × Nat) : total f (Dict.keys (d ++ [(j, v)])) = total f d.keys + f j := by
  have hk : Dict.keys (d ++ [(j, v)]) = d.keys ++ [j] := by simp [Dict.keys]
  rw [hk, total_append]
  simp [total]

theorem tryAll_total {net : Net} {caps : List (Nat × Int)} {cur : Nat} : ∀ {js : List Nat} {st : St}, Inv net (constant net.horizon caps) st → cur < net.horizon →
    (∀ j ∈ js, cur + net.dur j ≤ net.horizon) → ∃ st', tryAll net cur js st = .ok st' := by
  intro js
  induction js with
  | nil => intro st _ _ _; exact ⟨st, rfl⟩
  | cons j js ih =>
    intro st h hc hj
    simp only [tryAll]
    split
    · obtain ⟨rs, hrs⟩ := scanFirst_total (j := j) hc (avail_length h)
      rw [hrs]
      cases rs with
      | nil =>
        obtain ⟨av, hav⟩ := takeAll_total (hj j List.mem_cons_self) (avail_length h)
        simp only [place, hav]
        exact ⟨_, rfl⟩
      | cons r rs => exact ih (inv_causes h _) hc (fun k hk => hj k (List.mem_cons_of_mem _ hk))
    · exact ih h hc (fun k hk => hj k (List.mem_cons_of_mem _ hk))

/-- The order names the predecessors of an activity before it. -/
def Topological (net : Net) (order : List Nat) : Prop := ∀ l j l', order = l ++ j :: l' → ∀ i ∈ net.pred j, i ∈ l

theorem first_todo {net : Net} {order : List Nat} (ht : Topological net order) {st : St} {k : Nat} (hk : k ∈ order) (hk' : k ∉ st.sched.keys) :
    ∃ f rest, order.filter (fun t => !st.sched.contains t) = f :: rest ∧ ∀ i ∈ net.pred f, i ∈ st.sched.keys := by
  cases hf : order.filter (fun t => !st.sched.contains t) with
  | nil =>
    rw [List.filter_eq_nil_iff] at hf
    have := hf k hk
    rw [Bool.not_eq_true', Bool.not_eq_false] at this
    exact absurd (contains_iff_keys.mp this) hk'
  | cons f rest =>
    refine ⟨f, rest, rfl, fun i hi => ?_⟩
    rw [List.filter_eq_cons_iff] at hf
    obtain ⟨l1, l2, h1, h2, _, _⟩ := hf
    have := h2 i (ht l1 f l2 h1 i hi)
    rw [Bool.not_eq_true', Bool.not_eq_false] at this
    exact contains_iff_keys.mp this

/-- The time that has passed is covered by what was placed. -/
structure Busy (net : Net) (cur : Nat) (st : St) : Prop where
  now : cur ≤ total (span net) st.sched.keys
  ends : ∀ j s e, (j, (s, e)) ∈ st.sched → s + span net j ≤ total (span net) st.sched.keys

theorem busy_step {net : Net} {caps : List (Nat × Int)} (hs : Sound net caps) (hn : ∀ j r, 0 ≤ net.need j r) {order : List Nat} (hord : order.Nodup) (ht : Topological net order)
    (hh : total (span net) order ≤ net.horizon) {cur : Nat} {st : St} (h : TInv net (constant net.horizon caps) cur order st) (hb : Busy net cur st) (hlt : st.sched.length < order.length) :
    ∃ st', tryAll net cur ((order.filter (fun t => !st.sched.contains t)).take 10) st = .ok st' ∧ TInv net (constant net.horizon caps) (cur + 1) order st' ∧ Busy net (cur + 1) st' := by
  have hnot : ∃ k ∈ order, k ∉ st.sched.keys := by
    apply Classical.byContradiction
    intro hcon
    have hall : ∀ k ∈ order, k ∈ st.sched.keys := fun k hk => Classical.byContradiction fun hk' => hcon ⟨k, hk, hk'⟩
    have := (List.subperm_of_subset hord hall).length_le
    simp [Dict.keys] at this
    omega
  have hadd : ∀ k ∈ order, k ∉ st.sched.keys → total (span net) st.sched.keys + span net k ≤ net.horizon := by
    intro k hk hk'
    have hnd : (st.sched.keys ++ [k]).Nodup := by
      rw [List.nodup_append]
      refine ⟨h.inv.nodup, by simp, fun a ha b hb => ?_⟩
      rw [List.mem_singleton] at hb
      rintro rfl
      exact hk' (hb ▸ ha)
    have := total_subset (f := span net) hnd (m := order) (by
      intro x hx
      rcases List.mem_append.mp hx with hx | hx
      · exact h.among x hx
      · rw [List.mem_singleton.mp hx]; exact hk)
    rw [total_append] at this
    have h1 : total (span net) [k] = span net k := by simp [total]
    omega
  have hspan : ∀ k, 1 ≤ span net k ∧ net.dur k ≤ span net k := fun k => ⟨Nat.le_max_left _ _, Nat.le_max_right _ _⟩
  obtain ⟨k, hk, hk'⟩ := hnot
  have hcur : cur < net.horizon := by
    have := hadd k hk hk'
    have := (hspan k).1
    have := hb.now
    omega
  obtain ⟨st', e⟩ := tryAll_total (js := (order.filter (fun t => !st.sched.contains t)).take 10) h.inv hcur (by
    intro j hj
    obtain ⟨j1, j2⟩ := mem_todo hj
    have := hadd j j1 j2
    have := (hspan j).2
    have := hb.now
    omega)
  obtain ⟨t1, t2⟩ := tryAll_spec hs.desc hn h (fun j hj => mem_todo hj) e
  refine ⟨st', e, t1, ?_⟩
  rcases t2 with ⟨t2, t3⟩ | ⟨j, hj, t2⟩
  · rw [show Busy net (cur + 1) st' ↔ Busy net (cur + 1) st from ⟨fun b => ⟨by rw [← t2]; exact b.now, by rw [← t2]; exact b.ends⟩, fun b => ⟨by rw [t2]; exact b.now, by rw [t2]; exact b.ends⟩⟩]
    refine ⟨?_, hb.ends⟩
    apply Classical.byContradiction
    intro hcon
    have hnow := hb.now
    have hidle : ∀ j s e, (j, (s, e)) ∈ st.sched → e ≤ cur := by
      intro j s e hj
      have h1 := hb.ends j s e hj
      have h2 := (h.inv.ends j s e hj).1
      have h3 := (hspan j).2
      omega
    obtain ⟨f, rest, hf, hfp⟩ := first_todo ht hk hk'
    have hfm : f ∈ (order.filter (fun t => !st.sched.contains t)).take 10 := by rw [hf]; simp
    have hready : ready net st cur f = true := by
      rw [ready_iff h.inv.nodup]
      refine ⟨fun i hi => ?_, ?_⟩
      · obtain ⟨⟨s, e⟩, hm⟩ := mem_keys_iff.mp (hfp i hi)
        exact ⟨s, e, hm, hidle i s e hm⟩
      · refine h.inv.least_le f cur ?_ (fun i s e hi _ => hidle i s e hi)
        rcases hs.early f with h0 | ⟨i, hi, h1⟩
        · omega
        · obtain ⟨⟨s, e⟩, hm⟩ := mem_keys_iff.mp (hfp i hi)
          have := h.inv.ends i s e hm
          have := hidle i s e hm
          omega
    obtain ⟨r, rs, hr⟩ := t3 f hfm hready
    rw [scanFirst_free hcur (avail_length h.inv) (by
      intro y hy a ha
      obtain ⟨x, hx, x1, x2, x3⟩ := h.inv.agree.left hy
      simp only [constant, List.mem_map] at hx
      obtain ⟨z, hz, rfl⟩ := hx
      have := x3 cur z.2 (by rw [List.getElem?_replicate, if_pos hcur])
      rw [ha, used_late hidle _ (Nat.le_refl cur)] at this
      cases this
      rw [← x1]
      simpa using hs.enough f z hz)] at hr
    cases hr
  · have hsp := (hspan j).1
    constructor
    · rw [t2, total_keys_append]
      have := hb.now
      omega
    · intro i s e hi
      rw [t2] at hi
      rw [t2, total_keys_append]
      rcases List.mem_append.mp hi with hi | hi
      · have := hb.ends i s e hi; omega
      · simp only [List.mem_singleton, Prod.mk.injEq] at hi
        obtain ⟨rfl, rfl, rfl⟩ := hi
        have := hb.now
        omega

theorem timeLoop_total {net : Net} {caps : List (Nat × Int)} (hs : Sound net caps) (hn : ∀ j r, 0 ≤ net.need j r) {order : List Nat} (hord : order.Nodup) (ht : Topological net order)
    (hh : total (span net) order ≤ net.horizon) : ∀ {fuel cur : Nat} {st : St}, TInv net (constant net.horizon caps) cur order st → Busy net cur st →
    (∀ x ∈ st.causes, x.task ∈ order) → total (span net) order ≤ fuel + cur →
    ∃ st' cur', timeLoop net order.length order fuel cur st = .ok (some st') ∧ Busy net cur' st' ∧ ∀ x ∈ st'.causes, x.task ∈ order := by
  intro fuel
  have full : ∀ {cur : Nat} {st : St}, TInv net (constant net.horizon caps) cur order st → Busy net cur st → st.sched.length < order.length → cur < total (span net) order := by
    intro cur st h hb hlt
    have hsub := List.subperm_of_subset h.inv.nodup h.among
    apply Classical.byContradiction
    intro hcon
    have hnot : ∃ k ∈ order, k ∉ st.sched.keys := by
      apply Classical.byContradiction
      intro hcon
      have hall : ∀ k ∈ order, k ∈ st.sched.keys := fun k hk => Classical.byContradiction fun hk' => hcon ⟨k, hk, hk'⟩
      have := (List.subperm_of_subset hord hall).length_le
      simp [Dict.keys] at this
      omega
    obtain ⟨k, hk, hk'⟩ := hnot
    have hnd : (st.sched.keys ++ [k]).Nodup := by
      rw [List.nodup_append]
      refine ⟨h.inv.nodup, by simp, fun a ha b hb => ?_⟩
      rw [List.mem_singleton] at hb
      rintro rfl
      exact hk' (hb ▸ ha)
    have := total_subset (f := span net) hnd (m := order) (by
      intro x hx
      rcases List.mem_append.mp hx with hx | hx
      · exact h.among x hx
      · rw [List.mem_singleton.mp hx]; exact hk)
    rw [total_append] at this
    have h1 : total (span net) [k] = span net k := by simp [total]
    have h2 : 1 ≤ span net k := Nat.le_max_left _ _
    have := hb.now
    omega
  induction fuel with
  | zero =>
    intro cur st h hb hc hf
    unfold timeLoop
    split
    · next hlt => have := full h hb hlt; omega
    · exact ⟨st, cur, rfl, hb, hc⟩
  | succ fuel ih =>
    intro cur st h hb hc hf
    unfold timeLoop
    split
    · next hlt =>
      obtain ⟨st1, e, h1, b1⟩ := busy_step hs hn hord ht hh h hb hlt
      rw [e]
      refine ih h1 b1 (fun x hx => ?_) (by omega)
      rcases tryAll_causes e x hx with hx | hx
      · exact hc x hx
      · exact (mem_todo hx).1
    · exact ⟨st, cur, rfl, hb, hc⟩

end Verif.CpmSgs
