import Verif.Lemmas.Pile

/-! What the choices of rcpsp_pile.py mean for the schedule. -/
namespace Verif.Pile
variable {p : Project} {D : Nat → Bool} {st : St} {arrange : List Nat → List Nat} {pick : Pick} {better : Nat → Nat → Prop}

/-- What the activities other than `b` need of `r` that started by `t` and did not end before `t` (those that
end at `t` included). -/
def around (p : Project) (sched : Schedule) (b : Nat) (r : String) (t : Nat) : Int :=
  ((sched.filter fun x => x.1 ≠ b ∧ x.2.1 ≤ t ∧ t ≤ x.2.2).map fun x => p.need x.1 r).sum

/-- What the activities other than `b` started until `t` need of `r`. -/
def before (p : Project) (sched : Schedule) (b : Nat) (r : String) (t : Nat) : Int :=
  ((sched.filter fun x => x.1 ≠ b ∧ x.2.1 ≤ t).map fun x => p.need x.1 r).sum

/-- Before the events of `t` and the starts at `t` the activity `b` could not be started. -/
def Late (p : Project) (sched : Schedule) (b t : Nat) : Prop :=
  (∃ c ∈ p.pred b, ∀ s e, (c, (s, e)) ∈ sched → t ≤ e) ∨
  (∃ r ∈ p.resources, r ∉ p.nonRenewable ∧ p.capacity r < around p sched b r t + p.need b r) ∨
  (∃ r ∈ p.resources, r ∈ p.nonRenewable ∧ p.capacity r < before p sched b r t + p.need b r)

/-- Whoever was started after `a` although better could not be started then. -/
def Pref (p : Project) (better : Nat → Nat → Prop) (sched : Schedule) (started : List Nat) : Prop :=
  ∀ l₁ a l₂, started = l₁ ++ a :: l₂ → ∀ b, 1 ≤ b → b ≤ p.count → b ∉ 1 :: l₁ → b ≠ a → better b a →
    ∀ s e, (a, (s, e)) ∈ sched → Late p sched b s

theorem late_append {sched : Schedule} {b t x : Nat} {v : Nat × Nat} (hx : t ≤ v.1) (hv : v.1 ≤ v.2) (hn : ∀ r, 0 ≤ p.need x r)
    (h : Late p sched b t) : Late p (sched ++ [(x, v)]) b t := by
  rcases h with ⟨c, hc, h⟩ | ⟨r, hr, hr', h⟩ | ⟨r, hr, hr', h⟩
  · refine .inl ⟨c, hc, fun s e hm => ?_⟩
    rcases List.mem_append.1 hm with hm | hm
    · exact h s e hm
    · simp only [List.mem_singleton, Prod.mk.injEq] at hm
      obtain ⟨_, rfl⟩ := hm
      simp only at hx hv
      omega
  · refine .inr (.inl ⟨r, hr, hr', ?_⟩)
    rw [around, List.filter_append, List.map_append, List.sum_append]
    rw [around] at h
    have := hn r
    by_cases hc : decide (x ≠ b ∧ v.1 ≤ t ∧ t ≤ v.2) = true
    · simp only [List.filter_cons, hc, if_true, List.filter_nil, List.map_cons, List.map_nil, List.sum_cons, List.sum_nil]
      omega
    · simp only [List.filter_cons, hc, Bool.false_eq_true, if_false, List.filter_nil, List.map_nil, List.sum_nil]
      omega
  · refine .inr (.inr ⟨r, hr, hr', ?_⟩)
    rw [before, List.filter_append, List.map_append, List.sum_append]
    rw [before] at h
    have := hn r
    by_cases hc : decide (x ≠ b ∧ v.1 ≤ t) = true
    · simp only [List.filter_cons, hc, if_true, List.filter_nil, List.map_cons, List.map_nil, List.sum_cons, List.sum_nil]
      omega
    · simp only [List.filter_cons, hc, Bool.false_eq_true, if_false, List.filter_nil, List.map_nil, List.sum_nil]
      omega

theorem Inv.late (h : Inv p D st) (hwf : p.Wf) {b : Nat} (b1 : 1 ≤ b) (b2 : b ≤ p.count) (hb : b ∉ 1 :: st.started)
    (hno : ¬ (b ∈ st.avail ∧ fits p st b = true)) : Late p st.sched b st.time := by
  have hne : ∀ a s e, (a, (s, e)) ∈ st.sched → a ≠ b := by
    rintro a s e hm rfl
    exact hb (List.mem_cons.2 (h.mem.2 ⟨s, e, hm⟩))
  by_cases hav : b ∈ st.avail
  · have : ¬ ∀ r ∈ p.resources, used p st r + p.need b r ≤ p.capacity r := by
      rw [← h.fits_iff]; exact fun hf => hno ⟨hav, hf⟩
    push Not at this
    obtain ⟨r, hr, hlt⟩ := this
    by_cases hn : r ∈ p.nonRenewable
    · refine .inr (.inr ⟨r, hr, hn, ?_⟩)
      rw [used, if_pos hn] at hlt
      have h1 : st.sched.filter (fun x => decide (x.1 ≠ b ∧ x.2.1 ≤ st.time)) = st.sched := by
        apply List.filter_eq_self.2
        rintro ⟨a, s, e⟩ hx
        simp only [decide_eq_true_eq]
        exact ⟨hne a s e hx, (h.entry a s e hx).1⟩
      have h2 : before p st.sched b r st.time = (st.started.map fun a => p.need a r).sum := by
        rw [before, h1]
        have : (st.sched.map fun x => p.need x.1 r) = (st.sched.map (·.1)).map fun a => p.need a r := by rw [List.map_map]; rfl
        rw [this, h.keys]
        simp [hwf.sourceNeed]
      omega
    · refine .inr (.inl ⟨r, hr, hn, ?_⟩)
      rw [used, if_neg hn] at hlt
      have h1 : ((acts st.queue).map fun a => p.need a r).sum ≤ around p st.sched b r st.time := by
        have : around p st.sched b r st.time =
            (((st.sched.filter fun x => x.1 ≠ b ∧ x.2.1 ≤ st.time ∧ st.time ≤ x.2.2).map (·.1)).map fun a => p.need a r).sum := by
          rw [around, List.map_map]; rfl
        rw [this]
        apply sum_le_of_subset _ _ h.heapNodup
        · intro a ha
          obtain ⟨⟨e, a⟩, hx, rfl⟩ := List.mem_map.1 ha
          obtain ⟨_, h2, s, hs⟩ := h.heap e a hx
          refine List.mem_map.2 ⟨(a, (s, e)), List.mem_filter.2 ⟨hs, ?_⟩, rfl⟩
          simp only [decide_eq_true_eq]
          exact ⟨hne a s e hs, (h.entry a s e hs).1, h2⟩
        · intro a ha
          obtain ⟨⟨a, s, e⟩, hx, rfl⟩ := List.mem_map.1 ha
          obtain ⟨h1, h2⟩ := h.inRange hwf (List.mem_filter.1 hx).1
          exact hwf.need a r h1 h2
      omega
  · have : ¬ ∀ c ∈ p.pred b, D c = true := fun hall => hav ((h.wait.avail b).2 ⟨mem_nodes.2 ⟨b1, b2⟩, hb, hall⟩)
    push Not at this
    obtain ⟨c, hc, hD⟩ := this
    refine .inl ⟨c, hc, fun s e hm => ?_⟩
    have hcq : c ∈ acts st.queue := by
      by_contra hcq
      exact hD ((h.ended c).2 ⟨h.mem.2 ⟨s, e, hm⟩, hcq⟩)
    obtain ⟨⟨e', c'⟩, hq', rfl⟩ := List.mem_map.1 hcq
    obtain ⟨_, h2, s', hm'⟩ := h.heap e' c' hq'
    obtain ⟨rfl, rfl⟩ := Prod.mk.inj (h.unique hm hm')
    exact h2

/-- The choice prefers: no other offered activity is better. -/
def Prefers (p : Project) (better : Nat → Nat → Prop) (pick : Pick) : Prop :=
  ∀ started l a, (1 :: started).Nodup → (∀ b ∈ l, 1 ≤ b ∧ b ≤ p.count ∧ b ∉ 1 :: started) → pick started l = .ok a → ∀ b ∈ l, ¬ better b a

theorem begin_pref (h : Inv p D st) (hwf : p.Wf) (hP : Pref p better st.sched st.started) {x : Nat} (hx : x ∈ st.avail)
    (hbest : ∀ b ∈ st.avail, fits p st b = true → ¬ better b x) :
    Pref p better (begin p st x).sched (begin p st x).started := by
  obtain ⟨x1, x2, x3⟩ := (h.wait.avail x).1 hx
  obtain ⟨r1, r2⟩ := mem_nodes.1 x1
  have hk : x ∉ Dict.keys st.sched := by
    show x ∉ st.sched.map (·.1)
    rw [h.keys]; exact x2
  have hs : (Pile.begin p st x).sched = st.sched ++ [(x, (st.time, st.time + p.duration x))] := set_fresh _ hk
  have hst : (Pile.begin p st x).started = st.started ++ [x] := rfl
  rw [hs, hst]
  have happ : ∀ {b t}, t ≤ st.time → Late p st.sched b t → Late p (st.sched ++ [(x, (st.time, st.time + p.duration x))]) b t :=
    fun ht h => late_append (v := (st.time, st.time + p.duration x)) ht (Nat.le_add_right _ _) (fun r => hwf.need x r r1 r2) h
  have hfresh : ∀ s e, (x, (s, e)) ∉ st.sched := fun s e hm => x2 (List.mem_cons.2 (h.mem.2 ⟨s, e, hm⟩))
  have hlast : ∀ b, 1 ≤ b → b ≤ p.count → b ∉ 1 :: st.started → better b x → ∀ s e,
      (x, (s, e)) ∈ st.sched ++ [(x, (st.time, st.time + p.duration x))] →
      Late p (st.sched ++ [(x, (st.time, st.time + p.duration x))]) b s := by
    intro b b1 b2 hb hbet s e hm
    rcases List.mem_append.1 hm with hm | hm
    · exact absurd hm (hfresh s e)
    · simp only [List.mem_singleton, Prod.mk.injEq, true_and] at hm
      obtain ⟨rfl, rfl⟩ := hm
      exact happ (le_refl _) (h.late hwf b1 b2 hb fun hh => hbest b hh.1 hh.2 hbet)
  intro l₁ a l₂ hl b b1 b2 hb hne hbet s e hm
  rcases List.append_eq_append_iff.1 hl with ⟨l, h1, h2⟩ | ⟨l, h1, h2⟩
  · cases l with
    | nil =>
      obtain ⟨rfl, _⟩ := List.cons.inj h2
      rw [h1, List.append_nil] at hb
      exact hlast b b1 b2 hb hbet s e hm
    | cons y l =>
      have := congrArg List.length h2
      simp at this
  · cases l with
    | nil =>
      obtain ⟨rfl, _⟩ := List.cons.inj h2
      rw [List.append_nil] at h1
      rw [← h1] at hb
      exact hlast b b1 b2 hb hbet s e hm
    | cons y l =>
      obtain ⟨rfl, _⟩ := List.cons.inj h2
      have ha : a ∈ st.started := by rw [h1]; simp
      rcases List.mem_append.1 hm with hm | hm
      · exact happ (h.entry a s e hm).1 (hP l₁ a l h1 b b1 b2 hb hne hbet s e hm)
      · simp only [List.mem_singleton, Prod.mk.injEq] at hm
        rw [hm.1] at ha
        exact absurd (List.mem_cons_of_mem _ ha) x2

theorem fill_pref (hwf : p.Wf) (harr : ∀ l, (arrange l).Perm l) (hpick : Sound pick) (hbest : Prefers p better pick) (n : Nat) (st st' : St)
    (h : Inv p D st) (hP : Pref p better st.sched st.started) (hst : fill p arrange pick n st = .ok st') : Pref p better st'.sched st'.started := by
  induction n generalizing st with
  | zero =>
    rw [fill] at hst
    split at hst
    · obtain rfl := Except.ok.inj hst
      exact hP
    · obtain rfl := Except.ok.inj hst
      exact hP
  | succ n ih =>
    rw [fill] at hst
    split at hst
    · obtain rfl := Except.ok.inj hst
      exact hP
    · rename_i x l hl
      obtain ⟨a, h1, h2⟩ := bind_eq_ok.1 hst
      have hmem : ∀ a, a ∈ x :: l ↔ a ∈ st.avail ∧ fits p st a = true := by
        intro a
        rw [← hl, List.mem_filter, (harr st.avail).mem_iff]
      obtain ⟨hav, hf⟩ := (hmem a).1 (hpick _ _ _ h1)
      refine ih _ (h.begin hwf hav hf) (begin_pref h hwf hP hav fun b hb hfb => ?_) h2
      refine hbest _ _ _ h.nodup (fun c hc => ?_) h1 b ((hmem b).2 ⟨hb, hfb⟩)
      obtain ⟨c1, c2, _⟩ := (h.wait.avail c).1 ((hmem c).1 hc).1
      exact ⟨(mem_nodes.1 c1).1, (mem_nodes.1 c1).2, c2⟩

theorem loop_pref (hwf : p.Wf) (harr : ∀ l, (arrange l).Perm l) (hpick : Sound pick) (hbest : Prefers p better pick) (n : Nat) (st st' : St)
    (h : Inv p D st) (hP : Pref p better st.sched st.started) (hst : loop p arrange pick n st = .ok (some st')) :
    Pref p better st'.sched st'.started := by
  induction n generalizing st D with
  | zero =>
    rw [loop] at hst
    split at hst
    · cases hst
    · obtain rfl := Option.some.inj (Except.ok.inj hst)
      exact hP
  | succ n ih =>
    rw [loop] at hst
    split at hst
    · obtain ⟨st1, h1, h2⟩ := bind_eq_ok.1 hst
      obtain ⟨st2, h3, h4⟩ := bind_eq_ok.1 h2
      obtain ⟨i1, i2, _⟩ := fill_inv hwf harr hpick _ _ _ h (le_refl _) h1
      obtain ⟨⟨D', i3⟩, _, i5, i6⟩ := i1.advance hwf i2 h3
      refine ih _ i3 ?_ h4
      rw [i5, i6]
      exact fill_pref hwf harr hpick hbest _ _ _ h hP h1
    · obtain rfl := Option.some.inj (Except.ok.inj hst)
      exact hP

/-! ### The rules -/

theorem maxBy_spec (key : Nat → Nat) (x : Nat) (l : List Nat) : maxBy key x l ∈ x :: l ∧ ∀ y ∈ x :: l, key y ≤ key (maxBy key x l) := by
  induction l generalizing x with
  | nil => simp [maxBy]
  | cons y l ih =>
    obtain ⟨h1, h2⟩ := ih (if key x < key y then y else x)
    have he : maxBy key x (y :: l) = maxBy key (if key x < key y then y else x) l := rfl
    rw [he]
    constructor
    · rcases List.mem_cons.1 h1 with h | h
      · rw [h]; split <;> simp
      · simp [h]
    · have h0 := h2 _ List.mem_cons_self
      intro z hz
      simp only [List.mem_cons] at hz
      rcases hz with rfl | rfl | hz
      · refine le_trans ?_ h0; split <;> omega
      · refine le_trans ?_ h0; split <;> omega
      · exact h2 z (List.mem_cons_of_mem _ hz)

theorem minBy_spec (key : Nat → Nat) (x : Nat) (l : List Nat) : minBy key x l ∈ x :: l ∧ ∀ y ∈ x :: l, key (minBy key x l) ≤ key y := by
  induction l generalizing x with
  | nil => simp [minBy]
  | cons y l ih =>
    obtain ⟨h1, h2⟩ := ih (if key y < key x then y else x)
    have he : minBy key x (y :: l) = minBy key (if key y < key x then y else x) l := rfl
    rw [he]
    constructor
    · rcases List.mem_cons.1 h1 with h | h
      · rw [h]; split <;> simp
      · simp [h]
    · have h0 := h2 _ List.mem_cons_self
      intro z hz
      simp only [List.mem_cons] at hz
      rcases hz with rfl | rfl | hz
      · refine le_trans h0 ?_; split <;> omega
      · refine le_trans h0 ?_; split <;> omega
      · exact h2 z (List.mem_cons_of_mem _ hz)

theorem getElem!_mod_mem (l : List Nat) (h : l ≠ []) (d : Nat) : l[d % l.length]! ∈ l := by
  have : d % l.length < l.length := Nat.mod_lt _ (List.length_pos_iff.2 h)
  rw [getElem!_pos l _ this]
  exact List.getElem_mem _

theorem choose_sound (rule : Rule) (draw : Nat) {l : List Nat} {a : Nat} (h : choose p rule draw l = .ok a) : a ∈ l := by
  cases l with
  | nil => cases h
  | cons x l =>
    cases rule with
    | mostSuccessors => obtain rfl := Except.ok.inj h; exact (maxBy_spec _ _ _).1
    | fastest => obtain rfl := Except.ok.inj h; exact (minBy_spec _ _ _).1
    | totallyRandom => obtain rfl := Except.ok.inj h; exact getElem!_mod_mem _ (by simp) _
    | sampleMostSuccessors =>
      obtain rfl := Except.ok.inj h
      split
      · exact getElem!_mod_mem _ (by simp) _
      · rename_i hne
        exact (List.mem_filter.1 (getElem!_mod_mem _ hne _)).1

theorem choose_ok (rule : Rule) (draw : Nat) {l : List Nat} (h : l ≠ []) : ∃ a, choose p rule draw l = .ok a := by
  cases l with
  | nil => exact absurd rfl h
  | cons x l => cases rule <;> exact ⟨_, rfl⟩

/-! ### The priority list -/

theorem mem_foldl_erase (s l : List Nat) (a : Nat) (ha : a ∉ s) : a ∈ s.foldl List.erase l ↔ a ∈ l := by
  induction s generalizing l with
  | nil => rfl
  | cons x s ih =>
    simp only [List.mem_cons, not_or] at ha
    rw [List.foldl_cons, ih _ ha.2, List.mem_erase_of_ne ha.1]

theorem foldl_erase_sublist (s l : List Nat) : (s.foldl List.erase l).Sublist l := by
  induction s generalizing l with
  | nil => exact List.Sublist.refl _
  | cons x s ih => exact (ih _).trans List.erase_sublist

/-- In a part of a list without repetitions the order is the same. -/
theorem idxOf_sublist {l l' : List Nat} (h : l'.Sublist l) (hn : l.Nodup) {a b : Nat} (ha : a ∈ l') (hb : b ∈ l') :
    l.idxOf b < l.idxOf a → l'.idxOf b < l'.idxOf a := by
  induction h with
  | slnil => cases ha
  | @cons l₁ l₂ x h ih =>
    obtain ⟨hx, hn⟩ := List.nodup_cons.1 hn
    have h1 : x ≠ a := by rintro rfl; exact hx (h.subset ha)
    have h2 : x ≠ b := by rintro rfl; exact hx (h.subset hb)
    rw [List.idxOf_cons_ne _ h1, List.idxOf_cons_ne _ h2]
    intro hlt
    exact ih hn ha hb (by omega)
  | @cons_cons l₁ l₂ x h ih =>
    obtain ⟨hx, hn⟩ := List.nodup_cons.1 hn
    by_cases h1 : x = a
    · subst h1; simp
    · by_cases h2 : x = b
      · subst h2
        intro _
        rw [List.idxOf_cons_self, List.idxOf_cons_ne _ h1]; omega
      · rw [List.idxOf_cons_ne _ h1, List.idxOf_cons_ne _ h2, List.idxOf_cons_ne _ h1, List.idxOf_cons_ne _ h2]
        intro hlt
        have := ih hn ((List.mem_cons.1 ha).resolve_left fun e => h1 e.symm) ((List.mem_cons.1 hb).resolve_left fun e => h2 e.symm) (by omega)
        omega

theorem byPriority_sound (perm : List Nat) : Sound (byPriority perm) := by
  intro started l a h
  cases l with
  | nil => cases h
  | cons x l =>
    rw [byPriority] at h
    split at h
    · obtain rfl := Except.ok.inj h
      exact (minBy_spec _ _ _).1
    · cases h

theorem byPriority_prefers (perm : List Nat) (hn : perm.Nodup) :
    Prefers p (fun b a => perm.idxOf b < perm.idxOf a) (byPriority perm) := by
  intro started l a hnd hl h
  cases l with
  | nil => cases h
  | cons x l =>
    have hs := byPriority_sound perm _ _ _ h
    rw [byPriority] at h
    split at h
    · rename_i hall
      have ha := Except.ok.inj h
      intro b hb hlt
      have hmem : ∀ c ∈ x :: l, c ∈ remaining perm started := fun c hc => by
        have := List.all_eq_true.1 hall c hc
        simpa using this
      have hsub : (remaining perm started).Sublist perm := (foldl_erase_sublist _ _).trans List.erase_sublist
      have h1 := idxOf_sublist hsub hn (hmem a hs) (hmem b hb) hlt
      have h2 := (minBy_spec (remaining perm started).idxOf x l).2 b hb
      rw [ha] at h2
      omega
    · cases h

theorem byPriority_total (perm : List Nat) (hall : ∀ n, 2 ≤ n → n ≤ p.count → n ∈ perm) : Total p (byPriority perm) := by
  intro started l hne hnd hl
  cases l with
  | nil => exact absurd rfl hne
  | cons x l =>
    rw [byPriority]
    rw [if_pos]
    · exact ⟨_, rfl⟩
    · rw [List.all_eq_true]
      intro c hc
      obtain ⟨c1, c2, c3⟩ := hl c hc
      simp only [List.mem_cons, not_or] at c3
      simp only [decide_eq_true_eq]
      rw [remaining, mem_foldl_erase _ _ _ c3.2, List.mem_erase_of_ne c3.1]
      exact hall c (by omega) c2

/-! ### The results -/

theorem loop_started {Q : Nat → Prop} (hQ : ∀ started l a, pick started l = .ok a → Q a) (n : Nat) (st st' : St)
    (h : ∀ a ∈ st.started, Q a) (hst : loop p arrange pick n st = .ok (some st')) : ∀ a ∈ st'.started, Q a := by
  have hfill : ∀ n st st', (∀ a ∈ st.started, Q a) → fill p arrange pick n st = .ok st' → ∀ a ∈ st'.started, Q a := by
    intro n
    induction n with
    | zero =>
      intro st st' h hst
      rw [fill] at hst
      split at hst <;> (obtain rfl := Except.ok.inj hst; exact h)
    | succ n ih =>
      intro st st' h hst
      rw [fill] at hst
      split at hst
      · obtain rfl := Except.ok.inj hst; exact h
      · obtain ⟨a, h1, h2⟩ := bind_eq_ok.1 hst
        refine ih _ _ (fun b hb => ?_) h2
        rcases List.mem_append.1 hb with hb | hb
        · exact h b hb
        · rw [List.mem_singleton.1 hb]; exact hQ _ _ _ h1
  induction n generalizing st with
  | zero =>
    rw [loop] at hst
    split at hst
    · cases hst
    · obtain rfl := Option.some.inj (Except.ok.inj hst); exact h
  | succ n ih =>
    rw [loop] at hst
    split at hst
    · obtain ⟨st1, h1, h2⟩ := bind_eq_ok.1 hst
      obtain ⟨st2, h3, h4⟩ := bind_eq_ok.1 h2
      refine ih _ ?_ h4
      have := hfill _ _ _ h h1
      rw [Pile.advance] at h3
      split at h3
      · cases h3
      · obtain rfl := Except.ok.inj h3
        exact this
    · obtain rfl := Option.some.inj (Except.ok.inj hst); exact h

theorem remaining_nil {perm started : List Nat} (hn : perm.Nodup) (h : ∀ a ∈ perm, a = 1 ∨ a ∈ started) : remaining perm started = [] := by
  rw [remaining, ← List.diff_eq_foldl]
  apply List.eq_nil_iff_forall_not_mem.2
  intro a ha
  rw [(hn.erase 1).mem_sdiff_iff, hn.mem_erase_iff] at ha
  rcases h a ha.1.2 with h | h
  · exact ha.1.1 h
  · exact ha.2 h

/-- Everything is scheduled at the end. -/
theorem Core.complete (h : Core p D st) (hlen : p.count ≤ st.sched.length) : ∀ n, 1 ≤ n → n ≤ p.count → n = 1 ∨ n ∈ st.started := by
  intro n n1 n2
  by_contra hno
  have h1 : st.sched.length = (1 :: st.started).length := by
    have := congrArg List.length h.keys; simpa using this
  have h2 : (n :: 1 :: st.started).length ≤ (nodes p).length := by
    refine (List.Nodup.subperm (List.nodup_cons.2 ⟨fun hm => hno (List.mem_cons.1 hm), h.nodup⟩) fun a ha => ?_).length_le
    simp only [List.mem_cons] at ha
    rcases ha with rfl | rfl | ha
    · exact mem_nodes.2 ⟨n1, n2⟩
    · exact mem_nodes.2 ⟨le_refl 1, by omega⟩
    · exact mem_nodes.2 (h.range a ha)
  simp only [nodes, List.length_range', List.length_cons] at h2 h1
  omega

theorem Inv.pref (h : Inv p D st) (hwf : p.Wf) (hP : Pref p better st.sched st.started) {a b s e s' e' : Nat} (ha : (a, (s, e)) ∈ st.sched)
    (hb : (b, (s', e')) ∈ st.sched) (hlt : s < s') (ha1 : a ≠ 1) (hbet : better b a) :
    (∃ c ∈ p.pred b, ∃ u v, (c, (u, v)) ∈ st.sched ∧ s ≤ v) ∨
    (∃ r ∈ p.resources, r ∉ p.nonRenewable ∧ p.capacity r < around p st.sched b r s + p.need b r) ∨
    (∃ r ∈ p.resources, r ∈ p.nonRenewable ∧ p.capacity r < before p st.sched b r s + p.need b r) := by
  have hast : a ∈ st.started := (h.mem.2 ⟨s, e, ha⟩).resolve_left ha1
  obtain ⟨l₁, l₂, hl⟩ := List.append_of_mem hast
  obtain ⟨b1, b2⟩ := h.inRange hwf hb
  have hbl : b ∉ 1 :: l₁ := by
    intro hbm
    have hm := h.mono
    -- b comes before a in the schedule
    have hk : st.sched.map (·.1) = (1 :: l₁) ++ a :: l₂ := by rw [h.keys, hl]; rfl
    obtain ⟨q₁, q₂, hq, hq1, hq2⟩ := List.map_eq_append_iff.1 hk
    rw [hq] at hm
    rw [List.pairwise_append] at hm
    rw [← hq1] at hbm
    obtain ⟨⟨b', u, v⟩, hx, hbeq⟩ := List.mem_map.1 hbm
    simp only at hbeq
    subst hbeq
    have hxa : (a, (s, e)) ∈ q₂ := by
      have ha' := ha
      have hnd := h.nodup
      rw [hq] at ha'
      rcases List.mem_append.1 ha' with h' | h'
      · exfalso
        have hin : a ∈ 1 :: l₁ := by rw [← hq1]; exact List.mem_map.2 ⟨_, h', rfl⟩
        rw [hl, ← List.cons_append] at hnd
        exact (List.nodup_append.1 hnd).2.2 a hin a (by simp) rfl
      · exact h'
    have hle := hm.2.2 _ hx _ hxa
    have : (u, v) = (s', e') := h.unique (by rw [hq]; exact List.mem_append.2 (.inl hx)) hb
    obtain ⟨rfl, rfl⟩ := Prod.mk.inj this
    simp only at hle
    omega
  have hne : b ≠ a := by
    rintro rfl
    obtain ⟨rfl, rfl⟩ := Prod.mk.inj (h.unique ha hb)
    omega
  rcases hP l₁ a l₂ hl b b1 b2 hbl hne hbet s e ha with ⟨c, hc, hcs⟩ | h' | h'
  · obtain ⟨u, v, hm, _⟩ := h.prec b s' e' hb c hc
    exact .inl ⟨c, hc, u, v, hm, hcs u v hm⟩
  · exact .inr (.inl h')
  · exact .inr (.inr h')

end Verif.Pile
