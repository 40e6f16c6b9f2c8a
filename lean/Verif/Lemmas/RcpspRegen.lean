import Verif.Lemmas.RcpspTotal
import Verif.Lemmas.Pile
/- Schedule generation in the order of a schedule that exists already. -/
namespace Verif.Rcpsp

theorem drain_flag (n : Int) : ∀ (k tt : Nat) (row row' : List Int) (f : Bool), drain n k tt row f = .ok (row', true) →
    f = true ∨ ∃ (j : Nat) (a : Int), tt ≤ j ∧ j < tt + k ∧ row'[j]? = some a ∧ a < 0 := by
  intro k
  induction k with
  | zero => intro tt row row' f h; cases h; exact .inl rfl
  | succ k ih =>
    intro tt row row' f h
    simp only [drain] at h
    obtain ⟨a, ha, h⟩ := bind_eq_ok.1 h
    obtain ⟨row1, hr, h⟩ := bind_eq_ok.1 h
    obtain ⟨hlt, rfl⟩ := pySet_ok_iff.1 hr
    rcases ih _ _ _ _ h with g | ⟨j, a', h1, h2, h3, h4⟩
    · simp only [Bool.or_eq_true, decide_eq_true_eq] at g
      rcases g with g | g
      · exact .inl g
      · right
        obtain ⟨_, h2, _⟩ := drain_spec _ _ _ _ _ _ _ h
        refine ⟨tt, a - n, Nat.le_refl _, by omega, ?_, g⟩
        rw [h2 tt, List.getElem?_set_self hlt, if_neg (by omega)]
        simp
    · exact .inr ⟨j, a', by omega, by omega, h3, h4⟩

theorem bookRow_flag {nr : Bool} {H endT t : Nat} {n : Int} {row row' : List Int} {f : Bool} (h : bookRow nr H endT t n row f = .ok (row', true)) :
    f = true ∨ (nr = true ∧ t = endT ∧ ∃ (j : Nat) (a : Int), endT < j ∧ j < H ∧ row'[j]? = some a ∧ a < 0) := by
  simp only [bookRow] at h
  obtain ⟨a, ha, h⟩ := bind_eq_ok.1 h
  obtain ⟨row1, hr, h⟩ := bind_eq_ok.1 h
  split at h
  · rename_i hc
    simp only [Bool.and_eq_true, decide_eq_true_eq] at hc
    rcases drain_flag _ _ _ _ _ _ h with g | ⟨j, a, h1, h2, h3, h4⟩
    · exact .inl g
    · exact .inr ⟨hc.1, hc.2, j, a, by omega, by omega, h3, h4⟩
  · cases h; exact .inl rfl

theorem bookRes_flag {pb : Problem} {H endT t : Nat} {m : Mode} : ∀ {rows rows' : Dict String (List Int)} {f : Bool},
    bookRes pb H endT t m rows f = .ok (rows', true) → f = true ∨ (t = endT ∧ ∃ p ∈ rows', pb.nonRenewable.contains p.1 = true ∧
      ∃ (j : Nat) (a : Int), endT < j ∧ j < H ∧ p.2[j]? = some a ∧ a < 0) := by
  intro rows
  induction rows with
  | nil => intro rows' f h; cases h; exact .inl rfl
  | cons p rows ih =>
    intro rows' f h
    obtain ⟨res, row⟩ := p
    simp only [bookRes] at h
    obtain ⟨n, hn, h⟩ := bind_eq_ok.1 h
    obtain ⟨⟨r1, r2⟩, hr, h⟩ := bind_eq_ok.1 h
    obtain ⟨⟨q1, q2⟩, hq, h⟩ := bind_eq_ok.1 h
    cases h
    rcases ih hq with g | ⟨g1, p, g2, g3⟩
    · rw [show r2 = true from g] at hr
      rcases bookRow_flag hr with g | ⟨h1, h2, h3⟩
      · exact .inl g
      · exact .inr ⟨h2, _, List.mem_cons_self, h1, h3⟩
    · exact .inr ⟨g1, p, List.mem_cons_of_mem _ g2, g3⟩

theorem bookWindow_flag {pb : Problem} {H endT : Nat} {m : Mode} : ∀ {k t : Nat} {rows rows' : Dict String (List Int)} {f : Bool},
    t + k = endT + 1 → bookWindow pb H endT m k t rows f = .ok (rows', true) → f = true ∨ ∃ p ∈ rows', pb.nonRenewable.contains p.1 = true ∧
      ∃ (j : Nat) (a : Int), endT < j ∧ j < H ∧ p.2[j]? = some a ∧ a < 0 := by
  intro k
  induction k with
  | zero => intro t rows rows' f _ h; cases h; exact .inl rfl
  | succ k ih =>
    intro t rows rows' f ht h
    simp only [bookWindow] at h
    obtain ⟨⟨r1, r2⟩, hr, h⟩ := bind_eq_ok.1 h
    rcases ih (by omega) h with g | g
    · rw [show r2 = true from g] at hr h
      rcases bookRes_flag hr with g | ⟨h1, h2⟩
      · exact .inl g
      · have : k = 0 := by omega
        subst this
        cases h
        exact .inr h2
    · exact .inr g

/-- One round on a well-formed instance, with the activity that is picked. -/
theorem step_pick {base : Nat → Nat} {pb : Problem} {ext E : List Nat} (hres : pb.resources.keys.Nodup) {st : St} (inv : Inv pb base ext E st)
    (hflag : st.flag = false) (hne : st.perm ≠ []) (wf : Wf pb E ext) (hkeys : st.minStart.keys = pb.successors.keys) :
    ∃ b m v c f, b ∈ st.perm ∧ pick pb.successors st.perm = some b ∧ details pb ext b = .ok m ∧ st.minStart.get? b = some v ∧
      search pb.newHorizon m st.rows pb.newHorizon v false = .ok (c, f) ∧
      (f = true ∨
       (f = false ∧ ∃ st', step pb ext st = .ok st' ∧ st'.ends = st.ends.set b (c + m.duration) ∧ st'.minStart.keys = pb.successors.keys ∧
        (st'.flag = true → ∃ p ∈ st'.rows, pb.nonRenewable.contains p.1 = true ∧ ∃ (j : Nat) (a : Int), j < pb.newHorizon ∧ p.2[j]? = some a ∧ a < 0))) := by
  obtain ⟨b, hb, hpick⟩ := pick_some hne wf.acyclic
  have hbE : b ∈ E := by rw [inv.perm] at hb; exact (List.mem_filter.1 hb).1
  obtain ⟨m, hm, hneeds⟩ := wf.modes b hbE
  obtain ⟨ss, hss, hsub⟩ := wf.succs b hbE
  have hbk : b ∈ st.minStart.keys := by
    rw [hkeys]; exact (Dict.get?_isSome_iff_mem_keys _ _).1 (by rw [hss]; rfl)
  obtain ⟨v, hv⟩ := Option.isSome_iff_exists.1 ((Dict.get?_isSome_iff_mem_keys _ _).2 hbk)
  have hsup := supplied_of_inv hres inv wf hneeds
  obtain ⟨⟨c, f⟩, hs⟩ := search_ok pb.newHorizon m st.rows hsup v false
  refine ⟨b, m, v, c, f, hb, hpick, hm, hv, hs, ?_⟩
  have hstep : step pb ext st = if f then .ok { st with flag := true, prev := some b } else place pb b m c st := by
    simp only [step, hpick, pickStale, bind_ok, dict_get_ok.2 hv, hm, hflag, hs]
  cases f with
  | true => exact .inl rfl
  | false =>
    right
    refine ⟨rfl, ?_⟩
    rw [hstep, if_neg (by simp)]
    obtain ⟨_, _, _, s4⟩ := search_spec _ _ _ _ _ _ _ _ hs
    obtain ⟨rows', f', h1, h2⟩ := bookWindow_ok pb pb.newHorizon (c + m.duration - 1) m m.duration c st.rows false hsup (s4 rfl).2
    obtain ⟨ms', hms⟩ := bump_ok (c + m.duration) ss st.minStart (by rw [hkeys]; exact hsub)
    have hrem : pyRemove st.perm b = .ok (st.perm.erase b) := by simp [pyRemove, hb]
    refine ⟨_, by simp only [place, h1, bind_ok, hrem, dict_get_ok.2 hss, hms]; rfl, rfl, ?_, ?_⟩
    · exact (bump_spec _ _ _ _ hms).1.trans hkeys
    · intro hf
      simp only at hf
      subst hf
      by_cases h0 : m.duration = 0
      · rw [h0] at h1
        cases h1
      · rcases bookWindow_flag (by omega) h1 with g | ⟨p, g1, g2, j, a, _, g4, g5⟩
        · cases g
        · exact ⟨p, g1, g2, j, a, g4, g5⟩

/-- The requirements `need` for a resource keep within its capacity in the schedule with starts `S`. -/
structure Room (pb : Problem) (ext E : List Nat) (S : Nat → Nat) (res : String) (cap : Capacity) (need : Nat → Int) : Prop where
  isNeed : IsNeed pb ext res need
  pos : ∀ a ∈ E, 0 ≤ need a
  all : pb.nonRenewable.contains res = true → ∀ t < pb.newHorizon, ∀ c, capOf cap t = some c →
    total need (E.filter (fun a => decide (0 < dur pb ext a))) ≤ c
  now : pb.nonRenewable.contains res = false → ∀ t < pb.newHorizon, ∀ c, capOf cap t = some c →
    total need (E.filter (fun a => decide (S a ≤ t ∧ t < S a + dur pb ext a))) ≤ c

/-- A schedule: the activities `E` in the order of their starts `S`, in their modes and within the resources and the horizon. -/
structure Target (pb : Problem) (ext E : List Nat) (S : Nat → Nat) : Prop where
  inside : ∀ a ∈ E, S a + dur pb ext a ≤ pb.newHorizon
  prec : ∀ a ss, (a, ss) ∈ pb.successors → ∀ b ∈ ss, a ∈ E → b ∈ E → S a + dur pb ext a ≤ S b
  order : E.Pairwise (fun a b => S a ≤ S b)
  room : ∀ res cap, pb.resources.get? res = some cap → ∃ need, Room pb ext E S res cap need

/-- The activity picked is a first one among those not placed. -/
theorem picked_first {pb : Problem} {ext E : List Nat} {S : Nat → Nat} {pre : Dict Nat Nat} {y : Nat} (tg : Target pb ext E S)
    (hac : ∃ rank : Nat → Nat, ∀ a ss, (a, ss) ∈ pb.successors → ∀ b ∈ ss, rank a < rank b)
    (h : ∃ l1 l2, E = l1 ++ y :: l2 ∧ Ready pb E pre.keys y ∧ ∀ x ∈ l1, x ∉ pre.keys → ¬ Ready pb E pre.keys x) :
    ∀ z ∈ E, z ∉ pre.keys → S y ≤ S z := by
  intro z hz hzp
  apply Nat.le_of_not_lt
  intro hlt
  obtain ⟨rank, hr⟩ := hac
  obtain ⟨l1, l2, hE, _, hl1⟩ := h
  have hmemf : ∀ x, x ∈ E.filter (fun x => !pre.keys.contains x && decide (S x ≤ S z)) ↔ x ∈ E ∧ x ∉ pre.keys ∧ S x ≤ S z := by
    intro x; simp [List.mem_filter]
  obtain ⟨x, hx, hmin⟩ := exists_min rank (E.filter (fun x => !pre.keys.contains x && decide (S x ≤ S z)))
    (List.ne_nil_of_mem ((hmemf z).2 ⟨hz, hzp, Nat.le_refl _⟩))
  obtain ⟨x1, x2, x3⟩ := (hmemf x).1 hx
  have hready : Ready pb E pre.keys x := by
    intro a ss hm hxs ha
    apply Classical.byContradiction
    intro hap
    have := tg.prec a ss hm x hxs ha x1
    have := hmin a ((hmemf a).2 ⟨ha, hap, by omega⟩)
    have := hr a ss hm x hxs
    omega
  have hord := tg.order
  rw [hE, List.pairwise_append] at hord
  have : x ∈ l1 := by
    rw [hE] at x1
    rcases List.mem_append.1 x1 with g | g
    · exact g
    · rcases List.mem_cons.1 g with rfl | g
      · omega
      · have := (List.pairwise_cons.1 hord.2.1).1 x g
        omega
  exact hl1 x this x2 hready

/-- What is charged at time `t`, as a sum over the activities placed. -/
theorem used_placed (pb : Problem) (ext : List Nat) (nr : Bool) (need : Nat → Int) (ends : Dict Nat Nat) (t : Int) :
    used nr need (placed pb ext ends) t =
      (((ends.filter (fun p => charged nr ((p.2 : Int) - dur pb ext p.1) p.2 t)).map (·.1)).map need).sum := by
  unfold used placed
  induction ends with
  | nil => rfl
  | cons p ends ih =>
    simp only [List.map_cons, List.sum_cons, ih, List.filter_cons]
    by_cases h : charged nr ((p.2 : Int) - dur pb ext p.1) p.2 t = true
    · rw [if_pos h, if_pos h]; simp
    · rw [if_neg h, if_neg h]; omega

/-- What is charged is no more than what the activities of a list need that contains those charged. -/
theorem used_le {pb : Problem} {ext : List Nat} {nr : Bool} {need : Nat → Int} {ends : Dict Nat Nat} {t : Int} (hn : ends.keys.Nodup) (l : List Nat)
    (hl : ∀ a e, (a, e) ∈ ends → charged nr ((e : Int) - dur pb ext a) e t = true → a ∈ l) (hpos : ∀ a ∈ l, 0 ≤ need a) :
    used nr need (placed pb ext ends) t ≤ total need l := by
  rw [used_placed]
  apply Verif.Pile.sum_le_of_subset
  · exact List.Nodup.sublist (List.Sublist.map (fun p : Nat × Nat => p.1) List.filter_sublist) hn
  · intro x hx
    obtain ⟨p, hp, rfl⟩ := List.mem_map.1 hx
    obtain ⟨h1, h2⟩ := List.mem_filter.1 hp
    exact hl p.1 p.2 h1 h2
  · exact hpos

/-- The same with one activity more. -/
theorem used_add_le {pb : Problem} {ext : List Nat} {nr : Bool} {need : Nat → Int} {ends : Dict Nat Nat} {t : Int} (hn : ends.keys.Nodup) (l : List Nat)
    {b : Nat} (hb : b ∉ ends.keys) (hbl : b ∈ l)
    (hl : ∀ a e, (a, e) ∈ ends → charged nr ((e : Int) - dur pb ext a) e t = true → a ∈ l) (hpos : ∀ a ∈ l, 0 ≤ need a) :
    used nr need (placed pb ext ends) t + need b ≤ total need l := by
  rw [used_placed, Int.add_comm]
  have := Verif.Pile.sum_le_of_subset (f := need) (b :: (ends.filter (fun p => charged nr ((p.2 : Int) - dur pb ext p.1) p.2 t)).map (·.1)) l ?_ ?_ hpos
  · simpa [total] using this
  · rw [List.nodup_cons]
    refine ⟨fun h => hb ?_, List.Nodup.sublist (List.Sublist.map (fun p : Nat × Nat => p.1) List.filter_sublist) hn⟩
    obtain ⟨p, hp, rfl⟩ := List.mem_map.1 h
    exact List.mem_map.2 ⟨p, (List.mem_filter.1 hp).1, rfl⟩
  · intro x hx
    rcases List.mem_cons.1 hx with rfl | hx
    · exact hbl
    · obtain ⟨p, hp, rfl⟩ := List.mem_map.1 hx
      obtain ⟨h1, h2⟩ := List.mem_filter.1 hp
      exact hl p.1 p.2 h1 h2

/-- While nothing is placed later than in the schedule given, the next activity fits where the schedule has it. -/
theorem fits_target {pb : Problem} {ext E : List Nat} {S : Nat → Nat} (tg : Target pb ext E S) {ends : Dict Nat Nat} (hn : ends.keys.Nodup)
    (hsub : ∀ a ∈ ends.keys, a ∈ E) (hle : ∀ a e, (a, e) ∈ ends → e ≤ S a + dur pb ext a) {b : Nat} (hbE : b ∈ E) (hb : b ∉ ends.keys)
    (hfirst : ∀ a ∈ ends.keys, S a ≤ S b) {m : Mode} (hm : details pb ext b = .ok m) {t : Nat} (ht1 : S b ≤ t) (ht2 : t < S b + m.duration)
    {res : String} {cap : Capacity} {need : Nat → Int} (rm : Room pb ext E S res cap need) {n : Int}
    (hnn : m.needs.get? res = some n) {c : Int} (hc : capOf cap t = some c) :
    used (pb.nonRenewable.contains res) need (placed pb ext ends) t + n ≤ c := by
  have hdur : dur pb ext b = m.duration := by simp [dur, hm]
  have hin := tg.inside b hbE
  have hnb : need b = n := rm.isNeed b m n hm hnn
  rw [← hnb]
  cases hr : pb.nonRenewable.contains res with
  | true =>
    refine Int.le_trans (used_add_le hn (E.filter (fun a => decide (0 < dur pb ext a))) hb ?_ ?_ ?_) (rm.all hr t (by omega) c hc)
    · simp only [List.mem_filter, decide_eq_true_eq]; exact ⟨hbE, by omega⟩
    · intro a e ha hch
      simp only [charged, ↓reduceIte, decide_eq_true_eq] at hch
      simp only [List.mem_filter, decide_eq_true_eq]
      exact ⟨hsub a (List.mem_map.2 ⟨_, ha, rfl⟩), by omega⟩
    · intro a ha; exact rm.pos a (List.mem_filter.1 ha).1
  | false =>
    refine Int.le_trans (used_add_le hn (E.filter (fun a => decide (S a ≤ t ∧ t < S a + dur pb ext a))) hb ?_ ?_ ?_) (rm.now hr t (by omega) c hc)
    · simp only [List.mem_filter, decide_eq_true_eq]; exact ⟨hbE, by omega⟩
    · intro a e ha hch
      have hk : a ∈ ends.keys := List.mem_map.2 ⟨_, ha, rfl⟩
      have h1 := hfirst a hk
      have h2 := hle a e ha
      simp only [charged, Bool.false_eq_true, ↓reduceIte, decide_eq_true_eq] at hch
      simp only [List.mem_filter, decide_eq_true_eq]
      exact ⟨hsub a hk, by omega⟩
    · intro a ha; exact rm.pos a (List.mem_filter.1 ha).1

/-- Those placed before the activity that is picked start no later in the schedule given. -/
theorem placed_first {base : Nat → Nat} {pb : Problem} {ext E : List Nat} {S : Nat → Nat} {st : St} (tg : Target pb ext E S) (inv : Inv pb base ext E st)
    (hac : ∃ rank : Nat → Nat, ∀ a ss, (a, ss) ∈ pb.successors → ∀ b ∈ ss, rank a < rank b) {b : Nat} (hbE : b ∈ E) (hb : b ∉ st.ends.keys) :
    ∀ a ∈ st.ends.keys, S a ≤ S b := by
  intro a ha
  obtain ⟨⟨a', e⟩, hm, rfl⟩ := List.mem_map.1 ha
  obtain ⟨pre, post, hsplit⟩ := List.append_of_mem hm
  refine picked_first tg hac (inv.greedy pre a' e post hsplit).first b hbE (fun h => hb ?_)
  rw [hsplit, keys_append]
  exact List.mem_append_left _ h

theorem regen_loop {pb : Problem} {ext E : List Nat} {S : Nat → Nat} (hE : E.Nodup) (hres : pb.resources.keys.Nodup) (wf : Wf pb E ext)
    (tg : Target pb ext E S) : ∀ (n : Nat) (st st' : St), Inv pb (fun _ => 0) ext E st → st.minStart.keys = pb.successors.keys → st.flag = false →
      (∀ a e, (a, e) ∈ st.ends → e ≤ S a + dur pb ext a) → loop pb ext n st = .ok st' →
      st'.flag = false ∧ ∀ a e, (a, e) ∈ st'.ends → e ≤ S a + dur pb ext a := by
  intro n
  induction n with
  | zero => intro st st' _ _ hf hW h; cases h; exact ⟨hf, hW⟩
  | succ n ih =>
    intro st st' inv hk hf hW h
    simp only [loop] at h
    split at h
    · cases h; exact ⟨hf, hW⟩
    · rename_i hc
      simp only [Bool.or_eq_true, List.isEmpty_iff, not_or, Bool.not_eq_true] at hc
      obtain ⟨b, m, v, c, f, hb, hpick, hm, hv, hs, hcase⟩ := step_pick hres inv hc.2 hc.1 wf hk
      obtain ⟨hs1, hs2, hs3, hs4⟩ := search_spec _ _ _ _ _ _ _ _ hs
      have hbE : b ∈ E := by rw [inv.perm] at hb; exact (List.mem_filter.1 hb).1
      have hbe : b ∉ st.ends.keys := by
        rw [inv.perm] at hb; simpa using (List.mem_filter.1 hb).2
      have hdur : dur pb ext b = m.duration := by simp [dur, hm]
      have hfirst := placed_first tg inv wf.acyclic hbE hbe
      have hin := tg.inside b hbE
      have hvS : v ≤ S b := inv.high b v hv (S b) (Nat.zero_le _) (fun a ea hm' ss hss hbs => by
        have h1 := hW a ea hm'
        have h2 := tg.prec a ss (Dict.mem_of_get? hss) b hbs (inv.sub a (List.mem_map.2 ⟨_, hm', rfl⟩)) hbE
        omega)
      have hcS : c ≤ S b := by
        apply Nat.le_of_not_lt
        intro hlt
        obtain ⟨t, t1, t2, tH, ⟨res, row⟩, hmem, a, nn, ha, hn, han⟩ := hs3 (S b) hvS hlt
        simp only at ha hn
        have hrn : st.rows.keys.Nodup := by rw [inv.rowKeys]; exact hres
        have hkey : res ∈ pb.resources.keys := by rw [← inv.rowKeys]; exact List.mem_map.2 ⟨_, hmem, rfl⟩
        obtain ⟨cap, hcp⟩ := Option.isSome_iff_exists.1 ((Dict.get?_isSome_iff_mem_keys _ _).2 hkey)
        obtain ⟨row2, r1, _, r3, _⟩ := inv.row res cap hcp
        rw [Dict.get?_of_mem hrn hmem] at r1
        cases r1
        obtain ⟨cc, hcc⟩ := wf.calendars res cap hcp t tH
        obtain ⟨need, rm⟩ := tg.room res cap hcp
        have hr := r3 need rm.isNeed t tH cc (initRow_some tH hcc)
        rw [ha] at hr
        have := fits_target tg inv.nodup inv.sub hW hbE hbe hfirst hm t1 t2 rm hn hcc
        have := Option.some.inj hr
        omega
      have hff : f = false := search_flag _ _ _ _ _ _ _ _ hs (by omega)
      rcases hcase with g | ⟨_, st2, h2, hends, hk2, hfl2⟩
      · rw [hff] at g; cases g
      · rw [h2, bind_ok] at h
        have inv2 := (step_inv hE hres inv hc.2 h2).1
        rw [set_new _ _ hbe] at hends
        have hflag : st2.flag = false := by
          cases hfl : st2.flag with
          | false => rfl
          | true =>
            exfalso
            obtain ⟨⟨res, row⟩, hmem, hnr, j, a, hj, ha, hneg⟩ := hfl2 hfl
            simp only at hnr ha
            have hrn : st2.rows.keys.Nodup := by rw [inv2.rowKeys]; exact hres
            have hkey : res ∈ pb.resources.keys := by rw [← inv2.rowKeys]; exact List.mem_map.2 ⟨_, hmem, rfl⟩
            obtain ⟨cap, hcp⟩ := Option.isSome_iff_exists.1 ((Dict.get?_isSome_iff_mem_keys _ _).2 hkey)
            obtain ⟨row2, r1, _, r3, _⟩ := inv2.row res cap hcp
            rw [Dict.get?_of_mem hrn hmem] at r1
            cases r1
            obtain ⟨cc, hcc⟩ := wf.calendars res cap hcp j hj
            obtain ⟨need, rm⟩ := tg.room res cap hcp
            have hr := r3 need rm.isNeed j hj cc (initRow_some hj hcc)
            rw [ha, hnr] at hr
            have h1 := rm.all hnr j hj cc hcc
            have h2 := used_le (nr := true) (need := need) (pb := pb) (ext := ext) (t := (j : Int)) inv2.nodup (E.filter (fun a => decide (0 < dur pb ext a)))
              (fun a e ha hch => by
                simp only [charged, ↓reduceIte, decide_eq_true_eq] at hch
                simp only [List.mem_filter, decide_eq_true_eq]
                exact ⟨inv2.sub a (List.mem_map.2 ⟨_, ha, rfl⟩), by omega⟩) (fun a ha => rm.pos a (List.mem_filter.1 ha).1)
            have := Option.some.inj hr
            omega
        exact ih st2 st' inv2 hk2 hflag (by
          intro a e he
          rw [hends] at he
          rcases List.mem_append.1 he with g | g
          · exact hW a e g
          · simp only [List.mem_singleton, Prod.mk.injEq] at g
            obtain ⟨rfl, rfl⟩ := g
            omega) h

end Verif.Rcpsp
