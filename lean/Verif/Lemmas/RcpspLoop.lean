import Verif.Lemmas.Rcpsp
/- The invariant of the main loop of serial schedule generation. -/
namespace Verif.Rcpsp

/-- Is time `t` charged for an activity from `s` to `e`?  A renewable resource is charged while the activity runs, a
non-renewable one from its start on. -/
def charged (nr : Bool) (s e t : Int) : Bool :=
  if nr then decide (s < e ∧ s ≤ t) else decide (s ≤ t ∧ t < e)

/-- What a schedule charges at time `t`, `need` being the requirement of each activity. -/
def used (nr : Bool) (need : Nat → Int) (sch : Dict Nat (Int × Int)) (t : Int) : Int :=
  (sch.map (fun p => if charged nr p.2.1 p.2.2 t then need p.1 else 0)).sum

/-- `need` gives the requirement of every activity in the mode chosen for it, wherever the table has one. -/
def IsNeed (pb : Problem) (ext : List Nat) (res : String) (need : Nat → Int) : Prop :=
  ∀ a m n, details pb ext a = .ok m → m.needs.get? res = some n → need a = n

/-- Duration of an activity in its mode. -/
def dur (pb : Problem) (ext : List Nat) (a : Nat) : Nat :=
  match details pb ext a with
  | .ok m => m.duration
  | .error _ => 0

/-- The schedule given by the end times. -/
def placed (pb : Problem) (ext : List Nat) (ends : Dict Nat Nat) : Dict Nat (Int × Int) :=
  ends.map (fun p => (p.1, ((p.2 : Int) - dur pb ext p.1, (p.2 : Int))))

/-- All predecessors of `x` among `E` are in `done`. -/
def Ready (pb : Problem) (E done : List Nat) (x : Nat) : Prop :=
  ∀ a ss, (a, ss) ∈ pb.successors → x ∈ ss → a ∈ E → a ∈ done

/-- At time `t` some resource does not suffice for `m` on top of what the schedule `sch` charges. -/
def Short (pb : Problem) (ext : List Nat) (m : Mode) (sch : Dict Nat (Int × Int)) (t : Nat) : Prop :=
  t < pb.newHorizon ∧ ∃ res cap c n, pb.resources.get? res = some cap ∧ (initRow pb.newHorizon cap)[t]? = some c ∧
    m.needs.get? res = some n ∧ ∀ need, IsNeed pb ext res need →
      c - used (pb.nonRenewable.contains res) need sch t < n

/-- The choice and placement of one activity, given those placed before. -/
structure Greedy (pb : Problem) (base : Nat → Nat) (ext E : List Nat) (pre : Dict Nat Nat) (b e : Nat) : Prop where
  mode : ∃ m, details pb ext b = .ok m ∧ m.duration ≤ e ∧
    ∀ s', base b ≤ s' → s' < e - m.duration → (∀ a ea, (a, ea) ∈ pre → ∀ ss, pb.successors.get? a = some ss → b ∈ ss → ea ≤ s') →
      ∃ t, s' ≤ t ∧ t < s' + m.duration ∧ Short pb ext m (placed pb ext pre) t
  first : ∃ l1 l2, E = l1 ++ b :: l2 ∧ Ready pb E pre.keys b ∧ ∀ x ∈ l1, x ∉ pre.keys → ¬ Ready pb E pre.keys x
  after : ∀ a ea, (a, ea) ∈ pre → ∀ ss, pb.successors.get? a = some ss → b ∈ ss → ea + dur pb ext b ≤ e
  late : base b + dur pb ext b ≤ e
  inside : pb.resources = [] ∨ dur pb ext b = 0 ∨ e ≤ pb.newHorizon

structure Inv (pb : Problem) (base : Nat → Nat) (ext E : List Nat) (st : St) : Prop where
  perm : st.perm = E.filter (fun x => !st.ends.keys.contains x)
  sub : ∀ a ∈ st.ends.keys, a ∈ E
  nodup : st.ends.keys.Nodup
  rowKeys : st.rows.keys = pb.resources.keys
  greedy : ∀ pre b e post, st.ends = pre ++ (b, e) :: post → Greedy pb base ext E pre b e
  low : ∀ b v, st.minStart.get? b = some v → ∀ a ea, (a, ea) ∈ st.ends → ∀ ss, pb.successors.get? a = some ss → b ∈ ss → ea ≤ v
  floor : ∀ b v, st.minStart.get? b = some v → base b ≤ v
  high : ∀ b v, st.minStart.get? b = some v → ∀ x, base b ≤ x → (∀ a ea, (a, ea) ∈ st.ends → ∀ ss, pb.successors.get? a = some ss → b ∈ ss → ea ≤ x) → v ≤ x
  stale : st.flag = false → ∀ a, st.prev = some a → a ∉ st.perm
  row : ∀ res cap, pb.resources.get? res = some cap → ∃ row, st.rows.get? res = some row ∧
    (∀ t : Nat, t < pb.newHorizon → (row[t]? = none ↔ (initRow pb.newHorizon cap)[t]? = none)) ∧
    (∀ need, IsNeed pb ext res need → ∀ t : Nat, t < pb.newHorizon → ∀ c, (initRow pb.newHorizon cap)[t]? = some c →
      row[t]? = some (c - used (pb.nonRenewable.contains res) need (placed pb ext st.ends) t)) ∧
    (st.flag = false → (∀ t : Nat, t < pb.newHorizon → ∀ c, (initRow pb.newHorizon cap)[t]? = some c → 0 ≤ c) →
      ∀ t : Nat, t < pb.newHorizon → ∀ a, row[t]? = some a → 0 ≤ a)

theorem keys_append (a b : Dict Nat Nat) : Dict.keys (a ++ b) = a.keys ++ b.keys := by simp [Dict.keys]

theorem set_new (d : Dict Nat Nat) {k : Nat} (v : Nat) (h : k ∉ d.keys) : d.set k v = d ++ [(k, v)] := by
  induction d with
  | nil => rfl
  | cons p d ih =>
    obtain ⟨k', v'⟩ := p
    simp only [Dict.keys, List.map_cons, List.mem_cons, not_or] at h
    simp only [Dict.set, Ne.symm h.1, ↓reduceIte, List.cons_append]
    rw [ih h.2]

theorem snoc_split {l pre : List α} {x y : α} {post : List α} (h : l ++ [x] = pre ++ y :: post) :
    (pre = l ∧ y = x ∧ post = []) ∨ ∃ post', post = post' ++ [x] ∧ l = pre ++ y :: post' := by
  rcases List.eq_nil_or_concat post with rfl | ⟨p', z, rfl⟩
  · have := List.append_inj' h rfl
    left; exact ⟨this.1.symm, by simpa using this.2.symm, rfl⟩
  · right
    rw [List.concat_eq_append, ← List.cons_append, ← List.append_assoc] at h
    have := List.append_inj' h rfl
    refine ⟨p', ?_, this.1⟩
    rw [List.concat_eq_append]
    simpa using this.2.symm

theorem pick_spec {pb : Problem} {E : List Nat} {ends : Dict Nat Nat} {b : Nat}
    (h : pick pb.successors (E.filter (fun x => !ends.keys.contains x)) = some b) :
    b ∉ ends.keys ∧ ∃ l1 l2, E = l1 ++ b :: l2 ∧ Ready pb E ends.keys b ∧ ∀ x ∈ l1, x ∉ ends.keys → ¬ Ready pb E ends.keys x := by
  unfold pick at h
  rw [List.find?_filter] at h
  obtain ⟨hb, l1, l2, hE, hl1⟩ := List.find?_eq_some_iff_append.1 h
  have hready : ∀ x, (pb.successors.all (fun kv => !(kv.2.contains x && (E.filter (fun x => !ends.keys.contains x)).contains kv.1))) = true ↔
      Ready pb E ends.keys x := by
    intro x
    rw [List.all_eq_true]
    constructor
    · intro h a ss hm hx ha
      have := h (a, ss) hm
      simp only [Bool.not_eq_eq_eq_not, Bool.not_true, Bool.and_eq_false_iff, List.contains_eq_mem, decide_eq_false_iff_not,
        List.mem_filter, not_and, Decidable.not_not] at this
      rcases this with g | g
      · exact absurd hx g
      · exact g ha
    · intro h kv hm
      simp only [Bool.not_eq_eq_eq_not, Bool.not_true, Bool.and_eq_false_iff, List.contains_eq_mem, decide_eq_false_iff_not,
        List.mem_filter, not_and, Decidable.not_not]
      by_cases hx : x ∈ kv.2
      · right; intro ha; exact h kv.1 kv.2 hm hx ha
      · exact .inl hx
  simp only [Bool.decide_and, Bool.decide_eq_true, Bool.and_eq_true] at hb hl1
  refine ⟨by simpa using hb.1, l1, l2, hE, (hready b).1 hb.2, ?_⟩
  intro x hx hxe hr
  have := hl1 x hx
  simp only [Bool.not_eq_eq_eq_not, Bool.not_true, Bool.and_eq_false_iff] at this
  rcases this with g | g
  · simp [hxe] at g
  · rw [(hready x).2 hr] at g; cases g

theorem used_append (nr : Bool) (need : Nat → Int) (s1 s2 : Dict Nat (Int × Int)) (t : Int) :
    used nr need (s1 ++ s2) t = used nr need s1 t + used nr need s2 t := by
  simp [used, List.map_append, List.sum_append]

theorem placed_append (pb : Problem) (ext : List Nat) (e1 e2 : Dict Nat Nat) :
    placed pb ext (e1 ++ e2) = placed pb ext e1 ++ placed pb ext e2 := by simp [placed]

theorem pyRemove_ok {l l' : List Nat} {x : Nat} (h : pyRemove l x = .ok l') : x ∈ l ∧ l' = l.erase x := by
  unfold pyRemove at h
  split at h
  · cases h; exact ⟨by assumption, rfl⟩
  · cases h

/-- One placement keeps the invariant. -/
theorem place_inv {base : Nat → Nat} {pb : Problem} {ext E : List Nat} (hE : E.Nodup) (hres : pb.resources.keys.Nodup) {st st' : St} (inv : Inv pb base ext E st)
    (hflag : st.flag = false) {b : Nat} {v : Nat} {m : Mode} {c : Nat} (hpick : pickStale st.prev (pick pb.successors st.perm) = .ok b)
    (hmin : st.minStart.get b = .ok v) (hm : details pb ext b = .ok m)
    (hs : search pb.newHorizon m st.rows pb.newHorizon v st.flag = .ok (c, false)) (hp : place pb b m c st = .ok st') :
    Inv pb base ext E st' := by
  simp only [place] at hp
  obtain ⟨⟨rows', fl⟩, hbook, hp⟩ := bind_eq_ok.1 hp
  obtain ⟨perm', hrem, hp⟩ := bind_eq_ok.1 hp
  obtain ⟨ss, hss, hp⟩ := bind_eq_ok.1 hp
  obtain ⟨ms, hms, hp⟩ := bind_eq_ok.1 hp
  cases hp
  obtain ⟨hbp, rfl⟩ := pyRemove_ok hrem
  have hss' := dict_get_ok.1 hss
  have hmin' := dict_get_ok.1 hmin
  -- the activity was picked properly
  have hpicked : pick pb.successors st.perm = some b := by
    rcases hpk : pick pb.successors st.perm with _ | x
    · exfalso
      rw [hpk] at hpick
      simp only [pickStale] at hpick
      rcases hpr : st.prev with _ | y
      · rw [hpr] at hpick; cases hpick
      · rw [hpr] at hpick; cases hpick
        exact inv.stale hflag b hpr hbp
    · rw [hpk] at hpick; cases hpick; rfl
  have hpermE := inv.perm
  rw [hpermE] at hpicked
  obtain ⟨hbe, l1, l2, hl, hready, hfirst⟩ := pick_spec hpicked
  obtain ⟨s1, s2, s3, s4⟩ := search_spec _ _ _ _ _ _ _ _ hs
  have hnd : st.perm.Nodup := by rw [hpermE]; exact List.Pairwise.filter _ hE
  have hdur : dur pb ext b = m.duration := by simp [dur, hm]
  have hplaced : placed pb ext (st.ends ++ [(b, c + m.duration)]) = placed pb ext st.ends ++ [(b, ((c : Int), ((c + m.duration : Nat) : Int)))] := by
    rw [placed_append]
    simp only [placed, List.map_cons, List.map_nil, hdur]
    congr 4
    omega
  have hrowsNodup : st.rows.keys.Nodup := by rw [inv.rowKeys]; exact hres
  obtain ⟨k1, k2, k3⟩ : rows'.keys = st.rows.keys ∧ (fl = false → false = false) ∧ (0 < m.duration → ∀ res row, st.rows.get? res = some row →
      ∃ n row', m.needs.get? res = some n ∧ rows'.get? res = some row' ∧
      (∀ j : Nat, row'[j]? = row[j]?.map (fun a => a -
        if (c ≤ j ∧ j < c + m.duration) ∨ (pb.nonRenewable.contains res = true ∧ c + m.duration ≤ j ∧ j < pb.newHorizon) then n else 0)) ∧
      (fl = false → pb.nonRenewable.contains res = true → ∀ j : Nat, c + m.duration ≤ j → j < pb.newHorizon → ∀ a, row'[j]? = some a → 0 ≤ a)) := by
    by_cases hd : m.duration = 0
    · rw [hd] at hbook; cases hbook
      exact ⟨rfl, fun _ => rfl, fun h => by omega⟩
    · exact bookWindow_spec pb pb.newHorizon (c + m.duration - 1) m m.duration c st.rows rows' false fl (by omega) hbook
  obtain ⟨m1, m2, m3⟩ := bump_spec _ _ _ _ hms
  have hmsget : ∀ b' v', ms.get? b' = some v' → ∃ old, st.minStart.get? b' = some old ∧ v' = if b' ∈ ss then max old (c + m.duration) else old := by
    intro b' v' h
    have : b' ∈ st.minStart.keys := by
      rw [← m1]; exact (Dict.get?_isSome_iff_mem_keys _ _).1 (by rw [h]; rfl)
    obtain ⟨old, ho⟩ := Option.isSome_iff_exists.1 ((Dict.get?_isSome_iff_mem_keys _ _).2 this)
    have := m3 b' old ho
    rw [h] at this
    exact ⟨old, ho, Option.some.inj this⟩
  have hset : st.ends.set b (c + m.duration) = st.ends ++ [(b, c + m.duration)] := set_new _ _ hbe
  refine { perm := ?_, sub := ?_, nodup := ?_, rowKeys := ?_, greedy := ?_, low := ?_, floor := ?_, high := ?_, stale := ?_, row := ?_ }
  · show st.perm.erase b = _
    rw [hnd.erase_eq_filter, hpermE, List.filter_filter, hset, keys_append]
    apply List.filter_congr
    intro x hx
    simp only [Dict.keys, List.map_cons, List.map_nil, List.contains_eq_mem, List.mem_append, List.mem_singleton]
    by_cases e : x = b
    · simp [e]
    · simp [e]
  · intro a ha
    rw [show Dict.keys (St.ends _) = (st.ends.set b (c + m.duration)).keys from rfl, hset, keys_append] at ha
    rcases List.mem_append.1 ha with h | h
    · exact inv.sub a h
    · simp [Dict.keys] at h
      rw [h, hl]; simp
  · exact Dict.nodup_keys_set _ _ inv.nodup
  · exact k1.trans inv.rowKeys
  · intro pre b' e' post hsplit
    rw [show St.ends _ = st.ends.set b (c + m.duration) from rfl, hset] at hsplit
    rcases snoc_split hsplit with ⟨rfl, h, rfl⟩ | ⟨post', _, h⟩
    · cases h
      refine ⟨⟨m, hm, by omega, ?_⟩, ⟨l1, l2, hl, hready, hfirst⟩, ?_, ?_, ?_⟩
      · intro s' hbs' hs' hall
        have hv : v ≤ s' := inv.high _ v hmin' s' hbs' hall
        obtain ⟨t, t1, t2, t3⟩ := s3 s' hv (by omega)
        refine ⟨t, t1, t2, t3.1, ?_⟩
        obtain ⟨tH, ⟨res, row⟩, hmem, a, n, ha, hn, han⟩ := t3
        have hg := Dict.get?_of_mem hrowsNodup hmem
        have hk : res ∈ pb.resources.keys := by
          rw [← inv.rowKeys]; exact (Dict.get?_isSome_iff_mem_keys _ _).1 (by rw [hg]; rfl)
        obtain ⟨cap, hcap⟩ := Option.isSome_iff_exists.1 ((Dict.get?_isSome_iff_mem_keys _ _).2 hk)
        obtain ⟨row2, r1, r2, r3, r4⟩ := inv.row res cap hcap
        rw [hg] at r1; cases r1
        simp only at ha
        rcases hc : (initRow pb.newHorizon cap)[t]? with _ | c'
        · rw [(r2 t tH).2 hc] at ha; cases ha
        · refine ⟨res, cap, c', n, hcap, hc, hn, fun need hneed => ?_⟩
          have := r3 need hneed t tH c' hc
          rw [ha] at this; cases this
          exact han
      · intro a ea hmem ss' hss2 hb'
        have := inv.low _ v hmin' a ea hmem ss' hss2 hb'
        rw [hdur]; omega
      · have := inv.floor _ v hmin'
        rw [hdur]; omega
      · rcases (s4 rfl).2 with h | h | h
        · left
          have := inv.rowKeys
          rw [h] at this
          simpa [Dict.keys] using this.symm
        · right; left; rw [hdur]; exact h
        · right; right; exact h
    · exact inv.greedy pre b' e' post' h
  · intro b' v' hb' a ea hmem ss' hss2 hbs
    rw [show St.ends _ = st.ends.set b (c + m.duration) from rfl, hset] at hmem
    obtain ⟨old, ho, hv'⟩ := hmsget b' v' hb'
    rcases List.mem_append.1 hmem with h | h
    · have := inv.low b' old ho a ea h ss' hss2 hbs
      rw [hv']; split <;> omega
    · simp only [List.mem_singleton, Prod.mk.injEq] at h
      obtain ⟨rfl, rfl⟩ := h
      rw [hss'] at hss2; cases hss2
      rw [hv', if_pos hbs]; omega
  · intro b' v' hb'
    obtain ⟨old, ho, hv'⟩ := hmsget b' v' hb'
    have := inv.floor b' old ho
    rw [hv']; split <;> omega
  · intro b' v' hb' x hbx hx
    rw [show St.ends _ = st.ends.set b (c + m.duration) from rfl, hset] at hx
    obtain ⟨old, ho, hv'⟩ := hmsget b' v' hb'
    have h1 := inv.high b' old ho x hbx (fun a ea h => hx a ea (by simp [h]))
    rw [hv']
    split
    · rename_i hbs
      have := hx b (c + m.duration) (by simp) ss hss' hbs
      omega
    · exact h1
  · intro _ a ha
    cases ha
    show b ∉ st.perm.erase b
    exact fun h => (hnd.mem_erase_iff.1 h).1 rfl
  · intro res cap hcap
    obtain ⟨row, r1, r2, r3, r4⟩ := inv.row res cap hcap
    by_cases hd : m.duration = 0
    · have hrows : rows' = st.rows ∧ fl = false := by rw [hd] at hbook; cases hbook; exact ⟨rfl, rfl⟩
      refine ⟨row, by rw [show St.rows _ = rows' from rfl, hrows.1]; exact r1, r2, ?_, fun _ => r4 hflag⟩
      intro need hneed t tH c' hc'
      rw [show St.ends _ = st.ends.set b (c + m.duration) from rfl, hset, hplaced, used_append]
      rw [r3 need hneed t tH c' hc']
      have : used (pb.nonRenewable.contains res) need [(b, ((c : Int), ((c + m.duration : Nat) : Int)))] t = 0 := by
        simp only [used, List.map_cons, List.map_nil, List.sum_cons, List.sum_nil]
        rw [if_neg]
        · rfl
        · rw [hd]; simp only [charged]
          split <;> simp <;> omega
      rw [this]; simp
    · obtain ⟨n, row', g1, g2, g3, g4⟩ := k3 (by omega) res row r1
      refine ⟨row', g2, ?_, ?_, ?_⟩
      · intro t tH
        rw [g3 t, Option.map_eq_none_iff, r2 t tH]
      · intro need hneed t tH c' hc'
        rw [show St.ends _ = st.ends.set b (c + m.duration) from rfl, hset, hplaced, used_append]
        rw [g3 t, r3 need hneed t tH c' hc']
        simp only [Option.map_some, Option.some.injEq]
        have hn := hneed b m n hm g1
        have : used (pb.nonRenewable.contains res) need [(b, ((c : Int), ((c + m.duration : Nat) : Int)))] t =
            if (c ≤ t ∧ t < c + m.duration) ∨ (pb.nonRenewable.contains res = true ∧ c + m.duration ≤ t ∧ t < pb.newHorizon) then n else 0 := by
          simp only [used, List.map_cons, List.map_nil, List.sum_cons, List.sum_nil, hn, charged]
          by_cases hnr : pb.nonRenewable.contains res = true
          · simp only [hnr, ↓reduceIte, decide_eq_true_eq, true_and]
            by_cases hct : c ≤ t
            · rw [if_pos (by omega), if_pos (by omega)]; omega
            · rw [if_neg (by omega), if_neg (by omega)]; omega
          · simp only [hnr, Bool.false_eq_true, ↓reduceIte, decide_eq_true_eq, false_and, or_false]
            by_cases hct : c ≤ t ∧ t < c + m.duration
            · rw [if_pos (by omega), if_pos hct]; omega
            · rw [if_neg (by omega), if_neg hct]; omega
        rw [this]; omega
      · intro hfl hcaps t tH a' ha'
        by_cases hw : c ≤ t ∧ t < c + m.duration
        · obtain ⟨a, n', f1, f2, f3⟩ := s2 t hw.1 hw.2 tH (res, row) (Dict.mem_of_get? r1)
          simp only at f1 f2
          rw [g1] at f2; cases f2
          rw [g3 t, f1, if_pos (.inl hw)] at ha'
          simp at ha'; omega
        · by_cases hn : pb.nonRenewable.contains res = true ∧ c + m.duration ≤ t
          · exact g4 hfl hn.1 t hn.2 tH a' ha'
          · rw [g3 t, if_neg (by rintro (g | ⟨g1, g2, _⟩); exact hw g; exact hn ⟨g1, g2⟩)] at ha'
            simp at ha'
            exact r4 hflag hcaps t tH a' ha'

/-- The state before the loop, with a lower bound for every start. -/
theorem init_inv (pb : Problem) (base : Nat → Nat) (ext E : List Nat) : Inv pb base ext E (initFrom pb E base) := by
  have hmin : ∀ b v, (initFrom pb E base).minStart.get? b = some v → v = base b := by
    intro b v h
    have := Dict.mem_of_get? h
    simp only [initFrom, List.mem_map] at this
    obtain ⟨p, _, h⟩ := this
    cases h; rfl
  refine { perm := ?_, sub := ?_, nodup := ?_, rowKeys := ?_, greedy := ?_, low := ?_, floor := ?_, high := ?_, stale := ?_, row := ?_ }
  · show E = (E).filter (fun x => !([] : List Nat).contains x)
    rw [List.filter_eq_self.2]; intro a _; rfl
  · intro a h; simp [initFrom, Dict.keys] at h
  · simp [initFrom, Dict.keys]
  · simp [initFrom, initRows, Dict.keys]
  · intro pre b e post h; simp [initFrom] at h
  · intro b v h a ea hm; simp [initFrom] at hm
  · intro b v h; rw [hmin b v h]; exact Nat.le_refl _
  · intro b v h x hx _; rw [hmin b v h]; exact hx
  · intro _ a h; simp [initFrom] at h
  · intro res cap hcap
    refine ⟨initRow pb.newHorizon cap, ?_, fun _ _ => Iff.rfl, ?_, fun _ hc => hc⟩
    · show (initRows pb).get? res = _
      have : ∀ d : Dict String Capacity, d.get? res = some cap →
          Dict.get? (d.map (fun p => (p.1, initRow pb.newHorizon p.2))) res = some (initRow pb.newHorizon cap) := by
        intro d
        induction d with
        | nil => intro h; cases h
        | cons p d ih =>
          obtain ⟨k, x⟩ := p
          simp only [List.map_cons, Dict.get?]
          split
          · intro h; cases h; rfl
          · exact ih
      exact this _ hcap
    · intro need _ t _ c hc
      rw [hc]
      simp [initFrom, placed, used]

theorem step_inv {base : Nat → Nat} {pb : Problem} {ext E : List Nat} (hE : E.Nodup) (hres : pb.resources.keys.Nodup) {st st' : St} (inv : Inv pb base ext E st)
    (hflag : st.flag = false) (h : step pb ext st = .ok st') : Inv pb base ext E st' ∧ (st'.flag = false → st'.perm.length + 1 = st.perm.length) := by
  simp only [step] at h
  obtain ⟨act, hact, h⟩ := bind_eq_ok.1 h
  obtain ⟨c0, hc0, h⟩ := bind_eq_ok.1 h
  obtain ⟨m, hm, h⟩ := bind_eq_ok.1 h
  obtain ⟨⟨c, f⟩, hs, h⟩ := bind_eq_ok.1 h
  cases f with
  | true =>
    simp only [↓reduceIte] at h
    rw [← Except.ok.inj h]
    refine ⟨⟨inv.perm, inv.sub, inv.nodup, inv.rowKeys, inv.greedy, inv.low, inv.floor, inv.high, fun h => (by cases h), fun res cap hcap => ?_⟩,
      fun h => (by cases h)⟩
    obtain ⟨row, r1, r2, r3, _⟩ := inv.row res cap hcap
    exact ⟨row, r1, r2, r3, fun h => (by cases h)⟩
  | false =>
    simp only [Bool.false_eq_true, ↓reduceIte] at h
    refine ⟨place_inv hE hres inv hflag hact hc0 hm hs h, fun _ => ?_⟩
    simp only [place] at h
    obtain ⟨_, _, h⟩ := bind_eq_ok.1 h
    obtain ⟨perm', hrem, h⟩ := bind_eq_ok.1 h
    obtain ⟨_, _, h⟩ := bind_eq_ok.1 h
    obtain ⟨_, _, h⟩ := bind_eq_ok.1 h
    cases h
    obtain ⟨hb, rfl⟩ := pyRemove_ok hrem
    show (st.perm.erase act).length + 1 = _
    rw [List.length_erase_of_mem hb]
    have := List.length_pos_of_mem hb
    omega

theorem loop_inv {base : Nat → Nat} {pb : Problem} {ext E : List Nat} (hE : E.Nodup) (hres : pb.resources.keys.Nodup) (n : Nat) (st st' : St)
    (inv : Inv pb base ext E st) (hn : st.perm.length ≤ n) (h : loop pb ext n st = .ok st') :
    Inv pb base ext E st' ∧ (st'.flag = true ∨ st'.perm = []) := by
  induction n generalizing st with
  | zero =>
    cases h
    exact ⟨inv, .inr (List.length_eq_zero_iff.1 (by omega))⟩
  | succ n ih =>
    simp only [loop] at h
    split at h
    · rename_i hc
      cases h
      refine ⟨inv, ?_⟩
      simp only [Bool.or_eq_true, List.isEmpty_iff] at hc
      exact hc.symm
    · rename_i hc
      simp only [Bool.or_eq_true, List.isEmpty_iff, not_or, Bool.not_eq_true] at hc
      obtain ⟨st2, h2, h3⟩ := bind_eq_ok.1 h
      obtain ⟨i2, l2⟩ := step_inv hE hres inv hc.2 h2
      by_cases hf : st2.flag = true
      · have : loop pb ext n st2 = .ok st2 := by
          cases n with
          | zero => rfl
          | succ n => simp only [loop, hf, Bool.or_true, ↓reduceIte]
        rw [this] at h3; cases h3
        exact ⟨i2, .inl hf⟩
      · exact ih st2 i2 (by have := l2 (by simpa using hf); omega) h3

theorem times_spec {pb : Problem} {ext : List Nat} (ends : Dict Nat Nat) (sch : Dict Nat (Int × Int)) (h : times pb ext ends = .ok sch) :
    sch = placed pb ext ends := by
  induction ends generalizing sch with
  | nil => cases h; rfl
  | cons p ends ih =>
    obtain ⟨a, e⟩ := p
    simp only [times] at h
    obtain ⟨m, hm, h⟩ := bind_eq_ok.1 h
    obtain ⟨r, hr, h⟩ := bind_eq_ok.1 h
    cases h
    rw [ih r hr]
    simp only [placed, List.map_cons, dur, hm]

/-- What schedule generation returns, in terms of the invariant. -/
theorem sgs_inv {pb : Problem} {perm modes : List Nat} {r : Result} (hE : (extended pb perm).Nodup) (hres : pb.resources.keys.Nodup)
    (h : sgs pb perm modes = .ok r) : ∃ st, Inv pb (fun _ => 0) r.ext (extended pb perm) st ∧ fixModes pb 0 (1 :: modes ++ [1]) = .ok r.ext ∧
      r.feasible = !st.flag ∧ (st.flag = false → st.perm = [] ∧ r.schedule = placed pb r.ext st.ends) := by
  simp only [sgs] at h
  obtain ⟨ext, hext, h⟩ := bind_eq_ok.1 h
  obtain ⟨st, hst, h⟩ := bind_eq_ok.1 h
  obtain ⟨sch, hsch, h⟩ := bind_eq_ok.1 h
  obtain ⟨⟨s2, f2⟩, hfin, h⟩ := bind_eq_ok.1 h
  cases h
  obtain ⟨inv, hend⟩ := loop_inv hE hres _ _ _ (init_inv pb (fun _ => 0) ext (extended pb perm)) (Nat.le_refl _) hst
  refine ⟨st, inv, hext, ?_, ?_⟩
  · unfold finish at hfin
    split at hfin
    · rename_i hf
      rw [hf]
      obtain ⟨l, _, hfin⟩ := bind_eq_ok.1 hfin
      split at hfin <;> cases hfin <;> rfl
    · rename_i hf
      cases hfin; simp [hf]
  · intro hf
    rw [hf] at hfin hend
    cases hfin
    exact ⟨by simpa using hend, times_spec _ _ hsch⟩

/-- The same for the variant that continues a schedule. -/
theorem sgs2_inv {pb : Problem} {perm modes : List Nat} {now : Nat} {done : Dict Nat (Int × Int)} {started : Dict Nat Nat} {r : Result}
    (hE : (extended pb perm).Nodup) (hres : pb.resources.keys.Nodup) (h : sgs2 pb perm modes now done started = .ok r) :
    ∃ st, Inv pb (baseOf now started) r.ext ((extended pb perm).filter (fun x => !done.keys.contains x)) st ∧
      r.feasible = !st.flag ∧ (st.flag = false → st.perm = [] ∧ r.schedule = addCompleted (placed pb r.ext st.ends) done) := by
  simp only [sgs2] at h
  obtain ⟨ext, hext, h⟩ := bind_eq_ok.1 h
  obtain ⟨st, hst, h⟩ := bind_eq_ok.1 h
  obtain ⟨sch, hsch, h⟩ := bind_eq_ok.1 h
  obtain ⟨⟨s2, f2⟩, hfin, h⟩ := bind_eq_ok.1 h
  cases h
  obtain ⟨inv, hend⟩ := loop_inv (E := (extended pb perm).filter (fun x => !done.keys.contains x)) (List.Pairwise.filter _ hE) hres _ _ _
    (init_inv pb (baseOf now started) ext _) (Nat.le_refl _) hst
  refine ⟨st, inv, ?_, ?_⟩
  · unfold finish at hfin
    split at hfin
    · rename_i hf
      rw [hf]
      obtain ⟨l, _, hfin⟩ := bind_eq_ok.1 hfin
      split at hfin <;> cases hfin <;> rfl
    · rename_i hf
      cases hfin; simp [hf]
  · intro hf
    rw [hf] at hfin hend
    cases hfin
    exact ⟨by simpa using hend, by rw [times_spec _ _ hsch]⟩

theorem set_new' (d : Dict Nat (Int × Int)) {k : Nat} (v : Int × Int) (h : k ∉ d.keys) : d.set k v = d ++ [(k, v)] := by
  induction d with
  | nil => rfl
  | cons p d ih =>
    obtain ⟨k', v'⟩ := p
    simp only [Dict.keys, List.map_cons, List.mem_cons, not_or] at h
    simp only [Dict.set, Ne.symm h.1, ↓reduceIte, List.cons_append]
    rw [ih h.2]

theorem addCompleted_eq (done : Dict Nat (Int × Int)) : ∀ sch : Dict Nat (Int × Int), done.keys.Nodup → (∀ a ∈ done.keys, a ∉ sch.keys) →
    addCompleted sch done = sch ++ done := by
  induction done with
  | nil => intro sch _ _; simp [addCompleted]
  | cons p done ih =>
    intro sch hn hd
    obtain ⟨a, p⟩ := p
    simp only [Dict.keys, List.map_cons, List.nodup_cons] at hn
    have ha : a ∉ sch.keys := hd a (by simp [Dict.keys])
    rw [addCompleted, set_new' sch p ha, ih _ hn.2, List.append_assoc]
    · rfl
    · intro b hb
      simp only [Dict.keys, List.map_append, List.map_cons, List.map_nil, List.mem_append, List.mem_singleton, not_or]
      refine ⟨hd b (by simp only [Dict.keys, List.map_cons, List.mem_cons]; exact .inr hb), ?_⟩
      rintro rfl
      exact hn.1 hb

end Verif.Rcpsp
