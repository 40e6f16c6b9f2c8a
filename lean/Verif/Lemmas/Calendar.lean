import Verif.Model.Calendar
import Verif.Lemmas.PileRule

/-! Invariants of the model of `PileSolverRCPSP_Calendar`. -/
namespace Verif.Pile.Calendar
variable {p : Project} {calendar : String → List Int} {D : Nat → Bool} {cs : CSt} {arrange : List Nat → List Nat} {pick : Pick}

/-- The capacity at a time: the entry of the calendar, the last one for ever. -/
def capAt (cal : List Int) (t : Nat) : Int := cal.getD (min t (cal.length - 1)) 0

/-- The project without its resources, which the calendar solver books in its table. -/
abbrev bare (p : Project) : Project := { p with resources := [] }

theorem bare_wf (h : p.Wf) : (bare p).Wf :=
  ⟨h.count, h.source, h.sourceDuration, h.sourceNeed, h.range, h.nodup, h.need, by intro r hr; cases hr⟩

/-- How long the rows are. -/
def width (calendar : String → List Int) (r : String) : Nat := (calendar r).length + 100

theorem row_get {cal : List Int} (h : cal ≠ []) {t : Nat} (ht : t < cal.length + 100) :
    (cal ++ List.replicate 100 (cal.getLast?.getD 0))[t]? = some (capAt cal t) := by
  have hl : 0 < cal.length := List.length_pos_iff.2 h
  by_cases hlt : t < cal.length
  · rw [List.getElem?_append_left hlt, capAt, Nat.min_eq_left (by omega), List.getD_eq_getElem?_getD]
    simp [List.getElem?_eq_getElem hlt]
  · rw [List.getElem?_append_right (by omega), List.getElem?_replicate, if_pos (by omega), capAt, Nat.min_eq_right (by omega),
      List.getD_eq_getElem?_getD, List.getLast?_eq_getElem?]

/-! ### Booking -/

theorem take_ok {need : Int} (s d : Nat) (row row' : List Int) (h : take need (List.range' s d) row = .ok row') :
    row'.length = row.length ∧ (d = 0 ∨ s + d ≤ row.length) ∧ ∀ t, row'[t]? = if s ≤ t ∧ t < s + d then row[t]?.map (· - need) else row[t]? := by
  induction d generalizing s row with
  | zero =>
    obtain rfl := Except.ok.inj h
    refine ⟨rfl, .inl rfl, fun t => ?_⟩
    rw [if_neg (by omega)]
  | succ d ih =>
    rw [List.range'_succ, take] at h
    obtain ⟨v, h1, h2⟩ := bind_eq_ok.1 h
    obtain ⟨row1, h3, h4⟩ := bind_eq_ok.1 h2
    rw [pyGet_ok_iff] at h1
    rw [pySet_ok_iff] at h3
    obtain ⟨h3, rfl⟩ := h3
    obtain ⟨i1, i2, i3⟩ := ih (s + 1) _ h4
    rw [List.length_set] at i1 i2
    refine ⟨i1, .inr (by omega), fun t => ?_⟩
    rw [i3]
    by_cases ht : t = s
    · subst ht
      rw [if_neg (by omega), if_pos (by omega), List.getElem?_set_self h3, h1]
      rfl
    · rw [List.getElem?_set_ne (fun e => ht e.symm)]
      by_cases hc : s + 1 ≤ t ∧ t < s + 1 + d
      · rw [if_pos hc, if_pos (by omega)]
      · rw [if_neg hc, if_neg (by omega)]

theorem take_of_le {need : Int} (s d : Nat) (row : List Int) (h : s + d ≤ row.length) : ∃ row', take need (List.range' s d) row = .ok row' := by
  induction d generalizing s row with
  | zero => exact ⟨row, rfl⟩
  | succ d ih =>
    rw [List.range'_succ, take, pyGet_of_lt (by omega), bind_ok]
    have : pySet row s (row[s] - need) = .ok (row.set s (row[s] - need)) := (pySet_ok_iff).2 ⟨by omega, rfl⟩
    rw [this, bind_ok]
    exact ih _ _ (by rw [List.length_set]; omega)

theorem enough_of_lt {need : Int} (row : List Int) (ts : List Nat) (h : ∀ t ∈ ts, t < row.length) : ∃ b, enough need row ts = .ok b := by
  induction ts with
  | nil => exact ⟨_, rfl⟩
  | cons t ts ih =>
    rw [enough, pyGet_of_lt (h t (by simp)), bind_ok]
    split
    · exact ih fun u hu => h u (List.mem_cons_of_mem _ hu)
    · exact ⟨_, rfl⟩

theorem enough_true {need : Int} (row : List Int) (ts : List Nat) (h : enough need row ts = .ok true) :
    ∀ t ∈ ts, ∃ v, row[t]? = some v ∧ need ≤ v := by
  induction ts with
  | nil => simp
  | cons t ts ih =>
    rw [enough] at h
    obtain ⟨v, h1, h2⟩ := bind_eq_ok.1 h
    split at h2
    · rename_i hle
      intro u hu
      rcases List.mem_cons.1 hu with rfl | hu
      · exact ⟨v, pyGet_ok_iff.1 h1, hle⟩
      · exact ih h2 u hu
    · cases h2

/-- The rows of the table: what the calendar gives minus what the schedule takes. -/
structure Rows (p : Project) (calendar : String → List Int) (sched : Schedule) (tab : Table) (row : String → List Int) : Prop where
  tab : tab = p.resources.map fun r => (r, row r)
  length : ∀ r, (row r).length = width calendar r
  entry : ∀ r t, t < width calendar r → (row r)[t]? = some (capAt (calendar r) t - load p sched r t)

theorem book_spec (time n : Nat) (rs : List String) (row : String → List Int) (tab' : Table)
    (h : book p time n (rs.map fun r => (r, row r)) = .ok tab') :
    ∃ row' : String → List Int, tab' = rs.map (fun r => (r, row' r)) ∧ ∀ r ∈ rs, take (p.need n r) (List.range' time (p.duration n)) (row r) = .ok (row' r) := by
  classical
  induction rs generalizing tab' with
  | nil => exact ⟨row, by obtain rfl := Except.ok.inj h; rfl, by simp⟩
  | cons r rs ih =>
    rw [List.map_cons, book] at h
    obtain ⟨w, h1, h2⟩ := bind_eq_ok.1 h
    obtain ⟨tab1, h3, h4⟩ := bind_eq_ok.1 h2
    obtain rfl := Except.ok.inj h4
    obtain ⟨row', e1, e2⟩ := ih tab1 h3
    refine ⟨fun r' => if r' = r then w else row' r', ?_, ?_⟩
    · simp only [List.map_cons, if_true, e1]
      congr 1
      apply List.map_congr_left
      intro r' hr'
      by_cases hrr : r' = r
      · rw [if_pos hrr]
        subst hrr
        have := e2 r' hr'
        rw [h1] at this
        rw [Except.ok.inj this]
      · rw [if_neg hrr]
    · intro r' hr'
      simp only
      by_cases hrr : r' = r
      · subst hrr; rw [if_pos rfl]; exact h1
      · rw [if_neg hrr]
        exact e2 r' ((List.mem_cons.1 hr').resolve_left hrr)

theorem book_of_le (time n : Nat) (rs : List String) (row : String → List Int) (h : ∀ r ∈ rs, time + p.duration n ≤ (row r).length) :
    ∃ tab', book p time n (rs.map fun r => (r, row r)) = .ok tab' := by
  induction rs with
  | nil => exact ⟨_, rfl⟩
  | cons r rs ih =>
    obtain ⟨w, hw⟩ := take_of_le (need := p.need n r) time (p.duration n) (row r) (h r (by simp))
    obtain ⟨tab', ht⟩ := ih fun r' hr' => h r' (List.mem_cons_of_mem _ hr')
    rw [List.map_cons, book]
    simp only
    rw [hw, bind_ok, ht, bind_ok]
    exact ⟨_, rfl⟩

theorem fitsStrict_true (time n : Nat) (tab : Table) (h : fitsStrict p time n tab = .ok true) :
    ∀ e ∈ tab, ∀ t, time ≤ t → t ≤ time + p.duration n → ∃ v, e.2[t]? = some v ∧ p.need n e.1 ≤ v := by
  induction tab with
  | nil => simp
  | cons e tab ih =>
    rw [fitsStrict] at h
    obtain ⟨b, h1, h2⟩ := bind_eq_ok.1 h
    cases b with
    | false => cases h2
    | true =>
      simp only [if_true] at h2
      intro e' he' t t1 t2
      rcases List.mem_cons.1 he' with rfl | he'
      · exact enough_true _ _ h1 t (List.mem_range'_1.2 ⟨t1, by omega⟩)
      · exact ih h2 e' he' t t1 t2

theorem possible_mem (tab : Table) (time : Nat) (l l' : List Nat) (h : possible p tab time l = .ok l') :
    ∀ n ∈ l', n ∈ l ∧ fitsStrict p time n tab = .ok true := by
  induction l generalizing l' with
  | nil => obtain rfl := Except.ok.inj h; simp
  | cons x l ih =>
    rw [possible] at h
    obtain ⟨b, h1, h2⟩ := bind_eq_ok.1 h
    obtain ⟨l1, h3, h4⟩ := bind_eq_ok.1 h2
    obtain rfl := Except.ok.inj h4
    intro n hn
    cases b with
    | false =>
      obtain ⟨i1, i2⟩ := ih _ h3 n (by simpa using hn)
      exact ⟨List.mem_cons_of_mem _ i1, i2⟩
    | true =>
      simp only [if_true] at hn
      rcases List.mem_cons.1 hn with rfl | hn
      · exact ⟨List.mem_cons_self, h1⟩
      · obtain ⟨i1, i2⟩ := ih _ h3 n hn
        exact ⟨List.mem_cons_of_mem _ i1, i2⟩

theorem fitsStrict_of_lt (time n : Nat) (tab : Table) (h : ∀ e ∈ tab, time + p.duration n < e.2.length) : ∃ b, fitsStrict p time n tab = .ok b := by
  induction tab with
  | nil => exact ⟨_, rfl⟩
  | cons e tab ih =>
    obtain ⟨b, hb⟩ := enough_of_lt (need := p.need n e.1) e.2 (List.range' time (p.duration n + 1)) (fun t ht => by
      have := List.mem_range'_1.1 ht
      have := h e (by simp)
      omega)
    rw [fitsStrict, hb, bind_ok]
    cases b with
    | false => exact ⟨_, rfl⟩
    | true => exact ih fun e' he' => h e' (List.mem_cons_of_mem _ he')

theorem possible_of_lt (tab : Table) (time : Nat) (l : List Nat) (h : ∀ n ∈ l, ∀ e ∈ tab, time + p.duration n < e.2.length) :
    ∃ l', possible p tab time l = .ok l' := by
  induction l with
  | nil => exact ⟨_, rfl⟩
  | cons x l ih =>
    obtain ⟨b, hb⟩ := fitsStrict_of_lt time x tab (h x (by simp))
    obtain ⟨l', hl⟩ := ih fun n hn => h n (List.mem_cons_of_mem _ hn)
    rw [possible, hb, bind_ok, hl, bind_ok]
    exact ⟨_, rfl⟩

/-! ### The invariant -/

structure CInv (p : Project) (calendar : String → List Int) (D : Nat → Bool) (cs : CSt) : Prop where
  core : Core (bare p) D cs.st
  rows : ∃ row, Rows p calendar cs.st.sched cs.tab row
  loads : ∀ r ∈ p.resources, ∀ t, load p cs.st.sched r t ≤ capAt (calendar r) t
  ends : ∀ r ∈ p.resources, ∀ a s e, (a, (s, e)) ∈ cs.st.sched → s < e → e ≤ width calendar r
  source : (1, (0, 0)) ∈ cs.st.sched

theorem load_nil_of_end {sched : Schedule} {r : String} {t : Nat} (h : ∀ a s e, (a, (s, e)) ∈ sched → e ≤ t ∨ t < s ∨ s = e) : load p sched r t = 0 := by
  have : sched.filter (fun x => decide (x.2.1 ≤ t ∧ t < x.2.2)) = [] := by
    apply List.filter_eq_nil_iff.2
    rintro ⟨a, s, e⟩ hx
    have := h a s e hx
    simp only [decide_eq_true_eq]
    omega
  rw [load, this]
  rfl

theorem load_append (sched : Schedule) (x : Nat) (v : Nat × Nat) (r : String) (t : Nat) :
    load p (sched ++ [(x, v)]) r t = load p sched r t + if v.1 ≤ t ∧ t < v.2 then p.need x r else 0 := by
  rw [load, List.filter_append, List.map_append, List.sum_append, load]
  by_cases h : v.1 ≤ t ∧ t < v.2
  · simp [h]
  · simp [h]

theorem start_cinv (hwf : p.Wf) (hcal : ∀ r ∈ p.resources, calendar r ≠ [] ∧ ∀ v ∈ calendar r, 0 ≤ v) :
    CInv p calendar (fun b => b == 1) ⟨start (bare p), table p calendar⟩ := by
  classical
  have hs : ∀ a s e, (a, (s, e)) ∈ (start (bare p)).sched → a = 1 ∧ s = 0 ∧ e = 0 := by
    intro a s e h
    simpa [start, release] using h
  have hl : ∀ r t, load p (start (bare p)).sched r t = 0 := fun r t => by
    simp [load, start, release]
  refine ⟨start_core (bare_wf hwf), ⟨fun r => if r ∈ p.resources then calendar r ++ List.replicate 100 ((calendar r).getLast?.getD 0)
      else (List.range (width calendar r)).map fun t => capAt (calendar r) t, ?_, ?_, ?_⟩, ?_, ?_, by simp [start, release]⟩
  · rw [table]
    exact List.map_congr_left fun r hr => by rw [if_pos hr]
  · intro r
    split
    · simp [width]
    · simp
  · intro r t ht
    rw [hl, Int.sub_zero]
    split
    · rename_i hr
      exact row_get (hcal r hr).1 ht
    · simp [List.getElem?_map, List.getElem?_range ht]
  · intro r hr t
    show load p (start (bare p)).sched r t ≤ _
    rw [hl]
    have h1 := (hcal r hr).1
    have : min t ((calendar r).length - 1) < (calendar r).length := by
      have := List.length_pos_iff.2 h1
      omega
    rw [capAt, List.getD_eq_getElem?_getD, List.getElem?_eq_getElem this]
    exact (hcal r hr).2 _ (List.getElem_mem this)
  · intro r _ a s e hm hlt
    obtain ⟨_, rfl, rfl⟩ := hs a s e hm
    omega

/-- An available activity that fits is started. -/
theorem CInv.begin (h : CInv p calendar D cs) (hwf : p.Wf) {x : Nat} (hx : x ∈ cs.st.avail)
    (hf : ∀ row, Rows p calendar cs.st.sched cs.tab row → ∀ r ∈ p.resources, ∀ t, cs.st.time ≤ t → t < cs.st.time + p.duration x → t < width calendar r →
      ∃ v, (row r)[t]? = some v ∧ p.need x r ≤ v)
    {tab : Table} (hb : book p cs.st.time x cs.tab = .ok tab) : CInv p calendar D ⟨Pile.begin p cs.st x, tab⟩ := by
  classical
  have hwf' := bare_wf hwf
  have hfit : Pile.fits (bare p) cs.st x = true := by
    rw [h.core.fits_iff]
    intro r hr; cases hr
  have hcore : Core (bare p) D (Pile.begin p cs.st x) := h.core.begin hwf' hx hfit
  obtain ⟨x1, x2, x3⟩ := (h.core.wait.avail x).1 hx
  have hk : x ∉ Dict.keys cs.st.sched := by
    show x ∉ cs.st.sched.map (·.1)
    rw [h.core.keys]; exact x2
  have hs : (Pile.begin p cs.st x).sched = cs.st.sched ++ [(x, (cs.st.time, cs.st.time + p.duration x))] := set_fresh _ hk
  obtain ⟨row, hrow⟩ := h.rows
  rw [hrow.tab] at hb
  obtain ⟨row', e1, e2⟩ := book_spec _ _ _ _ _ hb
  refine ⟨hcore, ⟨fun r => if r ∈ p.resources then row' r else (List.range (width calendar r)).map fun t => capAt (calendar r) t - load p (Pile.begin p cs.st x).sched r t,
    ?_, ?_, ?_⟩, ?_, ?_, ?_⟩
  · rw [e1]
    exact List.map_congr_left fun r hr => by rw [if_pos hr]
  · intro r
    split
    · rename_i hr
      rw [(take_ok _ _ _ _ (e2 r hr)).1, hrow.length]
    · simp
  · intro r t ht
    split
    · rename_i hr
      obtain ⟨_, _, hget⟩ := take_ok _ _ _ _ (e2 r hr)
      rw [hget, hrow.entry r t ht]
      show _ = some (_ - load p (Pile.begin p cs.st x).sched r t)
      rw [hs, load_append]
      simp only
      split
      · simp only [Option.map_some, Option.some.injEq]; omega
      · simp
    · simp [List.getElem?_map, List.getElem?_range ht]
  · intro r hr t
    show load p (Pile.begin p cs.st x).sched r t ≤ _
    rw [hs, load_append]
    simp only
    have h0 := h.loads r hr t
    split
    · rename_i hc
      obtain ⟨_, hw, _⟩ := take_ok _ _ _ _ (e2 r hr)
      rw [hrow.length] at hw
      have ht : t < width calendar r := by omega
      obtain ⟨v, hv, hle⟩ := hf row hrow r hr t hc.1 hc.2 ht
      rw [hrow.entry r t ht] at hv
      have := Option.some.inj hv
      omega
    · omega
  · intro r hr a s e hm hlt
    change (a, (s, e)) ∈ (Pile.begin p cs.st x).sched at hm
    rw [hs] at hm
    rcases List.mem_append.1 hm with hm | hm
    · exact h.ends r hr a s e hm hlt
    · simp only [List.mem_singleton, Prod.mk.injEq] at hm
      obtain ⟨rfl, rfl, rfl⟩ := hm
      obtain ⟨_, hw, _⟩ := take_ok _ _ _ _ (e2 r hr)
      rw [hrow.length] at hw
      omega
  · show _ ∈ (Pile.begin p cs.st x).sched
    rw [hs]
    exact List.mem_append_left _ h.source

theorem bare_free (h : Core (bare p) D cs.st) : cs.st.free = [] := by rw [h.free]; rfl

theorem advance_some {st : St} (hfree : st.free = []) (hq : st.queue ≠ []) : Pile.advance (bare p) st = .ok (advance st) := by
  rw [Pile.advance, advance]
  cases hp : popMin st.queue with
  | none => exact absurd (popMin_none hp) hq
  | some x =>
    obtain ⟨⟨t, a⟩, q⟩ := x
    simp only
    congr 1
    have hf : (release a { st with queue := q, time := t }).free = [] := hfree
    rw [hf]
    simp only [List.map_nil]
    rw [← hf]

theorem CInv.next (h : CInv p calendar D cs) {st : St} {D' : Nat → Bool} (hc : Core (bare p) D' st) (hs : st.sched = cs.st.sched) :
    CInv p calendar D' ⟨st, cs.tab⟩ :=
  ⟨hc, by obtain ⟨row, hr⟩ := h.rows; exact ⟨row, by rw [hs]; exact hr⟩, by rw [hs]; exact h.loads, by rw [hs]; exact h.ends, by rw [hs]; exact h.source⟩

theorem CInv.advance (h : CInv p calendar D cs) (hwf : p.Wf) : ∃ D', CInv p calendar D' ⟨advance cs.st, cs.tab⟩ := by
  by_cases hq : cs.st.queue = []
  · have he : Calendar.advance cs.st = { cs.st with time := cs.st.time + 1 } := by
      have hp : popMin cs.st.queue = none := by rw [hq]; rfl
      rw [Calendar.advance, hp]
    rw [he]
    have hc := h.core
    refine ⟨D, h.next ⟨hc.keys, hc.nodup, hc.range, fun a s e hm => ?_, hc.heapNodup, fun e a hm => ?_, fun a s e hm => ?_, hc.ended,
      ⟨hc.wait.1, hc.wait.2, hc.wait.3, hc.wait.4⟩, hc.free, hc.room, hc.prec, hc.loads, hc.mono, hc.order⟩ rfl⟩
    · obtain ⟨h1, h2⟩ := hc.entry a s e hm
      exact ⟨Nat.le_succ_of_le h1, h2⟩
    · change _ ∈ cs.st.queue at hm
      rw [hq] at hm; cases hm
    · exact (hc.over a s e hm).imp_right Nat.le_succ_of_le
  · obtain ⟨⟨D', hc⟩, _, hs, _⟩ := h.core.advance (bare_wf hwf) (advance_some (bare_free h.core) hq)
    exact ⟨D', h.next hc hs⟩

/-! ### The loops -/

/-- The offered activities are available and find enough while they run. -/
def Offer (p : Project) (calendar : String → List Int) (cs : CSt) (l : List Nat) : Prop :=
  ∀ x ∈ l, x ∈ cs.st.avail ∧ ∀ row, Rows p calendar cs.st.sched cs.tab row → ∀ r ∈ p.resources, ∀ t, cs.st.time ≤ t → t < cs.st.time + p.duration x →
    t < width calendar r → ∃ v, (row r)[t]? = some v ∧ p.need x r ≤ v

theorem offer_fits (harr : ∀ l, (arrange l).Perm l) : Offer p calendar cs ((arrange cs.st.avail).filter (fits p cs.tab cs.st.time)) := by
  intro x hx
  obtain ⟨h1, h2⟩ := List.mem_filter.1 hx
  refine ⟨(harr _).mem_iff.1 h1, fun row hrow r hr t t1 t2 t3 => ?_⟩
  rw [fits, List.all_eq_true] at h2
  have h3 := h2 (r, row r) (by rw [hrow.tab]; exact List.mem_map_of_mem hr)
  rw [List.all_eq_true] at h3
  have h4 := of_decide_eq_true (h3 t (List.mem_range'_1.2 ⟨t1, t2⟩))
  have hlen := hrow.length r
  have he := hrow.entry r t t3
  refine ⟨_, he, ?_⟩
  rw [Nat.min_eq_left (by simp only; omega), List.getD_eq_getElem?_getD, he] at h4
  exact h4

theorem offer_possible (harr : ∀ l, (arrange l).Perm l) {l : List Nat} (h : possible p cs.tab cs.st.time (arrange cs.st.avail) = .ok l) :
    Offer p calendar cs l := by
  intro x hx
  obtain ⟨h1, h2⟩ := possible_mem _ _ _ _ h x hx
  refine ⟨(harr _).mem_iff.1 h1, fun row hrow r hr t t1 t2 t3 => ?_⟩
  exact fitsStrict_true _ _ _ h2 (r, row r) (by rw [hrow.tab]; exact List.mem_map_of_mem hr) t t1 (by omega)

theorem fill_inv (hwf : p.Wf) (harr : ∀ l, (arrange l).Perm l) (hpick : Sound pick) (n : Nat) (cs cs' : CSt) (l : List Nat)
    (h : CInv p calendar D cs) (hl : Offer p calendar cs l) (hcs : fill p arrange pick n cs l = .ok cs') :
    CInv p calendar D cs' ∧ cs.st.sched.length + cs'.st.queue.length = cs'.st.sched.length + cs.st.queue.length := by
  induction n generalizing cs l with
  | zero =>
    cases l <;> (obtain rfl := Except.ok.inj hcs; exact ⟨h, rfl⟩)
  | succ n ih =>
    cases l with
    | nil => obtain rfl := Except.ok.inj hcs; exact ⟨h, rfl⟩
    | cons x l =>
      rw [fill] at hcs
      obtain ⟨a, h1, h2⟩ := bind_eq_ok.1 hcs
      obtain ⟨tab, h3, h4⟩ := bind_eq_ok.1 h2
      obtain ⟨l', h5, h6⟩ := bind_eq_ok.1 h4
      obtain ⟨ha, hf⟩ := hl a (hpick _ _ _ h1)
      have hi := h.begin hwf ha hf h3
      obtain ⟨i1, i2⟩ := ih ⟨Pile.begin p cs.st a, tab⟩ l' hi (offer_possible (cs := ⟨Pile.begin p cs.st a, tab⟩) harr h5) h6
      refine ⟨i1, ?_⟩
      have hk : a ∉ Dict.keys cs.st.sched := by
        show a ∉ cs.st.sched.map (·.1)
        rw [h.core.keys]; exact ((h.core.wait.avail a).1 ha).2.1
      have hs : (Pile.begin p cs.st a).sched.length = cs.st.sched.length + 1 := by
        rw [show (Pile.begin p cs.st a).sched = cs.st.sched ++ [(a, (cs.st.time, cs.st.time + p.duration a))] from set_fresh _ hk]; simp
      have hq : (Pile.begin p cs.st a).queue.length = cs.st.queue.length + 1 := rfl
      simp only at i2
      omega

theorem loop_inv (hwf : p.Wf) (harr : ∀ l, (arrange l).Perm l) (hpick : Sound pick) (n : Nat) (cs cs' : CSt) (h : CInv p calendar D cs)
    (hcs : loop p arrange pick n cs = .ok (some cs')) : (∃ D', CInv p calendar D' cs') ∧ p.count ≤ cs'.st.sched.length := by
  induction n generalizing cs D with
  | zero =>
    rw [loop] at hcs
    split at hcs
    · cases hcs
    · obtain rfl := Option.some.inj (Except.ok.inj hcs)
      exact ⟨⟨_, h⟩, by omega⟩
  | succ n ih =>
    rw [loop] at hcs
    split at hcs
    · obtain ⟨cs1, h1, h2⟩ := bind_eq_ok.1 hcs
      obtain ⟨i1, _⟩ := fill_inv hwf harr hpick _ _ _ _ h (offer_fits harr) h1
      obtain ⟨D', i3⟩ := i1.advance hwf
      exact ih _ i3 h2
    · obtain rfl := Option.some.inj (Except.ok.inj hcs)
      exact ⟨⟨_, h⟩, by omega⟩

/-! ### When it ends -/

/-- The time and the ends are at most the sum of the durations of the started ones. -/
def Short (p : Project) (st : St) : Prop :=
  st.time ≤ (st.started.map p.duration).sum ∧ ∀ a s e, (a, (s, e)) ∈ st.sched → e ≤ (st.started.map p.duration).sum

theorem Short.begin {st : St} (h : Short p st) {x : Nat} (hk : x ∉ Dict.keys st.sched) : Short p (Pile.begin p st x) := by
  have hs : ((Pile.begin p st x).started.map p.duration).sum = (st.started.map p.duration).sum + p.duration x := by
    show ((st.started ++ [x]).map p.duration).sum = _
    simp
  refine ⟨?_, fun a s e hm => ?_⟩
  · rw [hs]; exact Nat.le_add_right_of_le h.1
  · rw [hs]
    rw [show (Pile.begin p st x).sched = st.sched ++ [(x, (st.time, st.time + p.duration x))] from set_fresh _ hk] at hm
    rcases List.mem_append.1 hm with hm | hm
    · have := h.2 a s e hm
      omega
    · simp only [List.mem_singleton, Prod.mk.injEq] at hm
      have := h.1
      omega

/-- What lets every project be finished: no cycle, at all times every activity fits alone, and the rows are long enough. -/
structure Possible (p : Project) (calendar : String → List Int) (rank : Nat → Nat) : Prop where
  acyclic : ∀ n, 1 ≤ n → n ≤ p.count → ∀ b ∈ p.pred n, rank b < rank n
  alone : ∀ n r, 1 ≤ n → n ≤ p.count → r ∈ p.resources → ∀ v ∈ calendar r, p.need n r ≤ v
  long : ∀ r ∈ p.resources, ((nodes p).map p.duration).sum < (calendar r).length + 100

theorem short_lt {rank : Nat → Nat} (hp : Possible p calendar rank) (h : CInv p calendar D cs) (hs : Short p cs.st) {x : Nat} (hx : x ∈ cs.st.avail) {r : String} (hr : r ∈ p.resources) :
    cs.st.time + p.duration x < width calendar r := by
  obtain ⟨x1, x2, x3⟩ := (h.core.wait.avail x).1 hx
  have h1 := hp.long r hr
  have h2 : (((x :: cs.st.started).map fun n => (p.duration n : Int))).sum ≤ ((nodes p).map fun n => (p.duration n : Int)).sum :=
    sum_le_of_subset _ _ (List.nodup_cons.2 ⟨fun hm => x2 (List.mem_cons_of_mem _ hm), (List.nodup_cons.1 h.core.nodup).2⟩)
      (fun a ha => by
        rcases List.mem_cons.1 ha with rfl | ha
        · exact x1
        · exact mem_nodes.2 (h.core.range a ha))
      (fun a ha => Int.natCast_nonneg _)
  have hcast : ∀ l : List Nat, (l.map fun n => (p.duration n : Int)).sum = ((l.map p.duration).sum : Nat) := by
    intro l
    induction l with
    | nil => rfl
    | cons a l ih => simp only [List.map_cons, List.sum_cons, ih]; push_cast; rfl
  rw [hcast, hcast] at h2
  simp only [List.map_cons, List.sum_cons] at h2
  have h3 := hs.1
  rw [width]
  omega

theorem fill_ok (hwf : p.Wf) (harr : ∀ l, (arrange l).Perm l) (hpick : Sound pick) (htot : Total p pick) {rank : Nat → Nat} (hp : Possible p calendar rank)
    (n : Nat) (cs : CSt) (l : List Nat) (h : CInv p calendar D cs) (hl : Offer p calendar cs l) (hs : Short p cs.st) :
    ∃ cs', fill p arrange pick n cs l = .ok cs' ∧ Short p cs'.st ∧ (l ≠ [] → 0 < n → cs'.st.queue ≠ []) ∧ (cs.st.queue ≠ [] → cs'.st.queue ≠ []) := by
  induction n generalizing cs l with
  | zero => cases l <;> exact ⟨cs, rfl, hs, fun _ h0 => absurd h0 (Nat.lt_irrefl 0), id⟩
  | succ n ih =>
    cases l with
    | nil => exact ⟨cs, rfl, hs, fun h0 => absurd rfl h0, id⟩
    | cons x l =>
      obtain ⟨a, ha⟩ := htot cs.st.started (x :: l) (by simp) h.core.nodup (fun a ha => by
        obtain ⟨a1, a2, _⟩ := (h.core.wait.avail a).1 (hl a ha).1
        exact ⟨(mem_nodes.1 a1).1, (mem_nodes.1 a1).2, a2⟩)
      obtain ⟨hav, hf⟩ := hl a (hpick _ _ _ ha)
      obtain ⟨row, hrow⟩ := h.rows
      obtain ⟨tab, htab⟩ := book_of_le (p := p) cs.st.time a p.resources row (fun r hr => by
        rw [hrow.length]; exact Nat.le_of_lt (short_lt hp h hs hav hr))
      rw [← hrow.tab] at htab
      have hi := h.begin hwf hav hf htab
      have hk : a ∉ Dict.keys cs.st.sched := by
        show a ∉ cs.st.sched.map (·.1)
        rw [h.core.keys]; exact ((h.core.wait.avail a).1 hav).2.1
      have hs' := hs.begin hk
      obtain ⟨row', hrow'⟩ := hi.rows
      obtain ⟨l', hl'⟩ := possible_of_lt (p := p) tab (Pile.begin p cs.st a).time (arrange (Pile.begin p cs.st a).avail) (fun n hn e he => by
        have hn' := (harr _).mem_iff.1 hn
        rw [show tab = p.resources.map fun r => (r, row' r) from hrow'.tab] at he
        obtain ⟨r, hr, rfl⟩ := List.mem_map.1 he
        simp only
        rw [hrow'.length]
        exact short_lt (cs := ⟨Pile.begin p cs.st a, tab⟩) hp hi hs' hn' hr)
      obtain ⟨cs', e1, e2, e3, e4⟩ := ih ⟨Pile.begin p cs.st a, tab⟩ l' hi (offer_possible (cs := ⟨Pile.begin p cs.st a, tab⟩) harr hl') hs'
      refine ⟨cs', ?_, e2, fun _ _ => e4 (by simp [Pile.begin]), fun _ => e4 (by simp [Pile.begin])⟩
      rw [fill, ha, bind_ok, htab, bind_ok]
      simp only
      rw [hl', bind_ok]
      exact e1

theorem capAt_mem {cal : List Int} (h : cal ≠ []) (t : Nat) : capAt cal t ∈ cal := by
  have : min t (cal.length - 1) < cal.length := by
    have := List.length_pos_iff.2 h
    omega
  rw [capAt, List.getD_eq_getElem?_getD, List.getElem?_eq_getElem this]
  exact List.getElem_mem this

theorem fits_of_empty (hcal : ∀ r ∈ p.resources, calendar r ≠ []) {rank : Nat → Nat} (hp : Possible p calendar rank) (h : CInv p calendar D cs) (hs : Short p cs.st) (hq : cs.st.queue = []) {x : Nat}
    (hx : x ∈ cs.st.avail) : fits p cs.tab cs.st.time x = true := by
  obtain ⟨row, hrow⟩ := h.rows
  rw [fits, List.all_eq_true, hrow.tab]
  intro e he
  obtain ⟨r, hr, rfl⟩ := List.mem_map.1 he
  rw [List.all_eq_true]
  intro t ht
  have ht := (List.mem_range'_1.1 ht).1
  apply decide_eq_true
  simp only
  have hlen := hrow.length r
  have hw := short_lt hp h hs hx hr
  have hi : min t ((row r).length - 1) < width calendar r := by omega
  rw [List.getD_eq_getElem?_getD, hrow.entry r _ hi, load_nil_of_end]
  · obtain ⟨x1, _⟩ := (h.core.wait.avail x).1 hx
    have := hp.alone x r (mem_nodes.1 x1).1 (mem_nodes.1 x1).2 hr _ (capAt_mem (hcal r hr) (min t ((row r).length - 1)))
    simpa using this
  · intro a s e hm
    rcases h.core.over a s e hm with hc | hc
    · rw [hq] at hc; cases hc
    · left; omega

theorem loop_ok (hwf : p.Wf) (hcal : ∀ r ∈ p.resources, calendar r ≠ []) (harr : ∀ l, (arrange l).Perm l) (hpick : Sound pick) (htot : Total p pick) {rank : Nat → Nat} (hp : Possible p calendar rank)
    (n : Nat) (cs : CSt) (h : CInv p calendar D cs) (hs : Short p cs.st) (hn : p.count + 1 ≤ n + (cs.st.sched.length - cs.st.queue.length)) :
    ∃ cs', loop p arrange pick n cs = .ok (some cs') := by
  induction n generalizing cs D with
  | zero =>
    have := h.core.sched_le (bare_wf hwf)
    change _ ≤ p.count at this
    omega
  | succ n ih =>
    rw [loop]
    split
    · rename_i hlt
      obtain ⟨cs1, h1, h2, h3, h4⟩ := fill_ok hwf harr hpick htot hp cs.st.avail.length cs _ h (offer_fits harr) hs
      obtain ⟨i1, i3⟩ := fill_inv hwf harr hpick _ _ _ _ h (offer_fits harr) h1
      rw [h1, bind_ok]
      have hq : cs1.st.queue ≠ [] := by
        by_cases hq : cs.st.queue = []
        · obtain ⟨x, hx⟩ := h.core.exists_ready (bare_wf hwf) hp.acyclic hlt hq
          refine h3 (List.ne_nil_of_mem (a := x) (List.mem_filter.2 ⟨(harr _).mem_iff.2 hx, ?_⟩)) (List.length_pos_of_mem hx)
          exact fits_of_empty hcal hp h hs hq hx
        · exact h4 hq
      obtain ⟨⟨D', i4⟩, i5, i6, i7, a, hta, hmin⟩ := i1.core.advance (bare_wf hwf) (advance_some (bare_free i1.core) hq)
      refine ih ⟨advance cs1.st, cs1.tab⟩ (i1.next i4 i6) ⟨?_, ?_⟩ ?_
      · simp only [i7]
        obtain ⟨_, _, s, hm⟩ := i1.core.heap _ _ hta
        exact h2.2 _ _ _ hm
      · simp only [i6, i7]
        exact h2.2
      · have := h.core.queue_le
        have := i1.core.queue_le
        have := i4.queue_le
        simp only
        rw [i6]
        omega
    · exact ⟨_, rfl⟩

end Verif.Pile.Calendar
