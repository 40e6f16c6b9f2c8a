import Mathlib.Algebra.BigOperators.Group.List.Basic
import Verif.Lemmas.MultiSkill
/- The invariant of the main loop of multi-skill schedule generation. -/
namespace Verif.MultiSkill
open Verif.Rcpsp (Mode dict_get_ok bookWindow_spec bump_spec pyRemove_ok snoc_split)

/-- One activity that has been placed: its mode, its start, the workers engaged for it and the skills noted for them. -/
structure Placement where
  act : Nat
  mode : Mode
  start : Nat
  crew : List Nat
  usage : Dict Nat (List String)

/-- The end of the activity. -/
def Placement.stop (p : Placement) : Nat := p.start + p.mode.duration

/-- Does the activity run at time `t`? -/
def Placement.runs (p : Placement) (t : Nat) : Bool := decide (p.start ≤ t) && decide (t < p.stop)

/-- Is time `t` charged for the activity?  A renewable resource is charged while it runs, a non-renewable one from its start on. -/
def Placement.charged (nr : Bool) (p : Placement) (t : Nat) : Bool :=
  if nr then decide (p.start < p.stop) && decide (p.start ≤ t) else p.runs t

/-- The requirement of a mode. -/
def needOf (m : Mode) (res : String) : Int := (m.needs.get? res).getD 0

/-- What the placements charge of a resource at time `t`. -/
def used (nr : Bool) (res : String) (log : List Placement) (t : Nat) : Int :=
  (log.map (fun p => if p.charged nr t then needOf p.mode res else 0)).sum

/-- Is worker `w` engaged at time `t`? -/
def engagedAt (log : List Placement) (w t : Nat) : Bool := log.any (fun p => decide (w ∈ p.crew) && p.runs t)

/-- What worker `w` has of skill `s`. -/
def skillValue (pb : Problem) (w : Nat) (s : String) : Rat :=
  match pb.employees.get? w with
  | some e => (e.skills.get? s).getD 0
  | none => 0

/-- The worker has the skill. -/
def HasSkill (pb : Problem) (w : Nat) (s : String) : Prop := ∃ e, pb.employees.get? w = some e ∧ s ∈ e.skills.keys

/-- What a team has of skill `s`. -/
def teamLevel (pb : Problem) (team : List Nat) (s : String) : Rat := (team.map (skillValue pb · s)).sum

/-- Worker `w` is free for `n` times from `c` on: at work according to the calendar, and not engaged. -/
def Free (pb : Problem) (log : List Placement) (w c n : Nat) : Prop :=
  ∃ e, pb.employees.get? w = some e ∧ ∀ t, c ≤ t → t < c + n → e.calendar[t]? = some true ∧ engagedAt log w t = false

/-- The team meets the requirement. -/
def Meets (pb : Problem) (m : Mode) (team : List Nat) : Prop := ∀ q ∈ required pb m, (q.2 : Rat) ≤ teamLevel pb team q.1

/-- One worker has every required skill at the required level. -/
def Alone (pb : Problem) (m : Mode) (w : Nat) : Prop :=
  ∃ e, pb.employees.get? w = some e ∧ ∀ q ∈ required pb m, ∃ v, e.skills.get? q.1 = some v ∧ (q.2 : Rat) ≤ v

/-- The dictionaries have distinct keys. -/
structure Dicts (pb : Problem) : Prop where
  resources : pb.resources.keys.Nodup
  employees : pb.employees.keys.Nodup
  skills : ∀ w e, pb.employees.get? w = some e → e.skills.keys.Nodup
  needs : ∀ a d k m, pb.modes.get? a = some d → d.get? k = some m → m.needs.keys.Nodup

/-- The workers at hand at time `c`, among whom the team is chosen. -/
structure AtHand (pb : Problem) (log : List Placement) (m : Mode) (c : Nat) (ids : List Nat) : Prop where
  nodup : ids.Nodup
  free : ∀ w ∈ ids, Free pb log w c m.duration
  many : pb.oneUnit = false → (∀ w, Free pb log w c m.duration → w ∈ ids) ∧ Meets pb m ids
  one : pb.oneUnit = true → ∃ w, ids = [w] ∧ Alone pb m w

/-- The team chosen from the workers at hand with the priority list `l`, and what is noted about it. -/
structure Chosen (pb : Problem) (m : Mode) (ids l crew : List Nat) (usage : Dict Nat (List String)) : Prop where
  prefix_ : ∃ k, crew = (l.take k).filter (· ∈ ids) ∧ (k = l.length ∨ Meets pb m crew) ∧
    ∀ j, 0 < j → j < k → ¬ Meets pb m ((l.take j).filter (· ∈ ids))
  nodup : usage.keys.Nodup
  noted : ∀ w s, s ∈ (usage.get? w).getD [] ↔ w ∈ crew ∧ s ∈ (required pb m).keys ∧ HasSkill pb w s
  keys : ∀ w, w ∈ usage.keys ↔ w ∈ crew ∧ ∃ s, s ∈ (required pb m).keys ∧ HasSkill pb w s

/-- The team of a placement. -/
structure Staffed (pb : Problem) (prio : List (List Nat)) (pre : List Placement) (p : Placement) : Prop where
  none : required pb p.mode = [] → p.crew = [] ∧ p.usage = []
  some : required pb p.mode ≠ [] → ∃ l ids, prioOf prio p.act = .ok l ∧ AtHand pb pre p.mode p.start ids ∧ Chosen pb p.mode ids l p.crew p.usage

/-- At time `t` some resource does not suffice for `m` on top of what is placed. -/
def Short (pb : Problem) (log : List Placement) (m : Mode) (t : Nat) : Prop :=
  ∃ res row c n, pb.resources.get? res = some row ∧ row[t]? = some c ∧ m.needs.get? res = some n ∧
    c - used (pb.nonRenewable.contains res) res log t < n

/-- At time `c` the free workers do not suffice for `m`. -/
def Unstaffed (pb : Problem) (log : List Placement) (m : Mode) (c : Nat) : Prop :=
  required pb m ≠ [] ∧
  (pb.oneUnit = true → ∀ w, Free pb log w c m.duration → ¬ Alone pb m w) ∧
  (pb.oneUnit = false → ∀ team : List Nat, team.Nodup → (∀ w, w ∈ team ↔ Free pb log w c m.duration) → ¬ Meets pb m team)

/-- All predecessors of `x` among `E` are placed. -/
def Ready (pb : Problem) (E : List Nat) (log : List Placement) (x : Nat) : Prop :=
  ∀ a ss, (a, ss) ∈ pb.successors → x ∈ ss → a ∈ E → a ∈ log.map Placement.act

/-- All predecessors of `x` that are placed have ended at time `s`. -/
def Ended (pb : Problem) (log : List Placement) (x s : Nat) : Prop :=
  ∀ q ∈ log, ∀ ss, pb.successors.get? q.act = some ss → x ∈ ss → q.stop ≤ s

/-- The choice and placement of one activity, given those placed before. -/
structure Entry (pb : Problem) (prio : List (List Nat)) (ext E : List Nat) (pre : List Placement) (p : Placement) : Prop where
  mode : details pb ext p.act = .ok p.mode
  first : ∃ l1 l2, E = l1 ++ p.act :: l2 ∧ Ready pb E pre p.act ∧ ∀ x ∈ l1, x ∉ pre.map Placement.act → ¬ Ready pb E pre x
  after : Ended pb pre p.act p.start
  inside : p.stop < pb.horizon ∧ p.start ≤ pb.newHorizon ∧ (pb.resources = [] ∨ p.mode.duration = 0 ∨ p.stop ≤ pb.newHorizon)
  staffed : Staffed pb prio pre p
  earliest : ∀ s, s < p.start → Ended pb pre p.act s →
    (∃ t, s ≤ t ∧ t < s + p.mode.duration ∧ t < pb.newHorizon ∧ Short pb pre p.mode t) ∨ Unstaffed pb pre p.mode s

/-- The book-keeping agrees with the placements. -/
structure Inv (pb : Problem) (prio : List (List Nat)) (ext E : List Nat) (st : St) (log : List Placement) : Prop where
  ends : st.ends = log.map (fun p => (p.act, p.stop))
  usage : st.usage = (log.filter (fun p => !p.usage.isEmpty)).map (fun p => (p.act, p.usage))
  perm : st.perm = E.filter (fun x => !(log.map Placement.act).contains x)
  sub : ∀ p ∈ log, p.act ∈ E
  nodup : (log.map Placement.act).Nodup
  entry : ∀ pre p post, log = pre ++ p :: post → Entry pb prio ext E pre p
  low : ∀ b v, st.minStart.get? b = some v → Ended pb log b v
  high : ∀ b v, st.minStart.get? b = some v → ∀ x, Ended pb log b x → v ≤ x
  wsKeys : st.ws.keys = pb.employees.keys
  ws : ∀ w e, pb.employees.get? w = some e → ∃ cal, st.ws.get? w = some (e, cal) ∧
    ∀ t : Nat, cal[t]? = e.calendar[t]?.map (fun b => b && !engagedAt log w t)
  rowKeys : st.rows.keys = pb.resources.keys
  row : ∀ res cap, pb.resources.get? res = some cap → ∃ row, st.rows.get? res = some row ∧
    (∀ t : Nat, t < pb.newHorizon → row[t]? = cap[t]?.map (· - used (pb.nonRenewable.contains res) res log t)) ∧
    (st.nr = false → (∀ t : Nat, t < pb.newHorizon → ∀ c, cap[t]? = some c → 0 ≤ c) → ∀ t : Nat, t < pb.newHorizon → ∀ a, row[t]? = some a → 0 ≤ a)

theorem details_ok {pb : Problem} {ext : List Nat} {a : Nat} {m : Mode} (h : details pb ext a = .ok m) :
    ∃ d k, pb.modes.get? a = some d ∧ ext[a - 1]? = some k ∧ d.get? k = some m := by
  simp only [details] at h
  obtain ⟨k, hk, h⟩ := bind_eq_ok.1 h
  obtain ⟨d, hd, h⟩ := bind_eq_ok.1 h
  exact ⟨d, k, dict_get_ok.1 hd, pyGet_ok_iff.1 hk, dict_get_ok.1 h⟩

theorem get?_required {pb : Problem} {m : Mode} (hn : m.needs.keys.Nodup) : (required pb m).keys.Nodup := by
  unfold required Dict.keys
  exact hn.sublist (List.filter_sublist.map _)

section staffing
variable {pb : Problem} {prio : List (List Nat)} {ext E : List Nat} {st : St} {log : List Placement}

theorem skillIn_eq (inv : Inv pb prio ext E st log) (w : Nat) (s : String) : skillIn st.ws w s = skillValue pb w s := by
  unfold skillIn skillValue
  rcases h : pb.employees.get? w with _ | e
  · have : st.ws.get? w = none := by
      rcases h2 : st.ws.get? w with _ | x
      · rfl
      · have : w ∈ st.ws.keys := (Dict.get?_isSome_iff_mem_keys _ _).1 (by rw [h2]; rfl)
        rw [inv.wsKeys, ← Dict.get?_isSome_iff_mem_keys, h] at this
        cases this
    rw [this]
  · obtain ⟨cal, hc, _⟩ := inv.ws w e h
    rw [hc]

theorem has_iff (inv : Inv pb prio ext E st log) (w : Nat) (s : String) : Has st.ws w s ↔ HasSkill pb w s := by
  unfold Has HasSkill
  constructor
  · rintro ⟨e, cal, h, hs⟩
    have : w ∈ st.ws.keys := (Dict.get?_isSome_iff_mem_keys _ _).1 (by rw [h]; rfl)
    rw [inv.wsKeys, ← Dict.get?_isSome_iff_mem_keys] at this
    obtain ⟨e', he'⟩ := Option.isSome_iff_exists.1 this
    obtain ⟨cal', hc, _⟩ := inv.ws w e' he'
    rw [h] at hc; cases hc
    exact ⟨e, he', hs⟩
  · rintro ⟨e, he, hs⟩
    obtain ⟨cal', hc, _⟩ := inv.ws w e he
    exact ⟨e, cal', hc, hs⟩

/-- The free workers in the book-keeping are the free workers. -/
theorem free_iff (hd : Dicts pb) (inv : Inv pb prio ext E st log) {n c : Nat} {ids : List (Nat × Employee)} (h : freeWorkers n c st.ws = .ok ids) :
    (∀ w e, (w, e) ∈ ids → pb.employees.get? w = some e) ∧ (∀ w, w ∈ ids.map Prod.fst ↔ Free pb log w c n) ∧ (ids.map Prod.fst).Nodup := by
  obtain ⟨h1, h2, h3⟩ := freeWorkers_spec n c _ _ h
  have hnd : st.ws.keys.Nodup := by rw [inv.wsKeys]; exact hd.employees
  have key : ∀ w e cal, (w, (e, cal)) ∈ st.ws → pb.employees.get? w = some e ∧ ∀ t : Nat, cal[t]? = e.calendar[t]?.map (fun b => b && !engagedAt log w t) := by
    intro w e cal hm
    have hg := Dict.get?_of_mem hnd hm
    have : w ∈ st.ws.keys := (Dict.get?_isSome_iff_mem_keys _ _).1 (by rw [hg]; rfl)
    rw [inv.wsKeys, ← Dict.get?_isSome_iff_mem_keys] at this
    obtain ⟨e', he'⟩ := Option.isSome_iff_exists.1 this
    obtain ⟨cal', hc, hcal⟩ := inv.ws w e' he'
    rw [hg] at hc; cases hc
    exact ⟨he', hcal⟩
  refine ⟨fun w e hm => ?_, fun w => ⟨fun hm => ?_, fun hf => ?_⟩, hnd.sublist h3⟩
  · obtain ⟨cal, hc, _⟩ := h1 w e hm
    exact (key w e cal hc).1
  · obtain ⟨⟨w', e⟩, hm2, rfl⟩ := List.mem_map.1 hm
    obtain ⟨cal, hc, hfree⟩ := h1 w' e hm2
    obtain ⟨k1, k2⟩ := key w' e cal hc
    refine ⟨e, k1, fun t t1 t2 => ?_⟩
    have := hfree t t1 t2
    rw [k2 t] at this
    rcases hcal : e.calendar[t]? with _ | b
    · rw [hcal] at this; cases this
    · rw [hcal] at this
      simp only [Option.map_some, Option.some.injEq, Bool.and_eq_true, Bool.not_eq_eq_eq_not, Bool.not_true] at this
      exact ⟨by rw [this.1], this.2⟩
  · obtain ⟨e, he, hfree⟩ := hf
    obtain ⟨cal, hc, hcal⟩ := inv.ws w e he
    rcases h2 w e cal (Dict.mem_of_get? hc) with h | ⟨t, t1, t2, t3⟩
    · exact List.mem_map.2 ⟨_, h, rfl⟩
    · exfalso
      obtain ⟨f1, f2⟩ := hfree t t1 t2
      rw [hcal t, f1, f2] at t3
      cases t3

theorem level_eq {ids : List (Nat × Employee)} (h : ∀ w e, (w, e) ∈ ids → pb.employees.get? w = some e) (s : String) :
    level s ids = teamLevel pb (ids.map Prod.fst) s := by
  induction ids with
  | nil => rfl
  | cons p ids ih =>
    obtain ⟨w, e⟩ := p
    have := ih (fun w e hm => h w e (by simp [hm]))
    simp only [level, teamLevel, List.map_cons, List.sum_cons] at this ⊢
    rw [this]
    congr 1
    simp only [skillValue, h w e (by simp)]
    cases e.skills.get? s <;> rfl

theorem covers_iff {m : Mode} {e : Employee} {w : Nat} (he : pb.employees.get? w = some e) : covers (required pb m) e = true ↔ Alone pb m w := by
  unfold covers Alone
  rw [List.all_eq_true]
  constructor
  · intro h
    refine ⟨e, he, fun q hq => ?_⟩
    have := h q hq
    rcases hv : e.skills.get? q.1 with _ | v
    · rw [hv] at this; cases this
    · rw [hv] at this; exact ⟨v, rfl, by simpa using this⟩
  · rintro ⟨e', he', h⟩ q hq
    rw [he] at he'; cases he'
    obtain ⟨v, hv, hle⟩ := h q hq
    rw [hv]; simpa using hle

theorem staff_ok (hd : Dicts pb) (inv : Inv pb prio ext E st log) {m : Mode} {c : Nat} {x : Option (List Nat)} (h : staff pb m st.ws c = .ok (true, x)) :
    (required pb m = [] → x = none) ∧ (required pb m ≠ [] → ∃ ids, x = some ids ∧ AtHand pb log m c ids) := by
  unfold staff at h
  split at h
  · rename_i hr
    cases h
    exact ⟨fun _ => rfl, fun h => absurd (List.isEmpty_iff.1 hr) h⟩
  · rename_i hr
    have hr' : required pb m ≠ [] := fun h => hr (by rw [h]; rfl)
    obtain ⟨ids, hids, h⟩ := bind_eq_ok.1 h
    obtain ⟨f1, f2, f3⟩ := free_iff hd inv hids
    refine ⟨fun h => absurd h hr', fun _ => ?_⟩
    split at h
    · rename_i ho
      split at h
      · rename_i p hp
        cases h
        have hmem := List.mem_of_find?_eq_some hp
        have hcov := List.find?_some hp
        refine ⟨[p.1], rfl, by simp, fun w hw => ?_, fun h => by (rw [h] at ho; cases ho), fun _ => ⟨p.1, rfl, ?_⟩⟩
        · simp only [List.mem_singleton] at hw
          subst hw
          exact (f2 p.1).1 (List.mem_map.2 ⟨p, hmem, rfl⟩)
        · exact (covers_iff (f1 p.1 p.2 hmem)).1 hcov
      · cases h
    · rename_i ho
      split at h
      · rename_i hall
        cases h
        refine ⟨_, rfl, f3, fun w hw => (f2 w).1 hw, fun _ => ⟨fun w hw => (f2 w).2 hw, fun q hq => ?_⟩, fun h => absurd h ho⟩
        have := List.all_eq_true.1 hall q hq
        rw [← level_eq f1]
        simpa using this
      · cases h

theorem staff_no (hd : Dicts pb) (inv : Inv pb prio ext E st log) {m : Mode} {c : Nat} {x : Option (List Nat)} (h : staff pb m st.ws c = .ok (false, x)) :
    Unstaffed pb log m c := by
  unfold staff at h
  split at h
  · cases h
  · rename_i hr
    have hr' : required pb m ≠ [] := fun h => hr (by rw [h]; rfl)
    obtain ⟨ids, hids, h⟩ := bind_eq_ok.1 h
    obtain ⟨f1, f2, f3⟩ := free_iff hd inv hids
    refine ⟨hr', ?_, ?_⟩
    · intro ho w hw ha
      rw [if_pos ho] at h
      split at h
      · cases h
      · rename_i hp
        obtain ⟨⟨w', e⟩, hm, rfl⟩ := List.mem_map.1 ((f2 w).2 hw)
        have := List.find?_eq_none.1 hp (w', e) hm
        exact this ((covers_iff (f1 _ _ hm)).2 ha)
    · intro ho team hteam hiff hmeets
      rw [if_neg (by rw [ho]; exact Bool.false_ne_true)] at h
      split at h
      · cases h
      · rename_i hall
        apply hall
        rw [List.all_eq_true]
        intro q hq
        rw [decide_eq_true_iff, level_eq f1]
        have hperm : team.Perm (ids.map Prod.fst) := (List.perm_ext_iff_of_nodup hteam f3).2 (fun w => by rw [hiff w, f2 w])
        have : teamLevel pb team q.1 = teamLevel pb (ids.map Prod.fst) q.1 := (hperm.map _).sum_eq
        rw [← this]
        exact hmeets q hq

theorem met_iff {m : Mode} (hn : m.needs.keys.Nodup) {cur : Dict String Rat} {team : List Nat}
    (hc : ∀ s, cur.get? s = ((zeros (required pb m)).get? s).map (· + teamLevel pb team s)) :
    met (required pb m) cur = true ↔ Meets pb m team := by
  have hz : ∀ q ∈ required pb m, cur.get? q.1 = some (teamLevel pb team q.1) := by
    intro q hq
    have : Dict.get? (zeros (required pb m)) q.1 = some 0 := by
      apply Dict.get?_of_mem
      · have : Dict.keys (zeros (required pb m)) = (required pb m).keys := by simp [Dict.keys, zeros]
        rw [this]; exact get?_required hn
      · exact List.mem_map.2 ⟨q, hq, rfl⟩
    rw [hc q.1, this]; simp
  unfold met Meets
  rw [List.all_eq_true]
  constructor
  · intro h q hq
    have := h q hq
    rw [hz q hq] at this
    simpa using this
  · intro h q hq
    rw [hz q hq]
    simpa using h q hq

/-- The loop over workers chooses the team, notes its skills and blocks its calendars. -/
theorem assign_chosen (hd : Dicts pb) (inv : Inv pb prio ext E st log) {m : Mode} (hn : m.needs.keys.Nodup) {c : Nat} {ids : List Nat}
    (hids : ∀ w ∈ ids, w ∈ pb.employees.keys) (l : List Nat) :
    ∃ crew, Chosen pb m ids l crew (assign (required pb m) ids m.duration c l ⟨zeros (required pb m), [], st.ws⟩).usage ∧
      (assign (required pb m) ids m.duration c l ⟨zeros (required pb m), [], st.ws⟩).ws.keys = st.ws.keys ∧
      ∀ w e cal, st.ws.get? w = some (e, cal) → ∃ cal',
        (assign (required pb m) ids m.duration c l ⟨zeros (required pb m), [], st.ws⟩).ws.get? w = some (e, cal') ∧
        ∀ t : Nat, cal'[t]? = cal[t]?.map (fun b => b && !(decide (w ∈ crew) && (decide (c ≤ t) && decide (t < c + m.duration)))) := by
  obtain ⟨k, h1, h2, h3⟩ := assign_spec (required pb m) ids m.duration c l ⟨zeros (required pb m), [], st.ws⟩
  have hspec : ∀ j, _ := fun j => engageAll_spec m.duration c ((l.take j).filter (· ∈ ids)) ⟨zeros (required pb m), [], st.ws⟩
    (by
      intro w hw
      rw [show Asg.ws _ = st.ws from rfl, inv.wsKeys]
      exact hids w (by simpa using (List.mem_filter.1 hw).2))
    (by
      intro w e cal h
      have h : st.ws.get? w = some (e, cal) := h
      have : w ∈ st.ws.keys := (Dict.get?_isSome_iff_mem_keys _ _).1 (by rw [h]; rfl)
      rw [inv.wsKeys, ← Dict.get?_isSome_iff_mem_keys] at this
      obtain ⟨e', he'⟩ := Option.isSome_iff_exists.1 this
      obtain ⟨cal', hc, _⟩ := inv.ws w e' he'
      rw [h] at hc; cases hc
      exact hd.skills w e he')
  have hk : Dict.keys (zeros (required pb m)) = (required pb m).keys := by simp [Dict.keys, zeros]
  have hmet : ∀ j, met (required pb m) (((l.take j).filter (· ∈ ids)).foldl (engage m.duration c)
      ⟨zeros (required pb m), [], st.ws⟩).current = true ↔ Meets pb m ((l.take j).filter (· ∈ ids)) := by
    intro j
    apply met_iff hn
    intro s
    rw [(hspec j).2.2.2.1 s]
    congr 1
    funext x
    congr 1
    unfold teamLevel
    congr 1
    exact List.map_congr_left (fun w _ => skillIn_eq inv w s)
  obtain ⟨g1, g2, g3, g4, g5, g6, g7⟩ := hspec k
  rw [← h1] at g1 g2 g3 g4 g5 g6 g7
  refine ⟨(l.take k).filter (· ∈ ids), ⟨⟨k, rfl, ?_, fun j j1 j2 => ?_⟩, g5 List.nodup_nil, fun w s => ?_, fun w => ?_⟩, g1, g2⟩
  · rcases h2 with h2 | h2
    · right
      rw [h1] at h2
      exact (hmet k).1 h2
    · exact .inl h2
  · have := h3 j j1 j2
    intro hm
    rw [(hmet j).2 hm] at this
    cases this
  · rw [g6 w s]
    simp only [Dict.get?_nil, Option.getD_none, List.not_mem_nil, false_or, hk, has_iff inv]
  · rw [g7 w]
    simp only [hk, has_iff inv]
    simp [Dict.keys]

end staffing

theorem charged_iff (nr : Bool) (p : Placement) (t : Nat) : p.charged nr t = true ↔
    (nr = true ∧ p.start < p.stop ∧ p.start ≤ t) ∨ (nr = false ∧ p.start ≤ t ∧ t < p.stop) := by
  unfold Placement.charged Placement.runs
  cases nr <;> simp

theorem ends_keys (log : List Placement) : Dict.keys (log.map (fun p => (p.act, p.stop))) = log.map Placement.act := by
  simp [Dict.keys, Function.comp_def]

theorem engagedAt_append (log : List Placement) (p : Placement) (w t : Nat) :
    engagedAt (log ++ [p]) w t = (engagedAt log w t || (decide (w ∈ p.crew) && p.runs t)) := by
  simp [engagedAt, List.any_append]

theorem used_append (nr : Bool) (res : String) (log : List Placement) (p : Placement) (t : Nat) :
    used nr res (log ++ [p]) t = used nr res log t + if p.charged nr t then needOf p.mode res else 0 := by
  simp [used, List.map_append, List.sum_append]

/-- Choosing and blocking the team keeps the book-keeping of workers. -/
theorem staffing_inv {pb : Problem} {prio : List (List Nat)} {ext E : List Nat} {st : St} {log : List Placement} (hd : Dicts pb)
    (inv : Inv pb prio ext E st log) {b : Nat} {m : Mode} (hm : details pb ext b = .ok m) (hb : b ∉ log.map Placement.act) {c : Nat} {ids : Option (List Nat)}
    (hs : staff pb m st.ws c = .ok (true, ids)) {ws' : Workers} {us' : Usage} (h : staffing pb prio b m c ids st.ws st.usage = .ok (ws', us')) :
    ∃ crew us, Staffed pb prio log ⟨b, m, c, crew, us⟩ ∧ us' = (if us.isEmpty then st.usage else st.usage ++ [(b, us)]) ∧ ws'.keys = st.ws.keys ∧
      ∀ w e cal, st.ws.get? w = some (e, cal) → ∃ cal', ws'.get? w = some (e, cal') ∧
        ∀ t : Nat, cal'[t]? = cal[t]?.map (fun x => x && !(decide (w ∈ crew) && (decide (c ≤ t) && decide (t < c + m.duration)))) := by
  obtain ⟨h1, h2⟩ := staff_ok hd inv hs
  by_cases hr : required pb m = []
  · rw [h1 hr] at h
    cases h
    exact ⟨[], [], ⟨fun _ => ⟨rfl, rfl⟩, fun h => absurd hr h⟩, by simp, rfl, fun w e cal h => ⟨cal, h, fun t => by simp⟩⟩
  · obtain ⟨ids', rfl, hat⟩ := h2 hr
    simp only [staffing] at h
    obtain ⟨l, hl, h⟩ := bind_eq_ok.1 h
    have hnone : st.usage.get? b = none := by
      rcases hu : st.usage.get? b with _ | x
      · rfl
      · exfalso
        have := Dict.mem_of_get? hu
        rw [inv.usage, List.mem_map] at this
        obtain ⟨p, hp, he⟩ := this
        cases he
        exact hb (List.mem_map.2 ⟨p, (List.mem_filter.1 hp).1, rfl⟩)
    obtain ⟨d, k, hmd, _, hmk⟩ := details_ok hm
    obtain ⟨crew, g1, g2, g3⟩ := assign_chosen hd inv (hd.needs b d k m hmd hmk) (c := c) (ids := ids') (by
      intro w hw
      obtain ⟨e, he, _⟩ := hat.free w hw
      exact (Dict.get?_isSome_iff_mem_keys _ _).1 (by rw [he]; rfl)) l
    rw [hnone] at h
    simp only [Option.getD_none] at h
    cases h
    refine ⟨crew, _, ⟨fun h => absurd h hr, fun _ => ⟨l, ids', hl, hat, g1⟩⟩, ?_, g2, g3⟩
    split
    · rfl
    · have hset : ∀ (d : Usage) (k : Nat) (v : Dict Nat (List String)), d.get? k = none → d.set k v = d ++ [(k, v)] := by
        intro d
        induction d with
        | nil => intro k v _; rfl
        | cons p d ih =>
          intro k v h
          obtain ⟨k', v'⟩ := p
          simp only [Dict.get?] at h
          split at h
          · cases h
          · rename_i hk
            simp only [Dict.set, if_neg hk, List.cons_append]
            rw [ih k v h]
      exact hset _ _ _ hnone

/-- One placement keeps the invariant. -/
theorem place_inv {pb : Problem} {prio : List (List Nat)} {ext E : List Nat} {st st' : St} {log : List Placement} (hd : Dicts pb) (hE : E.Nodup)
    (inv : Inv pb prio ext E st log) {b v : Nat} {m : Mode} {f : Found} (hpick : Rcpsp.pick pb.successors st.perm = some b)
    (hmin : st.minStart.get b = .ok v) (hm : details pb ext b = .ok m) (hs : search pb m st.rows st.ws (pb.horizon + 1) v st.nr = .ok f)
    (hfn : f.nr = false) (hfl : f.late = false) (hp : place pb prio b m f st = .ok st') :
    ∃ crew us, Inv pb prio ext E st' (log ++ [⟨b, m, f.time, crew, us⟩]) := by
  obtain ⟨q1, q2, q3, q4, q5, q6, q7⟩ := search_spec _ _ _ _ _ _ _ _ hs hfn hfl
  obtain ⟨fc, fnr, fl, fids⟩ := f
  simp only at hfn hfl q2 q3 q4 q5 q6 q7
  subst hfn hfl
  simp only [place] at hp
  obtain ⟨⟨rows', fl⟩, hbook, hp⟩ := bind_eq_ok.1 hp
  obtain ⟨⟨ws', us'⟩, hstaff, hp⟩ := bind_eq_ok.1 hp
  obtain ⟨perm', hrem, hp⟩ := bind_eq_ok.1 hp
  obtain ⟨ss, hss, hp⟩ := bind_eq_ok.1 hp
  obtain ⟨ms, hms, hp⟩ := bind_eq_ok.1 hp
  cases hp
  obtain ⟨hbp, rfl⟩ := pyRemove_ok hrem
  have hss' := dict_get_ok.1 hss
  have hmin' := dict_get_ok.1 hmin
  have hkeys := ends_keys log
  have hpick' := hpick
  rw [inv.perm, ← hkeys] at hpick'
  obtain ⟨hbe, l1, l2, hl, hready, hfirst⟩ := Rcpsp.pick_spec (pb := pb.base) hpick'
  rw [hkeys] at hbe hready hfirst
  obtain ⟨crew, us, hst, husage, hwk, hws⟩ := staffing_inv hd inv hm hbe q6 hstaff
  have hnd : st.perm.Nodup := by rw [inv.perm]; exact List.Pairwise.filter _ hE
  have hrowsNodup : st.rows.keys.Nodup := by rw [inv.rowKeys]; exact hd.resources
  obtain ⟨k1, k2, k3⟩ : rows'.keys = st.rows.keys ∧ (fl = false → false = false) ∧ (0 < m.duration → ∀ res row, st.rows.get? res = some row →
      ∃ n row', m.needs.get? res = some n ∧ rows'.get? res = some row' ∧
      (∀ j : Nat, row'[j]? = row[j]?.map (fun a => a -
        if (fc ≤ j ∧ j < fc + m.duration) ∨ (pb.nonRenewable.contains res = true ∧ fc + m.duration ≤ j ∧ j < pb.newHorizon) then n else 0)) ∧
      (fl = false → pb.nonRenewable.contains res = true → ∀ j : Nat, fc + m.duration ≤ j → j < pb.newHorizon → ∀ a, row'[j]? = some a → 0 ≤ a)) := by
    by_cases h0 : m.duration = 0
    · rw [h0] at hbook; cases hbook
      exact ⟨rfl, fun _ => rfl, fun h => by omega⟩
    · exact bookWindow_spec pb.base pb.newHorizon (fc + m.duration - 1) m m.duration fc st.rows rows' false fl (by omega) hbook
  obtain ⟨m1, m2, m3⟩ := bump_spec _ _ _ _ hms
  have hmsget : ∀ b' v', ms.get? b' = some v' → ∃ old, st.minStart.get? b' = some old ∧ v' = if b' ∈ ss then max old (fc + m.duration) else old := by
    intro b' v' h
    have : b' ∈ st.minStart.keys := by
      rw [← m1]; exact (Dict.get?_isSome_iff_mem_keys _ _).1 (by rw [h]; rfl)
    obtain ⟨old, ho⟩ := Option.isSome_iff_exists.1 ((Dict.get?_isSome_iff_mem_keys _ _).2 this)
    have := m3 b' old ho
    rw [h] at this
    exact ⟨old, ho, Option.some.inj this⟩
  obtain ⟨w1, _⟩ := checkWindow_spec _ _ _ _ _ _ q5
  have hwin := (w1 rfl).2
  have rowGet : ∀ res row, (res, row) ∈ st.rows → ∃ cap, pb.resources.get? res = some cap ∧
      ∀ t : Nat, t < pb.newHorizon → row[t]? = cap[t]?.map (· - used (pb.nonRenewable.contains res) res log t) := by
    intro res row hmem
    have hg := Dict.get?_of_mem hrowsNodup hmem
    have hk : res ∈ pb.resources.keys := by
      rw [← inv.rowKeys]; exact (Dict.get?_isSome_iff_mem_keys _ _).1 (by rw [hg]; rfl)
    obtain ⟨cap, hcap⟩ := Option.isSome_iff_exists.1 ((Dict.get?_isSome_iff_mem_keys _ _).2 hk)
    obtain ⟨row2, r1, r2, _⟩ := inv.row res cap hcap
    rw [hg] at r1; cases r1
    exact ⟨cap, hcap, r2⟩
  refine ⟨crew, us, { ends := ?_, usage := ?_, perm := ?_, sub := ?_, nodup := ?_, entry := ?_, low := ?_, high := ?_, wsKeys := ?_, ws := ?_, rowKeys := ?_, row := ?_ }⟩
  · show st.ends.set b (fc + m.duration) = _
    rw [Rcpsp.set_new _ _ (by rw [inv.ends, hkeys]; exact hbe), inv.ends, List.map_append]
    rfl
  · show us' = _
    rw [husage, List.filter_append, List.map_append, inv.usage]
    cases hu : us.isEmpty <;> simp [hu]
  · show st.perm.erase b = _
    rw [hnd.erase_eq_filter, inv.perm, List.filter_filter, List.map_append]
    apply List.filter_congr
    intro x hx
    simp only [List.map_cons, List.map_nil, List.contains_eq_mem, List.mem_append, List.mem_singleton]
    by_cases e : x = b
    · simp [e]
    · simp [e]
  · intro p hp
    rcases List.mem_append.1 hp with h | h
    · exact inv.sub p h
    · simp only [List.mem_singleton] at h
      subst h
      rw [hl]; simp
  · rw [List.map_append, List.nodup_append]
    refine ⟨inv.nodup, by simp, ?_⟩
    intro x hx y hy
    simp only [List.map_cons, List.map_nil, List.mem_singleton] at hy
    subst hy
    rintro rfl
    exact hbe hx
  · intro pre p post hsplit
    rcases snoc_split hsplit with ⟨rfl, h, rfl⟩ | ⟨post', _, h⟩
    · subst h
      refine ⟨hm, ⟨l1, l2, hl, hready, hfirst⟩, ?_, ?_, hst, ?_⟩
      · intro q hq ss' hss2 hb'
        have := inv.low _ v hmin' q hq ss' hss2 hb'
        show _ ≤ fc
        omega
      · refine ⟨q3, q4, ?_⟩
        by_cases h0 : m.duration = 0
        · exact .inr (.inl h0)
        · rcases (hwin (fc + m.duration - 1) (by omega) (by omega)).1 with h | h
          · left
            have := inv.rowKeys
            rw [h] at this
            simpa [Dict.keys] using this.symm
          · right; right
            show fc + m.duration ≤ _
            omega
      · intro s hs' hended
        have hv : v ≤ s := inv.high _ v hmin' s hended
        rcases q7 s hv hs' with h | ⟨x, h⟩
        · left
          obtain ⟨t, t1, t2, t3, ⟨res, row⟩, hmem, a, n, ha, hn, hlt⟩ := (checkWindow_spec _ _ _ _ _ _ h).2 rfl rfl
          refine ⟨t, t1, t2, t3, ?_⟩
          obtain ⟨cap, hcap, hrow⟩ := rowGet res row hmem
          simp only at ha hn
          rw [hrow t t3] at ha
          obtain ⟨c', hc', rfl⟩ := Option.map_eq_some_iff.1 ha
          exact ⟨res, cap, c', n, hcap, hc', hn, hlt⟩
        · exact .inr (staff_no hd inv h)
    · exact inv.entry pre p post' h
  · intro b' v' hb' q hq ss' hss2 hbs
    obtain ⟨old, ho, hv'⟩ := hmsget b' v' hb'
    rcases List.mem_append.1 hq with h | h
    · have := inv.low b' old ho q h ss' hss2 hbs
      rw [hv']; split <;> omega
    · simp only [List.mem_singleton] at h
      subst h
      simp only at hss2
      rw [hss'] at hss2; cases hss2
      rw [hv', if_pos hbs]
      show fc + m.duration ≤ _
      omega
  · intro b' v' hb' x hx
    obtain ⟨old, ho, hv'⟩ := hmsget b' v' hb'
    have h1 := inv.high b' old ho x (fun q hq => hx q (by simp [hq]))
    rw [hv']
    split
    · rename_i hbs
      have := hx ⟨b, m, fc, crew, us⟩ (by simp) ss hss' hbs
      simp only [Placement.stop] at this
      omega
    · exact h1
  · exact hwk.trans inv.wsKeys
  · intro w e he
    obtain ⟨cal, hc, hcal⟩ := inv.ws w e he
    obtain ⟨cal', hc', hcal'⟩ := hws w e cal hc
    refine ⟨cal', hc', fun t => ?_⟩
    rw [hcal' t, hcal t, Option.map_map]
    congr 1
    funext x
    rw [engagedAt_append]
    simp only [Function.comp, Placement.runs, Placement.stop, Bool.not_or, Bool.and_assoc]
    rfl
  · exact k1.trans inv.rowKeys
  · intro res cap hcap
    obtain ⟨row, r1, r2, r4⟩ := inv.row res cap hcap
    by_cases h0 : m.duration = 0
    · have hrows : rows' = st.rows ∧ fl = false := by
        rw [h0] at hbook; cases hbook; exact ⟨rfl, rfl⟩
      refine ⟨row, by rw [show St.rows _ = rows' from rfl, hrows.1]; exact r1, ?_, fun _ => r4 q1⟩
      intro t tH
      rw [r2 t tH, used_append, if_neg]
      · simp
      · rw [charged_iff]
        simp only [Placement.stop, h0]
        rintro (⟨_, h, _⟩ | ⟨_, h1, h2⟩) <;> omega
    · obtain ⟨n, row', g1, g2, g3, g4⟩ := k3 (by omega) res row r1
      refine ⟨row', g2, ?_, ?_⟩
      · intro t tH
        rw [g3 t, r2 t tH, used_append, Option.map_map]
        congr 1
        funext x
        have : (if Placement.charged (pb.nonRenewable.contains res) ⟨b, m, fc, crew, us⟩ t = true then needOf m res else 0) =
            if (fc ≤ t ∧ t < fc + m.duration) ∨ (pb.nonRenewable.contains res = true ∧ fc + m.duration ≤ t ∧ t < pb.newHorizon) then n else 0 := by
          have hneed : needOf m res = n := by simp [needOf, g1]
          rw [hneed]
          apply if_congr _ rfl rfl
          rw [charged_iff]
          simp only [Placement.stop]
          by_cases hnr : pb.nonRenewable.contains res = true
          · simp only [hnr, true_and, Bool.true_eq_false, false_and, or_false]
            omega
          · simp only [Bool.not_eq_true] at hnr
            simp only [hnr, Bool.false_eq_true, false_and, true_and, false_or, or_false]
        rw [this]
        simp only [Function.comp]
        omega
      · intro hfl hcaps t tH a' ha'
        by_cases hw : fc ≤ t ∧ t < fc + m.duration
        · obtain ⟨a, n', f1, f2, f3⟩ := (hwin t hw.1 hw.2).2 (res, row) (Dict.mem_of_get? r1)
          simp only at f1 f2
          rw [g1] at f2; cases f2
          rw [g3 t, f1, if_pos (.inl hw)] at ha'
          simp at ha'; omega
        · by_cases hn : pb.nonRenewable.contains res = true ∧ fc + m.duration ≤ t
          · exact g4 hfl hn.1 t hn.2 tH a' ha'
          · rw [g3 t, if_neg (by rintro (g | ⟨g1, g2, _⟩); exact hw g; exact hn ⟨g1, g2⟩)] at ha'
            simp at ha'
            exact r4 q1 hcaps t tH a' ha'

/-- The state before the loop. -/
theorem init_inv (pb : Problem) (prio : List (List Nat)) (ext perm : List Nat) :
    Inv pb prio ext (extended pb perm) (initSt pb perm) [] := by
  have hmin : ∀ b v, (initSt pb perm).minStart.get? b = some v → v = 0 := by
    intro b v h
    have := Dict.mem_of_get? h
    simp only [initSt, List.mem_map] at this
    obtain ⟨p, _, h⟩ := this
    cases h; rfl
  refine { ends := rfl, usage := rfl, perm := ?_, sub := ?_, nodup := List.nodup_nil, entry := ?_, low := ?_, high := ?_, wsKeys := ?_, ws := ?_, rowKeys := ?_, row := ?_ }
  · show extended pb perm = (extended pb perm).filter (fun x => !([] : List Nat).contains x)
    rw [List.filter_eq_self.2]; intro a _; rfl
  · intro p h; cases h
  · intro pre p post h; simp at h
  · intro b v h q hq; cases hq
  · intro b v h x _; rw [hmin b v h]; exact Nat.zero_le _
  · simp [initSt, initWorkers, Dict.keys]
  · intro w e he
    refine ⟨e.calendar, ?_, fun t => by simp [engagedAt]⟩
    show (initWorkers pb).get? w = _
    have : ∀ d : Dict Nat Employee, d.get? w = some e → Dict.get? (d.map (fun p => (p.1, (p.2, p.2.calendar)))) w = some (e, e.calendar) := by
      intro d
      induction d with
      | nil => intro h; cases h
      | cons p d ih =>
        obtain ⟨k, x⟩ := p
        simp only [List.map_cons, Dict.get?]
        split
        · intro h; cases h; rfl
        · exact ih
    exact this _ he
  · simp [initSt, Dict.keys]
  · intro res cap hcap
    refine ⟨cap.take (pb.newHorizon + 1), ?_, fun t ht => ?_, fun _ hc t ht a ha => ?_⟩
    · have : ∀ d : Dict String (List Int), d.get? res = some cap →
          Dict.get? (d.map (fun p => (p.1, p.2.take (pb.newHorizon + 1)))) res = some (cap.take (pb.newHorizon + 1)) := by
        intro d
        induction d with
        | nil => intro h; cases h
        | cons p d ih =>
          obtain ⟨k, x⟩ := p
          simp only [List.map_cons, Dict.get?]
          split
          · intro h; cases h; rfl
          · exact ih
      exact this _ hcap
    · rw [List.getElem?_take_of_lt (by omega)]
      simp [used]
    · rw [List.getElem?_take_of_lt (by omega)] at ha
      exact hc t ht a ha

theorem step_inv {pb : Problem} {prio : List (List Nat)} {ext E : List Nat} (hd : Dicts pb) (hE : E.Nodup) {st st' : St} {log : List Placement}
    (inv : Inv pb prio ext E st log) (hnr : st.nr = false) (h : step pb prio ext st = .ok st') :
    ∃ log', Inv pb prio ext E st' log' ∧ (st'.nr = false → st'.late = false → st'.perm.length + 1 = st.perm.length) := by
  unfold step at h
  split at h
  · cases h
  · rename_i act hact
    obtain ⟨c0, hc0, h⟩ := bind_eq_ok.1 h
    obtain ⟨m, hm, h⟩ := bind_eq_ok.1 h
    obtain ⟨f, hs, h⟩ := bind_eq_ok.1 h
    split at h
    · rename_i hf
      rw [← Except.ok.inj h]
      refine ⟨log, ⟨inv.ends, inv.usage, inv.perm, inv.sub, inv.nodup, inv.entry, inv.low, inv.high, inv.wsKeys, inv.ws, inv.rowKeys, fun res cap hcap => ?_⟩,
        fun h1 h2 => ?_⟩
      · obtain ⟨row, r1, r2, r3⟩ := inv.row res cap hcap
        exact ⟨row, r1, r2, fun _ => r3 hnr⟩
      · simp only at h1 h2
        rw [h1, h2] at hf; cases hf
    · rename_i hf
      simp only [Bool.or_eq_true, not_or, Bool.not_eq_true] at hf
      obtain ⟨crew, us, hinv⟩ := place_inv hd hE inv hact hc0 hm hs hf.1 hf.2 h
      refine ⟨_, hinv, fun _ _ => ?_⟩
      simp only [place] at h
      obtain ⟨_, _, h⟩ := bind_eq_ok.1 h
      obtain ⟨_, _, h⟩ := bind_eq_ok.1 h
      obtain ⟨perm', hrem, h⟩ := bind_eq_ok.1 h
      obtain ⟨_, _, h⟩ := bind_eq_ok.1 h
      obtain ⟨_, _, h⟩ := bind_eq_ok.1 h
      cases h
      obtain ⟨hb, rfl⟩ := pyRemove_ok hrem
      show (st.perm.erase act).length + 1 = _
      rw [List.length_erase_of_mem hb]
      have := List.length_pos_of_mem hb
      omega

theorem loop_inv {pb : Problem} {prio : List (List Nat)} {ext E : List Nat} (hd : Dicts pb) (hE : E.Nodup) (n : Nat) (st st' : St) (log : List Placement)
    (inv : Inv pb prio ext E st log) (hn : st.perm.length ≤ n) (h : loop pb prio ext n st = .ok st') :
    ∃ log', Inv pb prio ext E st' log' ∧ (st'.nr = true ∨ st'.late = true ∨ st'.perm = []) := by
  induction n generalizing st log with
  | zero =>
    cases h
    exact ⟨log, inv, .inr (.inr (List.length_eq_zero_iff.1 (by omega)))⟩
  | succ n ih =>
    simp only [loop] at h
    split at h
    · rename_i hc
      cases h
      refine ⟨log, inv, ?_⟩
      simp only [Bool.or_eq_true, List.isEmpty_iff] at hc
      rcases hc with (hc | hc) | hc
      · exact .inr (.inr hc)
      · exact .inl hc
      · exact .inr (.inl hc)
    · rename_i hc
      simp only [Bool.or_eq_true, List.isEmpty_iff, not_or, Bool.not_eq_true] at hc
      obtain ⟨st2, h2, h3⟩ := bind_eq_ok.1 h
      obtain ⟨log2, i2, l2⟩ := step_inv hd hE inv hc.1.2 h2
      by_cases hf : st2.nr = true ∨ st2.late = true
      · have : loop pb prio ext n st2 = .ok st2 := by
          cases n with
          | zero => rfl
          | succ n => rcases hf with hf | hf <;> simp only [loop, hf, Bool.or_true, Bool.true_or, ↓reduceIte]
        rw [this] at h3; cases h3
        refine ⟨log2, i2, ?_⟩
        rcases hf with hf | hf
        · exact .inl hf
        · exact .inr (.inl hf)
      · simp only [not_or, Bool.not_eq_true] at hf
        exact ih st2 log2 i2 (by have := l2 hf.1 hf.2; omega) h3

/-- The schedule of the placements. -/
def schedOf (log : List Placement) : Schedule := log.map (fun p => (p.act, (p.start, p.stop)))

theorem times_spec {pb : Problem} {ext : List Nat} (log : List Placement) (hm : ∀ p ∈ log, details pb ext p.act = .ok p.mode) (sch : Schedule)
    (h : times pb ext (log.map (fun p => (p.act, p.stop))) = .ok sch) : sch = schedOf log := by
  induction log generalizing sch with
  | nil => cases h; rfl
  | cons p log ih =>
    simp only [List.map_cons, times] at h
    obtain ⟨m, hm', h⟩ := bind_eq_ok.1 h
    obtain ⟨r, hr, h⟩ := bind_eq_ok.1 h
    cases h
    rw [ih (fun q hq => hm q (by simp [hq])) r hr]
    have := hm p (by simp)
    rw [hm'] at this; cases this
    simp only [schedOf, List.map_cons, Placement.stop]
    congr 3
    omega

theorem entry_of_mem {pb : Problem} {prio : List (List Nat)} {ext E : List Nat} {st : St} {log : List Placement} (inv : Inv pb prio ext E st log)
    {p : Placement} (hp : p ∈ log) : ∃ pre post, log = pre ++ p :: post ∧ Entry pb prio ext E pre p := by
  obtain ⟨pre, post, h⟩ := List.append_of_mem hp
  exact ⟨pre, post, h, inv.entry pre p post h⟩

/-- What schedule generation returns, in terms of the placements. -/
theorem sgs_inv {pb : Problem} {perm modes : List Nat} {prio : List (List Nat)} {r : Result} (hd : Dicts pb) (hE : (extended pb perm).Nodup)
    (h : sgs pb perm modes prio = .ok r) : ∃ st log, Inv pb prio r.ext (extended pb perm) st log ∧
      Rcpsp.fixModes pb.base 0 (1 :: modes ++ [1]) = .ok r.ext ∧ r.modes = modesDict modes ∧ r.feasible = !(st.nr || st.late) ∧
      r.usage = (log.filter (fun p => !p.usage.isEmpty)).map (fun p => (p.act, p.usage)) ∧
      (r.feasible = true → st.nr = false ∧ st.perm = [] ∧ r.schedule = schedOf log) ∧
      (r.feasible = false → ∃ l, pb.successors.keys.max? = some l ∧
        r.schedule = if l ∈ log.map Placement.act then schedOf log else schedOf log ++ [(l, (99999999, 9999999))]) := by
  simp only [sgs] at h
  obtain ⟨ext, hext, h⟩ := bind_eq_ok.1 h
  obtain ⟨st, hst, h⟩ := bind_eq_ok.1 h
  obtain ⟨sch, hsch, h⟩ := bind_eq_ok.1 h
  obtain ⟨sch', hfin, h⟩ := bind_eq_ok.1 h
  cases h
  obtain ⟨log, inv, hend⟩ := loop_inv hd hE _ _ _ [] (init_inv pb prio ext perm) (Nat.le_refl _) hst
  rw [inv.ends] at hsch
  have hs := times_spec log (fun p hp => by obtain ⟨_, _, _, he⟩ := entry_of_mem inv hp; exact he.mode) sch hsch
  refine ⟨st, log, inv, hext, rfl, rfl, inv.usage, fun hf => ?_, fun hf => ?_⟩
  · simp only [Bool.not_eq_eq_eq_not, Bool.not_true] at hf
    rw [hf] at hfin
    cases hfin
    simp only [Bool.or_eq_false_iff] at hf
    refine ⟨hf.1, ?_, hs⟩
    rcases hend with h | h | h
    · rw [hf.1] at h; cases h
    · rw [hf.2] at h; cases h
    · exact h
  · simp only [Bool.not_eq_eq_eq_not, Bool.not_false] at hf
    rw [hf] at hfin
    unfold finish at hfin
    rw [if_pos rfl] at hfin
    split at hfin
    · cases hfin
    · rename_i l hl
      have hk : sch.keys = log.map Placement.act := by rw [hs]; simp [schedOf, Dict.keys, Function.comp_def]
      have hc : sch.contains l = true ↔ l ∈ log.map Placement.act := by
        rw [Dict.contains_iff, Dict.get?_isSome_iff_mem_keys, hk]
      refine ⟨l, hl, ?_⟩
      split at hfin
      · rename_i h1
        cases hfin
        rw [if_pos (hc.1 h1), hs]
      · rename_i h1
        cases hfin
        have hn : l ∉ log.map Placement.act := fun h => h1 (hc.2 h)
        rw [if_neg hn, hs]
        have hset : ∀ (d : Schedule) (k : Nat) (v : Nat × Nat), k ∉ d.keys → d.set k v = d ++ [(k, v)] := by
          intro d
          induction d with
          | nil => intro k v _; rfl
          | cons p d ih =>
            intro k v h
            obtain ⟨k', v'⟩ := p
            simp only [Dict.keys, List.map_cons, List.mem_cons, not_or] at h
            simp only [Dict.set, Ne.symm h.1, ↓reduceIte, List.cons_append]
            rw [ih k v h.2]
        rw [hs] at hk
        exact hset _ _ _ (by rw [hk]; exact hn)

theorem all_placed {pb : Problem} {prio : List (List Nat)} {ext E : List Nat} {st : St} {log : List Placement} (inv : Inv pb prio ext E st log)
    (h : st.perm = []) (a : Nat) : a ∈ log.map Placement.act ↔ a ∈ E := by
  constructor
  · intro ha
    obtain ⟨p, hp, rfl⟩ := List.mem_map.1 ha
    exact inv.sub p hp
  · intro ha
    have := inv.perm
    rw [h] at this
    have := (List.filter_eq_nil_iff.1 this.symm) a ha
    simpa using this

end Verif.MultiSkill
