import Verif.Model.CpmSgs
import Mathlib.Data.List.Forall2
import Mathlib.Data.List.Perm.Subperm

/-! Lemmas on the schedule generation of the critical path solver. -/
namespace Verif.CpmSgs

/-- What the activities of a schedule take of a resource at a time. -/
def used (net : Net) (sched : Dict Nat (Nat × Nat)) (r t : Nat) : Int :=
  ((sched.filter (fun x => decide (x.2.1 ≤ t ∧ t < x.2.2))).map (fun x => net.need x.1 r)).sum

theorem set_new {d : Dict Nat (Nat × Nat)} {k : Nat} {v : Nat × Nat} (h : k ∉ d.keys) : d.set k v = d ++ [(k, v)] := by
  induction d with
  | nil => rfl
  | cons p d ih =>
    obtain ⟨k', v'⟩ := p
    simp only [Dict.keys, List.map_cons, List.mem_cons, not_or] at h
    simp only [Dict.set, if_neg (Ne.symm h.1), List.cons_append]
    rw [ih h.2]

theorem used_append (net : Net) (d d' : Dict Nat (Nat × Nat)) (r t : Nat) : used net (d ++ d') r t = used net d r t + used net d' r t := by
  simp [used, List.filter_append]

theorem used_one (net : Net) (j s e r t : Nat) : used net [(j, (s, e))] r t = if s ≤ t ∧ t < e then net.need j r else 0 := by
  by_cases h : s ≤ t ∧ t < e
  · simp [used, List.filter_cons, h]
  · rw [if_neg h]
    simp only [used, List.filter_cons, List.filter_nil, decide_eq_true_eq, if_neg h, List.map_nil, List.sum_nil]

theorem mem_keys_iff {d : Dict Nat (Nat × Nat)} {k : Nat} : k ∈ d.keys ↔ ∃ v, (k, v) ∈ d := by
  simp [Dict.keys]

theorem contains_iff_keys {d : Dict Nat (Nat × Nat)} {k : Nat} : d.contains k = true ↔ k ∈ d.keys := by
  rw [Dict.contains_iff, Dict.get?_isSome_iff_mem_keys]

/-! ### Scanning and taking -/

theorem scan_none {h : Nat} {l : List Int} {need : Int} : ∀ {k t : Nat}, scan h l need t k = .ok none →
    ∀ u, t ≤ u → u < t + k → ∃ a, l[u]? = some a ∧ need ≤ a := by
  intro k
  induction k with
  | zero => intro t _ u h1 h2; omega
  | succ k ih =>
    intro t hs u h1 h2
    simp only [scan] at hs
    split at hs
    · cases hs
    · next a ha =>
      split at hs
      · split at hs <;> cases hs
      · next hlt =>
        by_cases hu : u = t
        · subst hu; exact ⟨a, ha, by omega⟩
        · exact ih hs u (by omega) (by omega)

theorem scan_some {h : Nat} {l : List Int} {need : Int} : ∀ {k t u : Nat}, scan h l need t k = .ok (some u) →
    t ≤ u ∧ u < t + k ∧ u < h ∧ ∃ a, l[u]? = some a ∧ a < need := by
  intro k
  induction k with
  | zero => intro t u hs; cases hs
  | succ k ih =>
    intro t u hs
    simp only [scan] at hs
    split at hs
    · cases hs
    · next a ha =>
      split at hs
      · next hlt =>
        split at hs
        · next hh => cases hs; exact ⟨by omega, by omega, hh, a, ha, hlt⟩
        · cases hs
      · obtain ⟨h1, h2, h3⟩ := ih hs
        exact ⟨by omega, by omega, h3⟩

theorem scan_total {h : Nat} {l : List Int} {need : Int} (hl : l.length = h) : ∀ {k t : Nat}, t + k ≤ h → ∃ o, scan h l need t k = .ok o := by
  intro k
  induction k with
  | zero => intro t _; exact ⟨none, rfl⟩
  | succ k ih =>
    intro t ht
    have hlt : t < l.length := by omega
    simp only [scan, List.getElem?_eq_getElem hlt]
    split
    · rw [if_pos (by omega)]; exact ⟨_, rfl⟩
    · exact ih (by omega)

theorem scanAll_none {net : Net} {j time : Nat} : ∀ {av : Avail}, scanAll net j time av = .ok none → ∀ x ∈ av, ∀ u, time ≤ u → u < time + net.dur j →
    ∃ a, x.2[u]? = some a ∧ net.need j x.1 ≤ a := by
  intro av
  induction av with
  | nil => intro _ x hx; cases hx
  | cons y av ih =>
    obtain ⟨r, l⟩ := y
    intro hs x hx u h1 h2
    simp only [scanAll] at hs
    split at hs
    · cases hs
    · cases hs
    · next hn =>
      rcases List.mem_cons.mp hx with rfl | hx
      · exact scan_none hn u h1 h2
      · exact ih hs x hx u h1 h2

theorem scanAll_some {net : Net} {j time r u : Nat} : ∀ {av : Avail}, scanAll net j time av = .ok (some (r, u)) →
    time ≤ u ∧ u < time + net.dur j ∧ ∃ l, (r, l) ∈ av ∧ ∃ a, l[u]? = some a ∧ a < net.need j r := by
  intro av
  induction av with
  | nil => intro h; cases h
  | cons y av ih =>
    obtain ⟨r', l⟩ := y
    intro hs
    simp only [scanAll] at hs
    split at hs
    · cases hs
    · next t ht =>
      cases hs
      obtain ⟨h1, h2, _, h3⟩ := scan_some ht
      exact ⟨h1, h2, l, List.mem_cons_self, h3⟩
    · obtain ⟨h1, h2, l', h3, h4⟩ := ih hs
      exact ⟨h1, h2, l', List.mem_cons_of_mem _ h3, h4⟩

theorem scanAll_total {net : Net} {j time : Nat} : ∀ {av : Avail}, (∀ x ∈ av, x.2.length = net.horizon) → time + net.dur j ≤ net.horizon →
    ∃ o, scanAll net j time av = .ok o := by
  intro av
  induction av with
  | nil => intro _ _; exact ⟨none, rfl⟩
  | cons y av ih =>
    obtain ⟨r, l⟩ := y
    intro hl ht
    obtain ⟨o, ho⟩ := scan_total (need := net.need j r) (hl _ List.mem_cons_self) ht
    simp only [scanAll, ho]
    cases o with
    | none => exact ih (fun x hx => hl x (List.mem_cons_of_mem _ hx)) ht
    | some t => exact ⟨_, rfl⟩

theorem scanAll_free {net : Net} {j time : Nat} {av : Avail} (hl : ∀ x ∈ av, x.2.length = net.horizon) (ht : time + net.dur j ≤ net.horizon)
    (hf : ∀ x ∈ av, ∀ u a, time ≤ u → x.2[u]? = some a → net.need j x.1 ≤ a) : scanAll net j time av = .ok none := by
  obtain ⟨o, ho⟩ := scanAll_total (av := av) hl ht
  cases o with
  | none => exact ho
  | some p =>
    obtain ⟨r, u⟩ := p
    obtain ⟨h1, _, l, h3, a, h4, h5⟩ := scanAll_some ho
    have := hf _ h3 u a h1 h4
    simp only at this
    omega

theorem findTime_some {net : Net} {st : St} {j time : Nat} : ∀ {n s : Nat} {cs : List Cause}, findTime net st j (List.range' s n) = .ok (some time, cs) →
    s ≤ time ∧ time < s + n ∧ scanAll net j time st.avail = .ok none ∧
      (∀ t, s ≤ t → t < time → ∃ r u, scanAll net j t st.avail = .ok (some (r, u))) := by
  intro n
  induction n with
  | zero => intro s cs h; simp [findTime] at h
  | succ n ih =>
    intro s cs h
    rw [List.range'_succ] at h
    simp only [findTime] at h
    split at h
    · cases h
    · next hn =>
      cases h
      exact ⟨Nat.le_refl _, by omega, hn, fun t h1 h2 => by omega⟩
    · next r t ht =>
      split at h
      · cases h
      · next res cs' hf =>
        cases h
        obtain ⟨h1, h2, h3, h4⟩ := ih hf
        refine ⟨by omega, by omega, h3, fun t' g1 g2 => ?_⟩
        by_cases he : t' = s
        · subst he; exact ⟨r, t, ht⟩
        · exact h4 t' (by omega) g2

/-- What the noted causes are. -/
theorem findTime_causes {net : Net} {st : St} {j : Nat} : ∀ {ts : List Nat} {o : Option Nat} {cs : List Cause}, findTime net st j ts = .ok (o, cs) →
    ∀ x ∈ cs, x.task = j ∧ ∃ time ∈ ts, scanAll net j time st.avail = .ok (some (x.res, x.time)) ∧ x.users = users net st j x.res x.time := by
  intro ts
  induction ts with
  | nil => intro o cs h x hx; simp only [findTime, Except.ok.injEq, Prod.mk.injEq] at h; rw [← h.2] at hx; cases hx
  | cons t ts ih =>
    intro o cs h x hx
    simp only [findTime] at h
    split at h
    · cases h
    · simp only [Except.ok.injEq, Prod.mk.injEq] at h; rw [← h.2] at hx; cases hx
    · next r u hu =>
      split at h
      · cases h
      · next o' cs' hf =>
        simp only [Except.ok.injEq, Prod.mk.injEq] at h
        obtain ⟨-, rfl⟩ := h
        rcases List.mem_cons.mp hx with rfl | hx
        · exact ⟨rfl, t, List.mem_cons_self, hu, rfl⟩
        · obtain ⟨h1, time, h2, h3⟩ := ih hf x hx
          exact ⟨h1, time, List.mem_cons_of_mem _ h2, h3⟩

theorem findTime_total {net : Net} {st : St} {j m : Nat} (hm : scanAll net j m st.avail = .ok none) : ∀ (n s : Nat), s ≤ m → m < s + n →
    (∀ t, s ≤ t → t ≤ m → ∃ o, scanAll net j t st.avail = .ok o) →
    ∃ time cs, findTime net st j (List.range' s n) = .ok (some time, cs) ∧ time ≤ m := by
  intro n
  induction n with
  | zero => intro s h1 h2; omega
  | succ n ih =>
    intro s h1 h2 hall
    rw [List.range'_succ]
    obtain ⟨o, ho⟩ := hall s (Nat.le_refl _) h1
    cases o with
    | none => exact ⟨s, [], by simp only [findTime, ho], h1⟩
    | some p =>
      obtain ⟨r, u⟩ := p
      have hne : s ≠ m := by rintro rfl; rw [hm] at ho; cases ho
      obtain ⟨time, cs, e1, e2⟩ := ih (s + 1) (by omega) (by omega) (fun t g1 g2 => hall t (by omega) g2)
      exact ⟨time, _, by simp only [findTime, ho, e1]; rfl, e2⟩

theorem take_spec {h : Nat} {need : Int} : ∀ {k t : Nat} {l l' : List Int}, take h need t k l = .ok l' →
    l'.length = l.length ∧ (0 < k → t + k ≤ l.length) ∧ ∀ u, l'[u]? = if t ≤ u ∧ u < t + k then l[u]?.map (· - need) else l[u]? := by
  intro k
  induction k with
  | zero =>
    intro t l l' hs
    cases hs
    exact ⟨rfl, by omega, fun u => by rw [if_neg (by omega)]⟩
  | succ k ih =>
    intro t l l' hs
    simp only [take] at hs
    split at hs
    · cases hs
    · next a ha =>
      have hlt : t < l.length := (List.getElem?_eq_some_iff.mp ha).1
      split at hs
      · cases hs
      · obtain ⟨h1, h2, h3⟩ := ih hs
        rw [List.length_set] at h1 h2
        refine ⟨h1, fun _ => ?_, fun u => ?_⟩
        · by_cases hk : 0 < k
          · have := h2 hk; omega
          · omega
        · rw [h3, List.getElem?_set]
          by_cases hu : t = u
          · subst hu
            rw [if_neg (by omega), if_pos rfl, if_pos hlt, if_pos (by omega), ha]
            rfl
          · rw [if_neg hu]
            by_cases hc : t + 1 ≤ u ∧ u < t + 1 + k
            · rw [if_pos hc, if_pos (by omega)]
            · rw [if_neg hc, if_neg (by omega)]

theorem take_total {h : Nat} {need : Int} : ∀ {k t : Nat} {l : List Int}, l.length = h → t + k ≤ h → ∃ l', take h need t k l = .ok l' := by
  intro k
  induction k with
  | zero => intro t l _ _; exact ⟨l, rfl⟩
  | succ k ih =>
    intro t l hl ht
    have hlt : t < l.length := by omega
    simp only [take, List.getElem?_eq_getElem hlt]
    rw [if_neg (by omega)]
    exact ih (by rw [List.length_set, hl]) (by omega)

theorem takeAll_spec {net : Net} {j time : Nat} : ∀ {av av' : Avail}, takeAll net j time av = .ok av' →
    List.Forall₂ (fun x y => x.1 = y.1 ∧ take net.horizon (net.need j x.1) time (net.dur j) x.2 = .ok y.2) av av' := by
  intro av
  induction av with
  | nil => intro av' h; cases h; exact .nil
  | cons y av ih =>
    obtain ⟨r, l⟩ := y
    intro av' h
    simp only [takeAll] at h
    split at h
    · cases h
    · next l' hl =>
      split at h
      · cases h
      · next rest hr =>
        cases h
        exact .cons ⟨rfl, hl⟩ (ih hr)

theorem takeAll_total {net : Net} {j time : Nat} (ht : time + net.dur j ≤ net.horizon) : ∀ {av : Avail}, (∀ x ∈ av, x.2.length = net.horizon) →
    ∃ av', takeAll net j time av = .ok av' := by
  intro av
  induction av with
  | nil => intro _; exact ⟨[], rfl⟩
  | cons y av ih =>
    obtain ⟨r, l⟩ := y
    intro hl
    obtain ⟨l', e1⟩ := take_total (need := net.need j r) (hl _ List.mem_cons_self) ht
    obtain ⟨av', e2⟩ := ih (fun x hx => hl x (List.mem_cons_of_mem _ hx))
    exact ⟨(r, l') :: av', by simp only [takeAll, e1, e2]⟩

/-! ### The invariant -/

/-- What remains is what was there without what is used. -/
def Agree (net : Net) (cap : Avail) (st : St) : Prop :=
  List.Forall₂ (fun (x y : Nat × List Int) => x.1 = y.1 ∧ y.2.length = x.2.length ∧ ∀ (t : Nat) (a : Int), x.2[t]? = some a → y.2[t]? = some (a - used net st.sched x.1 t)) cap st.avail

theorem Agree.left {net : Net} {cap : Avail} {st : St} (h : Agree net cap st) {y : Nat × List Int} (hy : y ∈ st.avail) :
    ∃ x ∈ cap, x.1 = y.1 ∧ y.2.length = x.2.length ∧ ∀ (t : Nat) (a : Int), x.2[t]? = some a → y.2[t]? = some (a - used net st.sched x.1 t) := by
  obtain ⟨avail, sched, least, causes, effects⟩ := st
  simp only [Agree] at h hy ⊢
  induction h with
  | nil => cases hy
  | @cons x y' l l' h1 _ ih =>
    rcases List.mem_cons.mp hy with rfl | hy
    · exact ⟨x, List.mem_cons_self, h1⟩
    · obtain ⟨x', h2, h3⟩ := ih hy
      exact ⟨x', List.mem_cons_of_mem _ h2, h3⟩

theorem Agree.right {net : Net} {cap : Avail} {st : St} (h : Agree net cap st) {x : Nat × List Int} (hx : x ∈ cap) :
    ∃ y ∈ st.avail, x.1 = y.1 ∧ y.2.length = x.2.length ∧ ∀ (t : Nat) (a : Int), x.2[t]? = some a → y.2[t]? = some (a - used net st.sched x.1 t) := by
  obtain ⟨avail, sched, least, causes, effects⟩ := st
  simp only [Agree] at h ⊢
  induction h with
  | nil => cases hx
  | @cons x' y l l' h1 _ ih =>
    rcases List.mem_cons.mp hx with rfl | hx
    · exact ⟨y, List.mem_cons_self, h1⟩
    · obtain ⟨y', h2, h3⟩ := ih hx
      exact ⟨y', List.mem_cons_of_mem _ h2, h3⟩

theorem forall₂_trans {α β γ : Type} {P : α → β → Prop} {Q : β → γ → Prop} {l : List α} {m : List β} {n : List γ} (h1 : List.Forall₂ P l m) (h2 : List.Forall₂ Q m n) :
    List.Forall₂ (fun a c => ∃ b, P a b ∧ Q b c) l n := by
  induction h1 generalizing n with
  | nil => cases h2; exact .nil
  | cons h _ ih => cases h2 with
    | cons h' h2 => exact .cons ⟨_, h, h'⟩ (ih h2)

theorem forall₂_mem {α β : Type} {P : α → β → Prop} {l : List α} {m : List β} (h : List.Forall₂ P l m) {a : α} (ha : a ∈ l) : ∃ b ∈ m, P a b := by
  induction h with
  | nil => cases ha
  | @cons _ b _ _ h1 _ ih =>
    rcases List.mem_cons.mp ha with rfl | ha
    · exact ⟨b, List.mem_cons_self, h1⟩
    · obtain ⟨b', h2, h3⟩ := ih ha
      exact ⟨b', List.mem_cons_of_mem _ h2, h3⟩

/-- A schedule under construction: dates, precedences, capacities and least dates. -/
structure Inv (net : Net) (cap : Avail) (st : St) : Prop where
  nodup : st.sched.keys.Nodup
  ends : ∀ j s e, (j, (s, e)) ∈ st.sched → e = s + net.dur j ∧ net.esd j ≤ s
  prec : ∀ j s e, (j, (s, e)) ∈ st.sched → ∀ i ∈ net.pred j, ∃ s' e', (i, (s', e')) ∈ st.sched ∧ e' ≤ s
  agree : Agree net cap st
  fits : ∀ x ∈ cap, ∀ (t : Nat) (a : Int), x.2[t]? = some a → 0 ≤ a → used net st.sched x.1 t ≤ a
  within : ∀ x ∈ cap, ∀ j s e, (j, (s, e)) ∈ st.sched → 0 < net.dur j → e ≤ x.2.length
  least_ge : ∀ k, net.esd k ≤ st.least k
  least_desc : ∀ i s e, (i, (s, e)) ∈ st.sched → ∀ k ∈ net.desc i, e ≤ st.least k
  least_le : ∀ k t, net.esd k ≤ t → (∀ i s e, (i, (s, e)) ∈ st.sched → k ∈ net.desc i → e ≤ t) → st.least k ≤ t

theorem inv_start (net : Net) (cap : Avail) : Inv net cap (start net cap) := by
  refine ⟨by simp [start, Dict.keys], by simp [start], by simp [start], ?_, ?_, by simp [start], fun k => Nat.le_refl _, by simp [start], fun k t h _ => h⟩
  · simp only [Agree, start]
    induction cap with
    | nil => exact .nil
    | cons x l ih => exact .cons ⟨rfl, rfl, by intro t a h; simp [used, h]⟩ ih
  · intro x hx t a _ h0
    simpa [used, start] using h0

theorem inv_causes {net : Net} {cap : Avail} {st : St} (h : Inv net cap st) (cs : List Cause) : Inv net cap { st with causes := cs } :=
  ⟨h.nodup, h.ends, h.prec, h.agree, h.fits, h.within, h.least_ge, h.least_desc, h.least_le⟩

/-- Placing an activity that is new, whose predecessors are placed, at a time that is not too early and where it fits. -/
theorem inv_place {net : Net} {cap : Avail} (hnet : ∀ j, ∀ i ∈ net.pred j, j ∈ net.desc i) {st st' : St} (h : Inv net cap st) {j time : Nat}
    (hnew : j ∉ st.sched.keys) (hp : ∀ i ∈ net.pred j, i ∈ st.sched.keys) (hl : st.least j ≤ time)
    (hfit : ∀ x ∈ cap, ∀ (u : Nat) (a : Int), time ≤ u → u < time + net.dur j → x.2[u]? = some a → 0 ≤ a → used net st.sched x.1 u + net.need j x.1 ≤ a)
    (e : place net st j time = .ok st') : Inv net cap st' ∧ st'.sched = st.sched ++ [(j, (time, time + net.dur j))] ∧ st'.causes = st.causes := by
  simp only [place] at e
  split at e
  · cases e
  · next av hav =>
    cases e
    have hset := set_new (v := (time, time + net.dur j)) hnew
    have hu : ∀ r t, used net (st.sched ++ [(j, (time, time + net.dur j))]) r t = used net st.sched r t + if time ≤ t ∧ t < time + net.dur j then net.need j r else 0 := by
      intro r t; rw [used_append, used_one]
    have hmem : ∀ i s e, (i, (s, e)) ∈ st.sched ++ [(j, (time, time + net.dur j))] ↔ ((i, (s, e)) ∈ st.sched ∨ (i = j ∧ s = time ∧ e = time + net.dur j)) := by
      intro i s e; simp
    have htake := takeAll_spec hav
    refine ⟨⟨?_, ?_, ?_, ?_, ?_, ?_, ?_, ?_, ?_⟩, hset, rfl⟩
    · exact Dict.nodup_keys_set _ _ h.nodup
    · intro i s e hi
      simp only [hset, hmem] at hi
      rcases hi with hi | ⟨rfl, rfl, rfl⟩
      · exact h.ends i s e hi
      · exact ⟨rfl, Nat.le_trans (h.least_ge _) hl⟩
    · intro i s e hi k hk
      simp only [hset, hmem] at hi ⊢
      rcases hi with hi | ⟨rfl, rfl, rfl⟩
      · obtain ⟨s', e', h1, h2⟩ := h.prec i s e hi k hk
        exact ⟨s', e', .inl h1, h2⟩
      · obtain ⟨⟨s', e'⟩, h1⟩ := mem_keys_iff.mp (hp k hk)
        exact ⟨s', e', .inl h1, Nat.le_trans (h.least_desc k s' e' h1 _ (hnet _ k hk)) hl⟩
    · simp only [Agree, hset]
      refine (forall₂_trans h.agree htake).imp ?_
      rintro x z ⟨y, ⟨a1, a2, a3⟩, a4, a5⟩
      obtain ⟨t1, -, t3⟩ := take_spec a5
      refine ⟨a1.trans a4, by rw [t1, a2], fun t a ha => ?_⟩
      rw [t3, hu]
      by_cases hc : time ≤ t ∧ t < time + net.dur j
      · rw [if_pos hc, if_pos hc, a3 t a ha, a1]
        simp only [Option.map_some, Option.some.injEq]
        omega
      · rw [if_neg hc, if_neg hc, a3 t a ha]
        simp
    · intro x hx t a ha h0
      simp only [hset, hu]
      split
      · next hc => exact hfit x hx t a hc.1 hc.2 ha h0
      · simpa using h.fits x hx t a ha h0
    · intro x hx i s e hi hd
      simp only [hset, hmem] at hi
      rcases hi with hi | ⟨rfl, rfl, rfl⟩
      · exact h.within x hx i s e hi hd
      · obtain ⟨y, hy, y1, y2, -⟩ := h.agree.right hx
        obtain ⟨z, -, hz⟩ := forall₂_mem htake hy
        have hz := hz.2
        have := (take_spec hz).2.1 hd
        omega
    · intro k
      simp only [raise]
      split
      · exact Nat.le_trans (h.least_ge k) (Nat.le_max_left _ _)
      · exact h.least_ge k
    · intro i s e hi k hk
      simp only [hset, hmem] at hi
      simp only [raise]
      rcases hi with hi | ⟨rfl, rfl, rfl⟩
      · have := h.least_desc i s e hi k hk
        split
        · exact Nat.le_trans this (Nat.le_max_left _ _)
        · exact this
      · rw [if_pos hk]; exact Nat.le_max_right _ _
    · intro k t hk hall
      simp only [hset, hmem] at hall
      simp only [raise]
      have h1 := h.least_le k t hk (fun i s e hi => hall i s e (.inl hi))
      split
      · next hkd => exact Nat.max_le.mpr ⟨h1, hall j _ _ (.inr ⟨rfl, rfl, rfl⟩) hkd⟩
      · exact h1

/-! ### Activities that cannot start earlier -/

/-- What others take. -/
def others (sched : Dict Nat (Nat × Nat)) (j : Nat) : Dict Nat (Nat × Nat) := sched.filter (fun x => decide (x.1 ≠ j))

/-- At `t` the activity `j` would not find what it needs beside the others. -/
def Blocked (net : Net) (cap : Avail) (sched : Dict Nat (Nat × Nat)) (j t : Nat) : Prop :=
  ∃ x ∈ cap, ∃ (u : Nat) (a : Int), t ≤ u ∧ u < t + net.dur j ∧ x.2[u]? = some a ∧ a < used net (others sched j) x.1 u + net.need j x.1

/-- No activity can start earlier, as long as it starts after the end of all activities it depends on. -/
def Active (net : Net) (cap : Avail) (sched : Dict Nat (Nat × Nat)) : Prop :=
  ∀ j s e, (j, (s, e)) ∈ sched → ∀ t, net.esd j ≤ t → t < s → (∀ i s' e', (i, (s', e')) ∈ sched → j ∈ net.desc i → e' ≤ t) → Blocked net cap sched j t

theorem used_nonneg {net : Net} (hn : ∀ j r, 0 ≤ net.need j r) (d : Dict Nat (Nat × Nat)) (r t : Nat) : 0 ≤ used net d r t := by
  simp only [used]
  generalize d.filter _ = l
  induction l with
  | nil => simp
  | cons x l ih => simp only [List.map_cons, List.sum_cons]; have := hn x.1 r; omega

theorem others_new {d : Dict Nat (Nat × Nat)} {j : Nat} (h : j ∉ d.keys) : others d j = d := by
  simp only [others]
  rw [List.filter_eq_self]
  intro x hx
  simp only [ne_eq, decide_eq_true_eq]
  rintro rfl
  exact h (mem_keys_iff.mpr ⟨x.2, hx⟩)

theorem others_append (d d' : Dict Nat (Nat × Nat)) (j : Nat) : others (d ++ d') j = others d j ++ others d' j := by
  simp [others]

theorem active_place {net : Net} (hn : ∀ j r, 0 ≤ net.need j r) {cap : Avail} {st : St} (h : Inv net cap st) (ha : Active net cap st.sched) {j time : Nat}
    (hnew : j ∉ st.sched.keys) (hb : ∀ t, st.least j ≤ t → t < time → ∃ r u, scanAll net j t st.avail = .ok (some (r, u))) :
    Active net cap (st.sched ++ [(j, (time, time + net.dur j))]) := by
  intro i s e hi t h1 h2 h3
  rw [List.mem_append] at hi
  rcases hi with hi | hi
  · obtain ⟨x, hx, u, a, b1, b2, b3, b4⟩ := ha i s e hi t h1 h2 (fun k s' e' hk => h3 k s' e' (List.mem_append_left _ hk))
    refine ⟨x, hx, u, a, b1, b2, b3, ?_⟩
    rw [others_append, used_append]
    have := used_nonneg hn (others [(j, (time, time + net.dur j))] i) x.1 u
    omega
  · simp only [List.mem_singleton, Prod.mk.injEq] at hi
    obtain ⟨rfl, rfl, rfl⟩ := hi
    have hle := h.least_le i t h1 (fun k s' e' hk => h3 k s' e' (List.mem_append_left _ hk))
    obtain ⟨r, u, hs⟩ := hb t hle h2
    obtain ⟨g1, g2, l, g3, a, g4, g5⟩ := scanAll_some hs
    obtain ⟨x, hx, x1, x2, x3⟩ := h.agree.left g3
    have hlt : u < x.2.length := by rw [← x2]; exact (List.getElem?_eq_some_iff.mp g4).1
    have hxu : x.2[u]? = some x.2[u] := List.getElem?_eq_getElem hlt
    have := x3 u _ hxu
    simp only at this x1
    rw [g4] at this
    cases this
    refine ⟨x, hx, u, x.2[u], g1, g2, hxu, ?_⟩
    rw [others_append, others_new hnew, used_append]
    have h0 : used net (others [(i, (s, s + net.dur i))] i) x.1 u = 0 := by simp [others, used]
    rw [h0, x1]
    rw [x1] at g5
    omega

/-! ### Passes -/

theorem schedule_spec {net : Net} {cap : Avail} (hnet : ∀ j, ∀ i ∈ net.pred j, j ∈ net.desc i) {st st' : St} (h : Inv net cap st) {j : Nat}
    (hnew : j ∉ st.sched.keys) (hp : ∀ i ∈ net.pred j, i ∈ st.sched.keys) (e : schedule net st j = .ok st') :
    Inv net cap st' ∧ (st'.sched = st.sched ∨ ∃ time, st'.sched = st.sched ++ [(j, (time, time + net.dur j))]) ∧
      ((∀ j r, 0 ≤ net.need j r) → Active net cap st.sched → Active net cap st'.sched) := by
  simp only [schedule] at e
  split at e
  · cases e
  · cases e
    exact ⟨inv_causes h _, .inl rfl, fun _ ha => ha⟩
  · next time cs hf =>
    obtain ⟨f1, f2, f3, f4⟩ := findTime_some hf
    obtain ⟨i1, i2, -⟩ := inv_place hnet (inv_causes h (st.causes ++ cs)) (j := j) (time := time) hnew hp f1 (by
      intro x hx u a u1 u2 ha h0
      obtain ⟨y, hy, y1, _, y3⟩ := h.agree.right hx
      obtain ⟨b, b1, b2⟩ := scanAll_none f3 y hy u u1 u2
      rw [y3 u a ha] at b1
      cases b1
      rw [y1]
      rw [y1] at b2
      show used net st.sched y.1 u + net.need j y.1 ≤ a
      omega) e
    refine ⟨i1, .inr ⟨time, i2⟩, fun hn ha => ?_⟩
    rw [i2]
    exact active_place hn h ha hnew f4

/-! ### Causes -/

/-- The causes that are noted: activities of the schedule that are no ancestors and use the resource at that time. -/
def Causes (net : Net) (st : St) : Prop :=
  ∀ x ∈ st.causes, net.esd x.task ≤ x.time ∧ ∀ k ∈ x.users, k ∉ net.anc x.task ∧ ∃ s e, (k, (s, e)) ∈ st.sched ∧ s ≤ x.time ∧ x.time < e ∧ 0 < net.need k x.res

theorem mem_users {net : Net} {st : St} {j r t k : Nat} (h : k ∈ users net st j r t) :
    k ∉ net.anc j ∧ ∃ s e, (k, (s, e)) ∈ st.sched ∧ s ≤ t ∧ t < e ∧ 0 < net.need k r := by
  simp only [users, List.mem_map, List.mem_filter, Bool.and_eq_true, decide_eq_true_eq, Bool.not_eq_true', List.contains_eq_mem, decide_eq_false_iff_not] at h
  obtain ⟨⟨k', s, e⟩, ⟨h1, ⟨h2, h3, h4⟩, h5⟩, rfl⟩ := h
  exact ⟨h5, s, e, h1, h2, h3, h4⟩

theorem Causes.mono {net : Net} {st st' : St} (h : Causes net st) (hs : ∀ x ∈ st.sched, x ∈ st'.sched) (hc : ∀ x ∈ st'.causes, x ∈ st.causes) : Causes net st' := by
  intro x hx
  obtain ⟨h0, h1⟩ := h x (hc x hx)
  refine ⟨h0, fun k hk => ?_⟩
  obtain ⟨a, s, e, b, c⟩ := h1 k hk
  exact ⟨a, s, e, hs _ b, c⟩

theorem schedule_causes {net : Net} {cap : Avail} {st st' : St} (h : Inv net cap st) {j : Nat} (hnew : j ∉ st.sched.keys)
    (hc : Causes net st) (e : schedule net st j = .ok st') :
    Causes net st' ∧ ∀ x ∈ st'.causes, x ∈ st.causes ∨ x.task = j := by
  simp only [schedule] at e
  have key : ∀ o cs, findTime net st j (List.range' (st.least j) (net.horizon - st.least j)) = .ok (o, cs) →
      Causes net { st with causes := st.causes ++ cs } ∧ ∀ x ∈ st.causes ++ cs, x ∈ st.causes ∨ x.task = j := by
    intro o cs hf
    have hcs := findTime_causes hf
    constructor
    · intro x hx
      rcases List.mem_append.mp hx with hx | hx
      · exact hc x hx
      · obtain ⟨c1, time, c2, c3, c4⟩ := hcs x hx
        have hge := (scanAll_some c3).1
        have hle := h.least_ge j
        have := (List.mem_range'_1.mp c2).1
        refine ⟨by rw [c1]; omega, fun k hk => ?_⟩
        rw [c4] at hk
        rw [c1]
        exact mem_users hk
    · intro x hx
      rcases List.mem_append.mp hx with hx | hx
      · exact .inl hx
      · exact .inr (hcs x hx).1
  split at e
  · cases e
  · next cs hf =>
    cases e
    exact key _ _ hf
  · next time cs hf =>
    obtain ⟨k1, k2⟩ := key _ _ hf
    simp only [place] at e
    split at e
    · cases e
    · cases e
      refine ⟨k1.mono ?_ (fun x hx => hx), k2⟩
      intro x hx
      simp only [set_new hnew]
      exact List.mem_append_left _ hx

/-! ### Passes -/

theorem nextTask_some {net : Net} {st : St} {ll : List Nat} {j : Nat} (h : nextTask net st ll = some j) :
    j ∈ ll ∧ ∀ i ∈ net.pred j, i ∈ st.sched.keys := by
  refine ⟨List.mem_of_find?_eq_some h, fun i hi => ?_⟩
  have := List.find?_some h
  rw [List.all_eq_true] at this
  exact contains_iff_keys.mp (this i hi)

/-- What holds of the state after each activity. -/
structure Good (net : Net) (cap : Avail) (st : St) : Prop where
  inv : Inv net cap st
  active : (∀ j r, 0 ≤ net.need j r) → Active net cap st.sched
  causes : Causes net st

theorem good_start (net : Net) (cap : Avail) : Good net cap (start net cap) :=
  ⟨inv_start net cap, fun _ => by simp [Active, start], by simp [Causes, start]⟩

theorem schedule_good {net : Net} {cap : Avail} (hnet : ∀ j, ∀ i ∈ net.pred j, j ∈ net.desc i) {st st' : St} (h : Good net cap st) {j : Nat}
    (hnew : j ∉ st.sched.keys) (hp : ∀ i ∈ net.pred j, i ∈ st.sched.keys) (e : schedule net st j = .ok st') :
    Good net cap st' ∧ (st'.sched.keys = st.sched.keys ∨ st'.sched.keys = st.sched.keys ++ [j]) := by
  obtain ⟨h1, h2, h3⟩ := schedule_spec hnet h.inv hnew hp e
  refine ⟨⟨h1, fun hn => h3 hn (h.active hn), (schedule_causes h.inv hnew h.causes e).1⟩, ?_⟩
  rcases h2 with h2 | ⟨time, h2⟩
  · exact .inl (by rw [h2])
  · exact .inr (by rw [h2]; simp [Dict.keys])

theorem pass_good {net : Net} {cap : Avail} (hnet : ∀ j, ∀ i ∈ net.pred j, j ∈ net.desc i) : ∀ {n : Nat} {ll : List Nat} {st st' : St}, Good net cap st →
    ll.Nodup → (∀ j ∈ ll, j ∉ st.sched.keys) → pass net n ll st = .ok st' →
    Good net cap st' ∧ ∀ k ∈ st'.sched.keys, k ∈ st.sched.keys ∨ k ∈ ll := by
  intro n
  induction n with
  | zero => intro ll st st' h _ _ e; cases e; exact ⟨h, fun k hk => .inl hk⟩
  | succ n ih =>
    intro ll st st' h hnd hdis e
    simp only [pass] at e
    split at e
    · cases e
    · next j hj =>
      obtain ⟨hjl, hjp⟩ := nextTask_some hj
      split at e
      · cases e
      · next st1 h1 =>
        obtain ⟨g1, g2⟩ := schedule_good hnet h (hdis j hjl) hjp h1
        have hdis' : ∀ k ∈ ll.erase j, k ∉ st1.sched.keys := by
          intro k hk hk'
          have hk2 := (hnd.mem_erase_iff).mp hk
          rcases g2 with g2 | g2
          · rw [g2] at hk'; exact hdis k hk2.2 hk'
          · rw [g2] at hk'
            rcases List.mem_append.mp hk' with hk' | hk'
            · exact hdis k hk2.2 hk'
            · exact hk2.1 (List.mem_singleton.mp hk')
        obtain ⟨r1, r2⟩ := ih g1 (hnd.erase j) hdis' e
        refine ⟨r1, fun k hk => ?_⟩
        rcases r2 k hk with hk | hk
        · rcases g2 with g2 | g2
          · rw [g2] at hk; exact .inl hk
          · rw [g2] at hk
            rcases List.mem_append.mp hk with hk | hk
            · exact .inl hk
            · rw [List.mem_singleton.mp hk]; exact .inr hjl
        · exact .inr (List.mem_of_mem_erase hk)

theorem before_spec {net : Net} {order : List Nat} {st : St} {c : Nat} {l : List Nat} (h : before net order st c = .ok l) :
    l = order.filter (fun n => (net.anc c).contains n && !st.sched.contains n) := by
  simp only [before] at h
  split at h
  · cases h; rfl
  · cases h

theorem mem_before {net : Net} {order : List Nat} {st : St} {c k : Nat} :
    k ∈ order.filter (fun n => (net.anc c).contains n && !st.sched.contains n) ↔ k ∈ order ∧ k ∈ net.anc c ∧ k ∉ st.sched.keys := by
  rw [List.mem_filter, Bool.and_eq_true, List.contains_iff_mem, Bool.not_eq_true', ← contains_iff_keys, Bool.not_eq_true]

/-- The critical activities that remain are not done yet. -/
theorem cut_good {net : Net} {cap : Avail} (hnet : ∀ j, ∀ i ∈ net.pred j, j ∈ net.desc i) (hself : ∀ c, c ∉ net.anc c) {order : List Nat} (hord : order.Nodup) :
    ∀ {critical : List Nat} {st st' : St}, critical.Pairwise (fun a b => b ≠ a ∧ b ∉ net.anc a) → Good net cap st → (∀ c ∈ critical, c ∉ st.sched.keys) →
      cut net order critical st = .ok st' → Good net cap st' := by
  intro critical
  induction critical with
  | nil => intro st st' _ h _ e; cases e; exact h
  | cons c cs ih =>
    intro st st' hpw h hdis e
    simp only [cut] at e
    split at e
    · cases e
    · next l hl =>
      have hl := before_spec hl
      split at e
      · cases e
      · next st1 h1 =>
        split at e
        · have hnd : (l ++ [c]).Nodup := by
            rw [List.nodup_append]
            refine ⟨by rw [hl]; exact hord.filter _, by simp, ?_⟩
            intro a ha b hb
            rw [List.mem_singleton] at hb
            subst hb
            rintro rfl
            rw [hl, mem_before] at ha
            exact hself a ha.2.1
          have hd1 : ∀ j ∈ l ++ [c], j ∉ st.sched.keys := by
            intro j hj
            rcases List.mem_append.mp hj with hj | hj
            · rw [hl, mem_before] at hj; exact hj.2.2
            · rw [List.mem_singleton.mp hj]; exact hdis c List.mem_cons_self
          obtain ⟨g1, g2⟩ := pass_good hnet h hnd hd1 h1
          rw [List.pairwise_cons] at hpw
          refine ih hpw.2 g1 (fun d hd hd' => ?_) e
          obtain ⟨p1, p2⟩ := hpw.1 d hd
          rcases g2 d hd' with g | g
          · exact hdis d (List.mem_cons_of_mem _ hd) g
          · rcases List.mem_append.mp g with g | g
            · rw [hl, mem_before] at g; exact p2 g.2.1
            · exact p1 (List.mem_singleton.mp g)
        · cases e

theorem linksOf_spec {net : Net} {sched : Dict Nat (Nat × Nat)} : ∀ {cs : List Cause} {l : List (Nat × Nat)}, linksOf net sched cs = .ok l →
    ∀ j k, (j, k) ∈ l ↔ ∃ x ∈ cs, x.task = j ∧ k ∈ x.users ∧ net.lsd j - 5 ≤ x.time ∧ ∃ s e, sched.get? j = some (s, e) ∧ net.esd j < s := by
  intro cs
  induction cs with
  | nil => intro l h j k; cases h; simp
  | cons x cs ih =>
    intro l h j k
    simp only [linksOf] at h
    split at h
    · cases h
    · next s e hs =>
      split at h
      · cases h
      · next l' hl =>
        cases h
        rw [List.mem_append, ih hl]
        constructor
        · rintro (h | ⟨y, hy, h⟩)
          · split at h
            · next hc =>
              simp only [List.mem_map, Prod.mk.injEq] at h
              obtain ⟨k', hk, rfl, rfl⟩ := h
              exact ⟨x, List.mem_cons_self, rfl, hk, hc.2, s, e, hs, hc.1⟩
            · cases h
          · exact ⟨y, List.mem_cons_of_mem _ hy, h⟩
        · rintro ⟨y, hy, rfl, hk, hlsd, s', e', hs', hlt⟩
          rcases List.mem_cons.mp hy with rfl | hy
          · left
            rw [hs] at hs'
            cases hs'
            rw [if_pos ⟨hlt, hlsd⟩]
            exact List.mem_map.mpr ⟨k, hk, rfl⟩
          · exact .inr ⟨y, hy, rfl, hk, hlsd, s', e', hs', hlt⟩

theorem linksOf_total {net : Net} {sched : Dict Nat (Nat × Nat)} : ∀ {cs : List Cause}, (∀ x ∈ cs, x.task ∈ sched.keys) → ∃ l, linksOf net sched cs = .ok l := by
  intro cs
  induction cs with
  | nil => intro _; exact ⟨[], rfl⟩
  | cons x cs ih =>
    intro h
    obtain ⟨l, hl⟩ := ih (fun y hy => h y (List.mem_cons_of_mem _ hy))
    have := (Dict.get?_isSome_iff_mem_keys _ _).mpr (h x List.mem_cons_self)
    obtain ⟨⟨s, e⟩, hse⟩ := Option.isSome_iff_exists.mp this
    exact ⟨_, by simp only [linksOf, hse, hl]; rfl⟩

theorem finish_spec {net : Net} {critical : List Nat} {st : St} {R : Result} (h : finish net critical st = .ok R) :
    R.sched = st.sched ∧ R.causes = st.causes ∧ R.effects = st.effects ∧ linksOf net st.sched st.causes = .ok R.links ∧ ∃ c, critical.getLast? = some c ∧ c ∈ st.sched.keys := by
  simp only [finish] at h
  split at h
  · cases h
  · next l hl =>
    split at h
    · cases h
    · next c hc =>
      split at h
      · next hin => cases h; exact ⟨rfl, rfl, rfl, hl, c, hc, contains_iff_keys.mp hin⟩
      · cases h

theorem finish_total {net : Net} {critical : List Nat} {st : St} (h : ∀ x ∈ st.causes, x.task ∈ st.sched.keys) {c : Nat} (hc : critical.getLast? = some c) (hin : c ∈ st.sched.keys) :
    ∃ R, finish net critical st = .ok R := by
  obtain ⟨l, hl⟩ := linksOf_total (net := net) h
  exact ⟨_, by simp only [finish, hl, hc, contains_iff_keys.mpr hin, if_true]; rfl⟩

/-! ### Enough time -/

/-- The durations of a list of activities. -/
def total (f : Nat → Nat) (l : List Nat) : Nat := (l.map f).sum

theorem total_append (f : Nat → Nat) (l m : List Nat) : total f (l ++ m) = total f l + total f m := by simp [total]

theorem total_sublist {f : Nat → Nat} {l m : List Nat} (h : l.Sublist m) : total f l ≤ total f m := by
  induction h with
  | slnil => exact Nat.le_refl _
  | cons a _ ih => simp only [total, List.map_cons, List.sum_cons] at *; omega
  | cons_cons a _ ih => simp only [total, List.map_cons, List.sum_cons] at *; omega

theorem total_perm {f : Nat → Nat} {l m : List Nat} (h : l.Perm m) : total f l = total f m := by
  induction h with
  | nil => rfl
  | cons _ _ ih => simp only [total, List.map_cons, List.sum_cons] at *; omega
  | swap => simp only [total, List.map_cons, List.sum_cons]; omega
  | trans _ _ h1 h2 => exact h1.trans h2

theorem total_subset {f : Nat → Nat} {l m : List Nat} (hl : l.Nodup) (h : ∀ x ∈ l, x ∈ m) : total f l ≤ total f m := by
  obtain ⟨l', h1, h2⟩ := List.subperm_of_subset hl h
  rw [← total_perm h1]
  exact total_sublist h2

/-- The problem can be scheduled: constant capacities that suffice for each activity, earliest starts as given by the predecessors. -/
structure Sound (net : Net) (caps : List (Nat × Int)) : Prop where
  desc : ∀ j, ∀ i ∈ net.pred j, j ∈ net.desc i
  enough : ∀ j, ∀ x ∈ caps, net.need j x.1 ≤ x.2
  early : ∀ j, net.esd j = 0 ∨ ∃ i ∈ net.pred j, net.esd j ≤ net.esd i + net.dur i

/-- All activities end within their durations together. -/
def Short (net : Net) (st : St) : Prop := ∀ j s e, (j, (s, e)) ∈ st.sched → e ≤ total net.dur st.sched.keys

theorem used_late {net : Net} {d : Dict Nat (Nat × Nat)} {M : Nat} (h : ∀ j s e, (j, (s, e)) ∈ d → e ≤ M) (r : Nat) {u : Nat} (hu : M ≤ u) : used net d r u = 0 := by
  have : d.filter (fun x => decide (x.2.1 ≤ u ∧ u < x.2.2)) = [] := by
    rw [List.filter_eq_nil_iff]
    rintro ⟨j, s, e⟩ hx
    have := h j s e hx
    simp only [decide_eq_true_eq]
    omega
  simp only [used, this, List.map_nil, List.sum_nil]

theorem avail_length {net : Net} {caps : List (Nat × Int)} {st : St} (h : Inv net (constant net.horizon caps) st) : ∀ y ∈ st.avail, y.2.length = net.horizon := by
  intro y hy
  obtain ⟨x, hx, _, h2, _⟩ := h.agree.left hy
  simp only [constant, List.mem_map] at hx
  obtain ⟨z, _, rfl⟩ := hx
  rw [h2, List.length_replicate]

/-- The activity can be placed, not later than the time up to which anything is used. -/
theorem schedule_total {net : Net} {caps : List (Nat × Int)} (hs : Sound net caps) {st : St} (h : Inv net (constant net.horizon caps) st) (hb : Short net st) {j : Nat}
    (hnew : j ∉ st.sched.keys) (hp : ∀ i ∈ net.pred j, i ∈ st.sched.keys) (hh : total net.dur st.sched.keys + net.dur j < net.horizon) :
    ∃ st', schedule net st j = .ok st' ∧ st'.sched.keys = st.sched.keys ++ [j] ∧ Short net st' := by
  have hav := avail_length h
  have hle : st.least j ≤ total net.dur st.sched.keys := by
    refine h.least_le j _ ?_ (fun i s e hi _ => hb i s e hi)
    rcases hs.early j with h0 | ⟨i, hi, h1⟩
    · omega
    · obtain ⟨⟨s, e⟩, hm⟩ := mem_keys_iff.mp (hp i hi)
      have := h.ends i s e hm
      have := hb i s e hm
      omega
  have hfree : scanAll net j (total net.dur st.sched.keys) st.avail = .ok none := by
    refine scanAll_free hav (by omega) (fun y hy u a hu ha => ?_)
    obtain ⟨x, hx, x1, x2, x3⟩ := h.agree.left hy
    simp only [constant, List.mem_map] at hx
    obtain ⟨z, hz, rfl⟩ := hx
    have hlt : u < net.horizon := by rw [← hav y hy]; exact (List.getElem?_eq_some_iff.mp ha).1
    have := x3 u z.2 (by rw [List.getElem?_replicate, if_pos hlt])
    rw [ha, used_late hb _ hu] at this
    cases this
    rw [← x1]
    simpa using hs.enough j z hz
  obtain ⟨time, cs, hf, hle2⟩ := findTime_total hfree (net.horizon - st.least j) (st.least j) hle (by omega)
    (fun t _ g2 => scanAll_total hav (by omega))
  obtain ⟨av, hta⟩ := takeAll_total (net := net) (j := j) (time := time) (by omega) hav
  refine ⟨_, by simp only [schedule, hf, place, hta]; rfl, ?_, ?_⟩
  · simp only [set_new hnew]; simp [Dict.keys]
  · intro i s e hi
    simp only [set_new hnew] at hi ⊢
    have hk : (Dict.keys (st.sched ++ [(j, (time, time + net.dur j))])) = st.sched.keys ++ [j] := by simp [Dict.keys]
    rw [hk, total_append]
    have : total net.dur [j] = net.dur j := by simp [total]
    rcases List.mem_append.mp hi with hi | hi
    · have := hb i s e hi; omega
    · simp only [List.mem_singleton, Prod.mk.injEq] at hi
      omega

theorem exists_least {rank : Nat → Nat} : ∀ {l : List Nat}, l ≠ [] → ∃ j ∈ l, ∀ k ∈ l, rank j ≤ rank k := by
  intro l
  induction l with
  | nil => intro h; exact absurd rfl h
  | cons a l ih =>
    intro _
    by_cases hl : l = []
    · subst hl; exact ⟨a, by simp, by simp⟩
    · obtain ⟨j, h1, h2⟩ := ih hl
      by_cases hc : rank a ≤ rank j
      · refine ⟨a, List.mem_cons_self, fun k hk => ?_⟩
        rcases List.mem_cons.mp hk with rfl | hk
        · exact Nat.le_refl _
        · exact Nat.le_trans hc (h2 k hk)
      · refine ⟨j, List.mem_cons_of_mem _ h1, fun k hk => ?_⟩
        rcases List.mem_cons.mp hk with rfl | hk
        · omega
        · exact h2 k hk

theorem nextTask_exists {net : Net} {st : St} {ll : List Nat} (hr : ∃ rank : Nat → Nat, ∀ j, ∀ i ∈ net.pred j, rank i < rank j) (hne : ll ≠ [])
    (hcl : ∀ j ∈ ll, ∀ i ∈ net.pred j, i ∈ st.sched.keys ∨ i ∈ ll) : ∃ j, nextTask net st ll = some j := by
  obtain ⟨rank, hr⟩ := hr
  obtain ⟨j, h1, h2⟩ := exists_least (rank := rank) hne
  have : (nextTask net st ll).isSome := by
    simp only [nextTask, List.find?_isSome]
    refine ⟨j, h1, ?_⟩
    rw [List.all_eq_true]
    intro i hi
    rcases hcl j h1 i hi with h | h
    · exact contains_iff_keys.mpr h
    · have := h2 i h; have := hr j i hi; omega
  exact Option.isSome_iff_exists.mp this

/-- A pass places all its activities. -/
theorem pass_total {net : Net} {caps : List (Nat × Int)} (hs : Sound net caps) (hacyc : ∃ rank : Nat → Nat, ∀ j, ∀ i ∈ net.pred j, rank i < rank j) : ∀ {n : Nat} {ll : List Nat} {st : St}, n = ll.length → Good net (constant net.horizon caps) st → Short net st →
    (∀ x ∈ st.causes, x.task ∈ st.sched.keys) → ll.Nodup → (∀ j ∈ ll, j ∉ st.sched.keys) → (∀ j ∈ ll, ∀ i ∈ net.pred j, i ∈ st.sched.keys ∨ i ∈ ll) →
    total net.dur (st.sched.keys ++ ll) < net.horizon →
    ∃ st', pass net n ll st = .ok st' ∧ Good net (constant net.horizon caps) st' ∧ Short net st' ∧ (∀ x ∈ st'.causes, x.task ∈ st'.sched.keys) ∧ st'.sched.keys.Perm (st.sched.keys ++ ll) := by
  intro n
  induction n with
  | zero =>
    intro ll st hn h hb hc _ _ _ _
    have : ll = [] := List.eq_nil_of_length_eq_zero hn.symm
    subst this
    exact ⟨st, rfl, h, hb, hc, by simp⟩
  | succ n ih =>
    intro ll st hn h hb hc hnd hdis hcl hh
    obtain ⟨j, hj⟩ := nextTask_exists (st := st) (ll := ll) hacyc (by rintro rfl; simp at hn) hcl
    obtain ⟨hjl, hjp⟩ := nextTask_some hj
    have hperm : (st.sched.keys ++ ll).Perm ((st.sched.keys ++ [j]) ++ ll.erase j) := by
      rw [List.append_assoc]
      exact (List.perm_cons_erase hjl).append_left _
    have hh' := hh
    rw [total_perm hperm, total_append, total_append] at hh'
    have h1j : total net.dur [j] = net.dur j := by simp [total]
    obtain ⟨st1, e1, k1, b1⟩ := schedule_total hs h.inv hb (hdis j hjl) hjp (by omega)
    obtain ⟨g1, -⟩ := schedule_good hs.desc h (hdis j hjl) hjp e1
    have c1 := (schedule_causes h.inv (hdis j hjl) h.causes e1).2
    obtain ⟨st', e2, g2, b2, c2, p2⟩ := ih (ll := ll.erase j) (st := st1) (by rw [List.length_erase_of_mem hjl]; omega) g1 b1
      (by
        intro x hx
        rw [k1, List.mem_append]
        rcases c1 x hx with hx | hx
        · exact .inl (hc x hx)
        · exact .inr (by rw [hx]; simp))
      (hnd.erase j)
      (by
        intro k hk hk'
        have hk2 := (hnd.mem_erase_iff).mp hk
        rw [k1] at hk'
        rcases List.mem_append.mp hk' with hk' | hk'
        · exact hdis k hk2.2 hk'
        · exact hk2.1 (List.mem_singleton.mp hk'))
      (by
        intro k hk i hi
        rw [k1, List.mem_append, List.mem_singleton]
        rcases hcl k (List.mem_of_mem_erase hk) i hi with h' | h'
        · exact .inl (.inl h')
        · by_cases hij : i = j
          · exact .inl (.inr hij)
          · exact .inr ((hnd.mem_erase_iff).mpr ⟨hij, h'⟩))
      (by rw [k1, ← total_perm hperm]; exact hh)
    refine ⟨st', by simp only [pass, hj, e1, e2], g2, b2, c2, ?_⟩
    refine p2.trans ?_
    rw [k1]
    exact hperm.symm

/-- All critical activities and their ancestors are placed. -/
theorem cut_total {net : Net} {caps : List (Nat × Int)} (hs : Sound net caps) (hacyc : ∃ rank : Nat → Nat, ∀ j, ∀ i ∈ net.pred j, rank i < rank j) (hself : ∀ c, c ∉ net.anc c) (hanc : ∀ c, ∀ i ∈ net.pred c, i ∈ net.anc c)
    (hancs : ∀ c, ∀ k ∈ net.anc c, ∀ i ∈ net.pred k, i ∈ net.anc c) {order : List Nat} (hord : order.Nodup) (hh : total net.dur order < net.horizon) :
    ∀ {critical : List Nat} {st : St}, critical.Pairwise (fun a b => b ≠ a ∧ b ∉ net.anc a) → (∀ c ∈ critical, c ∈ order ∧ ∀ k ∈ net.anc c, k ∈ order) →
      Good net (constant net.horizon caps) st → Short net st → (∀ x ∈ st.causes, x.task ∈ st.sched.keys) → (∀ k ∈ st.sched.keys, k ∈ order) → (∀ c ∈ critical, c ∉ st.sched.keys) →
      ∃ st', cut net order critical st = .ok st' ∧ Short net st' ∧ (∀ x ∈ st'.causes, x.task ∈ st'.sched.keys) ∧ st'.sched.keys.Nodup ∧ (∀ k ∈ st'.sched.keys, k ∈ order) ∧
        (∀ k ∈ st.sched.keys, k ∈ st'.sched.keys) ∧ ∀ c ∈ critical, c ∈ st'.sched.keys ∧ ∀ k ∈ net.anc c, k ∈ st'.sched.keys := by
  intro critical
  induction critical with
  | nil => intro st _ _ h hb hc ho _; exact ⟨st, rfl, hb, hc, h.inv.nodup, ho, fun k hk => hk, by simp⟩
  | cons c cs ih =>
    intro st hpw hin h hb hcz ho hdis
    obtain ⟨hco, hca⟩ := hin c List.mem_cons_self
    have hbef : before net order st c = .ok (order.filter (fun n => (net.anc c).contains n && !st.sched.contains n)) := by
      simp only [before]
      rw [if_pos]
      rw [List.all_eq_true]
      intro n hn
      rw [List.contains_iff_mem]
      exact hca n (List.mem_of_mem_filter hn)
    generalize hl : order.filter (fun n => (net.anc c).contains n && !st.sched.contains n) = l at hbef
    have hmem : ∀ k, k ∈ l ↔ k ∈ order ∧ k ∈ net.anc c ∧ k ∉ st.sched.keys := by intro k; rw [← hl]; exact mem_before
    have hnd : (l ++ [c]).Nodup := by
      rw [List.nodup_append]
      refine ⟨by rw [← hl]; exact hord.filter _, by simp, ?_⟩
      intro a ha b hb'
      rw [List.mem_singleton] at hb'
      subst hb'
      rintro rfl
      exact hself a ((hmem a).mp ha).2.1
    have hd1 : ∀ j ∈ l ++ [c], j ∉ st.sched.keys := by
      intro j hj
      rcases List.mem_append.mp hj with hj | hj
      · exact ((hmem j).mp hj).2.2
      · rw [List.mem_singleton.mp hj]; exact hdis c List.mem_cons_self
    have hio : ∀ k ∈ st.sched.keys ++ (l ++ [c]), k ∈ order := by
      intro k hk
      rcases List.mem_append.mp hk with hk | hk
      · exact ho k hk
      · rcases List.mem_append.mp hk with hk | hk
        · exact ((hmem k).mp hk).1
        · rw [List.mem_singleton.mp hk]; exact hco
    have hnd2 : (st.sched.keys ++ (l ++ [c])).Nodup := by
      rw [List.nodup_append]
      refine ⟨h.inv.nodup, hnd, fun a ha b hb' => ?_⟩
      rintro rfl
      exact hd1 a hb' ha
    obtain ⟨st1, e1, g1, b1, c1, p1⟩ := pass_total hs hacyc (n := l.length + 1) (ll := l ++ [c]) (st := st) (by simp) h hb hcz hnd hd1
      (by
        intro j hj i hi
        have hia : i ∈ net.anc c := by
          rcases List.mem_append.mp hj with hj | hj
          · exact hancs c j ((hmem j).mp hj).2.1 i hi
          · rw [List.mem_singleton.mp hj] at hi; exact hanc c i hi
        by_cases hk : i ∈ st.sched.keys
        · exact .inl hk
        · exact .inr (List.mem_append_left _ ((hmem i).mpr ⟨hca i hia, hia, hk⟩)))
      (Nat.lt_of_le_of_lt (total_subset hnd2 hio) hh)
    have hcin : c ∈ st1.sched.keys := p1.mem_iff.mpr (by simp)
    rw [List.pairwise_cons] at hpw
    obtain ⟨st', e2, q1, q2, q3, q4, q5, q6⟩ := ih (st := st1) hpw.2 (fun d hd => hin d (List.mem_cons_of_mem _ hd)) g1 b1 c1
      (fun k hk => hio k (p1.mem_iff.mp hk))
      (by
        intro d hd hd'
        obtain ⟨p2, p3⟩ := hpw.1 d hd
        rcases List.mem_append.mp (p1.mem_iff.mp hd') with g | g
        · exact hdis d (List.mem_cons_of_mem _ hd) g
        · rcases List.mem_append.mp g with g | g
          · exact p3 ((hmem d).mp g).2.1
          · exact p2 (List.mem_singleton.mp g))
    refine ⟨st', by simp only [cut, hbef, e1, contains_iff_keys.mpr hcin, if_true, e2], q1, q2, q3, q4, ?_, ?_⟩
    · intro k hk
      exact q5 k (p1.mem_iff.mpr (List.mem_append_left _ hk))
    · intro d hd
      rcases List.mem_cons.mp hd with rfl | hd
      · refine ⟨q5 _ hcin, fun k hk => q5 k (p1.mem_iff.mpr ?_)⟩
        by_cases hks : k ∈ st.sched.keys
        · exact List.mem_append_left _ hks
        · exact List.mem_append_right _ (List.mem_append_left _ ((hmem k).mpr ⟨hca k hk, hk, hks⟩))
      · exact q6 d hd

end Verif.CpmSgs
