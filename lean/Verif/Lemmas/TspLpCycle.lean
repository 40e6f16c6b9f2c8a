import Verif.Lemmas.TspLpTour
import Verif.Lemmas.Sched
/- Helper lemmas: the components of a flow, and the path read off each of them. -/
namespace Verif.TspLp
open Verif.Milp Verif.Tsp

/-- A set of nodes no chosen edge leaves or enters holds both ends or none. -/
theorem closed_ends {m : Model} {sel : List Edge} (hf : Flow m sel) {s : List Nat} (hn : s.Nodup) (hlt : ∀ v, v ∈ s → v < m.nodeCount)
    (hc : Closed sel s) : m.start ∈ s ↔ m.fin ∈ s := by
  by_cases hne : m.start = m.fin
  · rw [hne]
  have key : ∀ (x : Nat) (f : Nat → Nat), x ∈ s → (∀ v, v ∈ s → f v ∈ s ∧ f v ≠ x) →
      (∀ v w, v ∈ s → w ∈ s → f v = f w → v = w) → False := by
    intro x f hx h1 h2
    have hnd : (s.map f).Nodup := List.Nodup.map_on (fun v hv w hw => h2 v w hv hw) hn
    have hsub : ∀ y, y ∈ s.map f → y ∈ s.erase x := by
      intro y hy
      obtain ⟨v, hv, rfl⟩ := List.mem_map.1 hy
      exact (List.mem_erase_of_ne (h1 v hv).2).2 (h1 v hv).1
    have := (List.Nodup.subperm hnd hsub).length_le
    rw [List.length_map, List.length_erase_of_mem hx] at this
    have := List.length_pos_of_mem hx
    omega
  constructor
  · intro hs
    apply Classical.byContradiction
    intro hfs
    have hout : ∀ v, v ∈ s → ∃ w, (v, w) ∈ sel := fun v hv => hf.out v (hlt v hv) (.inl (fun h => hfs (h ▸ hv)))
    choose! f hf' using hout
    apply key m.start f hs
    · intro v hv
      exact ⟨(hc _ (hf' v hv)).1 hv, fun h => hf.inn0 hne v (h ▸ hf' v hv)⟩
    · intro v w hv hw h
      exact hf.inn1 (f v) v w (hf' v hv) (h ▸ hf' w hw)
  · intro hfs
    apply Classical.byContradiction
    intro hs
    have hin : ∀ v, v ∈ s → ∃ w, (w, v) ∈ sel := fun v hv => hf.inn v (hlt v hv) (.inl (fun h => hs (h ▸ hv)))
    choose! f hf' using hin
    apply key m.fin f hfs
    · intro v hv
      exact ⟨(hc _ (hf' v hv)).2 hv, fun h => hf.out0 hne v (h ▸ hf' v hv)⟩
    · intro v w hv hw h
      exact hf.out1 (f v) v w (hf' v hv) (h ▸ hf' w hw)

theorem foldl_set_mem {k : Edge → Nat} (l : List Edge) : ∀ (d : Dict Nat Edge) (x : Nat) (e : Edge),
    (l.foldl (fun (d : Dict Nat Edge) e => d.set (k e) e) d).get? x = some e → (e ∈ l ∧ k e = x) ∨ d.get? x = some e := by
  induction l with
  | nil => intro d x e h; exact .inr h
  | cons a l ih =>
    intro d x e h
    rw [List.foldl_cons] at h
    rcases ih _ _ _ h with ⟨h1, h2⟩ | h1
    · exact .inl ⟨by simp [h1], h2⟩
    · rw [Dict.get?_set] at h1
      split at h1
      · cases h1; rename_i hx; exact .inl ⟨by simp, hx.symm⟩
      · exact .inr h1

theorem foldl_set_some {k : Edge → Nat} (l : List Edge) : ∀ (d : Dict Nat Edge) (x : Nat),
    ((∃ e, e ∈ l ∧ k e = x) ∨ (d.get? x).isSome) → ((l.foldl (fun (d : Dict Nat Edge) e => d.set (k e) e) d).get? x).isSome := by
  induction l with
  | nil => intro d x h; simpa using h
  | cons a l ih =>
    intro d x h
    rw [List.foldl_cons]
    apply ih
    rcases h with ⟨e, he, hk⟩ | h
    · rcases List.mem_cons.1 he with rfl | he
      · right; rw [Dict.get?_set, if_pos hk.symm]; rfl
      · exact .inl ⟨e, he, hk⟩
    · right; rw [Dict.get?_set]; split
      · rfl
      · exact h

/-- The loop of `build_the_cycles` follows the edges to the end node and meets no node twice. -/
theorem cycleLoop_spec {m : Model} {sel : List Edge} (hf : Flow m sel) {s : List Nat} (hc : Closed sel s) {outt : Dict Nat Edge}
    {here : List Edge} (hhere : ∀ e, e ∈ sel → e.1 ∈ s → e ∈ here)
    (hout : ∀ v w, v ∈ s → (v, w) ∈ sel → outt.get? v = some (v, w)) {r t : Nat}
    (h1 : ∀ v, v ∈ s → v ≠ t ∨ t = r → ∃ w, (v, w) ∈ sel) (h2 : t ≠ r → ∀ w, (w, r) ∉ sel) :
    ∀ (fuel : Nat) (u y : Nat) (q : List Nat) (idx : Dict Nat Nat),
      (r :: q).Nodup → (∀ v, v ∈ r :: q → v ∈ s) → t ∉ q → (∀ e, e ∈ legs (r :: q) → e ∈ sel) →
      (r :: q)[q.length]? = some u → (u, y) ∈ sel → (∀ (i v : Nat), (r :: q)[i]? = some v → idx.get? v = some i) →
      here.length + 2 ≤ fuel + (r :: q).length →
      ∃ q' idx' u', cycleLoop outt t fuel (u, y) (r :: q) idx (r :: q).length = .ok (r :: q', idx', (r :: q').length) ∧
        (r :: q').Nodup ∧ (∀ v, v ∈ r :: q' → v ∈ s) ∧ t ∉ q' ∧ (∀ e, e ∈ legs (r :: q') → e ∈ sel) ∧
        (r :: q')[q'.length]? = some u' ∧ (u', t) ∈ sel ∧ (∀ (i v : Nat), (r :: q')[i]? = some v → idx'.get? v = some i) := by
  intro fuel
  induction fuel with
  | zero =>
    intro u y q idx hnd hsub htq hlegs hu huy hidx hfuel
    exfalso
    have hl : (r :: q).length ≤ here.length := by
      have hsrc : ∀ v, v ∈ r :: q → ∃ w, (v, w) ∈ here := by
        intro v hv
        by_cases hvt : v ∈ (r :: q).dropLast
        · obtain ⟨w, hw⟩ := legs_out hvt
          exact ⟨w, hhere _ (hlegs _ hw) (hsub _ hv)⟩
        · obtain ⟨i, hi⟩ := List.mem_iff_getElem?.1 hv
          have hlt := (List.getElem?_eq_some_iff.1 hi).1
          simp only [List.length_cons] at hlt
          have : i = q.length := by
            apply Classical.byContradiction
            intro hne
            apply hvt
            apply List.mem_iff_getElem?.2
            exact ⟨i, by rw [List.getElem?_dropLast, if_pos (by simp; omega), hi]⟩
          subst this
          rw [hu] at hi; cases hi
          exact ⟨y, hhere _ huy (hsub _ hv)⟩
      choose! f hf' using hsrc
      have hnd' : ((r :: q).map (fun v => (v, f v))).Nodup := by
        apply List.Nodup.map_on _ hnd
        intro a _ b _ h; exact congrArg Prod.fst h
      have := (List.Nodup.subperm hnd' (l₂ := here) (by
        intro e he
        obtain ⟨v, hv, rfl⟩ := List.mem_map.1 he
        exact hf' v hv)).length_le
      rwa [List.length_map] at this
    omega
  | succ fuel ih =>
    intro u y q idx hnd hsub htq hlegs hu huy hidx hfuel
    unfold cycleLoop
    by_cases hyt : y = t
    · subst hyt
      rw [if_pos rfl]
      exact ⟨q, idx, u, rfl, hnd, hsub, htq, hlegs, hu, huy, hidx⟩
    · rw [if_neg hyt]
      have hys : y ∈ s := (hc _ huy).1 (hsub u (List.mem_iff_getElem?.2 ⟨_, hu⟩))
      have hyq : y ∉ r :: q := by
        intro hy
        obtain ⟨i, hi⟩ := List.mem_iff_getElem?.1 hy
        have hlt := (List.getElem?_eq_some_iff.1 hi).1
        simp only [List.length_cons] at hlt
        cases i with
        | zero =>
          simp at hi; subst hi
          exact h2 (fun h => hyt h.symm) u huy
        | succ i =>
          have hi' : (r :: q)[i]? = some ((r :: q)[i]'(by simp; omega)) := by simp
          have hleg := hlegs _ (mem_legs.2 ⟨i, hi', hi⟩)
          have heq := hf.inn1 y _ _ hleg huy
          rw [heq] at hi'
          obtain ⟨a1, a2⟩ := List.getElem?_eq_some_iff.1 hi'
          obtain ⟨b1, b2⟩ := List.getElem?_eq_some_iff.1 hu
          have := (List.Nodup.getElem_inj_iff hnd).1 (a2.trans b2.symm)
          omega
      obtain ⟨w, hw⟩ := h1 y hys (.inl hyt)
      have hg := hout y w hys hw
      rw [(Dict.get_ok_iff ..).2 hg, bind_ok]
      have hlast : (r :: (q ++ [y]))[(q ++ [y]).length]? = some y := by
        rw [← List.cons_append, List.getElem?_append_right (by simp)]; simp
      have := ih y w (q ++ [y]) (idx.set y (r :: q).length) ?_ ?_ ?_ ?_ hlast hw ?_ ?_
      · simpa using this
      · rw [← List.cons_append, List.nodup_append]
        refine ⟨hnd, by simp, ?_⟩
        intro a ha b hb
        simp only [List.mem_singleton] at hb; subst hb
        exact fun h => hyq (h ▸ ha)
      · intro v hv
        rw [← List.cons_append] at hv
        rcases List.mem_append.1 hv with hv | hv
        · exact hsub v hv
        · simp only [List.mem_singleton] at hv; subst hv; exact hys
      · simp only [List.mem_append, List.mem_singleton]
        rintro (h | h)
        · exact htq h
        · exact hyt h.symm
      · intro e he
        rw [← List.cons_append] at he
        obtain ⟨x, z⟩ := e
        obtain ⟨i, hi, hi'⟩ := mem_legs.1 he
        by_cases hil : i + 1 < (r :: q).length
        · rw [List.getElem?_append_left (by omega)] at hi
          rw [List.getElem?_append_left hil] at hi'
          exact hlegs _ (mem_legs.2 ⟨i, hi, hi'⟩)
        · have hlt := (List.getElem?_eq_some_iff.1 hi').1
          simp only [List.length_append, List.length_cons, List.length_nil] at hlt hil
          have : i = q.length := by omega
          subst this
          rw [List.getElem?_append_left (by simp), hu] at hi
          rw [List.getElem?_append_right (by simp)] at hi'
          simp at hi'
          cases hi; subst hi'
          exact huy
      · intro i v hi
        rw [← List.cons_append] at hi
        rw [Dict.get?_set]
        by_cases hil : i < (r :: q).length
        · rw [List.getElem?_append_left hil] at hi
          have hne : v ≠ y := fun h => hyq (h ▸ List.mem_iff_getElem?.2 ⟨i, hi⟩)
          rw [if_neg hne]; exact hidx i v hi
        · have hlt := (List.getElem?_eq_some_iff.1 hi).1
          simp only [List.length_append, List.length_cons, List.length_nil] at hlt hil
          have : i = (r :: q).length := by simp; omega
          subst this
          rw [List.getElem?_append_right (by simp)] at hi
          simp at hi
          subst hi
          rw [if_pos rfl]
      · simp only [List.length_cons, List.length_append, List.length_nil] at hfuel ⊢; omega

/-- What the nodes of a finished loop are: all of the component. -/
theorem cycle_covers {m : Model} {sel : List Edge} (hf : Flow m sel) {s : List Nat} (hc : Closed sel s)
    (hmin : ∀ t : List Nat, (∃ v, v ∈ t) → (∀ v, v ∈ t → v ∈ s) → Closed sel t → ∀ v, v ∈ s → v ∈ t) {r t : Nat}
    (h2 : t ≠ r → ∀ w, (w, r) ∉ sel) (h3 : t ≠ r → ∀ w, (t, w) ∉ sel) {q : List Nat} {u : Nat}
    (hsub : ∀ v, v ∈ r :: q → v ∈ s) (hlegs : ∀ e, e ∈ legs (r :: q) → e ∈ sel) (hu : (r :: q)[q.length]? = some u)
    (hut : (u, t) ∈ sel) (v : Nat) : v ∈ s ↔ v ∈ r :: q ∨ v = t := by
  have hlegs' : ∀ e, e ∈ legs (r :: q ++ [t]) → e ∈ sel := by
    intro e he
    obtain ⟨x, z⟩ := e
    obtain ⟨i, hi, hi'⟩ := mem_legs.1 he
    by_cases hil : i + 1 < (r :: q).length
    · rw [List.getElem?_append_left (by omega)] at hi
      rw [List.getElem?_append_left hil] at hi'
      exact hlegs _ (mem_legs.2 ⟨i, hi, hi'⟩)
    · have hlt := (List.getElem?_eq_some_iff.1 hi').1
      simp only [List.length_append, List.length_cons, List.length_nil] at hlt hil
      have : i = q.length := by omega
      subst this
      rw [List.getElem?_append_left (by simp), hu] at hi
      rw [List.getElem?_append_right (by simp)] at hi'
      simp at hi'
      cases hi; subst hi'
      exact hut
  have hus : u ∈ s := hsub u (List.mem_iff_getElem?.2 ⟨_, hu⟩)
  have hts : t ∈ s := (hc _ hut).1 hus
  obtain ⟨hd, ht⟩ := path_parts r t q
  have hmem : ∀ v, v ∈ r :: q ++ [t] ↔ v ∈ r :: q ∨ v = t := by intro v; simp [or_assoc]
  have hcl : Closed sel (r :: q ++ [t]) := by
    rintro ⟨a, b⟩ hab
    simp only
    constructor
    · intro ha
      rw [hmem] at ha
      have : a ∈ r :: q := by
        rcases ha with ha | ha
        · exact ha
        · subst ha
          by_cases hr : a = r
          · subst hr; simp
          · exact absurd hab (h3 hr b)
      obtain ⟨w, hw⟩ := legs_out (l := r :: q ++ [t]) (by rw [hd]; exact this)
      have := hf.out1 a b w hab (hlegs' _ hw)
      subst this
      exact List.mem_of_mem_tail (legs_snd hw)
    · intro hb
      have : b ∈ q ++ [t] := by
        have hb' : b = r ∨ b ∈ q ++ [t] := by simpa using hb
        rcases hb' with rfl | hb'
        · by_cases hr : t = b
          · subst hr; simp
          · exact absurd hab (h2 hr a)
        · exact hb'
      obtain ⟨w, hw⟩ := legs_in (l := r :: q ++ [t]) (by rw [ht]; exact this)
      have := hf.inn1 b a w hab (hlegs' _ hw)
      subst this
      exact (List.dropLast_sublist _).subset (legs_fst hw)
  have hsubs : ∀ v, v ∈ r :: q ++ [t] → v ∈ s := by
    intro v hv
    rcases (hmem v).1 hv with hv | rfl
    · exact hsub v hv
    · exact hts
  constructor
  · intro hv
    exact (hmem v).1 (hmin _ ⟨r, by simp⟩ hsubs hcl v hv)
  · intro hv
    exact hsubs v ((hmem v).2 hv)

/-- A component of a flow. -/
structure IsComp (m : Model) (sel : List Edge) (s : List Nat) : Prop where
  ne : s ≠ []
  nodup : s.Nodup
  lt : ∀ v, v ∈ s → v < m.nodeCount
  closed : Closed sel s
  min : ∀ t : List Nat, (∃ v, v ∈ t) → (∀ v, v ∈ t → v ∈ s) → Closed sel t → ∀ v, v ∈ s → v ∈ t

theorem mem_here {sel : List Edge} {s : List Nat} {e : Edge} :
    e ∈ sel.filter (fun e => decide (e.2 ∈ s) && decide (e.1 ∈ s)) ↔ e ∈ sel ∧ e.2 ∈ s ∧ e.1 ∈ s := by
  simp

theorem outt_get {m : Model} {sel : List Edge} (hf : Flow m sel) {s : List Nat} (hc : Closed sel s) {v w : Nat} (hv : v ∈ s)
    (hw : (v, w) ∈ sel) :
    ((sel.filter (fun e => decide (e.2 ∈ s) && decide (e.1 ∈ s))).foldl (fun (d : Dict Nat Edge) e => d.set e.1 e) []).get? v = some (v, w) := by
  have hsome := foldl_set_some (k := fun e => e.1) (sel.filter (fun e => decide (e.2 ∈ s) && decide (e.1 ∈ s))) [] v
    (.inl ⟨(v, w), mem_here.2 ⟨hw, (hc _ hw).1 hv, hv⟩, rfl⟩)
  obtain ⟨e, he⟩ := Option.isSome_iff_exists.1 hsome
  rcases foldl_set_mem _ _ _ _ he with ⟨h1, h2⟩ | h1
  · obtain ⟨x, y⟩ := e
    simp only at h2; subst h2
    have := hf.out1 x y w (mem_here.1 h1).1 hw
    subst this
    exact he
  · simp [Dict.get?] at h1

theorem contains_false {k : Edge → Nat} {l : List Edge} {x : Nat} (h : ∀ e, e ∈ l → k e ≠ x) :
    (l.foldl (fun (d : Dict Nat Edge) e => d.set (k e) e) []).contains x = false := by
  rw [Dict.contains_eq]
  cases hx : (l.foldl (fun (d : Dict Nat Edge) e => d.set (k e) e) []).get? x with
  | none => rfl
  | some e =>
    rcases foldl_set_mem _ _ _ _ hx with ⟨h1, h2⟩ | h1
    · exact absurd h2 (h e h1)
    · simp [Dict.get?] at h1

/-- The component of the start: a path from start to end through all its nodes, along chosen edges. -/
theorem cycle_start {m : Model} {sel : List Edge} (hf : Flow m sel) {s : List Nat} (hs : IsComp m sel s) (hst : m.start ∈ s) :
    ∃ q idx, cycle sel s m.start m.fin = .ok (m.start :: q ++ [m.fin], idx) ∧ (m.start :: q).Nodup ∧ m.fin ∉ q ∧
      (∀ e, e ∈ legs (m.start :: q ++ [m.fin]) → e ∈ sel) ∧ ∀ v, v ∈ s ↔ v = m.start ∨ v ∈ q ∨ v = m.fin := by
  have hfin : m.fin ∈ s := (closed_ends hf hs.nodup hs.lt hs.closed).1 hst
  obtain ⟨w, hw⟩ := hf.out m.start (hs.lt _ hst) (by
    by_cases h : m.start = m.fin
    · exact .inr h
    · exact .inl h)
  obtain ⟨w', hw'⟩ := hf.inn m.fin (hs.lt _ hfin) (by
    by_cases h : m.start = m.fin
    · exact .inr h
    · exact .inl (fun h' => h h'.symm))
  have hg := outt_get hf hs.closed hst hw
  have hco : ((sel.filter (fun e => decide (e.2 ∈ s) && decide (e.1 ∈ s))).foldl (fun (d : Dict Nat Edge) e => d.set e.1 e) []).contains m.start = true := by
    rw [Dict.contains_eq, hg]; rfl
  have hci : ((sel.filter (fun e => decide (e.2 ∈ s) && decide (e.1 ∈ s))).foldl (fun (d : Dict Nat Edge) e => d.set e.2 e) []).contains m.fin = true := by
    rw [Dict.contains_eq]
    exact foldl_set_some (k := fun e => e.2) _ [] m.fin (.inl ⟨(w', m.fin), mem_here.2 ⟨hw', hfin, (hs.closed _ hw').2 hfin⟩, rfl⟩)
  have h2 : m.fin ≠ m.start → ∀ w, (w, m.start) ∉ sel := fun h => hf.inn0 (fun h' => h h'.symm)
  have h3 : m.fin ≠ m.start → ∀ w, (m.fin, w) ∉ sel := fun h => hf.out0 (fun h' => h h'.symm)
  obtain ⟨q, idx, u, hrun, hnd, hsub, htq, hlegs, hu, hut, hidx⟩ := cycleLoop_spec hf hs.closed
    (here := sel.filter (fun e => decide (e.2 ∈ s) && decide (e.1 ∈ s)))
    (fun e he h => mem_here.2 ⟨he, (hs.closed _ he).1 h, h⟩) (fun v w hv hw => outt_get hf hs.closed hv hw) (r := m.start) (t := m.fin)
    (fun v hv hc => hf.out v (hs.lt v hv) (hc.imp id Eq.symm)) h2
    ((sel.filter (fun e => decide (e.2 ∈ s) && decide (e.1 ∈ s))).length + 1) m.start w [] [(m.start, 0)] (by simp)
    (by simpa using hst) (by simp) (by simp [legs_single]) rfl hw
    (by intro i v hi
        cases i with
        | zero => simp at hi; subst hi; simp [Dict.get?]
        | succ i => simp at hi) (by simp)
  refine ⟨q, idx.set m.fin (m.start :: q).length, ?_, hnd, htq, ?_, ?_⟩
  · unfold cycle
    simp only [hco, hci, if_true, bind_ok]
    rw [(Dict.get_ok_iff ..).2 hg, bind_ok]
    have : cycleLoop _ m.fin _ (m.start, w) [m.start] [(m.start, 0)] 1 = _ := hrun
    rw [this]; rfl
  · intro e he
    obtain ⟨x, z⟩ := e
    obtain ⟨i, hi, hi'⟩ := mem_legs.1 he
    by_cases hil : i + 1 < (m.start :: q).length
    · rw [List.getElem?_append_left (by omega)] at hi
      rw [List.getElem?_append_left hil] at hi'
      exact hlegs _ (mem_legs.2 ⟨i, hi, hi'⟩)
    · have hlt := (List.getElem?_eq_some_iff.1 hi').1
      simp only [List.length_append, List.length_cons, List.length_nil] at hlt hil
      have : i = q.length := by omega
      subst this
      rw [List.getElem?_append_left (by simp), hu] at hi
      rw [List.getElem?_append_right (by simp)] at hi'
      simp at hi'
      cases hi; subst hi'
      exact hut
  · intro v
    rw [cycle_covers hf hs.closed hs.min h2 h3 hsub hlegs hu hut v, List.mem_cons, or_assoc]

/-- Another component: a path through all its nodes, and the position of each. -/
theorem cycle_other {m : Model} {sel : List Edge} (hf : Flow m sel) {s : List Nat} (hs : IsComp m sel s) (hst : m.start ∉ s) :
    ∃ path idx, cycle sel s m.start m.fin = .ok (path, idx) ∧ path.Nodup ∧ (∀ v, v ∈ path ↔ v ∈ s) ∧
      ∀ (i v : Nat), path[i]? = some v → idx.get? v = some i := by
  have hfin : m.fin ∉ s := fun h => hst ((closed_ends hf hs.nodup hs.lt hs.closed).2 h)
  have hco : ((sel.filter (fun e => decide (e.2 ∈ s) && decide (e.1 ∈ s))).foldl (fun (d : Dict Nat Edge) e => d.set e.1 e) []).contains m.start = false :=
    contains_false (k := fun e => e.1) (fun e he h => hst (h ▸ (mem_here.1 he).2.2))
  have hci : ((sel.filter (fun e => decide (e.2 ∈ s) && decide (e.1 ∈ s))).foldl (fun (d : Dict Nat Edge) e => d.set e.2 e) []).contains m.fin = false :=
    contains_false (k := fun e => e.2) (fun e he h => hfin (h ▸ (mem_here.1 he).2.1))
  have hall : ∀ v, v ∈ s → ∃ w, (v, w) ∈ sel := fun v hv => hf.out v (hs.lt v hv) (.inl (fun h => hfin (h ▸ hv)))
  obtain ⟨e, l, hel⟩ : ∃ e l, sel.filter (fun e => decide (e.2 ∈ s) && decide (e.1 ∈ s)) = e :: l := by
    obtain ⟨v, hv⟩ := List.exists_mem_of_ne_nil s hs.ne
    obtain ⟨w, hw⟩ := hall v hv
    exact List.exists_cons_of_ne_nil (List.ne_nil_of_mem (mem_here.2 ⟨hw, (hs.closed _ hw).1 hv, hv⟩))
  have he : e ∈ sel ∧ e.2 ∈ s ∧ e.1 ∈ s := mem_here.1 (by rw [hel]; simp)
  obtain ⟨r, w⟩ := e
  have hr : r ∈ s := he.2.2
  have hw : (r, w) ∈ sel := he.1
  have hg := outt_get hf hs.closed hr hw
  obtain ⟨q, idx, u, hrun, hnd, hsub, htq, hlegs, hu, hut, hidx⟩ := cycleLoop_spec hf hs.closed
    (here := sel.filter (fun e => decide (e.2 ∈ s) && decide (e.1 ∈ s)))
    (fun e he h => mem_here.2 ⟨he, (hs.closed _ he).1 h, h⟩) (fun v w hv hw => outt_get hf hs.closed hv hw) (r := r) (t := r)
    (fun v hv hc => hall v hv) (fun h => absurd rfl h)
    ((sel.filter (fun e => decide (e.2 ∈ s) && decide (e.1 ∈ s))).length + 1) r w [] [(r, 0)] (by simp)
    (by simpa using hr) (by simp) (by simp [legs_single]) rfl hw
    (by intro i v hi
        cases i with
        | zero => simp at hi; subst hi; simp [Dict.get?]
        | succ i => simp at hi) (by simp)
  refine ⟨r :: q, idx, ?_, hnd, ?_, hidx⟩
  · unfold cycle
    simp only [hco, hci, Bool.false_eq_true, if_false]
    simp only [hel] at hg hrun ⊢
    simp only [bind_ok]
    rw [(Dict.get_ok_iff ..).2 hg, bind_ok]
    have : cycleLoop _ r _ (r, w) [r] [(r, 0)] 1 = _ := hrun
    rw [this]; rfl
  · intro v
    rw [cycle_covers hf hs.closed hs.min (fun h => absurd rfl h) (fun h => absurd rfl h) hsub hlegs hu hut v]
    constructor
    · exact .inl
    · rintro (h | h)
      · exact h
      · subst h; simp

end Verif.TspLp
