import Verif.Lemmas.CpmPath
/- Properties of the critical path method: C29, C59 and C60. -/
namespace Verif.Cpm

/-- A project of five activities with two branches. -/
def project : Network := ofEdges [1, 2, 3, 4, 5] [(1, 2), (1, 3), (2, 4), (3, 5), (4, 5)] [(1, [0]), (2, [7, 3]), (3, [2]), (4, [4]), (5, [0])] 1 5
def projectDur (n : Nat) : Nat := if n = 2 then 3 else if n = 3 then 2 else if n = 4 then 4 else 0
theorem project_wf : Wf project projectDur :=
  wf_ofEdges (by decide) (by decide) (by decide) (by decide) (by decide) (by decide)

/-- On a well-formed network the method ends (no matter how many more rounds are allowed) without exception, and every activity has its four dates:
the earliest start is the length of the longest chain of predecessors, the latest finish is the makespan minus the length of the longest chain of
successors, and finish and start are a (shortest) duration apart. -/
theorem C29_dates {net : Network} {d : Nat → Nat} (wf : Wf net d) : ∃ st, (∀ fuel, 2 * net.nodes.length + 1 ≤ fuel → run net fuel (start net) = .ok (some st)) ∧
    ∃ M : Nat, Longest net.pred d net.sink (M - d net.sink) ∧ d net.sink ≤ M ∧ ∀ n ∈ net.nodes, ∃ a b : Nat, Longest net.pred d n a ∧ Longest net.succ d n b ∧
      st.esd.get? n = some (a : Int) ∧ st.efd.get? n = some (a + d n : Int) ∧
      st.lfd.get? n = some (M - b : Int) ∧ st.lsd.get? n = some (M - b - d n : Int) := by
  obtain ⟨st, es, lf, h1, h2⟩ := run_ok wf
  obtain ⟨a0, ha0, he0⟩ := best_longest (h2.early _ wf.sink.1)
  refine ⟨st, h1, a0 + d net.sink, by rw [Nat.add_sub_cancel]; exact ha0, by omega, fun n hn => ?_⟩
  obtain ⟨a, ha, hea⟩ := best_longest (h2.early n hn)
  obtain ⟨b, hb, heb⟩ := best_longest (h2.late n hn)
  refine ⟨a, b, ha, hb, ?_, ?_, ?_, ?_⟩
  · rw [h2.esd n hn]; congr 1; omega
  · rw [h2.efd n hn]; congr 1; omega
  · rw [h2.lfd n hn]; congr 1; push_cast; omega
  · rw [h2.lsd n hn]; congr 1; push_cast; omega

example : Wf project projectDur ∧ (∃ st, run project 11 (start project) = .ok (some st) ∧ st.esd.get? 4 = some 3 ∧ st.lsd.get? 3 = some 5 ∧ st.efd.get? 5 = some 7) :=
  ⟨project_wf, _, by rfl, by decide, by decide, by decide⟩

/-- The schedule of the earliest starts and the schedule of the latest starts are feasible, both end at the makespan, and no activity has its latest start
before its earliest start. -/
theorem C29_feasible {net : Network} {d : Nat → Nat} (wf : Wf net d) {fuel : Nat} (hf : 2 * net.nodes.length + 1 ≤ fuel) : ∃ st es ls,
    run net fuel (start net) = .ok (some st) ∧ (∀ n ∈ net.nodes, st.esd.get? n = some (es n) ∧ st.lsd.get? n = some (ls n) ∧ es n ≤ ls n) ∧
    Feasible net d es ∧ Feasible net d ls ∧ ls net.sink = es net.sink := by
  obtain ⟨st, es, lf, h1, h2⟩ := run_ok wf
  refine ⟨st, es, fun n => lf n - d n, h1 fuel hf, fun n hn => ⟨h2.esd n hn, h2.lsd n hn, early_le_late wf h2 n hn⟩, early_feasible wf h2, ⟨fun n hn => ?_, fun n m hm => ?_⟩, ?_⟩
  · have := early_le_late wf h2 n hn
    have := (early_feasible wf h2).1 n hn
    simp only
    omega
  · have := late_step wf h2 n m hm
    simp only
    omega
  · have := sink_critical wf h2
    simp only
    omega

/-- No feasible schedule starts an activity before its earliest start; none that ends within the makespan starts an activity after its latest start. -/
theorem C29_window {net : Network} {d : Nat → Nat} (wf : Wf net d) {fuel : Nat} (hf : 2 * net.nodes.length + 1 ≤ fuel) {st : St}
    (hr : run net fuel (start net) = .ok (some st)) {s : Nat → Int} (hs : Feasible net d s) {n : Nat} (hn : n ∈ net.nodes) :
    (∀ e, st.esd.get? n = some e → e ≤ s n) ∧
    (∀ M l, st.efd.get? net.sink = some M → s net.sink + d net.sink ≤ M → st.lsd.get? n = some l → s n ≤ l) := by
  obtain ⟨st', es, lf, h1, h2⟩ := run_ok wf
  have := h1 fuel hf
  rw [hr] at this
  cases this
  refine ⟨fun e he => ?_, fun M l hM hsM hl => ?_⟩
  · rw [h2.esd n hn] at he; cases he; exact early_of_feasible wf h2 hs n hn
  · rw [h2.efd _ wf.sink.1] at hM; cases hM
    rw [h2.lsd n hn] at hl; cases hl
    have := late_of_feasible wf h2 hs hsM n hn
    omega

example : Feasible project projectDur (fun n => if n = 3 then 1 else if n = 4 then 3 else if n = 5 then 7 else 0) := by
  refine ⟨by decide, fun n m h => ?_⟩
  have : (n, m) ∈ [(1, 2), (1, 3), (2, 4), (3, 5), (4, 5)] := by
    simp only [project, ofEdges, List.mem_map, List.mem_filter, decide_eq_true_eq] at h
    obtain ⟨⟨a, b⟩, ⟨h, rfl⟩, rfl⟩ := h
    exact h
  have hall : ∀ e ∈ [(1, 2), (1, 3), (2, 4), (3, 5), (4, 5)], (fun n : Nat => (if n = 3 then 1 else if n = 4 then 3 else if n = 5 then 7 else 0 : Int)) e.1 + projectDur e.1 ≤
      (fun n : Nat => (if n = 3 then 1 else if n = 4 then 3 else if n = 5 then 7 else 0 : Int)) e.2 := by decide
  exact hall (n, m) this

/-- An activity has equal earliest and latest starts exactly when every feasible schedule that ends at the makespan starts it at that time. -/
theorem C29_critical_iff {net : Network} {d : Nat → Nat} (wf : Wf net d) {fuel : Nat} (hf : 2 * net.nodes.length + 1 ≤ fuel) {st : St}
    (hr : run net fuel (start net) = .ok (some st)) {n : Nat} (hn : n ∈ net.nodes) {M e : Int} (hM : st.efd.get? net.sink = some M) (he : st.esd.get? n = some e) :
    st.esd.get? n = st.lsd.get? n ↔ ∀ s, Feasible net d s → s net.sink + d net.sink ≤ M → s n = e := by
  obtain ⟨st', es, lf, h1, h2⟩ := run_ok wf
  have := h1 fuel hf
  rw [hr] at this
  cases this
  rw [h2.esd n hn] at he
  cases he
  rw [h2.efd _ wf.sink.1] at hM
  cases hM
  rw [h2.esd n hn, h2.lsd n hn, Option.some.injEq]
  constructor
  · intro hc s hs hsM
    have := late_of_feasible wf h2 hs hsM n hn
    have := early_of_feasible wf h2 hs n hn
    omega
  · intro hall
    have hl : Feasible net d (fun n => lf n - d n) := by
      refine ⟨fun n hn => ?_, fun n m hm => ?_⟩
      · have := early_le_late wf h2 n hn
        have := (early_feasible wf h2).1 n hn
        simp only
        omega
      · have := late_step wf h2 n m hm
        simp only
        omega
    have := hall _ hl (by have := sink_critical wf h2; omega)
    exact this.symm

/-- The critical path is always found: it starts at the source, ends at the sink, follows the edges and contains only activities without slack.
Its total duration does not exceed the makespan, and is the makespan when every edge between two activities without slack is tight. -/
theorem C29_path_partial {net : Network} {d : Nat → Nat} (wf : Wf net d) {fuel : Nat} (hf : 2 * net.nodes.length + 1 ≤ fuel) :
    ∃ st path M, classic net fuel = .ok (some (st, path)) ∧ run net fuel (start net) = .ok (some st) ∧ st.efd.get? net.sink = some M ∧
      path.head? = some net.source ∧ path.getLast? = some net.sink ∧ Path net path ∧ (∀ n ∈ path, n ∈ net.nodes ∧ st.esd.get? n = st.lsd.get? n) ∧
      ((path.map d).sum : Int) ≤ M ∧
      ((∀ n m, m ∈ net.succ n → st.esd.get? n = st.lsd.get? n → st.esd.get? m = st.lsd.get? m → st.esd.get? m = st.efd.get? n) → ((path.map d).sum : Int) = M) := by
  obtain ⟨st, es, lf, h1, h2⟩ := run_ok wf
  obtain ⟨rank, hr⟩ := wf.acyclic
  have hsink := sink_critical wf h2
  have hlen : (net.nodes.filter (fun n => rank n < rank net.sink)).length ≤ fuel := by
    have := List.length_filter_le (fun n => decide (rank n < rank net.sink)) net.nodes
    omega
  obtain ⟨l, g1, g2, g3, g4, g5, g6⟩ := pathFrom_ok wf h2 hr fuel net.sink wf.sink.1 (by omega) hlen
  refine ⟨st, (net.sink :: l).reverse, es net.sink + d net.sink, ?_, h1 fuel hf, h2.efd _ wf.sink.1, ?_, ?_, g3, ?_, ?_, ?_⟩
  · simp only [classic, h1 fuel hf, bind_ok, criticalPath, g1, Option.map_some]
  · rw [List.head?_reverse]; exact g4
  · simp
  · intro n hn
    rcases List.mem_cons.1 (List.mem_reverse.1 hn) with rfl | hn
    · exact ⟨wf.sink.1, by rw [h2.esd _ wf.sink.1, h2.lsd _ wf.sink.1]; congr 1; omega⟩
    · obtain ⟨k1, k2⟩ := g2 n hn
      exact ⟨k1, by rw [h2.esd n k1, h2.lsd n k1, k2]⟩
  · rw [List.map_reverse, List.sum_reverse]
    simp only [List.map_cons, List.sum_cons]; push_cast; omega
  · intro ht
    have := g6 (fun n m hm hn' hm' => by
      obtain ⟨k1, k2⟩ := wf.mem n m hm
      have := ht n m hm (by rw [h2.esd n k1, h2.lsd n k1, hn']) (by rw [h2.esd m k2, h2.lsd m k2, hm'])
      rw [h2.esd m k2, h2.efd n k1] at this
      exact Option.some.inj this)
    rw [List.map_reverse, List.sum_reverse]
    simp only [List.map_cons, List.sum_cons]; push_cast; omega

example : (classic project 11).map (·.map (·.2)) = .ok (some [1, 2, 4, 5]) := by decide

/-- The reported path can be shorter than the makespan: with the redundant precedence 1 → 4 the path skips the activities between. -/
theorem C29_path_short : ∃ (net : Network) (d : Nat → Nat) (st : St) (path : List Nat), Wf net d ∧ classic net 11 = .ok (some (st, path)) ∧
    st.efd.get? net.sink = some 5 ∧ (path.map d).sum = 0 :=
  ⟨ofEdges [1, 2, 3, 4] [(1, 4), (1, 2), (2, 3), (3, 4)] [(1, [0]), (2, [2]), (3, [3]), (4, [0])] 1 4, fun n => if n = 2 then 2 else if n = 3 then 3 else 0, _, _,
    wf_ofEdges (by decide) (by decide) (by decide) (by decide) (by decide) (by decide), by rfl, by decide, by decide⟩

/-- A stable sort keeps the given order among equal keys. -/
theorem insBy_stable {α : Type} {key : α → Int} {R : α → α → Prop} {x : α} : ∀ (l : List α), (∀ y ∈ l, R x y) →
    l.Pairwise (fun a b => key a < key b ∨ key a = key b ∧ R a b) → (insBy key x l).Pairwise (fun a b => key a < key b ∨ key a = key b ∧ R a b) := by
  intro l
  induction l with
  | nil => intro _ _; simp [insBy]
  | cons y ys ih =>
    intro hx h
    rw [List.pairwise_cons] at h
    simp only [insBy]
    split
    · rename_i hxy
      refine List.pairwise_cons.2 ⟨fun b hb => ?_, List.pairwise_cons.2 h⟩
      have hle : key x ≤ key b := by
        rcases List.mem_cons.1 hb with rfl | hb
        · exact hxy
        · have := h.1 b hb; omega
      by_cases he : key x = key b
      · exact .inr ⟨he, hx b hb⟩
      · exact .inl (by omega)
    · rename_i hxy
      refine List.pairwise_cons.2 ⟨fun b hb => ?_, ih (fun z hz => hx z (by simp [hz])) h.2⟩
      rcases List.mem_cons.1 ((insBy_perm key x ys).mem_iff.1 hb) with rfl | hb
      · exact .inl (by omega)
      · exact h.1 b hb

theorem sortBy_stable {α : Type} {key : α → Int} {R : α → α → Prop} : ∀ (l : List α), l.Pairwise R →
    (sortBy key l).Pairwise (fun a b => key a < key b ∨ key a = key b ∧ R a b) := by
  intro l
  induction l with
  | nil => intro _; simp [sortBy]
  | cons x xs ih =>
    intro h
    rw [List.pairwise_cons] at h
    exact insBy_stable _ (fun y hy => h.1 y (mem_sortBy.1 hy)) (ih h.2)

/-- The order by earliest and latest start contains every activity once and puts every activity before its successors, provided that the dictionary
lists the activities without duration before their successors. -/
theorem C59_order_partial {net : Network} {d : Nat → Nat} (wf : Wf net d) {fuel : Nat} (hf : 2 * net.nodes.length + 1 ≤ fuel) {st : St}
    (hr : run net fuel (start net) = .ok (some st)) {es ls : Nat → Int} (he : ∀ n ∈ net.nodes, st.esd.get? n = some (es n) ∧ st.lsd.get? n = some (ls n))
    (hties : net.nodes.Pairwise (fun a b => d b = 0 → a ∉ net.succ b)) :
    (returnOrder net.nodes es ls).Perm net.nodes ∧ (returnOrder net.nodes es ls).Pairwise (fun a b => a ∉ net.succ b) := by
  obtain ⟨st', es', lf, h1, h2⟩ := run_ok wf
  have := h1 fuel hf
  rw [hr] at this
  cases this
  refine ⟨(sortBy_perm _ _).trans (sortBy_perm _ _), ?_⟩
  refine (sortBy_stable (key := es) _ (sortBy_stable (key := ls) _ hties)).imp ?_
  intro a b hab hs
  obtain ⟨hb, ha⟩ := wf.mem b a hs
  obtain ⟨a1, a2⟩ := he a ha
  obtain ⟨b1, b2⟩ := he b hb
  rw [h2.esd a ha] at a1; rw [h2.lsd a ha] at a2; rw [h2.esd b hb] at b1; rw [h2.lsd b hb] at b2
  have a1 := Option.some.inj a1
  have a2 := Option.some.inj a2
  have b1 := Option.some.inj b1
  have b2 := Option.some.inj b2
  have k1 := (early_feasible wf h2).2 b a hs
  have k2 := late_step wf h2 b a hs
  rcases hab with h | ⟨h, h' | ⟨h', h''⟩⟩
  · omega
  · omega
  · exact h'' (by omega) hs

example : Wf project projectDur ∧ (project.nodes.Pairwise (fun a b => projectDur b = 0 → a ∉ project.succ b)) ∧
    returnOrder [1, 2, 3, 4, 5] (fun n => if n = 4 then 3 else if n = 5 then 7 else 0) (fun n => if n = 3 then 5 else if n = 4 then 3 else if n = 5 then 7 else 0) = [1, 2, 3, 4, 5] :=
  ⟨project_wf, by decide, by decide⟩

/-- With activities of no duration the order need not respect the precedences: here 3 must precede 2 … but both have the dates (0, 0). -/
theorem C59_zero_ties : ∃ (net : Network) (d : Nat → Nat) (st : St), Wf net d ∧ run net 11 (start net) = .ok (some st) ∧
    (∀ n ∈ net.nodes, st.esd.get? n = some 0 ∧ st.lsd.get? n = some 0) ∧ 3 ∈ net.succ 2 ∧
    returnOrder net.nodes (fun _ => 0) (fun _ => 0) = [1, 3, 2, 4] :=
  ⟨ofEdges [1, 3, 2, 4] [(1, 2), (2, 3), (3, 4)] [(1, [0]), (2, [0]), (3, [0]), (4, [0])] 1 4, fun _ => 0, _,
    wf_ofEdges (by decide) (by decide) (by decide) (by decide) (by decide) (by decide), by rfl, by decide, by decide, by decide⟩

/-- The activity fits at `time`: during its whole duration every resource has what it needs. -/
def Fits (avail : List (Nat × List Int)) (cons : Dict Nat Int) (duration time : Nat) : Prop :=
  ∀ r a, (r, a) ∈ avail → ∀ t, time ≤ t → t < time + duration → ∃ need v, cons.get? r = some need ∧ a[t]? = some v ∧ need ≤ v

theorem blockedOn_true {a : List Int} {need : Int} : ∀ (k t : Nat), blockedOn a need t k = .ok true → ∃ u v, t ≤ u ∧ u < t + k ∧ a[u]? = some v ∧ v < need := by
  intro k
  induction k with
  | zero => intro t h; cases h
  | succ k ih =>
    intro t h
    simp only [blockedOn] at h
    split at h
    · cases h
    · rename_i v hv
      split at h
      · exact ⟨t, v, Nat.le_refl _, by omega, hv, by assumption⟩
      · obtain ⟨u, v, h1, h2, h3⟩ := ih _ h
        exact ⟨u, v, by omega, by omega, h3⟩

theorem blockedOn_false {a : List Int} {need : Int} : ∀ (k t : Nat), blockedOn a need t k = .ok false → ∀ u, t ≤ u → u < t + k → ∃ v, a[u]? = some v ∧ need ≤ v := by
  intro k
  induction k with
  | zero => intro t _ u h1 h2; omega
  | succ k ih =>
    intro t h u h1 h2
    simp only [blockedOn] at h
    split at h
    · cases h
    · rename_i v hv
      split at h
      · cases h
      · by_cases he : u = t
        · subst he; exact ⟨v, hv, by omega⟩
        · exact ih _ h u (by omega) (by omega)

theorem blockedAt_spec {cons : Dict Nat Int} {duration time : Nat} : ∀ (avail : List (Nat × List Int)) (b : Bool), blockedAt cons duration time avail = .ok b →
    (b = false ↔ Fits avail cons duration time) := by
  intro avail
  induction avail with
  | nil => intro b h; cases h; simp [Fits]
  | cons e rest ih =>
    obtain ⟨r, a⟩ := e
    intro b h
    simp only [blockedAt] at h
    split at h
    · rename_i hd
      rw [ih b h]
      constructor
      · intro hf r' a' hm t h1 h2; omega
      · intro hf r' a' hm; exact hf r' a' (by simp [hm])
    · obtain ⟨need, hn, h⟩ := bind_eq_ok.1 h
      obtain ⟨b', hb, h⟩ := bind_eq_ok.1 h
      have hn : cons.get? r = some need := by
        unfold Dict.get at hn
        split at hn
        · rename_i v hv; rw [hv]; rw [Except.ok.inj hn]
        · cases hn
      rcases b' with _ | _
      · simp only [Bool.false_eq_true, ↓reduceIte] at h
        rw [ih b h]
        constructor
        · intro hf r' a' hm t h1 h2
          rcases List.mem_cons.1 hm with he | hm
          · cases he
            obtain ⟨v, hv, hle⟩ := blockedOn_false _ _ hb t h1 h2
            exact ⟨need, v, hn, hv, hle⟩
          · exact hf r' a' hm t h1 h2
        · intro hf r' a' hm; exact hf r' a' (by simp [hm])
      · simp only [↓reduceIte] at h
        cases h
        simp only [Bool.true_eq_false, false_iff]
        intro hf
        obtain ⟨u, v, h1, h2, h3, h4⟩ := blockedOn_true _ _ hb
        obtain ⟨need', v', k1, k2, k3⟩ := hf r a (by simp) u h1 h2
        rw [hn] at k1; rw [h3] at k2; cases k1; cases k2
        omega

theorem firstTimeLoop_spec {avail : List (Nat × List Int)} {cons : Dict Nat Int} {duration : Nat} : ∀ (ts : List Nat) (r r' : Option Nat),
    firstTimeLoop avail cons duration ts r = .ok r' →
    (∀ t, r' = some t → (t ∈ ts ∧ ¬ Fits avail cons duration t) ∨ r = some t ∧ ∀ u ∈ ts, Fits avail cons duration u) ∧
    (ts.Pairwise (· < ·) → ∀ t, r' = some t → (r = some t → ∀ u ∈ ts, t < u) → ∀ u ∈ ts, t < u → Fits avail cons duration u) ∧
    (r' = none → r = none ∧ ∀ u ∈ ts, Fits avail cons duration u) := by
  intro ts
  induction ts with
  | nil =>
    intro r r' h
    cases h
    exact ⟨fun t ht => .inr ⟨ht, by simp⟩, by simp, fun h => ⟨h, by simp⟩⟩
  | cons x ts ih =>
    intro r r' h
    obtain ⟨b, hb, h⟩ := bind_eq_ok.1 h
    have hbs := blockedAt_spec _ _ hb
    obtain ⟨g1, g2, g3⟩ := ih _ _ h
    refine ⟨fun t ht => ?_, fun hp t ht hrt u hu htu => ?_, fun hn => ?_⟩
    · rcases g1 t ht with ⟨k1, k2⟩ | ⟨k1, k2⟩
      · exact .inl ⟨by simp [k1], k2⟩
      · rcases b with _ | _
        · right
          refine ⟨k1, fun u hu => ?_⟩
          rcases List.mem_cons.1 hu with rfl | hu
          · exact hbs.1 rfl
          · exact k2 u hu
        · left
          simp only [↓reduceIte, Option.some.injEq] at k1
          subst k1
          exact ⟨by simp, fun hc => by have := hbs.2 hc; cases this⟩
    · rw [List.pairwise_cons] at hp
      rcases List.mem_cons.1 hu with rfl | hu
      · rcases b with _ | _
        · exact hbs.1 rfl
        · exfalso
          rcases g1 t ht with ⟨k1, k2⟩ | ⟨k1, k2⟩
          · have := hp.1 t k1; omega
          · simp only [↓reduceIte, Option.some.injEq] at k1; omega
      · refine g2 hp.2 t ht (fun hr' => ?_) u hu htu
        rcases b with _ | _
        · exact fun v hv => hrt hr' v (by simp [hv])
        · simp only [↓reduceIte, Option.some.injEq] at hr'
          subst hr'
          exact hp.1
    · obtain ⟨k1, k2⟩ := g3 hn
      rcases b with _ | _
      · refine ⟨k1, fun u hu => ?_⟩
        rcases List.mem_cons.1 hu with rfl | hu
        · exact hbs.1 rfl
        · exact k2 u hu
      · cases k1

/-- "The first time to do one task" is never such a time: whatever it returns, the activity does not fit there; it is the last such time before the horizon. -/
theorem C60_returns_last_blocked {avail : List (Nat × List Int)} {cons : Dict Nat Int} {duration early horizon s e : Nat}
    (h : firstTime avail cons duration early horizon = .ok (s, e)) :
    early ≤ s ∧ s < horizon ∧ e = s + duration ∧ ¬ Fits avail cons duration s ∧ ∀ u, s < u → u < horizon → Fits avail cons duration u := by
  obtain ⟨r, h1, h2⟩ := bind_eq_ok.1 h
  obtain ⟨g1, g2, _⟩ := firstTimeLoop_spec _ _ _ h1
  split at h2
  · cases h2
    rcases g1 s rfl with ⟨k1, k2⟩ | ⟨k1, _⟩
    · have := List.mem_range'_1.1 k1
      refine ⟨by omega, by omega, rfl, k2, fun u hu1 hu2 => ?_⟩
      exact g2 List.pairwise_lt_range'  s rfl (by simp) u (List.mem_range'_1.2 (by omega)) hu1
    · cases k1
  · cases h2

example : firstTime [(1, [0, 5, 5, 1, 5, 5, 5])] [(1, 3)] 2 0 6 = .ok (3, 5) := by decide

theorem blockedOn_ok {a : List Int} {need : Int} : ∀ (k t : Nat), (∀ u, t ≤ u → u < t + k → ∃ v, a[u]? = some v ∧ need ≤ v) → blockedOn a need t k = .ok false := by
  intro k
  induction k with
  | zero => intro t _; rfl
  | succ k ih =>
    intro t h
    obtain ⟨v, hv, hle⟩ := h t (Nat.le_refl _) (by omega)
    simp only [blockedOn, hv]
    rw [if_neg (by omega)]
    exact ih _ (fun u h1 h2 => h u (by omega) (by omega))

theorem blockedAt_ok {cons : Dict Nat Int} {duration time : Nat} : ∀ (avail : List (Nat × List Int)), Fits avail cons duration time →
    blockedAt cons duration time avail = .ok false := by
  intro avail
  induction avail with
  | nil => intro _; rfl
  | cons e rest ih =>
    obtain ⟨r, a⟩ := e
    intro h
    have hrest : Fits rest cons duration time := fun r' a' hm => h r' a' (by simp [hm])
    simp only [blockedAt]
    split
    · exact ih hrest
    · obtain ⟨need, _, hn, _, _⟩ := h r a (by simp) time (Nat.le_refl _) (by omega)
      have hon : blockedOn a need time duration = .ok false := blockedOn_ok _ _ (fun u h1 h2 => by
        obtain ⟨need', v, k1, k2, k3⟩ := h r a (by simp) u h1 h2
        rw [hn] at k1; cases k1
        exact ⟨v, k2, k3⟩)
      simp only [Dict.get, hn, bind_ok, hon, Bool.false_eq_true, ↓reduceIte]
      exact ih hrest

/-- When the activity fits at every time, the function raises `TypeError`. -/
theorem C60_free_raises {avail : List (Nat × List Int)} {cons : Dict Nat Int} {duration early horizon : Nat}
    (hfree : ∀ u, early ≤ u → u < horizon → Fits avail cons duration u) : firstTime avail cons duration early horizon = .error .typeError := by
  have hloop : ∀ ts : List Nat, (∀ u ∈ ts, Fits avail cons duration u) → firstTimeLoop avail cons duration ts none = .ok none := by
    intro ts
    induction ts with
    | nil => intro _; rfl
    | cons t ts ih =>
      intro h
      simp only [firstTimeLoop, blockedAt_ok avail (h t (by simp)), bind_ok, Bool.false_eq_true, ↓reduceIte]
      exact ih (fun u hu => h u (by simp [hu]))
  rw [firstTime, hloop _ (fun u hu => by have := List.mem_range'_1.1 hu; exact hfree u (by omega) (by omega)), bind_ok]

example : firstTime [(1, [5, 5, 5, 5])] [(1, 3)] 2 0 3 = .error .typeError := by decide

end Verif.Cpm
