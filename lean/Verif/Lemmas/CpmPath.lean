import Verif.Lemmas.Cpm
/- The dates at the end of the sweeps and the critical path. -/
namespace Verif.Cpm

/-- `L` is the length of a longest chain that leads to `n`. -/
def Longest (prev : Nat → List Nat) (dur : Nat → Nat) (n L : Nat) : Prop :=
  Lead prev dur n L ∧ ∀ L', Lead prev dur n L' → L' ≤ L

/-- A schedule that respects the precedences. -/
def Feasible (net : Network) (d : Nat → Nat) (s : Nat → Int) : Prop :=
  (∀ n ∈ net.nodes, 0 ≤ s n) ∧ ∀ n m, m ∈ net.succ n → s n + d n ≤ s m

/-- Consecutive activities are joined by an edge. -/
def Path (net : Network) : List Nat → Prop
  | [] => True
  | [_] => True
  | a :: b :: l => b ∈ net.succ a ∧ Path net (b :: l)

theorem best_longest {prev : Nat → List Nat} {dur : Nat → Nat} {base : Int} {n : Nat} {t : Int} (h : Best prev dur base n t) :
    ∃ L, Longest prev dur n L ∧ t = base + L := by
  obtain ⟨⟨L, hL, ht⟩, hb⟩ := h
  exact ⟨L, ⟨hL, fun L' h' => by have := hb L' h'; omega⟩, ht⟩

theorem start_inv {net : Network} {d : Nat → Nat} (wf : Wf net d) :
    GInv net.pred net.nodes d 0 (fun n => (start net).esd.get? n) (fun n => (start net).efd.get? n) (start net).queue [] := by
  have hnone : ∀ n, (start net).esd.get? n = none := fun n => rfl
  refine ⟨fun n => rfl, fun n s hs => (by rw [hnone] at hs; cases hs), fun n s hs => (by rw [hnone] at hs; cases hs), ?_, ?_, ?_, by simp⟩
  · intro t n hq
    simp only [start, List.mem_map, List.mem_filter, Prod.mk.injEq] at hq
    obtain ⟨a, ⟨ha, hp⟩, rfl, rfl⟩ := hq
    have hp : net.pred a = [] := List.isEmpty_iff.1 hp
    refine ⟨ha, fun _ => ⟨by simp [hp], ⟨0, .here a, rfl⟩, fun L hL => ?_⟩⟩
    cases hL with
    | here => simp
    | step h _ => rw [hp] at h; cases h
  · apply List.Pairwise.filter
    have : ((start net).queue.map (·.2)) = net.nodes.filter (fun n => (net.pred n).isEmpty) := by
      simp [start, Function.comp_def]
    rw [this]
    exact List.Pairwise.filter _ wf.nodup
  · intro n hn _ hp
    left
    have : ((start net).queue.map (·.2)) = net.nodes.filter (fun n => (net.pred n).isEmpty) := by
      simp [start, Function.comp_def]
    rw [this]
    refine List.mem_filter.2 ⟨hn, ?_⟩
    rcases hpn : net.pred n with _ | ⟨p, r⟩
    · rfl
    · obtain ⟨s, hs⟩ := hp p (by rw [hpn]; simp)
      rw [hnone] at hs; cases hs

theorem missing_all (nodes : List Nat) : missing nodes (fun _ => none) = nodes.length := by
  simp [missing]

/-- What the sweeps leave. -/
structure Dates (net : Network) (d : Nat → Nat) (st : St) (es lf : Nat → Int) : Prop where
  esd : ∀ n ∈ net.nodes, st.esd.get? n = some (es n)
  efd : ∀ n ∈ net.nodes, st.efd.get? n = some (es n + d n)
  lsd : ∀ n ∈ net.nodes, st.lsd.get? n = some (lf n - d n)
  lfd : ∀ n ∈ net.nodes, st.lfd.get? n = some (lf n)
  early : ∀ n ∈ net.nodes, Best net.pred d 0 n (es n)
  late : ∀ n ∈ net.nodes, Best net.succ d (-(es net.sink + d net.sink)) n (-lf n)

theorem run_ok {net : Network} {d : Nat → Nat} (wf : Wf net d) : ∃ st es lf, (∀ fuel, 2 * net.nodes.length + 1 ≤ fuel → run net fuel (start net) = .ok (some st)) ∧
    Dates net d st es lf := by
  obtain ⟨esd, efd, e, h1, h2, h3, h4⟩ := forward_ok wf net.nodes.length (start net) (start_inv wf)
    (by simp [stale, start, Dict.get?_nil]) (missing_all net.nodes) rfl rfl
  have hback : GInv net.succ net.nodes d (-e) (fun n => ((start net).lfd.get? n).map (fun x => -x)) (fun n => ((start net).lsd.get? n).map (fun x => -x))
      [(-e, net.sink)] [] := by
    refine ⟨fun n => rfl, fun n s hs => (by cases hs), fun n s hs => (by cases hs), ?_, by simp [start, Dict.get?_nil], ?_, by simp⟩
    · intro t n hq
      simp only [List.mem_singleton, Prod.mk.injEq] at hq
      obtain ⟨rfl, rfl⟩ := hq
      have hs : net.succ net.sink = [] := (wf.sink.2 _ wf.sink.1).2 rfl
      refine ⟨wf.sink.1, fun _ => ⟨by simp [hs], ⟨0, .here _, by omega⟩, fun L hL => ?_⟩⟩
      cases hL with
      | here => simp
      | step h _ => rw [hs] at h; cases h
    · intro n hn _ hp
      left
      rcases hpn : net.succ n with _ | ⟨p, r⟩
      · rw [(wf.sink.2 n hn).1 hpn]; simp
      · obtain ⟨s, hs⟩ := hp p (by rw [hpn]; simp)
        cases hs
  obtain ⟨lsd, lfd, g1, g2, g3⟩ := backward_ok wf (net.nodes.length + 1)
    { start net with esd := esd, efd := efd, queue := [(-e, net.sink)], forward := false } hback
    (by
      have : missing net.nodes (fun n => ((start net).lfd.get? n).map (fun x => -x)) = net.nodes.length := missing_all net.nodes
      simp only [this]
      simp [stale, start, Dict.get?_nil]) rfl ⟨e, h3⟩
  refine ⟨{ start net with esd := esd, efd := efd, lsd := lsd, lfd := lfd, queue := [], forward := false },
    fun n => (esd.get? n).getD 0, fun n => (lfd.get? n).getD 0, ?_, ?_⟩
  · intro fuel hf
    have : fuel = (fuel - (2 * net.nodes.length + 1) + (net.nodes.length + 1)) + net.nodes.length := by omega
    rw [this, h1, g1]
  · have hes : ∀ n ∈ net.nodes, esd.get? n = some ((esd.get? n).getD 0) := by
      intro n hn
      obtain ⟨v, hv⟩ := Option.ne_none_iff_exists'.1 (h4 n hn)
      simp [hv]
    have hlf : ∀ n ∈ net.nodes, lfd.get? n = some ((lfd.get? n).getD 0) := by
      intro n hn
      obtain ⟨v, hv⟩ := Option.ne_none_iff_exists'.1 (g3 n hn)
      simp [hv]
    have he : e = (esd.get? net.sink).getD 0 + d net.sink := by
      obtain ⟨v, hv⟩ := Option.ne_none_iff_exists'.1 (h4 _ wf.sink.1)
      have := h2.fin net.sink
      simp only [h3, hv, Option.map_some] at this
      rw [hv]
      exact Option.some.inj this
    refine ⟨hes, ?_, ?_, hlf, ?_, ?_⟩
    · intro n hn
      obtain ⟨v, hv⟩ := Option.ne_none_iff_exists'.1 (h4 n hn)
      have := h2.fin n
      simp only [hv, Option.map_some] at this
      simp only [hv]
      exact this
    · intro n hn
      obtain ⟨w, hw⟩ := Option.ne_none_iff_exists'.1 (g3 n hn)
      have := g2.fin n
      simp only [hw, Option.map_some] at this
      rcases hl : lsd.get? n with _ | v
      · simp [hl] at this
      · simp only [hl, Option.map_some, Option.some.injEq] at this
        simp only [hw, Option.getD_some]
        congr 1
        omega
    · intro n hn
      exact (h2.best n _ (hes n hn)).2
    · intro n hn
      rw [← he]
      refine (g2.best n (-(lfd.get? n).getD 0) ?_).2
      have := hlf n hn
      rw [this]
      simp

theorem best_step {prev : Nat → List Nat} {dur : Nat → Nat} {base : Int} {n p : Nat} {t s : Int} (h : Best prev dur base n t) (hp : p ∈ prev n)
    (hb : Best prev dur base p s) : s + dur p ≤ t := by
  obtain ⟨⟨L, hL, hs⟩, _⟩ := hb
  have := h.2 _ (.step hp hL)
  omega

theorem best_tight {prev : Nat → List Nat} {dur : Nat → Nat} {base : Int} {n : Nat} {t : Int} (h : Best prev dur base n t) (hne : prev n ≠ []) :
    ∃ p ∈ prev n, ∀ s, Best prev dur base p s → t = s + dur p := by
  obtain ⟨⟨L, hL, ht⟩, hb⟩ := h
  cases hL with
  | here =>
    obtain ⟨p, hp⟩ := List.exists_mem_of_ne_nil _ hne
    refine ⟨p, hp, fun s hs => ?_⟩
    have h1 := best_step ⟨⟨0, .here n, ht⟩, hb⟩ hp hs
    have h2 := hs.2 0 (.here p)
    omega
  | @step _ p L' hp hL' =>
    refine ⟨p, hp, fun s hs => ?_⟩
    have h1 := best_step ⟨⟨_, .step hp hL', ht⟩, hb⟩ hp hs
    have h2 := hs.2 _ hL'
    omega

theorem lead_bound {net : Network} {d : Nat → Nat} {s : Nat → Int} (wf : Wf net d) (hs : Feasible net d s) {n L : Nat} (h : Lead net.pred d n L) :
    n ∈ net.nodes → (L : Int) ≤ s n := by
  induction h with
  | here n => intro hn; have := hs.1 n hn; omega
  | @step n p L hp _ ih =>
    intro hn
    have he := (wf.edges p n).2 hp
    have h1 := ih (wf.mem p n he).1
    have h2 := hs.2 p n he
    omega

theorem after_bound {net : Network} {d : Nat → Nat} {s : Nat → Int} {M : Int} (wf : Wf net d) (hs : Feasible net d s)
    (hM : ∀ n ∈ net.nodes, s n + d n ≤ M) {n L : Nat} (h : Lead net.succ d n L) : n ∈ net.nodes → s n + d n + L ≤ M := by
  induction h with
  | here n => intro hn; have := hM n hn; omega
  | @step n p L hp _ ih =>
    intro hn
    have h1 := ih (wf.mem n p hp).2
    have h2 := hs.2 n p hp
    omega

/-- Every activity is followed by the sink, so a schedule is over when the sink is. -/
theorem sink_last {net : Network} {d : Nat → Nat} {s : Nat → Int} (wf : Wf net d) (hs : Feasible net d s) :
    ∀ n ∈ net.nodes, s n + d n ≤ s net.sink + d net.sink := by
  obtain ⟨rank, hr⟩ := wf.acyclic
  intro n hn
  apply Classical.byContradiction
  intro hc
  obtain ⟨x, hx, hmax⟩ := exists_max rank (net.nodes.filter (fun n => decide (¬ s n + d n ≤ s net.sink + d net.sink))) (by
    intro e
    have : n ∈ net.nodes.filter (fun n => decide (¬ s n + d n ≤ s net.sink + d net.sink)) := List.mem_filter.2 ⟨hn, by simpa using hc⟩
    rw [e] at this; cases this)
  obtain ⟨hxn, hxs⟩ := List.mem_filter.1 hx
  have hxs := of_decide_eq_true hxs
  rcases hsx : net.succ x with _ | ⟨y, r⟩
  · rw [(wf.sink.2 x hxn).1 hsx] at hxs
    omega
  · have hy : y ∈ net.succ x := by rw [hsx]; simp
    have h1 := hs.2 x y hy
    have h2 := hr x y hy
    have h3 := hmax y (List.mem_filter.2 ⟨(wf.mem x y hy).2, decide_eq_true (by omega)⟩)
    omega

theorem early_feasible {net : Network} {d : Nat → Nat} {st : St} {es lf : Nat → Int} (wf : Wf net d) (h : Dates net d st es lf) : Feasible net d es := by
  refine ⟨fun n hn => ?_, fun n m hm => ?_⟩
  · have := (h.early n hn).2 0 (.here n); omega
  · obtain ⟨h1, h2⟩ := wf.mem n m hm
    exact best_step (h.early m h2) ((wf.edges n m).1 hm) (h.early n h1)

theorem late_step {net : Network} {d : Nat → Nat} {st : St} {es lf : Nat → Int} (wf : Wf net d) (h : Dates net d st es lf) :
    ∀ n m, m ∈ net.succ n → lf n ≤ lf m - d m := by
  intro n m hm
  obtain ⟨h1, h2⟩ := wf.mem n m hm
  have := best_step (h.late n h1) hm (h.late m h2)
  omega

theorem late_of_feasible {net : Network} {d : Nat → Nat} {st : St} {es lf s : Nat → Int} (wf : Wf net d) (h : Dates net d st es lf) (hs : Feasible net d s)
    (hM : s net.sink + d net.sink ≤ es net.sink + d net.sink) : ∀ n ∈ net.nodes, s n + d n ≤ lf n := by
  intro n hn
  obtain ⟨⟨L, hL, he⟩, _⟩ := h.late n hn
  have := after_bound (M := es net.sink + d net.sink) wf hs (fun x hx => by have := sink_last wf hs x hx; omega) hL hn
  omega

theorem early_of_feasible {net : Network} {d : Nat → Nat} {st : St} {es lf s : Nat → Int} (wf : Wf net d) (h : Dates net d st es lf) (hs : Feasible net d s) :
    ∀ n ∈ net.nodes, es n ≤ s n := by
  intro n hn
  obtain ⟨⟨L, hL, he⟩, _⟩ := h.early n hn
  have := lead_bound wf hs hL hn
  omega

theorem early_le_late {net : Network} {d : Nat → Nat} {st : St} {es lf : Nat → Int} (wf : Wf net d) (h : Dates net d st es lf) :
    ∀ n ∈ net.nodes, es n ≤ lf n - d n := by
  intro n hn
  have := late_of_feasible wf h (early_feasible wf h) (Int.le_refl _) n hn
  omega

theorem sink_critical {net : Network} {d : Nat → Nat} {st : St} {es lf : Nat → Int} (wf : Wf net d) (h : Dates net d st es lf) :
    lf net.sink = es net.sink + d net.sink := by
  obtain ⟨⟨L, hL, he⟩, _⟩ := h.late net.sink wf.sink.1
  cases hL with
  | here => omega
  | step hp _ =>
    rw [(wf.sink.2 _ wf.sink.1).2 rfl] at hp; cases hp

theorem source_zero {net : Network} {d : Nat → Nat} {st : St} {es lf : Nat → Int} (wf : Wf net d) (h : Dates net d st es lf) :
    es net.source = 0 := by
  obtain ⟨⟨L, hL, he⟩, _⟩ := h.early net.source wf.source.1
  cases hL with
  | here => omega
  | step hp _ =>
    rw [(wf.source.2 _ wf.source.1).2 rfl] at hp; cases hp

theorem path_snoc {net : Network} {a b : Nat} : ∀ l : List Nat, Path net (l ++ [a]) → b ∈ net.succ a → Path net (l ++ [a] ++ [b]) := by
  intro l
  induction l with
  | nil => intro _ h; exact ⟨h, trivial⟩
  | cons x l ih =>
    intro h hb
    cases l with
    | nil => exact ⟨h.1, hb, trivial⟩
    | cons y l => exact ⟨h.1, ih h.2 hb⟩

theorem crit_dec {net : Network} {d : Nat → Nat} {st : St} {es lf : Nat → Int} (h : Dates net d st es lf) {n : Nat} (hn : n ∈ net.nodes) :
    (st.esd.get? n == st.lsd.get? n) = true ↔ es n = lf n - d n := by
  rw [h.esd n hn, h.lsd n hn]
  simp

theorem pathFrom_ok {net : Network} {d : Nat → Nat} {st : St} {es lf : Nat → Int} (wf : Wf net d) (h : Dates net d st es lf)
    {rank : Nat → Nat} (hr : ∀ n m, m ∈ net.succ n → rank n < rank m) : ∀ (fuel cur : Nat), cur ∈ net.nodes → es cur = lf cur - d cur →
    (net.nodes.filter (fun n => rank n < rank cur)).length ≤ fuel →
    ∃ l, pathFrom net st fuel cur = .ok (some l) ∧ (∀ n ∈ l, n ∈ net.nodes ∧ es n = lf n - d n) ∧ Path net (cur :: l).reverse ∧
      (cur :: l).getLast? = some net.source ∧ ((l.map d).sum : Int) ≤ es cur ∧
      ((∀ n m, m ∈ net.succ n → es n = lf n - d n → es m = lf m - d m → es m = es n + d n) → ((l.map d).sum : Int) = es cur) := by
  intro fuel
  induction fuel with
  | zero =>
    intro cur hc hcrit hlen
    by_cases hsrc : cur = net.source
    · subst hsrc
      exact ⟨[], by unfold pathFrom; simp, by simp, trivial, rfl, by rw [source_zero wf h]; simp, fun _ => by rw [source_zero wf h]; simp⟩
    · exfalso
      have hpn : net.pred cur ≠ [] := fun e => hsrc ((wf.source.2 cur hc).1 e)
      obtain ⟨p, hp⟩ := List.exists_mem_of_ne_nil _ hpn
      have he := (wf.edges p cur).2 hp
      have : p ∈ net.nodes.filter (fun n => rank n < rank cur) := List.mem_filter.2 ⟨(wf.mem p cur he).1, by simpa using hr p cur he⟩
      rw [List.length_eq_zero_iff.1 (Nat.le_zero.1 hlen)] at this
      cases this
  | succ fuel ih =>
    intro cur hc hcrit hlen
    by_cases hsrc : cur = net.source
    · subst hsrc
      exact ⟨[], by unfold pathFrom; simp, by simp, trivial, rfl, by rw [source_zero wf h]; simp, fun _ => by rw [source_zero wf h]; simp⟩
    · have hpn : net.pred cur ≠ [] := fun e => hsrc ((wf.source.2 cur hc).1 e)
      have hmem : ∀ p ∈ net.pred cur, p ∈ net.nodes := fun p hp => (wf.mem p cur ((wf.edges p cur).2 hp)).1
      rcases hfind : (net.pred cur).find? (fun n => st.esd.get? n == st.lsd.get? n) with _ | p
      · exfalso
        obtain ⟨p, hp, htight⟩ := best_tight (h.early cur hc) hpn
        have h1 := htight _ (h.early p (hmem p hp))
        have h2 := late_step wf h p cur ((wf.edges p cur).2 hp)
        have h3 := early_le_late wf h p (hmem p hp)
        exact List.find?_eq_none.1 hfind p hp ((crit_dec h (hmem p hp)).2 (by omega))
      · have hp := List.mem_of_find?_eq_some hfind
        have hpc := (crit_dec h (hmem p hp)).1 (List.find?_some (p := fun n => st.esd.get? n == st.lsd.get? n) hfind)
        have he := (wf.edges p cur).2 hp
        have hlt := hr p cur he
        have hlen' : (net.nodes.filter (fun n => rank n < rank p)).length ≤ fuel := by
          have hsub : (net.nodes.filter (fun n => rank n < rank p)) = (net.nodes.filter (fun n => rank n < rank cur)).filter (fun n => rank n < rank p) := by
            rw [List.filter_filter]
            apply List.filter_congr
            intro x _
            by_cases hx : rank x < rank p
            · have : rank x < rank cur := by omega
              simp [hx, this]
            · simp [hx]
          have hin : p ∈ net.nodes.filter (fun n => rank n < rank cur) := List.mem_filter.2 ⟨hmem p hp, by simpa using hlt⟩
          have hlt2 : ((net.nodes.filter (fun n => rank n < rank cur)).filter (fun n => rank n < rank p)).length < (net.nodes.filter (fun n => rank n < rank cur)).length :=
            List.length_filter_lt_length_iff_exists.2 ⟨p, hin, by simp⟩
          rw [hsub]
          omega
        obtain ⟨l, g1, g2, g3, g4, g5, g6⟩ := ih p (hmem p hp) hpc hlen'
        have hstep := (early_feasible wf h).2 p cur he
        refine ⟨p :: l, ?_, ?_, ?_, ?_, ?_, ?_⟩
        · unfold pathFrom
          simp only [hsrc, ↓reduceIte, hfind, g1, bind_ok, Option.map_some]
        · intro n hn
          rcases List.mem_cons.1 hn with rfl | hn
          · exact ⟨hmem _ hp, hpc⟩
          · exact g2 n hn
        · rw [List.reverse_cons, List.reverse_cons]
          rw [List.reverse_cons] at g3
          exact path_snoc _ g3 he
        · rw [List.getLast?_cons_cons]; exact g4
        · simp only [List.map_cons, List.sum_cons]; push_cast; omega
        · intro ht
          have := g6 ht
          have := ht p cur he hpc hcrit
          simp only [List.map_cons, List.sum_cons]; push_cast; omega

/-- Checks that make a network given by its edges well-formed when every edge goes to a larger number. -/
theorem wf_ofEdges {nodes : List Nat} {edges : List (Nat × Nat)} {modes : Dict Nat (List Nat)} {source sink : Nat} {d : Nat → Nat}
    (h1 : nodes.Nodup) (h2 : edges.Nodup) (h3 : ∀ e ∈ edges, e.1 ∈ nodes ∧ e.2 ∈ nodes ∧ e.1 < e.2)
    (h4 : ∀ n ∈ nodes, (modes.get? n).bind List.min? = some (d n)) (h5 : sink ∈ nodes ∧ source ∈ nodes)
    (h6 : ∀ n ∈ nodes, ((ofEdges nodes edges modes source sink).succ n = [] ↔ n = sink) ∧ ((ofEdges nodes edges modes source sink).pred n = [] ↔ n = source)) :
    Wf (ofEdges nodes edges modes source sink) d := by
  have hs : ∀ n m, m ∈ (ofEdges nodes edges modes source sink).succ n ↔ (n, m) ∈ edges := by
    intro n m
    simp only [ofEdges, List.mem_map, List.mem_filter, decide_eq_true_eq]
    constructor
    · rintro ⟨⟨a, b⟩, ⟨h, rfl⟩, rfl⟩; exact h
    · intro h; exact ⟨(n, m), ⟨h, rfl⟩, rfl⟩
  have hp : ∀ n m, n ∈ (ofEdges nodes edges modes source sink).pred m ↔ (n, m) ∈ edges := by
    intro n m
    simp only [ofEdges, List.mem_map, List.mem_filter, decide_eq_true_eq]
    constructor
    · rintro ⟨⟨a, b⟩, ⟨h, rfl⟩, rfl⟩; exact h
    · intro h; exact ⟨(n, m), ⟨h, rfl⟩, rfl⟩
  refine ⟨h1, fun n m => by rw [hs, hp], fun n m h => ?_, fun n => ⟨?_, ?_⟩, fun n hn => ?_, ⟨id, fun n m h => ?_⟩, ⟨h5.1, fun n hn => (h6 n hn).1⟩, ⟨h5.2, fun n hn => (h6 n hn).2⟩⟩
  · have := h3 _ ((hs n m).1 h); exact ⟨this.1, this.2.1⟩
  · refine List.pairwise_map.2 ((List.Pairwise.filter _ h2).imp_of_mem ?_)
    intro a b ha hb hne he
    have ha' := of_decide_eq_true (List.mem_filter.1 ha).2
    have hb' := of_decide_eq_true (List.mem_filter.1 hb).2
    exact hne (Prod.ext (by rw [ha', hb']) he)
  · refine List.pairwise_map.2 ((List.Pairwise.filter _ h2).imp_of_mem ?_)
    intro a b ha hb hne he
    have ha' := of_decide_eq_true (List.mem_filter.1 ha).2
    have hb' := of_decide_eq_true (List.mem_filter.1 hb).2
    exact hne (Prod.ext he (by rw [ha', hb']))
  · have := h4 n hn
    simp only [ofEdges]
    rcases hm : modes.get? n with _ | l
    · rw [hm] at this; cases this
    · rw [hm] at this; exact ⟨l, rfl, this⟩
  · exact (h3 _ ((hs n m).1 h)).2.2

end Verif.Cpm
