import Verif.Lemmas.CoreSpec
/-
Properties C01, C02, C03, C04, C43: values, casts, outcomes, distributions and
bound constraints of `/repo/skdecide/core.py`.
-/
namespace Verif.Core

/-! ## C01 -/

/-- C01: whatever is supplied, reward and cost of a transition value are opposite; a
supplied reward is kept; a supplied cost is kept when no reward is supplied; the
default is zero. -/
theorem C01_reward_cost_opposite (r c : Option Int) :
    (mkTransitionValue r c).reward = - (mkTransitionValue r c).cost ∧
    (∀ x, r = some x → (mkTransitionValue r c).reward = x) ∧
    (∀ x, r = none → c = some x → (mkTransitionValue r c).cost = x) ∧
    (r = none → c = none → (mkTransitionValue r c).reward = 0) := by
  cases r <;> cases c <;> simp [mkTransitionValue]

example : mkTransitionValue (some 3) (some 7) = ⟨3, -3⟩ ∧
    mkTransitionValue none (some 5) = ⟨-5, 5⟩ := by decide

/-! ## C02

The shape predicate `Fits`, and `WF`, `Upward` on hint trees, are specified in
`Lemmas/CoreSpec.lean`. -/

/-- C02: casting a value up to a container shape (at any depth) succeeds, gives a
value of the destination shape, and casting back returns the original value. -/
theorem C02_cast_roundtrip (t : HT) (hw : WF t) (hu : Upward t) (v : Val) (hv : Fits t v) :
    ∃ w, cast t v = .ok w ∧ Fits t.swap w ∧ cast t.swap w = .ok v := by
  induction t generalizing v with
  | leaf s d =>
    simp only [WF] at hw
    subst hw
    exact ⟨v, by simp [cast, castNeeded], trivial, by simp [HT.swap, cast, castNeeded]⟩
  | one s d t ih =>
    cases hn : castNeeded (.one s d t) with
    | false =>
      have hs := swap_of_not_needed hw hn
      exact ⟨v, cast_of_not_needed hn v, by rw [hs]; exact hv,
        by rw [hs]; exact cast_of_not_needed hn v⟩
    | true =>
      have hn' : castNeeded (HT.one d s t.swap) = true := by
        have := castNeeded_swap (.one s d t)
        rw [hn] at this
        exact this
      obtain ⟨hsd, hwt⟩ := hw
      obtain ⟨hup, hut⟩ := hu
      have ih' := fun v hv => ih hwt hut v hv
      -- element-wise lift of the induction hypothesis
      have lift : ∀ xs : List Val, (∀ x ∈ xs, Fits t x) →
          ∃ ys, mapE (cast t) xs = .ok ys ∧ (∀ y ∈ ys, Fits t.swap y) ∧
            mapE (cast t.swap) ys = .ok xs := by
        intro xs hxs
        induction xs with
        | nil => exact ⟨[], rfl, by simp, rfl⟩
        | cons x xs ihx =>
          obtain ⟨y, h1, h2, h3⟩ := ih' x (hxs x (by simp))
          obtain ⟨ys, k1, k2, k3⟩ := ihx (fun z hz => hxs z (by simp [hz]))
          refine ⟨y :: ys, by simp [mapE, h1, k1], ?_, by simp [mapE, h3, k3]⟩
          intro z hz
          rcases List.mem_cons.1 hz with rfl | hz
          · exact h2
          · exact k2 z hz
      rcases hsd with rfl | ⟨rfl, rfl | rfl | rfl⟩ | ⟨rfl, rfl | rfl | rfl⟩
      · cases s with
        | union =>
          obtain ⟨w, h1, h2, h3⟩ := ih' v hv
          exact ⟨w, by simp [cast, hn, h1], h2, by simp [HT.swap, cast, hn', h3]⟩
        | memory =>
          obtain ⟨xs, rfl, hxs⟩ := hv
          obtain ⟨ys, k1, k2, k3⟩ := lift xs hxs
          exact ⟨.mem ys, by simp [cast, hn, k1], ⟨ys, rfl, k2⟩,
            by simp [HT.swap, cast, hn', k3]⟩
        | list =>
          obtain ⟨xs, rfl, hxs⟩ := hv
          obtain ⟨ys, k1, k2, k3⟩ := lift xs hxs
          exact ⟨.lst ys, by simp [cast, hn, k1], ⟨ys, rfl, k2⟩,
            by simp [HT.swap, cast, hn', k3]⟩
        | strDict =>
          obtain ⟨kvs, rfl, hk⟩ := hv
          have : ∃ ys, mapE (fun kv : String × Val => (cast t kv.2).map fun w => (kv.1, w)) kvs
              = .ok ys ∧ (∀ y ∈ ys, Fits t.swap y.2) ∧
              mapE (fun kv : String × Val => (cast t.swap kv.2).map fun w => (kv.1, w)) ys
              = .ok kvs := by
            clear hn hn'
            induction kvs with
            | nil => exact ⟨[], rfl, by simp, rfl⟩
            | cons x xs ihx =>
              obtain ⟨y, h1, h2, h3⟩ := ih' x.2 (hk x (by simp))
              obtain ⟨ys, k1, k2, k3⟩ := ihx (fun z hz => hk z (by simp [hz]))
              refine ⟨(x.1, y) :: ys, by simp [mapE, h1, k1], ?_,
                by simp [mapE, h3, k3]⟩
              intro z hz
              rcases List.mem_cons.1 hz with rfl | hz
              · exact h2
              · exact k2 z hz
          obtain ⟨ys, k1, k2, k3⟩ := this
          exact ⟨.dict ys, by simp [cast, hn, k1], ⟨ys, rfl, k2⟩,
            by simp [HT.swap, cast, hn', k3]⟩
        | optional =>
          rcases hv with rfl | ⟨hne, hv⟩
          · exact ⟨.none, by simp [cast, hn], .inl rfl, by simp [HT.swap, cast, hn']⟩
          · obtain ⟨w, h1, h2, h3⟩ := ih' v hv
            have hw' : w ≠ .none := by
              rintro rfl
              exact hne (cast_none_of_upward hut h1)
            refine ⟨w, ?_, .inr ⟨hw', h2⟩, ?_⟩
            · simp only [cast, hn]
              cases v <;> simp_all
            · simp only [HT.swap, cast, hn']
              cases w <;> simp_all
        | other n =>
          rcases hv with ⟨kvs, rfl, hne, hk⟩ | ⟨x, rfl, hx⟩
          · have : ∃ ys, mapE (fun kv : Val × Int => (cast t kv.1).map fun w => (w, kv.2)) kvs
                = .ok ys ∧ (∀ y ∈ ys, Fits t.swap y.1) ∧
                mapE (fun kv : Val × Int => (cast t.swap kv.1).map fun w => (w, kv.2)) ys
                = .ok kvs := by
              clear hn hn' hne
              induction kvs with
              | nil => exact ⟨[], rfl, by simp, rfl⟩
              | cons x xs ihx =>
                obtain ⟨y, h1, h2, h3⟩ := ih' x.1 (hk x (by simp))
                obtain ⟨ys, k1, k2, k3⟩ := ihx (fun z hz => hk z (by simp [hz]))
                refine ⟨(y, x.2) :: ys, by simp [mapE, h1, k1], ?_,
                  by simp [mapE, h3, k3]⟩
                intro z hz
                rcases List.mem_cons.1 hz with rfl | hz
                · exact h2
                · exact k2 z hz
            obtain ⟨ys, k1, k2, k3⟩ := this
            have hyne : ys ≠ [] := by
              rintro rfl
              have := (mapE_ok k1).1
              cases kvs <;> simp_all
            refine ⟨.dist ys, ?_, .inl ⟨ys, rfl, hyne, k2⟩, ?_⟩
            · cases kvs with
              | nil => exact absurd rfl hne
              | cons a l => simp [cast, hn, k1]
            · cases ys with
              | nil => exact absurd rfl hyne
              | cons a l => simp [HT.swap, cast, hn', k3]
          · obtain ⟨w, h1, h2, h3⟩ := ih' x hx
            exact ⟨.single w, by simp [cast, hn, h1], .inr ⟨w, rfl, h2⟩,
              by simp [HT.swap, cast, hn', h3]⟩
      · obtain ⟨w, h1, h2, h3⟩ := ih' v hv
        exact ⟨.mem [w], by simp [cast, hn, h1], ⟨[w], rfl, by simpa using h2⟩,
          by simp [HT.swap, cast, hn', h3]⟩
      · obtain ⟨w, h1, h2, h3⟩ := ih' v hv
        exact ⟨.dict [("agent", w)], by simp [cast, hn, h1],
          ⟨[("agent", w)], rfl, by simpa using h2⟩, by simp [HT.swap, cast, hn', h3]⟩
      · obtain ⟨w, h1, h2, h3⟩ := ih' v hv
        exact ⟨.lst [w], by simp [cast, hn, h1], ⟨[w], rfl, by simpa using h2⟩,
          by simp [HT.swap, cast, hn', h3]⟩
      all_goals simp at hup
  | three s d a b c iha ihb ihc =>
    cases hn : castNeeded (.three s d a b c) with
    | false =>
      have hs := swap_of_not_needed hw hn
      exact ⟨v, cast_of_not_needed hn v, by rw [hs]; exact hv,
        by rw [hs]; exact cast_of_not_needed hn v⟩
    | true =>
      have hn' : castNeeded (HT.three d s a.swap b.swap c.swap) = true := by
        have := castNeeded_swap (.three s d a b c)
        rw [hn] at this
        exact this
      obtain ⟨rfl, ⟨n, rfl⟩, hwa, hwb, hwc⟩ := hw
      obtain ⟨hua, hub, huc⟩ := hu
      obtain ⟨o, x, term, i, rfl, ho, hx, hi⟩ := hv
      obtain ⟨o', o1, o2, o3⟩ := iha hwa hua o ho
      obtain ⟨x', x1, x2, x3⟩ := ihb hwb hub x hx
      obtain ⟨i', i1, i2, i3⟩ := ihc hwc huc i hi
      exact ⟨.outcome o' x' term i', by simp [cast, hn, inCastDict, o1, x1, i1],
        ⟨o', x', term, i', rfl, o2, x2, i2⟩,
        by simp [HT.swap, cast, hn', inCastDict, o3, x3, i3]⟩

/-- A three-level hint as in the library: agent dictionary of lists of values. -/
example :
    let t := HT.one .union .strDict (.one .union .list (.leaf (.other "T_event") (.other "T_event")))
    WF t ∧ Upward t ∧ Fits t (.atom 7) ∧
      cast t (.atom 7) = .ok (.dict [("agent", .lst [.atom 7])]) := by
  refine ⟨?_, ?_, ?_, rfl⟩ <;> simp [WF, Upward, Fits]

/-- C02: between two memories (or two lists) of any shapes, a successful cast keeps
the number of elements and their order: element `i` of the result is the cast of
element `i`. -/
theorem C02_sequence_pointwise (k : Ty) (hk : k = .memory ∨ k = .list) (t : HT)
    (mk : List Val → Val) (hmk : mk = if k = .memory then .mem else .lst)
    (xs : List Val) (w : Val) (h : cast (.one k k t) (mk xs) = .ok w) :
    ∃ ys, w = mk ys ∧ ys.length = xs.length ∧
      ∀ (i : Nat) (hx : i < xs.length) (hy : i < ys.length), cast t xs[i] = .ok ys[i] := by
  cases hn : castNeeded (.one k k t) with
  | false =>
    rw [cast_of_not_needed hn] at h
    have hnt : castNeeded t = false := by simpa [castNeeded] using hn
    cases h
    exact ⟨xs, rfl, rfl, fun i _ _ => cast_of_not_needed hnt _⟩
  | true =>
    rcases hk with rfl | rfl
    · simp only [if_true] at hmk
      subst hmk
      simp only [cast, hn, if_true] at h
      cases hm : mapE (cast t) xs with
      | error e => simp [hm] at h
      | ok ys =>
        simp only [hm, emap_ok, Except.ok.injEq] at h
        exact ⟨ys, h.symm, mapE_ok hm⟩
    · simp only [reduceCtorEq, if_false] at hmk
      subst hmk
      simp only [cast, hn, if_true] at h
      cases hm : mapE (cast t) xs with
      | error e => simp [hm] at h
      | ok ys =>
        simp only [hm, emap_ok, Except.ok.injEq] at h
        exact ⟨ys, h.symm, mapE_ok hm⟩

example : cast (.one .memory .memory (.one .union .list (.leaf (.other "S") (.other "S"))))
    (.mem [.atom 1, .atom 2]) = .ok (.mem [.lst [.atom 1], .lst [.atom 2]]) := rfl

/-- C02, C03: between two agent dictionaries a successful cast keeps the agents, in
order, and casts each agent's value. -/
theorem C02_dict_pointwise (t : HT) (kvs : List (String × Val)) (w : Val)
    (h : cast (.one .strDict .strDict t) (.dict kvs) = .ok w) :
    ∃ kws, w = .dict kws ∧ kws.map Prod.fst = kvs.map Prod.fst ∧
      ∀ (i : Nat) (hx : i < kvs.length) (hy : i < kws.length), cast t kvs[i].2 = .ok kws[i].2 := by
  cases hn : castNeeded (.one .strDict .strDict t) with
  | false =>
    rw [cast_of_not_needed hn] at h
    have hnt : castNeeded t = false := by simpa [castNeeded] using hn
    cases h
    exact ⟨kvs, rfl, rfl, fun i _ _ => cast_of_not_needed hnt _⟩
  | true =>
    simp only [cast, hn, if_true] at h
    cases hm : mapE (fun kv : String × Val => (cast t kv.2).map fun w => (kv.1, w)) kvs with
    | error e => simp [hm] at h
    | ok kws =>
      simp only [hm, emap_ok, Except.ok.injEq] at h
      obtain ⟨hl, hp⟩ := mapE_ok hm
      have hp' : ∀ (i : Nat) (hx : i < kvs.length) (hy : i < kws.length),
          kws[i].1 = kvs[i].1 ∧ cast t kvs[i].2 = .ok kws[i].2 := by
        intro i hx hy
        have := hp i hx hy
        cases hc : cast t kvs[i].2 with
        | error e => simp [hc] at this
        | ok w => simp only [hc, emap_ok, Except.ok.injEq] at this; simp [← this]
      refine ⟨kws, h.symm, ?_, fun i hx hy => (hp' i hx hy).2⟩
      apply List.ext_getElem
      · simp [hl]
      · intro i h1 h2
        simp only [List.getElem_map]
        exact (hp' i (by simpa using h2) (by simpa using h1)).1

/-- C02, C04: container casts fail only when the cast of an element fails: if every element can
be cast, so can a memory, a list, an agent dictionary and a non-empty distribution of them. -/
theorem C02_container_cast_succeeds (t : HT) (n : String) :
    (∀ xs, (∀ x ∈ xs, ∃ y, cast t x = .ok y) →
      (∃ w, cast (.one .memory .memory t) (.mem xs) = .ok w) ∧
      (∃ w, cast (.one .list .list t) (.lst xs) = .ok w)) ∧
    (∀ kvs : List (String × Val), (∀ kv ∈ kvs, ∃ y, cast t kv.2 = .ok y) →
      ∃ w, cast (.one .strDict .strDict t) (.dict kvs) = .ok w) ∧
    (∀ kvs : List (Val × Int), kvs ≠ [] → (∀ kv ∈ kvs, ∃ y, cast t kv.1 = .ok y) →
      ∃ w, cast (.one (.other n) (.other n) t) (.dist kvs) = .ok w) := by
  refine ⟨fun xs h => ?_, fun kvs h => ?_, fun kvs hne h => ?_⟩
  · obtain ⟨ys, hys, -⟩ := mapE_of_forall (fun _ _ => True) fun x hx =>
      (h x hx).imp fun y hy => ⟨hy, trivial⟩
    constructor <;> simp only [cast] <;> split <;> simp [hys]
  · obtain ⟨ys, hys, -⟩ := mapE_of_forall (f := fun kv : String × Val => (cast t kv.2).map fun w => (kv.1, w))
      (fun _ _ => True) fun x hx => by
        obtain ⟨y, hy⟩ := h x hx
        exact ⟨(x.1, y), by simp [hy], trivial⟩
    simp only [cast]
    split
    · exact ⟨_, by rw [hys]; rfl⟩
    · exact ⟨_, rfl⟩
  · obtain ⟨ys, hys, -⟩ := mapE_of_forall (f := fun kv : Val × Int => (cast t kv.1).map fun w => (w, kv.2))
      (fun _ _ => True) fun x hx => by
        obtain ⟨y, hy⟩ := h x hx
        exact ⟨(y, x.2), by simp [hy], trivial⟩
    cases kvs with
    | nil => exact absurd rfl hne
    | cons a l =>
      simp only [cast]
      split
      · exact ⟨_, by rw [hys]; rfl⟩
      · exact ⟨_, rfl⟩

/-- C02 fails as stated for memories: casting a memory to a plain value does *not*
return the most recent element (core.py 561 takes index 0, the oldest, whereas
`rollout`, utils.py 155, treats the last element as current). -/
theorem C02_memory_to_plain_not_latest :
    ∃ (xs : List Val) (x : Val), xs.getLast? = some x ∧
      cast (.one .memory .union (.leaf (.other "T_state") (.other "T_state"))) (.mem xs) ≠ .ok x := by
  refine ⟨[.atom 1, .atom 2], .atom 2, rfl, ?_⟩
  simp [cast, castNeeded, inCastDict]

/-- C02, what does hold: a memory, list or agent dictionary holding one element is cast to the
cast of that element, and an empty one raises.  Missing: longer memories, where the code returns
the oldest. -/
theorem C02_memory_to_plain_partial (t : HT) (x : Val) (k : String) :
    cast (.one .memory .union t) (.mem [x]) = cast t x ∧
    cast (.one .list .union t) (.lst [x]) = cast t x ∧
    cast (.one .strDict .union t) (.dict [(k, x)]) = cast t x ∧
    cast (.one .memory .union t) (.mem []) = .error .indexError ∧
    cast (.one .list .union t) (.lst []) = .error .indexError ∧
    cast (.one .strDict .union t) (.dict []) = .error .stopIteration := by
  simp [cast, castNeeded, inCastDict]

example : cast (.one .memory .union (.one .union .list (.leaf (.other "S") (.other "S"))))
    (.mem [.atom 4]) = .ok (.lst [.atom 4]) := rfl

/-! ## C03 -/

/-- The agents present in a per-agent slot (`none` for a plain object). -/
def agents : PerAgent α → Option (List String)
  | .plain _ => none
  | .dict kvs => some (kvs.map Prod.fst)

/-- The objects in a per-agent slot. -/
def contents : PerAgent α → List α
  | .plain a => [a]
  | .dict kvs => kvs.map Prod.snd

/-- C03: observation and termination are stored as given.  A value that is not supplied has
exactly the agents of the observation and is zero for each of them, whether or not info is
supplied; info that is not supplied has the same agents and is `None` for each of them, whether
or not a value is supplied. -/
theorem C03_defaults_same_agents (obs : PerAgent ω) (v : Option (PerAgent TransitionValue)) (term : Bool)
    (i : Option (PerAgent (Option ι))) :
    (mkOutcome obs v term i).observation = obs ∧ (mkOutcome obs v term i).termination = term ∧
    (v = none → agents (mkOutcome obs v term i).value = agents obs ∧
      ∀ z ∈ contents (mkOutcome obs v term i).value, z.reward = 0 ∧ z.cost = 0) ∧
    (i = none → agents (mkOutcome obs v term i).info = agents obs ∧
      ∀ z ∈ contents (mkOutcome obs v term i).info, z = none) := by
  refine ⟨rfl, rfl, ?_, ?_⟩
  · rintro rfl
    cases obs <;> simp [mkOutcome, agents, contents, mkTransitionValue, Function.comp_def]
  · rintro rfl
    cases obs <;> simp [mkOutcome, agents, contents, Function.comp_def]

/-- C03: a supplied value is never replaced, nor is supplied info, whatever else is supplied. -/
theorem C03_supplied_kept (obs : PerAgent ω) (term : Bool) :
    (∀ (v : PerAgent TransitionValue) (i : Option (PerAgent (Option ι))),
      (mkOutcome obs (some v) term i).value = v) ∧
    (∀ (v : Option (PerAgent TransitionValue)) (i : PerAgent (Option ι)),
      (mkOutcome obs v term (some i)).info = i) := ⟨fun _ _ => rfl, fun _ _ => rfl⟩

example : agents (mkOutcome (ι := Nat) (.dict [("a", 1), ("b", 2)]) none true none).value
    = some ["a", "b"] := rfl

/-- C03: casting an outcome never changes its termination flag, and the three other
fields are cast with their own hint. -/
theorem C03_cast_keeps_termination (s : Ty) (n : String) (hs : s = .other n) (a b c : HT)
    (o x i : Val) (term : Bool) (w : Val)
    (h : cast (.three s s a b c) (.outcome o x term i) = .ok w) :
    ∃ o' x' i', w = .outcome o' x' term i' ∧ cast a o = .ok o' ∧ cast b x = .ok x' ∧
      cast c i = .ok i' := by
  subst hs
  cases hn : castNeeded (.three (.other n) (.other n) a b c) with
  | false =>
    rw [cast_of_not_needed hn] at h
    simp only [castNeeded, bne_self_eq_false, Bool.false_and, Bool.false_or,
      Bool.or_eq_false_iff] at hn
    cases h
    exact ⟨o, x, i, rfl, cast_of_not_needed hn.1.1 _, cast_of_not_needed hn.1.2 _,
      cast_of_not_needed hn.2 _⟩
  | true =>
    simp only [cast, hn, if_true, inCastDict, Bool.false_eq_true, if_false] at h
    split at h
    · simp at h
    · rename_i o' ho
      split at h
      · simp at h
      · rename_i x' hx
        split at h
        · simp at h
        · rename_i i' hi
          cases h
          exact ⟨o', x', i', rfl, ho, hx, hi⟩

example :
    let u := HT.one .union .strDict (.leaf (.other "x") (.other "x"))
    cast (.three (.other "EnvironmentOutcome") (.other "EnvironmentOutcome") u u u)
      (.outcome (.atom 1) (.atom 2) true .none)
    = .ok (.outcome (.dict [("agent", .atom 1)]) (.dict [("agent", .atom 2)]) true
        (.dict [("agent", .none)])) := rfl

/-! ## C04 -/

/-- C04: a cast of a discrete distribution keeps the probabilities position by
position (hence the total mass) and casts every element. -/
theorem C04_cast_keeps_probabilities (n : String) (t : HT) (kvs : List (Val × Int)) (w : Val)
    (h : cast (.one (.other n) (.other n) t) (.dist kvs) = .ok w) :
    ∃ kws, w = .dist kws ∧ kws.map Prod.snd = kvs.map Prod.snd ∧
      (kws.map Prod.snd).sum = (kvs.map Prod.snd).sum ∧
      ∀ (i : Nat) (hx : i < kvs.length) (hy : i < kws.length), cast t kvs[i].1 = .ok kws[i].1 := by
  cases hn : castNeeded (.one (.other n) (.other n) t) with
  | false =>
    rw [cast_of_not_needed hn] at h
    have hnt : castNeeded t = false := by simpa [castNeeded] using hn
    cases h
    exact ⟨kvs, rfl, rfl, rfl, fun i _ _ => cast_of_not_needed hnt _⟩
  | true =>
    cases kvs with
    | nil => simp [cast, hn] at h
    | cons a l =>
      simp only [cast, hn, if_true] at h
      generalize hkvs : a :: l = kvs at h ⊢
      cases hm : mapE (fun kv : Val × Int => (cast t kv.1).map fun w => (w, kv.2)) kvs with
      | error e => simp [hm] at h
      | ok kws =>
        simp only [hm, emap_ok, Except.ok.injEq] at h
        obtain ⟨hl, hp⟩ := mapE_ok hm
        have hp' : ∀ (i : Nat) (hx : i < kvs.length) (hy : i < kws.length),
            kws[i].2 = kvs[i].2 ∧ cast t kvs[i].1 = .ok kws[i].1 := by
          intro i hx hy
          have := hp i hx hy
          cases hc : cast t kvs[i].1 with
          | error e => simp [hc] at this
          | ok w => simp only [hc, emap_ok, Except.ok.injEq] at this; simp [← this]
        have hsnd : kws.map Prod.snd = kvs.map Prod.snd := by
          apply List.ext_getElem
          · simp [hl]
          · intro i h1 h2
            simp only [List.getElem_map]
            exact (hp' i (by simpa using h2) (by simpa using h1)).1
        exact ⟨kws, h.symm, hsnd, by rw [hsnd], fun i hx hy => (hp' i hx hy).2⟩

/-- C04: a cast of a distribution with a single value is the distribution with that value cast. -/
theorem C04_cast_single (n : String) (t : HT) (x : Val) :
    cast (.one (.other n) (.other n) t) (.single x) = (cast t x).map .single := by
  cases hn : castNeeded (.one (.other n) (.other n) t) with
  | false =>
    have hnt : castNeeded t = false := by simpa [castNeeded] using hn
    rw [cast_of_not_needed hn, cast_of_not_needed hnt]
    rfl
  | true => simp [cast, hn]

example : cast (.one (.other "D") (.other "D") (.one .union .list (.leaf (.other "S") (.other "S"))))
    (.single (.atom 4)) = .ok (.single (.lst [.atom 4])) := rfl

/-- C04: with weights that are not negative, an element of weight `w` is drawn for exactly the
`w` draws that follow the total weight listed before it. -/
theorem C04_sample_interval (pre post : List (α × Int)) (x : α) (w u : Int)
    (hw : ∀ p ∈ pre ++ (x, w) :: post, 0 ≤ p.2) (h0 : (pre.map (·.2)).sum ≤ u)
    (h1 : u < (pre.map (·.2)).sum + w) : discreteSample (pre ++ (x, w) :: post) u = .ok x := by
  have hsum : ∀ l : List (α × Int), (∀ p ∈ l, 0 ≤ p.2) → 0 ≤ (l.map (·.2)).sum := by
    intro l hl
    induction l with
    | nil => simp
    | cons p l ih =>
      have := hl p (by simp)
      have := ih fun q hq => hl q (by simp [hq])
      simp only [List.map_cons, List.sum_cons]
      omega
  have key : ∀ (pre : List (α × Int)) (acc : Int), (∀ p ∈ pre, 0 ≤ p.2) → acc + (pre.map (·.2)).sum ≤ u →
      u < acc + (pre.map (·.2)).sum + w → chooseAux (pre ++ (x, w) :: post) acc u = some x := by
    intro pre
    induction pre with
    | nil =>
      intro acc _ _ h1
      simp only [List.map_nil, List.sum_nil] at h1
      cases post with
      | nil => rfl
      | cons q l =>
        simp only [List.nil_append, chooseAux]
        rw [if_pos (by omega)]
    | cons p pre ih =>
      intro acc hp h0 h1
      simp only [List.map_cons, List.sum_cons] at h0 h1
      have hn := hsum pre fun q hq => hp q (by simp [hq])
      have hstep : chooseAux (p :: pre ++ (x, w) :: post) acc u =
          if u < acc + p.2 then some p.1 else chooseAux (pre ++ (x, w) :: post) (acc + p.2) u := by
        obtain ⟨a, b⟩ := p
        cases pre <;> rfl
      rw [hstep, if_neg (by omega)]
      exact ih _ (fun q hq => hp q (by simp [hq])) (by omega) (by omega)
  have hpre := hsum pre fun p hp => hw p (by simp [hp])
  have hpost := hsum post fun p hp => hw p (by simp [hp])
  have h := key pre 0 (fun p hp => hw p (by simp [hp])) (by omega) (by omega)
  have htot : ¬ ((pre ++ (x, w) :: post).map (·.2)).sum ≤ 0 := by
    simp only [List.map_append, List.sum_append, List.map_cons, List.sum_cons]
    omega
  unfold discreteSample
  split
  · simp_all
  · rw [if_neg htot, h]

/-- C04: with non-negative weights of positive total and any draw in range, sampling
succeeds and returns an element listed with a strictly positive probability. -/
theorem C04_sample_in_support (values : List (α × Int)) (u : Int)
    (hw : ∀ p ∈ values, 0 ≤ p.2) (h0 : 0 ≤ u) (hu : u < (values.map (·.2)).sum) :
    ∃ x w, discreteSample values u = .ok x ∧ (x, w) ∈ values ∧ 0 < w := by
  cases values with
  | nil => simp at hu; omega
  | cons p l =>
    obtain ⟨x, hx⟩ := chooseAux_isSome (l := p :: l) (by simp) 0 u
    obtain ⟨w, hm, hpos⟩ := chooseAux_pos hw h0 (by simpa using hu) hx
    refine ⟨x, w, ?_, hm, hpos⟩
    have : ¬ ((p :: l).map (·.2)).sum ≤ 0 := by omega
    simp only [discreteSample, hx, if_neg this]

/-- C04: whatever the weights and the draw, a sample that is returned is listed; an
empty distribution raises. -/
theorem C04_sample_never_invents (values : List (α × Int)) (u : Int) :
    (∀ x, discreteSample values u = .ok x → ∃ w, (x, w) ∈ values) ∧
    (values = [] → discreteSample values u = .error .indexError) := by
  constructor
  · intro x h
    cases values with
    | nil => simp [discreteSample] at h
    | cons p l =>
      simp only [discreteSample] at h
      split at h
      · simp at h
      · split at h
        · rename_i hx; simp at h; subst h; exact chooseAux_mem hx
        · simp at h
  · rintro rfl; rfl

/-- The middle element is drawn for draws 2,3,4 of total 6, the zero-weight one never. -/
example : discreteSample [("a", 2), ("z", 0), ("b", 3), ("c", 1)] 2 = .ok "b" ∧
    discreteSample [("a", 2), ("z", 0), ("b", 3), ("c", 1)] 1 = .ok "a" := by decide

/-! ## C43 -/

/-- C43: a bound constraint always answers, and answers yes exactly when the evaluated quantity
stands in the declared inequality to the bound, for each of the four accepted strings. -/
theorem C43_bound_constraint (eval : μ → ε → Option σ → Int) (bound : Int) (m : μ) (a : ε)
    (s : Option σ) :
    (boundCheck eval "<" bound m a s = .ok (decide (eval m a s < bound))) ∧
    (boundCheck eval "<=" bound m a s = .ok (decide (eval m a s ≤ bound))) ∧
    (boundCheck eval ">" bound m a s = .ok (decide (bound < eval m a s))) ∧
    (boundCheck eval ">=" bound m a s = .ok (decide (bound ≤ eval m a s))) := by
  simp [boundCheck, parseIneq, Ineq.check]

/-- C43: any other inequality string is rejected at construction. -/
theorem C43_bad_inequality_rejected (eval : μ → ε → Option σ → Int) (q : String) (bound : Int)
    (m : μ) (a : ε) (s : Option σ) (hq : q ∉ ["<", "<=", ">", ">="]) :
    boundCheck eval q bound m a s = .error .assertionError := by
  simp only [List.mem_cons, List.not_mem_nil, or_false, not_or] at hq
  simp [boundCheck, parseIneq, hq]

/-- C43: the strict and non-strict variants differ exactly at the bound. -/
theorem C43_strict_differs_at_bound (eval : μ → ε → Option σ → Int) (bound : Int) (m : μ) (a : ε)
    (s : Option σ) :
    (boundCheck eval "<" bound m a s ≠ boundCheck eval "<=" bound m a s ↔ eval m a s = bound) ∧
    (boundCheck eval ">" bound m a s ≠ boundCheck eval ">=" bound m a s ↔ eval m a s = bound) := by
  simp only [boundCheck, parseIneq, Ineq.check]
  constructor <;>
  · simp only [if_true, String.reduceEq, if_false, ne_eq, Except.ok.injEq,
      decide_eq_decide]
    omega

/-- C43: a cast bound constraint accepts a transition exactly when the original accepts
the transition obtained by casting the arguments back. -/
theorem C43_cast_constraint (eval : μ → ε → Option σ → Int) (cm : μ' → μ) (ca : ε' → ε)
    (cs : Option σ' → Option σ) (q : String) (bound : Int) (m : μ') (a : ε') (s : Option σ') :
    boundCheck (castEval eval cm ca cs) q bound m a s = boundCheck eval q bound (cm m) (ca a) (cs s) :=
  rfl

example : boundCheck (fun (m : Int) (_ : Unit) (_ : Option Unit) => m) ">=" 5 5 () none = .ok true ∧
    boundCheck (fun (m : Int) (_ : Unit) (_ : Option Unit) => m) ">" 5 5 () none = .ok false := by
  decide

end Verif.Core
