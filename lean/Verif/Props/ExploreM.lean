import Verif.Lemmas.ExploreM
import Mathlib.Data.List.Perm.Subperm
/-!
C115: exploring an uncertain domain finds its states, but records a tree, not its transitions.

`MReach d init s` (Lemmas/ExploreM.lean): `s` is met with some probability from `init`, going on from states that are neither goals
nor terminal; `TReach` the same, going on from states that are not terminal.  `Rec m s a n x`: the map records the transition from
`s` by `a` to `n` with `x` = (probability, cost).
-/
namespace Verif.Explore

variable {σ α : Type} [DecidableEq σ] [DecidableEq α]

/-- With the limit on nodes left out (the default) exploring raises `TypeError`, unless the start is a goal or terminal. -/
theorem C115_defaults (d : MDom σ α) (e p : Option Nat) (pick : List σ → Nat) (fuel : Nat) (init : σ) :
    mexplore d ⟨e, none, p⟩ pick (fuel + 2) init =
      if d.goal init || d.terminal init then .ok (some { mfirst d init with heap := [] }) else .error .typeError := by
  have hi : (mfirst d init).heap[pick (mfirst d init).heap % (mfirst d init).heap.length]? = some init := by
    simp [mfirst, Nat.mod_one]
  have he : (mfirst d init).heap.eraseIdx (pick (mfirst d init).heap % (mfirst d init).heap.length) = [] := by
    simp [mfirst, Nat.mod_one]
  obtain ⟨I1, hs, hh, _⟩ := pop_inv (mfirst_inv d init) hi
  unfold mexplore
  rw [mloop_unfold rfl hi, he]
  rw [he] at I1 hh
  by_cases h : (d.goal init || d.terminal init) = true
  · rw [if_pos h, if_pos h]
    unfold mloop
    rw [if_pos rfl]
  · rw [if_neg h, if_neg h]
    simp only [Bool.or_eq_true, not_or, Bool.not_eq_true] at h
    obtain ⟨st3, h3, _⟩ := expand_fold h.1 h.2 (d.acts init) I1 hs hh (fun _ h => h)
    have h3' : expand d init { mfirst d init with heap := [] } = .ok st3 := h3
    rw [h3']; rfl

/-- With both limits given, exploring raises nothing of its own. -/
theorem C115_safe (d : MDom σ α) (e n : Nat) (p : Option Nat) (pick : List σ → Nat) (fuel : Nat) (init : σ) :
    ∃ r, mexplore d ⟨some e, some n, p⟩ pick fuel init = .ok r := mloop_safe fuel (mfirst_inv d init)

/-- Whatever the limits and the scores: the states found are distinct and reachable, the start among them, each with whether it is
terminal and a goal; every recorded transition is one of the domain, with its probability and its cost. -/
theorem C115_sound {d : MDom σ α} {l : Limits} {pick : List σ → Nat} {fuel : Nat} {init : σ} {st : MSt σ α}
    (h : mexplore d l pick fuel init = .ok (some st)) :
    st.seen.Nodup ∧ init ∈ st.seen ∧ (∀ s ∈ st.seen, MReach d init s) ∧
    (∀ s, st.terminal.get? s = if s ∈ st.seen then some (d.terminal s) else none) ∧
    (∀ s, st.goal.get? s = if s ∈ st.seen then some (d.goal s) else none) ∧
    (∀ s a n x, Rec st.map s a n x → s ∈ st.seen ∧ d.goal s = false ∧ d.terminal s = false ∧ a ∈ d.acts s ∧ (n, x.1) ∈ d.dist s a ∧
      x.1 ≠ 0 ∧ x.2 = d.cost s a n ∧ n ∈ st.seen) := by
  obtain ⟨I, _⟩ := mloop_inv fuel (mfirst_inv d init) h
  refine ⟨I.nodup, I.start, I.reach, I.term, I.goal, fun s a n x hr => ?_⟩
  obtain ⟨h1, h2, h3, h4, h5, h6, h7, h8, _⟩ := I.true_ s a n x hr
  exact ⟨h1, h2, h3, h4, h5, h6, h7, h8⟩

/-- Unless a limit is exceeded all the reachable states are found, and every action with successors is recorded for each of
those that are neither goals nor terminal. -/
theorem C115_complete {d : MDom σ α} {e n : Nat} {p : Option Nat} {pick : List σ → Nat} {fuel : Nat} {init : σ} {st : MSt σ α}
    (h : mexplore d ⟨some e, some n, p⟩ pick fuel init = .ok (some st)) (hn : st.seen.length ≤ n) (he : st.seen.length ≤ e + 1) :
    (∀ s, s ∈ st.seen ↔ MReach d init s) ∧
    ∀ s, MReach d init s → d.goal s = false → d.terminal s = false → ∀ a, a ∈ (mresult st).acts s ↔ a ∈ d.acts s ∧ d.dist s a ≠ [] := by
  obtain ⟨I, hh⟩ := mloop_inv fuel (mfirst_inv d init) h
  have hh : st.heap = [] := by
    rcases hh with h1 | h1
    · exact h1
    · rw [mstop_total] at h1
      simp only [Except.ok.injEq, decide_eq_true_iff] at h1
      have := I.states
      have := I.edges
      omega
  have hc := minv_complete I hh
  refine ⟨fun s => ⟨I.reach s, hc s⟩, fun s hr hg ht a => ?_⟩
  have hk : a ∈ (mresult st).acts s ↔ (entry st.map s a).isSome := by
    unfold MGraph.acts mresult entry
    simp only
    rw [← Dict.get?_isSome_iff_mem_keys]
    cases st.map.get? s <;> simp
  rw [hk]
  constructor
  · intro h'
    obtain ⟨f, hf⟩ := Option.isSome_iff_exists.1 h'
    have := I.acts s a f hf
    exact ⟨this.1, this.2.1⟩
  · rintro ⟨ha, hd⟩
    rcases I.full s (hc s hr) with h1 | h1 | h1 | h1 | h1
    · rw [hh] at h1; cases h1
    · cases h1
    · rw [hg] at h1; cases h1
    · rw [ht] at h1; cases h1
    · obtain ⟨q, hq⟩ := List.exists_mem_of_ne_nil _ hd
      exact (h1 a ha q hq).1

/-- Unless a limit is exceeded, a state of the result is terminal exactly when it is terminal or a goal in the domain or none of its actions has
successors; asking about any other state raises `KeyError`. -/
theorem C115_terminal {d : MDom σ α} {e n : Nat} {p : Option Nat} {pick : List σ → Nat} {fuel : Nat} {init : σ} {st : MSt σ α}
    (h : mexplore d ⟨some e, some n, p⟩ pick fuel init = .ok (some st)) (hn : st.seen.length ≤ n) (he : st.seen.length ≤ e + 1) (s : σ) :
    (MReach d init s → ∃ b, (mresult st).isTerminal s = .ok b ∧
      (b = true ↔ d.terminal s = true ∨ d.goal s = true ∨ ∀ a ∈ d.acts s, d.dist s a = [])) ∧
    (¬ MReach d init s → (mresult st).isTerminal s = .error .keyError) := by
  obtain ⟨hseen, hacts⟩ := C115_complete h hn he
  obtain ⟨I, -⟩ := mloop_inv fuel (mfirst_inv d init) h
  have ht := I.term s
  constructor
  · intro hr
    rw [if_pos ((hseen s).2 hr)] at ht
    refine ⟨d.terminal s || decide (((mresult st).acts s).length = 0), ?_, ?_⟩
    · unfold MGraph.isTerminal mresult
      rw [Dict.get, ht, bind_ok]
    · rw [Bool.or_eq_true, decide_eq_true_iff, List.length_eq_zero_iff]
      refine or_congr_right' fun hnt => ?_
      have hnt : d.terminal s = false := by simpa using hnt
      by_cases hg : d.goal s = true
      · refine ⟨fun _ => .inl hg, fun _ => List.eq_nil_iff_forall_not_mem.2 fun a ha => ?_⟩
        unfold MGraph.acts mresult at ha
        cases hm : st.map.get? s with
        | none => simp [hm, Dict.keys] at ha
        | some x =>
          simp only [hm, Option.getD_some] at ha
          rw [← Dict.get?_isSome_iff_mem_keys] at ha
          obtain ⟨f, hf⟩ := Option.isSome_iff_exists.1 ha
          have := (I.acts s a f (by simp [entry, hm, hf])).2.2.2.2.1
          rw [hg] at this; cases this
      · have hg : d.goal s = false := by simpa using hg
        have hk := hacts s hr hg hnt
        constructor
        · intro h0
          refine .inr fun a ha => ?_
          by_cases hd : d.dist s a = []
          · exact hd
          · have := (hk a).2 ⟨ha, hd⟩
            rw [h0] at this; cases this
        · rintro (h1 | h1)
          · rw [hg] at h1; cases h1
          · refine List.eq_nil_iff_forall_not_mem.2 fun a ha => ?_
            obtain ⟨h2, h3⟩ := (hk a).1 ha
            exact h3 (h1 a h2)
  · intro hr
    rw [if_neg (fun h' => hr ((hseen s).1 h'))] at ht
    unfold MGraph.isTerminal mresult
    rw [Dict.get, ht, bind_error]

/-- If finitely many states are reachable, exploring comes to an end. -/
theorem C115_finite {d : MDom σ α} {e n : Nat} {p : Option Nat} {pick : List σ → Nat} {init : σ} {L : List σ} (hN : L.Nodup)
    (hL : ∀ s, MReach d init s → s ∈ L) {fuel : Nat} (hf : L.length < fuel) :
    ∃ st, mexplore d ⟨some e, some n, p⟩ pick fuel init = .ok (some st) := by
  obtain ⟨r, hr⟩ := C115_safe d e n p pick fuel init
  cases r with
  | some st => exact ⟨st, hr⟩
  | none =>
    exfalso
    refine mloop_ends hL fuel (mfirst_inv d init) ?_ hr
    unfold mleft
    have hi := hL init .init
    have h1 : (fun s => decide (s ∉ (mfirst d init).seen)) = fun s => !(s == init) := by
      funext s; simp [mfirst]; rfl
    rw [h1]
    have h2 : (L.filter fun s => !(s == init)) = L.erase init := by
      rw [List.Nodup.erase_eq_filter hN]; rfl
    rw [h2, List.length_erase_of_mem hi]
    have : 0 < L.length := List.length_pos_of_mem hi
    simp [mfirst]; omega

/-- What is recorded is a tree: every state found other than the start is led to by exactly one recorded transition, the start by
none, and no state by itself. -/
theorem C115_tree {d : MDom σ α} {l : Limits} {pick : List σ → Nat} {fuel : Nat} {init : σ} {st : MSt σ α}
    (h : mexplore d l pick fuel init = .ok (some st)) :
    (∀ n ∈ st.seen, n ≠ init → ∃ s a x, Rec st.map s a n x) ∧
    (∀ n s a x s' a' x', Rec st.map s a n x → Rec st.map s' a' n x' → s = s' ∧ a = a' ∧ x = x') ∧
    (∀ s a x, ¬ Rec st.map s a init x) ∧ (∀ s a x, ¬ Rec st.map s a s x) ∧ st.edges + 1 = st.seen.length := by
  obtain ⟨I, _⟩ := mloop_inv fuel (mfirst_inv d init) h
  refine ⟨I.parent, I.unique, fun s a x hr => ?_, fun s a x hr => ?_, I.edges⟩
  · exact (I.true_ s a init x hr).2.2.2.2.2.2.2.2.1 rfl
  · exact (I.true_ s a s x hr).2.2.2.2.2.2.2.2.2 rfl

/-- So if an action may lead back to where it is taken or to the start, that transition is lost, and asking for its cost raises
`KeyError`. -/
theorem C115_back_lost {d : MDom σ α} {l : Limits} {pick : List σ → Nat} {fuel : Nat} {init : σ} {st : MSt σ α}
    (h : mexplore d l pick fuel init = .ok (some st)) (s : σ) (a : α) :
    (mresult st).cost s a s = .error .keyError ∧ (mresult st).cost s a init = .error .keyError := by
  obtain ⟨_, _, h3, h4, _⟩ := C115_tree h
  have key : ∀ n, (∀ x, ¬ Rec st.map s a n x) → (mresult st).cost s a n = .error .keyError := by
    intro n hn
    unfold MGraph.cost mresult Dict.get
    simp only
    cases h1 : st.map.get? s with
    | none => rfl
    | some e =>
      simp only [bind_ok]
      cases h2 : e.get? a with
      | none => rfl
      | some f =>
        simp only [bind_ok]
        cases h3 : f.get? n with
        | none => rfl
        | some x => exact absurd ⟨f, by simp [entry, h1, h2], h3⟩ (hn x)
  exact ⟨key s (h4 s a), key init (h3 s a)⟩

omit [DecidableEq α] in
/-- `reachable_states`: exactly the states met going on from states that are not terminal, goals or not. -/
theorem C115_reachable {d : MDom σ α} {fuel : Nat} {init : σ} {out : List σ} (h : reachable d fuel init = some out) :
    out.Nodup ∧ ∀ s, s ∈ out ↔ TReach d init s := by
  have I := reachLoop_inv fuel (reach_first d init) h
  refine ⟨I.nodup, fun s => ⟨I.reach s, fun hr => ?_⟩⟩
  induction hr with
  | init => exact I.start
  | step hr ht ha hq hp ih =>
    rcases I.full _ ih with h1 | h1 | h1 | h1
    · cases h1
    · cases h1
    · rw [ht] at h1; cases h1
    · exact h1 _ ha _ hq hp

omit [DecidableEq α] in
/-- It ends when there are finitely many. -/
theorem C115_reachable_finite {d : MDom σ α} {init : σ} {L : List σ} (hN : L.Nodup) (hL : ∀ s, TReach d init s → s ∈ L) {fuel : Nat}
    (hf : L.length < fuel) : ∃ out, reachable d fuel init = some out := by
  rw [← Option.ne_none_iff_exists']
  refine reachLoop_ends hL fuel (reach_first d init) ?_
  unfold rleft
  have hi := hL init .init
  have h1 : (fun s => decide (s ∉ [init])) = fun s => !(s == init) := by
    funext s; simp; rfl
  simp only [h1]
  have h2 : (L.filter fun s => !(s == init)) = L.erase init := by
    rw [List.Nodup.erase_eq_filter hN]; rfl
  rw [h2, List.length_erase_of_mem hi]
  have : 0 < L.length := List.length_pos_of_mem hi
  simp; omega

/-! ### Examples -/

/-- Trying to get on: half the time one stays; from the second state one may give up and go back to the start; the third is a goal. -/
def try3 : MDom Nat Nat where
  acts s := if s = 0 then [0] else if s = 1 then [0, 1] else []
  dist s a := if a = 0 then [(s + 1, 1/2), (s, 1/2)] else [(0, 1)]
  cost _ a _ := (a : Int) + 1
  goal s := decide (s = 2)
  terminal s := decide (s = 2)

def tried : MSt Nat Nat := ⟨[(0, [(0, [(1, (1/2, 1))])]), (1, [(0, [(2, (1/2, 1))]), (1, [])])],
  [(0, false), (1, false), (2, true)], [(0, false), (1, false), (2, true)], [], [2, 1, 0], 3, 2⟩

set_option synthInstance.maxSize 1000 in
instance : DecidableEq (MSt Nat Nat) := fun x y =>
  decidable_of_iff (x.map = y.map ∧ x.terminal = y.terminal ∧ x.goal = y.goal ∧ x.heap = y.heap ∧ x.seen = y.seen ∧ x.states = y.states ∧
    x.edges = y.edges) (by cases x; cases y; simp)

theorem try3_run : mexplore try3 ⟨some 100, some 100, none⟩ (fun _ => 0) 10 0 = .ok (some tried) := by decide +kernel

example : ∃ st, mexplore try3 ⟨some 100, some 100, none⟩ (fun _ => 0) 10 0 = .ok (some st) ∧ st.seen.length ≤ 100 ∧ st.seen.length ≤ 100 + 1 :=
  ⟨_, try3_run, by decide, by decide⟩

example : Rec tried.map 1 0 2 (1/2, 1) := ⟨_, rfl, by decide +kernel⟩

/-- No limit is met, but the probabilities recorded for the only action of the start do not add up to one, the action back from the second
state leads nowhere, and drawing its outcome raises `IndexError` although the state is not terminal. -/
theorem C115_transitions_refuted : ∃ st, mexplore try3 ⟨some 100, some 100, none⟩ (fun _ => 0) 10 0 = .ok (some st) ∧
    ((try3.dist 0 0).map Prod.snd).sum = 1 ∧ entry st.map 0 0 = some [(1, (1/2, 1))] ∧
    1 ∈ (mresult st).acts 1 ∧ (mresult st).isTerminal 1 = .ok false ∧ ∀ pos, (mresult st).draw 1 1 pos = .error .indexError := by
  refine ⟨_, try3_run, by decide +kernel, by rfl, by decide, by decide, fun pos => ?_⟩
  show pyGet [] pos = _
  simp [pyGet]

example : reachable try3 10 0 = some [2, 1, 0] := by decide +kernel

/-- A goal that is not terminal: `reachable_states` goes on from it, the explorer does not. -/
def past : MDom Nat Unit where
  acts _ := [()]
  dist s _ := [(s + 1, 1)]
  cost _ _ _ := 1
  goal s := decide (s = 1)
  terminal s := decide (s = 3)

theorem C115_goals_differ : reachable past 10 0 = some [3, 2, 1, 0] ∧
    (∀ pick, ∃ st, mexplore past ⟨some 100, some 100, none⟩ pick 10 0 = .ok (some st) ∧ st.seen.length = 2) := by
  refine ⟨by decide +kernel, fun pick => ?_⟩
  have hL : ∀ s, MReach past 0 s → s ∈ [0, 1] := by
    intro s h
    induction h with
    | init => simp
    | @step s s' a p _ hg ht _ hq _ ih =>
      simp only [past, List.mem_singleton, Prod.mk.injEq] at hq
      simp only [past, decide_eq_false_iff_not] at hg
      simp at ih
      rcases ih with rfl | rfl
      · simp [hq.1]
      · exact absurd rfl hg
  obtain ⟨st, hst⟩ := C115_finite (e := 100) (n := 100) (p := none) (pick := pick) (by decide : [0, 1].Nodup) hL (show 2 < 10 by omega)
  refine ⟨st, hst, ?_⟩
  obtain ⟨hN, _, hR, _⟩ := C115_sound hst
  have hsub : st.seen.length ≤ 2 := (List.Nodup.subperm hN (fun s hs => hL s (hR s hs))).length_le
  obtain ⟨hc, _⟩ := C115_complete hst (by omega) (by omega)
  have h0 : 0 ∈ st.seen := (hc 0).2 .init
  have h1 : 1 ∈ st.seen := (hc 1).2 (.step (s := 0) (a := ()) (p := 1) .init rfl rfl (by simp [past]) (by simp [past]) (by decide))
  have : [0, 1].length ≤ st.seen.length := (List.Nodup.subperm (by decide) (by
    intro x hx
    simp at hx
    rcases hx with rfl | rfl
    · exact h0
    · exact h1)).length_le
  simp at this
  omega

end Verif.Explore
