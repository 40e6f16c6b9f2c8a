import Verif.Model.Defaults
import Mathlib.Data.List.Dedup
import Mathlib.Data.List.Nodup
import Mathlib.Data.List.Perm.Subperm

/-! Claims C100 and C101: tests of actions and goals, and cached characteristics of domains. -/

namespace Verif.Defaults
open Verif.Domain

variable {σ α κ ν : Type}

/-! ## C100 -/

/-- The elements of a space. -/
def Space.Has : Space α → α → Prop
  | .implicit p, x => p x = true
  | .enum xs, x => x ∈ xs
  | .empty, _ => False

theorem contains_spec [DecidableEq α] {sp : Space α} (h : sp ≠ .empty) (x : α) : ∃ b, sp.contains x = .ok b ∧ (b = true ↔ sp.Has x) := by
  cases sp with
  | implicit p => exact ⟨p x, rfl, Iff.rfl⟩
  | enum xs => exact ⟨decide (x ∈ xs), rfl, by simp [Space.Has]⟩
  | empty => exact absurd rfl h

theorem allIn_spec [DecidableEq α] {spaces : Dict String (Space α)} (hsp : ∀ k, spaces.get? k ≠ some .empty) : ∀ (xs : List (String × α)),
    (∀ p ∈ xs, p.1 ∈ spaces.keys) → ∃ b, allIn spaces xs = .ok b ∧ (b = true ↔ ∀ p ∈ xs, ∃ sp, spaces.get? p.1 = some sp ∧ sp.Has p.2)
  | [], _ => ⟨true, rfl, by simp⟩
  | (k, v) :: xs, h => by
    obtain ⟨sp, hk⟩ := Option.isSome_iff_exists.1 ((Dict.get?_isSome_iff_mem_keys spaces k).2 (h (k, v) (by simp)))
    obtain ⟨b, hb, hb'⟩ := contains_spec (sp := sp) (fun h => hsp k (by rw [hk, h])) v
    obtain ⟨c, hc, hc'⟩ := allIn_spec hsp xs fun p hp => h p (by simp [hp])
    have hget : spaces.get k = .ok sp := by simp [Dict.get, hk]
    cases b with
    | false =>
      refine ⟨false, by simp [allIn, hget, bind_ok, hb], ?_⟩
      simp only [Bool.false_eq_true, false_iff]
      intro hall
      obtain ⟨sp', h1, h2⟩ := hall (k, v) (by simp)
      rw [hk] at h1; cases h1
      exact absurd (hb'.2 h2) (by simp)
    | true =>
      refine ⟨c, by simp [allIn, hget, bind_ok, hb, hc], ?_⟩
      rw [hc']
      constructor
      · intro hall p hp
        rcases List.mem_cons.1 hp with rfl | hp
        · exact ⟨sp, hk, hb'.1 rfl⟩
        · exact hall p hp
      · exact fun hall p hp => hall p (by simp [hp])

/-- One agent: an action is accepted exactly when it is an element of the applicable actions of the memory; without a memory that of the
domain is used. -/
theorem C100_single [DecidableEq α] (applicable : Mem σ → PerAgent (Space α)) (m : Mem σ) (hm : m ≠ .bare none) (sp : Space α)
    (h : applicable m = .one sp) (hsp : sp ≠ .empty) (a : α) : ∃ b, (∀ own, isApplicable applicable own (some m) (.one a) = .ok b) ∧
      isApplicable applicable (some m) none (.one a) = .ok b ∧ (b = true ↔ sp.Has a) := by
  obtain ⟨b, h1, h2⟩ := contains_spec hsp a
  have hown : ∀ own, orOwn (some m) own = .ok m := by
    intro own
    cases m with
    | deque xs l => rfl
    | bare s =>
      cases s with
      | none => exact absurd rfl hm
      | some s => rfl
  refine ⟨b, fun own => ?_, ?_, h2⟩
  · simp [isApplicable, hown, bind_ok, h, member, h1]
  · simp [isApplicable, orOwn, bind_ok, h, member, h1]

/-- Several agents: when an action names exactly the agents, it is accepted exactly when every agent's part is applicable for the agent. -/
theorem C100_joint_partial [DecidableEq α] {spaces : Dict String (Space α)} (hsp : ∀ k, spaces.get? k ≠ some .empty) {act : Dict String α}
    (hn : act.keys.Nodup) (hkeys : ∀ k, k ∈ act.keys ↔ k ∈ spaces.keys) :
    ∃ b, member (.many spaces) (.many act) = .ok b ∧ (b = true ↔ ∀ k sp, spaces.get? k = some sp → ∃ v, act.get? k = some v ∧ sp.Has v) := by
  obtain ⟨b, h1, h2⟩ := allIn_spec hsp act fun p hp => (hkeys p.1).1 (List.mem_map.2 ⟨p, hp, rfl⟩)
  refine ⟨b, h1, h2.trans ⟨fun h k sp hk => ?_, fun h p hp => ?_⟩⟩
  · obtain ⟨v, hv⟩ := Option.isSome_iff_exists.1 ((Dict.get?_isSome_iff_mem_keys act k).2 ((hkeys k).2
      ((Dict.get?_isSome_iff_mem_keys spaces k).1 (by rw [hk]; rfl))))
    obtain ⟨sp', h3, h4⟩ := h (k, v) (Dict.mem_of_get? hv)
    rw [hk] at h3; cases h3
    exact ⟨v, hv, h4⟩
  · obtain ⟨sp, hk⟩ := Option.isSome_iff_exists.1 ((Dict.get?_isSome_iff_mem_keys spaces p.1).2 ((hkeys p.1).1 (List.mem_map.2 ⟨p, hp, rfl⟩)))
    obtain ⟨v, hv, h3⟩ := h p.1 sp hk
    rw [Dict.get?_of_mem hn hp] at hv; cases hv
    exact ⟨sp, hk, h3⟩

/-- Agents that are left out are not missed: what remains of an accepted joint action or goal is accepted, down to nothing at all. -/
theorem C100_left_out_refuted [DecidableEq α] (spaces : Dict String (Space α)) : member (.many spaces) (.many ([] : Dict String α)) = .ok true ∧
    ∀ (xs ys : List (String × α)), member (.many spaces) (.many (xs ++ ys)) = .ok true → member (.many spaces) (.many ys) = .ok true := by
  refine ⟨rfl, fun xs ys h => ?_⟩
  induction xs with
  | nil => exact h
  | cons p xs ih =>
    refine ih ?_
    obtain ⟨k, v⟩ := p
    simp only [member, List.cons_append, allIn] at h ⊢
    obtain ⟨sp, _, h⟩ := bind_eq_ok.1 h
    obtain ⟨b, _, h⟩ := bind_eq_ok.1 h
    cases b with
    | false => simp at h
    | true => simpa using h

/-- An agent that does not exist raises `KeyError` (when it comes first). -/
theorem C100_stranger_raises [DecidableEq α] (spaces : Dict String (Space α)) (k : String) (hk : k ∉ spaces.keys) (v : α) (rest : List (String × α)) :
    member (.many spaces) (.many ((k, v) :: rest)) = .error .keyError := by
  have : spaces.get? k = none := by
    by_contra hc
    exact hk ((Dict.get?_isSome_iff_mem_keys spaces k).1 (Option.isSome_iff_ne_none.2 hc))
  simp [member, allIn, Dict.get, this, bind_error]

/-- Without restrictions an action is applicable exactly when it is an action, whatever the memory; but with several agents the test for
actions always raises. -/
theorem C100_unrestricted [DecidableEq α] (own arg : Option (Mem σ)) (m : Mem σ) (h : orOwn arg own = .ok m) (a : α) :
    (∀ sp : Space α, isApplicable (fun _ => .one sp) own arg (.one a) = isAction (.one sp) a) ∧
    ∀ d : Dict String (Space α), isAction (.many d) a = .error .attributeError :=
  ⟨fun sp => by simp [isApplicable, h, bind_ok, member, isAction], fun _ => rfl⟩

/-- In a domain with actions only, no event is enabled: so the empty list of events says, but asking whether an event is enabled raises. -/
theorem C100_events_refuted [DecidableEq α] (own arg : Option (Mem σ)) (m : Mem σ) (h : orOwn arg own = .ok m) (e : α) :
    (Space.empty : Space α).elements = .ok [] ∧ isEnabled own arg e = .error .notImplementedError :=
  ⟨rfl, by simp [isEnabled, h, bind_ok, Space.contains]⟩

/-- Before the first reset, questions without a memory raise. -/
theorem C100_before_reset [DecidableEq α] (applicable : Mem σ → PerAgent (Space α)) (a : PerAgent α) :
    isApplicable applicable none none a = .error .attributeError := rfl

/-- The random walker plays an action for every agent, and the domain accepts it. -/
theorem C100_random_walk [DecidableEq α] (draw : String → Nat) (spaces : Dict String (Space α)) (hn : spaces.keys.Nodup)
    (hsp : ∀ k sp, spaces.get? k = some sp → ∃ xs, sp = .enum xs ∧ draw k < xs.length) :
    ∃ act, randomAction draw spaces = .ok act ∧ act.keys = spaces.keys ∧ member (.many spaces) (.many act) = .ok true := by
  have key : ∀ (l : Dict String (Space α)), (∀ p ∈ l, ∃ xs, p.2 = .enum xs ∧ draw p.1 < xs.length) →
      ∃ act, randomAction draw l = .ok act ∧ act.keys = l.keys ∧ ∀ p ∈ act, ∃ sp, (p.1, sp) ∈ l ∧ sp.Has p.2 := by
    intro l
    induction l with
    | nil => exact fun _ => ⟨[], rfl, rfl, by simp⟩
    | cons q l ih =>
      intro h
      obtain ⟨k, sp⟩ := q
      obtain ⟨xs, rfl, hx⟩ := h (k, sp) (by simp)
      obtain ⟨act, h1, h2, h3⟩ := ih fun p hp => h p (by simp [hp])
      obtain ⟨x, hx', hmem⟩ : ∃ x, pyGet xs (draw k) = .ok x ∧ x ∈ xs := ⟨xs[draw k], pyGet_of_lt hx, by simp⟩
      refine ⟨(k, x) :: act, by simp [randomAction, Space.elements, bind_ok, hx', h1], by simp [Dict.keys] at h2 ⊢; exact h2, ?_⟩
      intro p hp
      rcases List.mem_cons.1 hp with rfl | hp
      · exact ⟨.enum xs, by simp, hmem⟩
      · obtain ⟨sp, h4, h5⟩ := h3 p hp
        exact ⟨sp, by simp [h4], h5⟩
  obtain ⟨act, h1, h2, h3⟩ := key spaces fun p hp => hsp p.1 p.2 (Dict.get?_of_mem hn hp)
  refine ⟨act, h1, h2, ?_⟩
  obtain ⟨b, h4, h5⟩ := allIn_spec (spaces := spaces) (fun k hk => by obtain ⟨xs, h, _⟩ := hsp k _ hk; cases h) act
    (fun p hp => by rw [← h2]; exact List.mem_map.2 ⟨p, hp, rfl⟩)
  have : b = true := h5.2 fun p hp => by
    obtain ⟨sp, h6, h7⟩ := h3 p hp
    exact ⟨sp, Dict.get?_of_mem hn h6, h7⟩
  subst this
  exact h4

/-- Two agents with two and three actions. -/
example : member (.many [("a", .enum [1, 2]), ("b", .implicit fun x => decide (x < 3))]) (.many [("b", 2), ("a", 1)]) = .ok true ∧
    member (.many [("a", .enum [1, 2]), ("b", .implicit fun x => decide (x < 3))]) (.many [("b", 2), ("a", 3)]) = .ok false ∧
    randomAction (fun k => k.length) [("a", .enum [1, 2]), ("b", .enum [5, 7, 9])] = .ok [("a", 2), ("b", 7)] := by decide

/-! ## C101 -/

/-- All entries of the cache are what the method always answers. -/
def Right (f : κ → ν) (c : Cache κ ν) : Prop := ∀ p ∈ c, p.2 = f p.1

theorem cached_right [DecidableEq κ] {size : Nat} {f : κ → ν} {c : Cache κ ν} (hc : Right f c) (k : κ) :
    Right f (cached size c k (f k)).1 ∧ (cached size c k (f k)).2 = f k := by
  unfold cached
  split
  · rename_i v hv
    have hv' : v = f k := hc (k, v) (Dict.mem_of_get? hv)
    refine ⟨fun p hp => ?_, hv'⟩
    rcases List.mem_cons.1 hp with rfl | hp
    · exact hv'
    · exact hc p (List.mem_filter.1 hp).1
  · refine ⟨fun p hp => ?_, rfl⟩
    rcases List.mem_cons.1 (List.mem_of_mem_take hp) with rfl | hp
    · rfl
    · exact hc p hp

/-- A characteristic that is constant is answered rightly for every domain, at every call, however many domains there are. -/
theorem C101_constant [DecidableEq κ] (size : Nat) (f : κ → ν) (ks : List κ) : (calls size (fun k _ => f k) [] 0 ks).2 = ks.map f := by
  have key : ∀ (ks : List κ) (c : Cache κ ν) (n : Nat), Right f c → (calls size (fun k _ => f k) c n ks).2 = ks.map f := by
    intro ks
    induction ks with
    | nil => intros; rfl
    | cons k ks ih =>
      intro c n hc
      obtain ⟨h1, h2⟩ := cached_right (size := size) hc k
      simp only [calls, h2, List.map_cons]
      rw [ih _ _ h1]
  exact key ks [] 0 fun p hp => by cases hp

theorem get?_split [DecidableEq κ] {l1 l2 : Cache κ ν} {k : κ} {v : ν} (h : ∀ p ∈ l1, p.1 ≠ k) : Dict.get? (l1 ++ (k, v) :: l2) k = some v := by
  induction l1 with
  | nil => simp [Dict.get?]
  | cons p l1 ih =>
    have hp := h p (by simp)
    simp only [List.cons_append, Dict.get?]
    rw [if_neg (by simpa using hp)]
    exact ih fun q hq => h q (by simp [hq])

/-- The entry of `k` stands behind entries of domains of `S` only. -/
structure Held (S : List κ) (k : κ) (v : ν) (c l1 l2 : Cache κ ν) : Prop where
  eq : c = l1 ++ (k, v) :: l2
  nodup : (c.map (·.1)).Nodup
  front : ∀ p ∈ l1, p.1 ∈ S ∧ p.1 ≠ k

theorem cached_held [DecidableEq κ] {size : Nat} {S : List κ} {k : κ} {v : ν} {c l1 l2 : Cache κ ν} (h : Held S k v c l1 l2)
    (k' : κ) (hS : k' = k ∨ k' ∈ S) (hsize : (S.filter (· ≠ k)).dedup.length < size) (x : ν) :
    (∃ m1 m2, Held S k v (cached size c k' x).1 m1 m2) ∧ (k' = k → (cached size c k' x).2 = v) := by
  have hnd := h.nodup
  unfold cached
  rcases hg : Dict.get? c k' with _ | v'
  · have hne : k' ≠ k := by
      rintro rfl
      rw [h.eq, get?_split fun p hp => (h.front p hp).2] at hg
      cases hg
    have hk'S : k' ∈ S := hS.resolve_left hne
    have hnotin : k' ∉ c.map (·.1) := fun hm => by
      have := (Dict.get?_isSome_iff_mem_keys c k').2 hm
      rw [hg] at this; cases this
    refine ⟨?_, fun h => absurd h hne⟩
    have hl1 : ((k', x) :: l1).length < size := by
      have hsub : ((k' :: l1.map (·.1))).Nodup := by
        rw [h.eq] at hnotin hnd
        simp only [List.map_append, List.mem_append, not_or] at hnotin
        simp only [List.map_append] at hnd
        exact List.nodup_cons.2 ⟨hnotin.1, (List.nodup_append.1 hnd).1⟩
      have hle : (k' :: l1.map (·.1)).length ≤ (S.filter (· ≠ k)).dedup.length := by
        refine (List.Nodup.subperm hsub fun y hy => ?_).length_le
        rw [List.mem_dedup, List.mem_filter]
        rcases List.mem_cons.1 hy with rfl | hy
        · exact ⟨hk'S, by simpa using hne⟩
        · obtain ⟨p, hp, rfl⟩ := List.mem_map.1 hy
          exact ⟨(h.front p hp).1, by simpa using (h.front p hp).2⟩
      simp only [List.length_cons, List.length_map] at hle ⊢
      omega
    have htake : ((k', x) :: c).take size = ((k', x) :: l1) ++ (k, v) :: l2.take (size - (l1.length + 2)) := by
      rw [h.eq]
      have : (k', x) :: (l1 ++ (k, v) :: l2) = (((k', x) :: l1) ++ [(k, v)]) ++ l2 := by simp
      rw [this, List.take_append, List.take_of_length_le (by simp at hl1 ⊢; omega)]
      simp
    refine ⟨(k', x) :: l1, _, htake, ?_, fun p hp => ?_⟩
    · refine List.Nodup.sublist (List.Sublist.map _ (List.take_sublist _ _)) ?_
      rw [List.map_cons]; exact List.nodup_cons.2 ⟨hnotin, hnd⟩
    · rcases List.mem_cons.1 hp with rfl | hp
      · exact ⟨hk'S, hne⟩
      · exact h.front p hp
  · simp only
    have hfn : ((c.filter (fun p => p.1 ≠ k')).map (·.1)).Nodup := List.Nodup.sublist (List.Sublist.map _ List.filter_sublist) hnd
    have hnin : k' ∉ (c.filter (fun p => p.1 ≠ k')).map (·.1) := by
      intro hm
      obtain ⟨p, hp, hp'⟩ := List.mem_map.1 hm
      have := (List.mem_filter.1 hp).2
      simp [hp'] at this
    have hnd' : (((k', v') :: c.filter (fun p => p.1 ≠ k')).map (·.1)).Nodup := by
      rw [List.map_cons]; exact List.nodup_cons.2 ⟨hnin, hfn⟩
    by_cases hne : k' = k
    · subst hne
      have hv : v' = v := by
        rw [h.eq, get?_split fun p hp => (h.front p hp).2] at hg
        exact (Option.some.inj hg).symm
      subst hv
      exact ⟨⟨[], _, rfl, hnd', by simp⟩, fun _ => rfl⟩
    · refine ⟨⟨(k', v') :: l1.filter (fun p => p.1 ≠ k'), l2.filter (fun p => p.1 ≠ k'), ?_, hnd', fun p hp => ?_⟩, fun h => absurd h hne⟩
      · rw [h.eq, List.filter_append, List.filter_cons_of_pos (by simpa using fun h => hne h.symm)]
        rfl
      · rcases List.mem_cons.1 hp with rfl | hp
        · exact ⟨hS.resolve_left hne, hne⟩
        · exact h.front p (List.mem_filter.1 hp).1

/-- A domain gives the same answer again as long as fewer than the 128 entries of the cache are asked for by other domains in between — even
if the method would answer differently each time. -/
theorem C101_stable_partial [DecidableEq κ] (size : Nat) (answer : κ → Nat → ν) (c : Cache κ ν) (hc : (c.map (·.1)).Nodup) (n : Nat) (k : κ) (mid : List κ)
    (hmid : (mid.filter (· ≠ k)).dedup.length < size) :
    (calls size answer c n (k :: mid ++ [k])).2[0]? = (calls size answer c n (k :: mid ++ [k])).2[mid.length + 1]? ∧
      (calls size answer c n (k :: mid ++ [k])).2.length = mid.length + 2 := by
  have hlen : ∀ (ks : List κ) (c : Cache κ ν) (n : Nat), (calls size answer c n ks).2.length = ks.length := by
    intro ks
    induction ks with
    | nil => intros; rfl
    | cons k ks ih => intro c n; simp [calls, ih]
  have key : ∀ (l : List κ) (c l1 l2 : Cache κ ν) (n : Nat) (v : ν), Held mid k v c l1 l2 → (∀ x ∈ l, x ∈ mid) →
      (calls size answer c n (l ++ [k])).2[l.length]? = some v := by
    intro l
    induction l with
    | nil =>
      intro c l1 l2 n v h _
      have := (cached_held h k (.inl rfl) hmid (answer k n)).2 rfl
      simp [calls, this]
    | cons k' l ih =>
      intro c l1 l2 n v h hl
      obtain ⟨⟨m1, m2, h'⟩, _⟩ := cached_held h k' (.inr (hl k' (by simp))) hmid (answer k' n)
      simp only [List.cons_append, calls, List.length_cons, List.getElem?_cons_succ]
      exact ih _ m1 m2 (n + 1) v h' fun x hx => hl x (by simp [hx])
  refine ⟨?_, by rw [hlen]; simp⟩
  simp only [List.cons_append, calls, List.getElem?_cons_zero, List.getElem?_cons_succ]
  have hfirst : ∃ l1 l2, Held mid k (cached size c k (answer k n)).2 (cached size c k (answer k n)).1 l1 l2 := by
    unfold cached
    rcases hg : Dict.get? c k with _ | v
    · simp only
      have hpos : size = (size - 1) + 1 := by omega
      rw [hpos]
      refine ⟨[], _, rfl, ?_, by simp⟩
      refine List.Nodup.sublist (List.Sublist.map _ (List.take_sublist _ _)) ?_
      rw [List.map_cons]
      refine List.nodup_cons.2 ⟨fun hm => ?_, hc⟩
      have := (Dict.get?_isSome_iff_mem_keys c k).2 hm
      rw [hg] at this; cases this
    · simp only
      refine ⟨[], _, rfl, ?_, by simp⟩
      rw [List.map_cons]
      refine List.nodup_cons.2 ⟨fun hm => ?_, List.Nodup.sublist (List.Sublist.map _ List.filter_sublist) hc⟩
      obtain ⟨p, hp, hp'⟩ := List.mem_map.1 hm
      have := (List.mem_filter.1 hp).2
      simp [hp'] at this
  obtain ⟨l1, l2, hH⟩ := hfirst
  rw [key mid _ l1 l2 (n + 1) _ hH fun x hx => hx]

/-- After 128 other domains have been asked, the method is asked anew: an initial state that is drawn at random is then another one. -/
theorem C101_evicted_refuted : (calls 128 (fun _ n => n) [] 0 (0 :: List.range' 1 128 ++ [0])).2[0]? = some 0 ∧
    (calls 128 (fun _ n => n) [] 0 (0 :: List.range' 1 128 ++ [0])).2[129]? = some 129 ∧
    (calls 128 (fun _ n => n) [] 0 (0 :: List.range' 1 127 ++ [0])).2[128]? = some 0 := by decide +kernel

/-- Three domains with room for two. -/
example : (calls 2 (fun k n => 10 * k + n) [] 0 [1, 2, 1, 3, 1, 2, 2]).2 = [10, 21, 10, 33, 10, 25, 25] := by decide

end Verif.Defaults
