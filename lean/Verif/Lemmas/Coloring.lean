import Verif.Model.Coloring
/- Helper lemmas about the colouring model. -/
namespace Verif.Coloring

theorem distinct_aux (l : List Int) : ∀ acc : List Int, acc.Nodup →
    (l.foldl (fun acc x => if x ∈ acc then acc else acc ++ [x]) acc).Nodup ∧
    ∀ x, x ∈ l.foldl (fun acc x => if x ∈ acc then acc else acc ++ [x]) acc ↔ x ∈ acc ∨ x ∈ l := by
  induction l with
  | nil => intro acc h; simp [h]
  | cons a l ih =>
    intro acc h
    simp only [List.foldl_cons]
    by_cases ha : a ∈ acc
    · simp only [ha, if_true]
      refine ⟨(ih acc h).1, fun x => ?_⟩
      rw [(ih acc h).2]
      simp only [List.mem_cons]
      constructor
      · rintro (h1 | h1) <;> simp [h1]
      · rintro (h1 | rfl | h1)
        · exact .inl h1
        · exact .inl ha
        · exact .inr h1
    · simp only [ha, if_false]
      have hn : (acc ++ [a]).Nodup := by
        rw [List.nodup_append]
        refine ⟨h, by simp, ?_⟩
        rintro x hx y hy rfl
        simp only [List.mem_singleton] at hy
        exact ha (hy ▸ hx)
      refine ⟨(ih _ hn).1, fun x => ?_⟩
      rw [(ih _ hn).2]
      simp [or_assoc]

theorem distinct_nodup (l : List Int) : (distinct l).Nodup := (distinct_aux l [] (by simp)).1

theorem mem_distinct {l : List Int} {x : Int} : x ∈ distinct l ↔ x ∈ l := by
  rw [distinct, (distinct_aux l [] (by simp)).2]; simp

theorem pySorted_perm (l : List Int) : (pySorted l).Perm l := sortBy_perm id l

theorem pySorted_sorted (l : List Int) : (pySorted l).Pairwise (fun a b => a ≤ b) := sortBy_sorted id l

theorem pySorted_congr {l l' : List Int} (h : l.Perm l') : pySorted l = pySorted l' :=
  sortBy_congr h (fun _ _ _ _ h => h)

theorem names_nodup (g : Graph) : g.names.Nodup :=
  (pySorted_perm _).nodup_iff.2 (distinct_nodup _)

theorem mem_names {g : Graph} {n : Int} : n ∈ g.names ↔ n ∈ g.nodes := by
  rw [Graph.names, (pySorted_perm _).mem_iff, mem_distinct]

theorem zipIdx_get? (l : List Int) (hl : l.Nodup) (n : Int) : ∀ k i : Nat,
    Dict.get? (l.zipIdx k) n = some i ↔ k ≤ i ∧ l[i - k]? = some n := by
  induction l with
  | nil => intro k i; simp
  | cons a l ih =>
    intro k i
    simp only [List.nodup_cons] at hl
    simp only [List.zipIdx_cons, Dict.get?]
    by_cases ha : a = n
    · subst ha
      simp only [if_true, Option.some.injEq]
      constructor
      · rintro rfl; simp
      · rintro ⟨h1, h2⟩
        rcases Nat.eq_or_lt_of_le h1 with h | h
        · exact h
        · obtain ⟨j, hj⟩ : ∃ j, i - k = j + 1 := ⟨i - k - 1, by omega⟩
          rw [hj] at h2
          simp only [List.getElem?_cons_succ] at h2
          exact absurd (List.mem_of_getElem? h2) hl.1
    · simp only [ha, if_false, ih hl.2]
      constructor
      · rintro ⟨h1, h2⟩
        have : i - k = (i - (k + 1)) + 1 := by omega
        rw [this]
        exact ⟨by omega, by simpa using h2⟩
      · rintro ⟨h1, h2⟩
        rcases Nat.eq_or_lt_of_le h1 with h | h
        · subst h; simp at h2; exact absurd h2 ha
        · have : i - k = (i - (k + 1)) + 1 := by omega
          rw [this] at h2
          exact ⟨by omega, by simpa using h2⟩

theorem index_get (g : Graph) (n : Int) (i : Nat) : g.index.get n = .ok i ↔ g.names[i]? = some n := by
  have := zipIdx_get? g.names (names_nodup g) n 0 i
  simp only [Graph.index, Dict.get]
  simp only [Nat.zero_le, Nat.sub_zero, true_and] at this
  rw [← this]
  cases Dict.get? (List.zipIdx g.names) n <;> simp

/-- The colour looked up for a node is the entry of the vector at the node's rank. -/
theorem colorOf_ok (g : Graph) (colors : List Int) (n c : Int) :
    colorOf g colors n = .ok c ↔ ∃ i : Nat, g.names[i]? = some n ∧ colors[i]? = some c := by
  unfold colorOf
  rw [bind_eq_ok]
  simp only [index_get, pyGet_ok_iff]

/-- The loop of the renumbering keeps an injective table with values below `k`. -/
structure Table (index : Dict Int Nat) (k : Nat) : Prop where
  lt : ∀ c v, index.get? c = some v → v < k
  inj : ∀ c c' v, index.get? c = some v → index.get? c' = some v → c = c'
  onto : ∀ v, v < k → ∃ c, index.get? c = some v

theorem Table.nil : Table [] 0 := ⟨by simp, by simp, by omega⟩

theorem Table.set {index : Dict Int Nat} {k : Nat} (h : Table index k) {c : Int}
    (hc : index.get? c = none) : Table (index.set c k) (k + 1) := by
  refine ⟨?_, ?_, ?_⟩
  · intro d v hd
    rw [Dict.get?_set] at hd
    split at hd
    · cases hd; omega
    · have := h.lt d v hd; omega
  · intro d d' v hd hd'
    rw [Dict.get?_set] at hd hd'
    split at hd <;> split at hd'
    · simp [*]
    · cases hd; have := h.lt _ _ hd'; omega
    · cases hd'; have := h.lt _ _ hd; omega
    · exact h.inj _ _ _ hd hd'
  · intro v hv
    by_cases hk : v = k
    · exact ⟨c, by rw [Dict.get?_set]; simp [hk]⟩
    · obtain ⟨d, hd⟩ := h.onto v (by omega)
      refine ⟨d, ?_⟩
      rw [Dict.get?_set]
      have : d ≠ c := by rintro rfl; rw [hc] at hd; cases hd
      simp [this, hd]

theorem renumberFrom_spec (cs : List Int) : ∀ (index : Dict Int Nat) (k : Nat), Table index k →
    ∃ (out : List Nat) (index' : Dict Int Nat) (k' : Nat), renumberFrom cs index k = .ok out ∧ Table index' k' ∧ k ≤ k' ∧
      (∀ c v, index.get? c = some v → index'.get? c = some v) ∧
      out.length = cs.length ∧
      (∀ (i : Nat) c, cs[i]? = some c → ∃ v, out[i]? = some v ∧ index'.get? c = some v) ∧
      (∀ c, (index'.get? c).isSome → (index.get? c).isSome ∨ c ∈ cs) ∧
      (∀ v : Nat, v ∈ out → v < k') ∧
      (∀ v, k ≤ v → v < k' → v ∈ out) ∧
      (∀ (i v : Nat), out[i]? = some v → ∀ u : Nat, k ≤ u → u < v → ∃ j, j < i ∧ out[j]? = some u) := by
  induction cs with
  | nil =>
    intro index k h
    exact ⟨[], index, k, rfl, h, Nat.le_refl _, fun _ _ h => h, rfl, by simp, fun c hc => .inl hc,
      by simp, by omega, by simp⟩
  | cons c cs ih =>
    intro index k h
    by_cases hc : (index.get? c).isSome
    · obtain ⟨v, hv⟩ := Option.isSome_iff_exists.1 hc
      obtain ⟨out, index', k', ho, ht, hk, hext, hlen, hget, hdom, hlt, hall, hprec⟩ := ih index k h
      refine ⟨v :: out, index', k', ?_, ht, hk, hext, by simp [hlen], ?_, ?_, ?_, ?_, ?_⟩
      · simp [renumberFrom, Dict.contains_eq, Dict.get, hv, ho]
      · intro i d hd
        cases i with
        | zero => simp at hd; subst hd; exact ⟨v, by simp, hext _ _ hv⟩
        | succ i => simpa using hget i d (by simpa using hd)
      · intro d hd
        rcases hdom d hd with h1 | h1
        · exact .inl h1
        · exact .inr (List.mem_cons_of_mem _ h1)
      · intro u hu
        rcases List.mem_cons.1 hu with rfl | hu
        · have := h.lt _ _ hv; omega
        · exact hlt u hu
      · intro u h1 h2; exact List.mem_cons_of_mem _ (hall u h1 h2)
      · intro i u hu w h1 h2
        cases i with
        | zero => simp at hu; subst hu; have := h.lt _ _ hv; omega
        | succ i =>
          obtain ⟨j, hj, hjv⟩ := hprec i u (by simpa using hu) w h1 h2
          exact ⟨j + 1, by omega, by simpa using hjv⟩
    · have hn : index.get? c = none := by simpa using hc
      have ht' := h.set hn
      obtain ⟨out, index', k', ho, ht, hk, hext, hlen, hget, hdom, hlt, hall, hprec⟩ := ih _ _ ht'
      have hcv : index'.get? c = some k := hext c k (by rw [Dict.get?_set]; simp)
      refine ⟨k :: out, index', k', ?_, ht, by omega, ?_, by simp [hlen], ?_, ?_, ?_, ?_, ?_⟩
      · have : (index.get? c).isSome = false := by simpa using hc
        simp [renumberFrom, Dict.contains_eq, this, Dict.get, Dict.get?_set, ho]
      · intro d v hd
        apply hext
        rw [Dict.get?_set]
        have : d ≠ c := by rintro rfl; rw [hn] at hd; cases hd
        simp [this, hd]
      · intro i d hd
        cases i with
        | zero => simp at hd; subst hd; exact ⟨k, by simp, hcv⟩
        | succ i => simpa using hget i d (by simpa using hd)
      · intro d hd
        rcases hdom d hd with h1 | h1
        · rw [Dict.get?_set] at h1
          by_cases hdc : d = c
          · exact .inr (by simp [hdc])
          · exact .inl (by simpa [hdc] using h1)
        · exact .inr (List.mem_cons_of_mem _ h1)
      · intro u hu
        rcases List.mem_cons.1 hu with rfl | hu
        · omega
        · exact hlt u hu
      · intro u h1 h2
        by_cases huk : u = k
        · simp [huk]
        · exact List.mem_cons_of_mem _ (hall u (by omega) h2)
      · intro i u hu w h1 h2
        cases i with
        | zero => simp at hu; omega
        | succ i =>
          by_cases hwk : w = k
          · exact ⟨0, by omega, by simp [hwk]⟩
          · obtain ⟨j, hj, hjv⟩ := hprec i u (by simpa using hu) w (by omega) h2
            exact ⟨j + 1, by omega, by simpa using hjv⟩

theorem renumber_spec (cs : List Int) :
    ∃ out : List Nat, renumber cs = .ok out ∧ out.length = cs.length ∧
      (∀ (i j : Nat) c d, cs[i]? = some c → cs[j]? = some d → (out[i]? = out[j]? ↔ c = d)) ∧
      (∃ k, (∀ v, v ∈ out ↔ v < k) ∧ k = (distinct cs).length) ∧
      (∀ (i v : Nat), out[i]? = some v → ∀ u : Nat, u < v → ∃ j, j < i ∧ out[j]? = some u) := by
  obtain ⟨out, index', k', ho, ht, _, _, hlen, hget, hdom, hlt, hall, hprec⟩ :=
    renumberFrom_spec cs [] 0 Table.nil
  refine ⟨out, ho, hlen, ?_, ⟨k', ?_, ?_⟩, ?_⟩
  · intro i j c d hi hj
    obtain ⟨v, hv, hcv⟩ := hget i c hi
    obtain ⟨w, hw, hdw⟩ := hget j d hj
    rw [hv, hw]
    constructor
    · intro h
      cases h
      exact ht.inj _ _ _ hcv hdw
    · rintro rfl
      rw [hcv] at hdw; exact hdw
  · intro v
    exact ⟨hlt v, fun h => hall v (Nat.zero_le _) h⟩
  · -- the table is a bijection between the distinct colours and `0..k'-1`
    have hperm : ((distinct cs).map (fun c => index'.get? c)).Perm ((List.range k').map some) := by
      rw [List.perm_ext_iff_of_nodup]
      · intro o
        simp only [List.mem_map, List.mem_range]
        constructor
        · rintro ⟨c, hc, rfl⟩
          rw [mem_distinct] at hc
          obtain ⟨i, hi⟩ := List.getElem?_of_mem hc
          obtain ⟨v, _, hcv⟩ := hget i c hi
          exact ⟨v, ht.lt _ _ hcv, hcv.symm⟩
        · rintro ⟨v, hv, rfl⟩
          obtain ⟨c, hc⟩ := ht.onto v hv
          refine ⟨c, ?_, hc⟩
          rw [mem_distinct]
          rcases hdom c (by simp [hc]) with h | h
          · simp at h
          · exact h
      · rw [List.Nodup, List.pairwise_map]
        refine List.Pairwise.imp_of_mem ?_ (distinct_nodup cs)
        intro a b ha hb hab heq
        rw [mem_distinct] at ha
        obtain ⟨i, hi⟩ := List.getElem?_of_mem ha
        obtain ⟨v, _, hcv⟩ := hget i a hi
        exact hab (ht.inj a b v hcv (by rw [← heq]; exact hcv))
      · rw [List.Nodup, List.pairwise_map]
        exact List.Pairwise.imp (by intro a b h h'; cases h'; exact h rfl) List.nodup_range
    have := hperm.length_eq
    simpa using this.symm
  · intro i v h u hu
    exact hprec i v h u (Nat.zero_le _) hu

end Verif.Coloring
