import Verif.Model.Shm
/- Properties of the shared-memory registers: C10. -/
namespace Verif.Shm

theorem write_length : ∀ (vs mem : List V) (i : Nat), (write mem i vs).length = mem.length := by
  intro vs
  induction vs with
  | nil => intro mem i; rfl
  | cons v vs ih => intro mem i; rw [write, ih, List.length_set]

theorem write_get : ∀ (vs mem : List V) (i c : Nat), (write mem i vs)[c]? = if i ≤ c ∧ c < i + vs.length ∧ c < mem.length then vs[c - i]? else mem[c]? := by
  intro vs
  induction vs with
  | nil => intro mem i c; simp only [write, List.length_nil]; rw [if_neg (by omega)]
  | cons v vs ih =>
    intro mem i c
    rw [write, ih, List.length_set, List.length_cons]
    by_cases h1 : i + 1 ≤ c ∧ c < i + 1 + vs.length ∧ c < mem.length
    · rw [if_pos h1, if_pos (by omega)]
      have : c - i = (c - (i + 1)) + 1 := by omega
      rw [this, List.getElem?_cons_succ]
    · rw [if_neg h1]
      by_cases hc : c = i
      · subst hc
        by_cases hl : c < mem.length
        · rw [if_pos (by omega), List.getElem?_set]; simp [hl]
        · rw [if_neg (by omega), List.getElem?_set]; simp [hl]
      · rw [if_neg (by omega), List.getElem?_set_ne (fun e => hc e.symm)]

/-- The cells of one register. -/
def cells (mem : List V) (i n : Nat) : List V := (mem.drop i).take n

theorem cells_get (mem : List V) (i n c : Nat) : (cells mem i n)[c]? = if c < n then mem[i + c]? else none := by
  unfold cells
  rw [List.getElem?_take]
  split
  · rw [List.getElem?_drop]
  · rfl

theorem cells_write_self {vs mem : List V} {i : Nat} (h : i + vs.length ≤ mem.length) : cells (write mem i vs) i vs.length = vs := by
  apply List.ext_getElem?
  intro c
  rw [cells_get]
  split
  · rw [write_get, if_pos (by omega)]
    congr 1; omega
  · rw [List.getElem?_eq_none_iff.2 (by omega)]

theorem cells_write_other {vs mem : List V} {i j n : Nat} (h : i + vs.length ≤ j ∨ j + n ≤ i) : cells (write mem i vs) j n = cells mem j n := by
  apply List.ext_getElem?
  intro c
  rw [cells_get, cells_get]
  split
  · rw [write_get, if_neg (by omega)]
  · rfl

/-- What the layout guarantees. -/
structure LayoutOk (l : Layout) : Prop where
  range : ∀ ty s e, l.registers.get? ty = some (s, e) → ∃ size count, l.sizes.get? ty = some size ∧ 0 < size ∧ 0 < count ∧ e = s + count * size ∧ e ≤ l.rsize ∧
    ∀ m, m < count → l.types.get? (s + m * size) = some ty
  disjoint : ∀ ty ty' s e s' e', ty ≠ ty' → l.registers.get? ty = some (s, e) → l.registers.get? ty' = some (s', e') → e ≤ s' ∨ e' ≤ s

theorem addTypes_get {ty j size : Nat} {types : Dict Nat Nat} : ∀ count, (∀ k, k < j → (addTypes ty j size count types).get? k = types.get? k) ∧
    ∀ m, m < count → (addTypes ty j size count types).get? (j + m * size) = some ty := by
  intro count
  induction count with
  | zero => exact ⟨fun k _ => rfl, fun m hm => by omega⟩
  | succ count ih =>
    refine ⟨fun k hk => ?_, fun m hm => ?_⟩
    · rw [addTypes, Dict.get?_set, if_neg (by omega)]
      exact ih.1 k hk
    · rw [addTypes, Dict.get?_set]
      split
      · rfl
      · rename_i hne
        have : m ≠ count := by rintro rfl; exact hne rfl
        exact ih.2 m (by omega)

theorem layoutFrom_ok : ∀ (es : List Entry) (l l' : Layout), (es.map (·.ty)).Nodup → (∀ e ∈ es, l.registers.get? e.ty = none) → LayoutOk l →
    layoutFrom es l.rsize l = .ok l' → LayoutOk l' := by
  intro es
  induction es with
  | nil => intro l l' _ _ hok h; cases h; exact hok
  | cons e es ih =>
    intro l l' hnd hfresh hok h
    simp only [List.map_cons, List.nodup_cons] at hnd
    simp only [layoutFrom] at h
    split at h
    · exact ih l l' hnd.2 (fun x hx => hfresh x (by simp [hx])) hok h
    · rename_i hcount
      split at h
      · cases h
      · rename_i hsize
        have hsz : 0 < e.size := by omega
        obtain ⟨t1, t2⟩ := addTypes_get (ty := e.ty) (j := l.rsize) (size := e.size) (types := l.types) e.count
        refine ih ⟨l.sizes.set e.ty e.size, l.registers.set e.ty (l.rsize, l.rsize + e.count * e.size),
          addTypes e.ty l.rsize e.size e.count l.types, l.rsize + e.count * e.size⟩ l' hnd.2 ?_ ⟨?_, ?_⟩ h
        · intro x hx
          simp only
          rw [Dict.get?_set, if_neg]
          · exact hfresh x (by simp [hx])
          · intro he
            exact hnd.1 (List.mem_map.2 ⟨x, hx, he⟩)
        · intro ty s en hr
          simp only at hr ⊢
          rw [Dict.get?_set] at hr
          split at hr
          · rename_i hty
            simp only [Option.some.injEq, Prod.mk.injEq] at hr
            obtain ⟨rfl, rfl⟩ := hr
            subst hty
            exact ⟨e.size, e.count, Dict.get?_set_self .., hsz, by omega, rfl, Nat.le_refl _, t2⟩
          · rename_i hty
            obtain ⟨size, count, h1, h2, h3, h4, h5, h6⟩ := hok.range ty s en hr
            refine ⟨size, count, by rw [Dict.get?_set, if_neg hty]; exact h1, h2, h3, h4, by omega, fun m hm => ?_⟩
            rw [t1 _ (by
              have : m * size + size ≤ count * size := by rw [← Nat.succ_mul]; exact Nat.mul_le_mul_right _ hm
              omega)]
            exact h6 m hm
        · intro ty ty' s en s' en' hne hr hr'
          simp only at hr hr'
          rw [Dict.get?_set] at hr hr'
          split at hr
          · rename_i hty
            rw [if_neg (by rw [← hty]; exact fun e => hne e.symm)] at hr'
            simp only [Option.some.injEq, Prod.mk.injEq] at hr
            obtain ⟨size, count, h1, h2, h3, h4, h5, h6⟩ := hok.range ty' s' en' hr'
            right; omega
          · split at hr'
            · simp only [Option.some.injEq, Prod.mk.injEq] at hr'
              obtain ⟨size, count, h1, h2, h3, h4, h5, h6⟩ := hok.range ty s en hr
              left; omega
            · exact hok.disjoint ty ty' s en s' en' hne hr hr'

theorem layout_ok {es : List Entry} {l : Layout} (hnd : (es.map (·.ty)).Nodup) (h : layout es = .ok l) : LayoutOk l :=
  layoutFrom_ok es { sizes := [], registers := [], types := [], rsize := 0 } l hnd (fun _ _ => rfl)
    ⟨fun _ _ _ h => (by cases h), fun _ _ _ _ _ _ _ h => (by cases h)⟩ h

/-- A value already stored: its type, its register and its encoding. -/
structure Placed (l : Layout) (base : Nat) (mem : List V) (counters : Dict Nat Nat) (v : Nat × Nat × List V) : Prop where
  type : l.types.get? v.2.1 = some v.1
  size : l.sizes.get? v.1 = some v.2.2.length
  inside : ∃ s e, l.registers.get? v.1 = some (s, e) ∧ s ≤ v.2.1 ∧ v.2.1 + v.2.2.length ≤ e
  content : cells mem (base + v.2.1) v.2.2.length = v.2.2
  counted : ∃ c, counters.get? v.1 = some c ∧ v.2.1 ≤ c

/-- The encodings have the number of cells that the layout has for their types. -/
def Encoded (l : Layout) (vals : List (Nat × List V)) : Prop := ∀ v ∈ vals, ∀ n, l.sizes.get? v.1 = some n → v.2.length = n

theorem dict_get_ok {d : Dict Nat β} {k : Nat} {v : β} : d.get k = .ok v ↔ d.get? k = some v := by
  unfold Dict.get
  cases d.get? k with
  | none => simp
  | some x => simp

/-- The counters are at registers of their types. -/
def CountersOk (l : Layout) (counters : Dict Nat Nat) : Prop :=
  ∀ ty c, counters.get? ty = some c → ∃ s e size m count, l.registers.get? ty = some (s, e) ∧ l.sizes.get? ty = some size ∧ c = s + m * size ∧ m < count ∧ e = s + count * size

theorem register_spec {l : Layout} (hok : LayoutOk l) {inc : Nat → Nat} {counters : Dict Nat Nat} (hc : CountersOk l counters) {ty k : Nat}
    (hinc : ∀ size, l.sizes.get? ty = some size → inc size = size ∨ counters.get? ty = none) (h : register l inc counters ty = .ok k) :
    ∃ s e size m count, l.registers.get? ty = some (s, e) ∧ l.sizes.get? ty = some size ∧ k = s + m * size ∧ m < count ∧ e = s + count * size ∧
      l.types.get? k = some ty ∧ (∀ c, counters.get? ty = some c → c + size ≤ k) := by
  unfold register at h
  obtain ⟨⟨s, e⟩, h1, h2⟩ := bind_eq_ok.1 h
  rw [dict_get_ok] at h1
  obtain ⟨size, count, k1, k2, k3, k4, k5, k6⟩ := hok.range ty s e h1
  rcases hcnt : counters.get? ty with _ | c
  · simp only [hcnt] at h2
    cases h2
    exact ⟨_, e, size, 0, count, h1, k1, by omega, k3, k4, by have := k6 0 k3; simpa using this, fun c hc => by cases hc⟩
  · simp only [hcnt] at h2
    obtain ⟨size', h3, h4⟩ := bind_eq_ok.1 h2
    rw [dict_get_ok, k1] at h3
    cases h3
    split at h4
    · cases h4
    · rename_i hlt
      cases h4
      rcases hinc size k1 with hi | hi
      · obtain ⟨s', e', size', m, count', g1, g2, g3, g4, g5⟩ := hc ty c hcnt
        rw [h1] at g1; cases g1
        rw [k1] at g2; cases g2
        rw [hi] at hlt ⊢
        have hm : m + 1 < count := by
          apply Classical.byContradiction
          intro hn
          have : count * size ≤ (m + 1) * size := Nat.mul_le_mul_right _ (by omega)
          rw [Nat.succ_mul] at this
          omega
        have hk : c + size = s + (m + 1) * size := by rw [Nat.succ_mul]; omega
        exact ⟨s, e, size, m + 1, count, h1, k1, hk, hm, k4, by rw [hk]; exact k6 _ hm, fun c' hc' => by cases hc'; omega⟩
      · rw [hcnt] at hi; cases hi

/-- At most one value of a type whose counter does not grow by its size. -/
def StepOk (l : Layout) (inc : Nat → Nat) (counters : Dict Nat Nat) (vals : List (Nat × List V)) : Prop :=
  ∀ ty size, l.sizes.get? ty = some size → inc size = size ∨ ((vals.filter (fun v => v.1 = ty)).length ≤ 1 ∧ (ty ∈ vals.map (·.1) → counters.get? ty = none))

theorem store_spec {l : Layout} (hok : LayoutOk l) {inc : Nat → Nat} {base : Nat} : ∀ (vals : List (Nat × List V)) (j : Nat) (counters : Dict Nat Nat) (params : List Int) (mem : List V)
    (placed : List (Nat × Nat × List V)) (params' : List Int) (mem' : List V), Encoded l vals → CountersOk l counters → StepOk l inc counters vals →
    (∀ v ∈ placed, Placed l base mem counters v) → base + l.rsize ≤ mem.length →
    store l inc base vals j counters params mem = (params', mem', none) →
    ∃ ks, ks.length = vals.length ∧ (∃ c', ∀ v ∈ placed ++ (vals.zip ks).map (fun x => (x.1.1, x.2, x.1.2)), Placed l base mem' c' v) ∧
      params' = params.take j ++ ks.map (fun (k : Nat) => (k : Int)) ++ params.drop (j + ks.length) ∧ j + ks.length ≤ max j params.length := by
  intro vals
  induction vals with
  | nil =>
    intro j counters params mem placed params' mem' _ _ _ hp _ h
    simp only [store, Prod.mk.injEq] at h
    obtain ⟨rfl, rfl, _⟩ := h
    exact ⟨[], rfl, ⟨counters, by simpa using hp⟩, by simp, by simp; omega⟩
  | cons v vals ih =>
    obtain ⟨ty, enc⟩ := v
    intro j counters params mem placed params' mem' henc hcount hstep hp hmem h
    simp only [store] at h
    rcases hreg : register l inc counters ty with er | k
    · rw [hreg] at h; simp at h
    · rw [hreg] at h
      simp only at h
      rcases hset : setParam params j k with er | params1
      · rw [hset] at h; simp at h
      · rw [hset] at h
        simp only at h
        unfold setParam at hset
        split at hset
        · rename_i hj
          cases hset
          have hinc : ∀ size, l.sizes.get? ty = some size → inc size = size ∨ counters.get? ty = none := fun size hs => by
            rcases hstep ty size hs with h | ⟨_, h⟩
            · exact .inl h
            · exact .inr (h (by simp))
          obtain ⟨s, e, size, m, count, r1, r2, r3, r4, r5, r6, r7⟩ := register_spec hok hcount hinc hreg
          have hlen : enc.length = size := henc (ty, enc) (by simp) size r2
          have hroom : m * size + size ≤ count * size := by rw [← Nat.succ_mul]; exact Nat.mul_le_mul_right _ r4
          obtain ⟨size2, count2, q1, q2, q3, q4, q5, q6⟩ := hok.range ty s e r1
          have hge : ∀ c, counters.get? ty = some c → c ≤ k := fun c hc => by have := r7 c hc; omega
          have hA : CountersOk l (counters.set ty k) := by
            intro ty' c hc
            rw [Dict.get?_set] at hc
            split at hc
            · rename_i he; subst he; cases hc
              exact ⟨s, e, size, m, count, r1, r2, r3, r4, r5⟩
            · exact hcount ty' c hc
          have hB : StepOk l inc (counters.set ty k) vals := by
            intro ty' size' hs'
            rcases hstep ty' size' hs' with h | ⟨h1, h2⟩
            · exact .inl h
            · right
              by_cases he : ty = ty'
              · subst he
                simp only [List.filter_cons, decide_true, ↓reduceIte, List.length_cons] at h1
                have hnil : vals.filter (fun v => decide (v.1 = ty)) = [] := List.length_eq_zero_iff.1 (by omega)
                refine ⟨by rw [hnil]; simp, fun hm => ?_⟩
                obtain ⟨x, hx, hxt⟩ := List.mem_map.1 hm
                have : x ∈ vals.filter (fun v => decide (v.1 = ty)) := List.mem_filter.2 ⟨hx, by simpa using hxt⟩
                rw [hnil] at this; cases this
              · simp only [List.filter_cons, he, decide_false, Bool.false_eq_true, ↓reduceIte] at h1
                refine ⟨h1, fun hm => ?_⟩
                rw [Dict.get?_set, if_neg (fun e => he e.symm)]
                exact h2 (by simp only [List.map_cons, List.mem_cons]; exact .inr hm)
          have hC : ∀ v ∈ placed ++ [(ty, k, enc)], Placed l base (write mem (base + k) enc) (counters.set ty k) v := by
            intro x hx
            rcases List.mem_append.1 hx with hx | hx
            · have hpx := hp x hx
              obtain ⟨s', e', p1, p2, p3⟩ := hpx.inside
              obtain ⟨c, hc, hcl⟩ := hpx.counted
              have hsep : (base + k) + enc.length ≤ base + x.2.1 ∨ (base + x.2.1) + x.2.2.length ≤ base + k := by
                by_cases he : x.1 = ty
                · rw [he] at hc
                  have := r7 c hc
                  have hxs := hpx.size
                  rw [he, r2] at hxs
                  have hxs := Option.some.inj hxs
                  right; omega
                · rcases hok.disjoint x.1 ty s' e' s e he p1 r1 with hd | hd
                  · right; omega
                  · left; omega
              refine ⟨hpx.type, hpx.size, hpx.inside, ?_, ?_⟩
              · rw [cells_write_other hsep]; exact hpx.content
              · by_cases he : x.1 = ty
                · rw [he] at hc ⊢
                  exact ⟨k, Dict.get?_set_self .., by have := hge c hc; omega⟩
                · exact ⟨c, by rw [Dict.get?_set, if_neg he]; exact hc, hcl⟩
            · simp only [List.mem_singleton] at hx
              subst hx
              refine ⟨r6, by simp only; rw [hlen]; exact r2, ⟨s, e, r1, by simp only; omega, by simp only; omega⟩, ?_, ⟨k, Dict.get?_set_self .., Nat.le_refl _⟩⟩
              exact cells_write_self (by omega)
          obtain ⟨ks, g1, ⟨c', g2⟩, g3, g4⟩ := ih (j + 1) (counters.set ty k) (params.set j (k : Int)) (write mem (base + k) enc) (placed ++ [(ty, k, enc)]) params' mem'
            (fun x hx => henc x (by simp [hx])) hA hB hC (by rw [write_length]; exact hmem) h
          refine ⟨k :: ks, by simp [g1], ⟨c', ?_⟩, ?_, ?_⟩
          · intro x hx
            apply g2
            simpa using hx
          · rw [g3]
            simp only [List.map_cons, List.length_cons]
            rw [List.take_set, List.drop_set_of_lt (by omega)]
            have hd : j + 1 + ks.length = j + (ks.length + 1) := by omega
            rw [hd]
            have ht : (params.take (j + 1)).set j (k : Int) = params.take j ++ [(k : Int)] := by
              rw [List.set_eq_take_append_cons_drop, if_pos (by simp; omega), List.take_take, Nat.min_eq_left (by omega), List.drop_eq_nil_of_le (by simp; omega)]
            rw [ht]
            simp
          · simp only [List.length_cons, List.length_set] at g4 ⊢
            omega
        · cases hset

theorem load_placed {l : Layout} {base : Nat} {mem : List V} {c' : Dict Nat Nat} {tail : List Int} (ht : ∀ p, tail.head? = some p → p < 0) : ∀ (vals : List (Nat × List V)) (ks : List Nat),
    ks.length = vals.length → (∀ v ∈ (vals.zip ks).map (fun x => (x.1.1, x.2, x.1.2)), Placed l base mem c' v) →
    load l base mem (ks.map (fun (k : Nat) => (k : Int)) ++ tail) = .ok vals := by
  intro vals
  induction vals with
  | nil =>
    intro ks hl _
    rw [List.length_eq_zero_iff.1 hl]
    rcases tail with _ | ⟨p, ps⟩
    · rfl
    · simp only [List.map_nil, List.nil_append, load]
      rw [if_pos (ht p rfl)]
  | cons v vals ih =>
    obtain ⟨ty, enc⟩ := v
    intro ks hl hp
    rcases ks with _ | ⟨k, ks⟩
    · simp at hl
    · have h0 := hp (ty, k, enc) (by simp)
      simp only [List.map_cons, List.cons_append, load]
      rw [if_neg (by omega)]
      have hk : (k : Int).toNat = k := by omega
      rw [hk, dict_get_ok.2 h0.type, bind_ok, dict_get_ok.2 h0.size, bind_ok, ih ks (by simpa using hl) (fun x hx => hp x (by simp only [List.zip_cons_cons, List.map_cons, List.mem_cons]; exact .inr hx)), bind_ok]
      have := h0.content
      simp only [cells] at this
      rw [this]

theorem roundtrip {l : Layout} (hok : LayoutOk l) {inc : Nat → Nat} {nparams i : Nat} {vals : List (Nat × List V)} {mem mem' : List V} {params : List Int}
    (henc : Encoded l vals) (hstep : StepOk l inc [] vals) (hmem : (i + 1) * l.rsize ≤ mem.length)
    (h : store l inc (i * l.rsize) vals 0 [] (List.replicate nparams (-1)) mem = (params, mem', none)) : load l (i * l.rsize) mem' params = .ok vals := by
  rw [Nat.succ_mul] at hmem
  obtain ⟨ks, g1, ⟨c', g2⟩, g3, g4⟩ := store_spec hok vals 0 [] _ mem [] params mem' henc (fun _ _ hc => by cases hc) hstep (by simp) hmem h
  rw [g3]
  simp only [List.take_zero, List.nil_append]
  refine load_placed (fun p hp => ?_) vals ks g1 (by simpa using g2)
  rw [List.drop_replicate] at hp
  rcases hn : nparams - (0 + ks.length) with _ | n
  · rw [hn] at hp; simp at hp
  · rw [hn] at hp
    simp only [List.replicate_succ, List.head?_cons, Option.some.injEq] at hp
    omega

/-- Every layout, every worker, all arguments: when `launch` stores the arguments without exception, the worker reads back exactly these arguments. -/
theorem C10_arguments {es : List Entry} {l : Layout} (hnd : (es.map (·.ty)).Nodup) (hl : layout es = .ok l) {nparams i : Nat} {args : List (Nat × List V)} {mem mem' : List V} {params : List Int}
    (henc : Encoded l args) (hmem : (i + 1) * l.rsize ≤ mem.length) (h : storeArgs l nparams i args mem = (params, mem', none)) :
    load l (i * l.rsize) mem' params = .ok args :=
  roundtrip (layout_ok hnd hl) henc (fun _ _ _ => .inl rfl) hmem h

/-- Type 1 has two registers of two cells, type 2 three registers of one cell. -/
def table : List Entry := [⟨1, 2, 2⟩, ⟨2, 3, 1⟩]
def tableLayout : Layout := { sizes := [(1, 2), (2, 1)], registers := [(1, (0, 4)), (2, (4, 7))], types := [(0, 1), (2, 1), (4, 2), (5, 2), (6, 2)], rsize := 7 }

example : layout table = .ok tableLayout ∧
    storeArgs tableLayout 5 1 [(2, [70]), (1, [10, 11]), (1, [12, 13])] (List.replicate 14 0) = ([4, 0, 2, -1, -1], [0, 0, 0, 0, 0, 0, 0, 10, 11, 12, 13, 70, 0, 0], none) := by decide

/-- The same for results, provided that every type of more than one array occurs at most once among them. -/
theorem C10_results_partial {es : List Entry} {l : Layout} (hnd : (es.map (·.ty)).Nodup) (hl : layout es = .ok l) {nparams i : Nat} {results : List (Nat × List V)} {mem mem' : List V} {params : List Int}
    (henc : Encoded l results) (honce : ∀ ty size, l.sizes.get? ty = some size → size ≠ 1 → (results.filter (fun v => v.1 = ty)).length ≤ 1) (hmem : (i + 1) * l.rsize ≤ mem.length)
    (h : storeResults l nparams i results mem = (params, mem', none)) : load l (i * l.rsize) mem' params = .ok results :=
  roundtrip (layout_ok hnd hl) henc (fun ty size hs => by
    by_cases h1 : size = 1
    · exact .inl h1.symm
    · exact .inr ⟨honce ty size hs h1, fun _ => rfl⟩) hmem h

/-- Two results of a type of two arrays overlap: the first one is overwritten and reading raises `KeyError`. -/
theorem C10_results_overlap : ∃ (es : List Entry) (l : Layout) (params : List Int) (mem : List Nat), layout es = .ok l ∧
    storeResults l 5 0 [(1, [10, 11]), (1, [12, 13])] (List.replicate 14 0) = (params, mem, none) ∧ mem.take 3 = [10, 12, 13] ∧ load l 0 mem params = .error .keyError :=
  ⟨table, tableLayout, _, _, by decide, rfl, rfl, rfl⟩

/-- Results can even spill over into the registers of the next worker. -/
theorem C10_results_spill : ∃ (es : List Entry) (l : Layout) (params : List Int) (mem : List Nat), layout es = .ok l ∧ l.rsize = 2 ∧
    storeResults l 2 0 [(1, [10, 11]), (1, [12, 13])] (List.replicate 4 0) = (params, mem, none) ∧ mem[2]? = some 13 :=
  ⟨[⟨1, 1, 2⟩], { sizes := [(1, 2)], registers := [(1, (0, 2))], types := [(0, 1)], rsize := 2 }, _, _, by decide, rfl, rfl, rfl⟩

theorem store_outside {l : Layout} (hok : LayoutOk l) {inc : Nat → Nat} {base : Nat} : ∀ (vals : List (Nat × List V)) (j : Nat) (counters : Dict Nat Nat) (params : List Int) (mem : List V)
    (params' : List Int) (mem' : List V) (err : Option PyErr), Encoded l vals → CountersOk l counters → StepOk l inc counters vals →
    store l inc base vals j counters params mem = (params', mem', err) → mem'.length = mem.length ∧ ∀ c, (c < base ∨ base + l.rsize ≤ c) → mem'[c]? = mem[c]? := by
  intro vals
  induction vals with
  | nil =>
    intro j counters params mem params' mem' err _ _ _ h
    simp only [store, Prod.mk.injEq] at h
    obtain ⟨rfl, rfl, _⟩ := h
    exact ⟨rfl, fun _ _ => rfl⟩
  | cons v vals ih =>
    obtain ⟨ty, enc⟩ := v
    intro j counters params mem params' mem' err henc hcount hstep h
    simp only [store] at h
    rcases hreg : register l inc counters ty with er | k
    · rw [hreg] at h
      simp only [Prod.mk.injEq] at h
      obtain ⟨rfl, rfl, _⟩ := h
      exact ⟨rfl, fun _ _ => rfl⟩
    · rw [hreg] at h
      simp only at h
      rcases hset : setParam params j k with er | params1
      · rw [hset] at h
        simp only [Prod.mk.injEq] at h
        obtain ⟨rfl, rfl, _⟩ := h
        exact ⟨rfl, fun _ _ => rfl⟩
      · rw [hset] at h
        simp only at h
        have hinc : ∀ size, l.sizes.get? ty = some size → inc size = size ∨ counters.get? ty = none := fun size hs => by
          rcases hstep ty size hs with h | ⟨_, h⟩
          · exact .inl h
          · exact .inr (h (by simp))
        obtain ⟨s, e, size, m, count, r1, r2, r3, r4, r5, r6, r7⟩ := register_spec hok hcount hinc hreg
        have hlen : enc.length = size := henc (ty, enc) (by simp) size r2
        have hroom : m * size + size ≤ count * size := by rw [← Nat.succ_mul]; exact Nat.mul_le_mul_right _ r4
        obtain ⟨size2, count2, q1, q2, q3, q4, q5, q6⟩ := hok.range ty s e r1
        have hA : CountersOk l (counters.set ty k) := by
          intro ty' c hc
          rw [Dict.get?_set] at hc
          split at hc
          · rename_i he; subst he; cases hc
            exact ⟨s, e, size, m, count, r1, r2, r3, r4, r5⟩
          · exact hcount ty' c hc
        have hB : StepOk l inc (counters.set ty k) vals := by
          intro ty' size' hs'
          rcases hstep ty' size' hs' with h | ⟨h1, h2⟩
          · exact .inl h
          · right
            by_cases he : ty = ty'
            · subst he
              simp only [List.filter_cons, decide_true, ↓reduceIte, List.length_cons] at h1
              have hnil : vals.filter (fun v => decide (v.1 = ty)) = [] := List.length_eq_zero_iff.1 (by omega)
              refine ⟨by rw [hnil]; simp, fun hm => ?_⟩
              obtain ⟨x, hx, hxt⟩ := List.mem_map.1 hm
              have : x ∈ vals.filter (fun v => decide (v.1 = ty)) := List.mem_filter.2 ⟨hx, by simpa using hxt⟩
              rw [hnil] at this; cases this
            · simp only [List.filter_cons, he, decide_false, Bool.false_eq_true, ↓reduceIte] at h1
              refine ⟨h1, fun hm => ?_⟩
              rw [Dict.get?_set, if_neg (fun e => he e.symm)]
              exact h2 (by simp only [List.map_cons, List.mem_cons]; exact .inr hm)
        obtain ⟨g1, g2⟩ := ih (j + 1) (counters.set ty k) params1 (write mem (base + k) enc) params' mem' err (fun x hx => henc x (by simp [hx])) hA hB h
        refine ⟨by rw [g1, write_length], fun c hc => ?_⟩
        rw [g2 c hc, write_get, if_neg (by omega)]

/-- Storing arguments for a worker, even when it stops with an exception, leaves the cells of every other worker as they are. -/
theorem C10_other_workers {es : List Entry} {l : Layout} (hnd : (es.map (·.ty)).Nodup) (hl : layout es = .ok l) {nparams i i' : Nat} {args : List (Nat × List V)} {mem mem' : List V}
    {params : List Int} {err : Option PyErr} (henc : Encoded l args) (hi : i ≠ i') (h : storeArgs l nparams i args mem = (params, mem', err)) :
    ∀ c, i' * l.rsize ≤ c → c < (i' + 1) * l.rsize → mem'[c]? = mem[c]? := by
  intro c h1 h2
  refine (store_outside (layout_ok hnd hl) args 0 [] _ mem params mem' err henc (fun _ _ hc => by cases hc) (fun _ _ _ => .inl rfl) h).2 c ?_
  rcases Nat.lt_or_gt_of_ne hi with hlt | hgt
  · right
    have : (i + 1) * l.rsize ≤ i' * l.rsize := Nat.mul_le_mul_right _ hlt
    rw [Nat.succ_mul] at this
    omega
  · left
    have : (i' + 1) * l.rsize ≤ i * l.rsize := Nat.mul_le_mul_right _ hgt
    omega

/-- More arguments of a type than it has registers: `IndexError`, and worker 0 keeps its cells. -/
example : ∃ params mem, storeArgs tableLayout 5 1 [(1, [10, 11]), (1, [12, 13]), (1, [14, 15])] (List.replicate 14 0) = (params, mem, some .indexError) ∧ mem.take 7 = List.replicate 7 0 :=
  ⟨_, _, rfl, rfl⟩

/-- Results of one worker leave the other workers alone under the condition of `C10_results_partial`. -/
theorem C10_other_workers_results_partial {es : List Entry} {l : Layout} (hnd : (es.map (·.ty)).Nodup) (hl : layout es = .ok l) {nparams i i' : Nat} {results : List (Nat × List V)} {mem mem' : List V}
    {params : List Int} {err : Option PyErr} (henc : Encoded l results) (honce : ∀ ty size, l.sizes.get? ty = some size → size ≠ 1 → (results.filter (fun v => v.1 = ty)).length ≤ 1)
    (hi : i ≠ i') (h : storeResults l nparams i results mem = (params, mem', err)) :
    ∀ c, i' * l.rsize ≤ c → c < (i' + 1) * l.rsize → mem'[c]? = mem[c]? := by
  intro c h1 h2
  refine (store_outside (layout_ok hnd hl) results 0 [] _ mem params mem' err henc (fun _ _ hc => by cases hc) (fun ty size hs => ?_) h).2 c ?_
  · by_cases h1 : size = 1
    · exact .inl h1.symm
    · exact .inr ⟨honce ty size hs h1, fun _ => rfl⟩
  rcases Nat.lt_or_gt_of_ne hi with hlt | hgt
  · right
    have : (i + 1) * l.rsize ≤ i' * l.rsize := Nat.mul_le_mul_right _ hlt
    rw [Nat.succ_mul] at this
    omega
  · left
    have : (i' + 1) * l.rsize ≤ i * l.rsize := Nat.mul_le_mul_right _ hgt
    omega

/-- The registers of different types do not overlap and lie inside the registers of the worker. -/
theorem C10_layout_disjoint {es : List Entry} {l : Layout} (hnd : (es.map (·.ty)).Nodup) (hl : layout es = .ok l) {t t' s e s' e' : Nat} (hne : t ≠ t')
    (h : l.registers.get? t = some (s, e)) (h' : l.registers.get? t' = some (s', e')) : s < e ∧ e ≤ l.rsize ∧ (e ≤ s' ∨ e' ≤ s) := by
  have hok := layout_ok hnd hl
  obtain ⟨size, count, h1, h2, h3, h4, h5, h6⟩ := hok.range t s e h
  refine ⟨?_, h5, hok.disjoint t t' s e s' e' hne h h'⟩
  have := Nat.mul_pos h3 h2
  omega

example : layout table = .ok tableLayout ∧ tableLayout.registers.get? 1 = some (0, 4) ∧ tableLayout.registers.get? 2 = some (4, 7) := by decide

/-- How many values of a type there are. -/
def howMany (ty : Nat) (vals : List (Nat × List V)) : Nat := (vals.filter (fun v => v.1 = ty)).length

theorem store_succeeds {l : Layout} {base : Nat} : ∀ (vals : List (Nat × List V)) (j : Nat) (counters : Dict Nat Nat) (params : List Int) (mem : List V),
    (∀ ty, ty ∈ vals.map (·.1) → ∃ s e size, l.registers.get? ty = some (s, e) ∧ l.sizes.get? ty = some size ∧ 0 < size ∧
      (counters.get? ty = none → s + howMany ty vals * size ≤ e) ∧ ∀ c, counters.get? ty = some c → c + howMany ty vals * size < e) →
    j + vals.length ≤ params.length → (store l id base vals j counters params mem).2.2 = none := by
  intro vals
  induction vals with
  | nil => intro j counters params mem _ _; rfl
  | cons v vals ih =>
    obtain ⟨ty, enc⟩ := v
    intro j counters params mem h hj
    simp only [List.length_cons] at hj
    obtain ⟨s, e, size, h1, h2, h3, h4, h5⟩ := h ty (by simp)
    have hm : howMany ty ((ty, enc) :: vals) = howMany ty vals + 1 := by simp [howMany]
    rw [hm, Nat.succ_mul] at h4 h5
    have hreg : ∃ k, register l id counters ty = .ok k ∧ k + howMany ty vals * size < e := by
      unfold register
      rw [dict_get_ok.2 h1, bind_ok]
      rcases hc : counters.get? ty with _ | c
      · exact ⟨s, rfl, by have := h4 hc; omega⟩
      · have := h5 c hc
        refine ⟨c + size, ?_, by omega⟩
        simp only [dict_get_ok.2 h2, bind_ok, id_eq]
        rw [if_neg (by omega)]
    obtain ⟨k, hk, hlt⟩ := hreg
    have hset : setParam params j k = .ok (params.set j (k : Int)) := if_pos (by omega)
    simp only [store, hk, hset]
    refine ih _ _ _ _ ?_ (by simp only [List.length_set]; omega)
    intro ty' hty'
    by_cases he : ty' = ty
    · subst he
      exact ⟨s, e, size, h1, h2, h3, (by rw [Dict.get?_set_self]; simp), fun c hc => by rw [Dict.get?_set_self] at hc; cases hc; exact hlt⟩
    · obtain ⟨s', e', size', g1, g2, g3, g4, g5⟩ := h ty' (by simp only [List.map_cons, List.mem_cons]; exact .inr hty')
      have hm' : howMany ty' ((ty, enc) :: vals) = howMany ty' vals := by
        have he' : ¬ ty = ty' := fun e => he e.symm
        simp [howMany, List.filter_cons, he']
      rw [hm'] at g4 g5
      exact ⟨s', e', size', g1, g2, g3, (by rw [Dict.get?_set, if_neg he]; exact g4), fun c hc => by rw [Dict.get?_set, if_neg he] at hc; exact g5 c hc⟩

/-- A call with no more arguments of each type than there are registers for that type is stored without exception. -/
theorem C10_enough_registers {es : List Entry} {l : Layout} (hnd : (es.map (·.ty)).Nodup) (hl : layout es = .ok l) {nparams i : Nat} {args : List (Nat × List V)} {mem : List V}
    (hfit : ∀ ty, ty ∈ args.map (·.1) → ∃ s e size, l.registers.get? ty = some (s, e) ∧ l.sizes.get? ty = some size ∧ howMany ty args * size ≤ e - s) (hn : args.length ≤ nparams) :
    (storeArgs l nparams i args mem).2.2 = none := by
  have hok := layout_ok hnd hl
  refine store_succeeds args 0 [] _ mem (fun ty hty => ?_) (by simpa using hn)
  obtain ⟨s, e, size, h1, h2, h3⟩ := hfit ty hty
  obtain ⟨size', count, k1, k2, k3, k4, k5, k6⟩ := hok.range ty s e h1
  rw [h2] at k1
  cases k1
  exact ⟨s, e, size, h1, h2, k2, fun _ => by omega, fun c hc => by cases hc⟩

example : howMany 1 [(2, [70]), (1, [10, 11]), (1, [12, 13])] * 2 ≤ 4 - 0 ∧ howMany 2 [(2, [70]), (1, [10, 11]), (1, [12, 13])] * 1 ≤ 7 - 4 := by decide

end Verif.Shm
