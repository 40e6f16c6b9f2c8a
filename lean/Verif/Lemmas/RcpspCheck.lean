import Verif.Lemmas.RcpspSpec
/- What the parts of the check of a schedule mean. -/
namespace Verif.Rcpsp

/-- `need res a` is the requirement of activity `a` in the mode listed for it, for every activity and every resource. -/
def NeedTable (pb : Problem) (ext : List Nat) (need : String → Nat → Int) : Prop :=
  ∀ a ∈ pb.successors.keys, ∀ res ∈ pb.resources.keys, ∃ d k m, pb.modes.get? a = some d ∧ ext[a - 1]? = some k ∧ d.get? k = some m ∧
    m.needs.get? res = some (need res a)

theorem addNeeds_eq {pb : Problem} {a k : Nat} {need : String → Nat → Int} : ∀ (u : Dict String Int),
    (∀ res ∈ u.keys, ∃ d m, pb.modes.get? a = some d ∧ d.get? k = some m ∧ m.needs.get? res = some (need res a)) →
    addNeeds pb a k u = .ok (u.map (fun p => (p.1, p.2 + need p.1 a))) := by
  intro u
  induction u with
  | nil => intro _; rfl
  | cons p u ih =>
    intro h
    obtain ⟨res, x⟩ := p
    obtain ⟨d, m, h1, h2, h3⟩ := h res (by simp [Dict.keys])
    have := ih (fun r hr => h r (by simp only [Dict.keys, List.map_cons, List.mem_cons] at hr ⊢; exact .inr hr))
    simp only [addNeeds, dict_get_ok.2 h1, bind_ok, dict_get_ok.2 h2, dict_get_ok.2 h3, this, List.map_cons]

theorem usageLoop_eq {pb : Problem} {ext : List Nat} {sch : Dict Nat (Int × Int)} {t : Int} {need : String → Nat → Int} : ∀ (acts : List Nat)
    (u : Dict String Int), (∀ a ∈ acts, (∃ p, sch.get? a = some p) ∧ (∃ k, ext[a - 1]? = some k) ∧ ∀ res ∈ u.keys, ∃ d k m, pb.modes.get? a = some d ∧
      ext[a - 1]? = some k ∧ d.get? k = some m ∧ m.needs.get? res = some (need res a)) →
    usageLoop pb ext sch t acts u = .ok (u.map (fun p => (p.1, p.2 + load (need p.1) sch t acts))) := by
  intro acts
  induction acts with
  | nil => intro u _; simp [usageLoop, load, total]
  | cons a acts ih =>
    intro u h
    obtain ⟨⟨p, hp⟩, ⟨k, hk⟩, hn⟩ := h a (by simp)
    simp only [usageLoop, dict_get_ok.2 hp, bind_ok, pyGet_ok_iff.2 hk]
    by_cases hc : p.1 ≤ t ∧ t < p.2
    · rw [if_pos hc, addNeeds_eq (need := need), bind_ok, ih]
      · simp only [List.map_map, Except.ok.injEq]
        apply List.map_congr_left
        intro q _
        have : runsAt sch t a = true := by simp [runsAt, hp, hc]
        simp only [Function.comp, load, List.filter_cons, this, ↓reduceIte, total, List.map_cons, List.sum_cons]
        congr 1; omega
      · intro b hb
        obtain ⟨g1, g2, g3⟩ := h b (by simp [hb])
        refine ⟨g1, g2, fun res hr => g3 res ?_⟩
        simpa [Dict.keys] using hr
      · intro res hr
        obtain ⟨d, k', m, g1, g2, g3, g4⟩ := hn res hr
        rw [hk] at g2; cases g2
        exact ⟨d, m, g1, g3, g4⟩
    · rw [if_neg hc, ih]
      · simp only [Except.ok.injEq]
        apply List.map_congr_left
        intro q _
        have : runsAt sch t a = false := by simp only [runsAt, hp, decide_eq_false_iff_not]; exact hc
        simp only [load, List.filter_cons, this, Bool.false_eq_true, ↓reduceIte]
      · intro b hb
        exact h b (by simp [hb])

theorem capAt_ok {t : Nat} {cap : Capacity} {c : Int} : capAt t cap = .ok c ↔ capOf cap t = some c := by
  cases cap with
  | const x => simp [capAt, capOf]
  | calendar l => exact pyGet_ok_iff

theorem withinCaps_iff (t : Nat) (usage : Dict String Int) : ∀ caps : Dict String Capacity, withinCaps t usage caps = .ok true ↔
    ∀ p ∈ caps, ∃ u c, usage.get? p.1 = some u ∧ capOf p.2 t = some c ∧ u ≤ c := by
  intro caps
  induction caps with
  | nil => simp [withinCaps]
  | cons p caps ih =>
    obtain ⟨res, cap⟩ := p
    simp only [withinCaps, List.forall_mem_cons]
    constructor
    · intro h
      obtain ⟨u, hu, h⟩ := bind_eq_ok.1 h
      obtain ⟨c, hc, h⟩ := bind_eq_ok.1 h
      split at h
      · cases h
      · exact ⟨⟨u, c, dict_get_ok.1 hu, capAt_ok.1 hc, by omega⟩, ih.1 h⟩
    · rintro ⟨⟨u, c, hu, hc, hle⟩, h⟩
      rw [dict_get_ok.2 hu, bind_ok, capAt_ok.2 hc, bind_ok, if_neg (by omega)]
      exact ih.2 h

theorem checkTimes_iff (pb : Problem) (ext : List Nat) (sch : Dict Nat (Int × Int)) : ∀ (n t : Nat), checkTimes pb ext sch n t = .ok true ↔
    ∀ t', t ≤ t' → t' < t + n → ∃ u, usageLoop pb ext sch t' pb.successors.keys (pb.resources.map (fun p => (p.1, (0 : Int)))) = .ok u ∧
      withinCaps t' u pb.resources = .ok true := by
  intro n
  induction n with
  | zero => intro t; simp only [checkTimes, true_iff]; intro t' h1 h2; omega
  | succ n ih =>
    intro t
    simp only [checkTimes]
    constructor
    · intro h
      obtain ⟨u, hu, h⟩ := bind_eq_ok.1 h
      obtain ⟨ok, hok, h⟩ := bind_eq_ok.1 h
      cases ok with
      | false => simp at h
      | true =>
        simp only [↓reduceIte] at h
        intro t' h1 h2
        by_cases e : t' = t
        · subst e; exact ⟨u, hu, hok⟩
        · exact (ih (t + 1)).1 h t' (by omega) (by omega)
    · intro h
      obtain ⟨u, hu, hok⟩ := h t (Nat.le_refl _) (by omega)
      rw [hu, bind_ok, hok, bind_ok]
      simp only [↓reduceIte]
      exact (ih (t + 1)).2 (fun t' h1 h2 => h t' (by omega) (by omega))

theorem totalNeed_eq {pb : Problem} {ext : List Nat} {res : String} {need : Nat → Int} : ∀ acts : List Nat,
    (∀ a ∈ acts, ∃ d k m, pb.modes.get? a = some d ∧ ext[a - 1]? = some k ∧ d.get? k = some m ∧ m.needs.get? res = some (need a)) →
    totalNeed pb ext res acts = .ok (total need acts) := by
  intro acts
  induction acts with
  | nil => intro _; rfl
  | cons a acts ih =>
    intro h
    obtain ⟨d, k, m, h1, h2, h3, h4⟩ := h a (by simp)
    simp only [totalNeed, pyGet_ok_iff.2 h2, bind_ok, dict_get_ok.2 h1, dict_get_ok.2 h3, dict_get_ok.2 h4, ih (fun a ha => h a (by simp [ha])),
      total, List.map_cons, List.sum_cons]

theorem checkNonRenewable_iff (pb : Problem) (ext : List Nat) (any : Bool) : ∀ l : List String, checkNonRenewable pb ext any l = .ok true ↔
    ∀ res ∈ l, ∃ u cap c, totalNeed pb ext res pb.successors.keys = .ok u ∧ pb.resources.get? res = some cap ∧ capOf cap 0 = some c ∧ u ≤ c := by
  intro l
  induction l with
  | nil => simp [checkNonRenewable]
  | cons res l ih =>
    simp only [checkNonRenewable, List.forall_mem_cons]
    constructor
    · intro h
      obtain ⟨u, hu, h⟩ := bind_eq_ok.1 h
      obtain ⟨cap, hcap, h⟩ := bind_eq_ok.1 h
      obtain ⟨c, hc, h⟩ := bind_eq_ok.1 h
      split at h
      · split at h <;> cases h
      · exact ⟨⟨u, cap, c, hu, dict_get_ok.1 hcap, capAt_ok.1 hc, by omega⟩, ih.1 h⟩
    · rintro ⟨⟨u, cap, c, hu, hcap, hc, hle⟩, h⟩
      rw [hu, bind_ok, dict_get_ok.2 hcap, bind_ok, capAt_ok.2 hc, bind_ok, if_neg (by omega)]
      exact ih.2 h

theorem checkSuccs_iff (sch : Dict Nat (Int × Int)) (a : Nat) : ∀ ss : List Nat, checkSuccs sch a ss = .ok true ↔
    ∀ b ∈ ss, ∃ pa pb, sch.get? a = some pa ∧ sch.get? b = some pb ∧ pa.2 ≤ pb.1 := by
  intro ss
  induction ss with
  | nil => simp [checkSuccs]
  | cons s ss ih =>
    simp only [checkSuccs, List.forall_mem_cons]
    constructor
    · intro h
      obtain ⟨ps, hps, h⟩ := bind_eq_ok.1 h
      obtain ⟨pa, hpa, h⟩ := bind_eq_ok.1 h
      split at h
      · cases h
      · exact ⟨⟨pa, ps, dict_get_ok.1 hpa, dict_get_ok.1 hps, by omega⟩, ih.1 h⟩
    · rintro ⟨⟨pa, ps, hpa, hps, hle⟩, h⟩
      rw [dict_get_ok.2 hps, bind_ok, dict_get_ok.2 hpa, bind_ok, if_neg (by omega)]
      exact ih.2 h

theorem checkPrecedence_iff (sch : Dict Nat (Int × Int)) : ∀ l : Dict Nat (List Nat), checkPrecedence sch l = .ok true ↔
    ∀ a ss, (a, ss) ∈ l → ∀ b ∈ ss, ∃ pa pb, sch.get? a = some pa ∧ sch.get? b = some pb ∧ pa.2 ≤ pb.1 := by
  intro l
  induction l with
  | nil => simp [checkPrecedence]
  | cons p l ih =>
    obtain ⟨a, ss⟩ := p
    simp only [checkPrecedence]
    constructor
    · intro h
      obtain ⟨ok, hok, h⟩ := bind_eq_ok.1 h
      cases ok with
      | false => simp at h
      | true =>
        simp only [↓reduceIte] at h
        intro a' ss' hm
        rcases List.mem_cons.1 hm with g | g
        · cases g; exact (checkSuccs_iff sch _ _).1 hok
        · exact ih.1 h a' ss' g
    · intro h
      rw [(checkSuccs_iff sch a ss).2 (h a ss (by simp)), bind_ok]
      simp only [↓reduceIte]
      exact ih.2 (fun a' ss' hm => h a' ss' (by simp [hm]))

theorem makespan_eq {sch : Dict Nat (Int × Int)} {a : Nat} {p : Int × Int} (h : sch.get? a = some p) (hmax : ∀ b ∈ sch.keys, b ≤ a) :
    makespan sch = .ok p.2 := by
  have ha : a ∈ sch.keys := (Dict.get?_isSome_iff_mem_keys _ _).1 (by rw [h]; rfl)
  have : sch.keys.max? = some a := List.max?_eq_some_iff.2 ⟨ha, hmax⟩
  simp only [makespan, maxKey, this, bind_ok, dict_get_ok.2 h]

theorem get?_map_zero (f : String → Int) (res : String) : ∀ d : Dict String Capacity, res ∈ d.keys →
    Dict.get? ((d.map (fun p => (p.1, (0 : Int)))).map (fun p => (p.1, p.2 + f p.1))) res = some (f res) := by
  intro d
  induction d with
  | nil => intro h; simp [Dict.keys] at h
  | cons p d ih =>
    intro h
    obtain ⟨k, x⟩ := p
    simp only [List.map_cons, Dict.get?]
    split
    · rename_i e; subst e; simp
    · rename_i e
      apply ih
      simp only [Dict.keys, List.map_cons, List.mem_cons] at h ⊢
      rcases h with g | g
      · exact absurd g.symm e
      · exact g

end Verif.Rcpsp
