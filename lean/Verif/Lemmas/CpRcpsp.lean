import Verif.Model.CpRcpsp
import Verif.Lemmas.Robust
import Verif.Lemmas.KnapsackLp
import Verif.Props.Robust

namespace Verif.CpRcpsp
open Rcpsp Milp Robust

/-- Activities are numbered from 1 on; resources have different names. -/
structure Numbered (pb : Problem) : Prop where
  acts : pb.modes.keys.Perm (List.range' 1 pb.modes.length)
  res : pb.resources.keys.Nodup

theorem tasks_eq {pb : Problem} (h : Numbered pb) : tasks pb = List.range' 1 pb.modes.length := by
  unfold tasks
  rw [sortBy_congr h.acts (by intro a b _ _ hab; omega)]
  exact KnapsackLp.sortBy_of_sorted (List.Pairwise.imp (fun h => by omega) List.pairwise_lt_range')

theorem forall_get {α β : Type} {R : α → β → Prop} : ∀ {l : List α} {l' : List β}, List.Forall₂ R l l' →
    l'.length = l.length ∧ ∀ (i : Nat) (a : α), l[i]? = some a → ∃ b, l'[i]? = some b ∧ R a b
  | _, _, .nil => ⟨rfl, fun i a h => by simp at h⟩
  | _, _, .cons (a := x) (b := y) hxy t => by
    obtain ⟨h1, h2⟩ := forall_get t
    refine ⟨by simp [h1], ?_⟩
    intro i a h
    cases i with
    | zero => simp only [List.getElem?_cons_zero, Option.some.injEq] at h; subst h; exact ⟨y, rfl, hxy⟩
    | succ i => simp only [List.getElem?_cons_succ] at h ⊢; exact h2 i a h

theorem mapE_get {α β : Type} {f : α → Except PyErr β} {l : List α} {ys : List β} (h : mapE f l = .ok ys) :
    ys.length = l.length ∧ ∀ (i : Nat) (a : α), l[i]? = some a → ∃ b, ys[i]? = some b ∧ f a = .ok b := forall_get (mapE_forall h)

theorem modeAt_ok {pb : Problem} {t k : Nat} {m : Mode} (h : modeAt pb t k = .ok m) :
    (pb.modes.get? t).bind (fun ms => ms.get? k) = some m := by
  simp only [modeAt, bind_eq_ok] at h
  obtain ⟨ms, h1, h2⟩ := h
  rw [get_eq h1, Option.bind_some, get_eq h2]

theorem el_of {l : List Int} {i : Nat} {x : Int} (h : l[i]? = some x) : el l i = x := by
  simp [el, List.getD, h]

/-- The data are those of the project. -/
structure Data (pb : Problem) (D : Single) : Prop where
  n : D.d.length = pb.modes.length
  dur : ∀ i, i < D.d.length → durOf pb (i + 1) 1 = some (el D.d i)
  nres : D.rc.length = pb.resources.length
  cap : ∀ (r : Nat) (p : String × Capacity), pb.resources[r]? = some p → p.2 = .const (el D.rc r)
  need : ∀ (r : Nat) (p : String × Capacity), pb.resources[r]? = some p → ∀ i, i < D.d.length → needOf pb (i + 1) 1 p.1 = some (el2 D.rr r i)
  suc : ∀ i, i < D.d.length → pb.successors.get? (i + 1) = some (D.suc.getD i [])

theorem range'_get {n i : Nat} (h : i < n) : (List.range' 1 n)[i]? = some (i + 1) := by
  rw [List.getElem?_range' (by omega)]; congr 1; omega

theorem single_data {pb : Problem} {D : Single} (hn : Numbered pb) (h : single pb = .ok D) : Data pb D := by
  simp only [single, bind_eq_ok, Except.ok.injEq] at h
  obtain ⟨rc, h1, d, h2, rr, h3, suc, h4, rfl⟩ := h
  rw [tasks_eq hn] at h2 h3 h4
  obtain ⟨l1, g1⟩ := mapE_get h1
  obtain ⟨l2, g2⟩ := mapE_get h2
  obtain ⟨l3, g3⟩ := mapE_get h3
  obtain ⟨l4, g4⟩ := mapE_get h4
  rw [List.length_range'] at l2 l4
  refine ⟨l2, ?_, l1, ?_, ?_, ?_⟩
  · intro i hi
    obtain ⟨b, e1, e2⟩ := g2 i (i + 1) (range'_get (by rw [← l2]; exact hi))
    simp only [bind_eq_ok, Except.ok.injEq] at e2
    obtain ⟨m, e2, e3⟩ := e2
    show durOf pb (i + 1) 1 = some (el d i)
    rw [el_of e1, durOf, modeAt_ok e2, ← e3]; rfl
  · intro r p hp
    obtain ⟨b, e1, e2⟩ := g1 r p hp
    show p.2 = .const (el rc r)
    rw [el_of e1]
    unfold number at e2
    split at e2
    · rename_i c hc; rw [hc, Except.ok.inj e2]
    · cases e2
  · intro r p hp i hi
    have hk : pb.resources.keys[r]? = some p.1 := by simp [Dict.keys, hp]
    obtain ⟨row, e1, e2⟩ := g3 r p.1 hk
    obtain ⟨l5, g5⟩ := mapE_get e2
    obtain ⟨b, e3, e4⟩ := g5 i (i + 1) (range'_get (by rw [← l2]; exact hi))
    simp only [bind_eq_ok] at e4
    obtain ⟨m, e4, e5⟩ := e4
    show needOf pb (i + 1) 1 p.1 = some (el2 rr r i)
    have : el2 rr r i = b := by
      unfold el2
      have : rr.getD r [] = row := by simp [List.getD, e1]
      rw [this, el_of e3]
    rw [this, needOf, modeAt_ok e4, Option.bind_some, get_eq e5]
  · intro i hi
    obtain ⟨b, e1, e2⟩ := g4 i (i + 1) (range'_get (by rw [← l2]; exact hi))
    show pb.successors.get? (i + 1) = some (suc.getD i [])
    have : suc.getD i [] = b := by simp [List.getD, e1]
    rw [this, get_eq e2]

/-! ### Loads -/

/-- Start of the activity numbered `a`. -/
def startOf (s : List Int) (a : Nat) : Int := el s (a - 1)

theorem required_eq {pb : Problem} {D : Single} (hn : Numbered pb) (hd : Data pb D) {start : Nat → Int} {r : Nat} {p : String × Capacity}
    (hp : pb.resources[r]? = some p) (t : Int) : required pb (fun _ => 1) start p.1 t =
      (((List.range D.d.length).filter (fun i => decide (start (i + 1) ≤ t ∧ t < start (i + 1) + el D.d i))).map (el2 D.rr r)).sum := by
  unfold required
  have hperm : pb.modes.keys.Perm ((List.range D.d.length).map (· + 1)) := by
    refine hn.acts.trans (List.Perm.of_eq ?_)
    rw [← hd.n, List.range'_eq_map_range]
    exact List.map_congr_left (fun i _ => by omega)
  rw [((hperm.filter _).map _).sum_eq, List.filter_map, List.map_map]
  congr 1
  have e1 : ∀ i ∈ List.range D.d.length, ((fun a => decide (start a ≤ t ∧ t < start a + (durOf pb a 1).getD 0)) ∘ (· + 1)) i =
      decide (start (i + 1) ≤ t ∧ t < start (i + 1) + el D.d i) := by
    intro i hi
    simp only [Function.comp_apply, hd.dur i (List.mem_range.1 hi), Option.getD_some]
  rw [List.filter_congr e1]
  refine List.map_congr_left (fun i hi => ?_)
  have := List.mem_range.1 (List.mem_filter.1 hi).1
  simp only [Function.comp_apply, hd.need r p hp i this, Option.getD_some]

theorem sum_filter_pos {r : Nat → Int} {P Q : Nat → Bool} : ∀ (l : List Nat), (∀ i ∈ l, P i = true → Q i = false → r i ≤ 0) →
    ((l.filter P).map r).sum ≤ (((l.filter Q).filter P).map r).sum
  | [], _ => by simp
  | i :: l, h => by
    have ih := sum_filter_pos l (fun j hj => h j (List.mem_cons_of_mem _ hj))
    have := h i (by simp)
    simp only [List.filter_cons]
    cases hP : P i <;> cases hQ : Q i <;> simp only [hP, Bool.false_eq_true, if_false, if_true, List.filter_cons, List.map_cons, List.sum_cons] <;>
      first | omega | (have := this hP hQ; omega)

theorem sum_filter_nonneg {r : Nat → Int} {P : Nat → Bool} : ∀ (l : List Nat), (∀ i ∈ l, 0 ≤ r i) →
    ((l.filter P).map r).sum ≤ (l.map r).sum ∧ 0 ≤ ((l.filter P).map r).sum
  | [], _ => by simp
  | i :: l, h => by
    have ih := sum_filter_nonneg (P := P) l (fun j hj => h j (List.mem_cons_of_mem _ hj))
    have := h i (by simp)
    simp only [List.filter_cons]
    split <;> simp only [List.map_cons, List.sum_cons] <;> omega

theorem single_le_sum {r : Nat → Int} : ∀ {l : List Nat}, (∀ i ∈ l, 0 ≤ r i) → ∀ i ∈ l, r i ≤ (l.map r).sum
  | j :: l, h, i, hi => by
    have hs := (sum_filter_nonneg (r := r) (P := fun _ => false) l (fun k hk => h k (List.mem_cons_of_mem _ hk))).1
    have hj := h j (by simp)
    have h0 : 0 ≤ (l.map r).sum := by simpa using hs
    simp only [List.map_cons, List.sum_cons]
    rcases List.mem_cons.1 hi with rfl | hi
    · omega
    · have := single_le_sum (fun k hk => h k (List.mem_cons_of_mem _ hk)) i hi
      omega

theorem pair_le_sum {r : Nat → Int} : ∀ {l : List Nat}, (∀ i ∈ l, 0 ≤ r i) → ∀ i ∈ l, ∀ j ∈ l, i ≠ j → r i + r j ≤ (l.map r).sum
  | k :: l, h, i, hi, j, hj, hne => by
    have h' : ∀ i ∈ l, 0 ≤ r i := fun x hx => h x (List.mem_cons_of_mem _ hx)
    have hk := h k (by simp)
    simp only [List.map_cons, List.sum_cons]
    rcases List.mem_cons.1 hi with rfl | hi'
    · rcases List.mem_cons.1 hj with rfl | hj'
      · exact absurd rfl hne
      · have := single_le_sum h' j hj'; omega
    · rcases List.mem_cons.1 hj with rfl | hj'
      · have := single_le_sum h' i hi'; omega
      · have := pair_le_sum h' i hi' j hj' hne; omega

theorem retrieve_spec {pb : Problem} {s : List Int} {sch : Dict Nat (Int × Int)} (h : retrieve pb s = .ok sch) :
    sch.keys = List.range' 1 s.length ∧ ∀ (i : Nat) (x : Int), s[i]? = some x → ∃ d, durOf pb (i + 1) 1 = some d ∧ sch.get? (i + 1) = some (x, x + d) := by
  obtain ⟨l1, g1⟩ := mapE_get h
  rw [List.length_zipIdx] at l1
  have hg : ∀ (i : Nat) (x : Int), s[i]? = some x → ∃ d, durOf pb (i + 1) 1 = some d ∧ sch[i]? = some (i + 1, (x, x + d)) := by
    intro i x hx
    obtain ⟨b, e1, e2⟩ := g1 i (x, i) (by simp [List.getElem?_zipIdx, hx])
    simp only [bind_eq_ok, Except.ok.injEq] at e2
    obtain ⟨m, e2, rfl⟩ := e2
    exact ⟨(m.duration : Int), by rw [durOf, modeAt_ok e2]; rfl, e1⟩
  have hk : sch.keys = List.range' 1 s.length := by
    refine List.ext_getElem? (fun i => ?_)
    by_cases hi : i < s.length
    · obtain ⟨d, -, e2⟩ := hg i s[i] (List.getElem?_eq_getElem hi)
      rw [range'_get hi]
      simp [Dict.keys, e2]
    · have : sch.length ≤ i := by omega
      rw [List.getElem?_eq_none (by rw [Dict.keys, List.length_map]; exact this),
        List.getElem?_eq_none (by rw [List.length_range']; omega)]
  refine ⟨hk, ?_⟩
  intro i x hx
  obtain ⟨d, e1, e2⟩ := hg i x hx
  refine ⟨d, e1, Dict.get?_of_mem ?_ (List.mem_of_getElem? e2)⟩
  rw [hk]; exact List.nodup_range'

end Verif.CpRcpsp
