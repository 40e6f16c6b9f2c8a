import Verif.Model.OrTools
import Verif.Props.Vrp
import Mathlib.Algebra.Order.Ring.Rat
import Mathlib.Data.List.Nodup
import Mathlib.Tactic.Linarith
/-
Lemmas about the routing library.
-/
namespace Verif.OrTools
open VrpTools (cut matrix)

/-- The indices from `i` up to the end `e`, without the end. -/
inductive Route (R : Routing) : Nat → List Nat → Nat → Prop
  | fin {e} : R.isEnd e = true → Route R e [] e
  | step {i l e} : R.isEnd i = false → Route R (R.next i) l e → Route R i (i :: l) e

theorem walk_route {R : Routing} {demands : List Int} {i e : Nat} {l : List Nat} (h : Route R i l e) :
    (∀ x ∈ l, R.node x < demands.length) → ∀ (fuel cnt : Nat) (tour : List Nat), l.length < fuel →
    walk R demands fuel i cnt tour = .ok (some (tour ++ (if cnt = 0 then l.drop 1 else l).map R.node)) := by
  induction h with
  | fin he =>
    intro _ fuel cnt tour hf
    cases fuel with
    | zero => simp at hf
    | succ fuel => simp [walk, he]
  | @step i l e hi _ ih =>
    intro hd fuel cnt tour hf
    cases fuel with
    | zero => simp at hf
    | succ fuel =>
      have hg := pyGet_of_lt (hd i (by simp))
      simp only [List.length_cons] at hf
      simp only [walk, hi, hg, bind_ok]
      rw [if_neg (by simp), ih (fun x hx => hd x (by simp [hx])) fuel (cnt + 1) _ (by omega)]
      by_cases hc : cnt = 0 <;> simp [hc]

theorem retrieveFrom_routes {R : Routing} {demands : List Int} {fuel : Nat} : ∀ (ls : List (List Nat)) (v : Nat),
    (∀ k l, ls[k]? = some l → (∃ e, Route R (R.start (v + k)) l e) ∧ (∀ x ∈ l, R.node x < demands.length) ∧ l.length < fuel) →
    retrieveFrom R demands fuel ls.length v = .ok (some (ls.map (fun l => (l.drop 1).map R.node)))
  | [], _, _ => rfl
  | l :: ls, v, h => by
    obtain ⟨⟨e, h1⟩, h2, h3⟩ := h 0 l rfl
    rw [Nat.add_zero] at h1
    have ih := retrieveFrom_routes ls (v + 1) (fun k l' hk => by
      have := h (k + 1) l' (by simpa using hk)
      rwa [show v + (k + 1) = v + 1 + k by omega] at this)
    simp only [List.length_cons, retrieveFrom, walk_route h1 h2 fuel 0 [] h3, bind_ok, ih]
    simp

theorem tspWalk_route {R : Routing} {i e : Nat} {l : List Nat} (h : Route R i l e) :
    ∀ (fuel : Nat) (sol : List Nat), l.length < fuel →
    tspWalk R fuel i sol = some (sol ++ ((l ++ [e]).drop 1).map R.node) := by
  induction h with
  | fin he =>
    intro fuel sol hf
    cases fuel with
    | zero => simp at hf
    | succ fuel => simp [tspWalk, he]
  | @step i l e hi hr ih =>
    intro fuel sol hf
    cases fuel with
    | zero => simp at hf
    | succ fuel =>
      simp only [List.length_cons] at hf
      simp only [tspWalk, hi]
      rw [if_neg (by simp), ih fuel _ (by omega)]
      cases hr <;> simp

theorem cut_bounds {x : Rat} (h : 0 ≤ x) : (cut x : Rat) ≤ x ∧ x < cut x + 1 := by
  unfold cut
  rw [if_pos h]
  exact ⟨Rat.floor_le x, by exact_mod_cast Rat.lt_floor_add_one x⟩

theorem cut_int (z : Int) : cut (z : Rat) = z := by
  unfold cut
  split <;> simp

theorem route_cons {R : Routing} {i e : Nat} {l : List Nat} (h : Route R i l e) (hi : R.isEnd i = false) : ∃ m, l = i :: m := by
  cases h with
  | fin he => rw [hi] at he; cases he
  | step _ _ => exact ⟨_, rfl⟩

/-- No start and no end of the first `V` vehicles. -/
def Free (V : Nat) (starts ends : List Nat) (c : Nat) : Prop := ∀ v : Nat, v < V → starts[v]? ≠ some c ∧ ends[v]? ≠ some c

/-- What the library promises of an assignment, with `N` indices that are no ends: each vehicle goes from its start to its end, every
index that is no end is passed once; an index is the start of a vehicle or stands for a customer that is no depot, each of which has one
index. -/
structure Visits (V n : Nat) (starts ends : List Nat) (R : Routing) (N : Nat) (routes : List (List Nat)) : Prop where
  count : routes.length = V
  route : ∀ (v : Nat) l, routes[v]? = some l → ∃ e, Route R (R.start v) l e ∧ ends[v]? = some (R.node e)
  first : ∀ v, v < V → R.isEnd (R.start v) = false ∧ starts[v]? = some (R.node (R.start v))
  once : routes.flatten.Perm (List.range N)
  known : ∀ i, i < N → (∃ v, v < V ∧ i = R.start v) ∨ (R.node i < n ∧ Free V starts ends (R.node i))
  single : ∀ i j, i < N → j < N → R.node i = R.node j → Free V starts ends (R.node i) → i = j
  all : ∀ c, c < n → Free V starts ends c → ∃ i, i < N ∧ R.node i = c

theorem head_tail {L : List (List Nat)} (hn : L.flatten.Nodup) {v w x : Nat} {l m : List Nat} (hv : L[v]? = some l) (hw : L[w]? = some (x :: m))
    (hx : x ∈ l.drop 1) : False := by
  rw [List.nodup_flatten] at hn
  obtain ⟨h1, h2⟩ := hn
  obtain ⟨hv1, hv2⟩ := List.getElem?_eq_some_iff.1 hv
  obtain ⟨hw1, hw2⟩ := List.getElem?_eq_some_iff.1 hw
  rw [List.pairwise_iff_getElem] at h2
  have hxl : x ∈ l := List.mem_of_mem_drop hx
  have hxm : x ∈ x :: m := by simp
  rcases Nat.lt_trichotomy v w with h | h | h
  · exact h2 v w hv1 hw1 h (by rw [hv2]; exact hxl) (by rw [hw2]; exact hxm)
  · subst h
    rw [hv] at hw
    cases hw
    have := h1 _ (List.mem_of_getElem? hv)
    simp only [List.nodup_cons] at this
    simp only [List.drop_one, List.tail_cons] at hx
    exact this.1 hx
  · exact h2 w v hw1 hv1 h (by rw [hw2]; exact hxm) (by rw [hv2]; exact hxl)

theorem Visits.inner {V n : Nat} {starts ends : List Nat} {R : Routing} {N : Nat} {routes : List (List Nat)} (h : Visits V n starts ends R N routes) :
    ((routes.map (fun l => (l.drop 1).map R.node)).flatten).Nodup ∧
    ∀ c, c ∈ (routes.map (fun l => (l.drop 1).map R.node)).flatten ↔ c < n ∧ Free V starts ends c := by
  have hnd : routes.flatten.Nodup := h.once.nodup_iff.2 List.nodup_range
  have hlt : ∀ i, i ∈ routes.flatten ↔ i < N := fun i => by rw [h.once.mem_iff, List.mem_range]
  have key : ∀ (v : Nat) l, routes[v]? = some l → ∃ m, l = R.start v :: m := by
    intro v l hl
    obtain ⟨e, h1, _⟩ := h.route v l hl
    have : v < V := by rw [← h.count]; exact (List.getElem?_eq_some_iff.1 hl).1
    exact route_cons h1 (h.first v this).1
  have free : ∀ i, i ∈ (routes.map (fun l => l.drop 1)).flatten → i < N ∧ R.node i < n ∧ Free V starts ends (R.node i) := by
    intro i hi
    simp only [List.mem_flatten, List.mem_map] at hi
    obtain ⟨_, ⟨l, hl, rfl⟩, hi⟩ := hi
    obtain ⟨v, hv⟩ := List.mem_iff_getElem?.1 hl
    have hN : i < N := (hlt i).1 (List.mem_flatten.2 ⟨l, hl, List.mem_of_mem_drop hi⟩)
    rcases h.known i hN with ⟨w, hw, rfl⟩ | h2
    · have hw' : w < routes.length := by rw [h.count]; exact hw
      obtain ⟨m, hm⟩ := key w _ (List.getElem?_eq_getElem hw')
      exact (head_tail hnd hv (by rw [List.getElem?_eq_getElem hw', hm]) hi).elim
    · exact ⟨hN, h2⟩
  have hflat : (routes.map (fun l => (l.drop 1).map R.node)).flatten = ((routes.map (fun l => l.drop 1)).flatten).map R.node := by
    rw [List.map_flatten, List.map_map]
    rfl
  have hsub : (routes.map (fun l => l.drop 1)).flatten.Nodup := by
    have : ∀ L : List (List Nat), (L.map (fun l => l.drop 1)).flatten.Sublist L.flatten := by
      intro L
      induction L with
      | nil => simp
      | cons a L ih => simp only [List.map_cons, List.flatten_cons]; exact List.Sublist.append (List.drop_sublist 1 a) ih
    exact hnd.sublist (this _)
  rw [hflat]
  constructor
  · refine List.pairwise_map.2 (List.Pairwise.imp_of_mem ?_ hsub)
    intro i j hi hj hne he
    exact hne (h.single i j (free i hi).1 (free j hj).1 he (free i hi).2.2)
  · intro c
    constructor
    · intro hc
      obtain ⟨i, hi, rfl⟩ := List.mem_map.1 hc
      exact (free i hi).2
    · rintro ⟨hc, hf⟩
      obtain ⟨i, hi, rfl⟩ := h.all c hc hf
      obtain ⟨l, hl, hil⟩ := List.mem_flatten.1 ((hlt i).2 hi)
      obtain ⟨v, hv⟩ := List.mem_iff_getElem?.1 hl
      obtain ⟨m, rfl⟩ := key v l hv
      have hvV : v < V := by rw [← h.count]; exact (List.getElem?_eq_some_iff.1 hv).1
      refine List.mem_map.2 ⟨i, List.mem_flatten.2 ⟨m, List.mem_map.2 ⟨_, hl, rfl⟩, ?_⟩, rfl⟩
      rcases List.mem_cons.1 hil with rfl | h2
      · exact ((hf v hvV).1 (h.first v hvV).2).elim
      · exact h2

end Verif.OrTools
