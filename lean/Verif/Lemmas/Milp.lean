import Verif.Model.Milp
import Verif.Lemmas.ListSum
/- Helper lemmas about programs and list comprehensions. -/
namespace Verif.Milp

theorem mapE_ok {α β : Type} {f : α → Except PyErr β} {g : α → β} {l : List α}
    (h : ∀ x, x ∈ l → f x = .ok (g x)) : mapE f l = .ok (l.map g) := by
  induction l with
  | nil => rfl
  | cons x l ih =>
    simp only [mapE, h x (by simp), ih (fun y hy => h y (by simp [hy])), bind_ok, List.map_cons]

theorem mapE_inv {α β : Type} {f : α → Except PyErr β} {g : α → β}
    (h : ∀ x y, f x = .ok y → y = g x) {l : List α} {ys : List β} (hl : mapE f l = .ok ys) :
    ys = l.map g ∧ ∀ x, x ∈ l → f x = .ok (g x) := by
  induction l generalizing ys with
  | nil => simp only [mapE, Except.ok.injEq] at hl; subst hl; simp
  | cons x l ih =>
    simp only [mapE, bind_eq_ok, Except.ok.injEq] at hl
    obtain ⟨y, hy, zs, hz, rfl⟩ := hl
    obtain ⟨rfl, hz'⟩ := ih hz
    have := h x y hy
    subst this
    refine ⟨rfl, ?_⟩
    intro z hz
    rcases List.mem_cons.1 hz with rfl | hz
    · exact hy
    · exact hz' z hz

theorem mapE_error {α β : Type} {f : α → Except PyErr β} {e : PyErr}
    (h : ∀ x e', f x = .error e' → e' = e) {l : List α} (hl : ∃ x, x ∈ l ∧ f x = .error e) :
    mapE f l = .error e := by
  induction l with
  | nil => simp at hl
  | cons x l ih =>
    cases hx : f x with
    | error e' => simp [mapE, hx, h x e' hx, bind_error]
    | ok y =>
      obtain ⟨z, hz, hze⟩ := hl
      rcases List.mem_cons.1 hz with rfl | hz
      · rw [hx] at hze; cases hze
      · simp [mapE, hx, bind_ok, ih ⟨z, hz, hze⟩, bind_error]

theorem mapE_err {α β : Type} {f : α → Except PyErr β} {e : PyErr}
    (h : ∀ x e', f x = .error e' → e' = e) {l : List α} {e' : PyErr} (hl : mapE f l = .error e') : e' = e := by
  induction l with
  | nil => cases hl
  | cons x l ih =>
    cases hx : f x with
    | error e'' => simp only [mapE, hx, bind_error, Except.error.injEq] at hl; rw [← hl]; exact h x e'' hx
    | ok y =>
      cases hm : mapE f l with
      | error e'' => simp only [mapE, hx, bind_ok, hm, bind_error, Except.error.injEq] at hl; subst hl; exact ih hm
      | ok ys => simp [mapE, hx, bind_ok, hm] at hl

theorem value_nil {V : Type} (a : V → Int) : Lin.value [] a = 0 := rfl

theorem value_append {V : Type} (l l' : Lin V) (a : V → Int) :
    Lin.value (l ++ l') a = Lin.value l a + Lin.value l' a := by
  unfold Lin.value; rw [List.map_append, sum_append_int]

theorem value_cons {V : Type} (t : Int × V) (l : Lin V) (a : V → Int) :
    Lin.value (t :: l) a = t.1 * a t.2 + Lin.value l a := by
  simp [Lin.value]

theorem value_map {V α : Type} (l : List α) (f : α → Int × V) (a : V → Int) :
    Lin.value (l.map f) a = (l.map (fun x => (f x).1 * a (f x).2)).sum := by
  simp [Lin.value, List.map_map, Function.comp_def]

theorem value_flatMap {V α : Type} (l : List α) (f : α → Lin V) (a : V → Int) :
    Lin.value (l.flatMap f) a = (l.map (fun x => (f x).value a)).sum := by
  induction l with
  | nil => rfl
  | cons x l ih => rw [List.flatMap_cons, value_append, ih]; simp

/-- A sum of zeros and ones that is one has exactly one one. -/
theorem sum_one {α : Type} {l : List α} {f : α → Int} (h01 : ∀ x, x ∈ l → f x = 0 ∨ f x = 1)
    (hs : (l.map f).sum = 1) : ∃ l₁ x l₂, l = l₁ ++ x :: l₂ ∧ f x = 1 ∧ (∀ y, y ∈ l₁ → f y = 0) ∧ ∀ y, y ∈ l₂ → f y = 0 := by
  induction l with
  | nil => simp at hs
  | cons x l ih =>
    simp only [List.map_cons, List.sum_cons] at hs
    rcases h01 x (by simp) with h0 | h1
    · obtain ⟨l₁, y, l₂, rfl, hy, h1, h2⟩ := ih (fun y hy => h01 y (by simp [hy])) (by omega)
      refine ⟨x :: l₁, y, l₂, rfl, hy, ?_, h2⟩
      intro z hz
      rcases List.mem_cons.1 hz with rfl | hz
      · exact h0
      · exact h1 z hz
    · refine ⟨[], x, l, rfl, h1, by simp, ?_⟩
      have hz : (l.map f).sum = 0 := by omega
      intro y hy
      have hn : ∀ v, v ∈ l.map f → 0 ≤ v := by
        intro v hv
        obtain ⟨w, hw, rfl⟩ := List.mem_map.1 hv
        rcases h01 w (by simp [hw]) with h | h <;> omega
      have := le_sum_of_mem_int hn (List.mem_map.2 ⟨y, hy, rfl⟩)
      rcases h01 y (by simp [hy]) with h | h <;> omega

/-- With a list without repetition: the one element, and weighted sums are its weight. -/
theorem sum_one_unique {α : Type} {l : List α} (hl : l.Nodup) {f : α → Int} (h01 : ∀ x, x ∈ l → f x = 0 ∨ f x = 1)
    (hs : (l.map f).sum = 1) :
    ∃ x, x ∈ l ∧ f x = 1 ∧ (∀ y, y ∈ l → y ≠ x → f y = 0) ∧
      ∀ w : α → Int, (l.map (fun y => w y * f y)).sum = w x := by
  obtain ⟨l₁, x, l₂, rfl, hx, h1, h2⟩ := sum_one h01 hs
  refine ⟨x, by simp, hx, ?_, ?_⟩
  · intro y hy hne
    rcases List.mem_append.1 hy with hy | hy
    · exact h1 y hy
    · rcases List.mem_cons.1 hy with rfl | hy
      · exact absurd rfl hne
      · exact h2 y hy
  · intro w
    rw [List.map_append, List.map_cons, sum_append_int, List.sum_cons, hx,
      sum_zero_int (l := l₁.map _), sum_zero_int (l := l₂.map _)]
    · omega
    · intro v hv
      obtain ⟨y, hy, rfl⟩ := List.mem_map.1 hv
      rw [h2 y hy]; omega
    · intro v hv
      obtain ⟨y, hy, rfl⟩ := List.mem_map.1 hv
      rw [h1 y hy]; omega

/-- The sum over a list without repetition of a function that is one at one element and zero elsewhere. -/
theorem sum_indicator {α : Type} [DecidableEq α] {l : List α} (hl : l.Nodup) {x : α} (hx : x ∈ l) (w : α → Int) :
    (l.map (fun y => w y * (if y = x then 1 else 0))).sum = w x := by
  induction l with
  | nil => simp at hx
  | cons y l ih =>
    rw [List.map_cons, List.sum_cons]
    obtain ⟨hy, hl⟩ := List.nodup_cons.1 hl
    rcases List.mem_cons.1 hx with rfl | hx
    · rw [sum_zero_int (l := l.map _)]
      · simp
      · intro v hv
        obtain ⟨z, hz, rfl⟩ := List.mem_map.1 hv
        have : z ≠ x := fun h => hy (h ▸ hz)
        simp [this]
    · have : y ≠ x := fun h => hy (h ▸ hx)
      rw [ih hl hx]; simp [this]

end Verif.Milp
