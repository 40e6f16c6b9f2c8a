/-
Small shared vocabulary for modelling Python behaviour.
-/
namespace Verif

/-- The Python exceptions that the modelled functions can raise.  Exceptions are
values in the model: a raising call is `Except.error e`. -/
inductive PyErr where
  | indexError
  | keyError
  | typeError
  | valueError
  | nameError
  | attributeError
  | zeroDivisionError
  | assertionError
  | notImplementedError
  | stopIteration
  | runtimeError
  deriving DecidableEq, Repr

instance instDecidableEqExcept [DecidableEq ε] [DecidableEq α] : DecidableEq (Except ε α) := by
  intro a b
  cases a with
  | error e =>
    cases b with
    | error e' => exact decidable_of_iff (e = e') (by simp)
    | ok _ => exact isFalse (by simp)
  | ok a =>
    cases b with
    | error _ => exact isFalse (by simp)
    | ok b => exact decidable_of_iff (a = b) (by simp)

/-- A Python dictionary with keys `κ`: association list in insertion order; the
operations below keep the keys distinct, as a Python `dict` does. -/
abbrev Dict (κ : Type u) (α : Type v) := List (κ × α)

namespace Dict
variable {κ : Type u} {α : Type v} [DecidableEq κ]

/-- `d[k]` (or `d.get(k)`): the value stored under `k`. -/
def get? (d : Dict κ α) (k : κ) : Option α :=
  match d with
  | [] => none
  | (k', v) :: d => if k' = k then some v else get? d k

/-- `d[k]` raising `KeyError` when absent. -/
def get (d : Dict κ α) (k : κ) : Except PyErr α :=
  match get? d k with
  | some v => .ok v
  | none => .error .keyError

/-- `d[k] = v`: overwrite in place when `k` is present, otherwise append. -/
def set (d : Dict κ α) (k : κ) (v : α) : Dict κ α :=
  match d with
  | [] => [(k, v)]
  | (k', v') :: d => if k' = k then (k', v) :: d else (k', v') :: set d k v

/-- `k in d`. -/
def contains (d : Dict κ α) (k : κ) : Bool :=
  match d with
  | [] => false
  | (k', _) :: d => if k' = k then true else contains d k

/-- `d.pop(k)` / `del d[k]` without the `KeyError`. -/
def erase (d : Dict κ α) (k : κ) : Dict κ α :=
  match d with
  | [] => []
  | (k', v') :: d => if k' = k then d else (k', v') :: erase d k

/-- `d.keys()`. -/
def keys (d : Dict κ α) : List κ := d.map Prod.fst

@[simp] theorem get?_nil (k : κ) : get? ([] : Dict κ α) k = none := rfl

theorem get?_set_self (d : Dict κ α) (k : κ) (v : α) : get? (set d k v) k = some v := by
  induction d with
  | nil => simp [set, get?]
  | cons p d ih =>
    obtain ⟨k', v'⟩ := p
    by_cases h : k' = k <;> simp [set, get?, h, ih]

theorem get?_set_ne (d : Dict κ α) {k k' : κ} (v : α) (h : k' ≠ k) :
    get? (set d k v) k' = get? d k' := by
  induction d with
  | nil => simp [set, get?, Ne.symm h]
  | cons p d ih =>
    obtain ⟨k₀, v₀⟩ := p
    by_cases h₀ : k₀ = k
    · subst h₀; simp [set, get?, Ne.symm h]
    · by_cases h₁ : k₀ = k'
      · subst h₁; simp [set, get?, h₀]
      · simp only [set, h₀, if_false, get?, h₁, ih]

theorem get?_set (d : Dict κ α) (k k' : κ) (v : α) :
    get? (set d k v) k' = if k' = k then some v else get? d k' := by
  by_cases h : k' = k
  · subst h; simp [get?_set_self]
  · simp [get?_set_ne d v h, h]

theorem contains_iff (d : Dict κ α) (k : κ) : contains d k = true ↔ (get? d k).isSome := by
  induction d with
  | nil => simp [contains, get?]
  | cons p d ih =>
    obtain ⟨k', v'⟩ := p
    by_cases h : k' = k <;> simp [contains, get?, h, ih]

theorem contains_eq (d : Dict κ α) (k : κ) : contains d k = (get? d k).isSome := by
  rw [Bool.eq_iff_iff, contains_iff]

theorem get?_isSome_iff_mem_keys (d : Dict κ α) (k : κ) : (get? d k).isSome ↔ k ∈ keys d := by
  induction d with
  | nil => simp [get?, keys]
  | cons p d ih =>
    obtain ⟨k', v'⟩ := p
    by_cases h : k' = k
    · simp [get?, h, keys]
    · simp only [get?, h, if_false, ih]
      simp [keys, Ne.symm h]

theorem mem_of_get? {d : Dict κ α} {k : κ} {v : α} (h : get? d k = some v) : (k, v) ∈ d := by
  induction d with
  | nil => simp at h
  | cons p d ih =>
    obtain ⟨k', v'⟩ := p
    by_cases hk : k' = k
    · simp [get?, hk] at h; simp [hk, h]
    · simp [get?, hk] at h; exact List.mem_cons_of_mem _ (ih h)

theorem get?_of_mem {d : Dict κ α} {k : κ} {v : α} (hn : (keys d).Nodup) (h : (k, v) ∈ d) :
    get? d k = some v := by
  induction d with
  | nil => simp at h
  | cons p d ih =>
    obtain ⟨k', v'⟩ := p
    simp only [keys, List.map_cons, List.nodup_cons] at hn
    rcases List.mem_cons.1 h with h | h
    · cases h; simp [get?]
    · have : k' ≠ k := by
        rintro rfl
        exact hn.1 (List.mem_map.2 ⟨_, h, rfl⟩)
      simp [get?, this, ih hn.2 h]

theorem keys_set (d : Dict κ α) (k : κ) (v : α) :
    keys (set d k v) = if k ∈ keys d then keys d else keys d ++ [k] := by
  induction d with
  | nil => simp [set, keys]
  | cons p d ih =>
    obtain ⟨k', v'⟩ := p
    by_cases h : k' = k
    · simp [set, h, keys]
    · simp only [set, h, if_false, keys, List.map_cons, List.mem_cons, Ne.symm h, false_or] at ih ⊢
      rw [ih]
      split <;> simp [*]

theorem nodup_keys_set {d : Dict κ α} (k : κ) (v : α) (h : (keys d).Nodup) :
    (keys (set d k v)).Nodup := by
  rw [keys_set]
  split
  · exact h
  · rename_i hk
    rw [List.nodup_append]
    refine ⟨h, by simp, ?_⟩
    intro a ha b hb
    simp only [List.mem_singleton] at hb
    subst hb
    rintro rfl
    exact hk ha

end Dict

/-- `l[i]` for a non-negative index, raising `IndexError` past the end. -/
def pyGet (l : List α) (i : Nat) : Except PyErr α :=
  match l[i]? with
  | some x => .ok x
  | none => .error .indexError

/-- `l[i] = v` for a non-negative index, raising `IndexError` past the end. -/
def pySet (l : List α) (i : Nat) (v : α) : Except PyErr (List α) :=
  if i < l.length then .ok (l.set i v) else .error .indexError

theorem pyGet_ok_iff {l : List α} {i : Nat} {x : α} : pyGet l i = .ok x ↔ l[i]? = some x := by
  unfold pyGet
  cases l[i]? <;> simp

theorem pySet_ok_iff {l l' : List α} {i : Nat} {v : α} :
    pySet l i v = .ok l' ↔ i < l.length ∧ l' = l.set i v := by
  unfold pySet
  by_cases h : i < l.length <;> simp [h, eq_comm]

theorem pyGet_of_lt {l : List α} {i : Nat} (h : i < l.length) : pyGet l i = .ok l[i] := by
  rw [pyGet_ok_iff]; simp [h]

@[simp] theorem bind_ok (x : α) (f : α → Except PyErr β) :
    ((Except.ok x : Except PyErr α) >>= f) = f x := rfl

@[simp] theorem bind_error (e : PyErr) (f : α → Except PyErr β) :
    ((Except.error e : Except PyErr α) >>= f) = .error e := rfl

theorem bind_eq_ok {m : Except PyErr α} {f : α → Except PyErr β} {y : β} :
    (m >>= f) = .ok y ↔ ∃ x, m = .ok x ∧ f x = .ok y := by
  cases m <;> simp

/-- Evaluated examples: the computation succeeds and its result satisfies `p`. -/
def okAnd (e : Except PyErr α) (p : α → Prop) [DecidablePred p] : Bool :=
  match e with
  | .ok x => decide (p x)
  | .error _ => false

theorem okAnd_spec {e : Except PyErr α} {p : α → Prop} [DecidablePred p] (h : okAnd e p = true) :
    ∃ x, e = .ok x ∧ p x := by
  unfold okAnd at h
  split at h
  · exact ⟨_, rfl, by simpa using h⟩
  · cases h

end Verif
