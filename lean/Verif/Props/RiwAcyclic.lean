import Verif.Props.Riw

/-!
C122: the solver RIW on domains without circles.
-/
namespace Verif.Riw

variable {σ α φ κ : Type}

/-- C122: on a domain without circles, in which each state has actions unless it is terminal and no path from the start is longer than `max_depth`,
`solve` returns: it neither throws nor goes on for ever, whatever the random draws, the clock and the order of the sets. -/
theorem C122_returns [DecidableEq κ] [DecidableEq φ] {d : Domain σ α φ} {c : Config σ κ} (rank : σ → Nat) (hinj : ∀ x y, c.key x = c.key y → x = y)
    (hdown : ∀ s, ∀ a ∈ d.actions s, rank (d.next s a) < rank s) (hlive : ∀ s, ∀ a ∈ d.actions s, d.terminal s a = false → d.actions (d.next s a) ≠ [])
    (ho : ∀ l x, x ∈ c.order l ↔ x ∈ l) {s : σ} (hs : d.actions s ≠ []) (hr : rank s ≤ c.maxDepth) {fuel : Nat} (hf : rank s < fuel) :
    ∃ st b, solve d c fuel s {} = some (.ok (st, b)) := by
  refine Sane.solve ⟨hinj, hdown⟩ ho hlive hr hs hf ⟨Reached.new.good, ?_, ?_, ?_⟩ ?_
  all_goals intro i n hn; simp at hn

/-- A height of the states of `two`. -/
def height : Nat → Nat
  | 0 => 2
  | 1 => 1
  | 2 => 1
  | _ => 0

theorem two_down : ∀ s, ∀ a ∈ two.actions s, height (two.next s a) < height s := by
  intro s a ha
  match s with
  | 0 => simp [two] at ha; rcases ha with rfl | rfl <;> decide
  | 1 => simp [two] at ha; subst ha; decide
  | 2 => simp [two] at ha; subst ha; decide
  | s + 3 => simp [two] at ha

theorem two_live : ∀ s, ∀ a ∈ two.actions s, two.terminal s a = false → two.actions (two.next s a) ≠ [] := by
  intro s a ha ht
  match s with
  | 0 => simp [two] at ha; rcases ha with rfl | rfl <;> decide
  | 1 => simp [two] at ha; subst ha; simp [two] at ht
  | 2 => simp [two] at ha; subst ha; simp [two] at ht
  | s + 3 => simp [two] at ha

-- the hypotheses of `C122_returns`, with sets iterated backwards
example : ∃ st b, solve two { key := id, maxDepth := 2, order := List.reverse, pick := fun k => k } 3 0 {} = some (.ok (st, b)) :=
  C122_returns height (fun _ _ h => h) two_down two_live (by simp) (by decide) (by decide) (by decide)

/-- No circles, and each state has actions or is terminal, but there are paths of six steps. -/
def deep : Domain Nat Nat Nat where
  actions := fun s => match s with
    | 0 => [1, 2, 3, 4, 5]
    | 1 => [2]
    | 2 => [3]
    | 3 => [4]
    | 4 => [7]
    | 5 => [6]
    | 6 => [8]
    | 7 => [8]
    | _ => []
  next := fun _ a => a
  reward := fun _ _ => -1
  terminal := fun _ a => a = 8
  features := fun s => match s with
    | 0 => [0, 0, 0]
    | 1 => [0, 0, 1]
    | 2 => [0, 1, 0]
    | 3 => [1, 0, 0]
    | 4 => [1, 1, 0]
    | 5 => [1, 1, 1]
    | 6 => [0, 0, 0]
    | 7 => [0, 1, 1]
    | _ => [2, 2, 2]

/-- A height of the states of `deep`. -/
def deepHeight : Nat → Nat
  | 0 => 6
  | 1 => 5
  | 2 => 4
  | 3 => 3
  | 4 => 2
  | 5 => 2
  | 6 => 1
  | 7 => 1
  | _ => 0

/-- C122 disagreement: where paths are longer than `max_depth` the backup stops before it arrives at the start; all children of the start
are solved then while the start is not, and the next rollout throws. -/
theorem C122_long_paths_throw : (∀ s, s < 9 → ∀ a ∈ deep.actions s, deepHeight (deep.next s a) < deepHeight s ∧ (deep.terminal s a = false → deep.actions (deep.next s a) ≠ [])) ∧
    (match solve deep { key := id, maxDepth := 2, pick := fun i => if i = 0 then 4 else 0 } 100 0 {} with
      | some (.error .runtimeError) => true
      | _ => false) = true := by
  refine ⟨?_, by decide +kernel⟩
  intro s hs a ha
  revert s a
  decide +kernel

end Verif.Riw
