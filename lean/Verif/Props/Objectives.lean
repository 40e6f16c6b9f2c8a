import Verif.Model.Objectives
import Verif.Lemmas.ListSum
import Mathlib.Tactic.Linarith
import Mathlib.Tactic.Ring
import Mathlib.Tactic.FieldSimp

/-!
C44: aggregated objectives.  C54: robust problems.
-/
namespace Verif.Objectives
variable {σ : Type}

/-- The dictionary holds the value `v o` for each of these objectives. -/
def Holds (d : Dict String Rat) (os : List String) (v : String → Rat) : Prop := ∀ o ∈ os, d.get? o = some (v o)

/-- The weighted sum of the objectives. -/
def weightedSum (v : String → Rat) (os : List String) (ws : List Rat) : Rat :=
  ((os.zip ws).map (fun p => v p.1 * p.2)).sum

theorem collect_eq (f : Nat → Except PyErr Rat) (g : Nat → Rat) (l : List Nat) (h : ∀ i ∈ l, f i = .ok (g i)) :
    collect f l = .ok (l.map g) := by
  induction l with
  | nil => rfl
  | cons i l ih =>
    rw [collect, h i (by simp), bind_ok, ih (fun j hj => h j (by simp [hj])), bind_ok]
    rfl

theorem term_ok {d : Dict String Rat} {p : Params} {v : String → Rat} (hd : Holds d p.objectives v)
    (hw : p.objectives.length ≤ p.weights.length) {i : Nat} (hi : i < p.objectives.length) :
    term d p i = .ok (v (p.objectives[i]) * p.weights[i]) ∧ termW d p i = .ok (v (p.objectives[i]) * p.weights[i]) := by
  have h1 : d.get p.objectives[i] = .ok (v p.objectives[i]) := by
    simp only [Dict.get, hd _ (List.getElem_mem hi)]
  constructor
  · simp only [term, pyGet_of_lt hi, pyGet_of_lt (by omega : i < p.weights.length), bind_ok, h1]; rfl
  · simp only [termW, pyGet_of_lt hi, pyGet_of_lt (by omega : i < p.weights.length), bind_ok, h1]
    rw [mul_comm]; rfl

theorem range_zip (v : String → Rat) (os : List String) (ws : List Rat) (h : os.length ≤ ws.length) :
    (List.range os.length).map (fun i => v (os[i]?.getD "") * (ws[i]?.getD 0)) =
      (os.zip ws).map (fun p => v p.1 * p.2) := by
  apply List.ext_getElem
  · simp; omega
  · intro i h1 h2
    simp only [List.length_map, List.length_range] at h1
    simp [h1, (by omega : i < ws.length)]

theorem collect_terms {d : Dict String Rat} {p : Params} {v : String → Rat} (hd : Holds d p.objectives v)
    (hw : p.objectives.length ≤ p.weights.length) :
    collect (term d p) (List.range p.objectives.length) = .ok ((p.objectives.zip p.weights).map (fun q => v q.1 * q.2)) ∧
    collect (termW d p) (List.range p.objectives.length) = .ok ((p.objectives.zip p.weights).map (fun q => v q.1 * q.2)) := by
  rw [← range_zip v _ _ hw]
  constructor
  · refine collect_eq _ _ _ ?_
    intro i hi
    have hi := List.mem_range.1 hi
    rw [(term_ok hd hw hi).1]
    simp [hi, (by omega : i < p.weights.length)]
  · refine collect_eq _ _ _ ?_
    intro i hi
    have hi := List.mem_range.1 hi
    rw [(term_ok hd hw hi).2]
    simp [hi, (by omega : i < p.weights.length)]

/-- Evaluating a solution and aggregating its evaluation dictionary agree, errors included. -/
theorem C44_same (p : Params) (evaluate : σ → Dict String Rat) (s : σ) :
    evalSolution p evaluate s = evalDict p (evaluate s) := by
  unfold evalSolution evalDict
  cases p.handling <;> rfl

/-- When the dictionary has every objective and there is a weight for each, the aggregate is the
weighted sum, the single objective is the first one times its weight, and the vector lists
the weighted objectives in order. -/
theorem C44_weighted (p : Params) (d : Dict String Rat) (v : String → Rat) (hd : Holds d p.objectives v)
    (hw : p.objectives.length ≤ p.weights.length) :
    (p.handling = .aggregate → evalDict p d = .ok (.scalar (weightedSum v p.objectives p.weights))) ∧
    (p.handling = .multi → evalDict p d = .ok (.vector ((p.objectives.zip p.weights).map (fun q => v q.1 * q.2)))) ∧
    (p.handling = .single → ∀ o os w ws, p.objectives = o :: os → p.weights = w :: ws →
      evalDict p d = .ok (.scalar (v o * w))) := by
  obtain ⟨c1, c2⟩ := collect_terms hd hw
  refine ⟨?_, ?_, ?_⟩
  · intro h
    rw [evalDict, h]
    simp only [c1, bind_ok, one_mul]
    rfl
  · intro h
    rw [evalDict, h]
    simp only [c2, bind_ok, mul_one, List.map_id']
    rfl
  · intro h o os w ws h1 h2
    have hv : d.get o = .ok (v o) := by simp only [Dict.get, hd o (by rw [h1]; simp)]
    rw [evalDict, h]
    simp only [h1, h2, pyGet, List.getElem?_cons_zero, bind_ok, hv, one_mul]
    rfl

theorem collect_error (f : Nat → Except PyErr Rat) (l : List Nat) (i : Nat) (hi : i ∈ l) (e : PyErr) (h : f i = .error e) :
    ∃ e, collect f l = .error e := by
  induction l with
  | nil => simp at hi
  | cons j l ih =>
    rw [collect]
    cases hj : f j with
    | error e' => exact ⟨e', rfl⟩
    | ok x =>
      rcases List.mem_cons.1 hi with rfl | hi
      · rw [h] at hj; cases hj
      · obtain ⟨e', he⟩ := ih hi
        rw [bind_ok, he]
        exact ⟨e', rfl⟩

/-- An objective missing from the dictionary or without a weight always raises, unless only the
first objective is used. -/
theorem C44_missing_raises (p : Params) (d : Dict String Rat) (hh : p.handling ≠ .single)
    (h : p.weights.length < p.objectives.length ∨ ∃ o ∈ p.objectives, d.get? o = none) :
    ∃ e, evalDict p d = .error e := by
  have key : ∃ i, i < p.objectives.length ∧ (∃ e, term d p i = .error e) ∧ ∃ e, termW d p i = .error e := by
    rcases h with h | ⟨o, ho, hn⟩
    · refine ⟨p.weights.length, h, ?_, .indexError, ?_⟩
      · simp only [term, pyGet_of_lt h, bind_ok]
        cases d.get p.objectives[p.weights.length] with
        | error e => exact ⟨e, rfl⟩
        | ok x => exact ⟨.indexError, by simp [pyGet]⟩
      · simp [termW, pyGet, bind_error]
    · obtain ⟨i, hi, rfl⟩ := List.getElem_of_mem ho
      have hg : d.get p.objectives[i] = .error .keyError := by simp only [Dict.get, hn]
      refine ⟨i, hi, ⟨.keyError, ?_⟩, ?_⟩
      · simp only [term, pyGet_of_lt hi, bind_ok, hg]; rfl
      · simp only [termW]
        cases pyGet p.weights i with
        | error e => exact ⟨e, rfl⟩
        | ok w => exact ⟨.keyError, by simp only [pyGet_of_lt hi, bind_ok, hg]; rfl⟩
  obtain ⟨i, hi, ⟨e1, h1⟩, e2, h2⟩ := key
  rw [evalDict]
  cases hp : p.handling with
  | single => exact absurd hp hh
  | aggregate =>
    obtain ⟨e, he⟩ := collect_error _ (List.range p.objectives.length) i (List.mem_range.2 hi) e1 h1
    simp only [he]
    exact ⟨e, rfl⟩
  | multi =>
    obtain ⟨e, he⟩ := collect_error _ (List.range p.objectives.length) i (List.mem_range.2 hi) e2 h2
    simp only [he]
    exact ⟨e, rfl⟩

theorem perm_sum_rat {l l' : List Rat} (h : l.Perm l') : l.sum = l'.sum := by
  induction h with
  | nil => rfl
  | cons x _ ih => simp [ih]
  | swap x y l => simp only [List.sum_cons]; linarith
  | trans _ _ ih1 ih2 => exact ih1.trans ih2

theorem weightedSum_mono (v v' : String → Rat) (os : List String) (ws : List Rat)
    (h : ∀ q ∈ os.zip ws, v' q.1 * q.2 ≤ v q.1 * q.2) : weightedSum v' os ws ≤ weightedSum v os ws ∧
    ((∃ q ∈ os.zip ws, v' q.1 * q.2 < v q.1 * q.2) → weightedSum v' os ws < weightedSum v os ws) := by
  unfold weightedSum
  generalize os.zip ws = l at h
  induction l with
  | nil => exact ⟨le_refl _, by simp⟩
  | cons a l ih =>
    obtain ⟨i1, i2⟩ := ih (fun q hq => h q (by simp [hq]))
    have ha := h a (by simp)
    simp only [List.map_cons, List.sum_cons]
    refine ⟨by linarith, ?_⟩
    rintro ⟨q, hq, hlt⟩
    rcases List.mem_cons.1 hq with rfl | hq
    · linarith
    · have := i2 ⟨q, hq, hlt⟩
      linarith

/-- Two evaluations that differ in one objective only, used with positive weights: the one with the
larger value has the larger aggregate.  With negative weights, the smaller. -/
theorem C44_ranking (p : Params) (hp : p.handling = .aggregate) (hw : p.objectives.length ≤ p.weights.length)
    (d d' : Dict String Rat) (v v' : String → Rat) (hd : Holds d p.objectives v) (hd' : Holds d' p.objectives v')
    (o : String) (ho : o ∈ p.objectives) (hsame : ∀ q, q ≠ o → v q = v' q) (hlt : v' o < v o) :
    ∃ x x', evalDict p d = .ok (.scalar x) ∧ evalDict p d' = .ok (.scalar x') ∧
      ((∀ w, (o, w) ∈ p.objectives.zip p.weights → 0 < w) → x' < x) ∧
      ((∀ w, (o, w) ∈ p.objectives.zip p.weights → w < 0) → x < x') := by
  refine ⟨_, _, (C44_weighted p d v hd hw).1 hp, (C44_weighted p d' v' hd' hw).1 hp, ?_, ?_⟩
  all_goals
    intro hsign
    obtain ⟨i, hi, hio⟩ := List.getElem_of_mem ho
    have hmem : (o, p.weights[i]'(by omega)) ∈ p.objectives.zip p.weights := by
      rw [← hio]
      have : (p.objectives.zip p.weights)[i]'(by simp; omega) = (p.objectives[i], p.weights[i]'(by omega)) := by simp
      rw [← this]; exact List.getElem_mem _
    refine (weightedSum_mono _ _ _ _ ?_).2 ⟨_, hmem, ?_⟩
    · intro q hq
      by_cases hqo : q.1 = o
      · have := hsign q.2 (by rw [← hqo]; exact hq)
        rw [hqo]
        nlinarith
      · rw [hsame q.1 hqo]
    · have := hsign _ hmem
      simp only
      nlinarith

/-- The order in which objectives and weights are listed does not matter for the aggregate. -/
theorem C44_order_irrelevant (p p' : Params) (hp : p.handling = .aggregate) (hp' : p'.handling = .aggregate)
    (hw : p.objectives.length ≤ p.weights.length) (hw' : p'.objectives.length ≤ p'.weights.length)
    (h : (p.objectives.zip p.weights).Perm (p'.objectives.zip p'.weights))
    (d : Dict String Rat) (v : String → Rat) (hd : Holds d p.objectives v) :
    evalDict p d = evalDict p' d := by
  have hd' : Holds d p'.objectives v := by
    intro o ho
    obtain ⟨i, hi, rfl⟩ := List.getElem_of_mem ho
    have hm : (p'.objectives.zip p'.weights)[i]'(by simp; omega) ∈ p'.objectives.zip p'.weights := List.getElem_mem _
    rw [← h.mem_iff] at hm
    simp only [List.getElem_zip] at hm
    exact hd _ (List.of_mem_zip hm).1
  rw [(C44_weighted p d v hd hw).1 hp, (C44_weighted p' d v hd' hw').1 hp', weightedSum, weightedSum,
    perm_sum_rat (h.map _)]

/-- The default setup always has one weight per objective, the one documented for it, the
problem's sense and handling; so it evaluates every dictionary holding the documented
objectives. -/
theorem C44_default (r : Register) (hk : r.handling = .aggregate) (hn : r.doc.keys.Nodup) (d : Dict String Rat) (v : String → Rat)
    (hd : Holds d r.doc.keys v) :
    evalDict (defaultParams r) d = .ok (.scalar ((r.doc.map (fun q => v q.1 * q.2)).sum)) ∧
    (defaultParams r).maximize = r.maximize ∧
    ∀ o w, (o, w) ∈ (defaultParams r).objectives.zip (defaultParams r).weights ↔ r.doc.get? o = some w := by
  have hz : (defaultParams r).objectives.zip (defaultParams r).weights = r.doc := by
    simp [defaultParams, List.zip_map']
  refine ⟨?_, rfl, ?_⟩
  · rw [(C44_weighted (defaultParams r) d v hd (by simp [defaultParams])).1 hk, weightedSum, hz]
  · intro o w
    rw [hz]
    exact ⟨fun h => Dict.get?_of_mem hn h, fun h => Dict.mem_of_get? h⟩

example : evalDict ⟨.aggregate, ["makespan", "lateness"], [-1, -2], true⟩ [("lateness", 3), ("makespan", 10)] =
      .ok (.scalar (-16)) ∧
    evalDict ⟨.multi, ["makespan", "lateness"], [-1, -2], true⟩ [("lateness", 3), ("makespan", 10)] =
      .ok (.vector [-10, -6]) ∧
    evalDict ⟨.single, ["makespan", "lateness"], [-1, -2], true⟩ [("makespan", 10)] = .ok (.scalar (-10)) ∧
    evalDict ⟨.aggregate, ["makespan", "lateness"], [-1, -2], true⟩ [("makespan", 10)] = .error .keyError ∧
    evalDict ⟨.aggregate, ["makespan", "lateness"], [-1], true⟩ [("lateness", 3), ("makespan", 10)] =
      .error .indexError := by decide +kernel

/-! ### C54 -/

/-- The values of objective `k` in the scenarios. -/
def scenarioValues (problems : List (σ → Dict String Rat)) (v : (σ → Dict String Rat) → String → Rat) (k : String) :
    List Rat := problems.map (fun q => v q k)

theorem column_eq (k : String) (fits : List (Dict String Rat)) (g : Dict String Rat → Rat)
    (h : ∀ d ∈ fits, d.get? k = some (g d)) : column k fits = .ok (fits.map g) := by
  induction fits with
  | nil => rfl
  | cons d ds ih =>
    have : d.get k = .ok (g d) := by simp only [Dict.get, h d (by simp)]
    rw [column, this, bind_ok, ih (fun d' hd => h d' (by simp [hd])), bind_ok]
    rfl

theorem robustKeys_spec (m : Method) (fits : List (Dict String Rat)) (g : String → Rat) (ks : List String)
    (h : ∀ k ∈ ks, ∃ l, column k fits = .ok l ∧ m.apply l = .ok (g k)) :
    robustKeys m fits ks = .ok (ks.map (fun k => (k, g k))) := by
  induction ks with
  | nil => rfl
  | cons k ks ih =>
    obtain ⟨l, h1, h2⟩ := h k (by simp)
    rw [robustKeys, h1, bind_ok, h2, bind_ok, ih (fun k' hk => h k' (by simp [hk])), bind_ok]
    rfl

theorem foldl_min (x : Rat) (xs : List Rat) :
    xs.foldl (fun a b => if b < a then b else a) x ∈ x :: xs ∧
    ∀ y ∈ x :: xs, xs.foldl (fun a b => if b < a then b else a) x ≤ y := by
  induction xs generalizing x with
  | nil => simp
  | cons a xs ih =>
    rw [List.foldl_cons]
    obtain ⟨i1, i2⟩ := ih (if a < x then a else x)
    refine ⟨?_, ?_⟩
    · rcases List.mem_cons.1 i1 with h | h
      · rw [h]; split <;> simp
      · simp [h]
    · intro y hy
      have h0 := i2 _ (List.mem_cons_self)
      simp only [List.mem_cons] at hy
      rcases hy with rfl | rfl | hy
      · refine le_trans h0 ?_; split <;> linarith
      · refine le_trans h0 ?_; split <;> linarith
      · exact i2 y (by simp [hy])

theorem foldl_max (x : Rat) (xs : List Rat) :
    xs.foldl (fun a b => if a < b then b else a) x ∈ x :: xs ∧
    ∀ y ∈ x :: xs, y ≤ xs.foldl (fun a b => if a < b then b else a) x := by
  induction xs generalizing x with
  | nil => simp
  | cons a xs ih =>
    rw [List.foldl_cons]
    obtain ⟨i1, i2⟩ := ih (if x < a then a else x)
    refine ⟨?_, ?_⟩
    · rcases List.mem_cons.1 i1 with h | h
      · rw [h]; split <;> simp
      · simp [h]
    · intro y hy
      have h0 := i2 _ (List.mem_cons_self)
      simp only [List.mem_cons] at hy
      rcases hy with rfl | rfl | hy
      · refine le_trans ?_ h0; split <;> linarith
      · refine le_trans ?_ h0; split <;> linarith
      · exact i2 y (by simp [hy])

/-- What each method computes of a non-empty list. -/
theorem C54_methods (x : Rat) (xs : List Rat) :
    (∃ m, Method.min.apply (x :: xs) = .ok m ∧ m ∈ x :: xs ∧ ∀ y ∈ x :: xs, m ≤ y) ∧
    (∃ m, Method.max.apply (x :: xs) = .ok m ∧ m ∈ x :: xs ∧ ∀ y ∈ x :: xs, y ≤ m) ∧
    (∃ m, Method.mean.apply (x :: xs) = .ok m ∧ m * (x :: xs).length = (x :: xs).sum) := by
  refine ⟨⟨_, rfl, foldl_min x xs⟩, ⟨_, rfl, foldl_max x xs⟩, ⟨_, rfl, ?_⟩⟩
  have : ((x :: xs).length : Rat) ≠ 0 := by
    rw [List.length_cons]; push_cast; positivity
  exact div_mul_cancel₀ _ this

theorem sum_bounds (l : List Rat) (lo hi : Rat) (h : ∀ y ∈ l, lo ≤ y ∧ y ≤ hi) :
    lo * l.length ≤ l.sum ∧ l.sum ≤ hi * l.length := by
  induction l with
  | nil => simp
  | cons a l ih =>
    obtain ⟨i1, i2⟩ := ih (fun y hy => h y (by simp [hy]))
    have := h a (by simp)
    simp only [List.length_cons, List.sum_cons]
    push_cast
    constructor <;> linarith

/-- The robust evaluation of a solution has exactly the objectives of the first scenario; each is
the method applied to the values of that objective over all scenarios in order; with MEAN it
lies between what MIN and MAX give. -/
theorem C54_robust (problems : List (σ → Dict String Rat)) (s : σ) (q : σ → Dict String Rat)
    (qs : List (σ → Dict String Rat)) (hq : problems = q :: qs)
    (v : (σ → Dict String Rat) → String → Rat)
    (hv : ∀ pr ∈ problems, Holds (pr s) (q s).keys (v pr)) :
    ∃ lo mean hi, robustEvaluate .min problems s = .ok lo ∧ robustEvaluate .mean problems s = .ok mean ∧
      robustEvaluate .max problems s = .ok hi ∧ lo.keys = (q s).keys ∧ mean.keys = (q s).keys ∧ hi.keys = (q s).keys ∧
      ∀ k ∈ (q s).keys, ∃ a b c, lo.get? k = some a ∧ mean.get? k = some b ∧ hi.get? k = some c ∧ a ≤ b ∧ b ≤ c ∧
        (∃ pr ∈ problems, v pr k = a) ∧ (∃ pr ∈ problems, v pr k = c) ∧ (∀ pr ∈ problems, a ≤ v pr k ∧ v pr k ≤ c) ∧
        b * problems.length = (scenarioValues problems v k).sum := by
  subst hq
  have hcol : ∀ k ∈ (q s).keys, column k ((q :: qs).map (· s)) = .ok (scenarioValues (q :: qs) v k) := by
    intro k hk
    have : ∀ (l : List (σ → Dict String Rat)), (∀ pr ∈ l, Holds (pr s) (q s).keys (v pr)) →
        column k (l.map (· s)) = .ok (l.map (fun pr => v pr k)) := by
      intro l hl
      induction l with
      | nil => rfl
      | cons d ds ih =>
        have hg : (d s).get k = .ok (v d k) := by simp only [Dict.get, hl d (by simp) k hk]
        rw [List.map_cons, column, hg, bind_ok, ih (fun pr hpr => hl pr (by simp [hpr])), bind_ok]
        rfl
    exact this _ hv
  have hgo : ∀ m : Method, ∀ g : String → Rat, (∀ k ∈ (q s).keys, m.apply (scenarioValues (q :: qs) v k) = .ok (g k)) →
      robustEvaluate m (q :: qs) s = .ok ((q s).keys.map (fun k => (k, g k))) := by
    intro m g hg
    rw [robustEvaluate]
    simp only [List.map_cons, pyGet, List.getElem?_cons_zero, bind_ok]
    refine robustKeys_spec m _ g _ ?_
    intro k hk
    exact ⟨_, hcol k hk, hg k hk⟩
  have hkeys : ∀ g : String → Rat, Dict.keys ((q s).keys.map (fun k => (k, g k))) = (q s).keys := by
    intro g; simp [Dict.keys, List.map_map, Function.comp_def]
  have hget : ∀ g : String → Rat, ∀ k ∈ (q s).keys,
      Dict.get? ((q s).keys.map (fun k => (k, g k))) k = some (g k) := by
    intro g k hk
    generalize (q s).keys = ks at hk
    induction ks with
    | nil => simp at hk
    | cons a ks ih =>
      simp only [List.map_cons, Dict.get?]
      by_cases ha : a = k
      · rw [if_pos ha, ha]
      · rw [if_neg ha]
        rcases List.mem_cons.1 hk with h | h
        · exact absurd h.symm ha
        · exact ih h
  have hlist : ∀ k, scenarioValues (q :: qs) v k = v q k :: qs.map (fun pr => v pr k) := fun k => rfl
  refine ⟨_, _, _,
    hgo .min (fun k => (qs.map (fun pr => v pr k)).foldl (fun a b => if b < a then b else a) (v q k)) (fun k _ => rfl),
    hgo .mean (fun k => (scenarioValues (q :: qs) v k).sum / (scenarioValues (q :: qs) v k).length) (fun k _ => rfl),
    hgo .max (fun k => (qs.map (fun pr => v pr k)).foldl (fun a b => if a < b then b else a) (v q k)) (fun k _ => rfl),
    hkeys _, hkeys _, hkeys _, ?_⟩
  intro k hk
  refine ⟨_, _, _, hget _ k hk, hget _ k hk, hget _ k hk, ?_⟩
  obtain ⟨n1, n2⟩ := foldl_min (v q k) (qs.map (fun pr => v pr k))
  obtain ⟨x1, x2⟩ := foldl_max (v q k) (qs.map (fun pr => v pr k))
  rw [← hlist k] at n1 n2 x1 x2
  have hlen : (0 : Rat) < ((scenarioValues (q :: qs) v k).length : Rat) := by
    rw [hlist, List.length_cons]; push_cast; positivity
  obtain ⟨s1, s2⟩ := sum_bounds (scenarioValues (q :: qs) v k) _ _ (fun y hy => ⟨n2 y hy, x2 y hy⟩)
  refine ⟨(le_div_iff₀ hlen).2 s1, (div_le_iff₀ hlen).2 s2, ?_, ?_, ?_, ?_⟩
  · obtain ⟨pr, h1, h2⟩ := List.mem_map.1 n1; exact ⟨pr, h1, h2⟩
  · obtain ⟨pr, h1, h2⟩ := List.mem_map.1 x1; exact ⟨pr, h1, h2⟩
  · intro pr hpr
    have : v pr k ∈ scenarioValues (q :: qs) v k := List.mem_map.2 ⟨pr, hpr, rfl⟩
    exact ⟨n2 _ this, x2 _ this⟩
  · have : ((q :: qs).length : Rat) = ((scenarioValues (q :: qs) v k).length : Rat) := by simp [scenarioValues]
    rw [this]
    exact div_mul_cancel₀ _ (ne_of_gt hlen)

/-- A robust problem without scenarios raises. -/
theorem C54_no_scenario_raises (m : Method) (s : σ) : robustEvaluate m ([] : List (σ → Dict String Rat)) s =
    .error .indexError := rfl

example : robustEvaluate .mean [fun n : Rat => [("a", n), ("b", 1)], fun n => [("b", 4), ("a", 2 * n)]] 10 =
      .ok [("a", 15), ("b", 5/2)] ∧
    robustEvaluate .max [fun n : Rat => [("a", n), ("b", 1)], fun n => [("b", 4), ("a", 2 * n)]] 10 =
      .ok [("a", 20), ("b", 4)] ∧
    robustEvaluate (.ponderation [1, 1/2]) [fun n : Rat => [("a", n), ("b", 1)], fun n => [("b", 4), ("a", 2 * n)]] 10 =
      .ok [("a", 20), ("b", 3)] := by decide +kernel

end Verif.Objectives
