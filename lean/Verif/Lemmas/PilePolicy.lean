import Verif.Model.PilePolicy
import Verif.Lemmas.SchedList
import Mathlib.Logic.Relation
import Mathlib.Tactic.FieldSimp
import Mathlib.Algebra.Order.Ring.Rat
import Mathlib.Algebra.BigOperators.Ring.List

/-! Lemmas for the greedy policy of scheduling domains. -/
namespace Verif.Sched

/-- `y` is a task with direct predecessor `x`. -/
def Edge (dom : Dom) (x y : TaskId) : Prop := y ∈ dom.tasks ∧ x ∈ dom.preds y

theorem mem_level {dom : Dom} {l : List TaskId} {y : TaskId} :
    y ∈ level dom l ↔ y ∈ dom.tasks ∧ (y ∈ l ∨ ∃ x ∈ l, x ∈ dom.preds y) := by
  simp only [level, List.mem_filter, Bool.or_eq_true_iff, decide_eq_true_eq, List.any_eq_true]
  constructor
  · rintro ⟨h1, h2 | ⟨x, h3, h4⟩⟩
    · exact ⟨h1, .inl h2⟩
    · exact ⟨h1, .inr ⟨x, h4, h3⟩⟩
  · rintro ⟨h1, h2 | ⟨x, h3, h4⟩⟩
    · exact ⟨h1, .inl h2⟩
    · exact ⟨h1, .inr ⟨x, h4, h3⟩⟩

theorem levels_sound {dom : Dom} {n : TaskId} (k : Nat) (l : List TaskId)
    (h : ∀ y ∈ l, y ∈ dom.tasks ∧ Relation.TransGen (Edge dom) n y) :
    ∀ y ∈ levels dom k l, y ∈ dom.tasks ∧ Relation.TransGen (Edge dom) n y := by
  induction k generalizing l with
  | zero => exact h
  | succ k ih =>
    refine ih _ fun y hy => ?_
    obtain ⟨h1, h2 | ⟨x, h3, h4⟩⟩ := mem_level.1 hy
    · exact h y h2
    · exact ⟨h1, (h x h3).2.tail ⟨h1, h4⟩⟩

theorem levels_mono {dom : Dom} (k : Nat) (l : List TaskId) (h : ∀ y ∈ l, y ∈ dom.tasks) : ∀ y ∈ l, y ∈ levels dom k l := by
  induction k generalizing l with
  | zero => exact fun y hy => hy
  | succ k ih =>
    intro y hy
    exact ih _ (fun z hz => (mem_level.1 hz).1) y (mem_level.2 ⟨h y hy, .inl hy⟩)

/-- Nothing can be added to `l`. -/
def Closed (dom : Dom) (l : List TaskId) : Prop := ∀ x ∈ l, ∀ y, Edge dom x y → y ∈ l

theorem level_grows (dom : Dom) (p : TaskId → Bool) :
    level dom (dom.tasks.filter p) = dom.tasks.filter p ∨
      (dom.tasks.filter p).length < (level dom (dom.tasks.filter p)).length := by
  have hs : (dom.tasks.filter p).Sublist (level dom (dom.tasks.filter p)) := by
    have : dom.tasks.filter p = (level dom (dom.tasks.filter p)).filter p := by
      rw [level, List.filter_filter]
      apply List.filter_congr
      intro y hy
      cases hp : p y <;> simp [hy, hp]
    rw [this]
    conv_rhs => rw [← this]
    exact List.filter_sublist
  rcases Nat.lt_or_ge (dom.tasks.filter p).length (level dom (dom.tasks.filter p)).length with h | h
  · exact .inr h
  · exact .inl (hs.eq_of_length_le h).symm

theorem levels_fix {dom : Dom} {l : List TaskId} (h : level dom l = l) (k : Nat) : levels dom k l = l := by
  induction k with
  | zero => rfl
  | succ k ih => rw [levels, h, ih]

theorem closed_of_fix {dom : Dom} {l : List TaskId} (h : level dom l = l) : Closed dom l := by
  intro x hx y hy
  rw [← h]
  exact mem_level.2 ⟨hy.1, .inr ⟨x, hx, hy.2⟩⟩

theorem levels_filter (dom : Dom) (k : Nat) (p : TaskId → Bool) :
    ∃ q, levels dom k (dom.tasks.filter p) = dom.tasks.filter q ∧
      (Closed dom (dom.tasks.filter q) ∨ (dom.tasks.filter p).length + k ≤ (dom.tasks.filter q).length) := by
  induction k generalizing p with
  | zero => exact ⟨p, rfl, .inr (Nat.le_refl _)⟩
  | succ k ih =>
    rcases level_grows dom p with h | h
    · exact ⟨p, levels_fix h _, .inl (closed_of_fix h)⟩
    · obtain ⟨q, e1, e2⟩ := ih fun y => decide (y ∈ dom.tasks.filter p) || (dom.preds y).any fun x => decide (x ∈ dom.tasks.filter p)
      refine ⟨q, e1, e2.imp_right fun e => ?_⟩
      have : (level dom (dom.tasks.filter p)).length + k ≤ (dom.tasks.filter q).length := e
      omega

theorem mem_descendants {dom : Dom} {n y : TaskId} :
    y ∈ descendants dom n ↔ y ≠ n ∧ Relation.TransGen (Edge dom) n y := by
  unfold descendants
  simp only [List.mem_filter, decide_eq_true_eq, and_comm (a := y ∈ _)]
  refine and_congr_right fun hne => ?_
  clear hne
  refine ⟨fun h => ?_, fun h => ?_⟩
  · exact (levels_sound _ _ (fun z hz => by
      simp only [List.mem_filter, decide_eq_true_eq] at hz
      exact ⟨hz.1, .single ⟨hz.1, hz.2⟩⟩) y h).2
  · obtain ⟨q, e1, e2⟩ := levels_filter dom dom.tasks.length fun y => decide (n ∈ dom.preds y)
    have hc : Closed dom (levels dom dom.tasks.length (dom.tasks.filter fun y => decide (n ∈ dom.preds y))) := by
      rw [e1]
      rcases e2 with h | h
      · exact h
      · have hl := List.length_filter_le q dom.tasks
        have : dom.tasks.filter q = dom.tasks := List.filter_sublist.eq_of_length (by omega)
        rw [this]
        exact fun x _ z hz => hz.1
    induction h with
    | single hz =>
      exact levels_mono _ _ (fun z hz => (List.mem_filter.1 hz).1) _ (List.mem_filter.2 ⟨hz.1, by simpa using hz.2⟩)
    | tail _ hz ih => exact hc _ ih _ hz

/-- The number of descendants counts each once. -/
theorem descendants_nodup {dom : Dom} (h : dom.tasks.Nodup) (n : TaskId) : (descendants dom n).Nodup := by
  obtain ⟨q, e1, _⟩ := levels_filter dom dom.tasks.length fun y => decide (n ∈ dom.preds y)
  unfold descendants
  rw [e1]
  exact (h.filter _).filter _

theorem startable_ok {dom : Dom} {st : State} {l r : List TaskId} (h : startable dom st l = .ok r) :
    (∀ x ∈ l, ∃ b use, checkStart dom st (pileStart x) = .ok (b, use)) ∧ r.Sublist l ∧
      ∀ x, x ∈ r ↔ x ∈ l ∧ Accepted dom st (pileStart x) := by
  induction l generalizing r with
  | nil => cases h; simp
  | cons x l ih =>
    simp only [startable, bind_eq_ok] at h
    obtain ⟨⟨b, use⟩, h1, l', h2, h3⟩ := h
    obtain ⟨i1, i2, i3⟩ := ih h2
    have h3 := Except.ok.inj h3
    refine ⟨?_, ?_, ?_⟩
    · simp only [List.mem_cons, forall_eq_or_imp]
      exact ⟨⟨b, use, h1⟩, i1⟩
    · subst h3
      split
      · exact i2.cons_cons x
      · exact i2.cons x
    · intro y
      have hx : Accepted dom st (pileStart x) ↔ b = true := by
        constructor
        · rintro ⟨u, hu⟩; rw [h1] at hu; cases hu; rfl
        · rintro rfl; exact ⟨use, h1⟩
      subst h3
      cases b with
      | true =>
        simp only [if_true, List.mem_cons, i3]
        constructor
        · rintro (rfl | ⟨a, b⟩)
          · exact ⟨.inl rfl, hx.2 rfl⟩
          · exact ⟨.inr a, b⟩
        · rintro ⟨rfl | a, b⟩
          · exact .inl rfl
          · exact .inr ⟨a, b⟩
      | false =>
        simp only [Bool.false_eq_true, if_false, List.mem_cons, i3]
        constructor
        · rintro ⟨a, b⟩; exact ⟨.inr a, b⟩
        · rintro ⟨rfl | a, b⟩
          · cases hx.1 b
          · exact ⟨a, b⟩

/-- Whether the start of `x` in mode 1 is accepted. -/
def accB (dom : Dom) (st : State) (x : TaskId) : Bool :=
  match checkStart dom st (pileStart x) with
  | .ok (true, _) => true
  | _ => false

theorem accB_iff {dom : Dom} {st : State} {x : TaskId} : accB dom st x = true ↔ Accepted dom st (pileStart x) := by
  unfold accB Accepted
  split
  · rename_i h; simp [h]
  · rename_i h
    simp only [Bool.false_eq_true, false_iff, not_exists]
    exact fun u hu => h u hu

theorem startable_filter {dom : Dom} {st : State} {l r : List TaskId} (h : startable dom st l = .ok r) : r = l.filter (accB dom st) := by
  induction l generalizing r with
  | nil => cases h; rfl
  | cons x l ih =>
    simp only [startable, bind_eq_ok] at h
    obtain ⟨⟨b, use⟩, h1, l', h2, h3⟩ := h
    have h3 := Except.ok.inj h3
    have hb : accB dom st x = b := by
      unfold accB
      rw [h1]
      cases b <;> rfl
    rw [List.filter_cons, hb, ← ih h2, ← h3]

theorem startable_def {dom : Dom} {st : State} {l : List TaskId}
    (h : ∀ x ∈ l, ∃ b use, checkStart dom st (pileStart x) = .ok (b, use)) : ∃ r, startable dom st l = .ok r := by
  induction l with
  | nil => exact ⟨[], rfl⟩
  | cons x l ih =>
    obtain ⟨b, use, h1⟩ := h x (by simp)
    obtain ⟨r, h2⟩ := ih fun y hy => h y (by simp [hy])
    exact ⟨_, by rw [startable, h1, bind_ok, h2, bind_ok]; rfl⟩

theorem firstMax_spec (f : TaskId → Int) (x : TaskId) (l : List TaskId) :
    ∃ pre post, x :: l = pre ++ firstMax f x l :: post ∧ (∀ y ∈ x :: l, f y ≤ f (firstMax f x l)) ∧
      ∀ y ∈ pre, f y < f (firstMax f x l) := by
  induction l generalizing x with
  | nil => exact ⟨[], [], rfl, by simp [firstMax], by simp⟩
  | cons z l ih =>
    simp only [firstMax]
    split
    · rename_i hlt
      obtain ⟨pre, post, h1, h2, h3⟩ := ih z
      have hz := h2 z (by simp)
      refine ⟨x :: pre, post, by rw [h1]; rfl, ?_, ?_⟩
      · intro y hy
        rcases List.mem_cons.1 hy with rfl | hy
        · omega
        · exact h2 y hy
      · intro y hy
        rcases List.mem_cons.1 hy with rfl | hy
        · omega
        · exact h3 y hy
    · rename_i hge
      obtain ⟨pre, post, h1, h2, h3⟩ := ih x
      have hx := h2 x (by simp)
      have hmem : ∀ y ∈ x :: z :: l, f y ≤ f (firstMax f x l) := by
        intro y hy
        simp only [List.mem_cons] at hy
        rcases hy with rfl | rfl | hy
        · exact hx
        · omega
        · exact h2 y (by simp [hy])
      cases pre with
      | nil =>
        simp only [List.nil_append, List.cons.injEq] at h1
        exact ⟨[], z :: l, by rw [← h1.1]; rfl, hmem, by simp⟩
      | cons p pre =>
        simp only [List.cons_append, List.cons.injEq] at h1
        obtain ⟨rfl, h1⟩ := h1
        refine ⟨x :: z :: pre, post, congrArg (fun t => x :: z :: t) h1, hmem, ?_⟩
        have hxl := h3 x (by simp)
        intro y hy
        simp only [List.mem_cons] at hy
        rcases hy with rfl | rfl | hy
        · exact hxl
        · omega
        · exact h3 y (by simp [hy])

theorem filter_of_sublist {l s : List TaskId} (hn : l.Nodup) (h : s.Sublist l) : s = l.filter fun x => decide (x ∈ s) := by
  induction h with
  | slnil => rfl
  | @cons s l a h ih =>
    have hn := List.nodup_cons.1 hn
    have : a ∉ s := fun hm => hn.1 (h.subset hm)
    rw [List.filter_cons, if_neg (by simpa using this)]
    exact ih hn.2
  | @cons_cons s l a h ih =>
    have hn := List.nodup_cons.1 hn
    rw [List.filter_cons, if_pos (by simp)]
    congr 1
    conv_lhs => rw [ih hn.2]
    apply List.filter_congr
    intro x hx
    have : x ≠ a := fun e => hn.1 (e ▸ hx)
    simp [this]

/-- The index drawn lies in the list. -/
def Luck.InRange (luck : Luck) : Prop :=
  (∀ ps : List Rat, ps ≠ [] → luck.weighted ps < ps.length) ∧ ∀ n, 0 < n → luck.uniform n < n

theorem probs_length (dom : Dom) (l : List TaskId) : (probs dom l).length = l.length := by
  simp only [probs]
  split <;> simp

theorem choose_def {dom : Dom} {luck : Luck} (hl : luck.InRange) (g : Greedy) (x : TaskId) (rest : List TaskId) :
    ∃ y ∈ x :: rest, choose dom g luck x rest = .ok y := by
  have hmax : ∀ f, firstMax f x rest ∈ x :: rest := fun f => by
    obtain ⟨pre, post, h, _⟩ := firstMax_spec f x rest
    rw [h]; simp
  have hget : ∀ i, i < (x :: rest).length → ∃ y ∈ x :: rest, ((x :: rest)[i]?).elim (Except.error PyErr.indexError) Except.ok = Except.ok y := by
    intro i hi
    exact ⟨(x :: rest)[i], List.getElem_mem hi, by rw [List.getElem?_eq_getElem hi]; rfl⟩
  cases g with
  | mostSuccessors => exact ⟨_, hmax _, rfl⟩
  | fastest => exact ⟨_, hmax _, rfl⟩
  | sampleMostSuccessors =>
    have hlen := probs_length dom (x :: rest)
    exact hget _ (hlen ▸ hl.1 _ (fun h => by rw [h] at hlen; cases hlen))
  | totallyRandom => exact hget _ (hl.2 _ (Nat.succ_pos _))

theorem choose_mem {dom : Dom} {luck : Luck} {g : Greedy} {x y : TaskId} {rest : List TaskId}
    (h : choose dom g luck x rest = .ok y) : y ∈ x :: rest := by
  have hmax : ∀ f, firstMax f x rest ∈ x :: rest := fun f => by
    obtain ⟨pre, post, h, _⟩ := firstMax_spec f x rest
    rw [h]; simp
  have hget : ∀ i : Nat, ((x :: rest)[i]?).elim (Except.error PyErr.indexError) Except.ok = Except.ok y → y ∈ x :: rest := by
    intro i hi
    cases he : (x :: rest)[i]? with
    | none => rw [he] at hi; cases hi
    | some z => rw [he] at hi; cases hi; exact List.mem_of_getElem? he
  cases g with
  | mostSuccessors => cases h; exact hmax _
  | fastest => cases h; exact hmax _
  | sampleMostSuccessors => exact hget _ h
  | totallyRandom => exact hget _ h

/-- Every task fits the amounts `avail` in mode 1. -/
def FitsOne (dom : Dom) (avail : Res → Int) : Prop :=
  (∀ r ∈ dom.resTypes ++ dom.resUnits, 0 ≤ avail r) ∧
  ∀ x ∈ dom.tasks, ∃ ms dd, dom.modes.get? x = some ms ∧ ms.get? 1 = some (.constant dd) ∧ ∀ r ∈ dom.resTypes, val dd r ≤ avail r

theorem FitsOne.roomy {dom : Dom} {f : Res → Int} (h : FitsOne dom f) : Roomy dom f :=
  ⟨h.1, fun x hx => by
    obtain ⟨ms, dd, h2, h3, h4⟩ := h.2 x hx
    exact ⟨1, ms, dd, h2, h3, h4⟩⟩

/-- A draw with durations between 0 and `D` (0 only without needs) and amounts every task fits in. -/
def FitOneDraw (dom : Dom) (D : Int) (a : Action) (d : Draw) : Prop :=
  ZeroFree dom a d ∧ 0 ≤ d.duration ∧ d.duration ≤ D ∧ FitsOne dom d.avail

theorem next_pileTime (dom : Dom) (d : Draw) (st : State) : nextState dom d st pileTime = nextState dom d st timeAction := rfl

/-- Every ready task has a mode 1, so its start can be checked. -/
theorem pile_checks {dom : Dom} (hw : WellFormed dom) {st : State} (hS : Safe dom st) (hm : ∀ x ∈ dom.tasks, HasMode dom x 1) :
    ∀ x ∈ possiblePrecedence dom st, ∃ b use, checkStart dom st (pileStart x) = .ok (b, use) := by
  intro x hx
  have hr := (possiblePrecedence_mem.1 hx).1
  have hxt := hS.inTasks x (.inl hr)
  obtain ⟨info, hi⟩ := hS.details x hxt
  obtain ⟨b, use, h3, _⟩ := checkStart_def (a := pileStart x) hw hS.entries rfl rfl rfl (.inl rfl) hi (hm x hxt)
    (.inl (hS.rem x hr info hi).1)
  exact ⟨b, use, h3⟩

theorem pile_step {dom : Dom} {D : Int} (hw : WellFormed dom) (hs : Simple dom) (hpl : unconditional dom = dom.tasks)
    (hclosed : ∀ x ∈ dom.tasks, ∀ q ∈ dom.preds x, q ∈ dom.tasks) (g : Greedy) {luck : Luck} (hl : luck.InRange)
    {st : State} (hL : Live dom D st)
    (hf : ∃ f, FitsOne dom f ∧ ∀ r ∈ dom.resTypes ++ dom.resUnits, st.avail.get? r = some (f r)) :
    ∃ a, pileNext dom g luck st = .ok a ∧
      ((∃ x, x ∈ st.remaining ∧ a = startIn x 1 ∧ HasMode dom x 1 ∧ Enough dom st x 1) ∨
       (a = pileTime ∧ (st.ongoing ≠ [] ∨ isGoal st = true))) := by
  obtain ⟨f, ⟨hf0, hf1⟩, hav⟩ := hf
  have hm : ∀ x ∈ dom.tasks, HasMode dom x 1 := fun x hx => by
    obtain ⟨ms, dd, h1, h2, _⟩ := hf1 x hx
    exact ⟨ms, dd, h1, h2⟩
  obtain ⟨r, hr⟩ := startable_def (pile_checks hw hL.safe hm)
  obtain ⟨_, _, h3⟩ := startable_ok hr
  unfold pileNext
  rw [hr, bind_ok]
  cases r with
  | nil =>
    refine ⟨pileTime, rfl, .inr ⟨rfl, ?_⟩⟩
    by_contra hcon
    push Not at hcon
    obtain ⟨ho, hg⟩ := hcon
    have hrem : st.remaining ≠ [] := by
      intro hr
      exact hg (by simp [isGoal, hr, ho, hL.nopause])
    obtain ⟨rank, hrank⟩ := hs.acyclic
    obtain ⟨x, hx, hmin⟩ := exists_min_rank rank st.remaining hrem
    have hxt := hL.safe.inTasks x (.inl hx)
    have hready : x ∈ possiblePrecedence dom st := by
      refine possiblePrecedence_mem.2 ⟨hx, fun q hq => ?_⟩
      have hmem := (hL.all q).2 (by rw [hpl]; exact hclosed x hxt q hq)
      simp only [allOf, ho, hL.nopause, List.append_nil, List.mem_append] at hmem
      rcases hmem with h | h
      · have := hmin q h
        have := hrank x hxt q hq
        omega
      · exact h
    obtain ⟨ms, dd, g4, g5, g6⟩ := hf1 x hxt
    have hE : Enough dom st x 1 := by
      intro r hr
      have hr' : r ∈ dom.resTypes ++ dom.resUnits := List.mem_append_left _ hr
      obtain ⟨u, hu⟩ := some_of_isSome ((hL.safe.entries r).1.2 hr')
      have := hL.acc.sum r (hs.renewable r hr')
      rw [total_empty hL.acc ho, val_of_get hu] at this
      subst this
      refine ⟨f r, 0, ms, _, _, hav r hr', hu, g4, g5, need_constant dd r _, ?_⟩
      have := g6 r hr
      omega
    obtain ⟨use', h4⟩ := checkStart_accepts hs.noSkills hL.safe hx (hm x hxt) hE
    have := (h3 x).2 ⟨hready, use', h4⟩
    cases this
  | cons x0 rest =>
    obtain ⟨x, hx, e⟩ := choose_def hl g x0 rest (dom := dom)
    refine ⟨pileStart x, by simp only [e, bind_ok]; rfl, .inl ⟨x, ?_⟩⟩
    obtain ⟨h1, use, h4⟩ := (h3 x).1 hx
    have hxr := (possiblePrecedence_mem.1 h1).1
    have hxt := hL.safe.inTasks x (.inl hxr)
    obtain ⟨ms, dd, g4, g5, _⟩ := hf1 x hxt
    refine ⟨hxr, rfl, hm x hxt, ?_⟩
    obtain ⟨task, info, time, e1, e2, e3, e4, e5, _⟩ := checkStart_true (.inl rfl) h4
    cases e1
    obtain ⟨k1, _, k3, _⟩ := resourceUsed_ok e4
    intro r hr
    obtain ⟨ms', m', md, n, j1, j2, j3, j4, j5⟩ := k3 r hr List.not_mem_nil
    cases j1
    rw [g4] at j2; cases j2
    rw [g5] at j3; cases j3
    obtain ⟨av, u, i1, i2, i3⟩ := e5 r n (Dict.mem_of_get? j5)
    rw [need_constant] at j4; cases j4
    exact ⟨av, u, ms, _, _, i1, i2, g4, g5, need_constant dd r _, i3⟩

theorem pile_follow {dom : Dom} {D : Nat} (hw : WellFormed dom) (hs : Simple dom) (hpl : unconditional dom = dom.tasks)
    (hclosed : ∀ x ∈ dom.tasks, ∀ q ∈ dom.preds x, q ∈ dom.tasks) (g : Greedy) {luck : State → Luck} (hl : ∀ st, (luck st).InRange)
    {draw : State → Action → Draw} (hdr : ∀ st a, FitOneDraw dom D a (draw st a)) :
    ∀ (n : Nat) (st : State) (k : Nat), Live dom D st →
      (∃ f, FitsOne dom f ∧ ∀ r ∈ dom.resTypes ++ dom.resUnits, st.avail.get? r = some (f r)) → isGoal st = false →
      (∀ x ∈ st.ongoing, ∃ t0 d, 1 ≤ d ∧ d ≤ (D : Int) ∧ t0 ≤ st.t ∧ t0 + d ≤ st.t + k ∧ Phase x t0 d st) →
      st.t + (D * st.remaining.length + k : Nat) ≤ dom.horizon →
      (D + 1) * st.remaining.length + k ≤ n →
      ∃ st', pileFollow dom g luck draw n st = .ok st' ∧ Live dom D st' ∧ isGoal st' = true ∧
        st'.t ≤ st.t + (D * st.remaining.length + k : Nat) := by
  intro n
  induction n with
  | zero =>
    intro st k hL hf hg hk hH hn
    exfalso
    simp only [Nat.le_zero, Nat.add_eq_zero_iff, Nat.mul_eq_zero] at hn
    obtain ⟨h1, rfl⟩ := hn
    have hr : st.remaining = [] := by
      rcases h1 with h1 | h1
      · omega
      · exact List.length_eq_zero_iff.1 h1
    rw [goal_of_idle hL hr rfl hk] at hg
    cases hg
  | succ n ih =>
    intro st k hL hf hg hk hH hn
    obtain ⟨a, ha, hcase⟩ := pile_step hw hs hpl hclosed g (hl st) hL hf
    obtain ⟨g1, g2, g3, g4⟩ := hdr st a
    have hmodes : ∀ x ∈ dom.tasks, ∃ m, HasMode dom x m := by
      intro x hx
      obtain ⟨ms, dd, h2, h3, _⟩ := g4.2 x hx
      exact ⟨1, ms, dd, h2, h3⟩
    suffices hstep : ∃ s k', nextState dom (draw st a) st a = .ok s ∧ Live dom D s ∧
        (∃ f, FitsOne dom f ∧ ∀ r ∈ dom.resTypes ++ dom.resUnits, s.avail.get? r = some (f r)) ∧
        (∀ x ∈ s.ongoing, ∃ t0 d, 1 ≤ d ∧ d ≤ (D : Int) ∧ t0 ≤ s.t ∧ t0 + d ≤ s.t + (k' : Nat) ∧ Phase x t0 d s) ∧
        s.t + (D * s.remaining.length + k' : Nat) ≤ st.t + (D * st.remaining.length + k : Nat) ∧
        (D + 1) * s.remaining.length + k' ≤ n by
      obtain ⟨s, k', e1, e2, e3, e4, e5, e6⟩ := hstep
      have hter : isTerminal dom s = .ok (isGoal s) := by
        unfold isTerminal
        rw [possible_renewable hw hs e2.safe hmodes, bind_ok]
        have : ¬ dom.horizon < s.t := by omega
        simp [this]
        rfl
      have eq : pileFollow dom g luck draw (n + 1) st = if isGoal s then .ok s else pileFollow dom g luck draw n s := by
        rw [pileFollow, ha, bind_ok, e1, bind_ok, hter, bind_ok]
        rfl
      rw [eq]
      cases hg' : isGoal s with
      | true =>
        simp only [if_true]
        exact ⟨s, rfl, e2, hg', by omega⟩
      | false =>
        simp only [Bool.false_eq_true, if_false]
        obtain ⟨st', f1, f2, f3, f4⟩ := ih s k' e2 e3 hg' e4 (by omega) e6
        exact ⟨st', f1, f2, f3, by omega⟩
    rcases hcase with ⟨x, hx, rfl, hHM, hE⟩ | ⟨rfl, ho⟩
    · obtain ⟨s, e1, e2, e3, e4, e5⟩ := live_start hw hs.noSkills hL (draw st (startIn x 1)) hx hHM hE ⟨g2, g3⟩ g1
      have hav : s.avail = st.avail := (C13_availability_updated dom _ st s (startIn x 1) e1).2 rfl
      have hmul : (D + 1) * st.remaining.length = (D + 1) * s.remaining.length + D + 1 := by
        rw [← e3, Nat.mul_add]; omega
      have hmul' : D * st.remaining.length = D * s.remaining.length + D := by
        rw [← e3, Nat.mul_add]; omega
      refine ⟨s, max k D, e1, e2, by rw [hav]; exact hf, ?_, by omega, by omega⟩
      intro y hy
      rcases e5 y hy with hy' | ⟨hP, hd1⟩
      · obtain ⟨t0, dd, b1, b2, b3, b4, b5⟩ := hk y hy'
        exact ⟨t0, dd, b1, b2, by omega, by omega, nextState_phase hL.safe.nodup b1 b5 (by simp) e1⟩
      · exact ⟨_, _, hd1, g3, by omega, by omega, hP⟩
    · have hon : st.ongoing ≠ [] := by
        rcases ho with h | h
        · exact h
        · rw [h] at hg; cases hg
      have hkpos : 1 ≤ k := by
        obtain ⟨x, hx⟩ := List.exists_mem_of_ne_nil _ hon
        obtain ⟨t0, dd, b1, _, b2, b3, b4⟩ := hk x hx
        rcases b4 with ⟨_, c1, _⟩ | ⟨c1, _⟩
        · omega
        · have := nodup_count hL.safe.nodup x
          rw [count_allOf] at this
          have a1 := List.count_pos_iff.2 c1
          have a2 := List.count_pos_iff.2 hx
          omega
      obtain ⟨s, e1, e2, e3, e4, e5⟩ := live_time hw hL (draw st pileTime) g4.roomy
      refine ⟨s, k - 1, e1, e2, ⟨_, g4, (C13_availability_updated dom _ st s timeAction e1).1 rfl⟩, ?_,
        by rw [e3]; omega, by rw [e3]; omega⟩
      intro y hy
      obtain ⟨t0, dd, b1, b2, b3, b4, b5⟩ := hk y (e5 y hy)
      exact ⟨t0, dd, b1, b2, by omega, by omega, nextState_phase hL.safe.nodup b1 b5 (by simp [timeAction]) e1⟩

end Verif.Sched
