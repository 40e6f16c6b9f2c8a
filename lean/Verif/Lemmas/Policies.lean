import Verif.Model.Policies
import Verif.Lemmas.SchedAcc

/-! Lemmas about the schedule-following policies. -/
namespace Verif.Sched

theorem possiblePrecedence_mem {dom : Dom} {st : State} {x : TaskId} :
    x ∈ possiblePrecedence dom st ↔ x ∈ st.remaining ∧ ∀ q ∈ dom.preds x, q ∈ st.complete := by
  simp [possiblePrecedence, List.mem_filter]

theorem map_fst_filter_zipIdx (l : List TaskId) (n : Nat) (f : TaskId → Bool) :
    ((l.zipIdx n).filter fun e => f e.1).map Prod.fst = l.filter f := by
  induction l generalizing n with
  | nil => rfl
  | cons x l ih =>
    rw [List.zipIdx_cons, List.filter_cons, List.filter_cons]
    cases h : f x <;> simp [ih]

theorem zipIdx_take (l : List TaskId) (n d : Nat) :
    ((l.zipIdx n).filter fun e => decide ((e.2 : Int) < (n : Int) + (d : Int))) = (l.take d).zipIdx n := by
  induction l generalizing n d with
  | nil => simp
  | cons x l ih =>
    rw [List.zipIdx_cons, List.filter_cons]
    cases d with
    | zero =>
      have h0 : decide ((n : Int) < (n : Int) + ((0 : Nat) : Int)) = false := by simp
      simp only [h0, Bool.false_eq_true, if_false, List.take_zero, List.zipIdx_nil, List.filter_eq_nil_iff]
      intro e he
      have := List.le_snd_of_mem_zipIdx he
      simp only [decide_eq_true_eq]
      omega
    | succ d =>
      have h1 : decide ((n : Int) < (n : Int) + ((d + 1 : Nat) : Int)) = true := by
        simp only [decide_eq_true_eq]; omega
      simp only [h1, if_true, List.take_succ_cons, List.zipIdx_cons]
      rw [← ih (n + 1) d]
      congr 2
      funext e
      congr 1
      apply propext
      omega

theorem keepBy_ok {sched : Dict TaskId Int} {test : Int → Bool} {l l' : List TaskId} :
    keepBy sched test l = .ok l' ↔ (∀ x ∈ l, (sched.get? x).isSome = true) ∧
      l' = l.filter fun x => (sched.get? x).any test := by
  induction l generalizing l' with
  | nil => simp only [keepBy, Except.ok.injEq]
           exact ⟨fun h => ⟨by simp, h.symm⟩, fun h => h.2.symm⟩
  | cons x l ih =>
    simp only [keepBy, bind_eq_ok, Dict.get_ok_iff, ih, List.mem_cons, forall_eq_or_imp, List.filter_cons]
    constructor
    · rintro ⟨s, h1, k, ⟨h2, rfl⟩, h3⟩
      have h3 := Except.ok.inj h3
      refine ⟨⟨by rw [h1]; rfl, h2⟩, ?_⟩
      rw [← h3, h1]; rfl
    · rintro ⟨⟨h1, h2⟩, h3⟩
      obtain ⟨s, hs⟩ := Option.isSome_iff_exists.1 h1
      refine ⟨s, hs, _, ⟨h2, rfl⟩, ?_⟩
      rw [h3, hs]; rfl

theorem keepOthers_ok {sched : Dict TaskId Int} {next : TaskId} {start : Int} {possible l l' : List TaskId} :
    keepOthers sched next start possible l = .ok l' ↔
      (∀ x ∈ l, x ≠ next → (sched.get? x).isSome = true) ∧
      l' = l.filter fun x => decide (x ≠ next ∧ sched.get? x = some start ∧ x ∈ possible) := by
  induction l generalizing l' with
  | nil => simp only [keepOthers, Except.ok.injEq]
           exact ⟨fun h => ⟨by simp, h.symm⟩, fun h => h.2.symm⟩
  | cons x l ih =>
    rw [keepOthers]
    by_cases hx : x = next
    · rw [if_pos hx, ih]
      simp [hx]
    · rw [if_neg hx]
      simp only [bind_eq_ok, Dict.get_ok_iff, ih, List.mem_cons, forall_eq_or_imp, List.filter_cons]
      constructor
      · rintro ⟨s, h1, k, ⟨h2, rfl⟩, h3⟩
        have h3 := Except.ok.inj h3
        refine ⟨⟨fun _ => by rw [h1]; rfl, h2⟩, ?_⟩
        rw [← h3, h1]
        simp [hx]
      · rintro ⟨⟨h1, h2⟩, h3⟩
        obtain ⟨s, hs⟩ := Option.isSome_iff_exists.1 (h1 hx)
        refine ⟨s, hs, _, ⟨h2, rfl⟩, ?_⟩
        rw [h3, hs]
        simp only [Option.some.injEq, ne_eq, hx, not_false_eq_true, true_and, decide_eq_true_eq]
        rfl

end Verif.Sched
