import Verif.Lemmas.GymBee
import Mathlib.Data.Nat.Digits.Lemmas
import Mathlib.Data.Rat.Cast.Defs
import Mathlib.Data.List.Forall2

/-! Helper lemmas about features, proxies and discrete actions of Gym domains. -/
namespace Verif.Gym

/-! ### Elements of spaces -/

mutual
/-- The element belongs to the space (shapes, ranges and keys; `ok` is what is asked of the cells of boxes). -/
def Fits {F : Type} (ok : F → Prop) : Space → Elem F → Prop
  | .box _ b, .array l => l.length = b.length ∧ ∀ c ∈ l, ok c
  | .discrete n, .int e => 0 ≤ e ∧ e < n
  | .multiDiscrete nv, .ints l => List.Forall₂ (fun (n : Nat) (e : Int) => 0 ≤ e ∧ e < n) nv l
  | .multiBinary n, .ints l => l.length = n ∧ ∀ e ∈ l, e = 0 ∨ e = 1
  | .tuple sp, .tuple l => FitsL ok sp l
  | .dict ks sp, .dict ks' l => ks' = ks ∧ ks.length = sp.length ∧ FitsL ok sp l
  | _, _ => False
/-- Part by part. -/
def FitsL {F : Type} (ok : F → Prop) : List Space → List (Elem F) → Prop
  | [], [] => True
  | s :: sp, e :: l => Fits ok s e ∧ FitsL ok sp l
  | _, _ => False
end

mutual
/-- Boxes and tuples of such spaces (and dictionaries without keys). -/
def onlyBoxes : Space → Bool
  | .box _ _ => true
  | .tuple sp => onlyBoxesL sp
  | .dict ks _ => ks.isEmpty
  | _ => false
/-- All of them. -/
def onlyBoxesL : List Space → Bool
  | [] => true
  | s :: sp => onlyBoxes s && onlyBoxesL sp
end

mutual
/-- The number of cells of the boxes. -/
def size : Space → Nat
  | .box _ b => b.length
  | .tuple sp => sizeL sp
  | .dict _ sp => sizeL sp
  | _ => 0
/-- Summed up. -/
def sizeL : List Space → Nat
  | [] => 0
  | s :: sp => size s + sizeL sp
end

/-! ### `bee1_features` -/

/-- Two well-formed nodes for each initial value. -/
structure St1.WF (st : St1) : Prop where
  len : st.nodes.length = 2 * st.init.length
  sub : ∀ n ∈ st.nodes, n.WF

theorem initCells1_wf (l : List Rat) {st : St1} (h : st.WF) :
    (initCells1 st l).WF ∧ (initCells1 st l).init.length = st.init.length + l.length := by
  induction l generalizing st with
  | nil => exact ⟨h, rfl⟩
  | cons c l ih =>
    have h' : (⟨st.init ++ [c], st.nodes ++ [Bee1.new c, Bee1.new c]⟩ : St1).WF := by
      refine ⟨?_, ?_⟩
      · have := h.len
        simp
        omega
      · intro n hn
        rcases List.mem_append.mp hn with hn | hn
        · exact h.sub n hn
        · simp only [List.mem_cons, List.not_mem_nil, or_false, or_self] at hn
          rw [hn]
          exact Bee1.wf_new c
    obtain ⟨a, b⟩ := ih h'
    refine ⟨a, ?_⟩
    rw [initCells1, b]
    simp
    omega

mutual
theorem init1_ok (ok : Rat → Prop) : (s : Space) → (e : Elem Rat) → (st : St1) → Fits ok s e → onlyBoxes s = true → st.WF →
    ∃ st', init1 st s e = .ok st' ∧ st'.WF ∧ st'.init.length = st.init.length + size s
  | .box _ b, .array l, st, hf, _, h => by
    obtain ⟨a, c⟩ := initCells1_wf l h
    refine ⟨_, rfl, a, ?_⟩
    rw [c, size, hf.1]
  | .tuple sp, .tuple l, st, hf, ho, h => by
    simpa only [init1, size] using init1L_ok ok sp l st (by simpa only [Fits] using hf) (by simpa only [onlyBoxes] using ho) h
  | .dict ks sp, .dict ks' l, st, hf, ho, h => by
    simp only [onlyBoxes, List.isEmpty_iff] at ho
    simp only [Fits] at hf
    subst ho
    obtain rfl : sp = [] := by simpa using hf.2.1.symm
    exact ⟨st, rfl, h, by simp [size, sizeL]⟩
  | .discrete _, _, _, _, ho, _ => by simp [onlyBoxes] at ho
  | .multiDiscrete _, _, _, _, ho, _ => by simp [onlyBoxes] at ho
  | .multiBinary _, _, _, _, ho, _ => by simp [onlyBoxes] at ho
  | .box _ _, .int _, _, hf, _, _ => by simp [Fits] at hf
  | .box _ _, .ints _, _, hf, _, _ => by simp [Fits] at hf
  | .box _ _, .tuple _, _, hf, _, _ => by simp [Fits] at hf
  | .box _ _, .dict _ _, _, hf, _, _ => by simp [Fits] at hf
  | .tuple _, .array _, _, hf, _, _ => by simp [Fits] at hf
  | .tuple _, .int _, _, hf, _, _ => by simp [Fits] at hf
  | .tuple _, .ints _, _, hf, _, _ => by simp [Fits] at hf
  | .tuple _, .dict _ _, _, hf, _, _ => by simp [Fits] at hf
  | .dict _ _, .array _, _, hf, _, _ => by simp [Fits] at hf
  | .dict _ _, .int _, _, hf, _, _ => by simp [Fits] at hf
  | .dict _ _, .ints _, _, hf, _, _ => by simp [Fits] at hf
  | .dict _ _, .tuple _, _, hf, _, _ => by simp [Fits] at hf
theorem init1L_ok (ok : Rat → Prop) : (sp : List Space) → (l : List (Elem Rat)) → (st : St1) → FitsL ok sp l → onlyBoxesL sp = true → st.WF →
    ∃ st', init1L st sp l = .ok st' ∧ st'.WF ∧ st'.init.length = st.init.length + sizeL sp
  | [], _, st, _, _, h => ⟨st, by simp only [init1L], h, by simp [sizeL]⟩
  | s :: sp, [], _, hf, _, _ => by simp [FitsL] at hf
  | s :: sp, e :: l, st, hf, ho, h => by
    simp only [FitsL] at hf
    simp only [onlyBoxesL, Bool.and_eq_true] at ho
    obtain ⟨st1, e1, h1, n1⟩ := init1_ok ok s e st hf.1 ho.1 h
    obtain ⟨st2, e2, h2, n2⟩ := init1L_ok ok sp l st1 hf.2 ho.2 h1
    exact ⟨st2, by simp only [init1L, e1, e2], h2, by simp only [sizeL]; omega⟩
end

theorem cell1_ok (fid : Nat) (cell : Rat) {st : St1} {index : Nat} (h : st.WF) (hi : index < st.init.length) :
    ∃ fs st', cell1 fid st index cell = .ok (fs, st') ∧ fs.length = fid ∧ st'.WF ∧ st'.init = st.init := by
  have hj : (if st.init[index] < cell then 2 * index else 2 * index + 1) < st.nodes.length := by
    have := h.len
    split <;> omega
  obtain ⟨fs, n', e, hl, hn'⟩ := Bee1.eval_ok (if st.init[index] < cell then 1 else -1) cell fid (h.sub _ (List.getElem_mem hj))
  refine ⟨fs, ⟨st.init, st.nodes.set (if st.init[index] < cell then 2 * index else 2 * index + 1) n'⟩, ?_, hl, ⟨?_, ?_⟩, rfl⟩
  · simp only [cell1, List.getElem?_eq_getElem hi, List.getElem?_eq_getElem hj, e]
  · simpa using h.len
  · intro m hm
    rcases List.mem_or_eq_of_mem_set hm with hm | rfl
    · exact h.sub m hm
    · exact hn'

theorem cells1_ok (fid : Nat) (l : List Rat) {st : St1} {index : Nat} (h : st.WF) (hi : index + l.length ≤ st.init.length) :
    ∃ fs st', cells1 fid st index l = .ok (index + l.length, fs, st') ∧ fs.length = fid * l.length ∧ st'.WF ∧ st'.init = st.init := by
  induction l generalizing st index with
  | nil => exact ⟨[], st, rfl, rfl, h, rfl⟩
  | cons c l ih =>
    simp only [List.length_cons] at hi
    obtain ⟨f1, s1, e1, l1, h1, i1⟩ := cell1_ok fid c h (index := index) (by omega)
    obtain ⟨f2, s2, e2, l2, h2, i2⟩ := ih h1 (index := index + 1) (by rw [i1]; omega)
    refine ⟨f1 ++ f2, s2, ?_, ?_, h2, i2.trans i1⟩
    · simp only [cells1, e1, e2, List.length_cons]
      rw [show index + 1 + l.length = index + (l.length + 1) by omega]
    · rw [List.length_append, l1, l2, List.length_cons]
      ring

mutual
theorem features1_ok (ok : Rat → Prop) (fid : Nat) : (s : Space) → (e : Elem Rat) → (st : St1) → (start : Nat) → Fits ok s e →
    onlyBoxes s = true → st.WF → start + size s ≤ st.init.length →
    ∃ fs st', features1 fid st start s e = .ok (start + size s, fs, st') ∧ fs.length = fid * size s ∧ st'.WF ∧ st'.init = st.init
  | .box _ b, .array l, st, start, hf, _, h, hi => by
    simp only [Fits] at hf
    simp only [size] at hi ⊢
    rw [← hf.1] at hi ⊢
    simpa only [features1] using cells1_ok fid l h hi
  | .tuple sp, .tuple l, st, start, hf, ho, h, hi => by
    simpa only [features1, size] using features1L_ok ok fid sp l st start (by simpa only [Fits] using hf) (by simpa only [onlyBoxes] using ho) h
      (by simpa only [size] using hi)
  | .dict ks sp, .dict ks' l, st, start, hf, ho, h, hi => by
    simp only [onlyBoxes, List.isEmpty_iff] at ho
    simp only [Fits] at hf
    subst ho
    obtain rfl : sp = [] := by simpa using hf.2.1.symm
    exact ⟨[], st, by simp [features1, features1L, size, sizeL], by simp [size, sizeL], h, rfl⟩
  | .discrete _, _, _, _, _, ho, _, _ => by simp [onlyBoxes] at ho
  | .multiDiscrete _, _, _, _, _, ho, _, _ => by simp [onlyBoxes] at ho
  | .multiBinary _, _, _, _, _, ho, _, _ => by simp [onlyBoxes] at ho
  | .box _ _, .int _, _, _, hf, _, _, _ => by simp [Fits] at hf
  | .box _ _, .ints _, _, _, hf, _, _, _ => by simp [Fits] at hf
  | .box _ _, .tuple _, _, _, hf, _, _, _ => by simp [Fits] at hf
  | .box _ _, .dict _ _, _, _, hf, _, _, _ => by simp [Fits] at hf
  | .tuple _, .array _, _, _, hf, _, _, _ => by simp [Fits] at hf
  | .tuple _, .int _, _, _, hf, _, _, _ => by simp [Fits] at hf
  | .tuple _, .ints _, _, _, hf, _, _, _ => by simp [Fits] at hf
  | .tuple _, .dict _ _, _, _, hf, _, _, _ => by simp [Fits] at hf
  | .dict _ _, .array _, _, _, hf, _, _, _ => by simp [Fits] at hf
  | .dict _ _, .int _, _, _, hf, _, _, _ => by simp [Fits] at hf
  | .dict _ _, .ints _, _, _, hf, _, _, _ => by simp [Fits] at hf
  | .dict _ _, .tuple _, _, _, hf, _, _, _ => by simp [Fits] at hf
theorem features1L_ok (ok : Rat → Prop) (fid : Nat) : (sp : List Space) → (l : List (Elem Rat)) → (st : St1) → (start : Nat) → FitsL ok sp l →
    onlyBoxesL sp = true → st.WF → start + sizeL sp ≤ st.init.length →
    ∃ fs st', features1L fid st start sp l = .ok (start + sizeL sp, fs, st') ∧ fs.length = fid * sizeL sp ∧ st'.WF ∧ st'.init = st.init
  | [], _, st, start, _, _, h, _ => ⟨[], st, by simp [features1L, sizeL], by simp [sizeL], h, rfl⟩
  | s :: sp, [], _, _, hf, _, _, _ => by simp [FitsL] at hf
  | s :: sp, e :: l, st, start, hf, ho, h, hi => by
    simp only [FitsL] at hf
    simp only [onlyBoxesL, Bool.and_eq_true] at ho
    simp only [sizeL] at hi ⊢
    obtain ⟨f1, s1, e1, l1, h1, i1⟩ := features1_ok ok fid s e st start hf.1 ho.1 h (by omega)
    obtain ⟨f2, s2, e2, l2, h2, i2⟩ := features1L_ok ok fid sp l s1 (start + size s) hf.2 ho.2 h1 (by rw [i1]; omega)
    refine ⟨f1 ++ f2, s2, ?_, ?_, h2, i2.trans i1⟩
    · simp only [features1L, e1, e2, Nat.add_assoc]
    · rw [List.length_append, l1, l2]
      ring
end

/-- No table yet, or one for the space. -/
def Ready1 (s : Space) (st : St1) : Prop := (st.init = [] ∧ st.nodes = []) ∨ (st.WF ∧ st.init.length = size s)

theorem bee1_ok (fid : Nat) {s : Space} {e : Elem Rat} {st : St1} (hf : Fits (fun _ => True) s e) (ho : onlyBoxes s = true) (h : Ready1 s st) :
    ∃ fs st', bee1 fid s st e = .ok (fs, st') ∧ fs.length = fid * size s ∧ Ready1 s st' := by
  have key : ∃ st0, (if st.nodes.length = 0 then init1 st s e else .ok st) = .ok st0 ∧ st0.WF ∧ st0.init.length = size s := by
    rcases h with ⟨hi, hn⟩ | ⟨hw, hl⟩
    · obtain ⟨st0, e0, h0, l0⟩ := init1_ok _ s e st hf ho ⟨by simp [hi, hn], by simp [hn]⟩
      exact ⟨st0, by simp [hn, e0], h0, by simpa [hi] using l0⟩
    · by_cases h0 : st.nodes.length = 0
      · have hsz : st.init.length = 0 := by have := hw.len; omega
        obtain ⟨st0, e0, h0', l0⟩ := init1_ok _ s e st hf ho hw
        exact ⟨st0, by simp [h0, e0], h0', by omega⟩
      · exact ⟨st, by simp [h0], hw, hl⟩
  obtain ⟨st0, e0, h0, l0⟩ := key
  obtain ⟨fs, st', e1, l1, h1, i1⟩ := features1_ok _ fid s e st0 0 hf ho h0 (by omega)
  refine ⟨fs, st', ?_, l1, .inr ⟨h1, by rw [i1, l0]⟩⟩
  simp only [bee1, e0, e1]

/-! ### The spaces for which the tables cannot be set up -/

mutual
theorem init1_error (ok : Rat → Prop) : (s : Space) → (e : Elem Rat) → (st : St1) → Fits ok s e → onlyBoxes s = false →
    init1 st s e = .error .runtimeError ∨ init1 st s e = .error .valueError
  | .box _ _, .array _, _, _, ho => by simp [onlyBoxes] at ho
  | .tuple sp, .tuple l, st, hf, ho => by
    simp only [init1]
    exact init1L_error ok sp l st (by simpa only [Fits] using hf) (by simpa only [onlyBoxes] using ho)
  | .dict ks sp, .dict ks' l, st, hf, ho => by
    cases ks with
    | nil => simp [onlyBoxes] at ho
    | cons k ks =>
      simp only [init1, unpackKeys]
      split
      · exact .inl rfl
      · exact .inr rfl
  | .discrete _, _, _, _, _ => .inl rfl
  | .multiDiscrete _, _, _, _, _ => .inl rfl
  | .multiBinary _, _, _, _, _ => .inl rfl
  | .box _ _, .int _, _, hf, _ => by simp [Fits] at hf
  | .box _ _, .ints _, _, hf, _ => by simp [Fits] at hf
  | .box _ _, .tuple _, _, hf, _ => by simp [Fits] at hf
  | .box _ _, .dict _ _, _, hf, _ => by simp [Fits] at hf
  | .tuple _, .array _, _, hf, _ => by simp [Fits] at hf
  | .tuple _, .int _, _, hf, _ => by simp [Fits] at hf
  | .tuple _, .ints _, _, hf, _ => by simp [Fits] at hf
  | .tuple _, .dict _ _, _, hf, _ => by simp [Fits] at hf
  | .dict _ _, .array _, _, hf, _ => by simp [Fits] at hf
  | .dict _ _, .int _, _, hf, _ => by simp [Fits] at hf
  | .dict _ _, .ints _, _, hf, _ => by simp [Fits] at hf
  | .dict _ _, .tuple _, _, hf, _ => by simp [Fits] at hf
theorem init1L_error (ok : Rat → Prop) : (sp : List Space) → (l : List (Elem Rat)) → (st : St1) → FitsL ok sp l → onlyBoxesL sp = false →
    init1L st sp l = .error .runtimeError ∨ init1L st sp l = .error .valueError
  | [], _, _, _, ho => by simp [onlyBoxesL] at ho
  | _ :: _, [], _, hf, _ => by simp [FitsL] at hf
  | s :: sp, e :: l, st, hf, ho => by
    simp only [FitsL] at hf
    cases hs : onlyBoxes s with
    | false =>
      rcases init1_error ok s e st hf.1 hs with h | h
      · exact .inl (by simp only [init1L, h])
      · exact .inr (by simp only [init1L, h])
    | true =>
      have ho' : onlyBoxesL sp = false := by simpa [onlyBoxesL, hs] using ho
      cases hi : init1 st s e with
      | ok st' =>
        simp only [init1L, hi]
        exact init1L_error ok sp l st' hf.2 ho'
      | error er =>
        obtain ⟨st', e'⟩ := init1_any ok s e st hf.1 hs
        rw [hi] at e'
        simp at e'
/-- Setting up succeeds from any state. -/
theorem init1_any (ok : Rat → Prop) : (s : Space) → (e : Elem Rat) → (st : St1) → Fits ok s e → onlyBoxes s = true →
    ∃ st', init1 st s e = .ok st'
  | .box _ b, .array l, st, _, _ => ⟨_, rfl⟩
  | .tuple sp, .tuple l, st, hf, ho => by
    simpa only [init1] using init1L_any ok sp l st (by simpa only [Fits] using hf) (by simpa only [onlyBoxes] using ho)
  | .dict ks sp, .dict ks' l, st, hf, ho => by
    simp only [onlyBoxes, List.isEmpty_iff] at ho
    subst ho
    exact ⟨st, rfl⟩
  | .discrete _, _, _, _, ho => by simp [onlyBoxes] at ho
  | .multiDiscrete _, _, _, _, ho => by simp [onlyBoxes] at ho
  | .multiBinary _, _, _, _, ho => by simp [onlyBoxes] at ho
  | .box _ _, .int _, _, hf, _ => by simp [Fits] at hf
  | .box _ _, .ints _, _, hf, _ => by simp [Fits] at hf
  | .box _ _, .tuple _, _, hf, _ => by simp [Fits] at hf
  | .box _ _, .dict _ _, _, hf, _ => by simp [Fits] at hf
  | .tuple _, .array _, _, hf, _ => by simp [Fits] at hf
  | .tuple _, .int _, _, hf, _ => by simp [Fits] at hf
  | .tuple _, .ints _, _, hf, _ => by simp [Fits] at hf
  | .tuple _, .dict _ _, _, hf, _ => by simp [Fits] at hf
  | .dict _ _, .array _, _, hf, _ => by simp [Fits] at hf
  | .dict _ _, .int _, _, hf, _ => by simp [Fits] at hf
  | .dict _ _, .ints _, _, hf, _ => by simp [Fits] at hf
  | .dict _ _, .tuple _, _, hf, _ => by simp [Fits] at hf
theorem init1L_any (ok : Rat → Prop) : (sp : List Space) → (l : List (Elem Rat)) → (st : St1) → FitsL ok sp l → onlyBoxesL sp = true →
    ∃ st', init1L st sp l = .ok st'
  | [], _, st, _, _ => ⟨st, by simp only [init1L]⟩
  | s :: sp, [], _, hf, _ => by simp [FitsL] at hf
  | s :: sp, e :: l, st, hf, ho => by
    simp only [FitsL] at hf
    simp only [onlyBoxesL, Bool.and_eq_true] at ho
    obtain ⟨st1, e1⟩ := init1_any ok s e st hf.1 ho.1
    obtain ⟨st2, e2⟩ := init1L_any ok sp l st1 hf.2 ho.2
    exact ⟨st2, by simp only [init1L, e1, e2]⟩
end

/-! ### `bee2_features` -/

/-- Every node is well-formed. -/
def WF2 (nodes : List Bee2) : Prop := ∀ n ∈ nodes, n.WF

theorem initCells2_ok (l : List Rat) {nodes : List Bee2} (h : WF2 nodes) :
    ∃ nodes', initCells2 nodes l = .ok nodes' ∧ WF2 nodes' ∧ nodes'.length = nodes.length + l.length := by
  induction l generalizing nodes with
  | nil => exact ⟨nodes, rfl, h, rfl⟩
  | cons c l ih =>
    obtain ⟨k, fs, n, e, -, hn, -⟩ := Bee2.eval_ok c 0 Bee2.wf_new
    obtain ⟨nodes', e', h', l'⟩ := ih (nodes := nodes ++ [n]) (by
      intro m hm
      rcases List.mem_append.mp hm with hm | hm
      · exact h m hm
      · rw [List.mem_singleton.mp hm]; exact hn)
    refine ⟨nodes', by simp only [initCells2, e, e'], h', ?_⟩
    rw [l']
    simp
    omega

mutual
theorem init2_ok (ok : Rat → Prop) : (s : Space) → (e : Elem Rat) → (st : List Bee2) → Fits ok s e → onlyBoxes s = true → WF2 st →
    ∃ st', init2 st s e = .ok st' ∧ WF2 st' ∧ st'.length = st.length + size s
  | .box _ b, .array l, st, hf, _, h => by
    simp only [Fits] at hf
    obtain ⟨n, e, a, c⟩ := initCells2_ok l h
    exact ⟨n, by simp only [init2, e], a, by rw [c, size, hf.1]⟩
  | .tuple sp, .tuple l, st, hf, ho, h => by
    simpa only [init2, size] using init2L_ok ok sp l st (by simpa only [Fits] using hf) (by simpa only [onlyBoxes] using ho) h
  | .dict ks sp, .dict ks' l, st, hf, ho, h => by
    simp only [onlyBoxes, List.isEmpty_iff] at ho
    simp only [Fits] at hf
    subst ho
    obtain rfl : sp = [] := by simpa using hf.2.1.symm
    exact ⟨st, rfl, h, by simp [size, sizeL]⟩
  | .discrete _, _, _, _, ho, _ => by simp [onlyBoxes] at ho
  | .multiDiscrete _, _, _, _, ho, _ => by simp [onlyBoxes] at ho
  | .multiBinary _, _, _, _, ho, _ => by simp [onlyBoxes] at ho
  | .box _ _, .int _, _, hf, _, _ => by simp [Fits] at hf
  | .box _ _, .ints _, _, hf, _, _ => by simp [Fits] at hf
  | .box _ _, .tuple _, _, hf, _, _ => by simp [Fits] at hf
  | .box _ _, .dict _ _, _, hf, _, _ => by simp [Fits] at hf
  | .tuple _, .array _, _, hf, _, _ => by simp [Fits] at hf
  | .tuple _, .int _, _, hf, _, _ => by simp [Fits] at hf
  | .tuple _, .ints _, _, hf, _, _ => by simp [Fits] at hf
  | .tuple _, .dict _ _, _, hf, _, _ => by simp [Fits] at hf
  | .dict _ _, .array _, _, hf, _, _ => by simp [Fits] at hf
  | .dict _ _, .int _, _, hf, _, _ => by simp [Fits] at hf
  | .dict _ _, .ints _, _, hf, _, _ => by simp [Fits] at hf
  | .dict _ _, .tuple _, _, hf, _, _ => by simp [Fits] at hf
theorem init2L_ok (ok : Rat → Prop) : (sp : List Space) → (l : List (Elem Rat)) → (st : List Bee2) → FitsL ok sp l → onlyBoxesL sp = true → WF2 st →
    ∃ st', init2L st sp l = .ok st' ∧ WF2 st' ∧ st'.length = st.length + sizeL sp
  | [], _, st, _, _, h => ⟨st, by simp only [init2L], h, by simp [sizeL]⟩
  | s :: sp, [], _, hf, _, _ => by simp [FitsL] at hf
  | s :: sp, e :: l, st, hf, ho, h => by
    simp only [FitsL] at hf
    simp only [onlyBoxesL, Bool.and_eq_true] at ho
    obtain ⟨st1, e1, h1, n1⟩ := init2_ok ok s e st hf.1 ho.1 h
    obtain ⟨st2, e2, h2, n2⟩ := init2L_ok ok sp l st1 hf.2 ho.2 h1
    exact ⟨st2, by simp only [init2L, e1, e2], h2, by simp only [sizeL]; omega⟩
end

mutual
theorem init2_error (ok : Rat → Prop) : (s : Space) → (e : Elem Rat) → (st : List Bee2) → Fits ok s e → onlyBoxes s = false → WF2 st →
    init2 st s e = .error .runtimeError ∨ init2 st s e = .error .valueError
  | .box _ _, .array _, _, _, ho, _ => by simp [onlyBoxes] at ho
  | .tuple sp, .tuple l, st, hf, ho, h => by
    simp only [init2]
    exact init2L_error ok sp l st (by simpa only [Fits] using hf) (by simpa only [onlyBoxes] using ho) h
  | .dict ks sp, .dict ks' l, st, hf, ho, _ => by
    cases ks with
    | nil => simp [onlyBoxes] at ho
    | cons k ks =>
      simp only [init2, unpackKeys]
      split
      · exact .inl rfl
      · exact .inr rfl
  | .discrete _, _, _, _, _, _ => .inl rfl
  | .multiDiscrete _, _, _, _, _, _ => .inl rfl
  | .multiBinary _, _, _, _, _, _ => .inl rfl
  | .box _ _, .int _, _, hf, _, _ => by simp [Fits] at hf
  | .box _ _, .ints _, _, hf, _, _ => by simp [Fits] at hf
  | .box _ _, .tuple _, _, hf, _, _ => by simp [Fits] at hf
  | .box _ _, .dict _ _, _, hf, _, _ => by simp [Fits] at hf
  | .tuple _, .array _, _, hf, _, _ => by simp [Fits] at hf
  | .tuple _, .int _, _, hf, _, _ => by simp [Fits] at hf
  | .tuple _, .ints _, _, hf, _, _ => by simp [Fits] at hf
  | .tuple _, .dict _ _, _, hf, _, _ => by simp [Fits] at hf
  | .dict _ _, .array _, _, hf, _, _ => by simp [Fits] at hf
  | .dict _ _, .int _, _, hf, _, _ => by simp [Fits] at hf
  | .dict _ _, .ints _, _, hf, _, _ => by simp [Fits] at hf
  | .dict _ _, .tuple _, _, hf, _, _ => by simp [Fits] at hf
theorem init2L_error (ok : Rat → Prop) : (sp : List Space) → (l : List (Elem Rat)) → (st : List Bee2) → FitsL ok sp l → onlyBoxesL sp = false → WF2 st →
    init2L st sp l = .error .runtimeError ∨ init2L st sp l = .error .valueError
  | [], _, _, _, ho, _ => by simp [onlyBoxesL] at ho
  | _ :: _, [], _, hf, _, _ => by simp [FitsL] at hf
  | s :: sp, e :: l, st, hf, ho, h => by
    simp only [FitsL] at hf
    cases hs : onlyBoxes s with
    | false =>
      rcases init2_error ok s e st hf.1 hs h with h | h
      · exact .inl (by simp only [init2L, h])
      · exact .inr (by simp only [init2L, h])
    | true =>
      have ho' : onlyBoxesL sp = false := by simpa [onlyBoxesL, hs] using ho
      obtain ⟨st', e', h', -⟩ := init2_ok ok s e st hf.1 hs h
      simp only [init2L, e']
      exact init2L_error ok sp l st' hf.2 ho' h'
end

theorem cells2_ok (lv : Nat) (l : List Rat) {st : List Bee2} {index : Nat} (h : WF2 st) (hi : index + l.length ≤ st.length) :
    ∃ fs st', cells2 lv st index l = .ok (index + l.length, fs, st') ∧ fs.length = (lv + 1) * l.length ∧ WF2 st' ∧ st'.length = st.length := by
  induction l generalizing st index with
  | nil => exact ⟨[], st, rfl, rfl, h, rfl⟩
  | cons c l ih =>
    simp only [List.length_cons] at hi
    have hlt : index < st.length := by omega
    obtain ⟨k, f1, n1, e1, l1, h1, -⟩ := Bee2.eval_ok c lv (h _ (List.getElem_mem hlt))
    obtain ⟨f2, s2, e2, l2, h2, i2⟩ := ih (st := st.set index n1) (index := index + 1) (by
      intro m hm
      rcases List.mem_or_eq_of_mem_set hm with hm | rfl
      · exact h m hm
      · exact h1) (by simp; omega)
    refine ⟨k :: f1 ++ f2, s2, ?_, ?_, h2, by simpa using i2⟩
    · simp only [cells2, List.getElem?_eq_getElem hlt, e1, e2, List.length_cons]
      rw [show index + 1 + l.length = index + (l.length + 1) by omega]
    · rw [List.length_append, List.length_cons, l1, l2, List.length_cons]
      ring

mutual
theorem features2_ok (ok : Rat → Prop) (lv : Nat) : (s : Space) → (e : Elem Rat) → (st : List Bee2) → (start : Nat) → Fits ok s e →
    onlyBoxes s = true → WF2 st → start + size s ≤ st.length →
    ∃ fs st', features2 lv st start s e = .ok (start + size s, fs, st') ∧ fs.length = (lv + 1) * size s ∧ WF2 st' ∧ st'.length = st.length
  | .box _ b, .array l, st, start, hf, _, h, hi => by
    simp only [Fits] at hf
    simp only [size] at hi ⊢
    rw [← hf.1] at hi ⊢
    simpa only [features2] using cells2_ok lv l h hi
  | .tuple sp, .tuple l, st, start, hf, ho, h, hi => by
    simpa only [features2, size] using features2L_ok ok lv sp l st start (by simpa only [Fits] using hf) (by simpa only [onlyBoxes] using ho) h
      (by simpa only [size] using hi)
  | .dict ks sp, .dict ks' l, st, start, hf, ho, h, hi => by
    simp only [onlyBoxes, List.isEmpty_iff] at ho
    simp only [Fits] at hf
    subst ho
    obtain rfl : sp = [] := by simpa using hf.2.1.symm
    exact ⟨[], st, by simp [features2, features2L, size, sizeL], by simp [size, sizeL], h, rfl⟩
  | .discrete _, _, _, _, _, ho, _, _ => by simp [onlyBoxes] at ho
  | .multiDiscrete _, _, _, _, _, ho, _, _ => by simp [onlyBoxes] at ho
  | .multiBinary _, _, _, _, _, ho, _, _ => by simp [onlyBoxes] at ho
  | .box _ _, .int _, _, _, hf, _, _, _ => by simp [Fits] at hf
  | .box _ _, .ints _, _, _, hf, _, _, _ => by simp [Fits] at hf
  | .box _ _, .tuple _, _, _, hf, _, _, _ => by simp [Fits] at hf
  | .box _ _, .dict _ _, _, _, hf, _, _, _ => by simp [Fits] at hf
  | .tuple _, .array _, _, _, hf, _, _, _ => by simp [Fits] at hf
  | .tuple _, .int _, _, _, hf, _, _, _ => by simp [Fits] at hf
  | .tuple _, .ints _, _, _, hf, _, _, _ => by simp [Fits] at hf
  | .tuple _, .dict _ _, _, _, hf, _, _, _ => by simp [Fits] at hf
  | .dict _ _, .array _, _, _, hf, _, _, _ => by simp [Fits] at hf
  | .dict _ _, .int _, _, _, hf, _, _, _ => by simp [Fits] at hf
  | .dict _ _, .ints _, _, _, hf, _, _, _ => by simp [Fits] at hf
  | .dict _ _, .tuple _, _, _, hf, _, _, _ => by simp [Fits] at hf
theorem features2L_ok (ok : Rat → Prop) (lv : Nat) : (sp : List Space) → (l : List (Elem Rat)) → (st : List Bee2) → (start : Nat) → FitsL ok sp l →
    onlyBoxesL sp = true → WF2 st → start + sizeL sp ≤ st.length →
    ∃ fs st', features2L lv st start sp l = .ok (start + sizeL sp, fs, st') ∧ fs.length = (lv + 1) * sizeL sp ∧ WF2 st' ∧ st'.length = st.length
  | [], _, st, start, _, _, h, _ => ⟨[], st, by simp [features2L, sizeL], by simp [sizeL], h, rfl⟩
  | s :: sp, [], _, _, hf, _, _, _ => by simp [FitsL] at hf
  | s :: sp, e :: l, st, start, hf, ho, h, hi => by
    simp only [FitsL] at hf
    simp only [onlyBoxesL, Bool.and_eq_true] at ho
    simp only [sizeL] at hi ⊢
    obtain ⟨f1, s1, e1, l1, h1, i1⟩ := features2_ok ok lv s e st start hf.1 ho.1 h (by omega)
    obtain ⟨f2, s2, e2, l2, h2, i2⟩ := features2L_ok ok lv sp l s1 (start + size s) hf.2 ho.2 h1 (by omega)
    refine ⟨f1 ++ f2, s2, ?_, ?_, h2, i2.trans i1⟩
    · simp only [features2L, e1, e2, Nat.add_assoc]
    · rw [List.length_append, l1, l2]
      ring
end

/-- No table yet, or one for the space. -/
def Ready2 (s : Space) (st : List Bee2) : Prop := st = [] ∨ (WF2 st ∧ st.length = size s)

theorem bee2_ok (lv : Nat) {s : Space} {e : Elem Rat} {st : List Bee2} (hf : Fits (fun _ => True) s e) (ho : onlyBoxes s = true) (h : Ready2 s st) :
    ∃ fs st', bee2 lv s st e = .ok (fs, st') ∧ fs.length = (lv + 1) * size s ∧ Ready2 s st' := by
  have key : ∃ st0, (if st.length = 0 then init2 st s e else .ok st) = .ok st0 ∧ WF2 st0 ∧ st0.length = size s := by
    by_cases h0 : st.length = 0
    · have hnil := List.length_eq_zero_iff.mp h0
      obtain ⟨st0, e0, h0', l0⟩ := init2_ok _ s e st hf ho (by simp [hnil, WF2])
      exact ⟨st0, by simp [h0, e0], h0', by omega⟩
    · rcases h with rfl | ⟨hw, hl⟩
      · simp at h0
      · exact ⟨st, by simp [h0], hw, hl⟩
  obtain ⟨st0, e0, h0, l0⟩ := key
  obtain ⟨fs, st', e1, l1, h1, i1⟩ := features2_ok _ lv s e st0 0 hf ho h0 (by omega)
  refine ⟨fs, st', ?_, l1, .inr ⟨h1, by rw [i1, l0]⟩⟩
  simp only [bee2, e0, e1]

end Verif.Gym
