import Verif.Lemmas.RcpspSpec
/- Schedule generation places every activity before the horizon when there are resources. -/
namespace Verif.Rcpsp

theorem ends_inside {pb : Problem} {ext E : List Nat} {st : St} (inv : Inv pb (fun _ => 0) ext E st) (hr : pb.resources ≠ []) :
    ∀ (n : Nat) (pre : Dict Nat Nat) (b e : Nat) (post : Dict Nat Nat), pre.length = n → st.ends = pre ++ (b, e) :: post →
      e ≤ pb.newHorizon := by
  intro n
  induction n using Nat.strongRecOn with
  | ind n ih =>
    intro pre b e post hlen hst
    have g := inv.greedy pre b e post hst
    rcases g.inside with h | h | h
    · exact absurd h hr
    · obtain ⟨m, hm, _, hmin⟩ := g.mode
      have hd : m.duration = 0 := by
        rw [← h]; simp [dur, hm]
      by_cases he : e = 0
      · omega
      · by_cases hx : ∀ a ea, (a, ea) ∈ pre → ∀ ss, pb.successors.get? a = some ss → b ∈ ss → ea ≤ e - 1
        · obtain ⟨t, t1, t2, _⟩ := hmin (e - 1) (Nat.zero_le _) (by omega) hx
          omega
        · simp only [Classical.not_forall] at hx
          obtain ⟨a, ea, hmem, ss, _, _, hlt⟩ := hx
          obtain ⟨l1, l2, rfl⟩ := List.append_of_mem hmem
          have := ih l1.length (by rw [← hlen]; simp) l1 a ea (l2 ++ (b, e) :: post) rfl (by rw [hst]; simp)
          omega
    · exact h

/-- The generated schedule ends before the horizon. -/
theorem generated_inside {pb : Problem} {perm modes : List Nat} {r : Result} (hE : (extended pb perm).Nodup)
    (hres : pb.resources.keys.Nodup) (hr : pb.resources ≠ []) (h : sgs pb perm modes = .ok r) (hf : r.feasible = true) :
    ∀ a s e, (a, (s, e)) ∈ r.schedule → e ≤ (pb.newHorizon : Int) := by
  obtain ⟨st, inv, hext, hfl, hend⟩ := sgs_inv hE hres h
  obtain ⟨_, hs⟩ := hend (by rw [hf] at hfl; simpa using hfl)
  intro a s e hm
  rw [hs] at hm
  obtain ⟨e', he', rfl, rfl⟩ := mem_placed.1 hm
  obtain ⟨l1, l2, hl⟩ := List.append_of_mem he'
  have := ends_inside inv hr l1.length l1 a e' l2 rfl hl
  omega

end Verif.Rcpsp
