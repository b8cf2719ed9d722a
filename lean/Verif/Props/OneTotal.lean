import Verif.Props.OneBest

/-!
C41, GoHMMs with one state: the learning returns a model.
-/

set_option linter.unusedSectionVars false
set_option autoImplicit false

namespace Jajapy

open BW Spec

variable {d : ℕ}

/-- C41, GoHMM with one state, for data that are not constant: the learning raises no exception, for every `max_it`, `epsilon` and number of processes. -/
theorem GoHMM.one_state_total (processes : ℕ) (S : TSet (Fin d → ℝ)) (epsilon : ℝ) (maxIt : ℕ) (M : GoHMM 1 d) (hM : M.Valid)
    (hs : ∀ s i, 0 < M.sigma s i) (ht : ∀ t ∈ S.times, 1 ≤ t) (hne : ∀ w ∈ S.sequences, w ≠ [])
    (hlen : S.times.length = S.sequences.length) (hz : S.sequences ≠ [])
    (hvar : ∀ i, dataMean S (fun o => (o i - dataMean S (fun o => o i)) ^ 2) ≠ 0) :
    ∃ st, fit (stepGoHMM processes S) epsilon maxIt M = .ok st := by
  have hz' : S.sequences.zip S.times ≠ [] := by
    intro h
    rcases List.zip_eq_nil_iff.1 h with h | h
    · exact hz h
    · rw [h] at hlen; exact hz (List.length_eq_zero_iff.1 hlen.symm)
  unfold fit
  generalize (0:ℕ) = c
  generalize (none : Option ℝ) = l
  induction maxIt generalizing M c l with
  | zero => exact ⟨_, rfl⟩
  | succ fuel ih =>
    have hl : ∀ w ∈ S.sequences, M.lik w ≠ 0 := fun w hw => (M.lik_pos hM hs w (hne w hw)).ne'
    obtain ⟨⟨M', ll⟩, hr⟩ := (M.bw_step_outcome processes S hM.2.2.2.2 hM.2.2.2.1 hne hlen).1 (by
      rcases Nat.lt_or_ge 1 processes with h | h
      · obtain ⟨w, hw⟩ := List.exists_mem_of_ne_nil _ hz
        exact Or.inl ⟨h, w, hw, hl w hw⟩
      · exact Or.inr ⟨h, hz, hl⟩)
    rw [loop_succ _ _ _ _ M' ll hr]
    split_ifs
    · exact ⟨_, rfl⟩
    · refine ih M' (M.bw_step_valid _ _ _ _ hM ht hr) (fun s i => ?_) _ _
      obtain ⟨_, b2, _, _⟩ := M.one_state_step processes S M' ll hM hs ht hne hz' hr
      rw [Subsingleton.elim s 0, b2]
      exact Real.sqrt_pos.2 (Spec.dataMean_sq_pos S ht hne hz' i (hvar i) _)

/-- The hypotheses of `GoHMM.one_state_total`, with a mean that is not the one of the data. -/
example (processes maxIt : ℕ) : ∃ st, fit (stepGoHMM processes exSetPair) (1/100) maxIt { exGoPair with mu := fun _ _ => 5 } = .ok st :=
  GoHMM.one_state_total processes exSetPair (1/100) maxIt _ exGoPair_valid (fun _ _ => by simp [exGoPair])
    (by simp [exSetPair]) (by simp [exSetPair]) rfl (by simp [exSetPair]) (fun i => by simp [dataMean, dataSum, exSetPair])

end Jajapy
