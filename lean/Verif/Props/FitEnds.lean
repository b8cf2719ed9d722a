import Verif.Props.Loop
import Verif.Props.BWMDP
import Verif.Props.LimitCT

/-!
C41: with `epsilon > 0` the learning ends, whatever the training set and the number of processes: it returns or raises an exception.
-/

set_option autoImplicit false
set_option linter.unusedSectionVars false

namespace Jajapy

open Finset Spec BW

theorem BW.loop_error_more {H : Type} (step : H → Py (H × ℝ)) (epsilon : ℝ) (e : Err) (m k : ℕ) (st : LoopState H) (h : BW.loop step epsilon m st = .error e) :
    BW.loop step epsilon (m + k) st = .error e := by
  induction m generalizing st with
  | zero => unfold BW.loop at h; simp at h
  | succ m ih =>
    rw [show m + 1 + k = (m + k) + 1 from by omega]
    unfold BW.loop at h ⊢
    cases hs : step st.h with
    | error e' => rw [hs] at h; exact h
    | ok r =>
      rw [hs] at h
      dsimp only [bind, Except.bind] at h ⊢
      cases hl : st.ll with
      | none => rw [hl] at h; exact ih _ h
      | some prev =>
        rw [hl] at h
        dsimp only at h ⊢
        split_ifs at h ⊢ with hc
        · simp [pure, Except.pure] at h
        · exact ih _ h

/-- A loop with `epsilon > 0` ends if the monitored value is bounded above: it returns or raises an exception. -/
theorem BW.fit_ends {H : Type} (step : H → Py (H × ℝ)) (epsilon : ℝ) (he : 0 < epsilon) (h : H) (Inv : H → Prop) (B : ℝ) (hi : Inv h)
    (hstep : ∀ h h' ll, Inv h → step h = .ok (h', ll) → Inv h' ∧ ll ≤ B) :
    ∃ N r, ∀ maxIt, N ≤ maxIt → BW.fit step epsilon maxIt h = r := by
  cases hs : step h with
  | error e =>
    refine ⟨1, .error e, fun maxIt hm => ?_⟩
    obtain ⟨m, rfl⟩ : ∃ m, maxIt = m + 1 := ⟨maxIt - 1, by omega⟩
    unfold BW.fit BW.loop
    rw [hs]
    rfl
  | ok r =>
    obtain ⟨h1, l0⟩ := r
    obtain ⟨N, hN⟩ := exists_nat_gt ((B - l0) / epsilon + 2)
    cases hf : BW.fit step epsilon N h with
    | error e =>
      refine ⟨N, .error e, fun maxIt hm => ?_⟩
      obtain ⟨k, rfl⟩ := Nat.exists_eq_add_of_le hm
      exact loop_error_more _ _ _ _ _ _ hf
    | ok st =>
      have hb := fit_bound _ epsilon he N h Inv B hi hstep st hf h1 l0 hs
      exact ⟨N, .ok st, fun maxIt hm => fit_stopped _ _ _ _ _ hf (by exact_mod_cast lt_of_le_of_lt hb hN) _ hm⟩

section discrete
variable {L : Type} [DecidableEq L] {n : ℕ}

/-- C41, Markov chains: the outcome without bound, for every number of processes; traces that the model cannot generate are allowed. -/
theorem MC.fit_ends (processes : ℕ) (S : TSet L) (epsilon : ℝ) (he : 0 < epsilon) (M : MC ℝ L n) (hM : M.Stochastic) (hne : ∀ w ∈ S.sequences, w ≠ []) :
    ∃ N r, ∀ maxIt, N ≤ maxIt → fit (stepMC processes S) epsilon maxIt M = r := by
  refine BW.fit_ends _ epsilon he M MC.Stochastic 0 hM (fun h h' ll hi hs => ⟨MC.bw_step_keeps_stochastic _ _ _ _ _ hi hs, ?_⟩)
  rw [(MC.bw_update_spec _ _ _ _ _ hi.2.2.2 hne hs).2.2.2]
  exact overSet_log_nonpos S _ (h.lik_nonneg hi) (fun w _ => h.lik_le_one hi w)

/-- C41, hidden Markov models. -/
theorem HMM.fit_ends (processes : ℕ) (S : TSet L) (epsilon : ℝ) (he : 0 < epsilon) (M : HMM ℝ L n) (hnd : M.alphabet.Nodup) (hM : M.Stochastic)
    (hne : ∀ w ∈ S.sequences, w ≠ []) (ht : ∀ t ∈ S.times, 1 ≤ t) :
    ∃ N r, ∀ maxIt, N ≤ maxIt → fit (stepHMM processes S) epsilon maxIt M = r := by
  refine BW.fit_ends _ epsilon he M (fun M' => M'.alphabet.Nodup ∧ M'.Stochastic) 0 ⟨hnd, hM⟩ (fun h h' ll hi hs =>
    ⟨⟨by rw [HMM.bw_step_alphabet _ _ _ _ _ hs]; exact hi.1, HMM.bw_step_stochastic _ _ _ _ _ hi.1 hi.2 ht hs⟩, ?_⟩)
  rw [(HMM.bw_update_spec _ _ _ _ _ hi.1 hi.2.2.2.2.1 hne hs).2.2.2.2]
  exact overSet_log_nonpos S _ (h.lik_nonneg hi.2) (fun w _ => h.lik_le_one hi.2 w)

/-- C41, Markov decision processes. -/
theorem MDP.fit_ends (processes : ℕ) (S : TSet L) (epsilon : ℝ) (he : 0 < epsilon) (M : MDP ℝ L n) (hn : M.actions.Nodup) (hM : M.Stochastic)
    (ho : ∀ w ∈ S.sequences, w.length % 2 = 1) :
    ∃ N r, ∀ maxIt, N ≤ maxIt → fit (stepMDP processes S) epsilon maxIt M = r := by
  refine BW.fit_ends _ epsilon he M (fun M' => M'.actions.Nodup ∧ M'.Stochastic) 0 ⟨hn, hM⟩ (fun h h' ll hi hs =>
    ⟨⟨by rw [(h.bw_step_keeps _ _ _ _ hs).1]; exact hi.1, (h.bw_step_stochastic _ _ _ _ hi.1 hi.2 ho hs).1⟩, ?_⟩)
  rw [(h.bw_update_spec _ _ _ _ hi.1 ho hs).2.2.2.2]
  exact overSet_log_nonpos S _ (fun w => (h.lik_mem_unit hi.1 hi.2 w).1) (fun w _ => (h.lik_mem_unit hi.1 hi.2 w).2)

/-- C41, timed CTMC with positive waiting times; some rates may be fixed. -/
theorem CTMC.fit_ends (processes : ℕ) (fixed : Fin n → Fin n → Bool) (S : TSet (Sym L)) (epsilon : ℝ) (he : 0 < epsilon) (M : CTMC ℝ L n) (hM : M.Valid)
    (hS : CTMC.TimedSet S) (hw : WaitsPos S) (hlen : S.times.length = S.sequences.length) (ht : ∀ t ∈ S.times, 1 ≤ t) :
    ∃ N r, ∀ maxIt, N ≤ maxIt → fit (stepTimed processes fixed S) epsilon maxIt M = r := by
  obtain ⟨C, hC, hCb⟩ := density_bound M.initialState S hw
  refine BW.fit_ends _ epsilon he M (fun M' => M'.Valid ∧ M'.initialState = M.initialState) ((S.times.sum : ℕ) * Real.log C) ⟨hM, rfl⟩ (fun h h' ll hi hs =>
    ⟨⟨h.bw_step_valid _ _ _ _ _ hi.1 hS hw.nonneg hs, (h.bw_update_spec _ _ _ _ _ hS hs).2.1.trans hi.2⟩, ?_⟩)
  rw [(h.bw_step_monotone _ _ _ _ _ hi.1 hS hw.nonneg hlen ht hs).2.2]
  exact mul_le_mul_of_nonneg_left (avgLogLik_le _ S C hC (hCb h hi.1 hi.2)) (Nat.cast_nonneg _)

/-- The hypotheses are met with one process, by `exMC` and `exSet`. -/
example : ∃ N r, ∀ maxIt, N ≤ maxIt → fit (stepMC 1 exSet) (1/100) maxIt (exMC ℝ) = r :=
  (exMC ℝ).fit_ends 1 exSet (1/100) (by norm_num) exMC_stochastic (by decide)

end discrete
end Jajapy
