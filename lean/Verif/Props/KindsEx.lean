import Verif.Props.KindsMDP
import Verif.Props.ObservableEx

/-! Property C108: every chain can be given as the other kinds of model, and concrete cases. -/

set_option autoImplicit false
set_option linter.unusedSectionVars false

namespace Jajapy

open Spec BW

namespace MC
variable {L : Type} [DecidableEq L] {n : ℕ}

/-- The chain as an MDP with one action. -/
def asMDP (x : L) (M : MC ℝ L n) : MDP ℝ L n where
  actions := [x]
  matrix := fun s _ s' => M.matrix s s'
  labelling := M.labelling
  initialState := M.initialState

theorem asMDP_is (x : L) (M : MC ℝ L n) : M.IsMDP x (M.asMDP x) where
  actions := rfl
  prob := fun s s' => (M.asMDP x).prob_getElem (by simp [asMDP]) s ⟨0, by simp [asMDP]⟩ s'
  labelling := fun _ => rfl
  initial := fun _ => rfl

/-- The chain as a hidden Markov model. -/
def asHMM (M : MC ℝ L n) : HMM ℝ L n where
  matrix := M.matrix
  alphabet := (List.ofFn M.labelling).dedup
  output := fun s i => if M.labelling s = (List.ofFn M.labelling).dedup[i] then 1 else 0
  initialState := M.initialState

theorem asHMM_is (M : MC ℝ L n) : M.IsHMM M.asHMM where
  matrix := fun _ _ => rfl
  initial := fun _ => rfl
  alphabet := List.nodup_dedup _
  emit := fun s o => by
    rw [← M.asHMM.b_eq_emit (List.nodup_dedup _)]
    by_cases ho : o ∈ M.asHMM.alphabet
    · obtain ⟨i, hi, rfl⟩ := List.mem_iff_getElem.mp ho
      exact (M.asHMM.b_spec (List.nodup_dedup _) s).1 ⟨i, hi⟩
    · rw [(M.asHMM.b_spec (List.nodup_dedup _) s).2 o ho, if_neg]
      rintro rfl
      exact ho (List.mem_dedup.2 (List.mem_ofFn.2 ⟨s, rfl⟩))

/-- The hypotheses of the theorems of C108 are met by `obsMC`, on a set on which its learning succeeds. -/
theorem kinds_ex : obsMC.IsHMM obsMC.asHMM ∧ obsMC.IsMDP 10 (obsMC.asMDP 10) ∧ obsMC.Stochastic ∧ obsMC.StartsIn 0 ∧
    (∀ t ∈ obsSet.times, 1 ≤ t) ∧ (∀ w ∈ obsSet.sequences, w ≠ []) ∧ obsSet.times.length = obsSet.sequences.length ∧ obsSet.times.sum ≠ 0 ∧
    (withAction 10 obsSet).sequences = [[0, 10, 1, 10, 0, 10, 0], [0, 10, 0]] ∧
    ∃ st, fit (stepMC 2 obsSet) (1/100) 10 obsMC = .ok st :=
  ⟨obsMC.asHMM_is, obsMC.asMDP_is 10, obsMC_stochastic, fun _ => rfl, by decide, by decide, rfl, by decide, rfl, obsMC_fit _ _⟩

theorem asMDP_stochastic (x : L) (M : MC ℝ L n) (h : M.Stochastic) : (M.asMDP x).Stochastic :=
  ⟨h.1, h.2.1, fun s _ s' => h.2.2.1 s s', fun s _ => Or.inl (h.2.2.2 s)⟩

/-- C108 is violated: learned as a chain and as an MDP with one action the same process gets different probabilities, whatever the options and the
numbers of iterations. (The chain counts a move after the end of each trace.) -/
theorem fit_asMDP_differs : (∀ epsilon maxIt, (∃ st, fit (stepMC 2 obsSet) epsilon maxIt obsMC = .ok st) ∧
      ∃ st', fit (stepMDP 2 (withAction 10 obsSet)) epsilon maxIt (obsMC.asMDP 10) = .ok st') ∧
    ∀ (p p' : ℕ) (e e' : ℝ) (maxIt maxIt' : ℕ), 1 ≤ maxIt' → ∀ (st : LoopState (MC ℝ ℕ 2)) (st' : LoopState (MDP ℝ ℕ 2)),
      fit (stepMC p obsSet) e maxIt obsMC = .ok st → fit (stepMDP p' (withAction 10 obsSet)) e' maxIt' (obsMC.asMDP 10) = .ok st' →
      st.h.matrix 0 1 ≠ st'.h.prob 0 10 1 := by
  have hpos : ∀ w ∈ (withAction 10 obsSet).sequences, (obsMC.asMDP 10).lik w ≠ 0 := by
    intro w hw
    obtain ⟨w, hm, rfl⟩ := List.mem_map.1 hw
    rw [(obsMC.asMDP_is 10).lik w (by revert w; decide)]
    exact obsMC_possible w hm
  refine ⟨fun e k => ⟨obsMC_fit e k, ?_⟩, fun p p' e e' k k' hk st st' h h' => ?_⟩
  · exact MDP.fit_total 2 (by norm_num) _ e k _ (by simp [asMDP]) (asMDP_stochastic _ _ obsMC_stochastic) (by decide) rfl (by decide) [0, 10, 0] (by decide)
      (hpos _ (by decide))
  · have h1 := MC.observed_not_reached.2 p e k st h
    obtain ⟨_, _, _, h2⟩ := MDP.fit_observed p' _ e' k' hk _ (by simp [asMDP]) (asMDP_stochastic 10 _ obsMC_stochastic) obsMC_injective rfl (by decide)
      hpos st' h'
    rw [h2]
    have h3 : ((obsMC.asMDP 10).frequencies (withAction 10 obsSet)).prob 0 10 1 = (obsMC.frequencies obsSet).matrix 0 1 := by
      refine (((obsMC.asMDP 10).frequencies (withAction 10 obsSet)).prob_getElem (by simp [asMDP, MDP.frequencies]) 0 ⟨0, by simp [asMDP, MDP.frequencies]⟩ 1).trans ?_
      have e1 : ((obsMC.asMDP 10).frequencies (withAction 10 obsSet)).matrix 0 ⟨0, by simp [asMDP, MDP.frequencies]⟩ 1
          = if mdpTries (withAction 10 obsSet) 0 10 = 0 then obsMC.matrix 0 1
            else (mdpMoves (withAction 10 obsSet) 0 10 1 : ℝ) / mdpTries (withAction 10 obsSet) 0 10 := rfl
      have e2 : (obsMC.frequencies obsSet).matrix 0 1
          = if leaves obsSet 0 = 0 then obsMC.matrix 0 1 else (moves obsSet 0 1 : ℝ) / leaves obsSet 0 := rfl
      rw [e1, e2, show moves obsSet 0 1 = 1 by decide +kernel, show leaves obsSet 0 = 4 by decide +kernel,
        show mdpTries (withAction 10 obsSet) 0 10 = 4 by decide +kernel, show mdpMoves (withAction 10 obsSet) 0 10 1 = 1 by decide +kernel]
    rw [h3]
    exact h1

end MC

/-- A CTMC and its embedded chain, on an untimed set on which the learning succeeds: see `CTMC.bw_untimed_refines`. -/
example : ∀ w ∈ obsSet.sequences, 2 ≤ w.length := by decide

end Jajapy
