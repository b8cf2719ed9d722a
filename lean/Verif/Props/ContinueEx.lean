import Verif.Props.Continue
import Verif.Props.ShortUse
import Verif.Props.FinishEx
import Verif.Props.ConsistencyCTMC

/-!
C112 at work.
-/

set_option linter.unusedSectionVars false
set_option autoImplicit false

namespace Jajapy

open Spec BW MeasureTheory

/-- One of two labels is chosen once and for all. -/
noncomputable def chosen : MC ℝ Bool 2 where
  matrix := fun s t => if s = t then 1 else 0
  labelling := fun s => decide (s = 0)
  initialState := fun _ => 1/2

theorem chosen_stochastic : chosen.Stochastic := by
  refine ⟨fun _ => ?_, ?_, fun a b => ?_, fun a => ?_⟩
  · norm_num [chosen]
  · norm_num [chosen]
  · simp only [chosen]; split_ifs <;> norm_num
  · simp [chosen]

theorem chosen_lik : chosen.lik [true] = 1/2 ∧ chosen.lik [true, true] = 1/2 ∧ chosen.lik [true, false] = 0 := by
  refine ⟨?_, ?_, ?_⟩
  · rw [show [true] = [] ++ [true] from rfl, MC.lik_snoc]
    simp [Fin.sum_univ_two, MC.b, chosen]
  · rw [show [true, true] = [true] ++ [true] from rfl, MC.lik_snoc]
    simp [Fin.sum_univ_two, MC.b, chosen, fwd, MC.tau]
  · rw [show [true, false] = [true] ++ [false] from rfl, MC.lik_snoc]
    simp [Fin.sum_univ_two, MC.b, chosen, fwd, MC.tau]

/-- Hypotheses of `MC.lik_extend`, `MC.lik_prefix` and `MC.logLikelihood_cut`: the set made of the possible trace true, true. -/
example : (∑ o ∈ Finset.univ, chosen.lik ([true] ++ [o]) = 1/2) ∧ chosen.lik ([true] ++ [true, false, true]) ≤ 1/2 ∧
    ∃ x y, chosen.iface.logLikelihoodMultiproc 2 ⟨[[true, true]], [3], false, none⟩ = .ok x ∧
      chosen.iface.logLikelihoodMultiproc 2 (cut 1 ⟨[[true, true]], [3], false, none⟩) = .ok y ∧ x ≤ y := by
  refine ⟨(MC.lik_extend chosen_stochastic _ (fun _ => by simp) _ (by simp)).trans chosen_lik.1,
    ((MC.lik_prefix chosen_stochastic [true] (by simp)).1 _).trans_eq chosen_lik.1,
    MC.logLikelihood_cut chosen_stochastic 2 (by norm_num) _ (fun w hw => ?_) 1 (by norm_num)⟩
  have : w = [true, true] := by simpa using hw
  subst this
  refine ⟨by simp, ?_⟩
  rw [chosen_lik.2.1]
  norm_num

/-- C112: the traces of `logLikelihood_cut` have to be possible. An impossible trace counts as a certain one, and when it is cut down to a possible one the
log-likelihood gets lower. -/
theorem logLikelihood_cut_impossible : ∃ y, chosen.iface.logLikelihoodMultiproc 2 ⟨[[true, false]], [1], false, none⟩ = .ok 0 ∧
    chosen.iface.logLikelihoodMultiproc 2 (cut 1 ⟨[[true, false]], [1], false, none⟩) = .ok y ∧ y < 0 := by
  refine ⟨_, ?_, chosen.logLikelihood_spec 2 (by norm_num) _ (fun w hw => ?_), ?_⟩
  · rw [chosen.logLikelihood_spec 2 (by norm_num) _ (fun w hw => ?_)]
    · show Except.ok (avgLogLik chosen.lik _) = _
      simp [avgLogLik, chosen_lik.2.2]
    · have : w = [true, false] := by simpa using hw
      simp [this]
  · have : w = [true] := by simpa [cut] using hw
    simp [this]
  · show avgLogLik chosen.lik _ < 0
    simp only [avgLogLik, cut, List.map_cons, List.map_nil, List.take_succ_cons, List.take_zero, List.zip_cons_cons, List.zip_nil_right, List.filter_cons,
      chosen_lik.1, List.filter_nil]
    norm_num [chosen_lik.1]
    exact Real.log_neg (by norm_num) (by norm_num)

/-- Hidden Markov models: `unfairHMM`. -/
example : (∑ o ∈ Finset.univ, unfairHMM.lik ([true, false] ++ [o]) = unfairHMM.lik [true, false]) ∧ 0 < unfairHMM.lik [true, false] := by
  refine ⟨HMM.lik_extend unfairHMM_stochastic.1 unfairHMM_stochastic.2 _ (fun _ _ => by simp) _ (by simp), ?_⟩
  rw [show [true, false] = [true] ++ [false] from rfl, unfairHMM.lik_snoc unfairHMM_stochastic.2]
  simp [Fin.sum_univ_two, fwd, HMM.tau, unfairHMM_b]
  norm_num [unfairHMM]

/-- MDPs: the action "go" is available in all the states of `walk`; "stay" is not, and no trace goes on with it after "a". -/
example : (∑ o ∈ {"init", "a"}, walk.lik (["init", "stay", "init", "go", "a"] ++ ["go", o]) = 1) ∧
    ∑ o ∈ {"init", "a"}, walk.lik (["init", "stay", "init", "go", "a"] ++ ["stay", o]) = 0 := by
  have hA : ∀ s, walk.labelling s ∈ ({"init", "a"} : Finset String) := by
    intro s
    fin_cases s <;> simp [walk]
  have e : ∀ s s', walk.prob s "go" s' = walk.matrix s (0 : Fin 2) s' := fun s s' => walk_prob s 0 s'
  have e' : ∀ s s', walk.prob s "stay" s' = walk.matrix s (1 : Fin 2) s' := fun s s' => walk_prob s 1 s'
  refine ⟨(MDP.lik_extend _ hA _ (by decide) "go" (fun s => ?_)).trans walk_lik, ?_⟩
  · simp only [e]
    fin_cases s <;> simp [walk, Fin.sum_univ_two]
  · refine (walk.sum_extend _ hA [("init", "stay"), ("init", "go")] "a" "stay").trans ?_
    simp only [e']
    simp [Fin.sum_univ_two, walk, MDP.mask]

example : ∃ x y, walk.logLikelihoodMultiproc 2 walkSet = .ok x ∧ walk.logLikelihoodMultiproc 2 (cut 3 walkSet) = .ok y ∧ x ≤ y := by
  refine MDP.logLikelihood_cut walk_stochastic (by decide) 2 (by norm_num) walkSet (by decide) (fun w hw => ?_) 1
  have : w = ["init", "stay", "init", "go", "a"] := by simpa [walkSet] using hw
  subst this
  exact ⟨by decide, by rw [walk_lik]; norm_num⟩

/-- CTMCs: `twoRates` after the trace 0, 1/2, 1. -/
example : ∑ o ∈ {0, 1}, ∫ t in Set.Ioi 0, CTMC.twoRates.density ([.obs 0, .time (1/2), .obs 1] ++ [.time t, .obs o])
    = CTMC.twoRates.density [.obs 0, .time (1/2), .obs 1] ∧ 0 < CTMC.twoRates.density [.obs 0, .time (1/2), .obs 1] := by
  refine ⟨CTMC.density_extend (fun s => ?_) _ (fun s => ?_) _ (isTimed_timed [(0, 1/2)] 1), ?_⟩
  · fin_cases s <;> simp [CTMC.twoRates, Fin.sum_univ_two]
  · fin_cases s <;> simp [CTMC.twoRates]
  · refine (CTMC.twoRates.density_foldl [(0, 1/2)] 1).symm ▸ ?_
    simp [Fin.sum_univ_two, fwd, CTMC.rateStep, CTMC.maskTimed, CTMC.twoRates]
    positivity

end Jajapy
