import Verif.Props.Observable
import Verif.Props.ObservableMDP
import Verif.Props.ObservableCTMC

/-! Property C81: concrete cases. -/

set_option linter.unusedSectionVars false

namespace Jajapy

open Finset Spec BW

/-! ### A chain with two observed states -/

noncomputable def obsMC : MC ℝ ℕ 2 where
  matrix := fun _ _ => 1/2
  labelling := fun s => s.val
  initialState := fun s => if s = 0 then 1 else 0

def obsSet : TSet ℕ := { sequences := [[0, 1, 0, 0], [0, 0]], times := [1, 2], floatTimes := false, type := some 0 }

theorem obsMC_stochastic : obsMC.Stochastic := by
  refine ⟨?_, ?_, ?_, ?_⟩
  · intro s; simp only [obsMC]; split_ifs <;> norm_num
  · simp [obsMC]
  · intro s s'; simp [obsMC]
  · intro s; simp [obsMC]

theorem obsMC_injective : Function.Injective obsMC.labelling := fun _ _ h => Fin.ext h

theorem obsMC_possible : ∀ w ∈ obsSet.sequences, obsMC.lik w ≠ 0 := by
  intro w hw
  simp only [obsSet, List.mem_cons, List.not_mem_nil, or_false] at hw
  have key : ∀ (r : List (Fin 2)), obsMC.lik ((0 :: r).map obsMC.labelling) ≠ 0 := by
    intro r
    rw [obsMC.lik_eq obsMC_stochastic.2.2.2 _ (by simp), obsMC.weight_det obsMC_injective obsMC_stochastic.2.2.2]
    refine mul_ne_zero (by simp [obsMC]) ((chain_ne_zero _ _ _).2 (fun x _ => by simp [obsMC]))
  rcases hw with rfl | rfl
  · exact key [1, 0, 0]
  · exact key [0]

/-- The three moves 0→0, the one move 0→1, and the three traces that end in 0 give `1/4 + (3/7)^k * 1/4` after `k`
iterations; the state 1, which ends no trace, has the frequency 1 at once. -/
theorem MC.observed_ex (processes : ℕ) (epsilon : ℝ) (maxIt : ℕ) (hm : 1 ≤ maxIt) (st : LoopState (MC ℝ ℕ 2))
    (h : fit (stepMC processes obsSet) epsilon maxIt obsMC = .ok st) :
    st.h.matrix 0 1 = 1/4 + (3/7) ^ st.counter * (1/4) ∧ st.h.matrix 1 0 = 1 := by
  have e1 : moves obsSet 0 1 = 1 ∧ leaves obsSet 0 = 4 ∧ ends obsSet 0 = 3 ∧ moves obsSet 1 0 = 1 ∧ leaves obsSet 1 = 1 ∧
      ends obsSet 1 = 0 := by decide +kernel
  obtain ⟨a1, a2, a3, a4, a5, a6⟩ := e1
  have l0 : obsMC.labelling 0 = 0 := rfl
  have l1 : obsMC.labelling 1 = 1 := rfl
  have lm : obsMC.matrix 0 1 = 1/2 := rfl
  constructor
  · rw [MC.fit_observed processes obsSet epsilon maxIt obsMC obsMC_stochastic obsMC_injective rfl (by decide) obsMC_possible st h]
    simp only [MC.frequencies, l0, l1, lm]
    rw [a1, a2, a3]
    norm_num
  · rw [MC.fit_observed_exact_partial processes obsSet epsilon maxIt hm obsMC obsMC_stochastic obsMC_injective rfl (by decide)
      obsMC_possible st h 1 (by decide)]
    simp only [MC.frequencies, l0, l1]
    rw [a4, a5]
    norm_num

/-- And `fit` succeeds on this set. -/
theorem obsMC_fit (epsilon : ℝ) (maxIt : ℕ) : ∃ st, fit (stepMC 2 obsSet) epsilon maxIt obsMC = .ok st := by
  exact MC.fit_total 2 (by norm_num) obsSet epsilon maxIt obsMC obsMC_stochastic (by decide) rfl (by decide) [0, 0] (by decide)
    (obsMC_possible _ (by decide))

/-- C81 is violated by Markov chains: here the observed frequencies are not reached, whatever the options and the number
of iterations, because the learner adds to the observed moves an unobserved move after the end of each trace. -/
theorem MC.observed_not_reached : (∀ epsilon maxIt, ∃ st, fit (stepMC 2 obsSet) epsilon maxIt obsMC = .ok st) ∧
    ∀ (processes : ℕ) (epsilon : ℝ) (maxIt : ℕ) (st : LoopState (MC ℝ ℕ 2)),
      fit (stepMC processes obsSet) epsilon maxIt obsMC = .ok st → st.h.matrix 0 1 ≠ (obsMC.frequencies obsSet).matrix 0 1 := by
  refine ⟨obsMC_fit, fun processes epsilon maxIt st h => ?_⟩
  rw [MC.fit_observed processes obsSet epsilon maxIt obsMC obsMC_stochastic obsMC_injective rfl (by decide) obsMC_possible st h]
  have l0 : obsMC.labelling 0 = 0 := rfl
  have l1 : obsMC.labelling 1 = 1 := rfl
  have lm : obsMC.matrix 0 1 = 1/2 := rfl
  simp only [MC.frequencies, l0, l1, lm]
  rw [show moves obsSet 0 1 = 1 by decide +kernel, show leaves obsSet 0 = 4 by decide +kernel,
    show ends obsSet 0 = 3 by decide +kernel]
  intro h'
  have : (3/7 : ℝ) ^ st.counter = 0 := by
    norm_num at h'
  exact pow_ne_zero _ (by norm_num) this

/-! ### An MDP -/

noncomputable def obsMDP : MDP ℝ ℕ 2 where
  actions := [10, 11]
  matrix := fun _ _ _ => 1/2
  labelling := fun s => s.val
  initialState := fun s => if s = 0 then 1 else 0

def obsMDPSet : TSet ℕ :=
  { sequences := [[0, 10, 1, 11, 0], [0, 10, 0]], times := [1, 2], floatTimes := false, type := some 1 }

theorem obsMDP_stochastic : obsMDP.Stochastic := by
  refine ⟨?_, ?_, ?_, ?_⟩
  · intro s; simp only [obsMDP]; split_ifs <;> norm_num
  · simp [obsMDP]
  · intro s i s'; simp [obsMDP]
  · intro s i; left; simp [obsMDP]

theorem obsMDP_injective : Function.Injective obsMDP.labelling := fun _ _ h => Fin.ext h

theorem obsMDP_prob (s : Fin 2) (x : ℕ) (hx : x ∈ [10, 11]) (s' : Fin 2) : obsMDP.prob s x s' = 1/2 := by
  have hn : obsMDP.actions.Nodup := by simp [obsMDP]
  simp only [List.mem_cons, List.not_mem_nil, or_false] at hx
  rcases hx with rfl | rfl
  · exact obsMDP.prob_getElem hn s ⟨0, by simp [obsMDP]⟩ s'
  · exact obsMDP.prob_getElem hn s ⟨1, by simp [obsMDP]⟩ s'

theorem obsMDP_possible : ∀ w ∈ obsMDPSet.sequences, obsMDP.lik w ≠ 0 := by
  intro w hw
  simp only [obsMDPSet, List.mem_cons, List.not_mem_nil, or_false] at hw
  have key : ∀ (ps : List (Fin 2 × ℕ)) (last : Fin 2), firstOf ps last = 0 → (∀ p ∈ ps, p.2 ∈ [10, 11]) →
      obsMDP.lik (alternate (ps.map (showStep obsMDP.labelling)) (obsMDP.labelling last)) ≠ 0 := by
    intro ps last hf ha
    rw [MDP.lik_alternate]
    unfold MDP.stepWeight
    have hm : obsMDP.mask (obsMDP.labelling last) = (fun s => if s = last then (1:ℝ) else 0) := by
      funext s
      unfold MDP.mask
      by_cases h : s = last
      · simp [h]
      · rw [if_neg h, if_neg]
        exact fun h' => h (obsMDP_injective h')
    rw [hm, MDP.step_obsTau, weight_along _ _ obsMDP_injective, hf]
    refine mul_ne_zero (by simp [obsMDP]) ((along_ne_zero _ _ _).2 ?_)
    clear hf hm
    induction ps with
    | nil => simp [movesOf]
    | cons p ps ih =>
      intro m hm
      simp only [movesOf] at hm
      rcases List.mem_cons.1 hm with rfl | hm
      · rw [obsMDP_prob _ _ (ha p (List.mem_cons_self ..))]; norm_num
      · exact ih (fun q hq => ha q (List.mem_cons_of_mem _ hq)) m hm
  rcases hw with rfl | rfl
  · exact key [(0, 10), (1, 11)] 0 rfl (by decide)
  · exact key [(0, 10)] 0 rfl (by decide)

/-- The action 10 is done three times in label 0 and goes once to label 1: the learned probability is 1/3, after any
number of iterations; the action 11 is never done in label 0 and keeps its row. -/
example (processes : ℕ) (epsilon : ℝ) (maxIt : ℕ) (hm : 1 ≤ maxIt) (st : LoopState (MDP ℝ ℕ 2))
    (h : fit (stepMDP processes obsMDPSet) epsilon maxIt obsMDP = .ok st) :
    st.h.prob 0 10 1 = 1/3 ∧ st.h.prob 1 11 0 = 1 ∧ st.h.prob 0 11 0 = 1/2 := by
  have hn : obsMDP.actions.Nodup := by simp [obsMDP]
  obtain ⟨_, _, _, hp⟩ := MDP.fit_observed processes obsMDPSet epsilon maxIt hm obsMDP hn obsMDP_stochastic obsMDP_injective
    rfl (by decide) obsMDP_possible st h
  have e : mdpMoves obsMDPSet 0 10 1 = 1 ∧ mdpTries obsMDPSet 0 10 = 3 ∧ mdpMoves obsMDPSet 1 11 0 = 1 ∧
      mdpTries obsMDPSet 1 11 = 1 ∧ mdpTries obsMDPSet 0 11 = 0 := by decide +kernel
  obtain ⟨a1, a2, a3, a4, a5⟩ := e
  have l0 : obsMDP.labelling 0 = 0 := rfl
  have l1 : obsMDP.labelling 1 = 1 := rfl
  simp only [hp, obsMDP.frequencies_prob hn obsMDP_injective obsMDPSet obsMDP_possible, l0, l1]
  rw [a1, a2, a3, a4, a5]
  rw [if_neg (by omega), if_neg (by omega), if_pos rfl, obsMDP_prob _ _ (by simp)]
  norm_num

/-! ### A timed CTMC -/

noncomputable def obsCTMC : CTMC ℝ ℕ 2 where
  matrix := fun _ _ => 1
  labelling := fun s => s.val
  initialState := fun s => if s = 0 then 1 else 0

def obsCTMCSet : TSet (Sym ℕ) :=
  { sequences := [[.obs 0, .time 2, .obs 1, .time 3, .obs 0], [.obs 0, .time 4, .obs 1]], times := [1, 2],
    floatTimes := false, type := some 4 }

theorem obsCTMC_injective : Function.Injective obsCTMC.labelling := fun _ _ h => Fin.ext h

theorem obsCTMC_possible : ∀ w ∈ obsCTMCSet.sequences, obsCTMC.density w ≠ 0 := by
  intro w hw
  simp only [obsCTMCSet, List.mem_cons, List.not_mem_nil, or_false] at hw
  have key : ∀ (ps : List (Fin 2 × ℝ)) (last : Fin 2), firstOf ps last = 0 →
      obsCTMC.density (timed (ps.map (showStep obsCTMC.labelling)) (obsCTMC.labelling last)) ≠ 0 := by
    intro ps last hf
    unfold CTMC.density
    have hm : obsCTMC.lastMask (timed (ps.map (showStep obsCTMC.labelling)) (obsCTMC.labelling last)) =
        (fun s => if s = last then (1:ℝ) else 0) := by
      funext s
      unfold CTMC.lastMask
      rw [observations_timed, List.getLast?_append_of_ne_nil _ (by simp)]
      by_cases h : s = last
      · simp [h]
      · rw [if_neg h, if_neg]
        intro h'
        injection h' with h'
        exact h (obsCTMC_injective h').symm
    rw [hm, timedSteps_timed, CTMC.rateStep_obsTau, weight_along _ _ obsCTMC_injective, hf]
    refine mul_ne_zero (by simp [obsCTMC]) ((along_ne_zero _ _ _).2 (fun m _ => ?_))
    unfold CTMC.dens
    exact mul_ne_zero (by simp [obsCTMC]) (Real.exp_ne_zero _)
  rcases hw with rfl | rfl
  · exact key [(0, 2), (1, 3)] 0 rfl
  · exact key [(0, 4)] 1 rfl

theorem obsCTMCSet_timed : CTMC.TimedSet obsCTMCSet := by
  intro w hw
  simp only [obsCTMCSet, List.mem_cons, List.not_mem_nil, or_false] at hw
  rcases hw with rfl | rfl
  · exact ⟨isTimed_timed [(0, 2), (1, 3)] 0, by simp⟩
  · exact ⟨isTimed_timed [(0, 4)] 1, by simp⟩

theorem obsCTMCSet_waits : WaitsNonneg obsCTMCSet := by
  intro w hw p hp
  simp only [obsCTMCSet, List.mem_cons, List.not_mem_nil, or_false] at hw
  rcases hw with rfl | rfl
  · rw [show timedSteps [Sym.obs 0, .time 2, .obs 1, .time 3, .obs 0] = [(0, 2), (1, 3)] from timedSteps_timed [(0, 2), (1, 3)] 0] at hp
    simp at hp
    rcases hp with rfl | rfl <;> norm_num
  · rw [show timedSteps [Sym.obs 0, .time 4, .obs 1] = [(0, 4)] from timedSteps_timed [(0, 4)] 1] at hp
    simp at hp
    rw [hp]; norm_num

/-- Three jumps from label 0 to label 1 in the time `2 + 2*4 = 10`: the learned rate is 3/10, after any number of
iterations. -/
example (processes : ℕ) (epsilon : ℝ) (maxIt : ℕ) (hm : 1 ≤ maxIt) (st : LoopState (CTMC ℝ ℕ 2))
    (h : fit (stepTimed processes (fun _ _ => false) obsCTMCSet) epsilon maxIt obsCTMC = .ok st) :
    st.h.matrix 0 1 = 3/10 := by
  have hv : obsCTMC.Valid := ⟨fun s => by simp only [obsCTMC]; split_ifs <;> norm_num, fun s s' => by simp [obsCTMC]⟩
  rw [(CTMC.fit_observed processes _ obsCTMCSet epsilon maxIt hm obsCTMC hv obsCTMC_injective obsCTMCSet_timed obsCTMCSet_waits
    rfl (by decide) obsCTMC_possible st h).2.2 0 1 rfl]
  have e1 : jumpCount obsCTMCSet 0 1 = 3 := by
    simp [jumpCount, obsCTMCSet, observations]
  have e2 : totalTime obsCTMCSet 0 = 10 := by
    unfold totalTime
    simp only [obsCTMCSet, List.zip_cons_cons, List.zip_nil_left, List.map_cons, List.map_nil, List.sum_cons, List.sum_nil]
    rw [show timedSteps [Sym.obs 0, .time 2, .obs 1, .time 3, .obs 0] = [(0, 2), (1, 3)] from timedSteps_timed [(0, 2), (1, 3)] 0,
      show timedSteps [Sym.obs 0, .time 4, .obs 1] = [(0, 4)] from timedSteps_timed [(0, 4)] 1]
    norm_num
  have l0 : obsCTMC.labelling 0 = 0 := rfl
  have l1 : obsCTMC.labelling 1 = 1 := rfl
  simp only [CTMC.frequencies, l0, l1]
  rw [e1, e2, if_neg (by norm_num)]
  norm_num

end Jajapy
