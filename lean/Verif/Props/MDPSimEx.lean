import Verif.Props.MDPSim

/-! Examples for C83: the hypotheses hold for concrete models and schedulers, and the probability of a trace is computed. -/

set_option linter.unusedSectionVars false

namespace Jajapy

open MeasureTheory Spec Finset Tools BW

namespace MDP

theorem exMDP_prob10 (s s' : Fin 3) : (exMDP ℝ).prob s 10 s' = (exMDP ℝ).matrix s (0 : Fin 2) s' :=
  (exMDP ℝ).prob_getElem exMDP_stochastic_real.2 s (0 : Fin 2) s'

theorem exMDP_prob11 (s s' : Fin 3) : (exMDP ℝ).prob s 11 s' = (exMDP ℝ).matrix s (1 : Fin 2) s' :=
  (exMDP ℝ).prob_getElem exMDP_stochastic_real.2 s (1 : Fin 2) s'

theorem exMDP_allowed : (exMDP ℝ).Allowed 2 11 ∧ (exMDP ℝ).Allowed 2 10 ∧ (exMDP ℝ).Allowed 1 10 ∧ ¬ (exMDP ℝ).Allowed 1 11 ∧
    (exMDP ℝ).Allowed 0 10 := by
  refine ⟨⟨1, ?_⟩, ⟨0, ?_⟩, ⟨1, ?_⟩, ?_, ⟨0, ?_⟩⟩
  · rw [exMDP_prob11]; simp [exMDP]
  · rw [exMDP_prob10]; simp [exMDP]
  · rw [exMDP_prob10]; simp [exMDP]
  · rintro ⟨s', h⟩
    rw [exMDP_prob11] at h
    fin_cases s' <;> simp [exMDP] at h
  · rw [exMDP_prob10]; simp [exMDP]

theorem exMDP_choice : (exMDP ℝ).choiceProb (uniformPolicy [10, 11]) 2 () 11 = 1 / 2 ∧
    (exMDP ℝ).choiceProb (uniformPolicy [10, 11]) 1 () 10 = 1 := by
  classical
  obtain ⟨h1, h2, h3, h4, _⟩ := exMDP_allowed
  have hset : (exMDP ℝ).actions.toFinset = {10, 11} := by simp [exMDP]
  have ha2 : (exMDP ℝ).acceptProb (uniformPolicy [10, 11]) 2 () = 1 := by
    unfold acceptProb
    rw [hset, Finset.sum_filter, Finset.sum_pair (by norm_num), if_pos h2, if_pos h1]
    simp [uniformPolicy]; norm_num
  have ha1 : (exMDP ℝ).acceptProb (uniformPolicy [10, 11]) 1 () = 1 / 2 := by
    unfold acceptProb
    rw [hset, Finset.sum_filter, Finset.sum_pair (by norm_num), if_pos h3, if_neg h4]
    simp [uniformPolicy]
  unfold choiceProb
  rw [if_pos h1, if_pos h3, ha2, ha1]
  constructor <;> simp [uniformPolicy]

theorem exMDP_runProb : (exMDP ℝ).runProb (uniformPolicy [10, 11]) [2, 11, 1, 10, 1] = 1 / 4 := by
  obtain ⟨c1, c2⟩ := exMDP_choice
  rw [show ([2, 11, 1, 10, 1] : List ℕ) = alternate [(2, 11), (1, 10)] 1 from rfl, runProb_alternate, totalWeight_eq]
  have e1 : (uniformPolicy [10, 11] : Policy Unit ℕ).start = () := rfl
  have p1 : (exMDP ℝ).prob 2 11 1 = 2 / 3 := by rw [exMDP_prob11]; simp [exMDP]
  have p2 : (exMDP ℝ).prob 1 10 1 = 3 / 4 := by rw [exMDP_prob10]; simp [exMDP]
  simp only [Policy.steps, beta0_cons, beta0_nil, bwd, runStep, Fin.sum_univ_three]
  have l0 : (exMDP ℝ).labelling 0 = 0 := rfl
  have l1 : (exMDP ℝ).labelling 1 = 1 := rfl
  have l2 : (exMDP ℝ).labelling 2 = 2 := rfl
  have i0 : (exMDP ℝ).initialState 0 = 0 := rfl
  have i1 : (exMDP ℝ).initialState 1 = 0 := rfl
  have i2 : (exMDP ℝ).initialState 2 = 1 := rfl
  simp only [l0, l1, l2, i0, i1, i2, mask]
  rw [c1, c2, p1, p2]
  norm_num

/-- The uniform scheduler on the two actions of `exMDP`: in state 1 only the action 10 is possible, and the scheduler is asked
again until it proposes it. The trace has probability 1/4; its likelihood is 1/2 and the actions are proposed with
probability 1/4: the probability of a trace is not the product of the two when proposals are refused. -/
theorem run_uniform_refused :
    drawsLaw {d | (exMDP ℝ).Returns (uniformScheduler [10, 11]) 2 () [2, 11, 1, 10, 1] d} = ENNReal.ofReal (1 / 4) ∧
    (exMDP ℝ).lik [2, 11, 1, 10, 1] = 1 / 2 ∧ (uniformPolicy [10, 11] : Policy Unit ℕ).actionsProb [2, 11, 1, 10, 1] = 1 / 4 := by
  refine ⟨?_, ?_, ?_⟩
  · rw [run_uniform_law _ exMDP_stochastic_real.2 exMDP_stochastic_real.1 [10, 11] (by simp) 2 _ rfl, exMDP_runProb]
  · rw [show ([2, 11, 1, 10, 1] : List ℕ) = alternate [(2, 11), (1, 10)] 1 from rfl, lik_alternate, stepWeight, totalWeight_eq]
    simp only [beta0_cons, beta0_nil, bwd, step, Fin.sum_univ_three]
    have p1 : (exMDP ℝ).prob 2 11 1 = 2 / 3 := by rw [exMDP_prob11]; simp [exMDP]
    have p2 : (exMDP ℝ).prob 1 10 1 = 3 / 4 := by rw [exMDP_prob10]; simp [exMDP]
    have l0 : (exMDP ℝ).labelling 0 = 0 := rfl
    have l1 : (exMDP ℝ).labelling 1 = 1 := rfl
    have l2 : (exMDP ℝ).labelling 2 = 2 := rfl
    have i0 : (exMDP ℝ).initialState 0 = 0 := rfl
    have i1 : (exMDP ℝ).initialState 1 = 0 := rfl
    have i2 : (exMDP ℝ).initialState 2 = 1 := rfl
    simp only [l0, l1, l2, i0, i1, i2, mask]
    rw [p1, p2]
    norm_num
  · rw [show ([2, 11, 1, 10, 1] : List ℕ) = alternate [(2, 11), (1, 10)] 1 from rfl]
    unfold Policy.actionsProb
    rw [mdpSteps_alternate]
    simp [Policy.steps, uniformPolicy]
    norm_num

example : ∀ s, ∃ x ∈ [10, 11], (exMDP ℝ).Allowed s x := by
  obtain ⟨h1, h2, h3, h4, h5⟩ := exMDP_allowed
  intro s
  refine ⟨10, by simp, ?_⟩
  fin_cases s
  · exact h5
  · exact h3
  · exact h2

/-- A model in which every action is possible in every state. -/
noncomputable def everyMDP : MDP ℝ ℕ 2 where
  actions := [10, 11]
  matrix := ![![![1/2, 1/2], ![0, 1]], ![![1/4, 3/4], ![1, 0]]]
  labelling := ![0, 1]
  initialState := ![1, 0]

example : everyMDP.Stochastic ∧ everyMDP.actions.Nodup ∧ everyMDP.actions ≠ [] ∧ (∀ s i, ∑ s', everyMDP.matrix s i s' = 1) ∧
    ∀ k, (hk : 2 * k + 1 < ([0, 11, 1, 10, 0] : List ℕ).length) → ([0, 11, 1, 10, 0] : List ℕ)[2 * k + 1] ∈ everyMDP.actions := by
  have hsum : ∀ s i, ∑ s', everyMDP.matrix s i s' = 1 := by
    intro s i; fin_cases s <;> fin_cases i <;> simp [everyMDP, Fin.sum_univ_succ] <;> norm_num
  refine ⟨⟨?_, ?_, ?_, fun s i => Or.inl (hsum s i)⟩, by simp [everyMDP], by simp [everyMDP], hsum, ?_⟩
  · intro s; fin_cases s <;> simp [everyMDP]
  · simp [everyMDP, Fin.sum_univ_succ]
  · intro s i s'; fin_cases s <;> fin_cases i <;> fin_cases s' <;> simp [everyMDP] <;> norm_num
  · intro k hk
    have hk' : k < 2 := by simp only [List.length_cons, List.length_nil] at hk; omega
    interval_cases k <;> simp [everyMDP]

theorem exFM_valid : FMValid (exFM ℝ) 2 := by
  refine ⟨by norm_num, ?_, ?_⟩
  · intro s hs
    interval_cases s
    · exact ⟨[1/2, 1/2], [10, 11], rfl, rfl, by simp, by norm_num⟩
    · exact ⟨[1], [10], rfl, rfl, by simp, by simp⟩
  · intro o row h s hs
    simp only [exFM] at h
    split_ifs at h
    injection h with h
    subst h
    interval_cases s
    · exact ⟨1, by norm_num, rfl⟩
    · exact ⟨0, by norm_num, rfl⟩

theorem exFM_allowed : ∀ s, ∀ m < 2, ∃ x, (exMDP ℝ).Allowed s x ∧ 0 < (fmPolicy (exFM ℝ)).propose m x := by
  obtain ⟨h1, h2, h3, h4, h5⟩ := exMDP_allowed
  intro s m hm
  refine ⟨10, ?_, ?_⟩
  · fin_cases s
    · exact h5
    · exact h3
    · exact h2
  · interval_cases m <;> simp [fmPolicy, exFM, Fin.sum_univ_succ]

end MDP
end Jajapy
