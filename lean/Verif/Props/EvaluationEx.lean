import Verif.Props.Evaluation

/-!
Examples for property C85.
-/

namespace Jajapy

open MeasureTheory ProbabilityTheory Spec Filter Topology

/-- The example chain with other probabilities in its first row. -/
noncomputable def exMC' : MC ℝ ℕ 3 where
  matrix := ![![1/4, 3/4, 0], ![1, 0, 0], ![1, 0, 0]]
  labelling := ![0, 1, 2]
  initialState := ![0, 0, 1]

theorem exMC'_stochastic : exMC'.Stochastic := by
  refine ⟨?_, ?_, ?_, ?_⟩
  · intro s; fin_cases s <;> simp [exMC']
  · simp [exMC', Fin.sum_univ_succ]
  · intro s s'; fin_cases s <;> fin_cases s' <;> simp [exMC'] <;> norm_num
  · intro s; fin_cases s <;> simp [exMC', Fin.sum_univ_succ]; norm_num

theorem exMC'_lik : exMC'.lik [2, 0, 1] = 3 / 4 := by
  unfold MC.lik
  rw [listProb_eq_sufProb]
  simp [sufProb, exMC', Fin.sum_univ_succ]

/-- The hypotheses of `MC.evaluation_ranks` are met by the example chain and the chain with other probabilities. -/
theorem exMC_ranks : ∀ᵐ d ∂drawsLaw, ∃ (S : ℕ → TSet ℕ) (ll ll' : ℕ → ℝ),
    (∀ N, generateSet (fun _ => .str) (fun j k => (exMC ℝ).run k (fun i => d (j * 3 + i))) N false none (.int 2) (fun _ => 0) = .ok (S N)) ∧
    (∀ N, (exMC ℝ).iface.logLikelihoodMultiproc 2 (S N) = .ok (ll N)) ∧ (∀ N, exMC'.iface.logLikelihoodMultiproc 2 (S N) = .ok (ll' N)) ∧
    ∀ᶠ N in atTop, ll' N < ll N := by
  filter_upwards [(exMC ℝ).evaluation_ranks exMC_stochastic_real (fun _ => .str) 2 (by norm_num) (fun _ => 0) 2 le_rfl] with d hd
  obtain ⟨S, ll, h1, h2, h3, -⟩ := hd
  obtain ⟨ll', h4, h5⟩ := h3 3 exMC' exMC'_stochastic (fun w _ hp => MC.possible_of_support _ _ exMC_stochastic_real exMC'_stochastic rfl
    (fun _ h => h) (by intro s s'; fin_cases s <;> fin_cases s' <;> simp [exMC, exMC']) w hp)
    ⟨[2, 0, 1], rfl, by rw [exMC_lik.1, exMC'_lik]; norm_num⟩
  exact ⟨S, ll, ll', h1, h2, h4, h5⟩

/-- On the data of the example chain, the chain whose only label is 7, which never occurs in the data, has a better
log-likelihood than the chain that generated the data. -/
theorem exMC_prefers : ∀ᵐ d ∂drawsLaw, ∃ (S : ℕ → TSet ℕ) (ll ll' : ℕ → ℝ),
    (∀ N, generateSet (fun _ => .str) (fun j k => (exMC ℝ).run k (fun i => d (j * 3 + i))) N false none (.int 2) (fun _ => 0) = .ok (S N)) ∧
    (∀ N, (exMC ℝ).iface.logLikelihoodMultiproc 2 (S N) = .ok (ll N)) ∧
    (∀ N, (MC.single 7).iface.logLikelihoodMultiproc 2 (S N) = .ok (ll' N)) ∧ ∀ᶠ N in atTop, ll N < ll' N := by
  filter_upwards [(exMC ℝ).evaluation_prefers_impossible exMC_stochastic_real (fun _ => .str) 2 (by norm_num) (fun _ => 0) 2 le_rfl
    [2, 0, 1] rfl (by rw [exMC_lik.1]; norm_num) (by rw [exMC_lik.1]; norm_num)] with d hd
  obtain ⟨S, ll, h1, h2, h3⟩ := hd
  obtain ⟨ll', h4, h5⟩ := h3 7
  exact ⟨S, ll, ll', h1, h2, h4, h5⟩

/-- The hypotheses of `HMM.evaluation_ranks` are met by the example model. -/
example := (exHMM ℝ).evaluation_ranks exHMM_stochastic_real.2 exHMM_stochastic_real.1 (fun _ => .str) 2 le_rfl (fun _ => 0) 2 le_rfl

/-- The hypotheses of `MDP.evaluation_limit_uniform` are met by the example MDP. -/
example := (exMDP ℝ).evaluation_limit_uniform (by simp [exMDP]) MDP.exMDP_stochastic_real.1 [10, 11] (by simp) (by
  obtain ⟨h1, h2, h3, h4, h5⟩ := MDP.exMDP_allowed
  intro s
  refine ⟨10, by simp, ?_⟩
  fin_cases s
  · exact h5
  · exact h3
  · exact h2) (fun _ => .str) 2 (fun _ => 0) 2 le_rfl

end Jajapy
