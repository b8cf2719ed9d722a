import Verif.Lemmas.GoHMMEval
import Verif.Props.GenerateLaw

set_option linter.unusedSectionVars false

/-!
Property C91: sets generated by GoHMMs, and comparing GoHMMs on them.
-/

namespace Jajapy

open MeasureTheory ProbabilityTheory Spec Filter Topology Tools

namespace GoHMM
variable {n m d : ℕ}

/-- `generateSet(N, k+1)` when every call of `run` returns. -/
theorem generated (M : GoHMM n d) (hM : M.Valid) (kind : (Fin d → ℝ) → Kind) (k : ℕ) (hk : 1 ≤ k) (geom : ℕ → ℕ) :
    ∀ᵐ D ∂callsLaw (goLaw d), ∃ S : ℕ → TSet (Fin d → ℝ), ∀ N,
      generateSet kind (fun j l => M.run l (D j).1 (D j).2) N false none (.int (k+1)) geom = .ok (S N) ∧ (S N).Countable ∧ (S N).times.sum = N ∧
      (∀ w, w ∈ (S N).sequences ↔ ∃ j < N, List.ofFn (M.outcome k (D j)) = w) ∧
      ∀ w, (S N).mult w = ((List.range N).map (fun j => List.ofFn (M.outcome k (D j)))).count w := by
  have hm := M.measurable_runSet_box (k := k+1) (fun _ => Set.univ) (fun _ => MeasurableSet.univ)
  rw [Set.pi_univ] at hm
  have h1 : goLaw d (M.runSet (Set.univ : Set (Fin (k+1) → Fin d → ℝ))) = 1 := by
    rw [← measure_univ (μ := goLaw d)]
    refine measure_congr ?_
    filter_upwards [M.run_almostSurely hM k] with p hp
    obtain ⟨w, hw⟩ := hp
    exact propext ⟨fun _ => trivial, fun _ => ⟨w, Set.mem_univ _, hw⟩⟩
  filter_upwards [calls_all (goLaw d) _ hm h1] with D hD
  have hr : ∀ j, M.run (k+1) (D j).1 (D j).2 = .ok (List.ofFn (M.outcome k (D j))) := by
    intro j
    obtain ⟨w, -, hw⟩ := hD j
    rw [M.outcome_eq k (D j) w hw]
    exact hw
  have := fun N => generateSet_spec kind (fun j l => M.run l (D j).1 (D j).2) N false none (.int (k+1)) geom (fun _ => k+1)
    (fun j => List.ofFn (M.outcome k (D j))) (fun _ _ => rfl) (fun j _ => hr j) (fun j _ => by simp; omega)
  choose S hS using this
  exact ⟨S, hS⟩

theorem occ_outcome (M : GoHMM n d) (k : ℕ) (D : ℕ → (ℕ → ℝ) × (ℕ → Fin d → ℝ)) (B : Set (Fin (k+1) → Fin d → ℝ)) (N : ℕ) :
    occ (fun j => List.ofFn (M.outcome k (D j))) (List.ofFn '' B) N = occ D (M.outcome k ⁻¹' B) N := by
  unfold occ
  congr 1
  ext j
  simp only [Finset.mem_filter, Set.mem_preimage, Set.mem_image]
  constructor
  · rintro ⟨h, w, hw, e⟩
    exact ⟨h, List.ofFn_injective e ▸ hw⟩
  · rintro ⟨h, hw⟩
    exact ⟨h, _, hw, rfl⟩

theorem prob_outcome (M : GoHMM n d) (hM : M.Valid) (hs : ∀ s i, 0 < M.sigma s i) {k : ℕ} (B : Set (Fin (k+1) → Fin d → ℝ)) (hB : MeasurableSet B) :
    goLaw d (M.outcome k ⁻¹' B) = ENNReal.ofReal (∫ w in B, M.lik (List.ofFn w)) := by
  rw [← Measure.map_apply (M.measurable_outcome hM hs k) hB, M.map_outcome hM hs k, withDensity_apply _ hB,
    ofReal_integral_eq_lintegral_ofReal (M.integrable_lik hs k).integrableOn (Eventually.of_forall (fun w => (M.lik_pos_ofFn hM hs w).le))]

/-- C91: the number of traces of the generated set that belong to a (measurable) set `B` of traces has a binomial law, with the integral of the
likelihood over `B` as probability. -/
theorem generateSet_binomial (M : GoHMM n d) (hM : M.Valid) (hs : ∀ s i, 0 < M.sigma s i) (kind : (Fin d → ℝ) → Kind) (k : ℕ) (hk : 1 ≤ k)
    (geom : ℕ → ℕ) (B : Set (Fin (k+1) → Fin d → ℝ)) (hB : MeasurableSet B) (N j : ℕ) :
    callsLaw (goLaw d) {D | ∃ S, generateSet kind (fun j l => M.run l (D j).1 (D j).2) N false none (.int (k+1)) geom = .ok S ∧
        S.numberIn (List.ofFn '' B) = j}
      = ENNReal.ofReal (N.choose j * ((∫ w in B, M.lik (List.ofFn w)) ^ j * (1 - ∫ w in B, M.lik (List.ofFn w)) ^ (N - j))) := by
  have hm := M.measurable_outcome hM hs k hB
  have e : {D | ∃ S, generateSet kind (fun j l => M.run l (D j).1 (D j).2) N false none (.int (k+1)) geom = .ok S ∧ S.numberIn (List.ofFn '' B) = j}
      =ᵐ[callsLaw (goLaw d)] {D | occ D (M.outcome k ⁻¹' B) N = j} := by
    filter_upwards [M.generated hM kind k hk geom] with D hD
    obtain ⟨S, hS⟩ := hD
    obtain ⟨h1, h2, -, h4, h5⟩ := hS N
    have h6 := (S N).numberIn_traces _ N h2.1.1 h4 h5 (List.ofFn '' B)
    rw [M.occ_outcome] at h6
    refine propext ⟨?_, ?_⟩
    · rintro ⟨S', e1, e2⟩
      rw [h1] at e1
      injection e1 with e1
      subst e1
      exact h6.symm.trans e2
    · intro h7
      exact ⟨S N, h1, h6.trans h7⟩
  have hp := M.prob_outcome hM hs B hB
  have hp0 : 0 ≤ ∫ w in B, M.lik (List.ofFn w) := integral_nonneg (fun w => (M.lik_pos_ofFn hM hs w).le)
  have hp1 : ∫ w in B, M.lik (List.ofFn w) ≤ 1 := by
    have : goLaw d (M.outcome k ⁻¹' B) ≤ 1 := prob_le_one
    rw [hp, ← ENNReal.ofReal_one, ENNReal.ofReal_le_ofReal_iff zero_le_one] at this
    exact this
  rw [measure_congr e, calls_binomial _ _ hm, prob_compl_eq_one_sub hm, hp, ← ENNReal.ofReal_one, ← ENNReal.ofReal_sub _ hp0,
    ENNReal.ofReal_mul (by positivity), ENNReal.ofReal_mul (by positivity), ENNReal.ofReal_pow hp0,
    ENNReal.ofReal_pow (by linarith), ENNReal.ofReal_natCast]

/-- C91: when the generated set grows, the proportion of its traces that belong to `B` tends to the integral of the likelihood over `B`. -/
theorem generateSet_frequencies (M : GoHMM n d) (hM : M.Valid) (hs : ∀ s i, 0 < M.sigma s i) (kind : (Fin d → ℝ) → Kind) (k : ℕ) (hk : 1 ≤ k)
    (geom : ℕ → ℕ) (B : Set (Fin (k+1) → Fin d → ℝ)) (hB : MeasurableSet B) :
    ∀ᵐ D ∂callsLaw (goLaw d), ∃ S : ℕ → TSet (Fin d → ℝ),
      (∀ N, generateSet kind (fun j l => M.run l (D j).1 (D j).2) N false none (.int (k+1)) geom = .ok (S N)) ∧
      Tendsto (fun N : ℕ => ((S N).numberIn (List.ofFn '' B) : ℝ) / N) atTop (𝓝 (∫ w in B, M.lik (List.ofFn w))) := by
  have hm := M.measurable_outcome hM hs k hB
  filter_upwards [M.generated hM kind k hk geom, calls_freq (goLaw d) _ hm] with D hD hF
  obtain ⟨S, hS⟩ := hD
  refine ⟨S, fun N => (hS N).1, ?_⟩
  rw [M.prob_outcome hM hs B hB, ENNReal.toReal_ofReal (integral_nonneg (fun w => (M.lik_pos_ofFn hM hs w).le))] at hF
  refine hF.congr (fun N => ?_)
  rw [(S N).numberIn_traces _ N (hS N).2.1.1.1 (hS N).2.2.2.1 (hS N).2.2.2.2, M.occ_outcome]

/-- C91: when the generated set grows, the log-likelihood of every valid GoHMM with positive standard deviations, with any number of states, tends to the
expected logarithm of its likelihood. -/
theorem evaluation_limit (M : GoHMM n d) (hM : M.Valid) (hs : ∀ s i, 0 < M.sigma s i) (kind : (Fin d → ℝ) → Kind) (k : ℕ) (hk : 1 ≤ k)
    (geom : ℕ → ℕ) (cpus : ℕ) (hc : 2 ≤ cpus) (M' : GoHMM m d) (hM' : M'.Valid) (hs' : ∀ s i, 0 < M'.sigma s i) :
    ∀ᵐ D ∂callsLaw (goLaw d), ∃ (S : ℕ → TSet (Fin d → ℝ)) (ll : ℕ → ℝ),
      (∀ N, generateSet kind (fun j l => M.run l (D j).1 (D j).2) N false none (.int (k+1)) geom = .ok (S N)) ∧
      (∀ N, M'.iface.logLikelihoodMultiproc cpus (S N) = .ok (ll N)) ∧ Tendsto ll atTop (𝓝 (M.expectedLog M' (k+1))) := by
  have hg : Measurable (fun w : Fin (k+1) → Fin d → ℝ => Real.log (M'.lik (List.ofFn w))) := (M'.measurable_lik k).log
  obtain ⟨i1, i2⟩ := M.integral_outcome hM hs _ hg (M.integrable_lik_logLik hs M' hM' hs' k)
  filter_upwards [M.generated hM kind k hk geom, calls_average (goLaw d) _ (hg.comp (M.measurable_outcome hM hs k)) i1] with D hD hF
  obtain ⟨S, hS⟩ := hD
  refine ⟨S, fun N => avgLogLik M'.lik (S N), fun N => (hS N).1, fun N => ?_, ?_⟩
  · refine Iface.multiproc_eq _ _ cpus hc (S N) (fun w hw => M'.seqProb_eq_paths (fun s i => (hs' s i).le) w ?_)
    obtain ⟨j, -, rfl⟩ := ((hS N).2.2.2.1 w).1 hw
    simp
  · simp only [Function.comp] at hF
    rw [i2] at hF
    refine hF.congr (fun N => ?_)
    rw [(S N).avg_traces _ N (hS N).2.1.1.1 (hS N).2.2.2.1 (hS N).2.2.2.2 M'.lik (fun j _ => M'.lik_pos_ofFn hM' hs' _)]

/-- C91: on a large enough generated set, the generating model has a strictly larger log-likelihood than a valid GoHMM with positive standard deviations
that gives another likelihood to at least one trace. -/
theorem evaluation_ranks (M : GoHMM n d) (hM : M.Valid) (hs : ∀ s i, 0 < M.sigma s i) (kind : (Fin d → ℝ) → Kind) (k : ℕ) (hk : 1 ≤ k)
    (geom : ℕ → ℕ) (cpus : ℕ) (hc : 2 ≤ cpus) (M' : GoHMM m d) (hM' : M'.Valid) (hs' : ∀ s i, 0 < M'.sigma s i)
    (hne : ∃ w : Fin (k+1) → Fin d → ℝ, M'.lik (List.ofFn w) ≠ M.lik (List.ofFn w)) :
    ∀ᵐ D ∂callsLaw (goLaw d), ∃ (S : ℕ → TSet (Fin d → ℝ)) (ll ll' : ℕ → ℝ),
      (∀ N, generateSet kind (fun j l => M.run l (D j).1 (D j).2) N false none (.int (k+1)) geom = .ok (S N)) ∧
      (∀ N, M.iface.logLikelihoodMultiproc cpus (S N) = .ok (ll N)) ∧ (∀ N, M'.iface.logLikelihoodMultiproc cpus (S N) = .ok (ll' N)) ∧
      ∀ᶠ N in atTop, ll' N < ll N := by
  obtain ⟨w0, hw0⟩ := hne
  filter_upwards [M.evaluation_limit hM hs kind k hk geom cpus hc M hM hs, M.evaluation_limit hM hs kind k hk geom cpus hc M' hM' hs'] with D h1 h2
  obtain ⟨S, ll, e1, e2, e3⟩ := h1
  obtain ⟨S', ll', f1, f2, f3⟩ := h2
  have : S' = S := funext (fun N => by have := (f1 N).symm.trans (e1 N); injection this)
  subst this
  exact ⟨S', ll, ll', e1, e2, f2, f3.eventually_lt e3 (M.expectedLog_lt hM hs M' hM' hs' k w0 hw0)⟩

/-- C91: when the observations have at least one entry, no trace is generated twice. -/
theorem generateSet_distinct [NeZero d] (M : GoHMM n d) (hM : M.Valid) (hs : ∀ s i, 0 < M.sigma s i) (kind : (Fin d → ℝ) → Kind) (k : ℕ) (hk : 1 ≤ k)
    (geom : ℕ → ℕ) :
    ∀ᵐ D ∂callsLaw (goLaw d), ∃ S : ℕ → TSet (Fin d → ℝ),
      (∀ N, generateSet kind (fun j l => M.run l (D j).1 (D j).2) N false none (.int (k+1)) geom = .ok (S N)) ∧
      ∀ N, ∀ w ∈ (S N).sequences, (S N).mult w = 1 := by
  have hm := M.measurable_outcome hM hs k
  have hind : iIndepFun (fun (i : ℕ) (D : ℕ → (ℕ → ℝ) × (ℕ → Fin d → ℝ)) => M.outcome k (D i)) (callsLaw (goLaw d)) :=
    iIndepFun_infinitePi (P := fun _ : ℕ => goLaw d) (X := fun _ => M.outcome k) (fun _ => hm)
  have hmap : ∀ i : ℕ, (callsLaw (goLaw d)).map (fun D => M.outcome k (D i)) = volume.withDensity (fun w => ENNReal.ofReal (M.lik (List.ofFn w))) := by
    intro i
    have := Measure.map_map (μ := callsLaw (goLaw d)) hm (measurable_pi_apply i)
    rw [← M.map_outcome hM hs k]
    refine (this.symm.trans ?_)
    unfold callsLaw
    rw [Measure.infinitePi_map_eval (μ := fun _ : ℕ => goLaw d) i]
  have key : ∀ i j : ℕ, i ≠ j → ∀ᵐ D ∂callsLaw (goLaw d), M.outcome k (D i) ≠ M.outcome k (D j) := by
    intro i j hij
    have mi : Measurable (fun D : ℕ → (ℕ → ℝ) × (ℕ → Fin d → ℝ) => M.outcome k (D i)) := hm.comp (measurable_pi_apply i)
    have mj : Measurable (fun D : ℕ → (ℕ → ℝ) × (ℕ → Fin d → ℝ) => M.outcome k (D j)) := hm.comp (measurable_pi_apply j)
    have hp := (indepFun_iff_map_prod_eq_prod_map_map mi.aemeasurable mj.aemeasurable).1 (hind.indepFun hij)
    rw [ae_iff]
    simp only [not_not]
    have e : {D : ℕ → (ℕ → ℝ) × (ℕ → Fin d → ℝ) | M.outcome k (D i) = M.outcome k (D j)}
        = (fun D => (M.outcome k (D i), M.outcome k (D j))) ⁻¹' Set.diagonal (Fin (k+1) → Fin d → ℝ) := by
      ext D; simp
    rw [e, ← Measure.map_apply (mi.prodMk mj) measurableSet_diagonal, hp, hmap i, hmap j, Measure.prod_apply measurableSet_diagonal]
    refine (lintegral_congr (fun x => ?_)).trans lintegral_zero
    have : (Prod.mk x ⁻¹' Set.diagonal (Fin (k+1) → Fin d → ℝ)) = {x} := by
      ext y; simp [eq_comm]
    rw [this]
    exact withDensity_absolutelyContinuous _ _ (measure_singleton x)
  have hall : ∀ᵐ D ∂callsLaw (goLaw d), ∀ i j : ℕ, i ≠ j → M.outcome k (D i) ≠ M.outcome k (D j) := by
    simp only [ae_all_iff]
    exact key
  filter_upwards [M.generated hM kind k hk geom, hall] with D hD hne
  obtain ⟨S, hS⟩ := hD
  refine ⟨S, fun N => (hS N).1, fun N w hw => ?_⟩
  rw [(hS N).2.2.2.2]
  refine List.count_eq_one_of_mem ?_ ?_
  · refine List.Nodup.map_on (fun i _ j _ h => ?_) List.nodup_range
    by_contra hc
    exact hne i j hc (List.ofFn_injective h)
  · obtain ⟨j, hj, rfl⟩ := ((hS N).2.2.2.1 w).1 hw
    exact List.mem_map.2 ⟨j, List.mem_range.2 hj, rfl⟩

/-! ### The hypotheses can be met -/

/-- A GoHMM with one state and standard normal observations. -/
noncomputable def exOne : GoHMM 1 1 where
  matrix := ![![1]]
  mu := ![![0]]
  sigma := ![![1]]
  initialState := ![1]

theorem exOne_valid : exOne.Valid ∧ ∀ s i, 0 < exOne.sigma s i := by
  refine ⟨⟨fun s => ?_, ?_, fun s s' => ?_, fun s => ?_, fun s i => ?_⟩, fun s i => ?_⟩
  · fin_cases s; simp [exOne]
  · simp [exOne]
  · fin_cases s; fin_cases s'; simp [exOne]
  · fin_cases s; simp [exOne]
  · fin_cases s; fin_cases i; simp [exOne]
  · fin_cases s; fin_cases i; simp [exOne]

theorem exOne_ne : exOne.lik (List.ofFn (fun _ : Fin 2 => fun _ : Fin 1 => (0:ℝ))) ≠ exGo.lik (List.ofFn (fun _ : Fin 2 => fun _ : Fin 1 => (0:ℝ))) := by
  have hb : exGo.emit 1 (fun _ => 0) < exGo.emit 0 (fun _ => 0) := by
    simp only [emit, normalWeight, exGo, Finset.univ_unique, Finset.prod_singleton]
    simp [gaussianPDFReal]
    have h1 : Real.exp (-1 / (2 * 2 ^ 2)) < 1 := by rw [Real.exp_lt_one_iff]; norm_num
    have h2 : 0 < (Real.sqrt Real.pi)⁻¹ * (Real.sqrt 2)⁻¹ := by positivity
    nlinarith [mul_lt_mul_of_pos_left h1 h2, Real.exp_pos (-1 / (2 * 2 ^ 2))]
  have h0 : exOne.emit 0 (fun _ => 0) = exGo.emit 0 (fun _ => 0) := by
    simp [emit, normalWeight, exGo, exOne]
  have hp : 0 < exGo.emit 0 (fun _ => 0) := exGo.emit_pos' exGo_sigma _ _
  rw [lik_paths, lik_paths, ← (finTwoArrowEquiv (Fin 2)).symm.sum_comp, Fintype.sum_prod_type]
  simp [pathWeight, Fin.sum_univ_two, Fin.prod_univ_two, h0]
  have i0 : exOne.initialState 0 = 1 ∧ exOne.matrix 0 0 = 1 ∧ exGo.initialState 0 = 1 ∧ exGo.initialState 1 = 0 ∧ exGo.matrix 0 0 = 1/2 ∧ exGo.matrix 0 1 = 1/2 := by
    simp [exOne, exGo]
  obtain ⟨e1, e2, e3, e4, e5, e6⟩ := i0
  rw [e1, e2, e3, e4, e5, e6]
  nlinarith [mul_lt_mul_of_pos_left hb hp]

/-- A set generated by `exGo`, when it is large enough, has a larger log-likelihood under `exGo` than under a single normal law. -/
example (cpus : ℕ) (hc : 2 ≤ cpus) : ∀ᵐ D ∂callsLaw (goLaw 1), ∃ (S : ℕ → TSet (Fin 1 → ℝ)) (ll ll' : ℕ → ℝ),
    (∀ N, generateSet (fun _ => .list) (fun j l => exGo.run l (D j).1 (D j).2) N false none (.int 2) (fun _ => 0) = .ok (S N)) ∧
    (∀ N, exGo.iface.logLikelihoodMultiproc cpus (S N) = .ok (ll N)) ∧ (∀ N, exOne.iface.logLikelihoodMultiproc cpus (S N) = .ok (ll' N)) ∧
    ∀ᶠ N in atTop, ll' N < ll N :=
  exGo.evaluation_ranks exGo_valid exGo_sigma _ 1 (le_refl _) _ cpus hc exOne exOne_valid.1 exOne_valid.2 ⟨_, exOne_ne⟩

end GoHMM
end Jajapy
