import Verif.Props.GoHMMSim
import Verif.Lemmas.Averages

set_option linter.unusedSectionVars false

namespace Jajapy

open MeasureTheory ProbabilityTheory Spec Finset Tools BW

namespace GoHMM
variable {n m d : ℕ}

/-! ### The trace of a run as a random variable -/

open Classical in
/-- The trace returned by `run` (an arbitrary one if `run` raises, which has probability 0). -/
noncomputable def outcome (M : GoHMM n d) (k : ℕ) (p : (ℕ → ℝ) × (ℕ → Fin d → ℝ)) : Fin (k+1) → Fin d → ℝ :=
  if h : ∃ w : Fin (k+1) → Fin d → ℝ, M.run (k+1) p.1 p.2 = .ok (List.ofFn w) then h.choose else 0

theorem outcome_eq (M : GoHMM n d) (k : ℕ) (p : (ℕ → ℝ) × (ℕ → Fin d → ℝ)) (w : Fin (k+1) → Fin d → ℝ)
    (h : M.run (k+1) p.1 p.2 = .ok (List.ofFn w)) : M.outcome k p = w := by
  have h' : ∃ w : Fin (k+1) → Fin d → ℝ, M.run (k+1) p.1 p.2 = .ok (List.ofFn w) := ⟨w, h⟩
  unfold outcome
  rw [dif_pos h']
  have := h.symm.trans h'.choose_spec
  injection this with this
  exact (List.ofFn_injective this).symm

theorem outcome_preimage (M : GoHMM n d) (k : ℕ) (B : Set (Fin (k+1) → Fin d → ℝ)) :
    M.outcome k ⁻¹' B = M.runSet B ∪ ((M.runSet (Set.univ : Set (Fin (k+1) → Fin d → ℝ)))ᶜ ∩ {_p | (0 : Fin (k+1) → Fin d → ℝ) ∈ B}) := by
  ext p
  by_cases h : ∃ w : Fin (k+1) → Fin d → ℝ, M.run (k+1) p.1 p.2 = .ok (List.ofFn w)
  · obtain ⟨w, hw⟩ := h
    have hu : p ∈ M.runSet (Set.univ : Set (Fin (k+1) → Fin d → ℝ)) := ⟨w, Set.mem_univ _, hw⟩
    simp only [Set.mem_preimage, M.outcome_eq k p w hw, Set.mem_union, Set.mem_inter_iff, Set.mem_compl_iff, hu, not_true_eq_false, false_and, or_false]
    constructor
    · intro h; exact ⟨w, h, hw⟩
    · rintro ⟨w', h', hw'⟩
      rw [hw] at hw'
      injection hw' with hw'
      rw [List.ofFn_injective hw']; exact h'
  · have hu : p ∉ M.runSet (Set.univ : Set (Fin (k+1) → Fin d → ℝ)) := fun ⟨w, _, hw⟩ => h ⟨w, hw⟩
    have hB : p ∉ M.runSet B := fun ⟨w, _, hw⟩ => h ⟨w, hw⟩
    have e : M.outcome k p = 0 := by unfold outcome; rw [dif_neg h]
    simp only [Set.mem_preimage, e, Set.mem_union, hB, false_or, Set.mem_inter_iff, Set.mem_compl_iff, hu, not_false_eq_true, true_and, Set.mem_ofPred_eq]

theorem measurable_outcome (M : GoHMM n d) (hM : M.Valid) (hs : ∀ s i, 0 < M.sigma s i) (k : ℕ) : Measurable (M.outcome k) := by
  intro B hB
  rw [outcome_preimage]
  exact (M.run_density_aux hM hs B hB).1.union ((M.run_density_aux hM hs Set.univ MeasurableSet.univ).1.compl.inter (MeasurableSet.const _))

theorem map_outcome (M : GoHMM n d) (hM : M.Valid) (hs : ∀ s i, 0 < M.sigma s i) (k : ℕ) :
    (goLaw d).map (M.outcome k) = volume.withDensity (fun w => ENNReal.ofReal (M.lik (List.ofFn w))) := by
  ext B hB
  rw [Measure.map_apply (M.measurable_outcome hM hs k) hB, withDensity_apply _ hB, ← (M.run_density_aux hM hs B hB).2]
  refine measure_congr ?_
  filter_upwards [M.run_almostSurely hM k] with p hp
  obtain ⟨w, hw⟩ := hp
  have hu : p ∈ M.runSet (Set.univ : Set (Fin (k+1) → Fin d → ℝ)) := ⟨w, Set.mem_univ _, hw⟩
  have := congrArg (fun A => p ∈ A) (M.outcome_preimage k B)
  simp only [Set.mem_union, Set.mem_inter_iff, Set.mem_compl_iff, hu, not_true_eq_false, false_and, or_false] at this
  exact this

/-! ### Bounds on the likelihood -/

theorem emit_pos' (M : GoHMM n d) (hs : ∀ s i, 0 < M.sigma s i) (s : Fin n) (o : Fin d → ℝ) : 0 < M.emit s o := by
  refine Finset.prod_pos (fun i _ => ?_)
  unfold normalWeight
  rw [if_neg (hs s i).ne']
  refine gaussianPDFReal_pos _ _ _ ?_
  rw [Ne, Real.toNNReal_eq_zero, not_le]
  exact pow_pos (hs s i) 2

/-- The weight of a path. -/
noncomputable def pathWeight (M : GoHMM n d) {k : ℕ} (p : Fin (k+1) → Fin n) : ℝ :=
  M.initialState (p 0) * ∏ k : Fin k, M.matrix (p k.castSucc) (p k.succ)

theorem pathWeight_nonneg (M : GoHMM n d) (hM : M.Valid) {k : ℕ} (p : Fin (k+1) → Fin n) : 0 ≤ M.pathWeight p :=
  mul_nonneg (hM.1 _) (Finset.prod_nonneg (fun _ _ => hM.2.2.1 _ _))

theorem lik_paths (M : GoHMM n d) {k : ℕ} (w : Fin (k+1) → Fin d → ℝ) :
    M.lik (List.ofFn w) = ∑ p : Fin (k+1) → Fin n, M.pathWeight p * ∏ i, M.emit (p i) (w i) := by
  unfold lik
  rw [Iface.listProb_ofFn]
  rfl

theorem exists_path (M : GoHMM n d) (hM : M.Valid) : ∀ k : ℕ, ∃ p : Fin (k+1) → Fin n, 0 < M.pathWeight p := by
  have hi : ∃ s, 0 < M.initialState s := by
    by_contra hc
    push Not at hc
    have := Finset.sum_nonpos (fun s (_ : s ∈ Finset.univ) => hc s)
    rw [hM.2.1] at this
    linarith
  have ha : ∀ s, ∃ s', 0 < M.matrix s s' := by
    intro s
    by_contra hc
    push Not at hc
    have := Finset.sum_nonpos (fun s' (_ : s' ∈ Finset.univ) => hc s')
    rw [hM.2.2.2.1 s] at this
    linarith
  intro k
  obtain ⟨s0, h0⟩ := hi
  choose nx hnx using ha
  refine ⟨fun i => nx^[i.val] s0, mul_pos h0 (Finset.prod_pos (fun i _ => ?_))⟩
  simp only [Fin.val_castSucc, Fin.val_succ, Function.iterate_succ_apply']
  exact hnx _

theorem lik_pos_ofFn (M : GoHMM n d) (hM : M.Valid) (hs : ∀ s i, 0 < M.sigma s i) {k : ℕ} (w : Fin (k+1) → Fin d → ℝ) : 0 < M.lik (List.ofFn w) := by
  obtain ⟨p, hp⟩ := M.exists_path hM k
  rw [lik_paths]
  exact Finset.sum_pos' (fun q _ => mul_nonneg (M.pathWeight_nonneg hM q) (Finset.prod_nonneg (fun i _ => M.emit_nonneg' _ _)))
    ⟨p, Finset.mem_univ _, mul_pos hp (Finset.prod_pos (fun i _ => M.emit_pos' hs _ _))⟩

theorem log_emit (M : GoHMM n d) (hs : ∀ s i, 0 < M.sigma s i) (s : Fin n) (o : Fin d → ℝ) :
    Real.log (M.emit s o) = ∑ i, (Real.log (√(2 * Real.pi * M.sigma s i ^ 2))⁻¹ - (o i - M.mu s i) ^ 2 / (2 * M.sigma s i ^ 2)) := by
  have hpos : ∀ i, 0 < √(2 * Real.pi * M.sigma s i ^ 2) := fun i => Real.sqrt_pos.2 (by have := hs s i; have := Real.pi_pos; positivity)
  have e : ∀ i, normalWeight (M.mu s i) (M.sigma s i) (o i)
      = (√(2 * Real.pi * M.sigma s i ^ 2))⁻¹ * Real.exp (- (o i - M.mu s i) ^ 2 / (2 * M.sigma s i ^ 2)) := by
    intro i
    unfold normalWeight
    rw [if_neg (hs s i).ne', gaussianPDFReal, Real.coe_toNNReal _ (sq_nonneg _)]
  unfold emit
  rw [Real.log_prod (fun i _ => by rw [e]; exact (mul_pos (inv_pos.2 (hpos i)) (Real.exp_pos _)).ne')]
  refine Finset.sum_congr rfl (fun i _ => ?_)
  rw [e, Real.log_mul (inv_pos.2 (hpos i)).ne' (Real.exp_pos _).ne', Real.log_exp]
  ring

theorem emit_le (M : GoHMM n d) (hs : ∀ s i, 0 < M.sigma s i) (s : Fin n) (o : Fin d → ℝ) :
    M.emit s o ≤ ∏ i, (√(2 * Real.pi * M.sigma s i ^ 2))⁻¹ := by
  refine Finset.prod_le_prod (fun i _ => ?_) (fun i _ => ?_)
  · unfold normalWeight
    rw [if_neg (hs s i).ne']
    exact gaussianPDFReal_nonneg _ _ _
  · unfold normalWeight
    rw [if_neg (hs s i).ne', gaussianPDFReal, Real.coe_toNNReal _ (sq_nonneg _)]
    refine mul_le_of_le_one_right (inv_nonneg.2 (Real.sqrt_nonneg _)) (Real.exp_le_one_iff.2 ?_)
    rw [neg_div]
    exact neg_nonpos.2 (by positivity)

theorem lik_le (M : GoHMM n d) (hM : M.Valid) (hs : ∀ s i, 0 < M.sigma s i) (k : ℕ) :
    ∃ C, ∀ w : Fin (k+1) → Fin d → ℝ, M.lik (List.ofFn w) ≤ C := by
  refine ⟨∑ p : Fin (k+1) → Fin n, M.pathWeight p * ∏ j, ∏ i, (√(2 * Real.pi * M.sigma (p j) i ^ 2))⁻¹, fun w => ?_⟩
  rw [lik_paths]
  exact Finset.sum_le_sum (fun p _ => mul_le_mul_of_nonneg_left
    (Finset.prod_le_prod (fun i _ => M.emit_nonneg' _ _) (fun i _ => M.emit_le hs _ _)) (M.pathWeight_nonneg hM p))

/-! ### Integrability of the log-likelihood -/

theorem integrable_logEmit (M : GoHMM n d) (M' : GoHMM m d) (hs' : ∀ s i, 0 < M'.sigma s i) (s : Fin n) (s' : Fin m) :
    Integrable (fun o => Real.log (M'.emit s' o)) (M.obsLaw s) := by
  have e : (fun o => Real.log (M'.emit s' o)) = fun o => ∑ i, (Real.log (√(2 * Real.pi * M'.sigma s' i ^ 2))⁻¹
      - (o i - M'.mu s' i) ^ 2 / (2 * M'.sigma s' i ^ 2)) := funext (fun o => M'.log_emit hs' s' o)
  rw [e]
  refine integrable_finsetSum _ (fun i _ => ?_)
  unfold obsLaw
  have h1 : Integrable (fun x : ℝ => Real.log (√(2 * Real.pi * M'.sigma s' i ^ 2))⁻¹ - (x - M'.mu s' i) ^ 2 / (2 * M'.sigma s' i ^ 2))
      (gaussianReal (M.mu s i) (Real.toNNReal (M.sigma s i ^ 2))) := by
    refine (integrable_const _).sub (Integrable.div_const ?_ _)
    exact ((memLp_id_gaussianReal' 2 (by simp)).sub (memLp_const (M'.mu s' i))).integrable_sq
  exact integrable_comp_eval (μ := fun i => gaussianReal (M.mu s i) (Real.toNNReal (M.sigma s i ^ 2))) h1

theorem integrable_logLik_path (M : GoHMM n d) (M' : GoHMM m d) (hM' : M'.Valid) (hs' : ∀ s i, 0 < M'.sigma s i) {k : ℕ} (p : Fin (k+1) → Fin n) :
    Integrable (fun w : Fin (k+1) → Fin d → ℝ => Real.log (M'.lik (List.ofFn w))) (Measure.pi (fun i => M.obsLaw (p i))) := by
  obtain ⟨q, hq⟩ := M'.exists_path hM' k
  obtain ⟨C, hC⟩ := M'.lik_le hM' hs' k
  have hlow : Integrable (fun w : Fin (k+1) → Fin d → ℝ => Real.log (M'.pathWeight q) + ∑ i, Real.log (M'.emit (q i) (w i)))
      (Measure.pi (fun i => M.obsLaw (p i))) := by
    refine (integrable_const _).add (integrable_finsetSum _ (fun i _ => ?_))
    exact integrable_comp_eval (μ := fun i => M.obsLaw (p i)) (M.integrable_logEmit M' hs' (p i) (q i))
  refine Integrable.mono' (hlow.abs.add (integrable_const |Real.log C|)) ((M'.measurable_lik k).log.aestronglyMeasurable) ?_
  refine Filter.Eventually.of_forall (fun w => ?_)
  have hpos := M'.lik_pos_ofFn hM' hs' w
  have h1 : Real.log (M'.pathWeight q) + ∑ i, Real.log (M'.emit (q i) (w i)) ≤ Real.log (M'.lik (List.ofFn w)) := by
    rw [← Real.log_prod (fun i _ => (M'.emit_pos' hs' _ _).ne'), ← Real.log_mul hq.ne' (Finset.prod_pos (fun i _ => M'.emit_pos' hs' _ _)).ne']
    refine Real.log_le_log (mul_pos hq (Finset.prod_pos (fun i _ => M'.emit_pos' hs' _ _))) ?_
    rw [lik_paths]
    exact Finset.single_le_sum (f := fun q => M'.pathWeight q * ∏ i, M'.emit (q i) (w i))
      (fun q _ => mul_nonneg (M'.pathWeight_nonneg hM' q) (Finset.prod_nonneg (fun i _ => M'.emit_nonneg' _ _))) (Finset.mem_univ q)
  have h2 : Real.log (M'.lik (List.ofFn w)) ≤ Real.log C := Real.log_le_log hpos (hC w)
  rw [Real.norm_eq_abs]
  refine abs_le.2 ⟨?_, ?_⟩
  · have := neg_abs_le (Real.log (M'.pathWeight q) + ∑ i, Real.log (M'.emit (q i) (w i)))
    have h3 := abs_nonneg (Real.log C)
    simp only [Pi.add_apply]
    linarith
  · have := le_abs_self (Real.log C)
    have h3 := abs_nonneg (Real.log (M'.pathWeight q) + ∑ i, Real.log (M'.emit (q i) (w i)))
    simp only [Pi.add_apply]
    linarith

theorem pi_obsLaw_density (M : GoHMM n d) (hs : ∀ s i, 0 < M.sigma s i) {k : ℕ} (p : Fin k → Fin n) :
    Measure.pi (fun i => M.obsLaw (p i)) = volume.withDensity (fun w => ENNReal.ofReal (∏ i, M.emit (p i) (w i))) := by
  simp only [ENNReal.ofReal_prod_of_nonneg (fun i (_ : i ∈ Finset.univ) => M.emit_nonneg' (p i) _)]
  refine Measure.pi_eq (fun A hA => ?_)
  rw [withDensity_apply _ (MeasurableSet.univ_pi hA), volume_pi, Measure.restrict_pi_pi,
    lintegral_fin_prod (fun i => volume.restrict (A i)) (fun i o => ENNReal.ofReal (M.emit (p i) o)) (fun i => (M.measurable_emit _).ennreal_ofReal)]
  exact Finset.prod_congr rfl (fun i _ => by rw [M.obsLaw_density _ (hs _), withDensity_apply _ (hA i)])

theorem integrable_lik_mul (M : GoHMM n d) (hs : ∀ s i, 0 < M.sigma s i) {k : ℕ} (g : (Fin (k+1) → Fin d → ℝ) → ℝ)
    (hg : ∀ p : Fin (k+1) → Fin n, Integrable g (Measure.pi (fun i => M.obsLaw (p i)))) :
    Integrable (fun w : Fin (k+1) → Fin d → ℝ => M.lik (List.ofFn w) * g w) := by
  simp only [lik_paths, Finset.sum_mul]
  refine integrable_finsetSum _ (fun p _ => ?_)
  have h := hg p
  have hm : Measurable (fun w : Fin (k+1) → Fin d → ℝ => ENNReal.ofReal (∏ i, M.emit (p i) (w i))) :=
    (Finset.measurable_prod _ (fun i _ => (M.measurable_emit (p i)).comp (measurable_pi_apply i))).ennreal_ofReal
  rw [M.pi_obsLaw_density hs p, integrable_withDensity_iff_integrable_smul' hm
    (Filter.Eventually.of_forall (fun _ => ENNReal.ofReal_lt_top))] at h
  refine (h.const_mul (M.pathWeight p)).congr (Filter.Eventually.of_forall (fun w => ?_))
  simp only [smul_eq_mul]
  rw [ENNReal.toReal_ofReal (Finset.prod_nonneg (fun i _ => M.emit_nonneg' _ _))]
  ring

theorem integrable_lik_logLik (M : GoHMM n d) (hs : ∀ s i, 0 < M.sigma s i) (M' : GoHMM m d) (hM' : M'.Valid) (hs' : ∀ s i, 0 < M'.sigma s i) (k : ℕ) :
    Integrable (fun w : Fin (k+1) → Fin d → ℝ => M.lik (List.ofFn w) * Real.log (M'.lik (List.ofFn w))) :=
  M.integrable_lik_mul hs _ (fun p => M.integrable_logLik_path M' hM' hs' p)

theorem integrable_lik (M : GoHMM n d) (hs : ∀ s i, 0 < M.sigma s i) (k : ℕ) :
    Integrable (fun w : Fin (k+1) → Fin d → ℝ => M.lik (List.ofFn w)) := by
  have := M.integrable_lik_mul hs (k := k) (fun _ => 1) (fun p => integrable_const _)
  simpa using this

theorem integral_lik (M : GoHMM n d) (hM : M.Valid) (hs : ∀ s i, 0 < M.sigma s i) (k : ℕ) :
    ∫ w : Fin (k+1) → Fin d → ℝ, M.lik (List.ofFn w) = 1 := by
  rw [integral_eq_lintegral_of_nonneg_ae (Filter.Eventually.of_forall (fun w => (M.lik_pos_ofFn hM hs w).le)) (M.measurable_lik k).aestronglyMeasurable,
    M.lik_integral hM hs k, ENNReal.toReal_one]

/-- The expected value of a function of the trace of a run. -/
theorem integral_outcome (M : GoHMM n d) (hM : M.Valid) (hs : ∀ s i, 0 < M.sigma s i) {k : ℕ} (g : (Fin (k+1) → Fin d → ℝ) → ℝ) (hg : Measurable g)
    (hi : Integrable (fun w : Fin (k+1) → Fin d → ℝ => M.lik (List.ofFn w) * g w)) :
    Integrable (fun p => g (M.outcome k p)) (goLaw d) ∧
    ∫ p, g (M.outcome k p) ∂(goLaw d) = ∫ w : Fin (k+1) → Fin d → ℝ, M.lik (List.ofFn w) * g w := by
  have hm := M.measurable_outcome hM hs k
  have hd : Measurable (fun w : Fin (k+1) → Fin d → ℝ => ENNReal.ofReal (M.lik (List.ofFn w))) := (M.measurable_lik k).ennreal_ofReal
  have h1 : Integrable g ((goLaw d).map (M.outcome k)) := by
    rw [M.map_outcome hM hs k, integrable_withDensity_iff_integrable_smul' hd (Filter.Eventually.of_forall (fun _ => ENNReal.ofReal_lt_top))]
    refine hi.congr (Filter.Eventually.of_forall (fun w => ?_))
    simp only [smul_eq_mul]
    rw [ENNReal.toReal_ofReal (M.lik_pos_ofFn hM hs w).le]
  refine ⟨h1.comp_measurable hm, ?_⟩
  rw [← integral_map hm.aemeasurable hg.aestronglyMeasurable, M.map_outcome hM hs k,
    integral_withDensity_eq_integral_toReal_smul hd (Filter.Eventually.of_forall (fun _ => ENNReal.ofReal_lt_top))]
  refine integral_congr_ae (Filter.Eventually.of_forall (fun w => ?_))
  simp only [smul_eq_mul]
  rw [ENNReal.toReal_ofReal (M.lik_pos_ofFn hM hs w).le]

/-! ### Gibbs' inequality for densities -/

theorem continuous_emit (M : GoHMM n d) (hs : ∀ s i, 0 < M.sigma s i) (s : Fin n) : Continuous (M.emit s) := by
  unfold emit
  refine continuous_finsetProd _ (fun i _ => ?_)
  have : Continuous (normalWeight (M.mu s i) (M.sigma s i)) := by
    unfold normalWeight
    simp only [if_neg (hs s i).ne']
    unfold gaussianPDFReal
    fun_prop
  exact this.comp (continuous_apply i)

theorem continuous_lik (M : GoHMM n d) (hs : ∀ s i, 0 < M.sigma s i) (k : ℕ) : Continuous (fun w : Fin (k+1) → Fin d → ℝ => M.lik (List.ofFn w)) := by
  simp only [lik_paths]
  exact continuous_finsetSum _ (fun p _ => continuous_const.mul
    (continuous_finsetProd _ (fun i _ => (M.continuous_emit hs _).comp (continuous_apply i))))

theorem expectedLog_lt (M : GoHMM n d) (hM : M.Valid) (hs : ∀ s i, 0 < M.sigma s i) (M' : GoHMM m d) (hM' : M'.Valid)
    (hs' : ∀ s i, 0 < M'.sigma s i) (k : ℕ) (w0 : Fin (k+1) → Fin d → ℝ) (hne : M'.lik (List.ofFn w0) ≠ M.lik (List.ofFn w0)) :
    M.expectedLog M' (k+1) < M.expectedLog M (k+1) := by
  have key : ∀ P Q : ℝ, 0 < P → 0 < Q → 0 ≤ (Q - P) - (P * Real.log Q - P * Real.log P) ∧
      ((Q - P) - (P * Real.log Q - P * Real.log P) = 0 → Q = P) := by
    intro P Q hp hq
    have hr : 0 < Q / P := div_pos hq hp
    have h2 : P * (Q / P - 1) = Q - P := by field_simp
    have h3 : P * Real.log Q - P * Real.log P = P * Real.log (Q / P) := by rw [Real.log_div hq.ne' hp.ne']; ring
    rw [h3]
    constructor
    · have h1 := mul_le_mul_of_nonneg_left (Real.log_le_sub_one_of_pos hr) hp.le
      linarith
    · intro h
      by_contra hne
      have hr1 : Q / P ≠ 1 := by
        intro hc
        rw [div_eq_one_iff_eq hp.ne'] at hc
        exact hne hc
      have h1 := mul_lt_mul_of_pos_left (Real.log_lt_sub_one_of_pos hr hr1) hp
      linarith
  set h : (Fin (k+1) → Fin d → ℝ) → ℝ := fun w => (M'.lik (List.ofFn w) - M.lik (List.ofFn w))
    - (M.lik (List.ofFn w) * Real.log (M'.lik (List.ofFn w)) - M.lik (List.ofFn w) * Real.log (M.lik (List.ofFn w))) with hh
  have i1 := M.integrable_lik_logLik hs M' hM' hs' k
  have i2 := M.integrable_lik_logLik hs M hM hs k
  have i3 := M.integrable_lik hs k
  have i4 := M'.integrable_lik hs' k
  have hi : Integrable h := (i4.sub i3).sub (i1.sub i2)
  have h0 : ∀ w, 0 ≤ h w := fun w => (key _ _ (M.lik_pos_ofFn hM hs w) (M'.lik_pos_ofFn hM' hs' w)).1
  have hI : ∫ w, h w = M.expectedLog M (k+1) - M.expectedLog M' (k+1) := by
    have e1 := integral_sub (i4.sub i3) (i1.sub i2)
    have e2 := integral_sub i4 i3
    have e3 := integral_sub i1 i2
    rw [M.integral_lik hM hs k, M'.integral_lik hM' hs' k] at e2
    simp only [Pi.sub_apply] at e1
    rw [e2, e3] at e1
    rw [hh, e1]
    unfold expectedLog
    ring
  have hpos : 0 < ∫ w, h w := by
    refine lt_of_le_of_ne (integral_nonneg h0) (fun hc => ?_)
    have hz := (integral_eq_zero_iff_of_nonneg h0 hi).1 hc.symm
    have hcont : Continuous h := by
      have c1 := M.continuous_lik hs k
      have c2 := M'.continuous_lik hs' k
      exact (c2.sub c1).sub ((c1.mul (c2.log (fun w => (M'.lik_pos_ofFn hM' hs' w).ne'))).sub (c1.mul (c1.log (fun w => (M.lik_pos_ofFn hM hs w).ne'))))
    have := (hcont.ae_eq_iff_eq volume continuous_const).1 hz
    exact hne ((key _ _ (M.lik_pos_ofFn hM hs w0) (M'.lik_pos_ofFn hM' hs' w0)).2 (congrFun this w0))
  linarith

end GoHMM
end Jajapy
