import Mathlib.MeasureTheory.Measure.WithDensity
import Verif.Spec.GoHMMSim
import Verif.Lemmas.Clocks
import Verif.Lemmas.Draws
import Verif.Lemmas.Paths

set_option linter.unusedSectionVars false

namespace Jajapy

open MeasureTheory ProbabilityTheory Spec Finset Tools

/-! ### Fubini for products -/

theorem lintegral_fin_prod {X : Type} [MeasurableSpace X] : ∀ {k : ℕ} (μ : Fin k → Measure X) [∀ i, SigmaFinite (μ i)] (f : Fin k → X → ENNReal),
    (∀ i, Measurable (f i)) → ∫⁻ x, ∏ i, f i (x i) ∂(Measure.pi μ) = ∏ i, ∫⁻ x, f i x ∂(μ i)
  | 0, μ, _, f, _ => by simp
  | k + 1, μ, _, f, hf => by
    have hp := (measurePreserving_piFinSuccAbove μ 0).symm
    rw [← hp.map_eq, lintegral_map_equiv, Fin.prod_univ_succ]
    have e : ∀ p : X × (Fin k → X), ∏ i, f i ((MeasurableEquiv.piFinSuccAbove (fun _ => X) 0).symm p i)
        = f 0 p.1 * ∏ i : Fin k, f i.succ (p.2 i) := by
      intro p
      rw [Fin.prod_univ_succ]
      rfl
    simp only [e]
    have hm : Measurable (fun x : Fin k → X => ∏ i, f i.succ (x i)) :=
      Finset.measurable_prod _ (fun i _ => (hf i.succ).comp (measurable_pi_apply i))
    rw [lintegral_prod_mul (hf 0).aemeasurable hm.aemeasurable]
    congr 1
    exact lintegral_fin_prod (fun i => μ i.succ) (fun i => f i.succ) (fun i => hf i.succ)

/-! ### The first step -/

variable {d : ℕ}

theorem goLaw_cons {P : Set ℝ} (hP : MeasurableSet P) {Q : Set (Fin d → ℝ)} (hQ : MeasurableSet Q) {B : Set ((ℕ → ℝ) × (ℕ → Fin d → ℝ))}
    (hB : MeasurableSet B) :
    goLaw d {p | p.1 0 ∈ P ∧ p.2 0 ∈ Q ∧ (fun k => p.1 (k+1), fun k => p.2 (k+1)) ∈ B} = uniform P * (normalLaw d Q * goLaw d B) := by
  have hm : ((uniform.prod drawsLaw).prod ((normalLaw d).prod (normalsLaw d))).map (consEquiv.prodCongr stepEquiv) = goLaw d := by
    unfold goLaw
    conv_rhs => rw [← map_consDraw, show normalsLaw d = ((normalLaw d).prod (normalsLaw d)).map stepEquiv from (map_consStep (normalLaw d)).symm]
    rw [Measure.map_prod_map _ _ consEquiv.measurable stepEquiv.measurable]
    rfl
  conv_lhs => rw [← hm, MeasurableEquiv.map_apply]
  have hB' : MeasurableSet {q : (ℝ × (ℕ → ℝ)) × ((Fin d → ℝ) × (ℕ → Fin d → ℝ)) | q.1.1 ∈ P ∧ q.2.1 ∈ Q ∧ (q.1.2, q.2.2) ∈ B} := by
    refine (measurable_fst.fst hP).inter ((measurable_snd.fst hQ).inter ?_)
    exact (Measurable.prodMk measurable_fst.snd measurable_snd.snd) hB
  change ((uniform.prod drawsLaw).prod ((normalLaw d).prod (normalsLaw d)))
    {q : (ℝ × (ℕ → ℝ)) × ((Fin d → ℝ) × (ℕ → Fin d → ℝ)) | q.1.1 ∈ P ∧ q.2.1 ∈ Q ∧ (q.1.2, q.2.2) ∈ B} = _
  rw [Measure.prod_apply hB']
  have e : ∀ x : ℝ × (ℕ → ℝ), ((normalLaw d).prod (normalsLaw d))
      (Prod.mk x ⁻¹' {q : (ℝ × (ℕ → ℝ)) × ((Fin d → ℝ) × (ℕ → Fin d → ℝ)) | q.1.1 ∈ P ∧ q.2.1 ∈ Q ∧ (q.1.2, q.2.2) ∈ B})
      = P.indicator 1 x.1 * (normalLaw d Q * normalsLaw d (Prod.mk x.2 ⁻¹' B)) := by
    intro x
    by_cases hx : x.1 ∈ P
    · rw [Set.indicator_of_mem hx, ← Measure.prod_prod]
      simp only [Pi.one_apply, one_mul]
      congr 1
      ext q
      simp [hx]
    · rw [Set.indicator_of_notMem hx]
      simp [hx]
  simp only [e]
  rw [lintegral_prod_mul (measurable_one.indicator hP).aemeasurable ((measurable_measure_prodMk_left hB).const_mul _).aemeasurable,
    lintegral_indicator_one hP, lintegral_const_mul _ (measurable_measure_prodMk_left hB)]
  congr 2
  unfold goLaw
  rw [Measure.prod_apply hB]

theorem measurable_goCons {P : Set ℝ} (hP : MeasurableSet P) {Q : Set (Fin d → ℝ)} (hQ : MeasurableSet Q) {B : Set ((ℕ → ℝ) × (ℕ → Fin d → ℝ))}
    (hB : MeasurableSet B) :
    MeasurableSet {p : (ℕ → ℝ) × (ℕ → Fin d → ℝ) | p.1 0 ∈ P ∧ p.2 0 ∈ Q ∧ (fun k => p.1 (k+1), fun k => p.2 (k+1)) ∈ B} := by
  have h1 : Measurable (fun p : (ℕ → ℝ) × (ℕ → Fin d → ℝ) => p.1 0) := (measurable_pi_apply 0).comp measurable_fst
  have h2 : Measurable (fun p : (ℕ → ℝ) × (ℕ → Fin d → ℝ) => p.2 0) := (measurable_pi_apply 0).comp measurable_snd
  have h3 : Measurable (fun p : (ℕ → ℝ) × (ℕ → Fin d → ℝ) => ((fun k => p.1 (k+1), fun k => p.2 (k+1)) : (ℕ → ℝ) × (ℕ → Fin d → ℝ))) :=
    Measurable.prodMk (measurable_pi_iff.2 (fun k => (measurable_pi_apply (k+1)).comp measurable_fst))
      (measurable_pi_iff.2 (fun k => (measurable_pi_apply (k+1)).comp measurable_snd))
  exact (h1 hP).inter ((h2 hQ).inter (h3 hB))

variable {n : ℕ}

theorem goLaw_bind (row : Fin n → ℝ) (h0 : ∀ i, 0 ≤ row i) (hs : ∑ i, row i ≤ 1) {Q : Set (Fin d → ℝ)} (hQ : MeasurableSet Q)
    (B : Fin n → Set ((ℕ → ℝ) × (ℕ → Fin d → ℝ))) (hB : ∀ i, MeasurableSet (B i)) :
    goLaw d {p | ∃ i, pick row (p.1 0) = .ok i ∧ p.2 0 ∈ Q ∧ (fun k => p.1 (k+1), fun k => p.2 (k+1)) ∈ B i}
      = ∑ i, ENNReal.ofReal (row i) * (normalLaw d Q * goLaw d (B i)) := by
  have : {p : (ℕ → ℝ) × (ℕ → Fin d → ℝ) | ∃ i, pick row (p.1 0) = .ok i ∧ p.2 0 ∈ Q ∧ (fun k => p.1 (k+1), fun k => p.2 (k+1)) ∈ B i}
      = ⋃ i, {p : (ℕ → ℝ) × (ℕ → Fin d → ℝ) | p.1 0 ∈ {r | pick row r = .ok i} ∧ p.2 0 ∈ Q ∧ (fun k => p.1 (k+1), fun k => p.2 (k+1)) ∈ B i} := by
    ext p; simp
  rw [this, measure_iUnion]
  · rw [tsum_fintype]
    refine Finset.sum_congr rfl (fun i _ => ?_)
    rw [goLaw_cons (measurable_pick row i) hQ (hB i), pick_law row h0 hs i]
  · intro i j hij
    rw [Function.onFun, Set.disjoint_left]
    rintro p ⟨h1, -⟩ ⟨h2, -⟩
    simp only [Set.mem_ofPred_eq] at h1 h2
    rw [h1] at h2
    injection h2 with h2
    exact hij h2
  · exact fun i => measurable_goCons (measurable_pick row i) hQ (hB i)

theorem measurable_goBind (row : Fin n → ℝ) {Q : Set (Fin d → ℝ)} (hQ : MeasurableSet Q)
    (B : Fin n → Set ((ℕ → ℝ) × (ℕ → Fin d → ℝ))) (hB : ∀ i, MeasurableSet (B i)) :
    MeasurableSet {p : (ℕ → ℝ) × (ℕ → Fin d → ℝ) | ∃ i, pick row (p.1 0) = .ok i ∧ p.2 0 ∈ Q ∧ (fun k => p.1 (k+1), fun k => p.2 (k+1)) ∈ B i} := by
  have : {p : (ℕ → ℝ) × (ℕ → Fin d → ℝ) | ∃ i, pick row (p.1 0) = .ok i ∧ p.2 0 ∈ Q ∧ (fun k => p.1 (k+1), fun k => p.2 (k+1)) ∈ B i}
      = ⋃ i, {p : (ℕ → ℝ) × (ℕ → Fin d → ℝ) | p.1 0 ∈ {r | pick row r = .ok i} ∧ p.2 0 ∈ Q ∧ (fun k => p.1 (k+1), fun k => p.2 (k+1)) ∈ B i} := by
    ext p; simp
  rw [this]
  exact MeasurableSet.iUnion (fun i => measurable_goCons (measurable_pick row i) hQ (hB i))

/-- The choice of the initial state does not use a normal number. -/
theorem goLaw_init (row : Fin n → ℝ) (h0 : ∀ i, 0 ≤ row i) (hs : ∑ i, row i ≤ 1)
    (B : Fin n → Set ((ℕ → ℝ) × (ℕ → Fin d → ℝ))) (hB : ∀ i, MeasurableSet (B i)) :
    goLaw d {p | ∃ i, pick row (p.1 0) = .ok i ∧ (fun k => p.1 (k+1), p.2) ∈ B i} = ∑ i, ENNReal.ofReal (row i) * goLaw d (B i) := by
  have hm : MeasurableSet {p : (ℕ → ℝ) × (ℕ → Fin d → ℝ) | ∃ i, pick row (p.1 0) = .ok i ∧ (fun k => p.1 (k+1), p.2) ∈ B i} := by
    have : {p : (ℕ → ℝ) × (ℕ → Fin d → ℝ) | ∃ i, pick row (p.1 0) = .ok i ∧ (fun k => p.1 (k+1), p.2) ∈ B i}
        = ⋃ i, {p : (ℕ → ℝ) × (ℕ → Fin d → ℝ) | p.1 0 ∈ {r | pick row r = .ok i} ∧ (fun k => p.1 (k+1), p.2) ∈ B i} := by
      ext p; simp
    rw [this]
    have h1 : Measurable (fun p : (ℕ → ℝ) × (ℕ → Fin d → ℝ) => p.1 0) := (measurable_pi_apply 0).comp measurable_fst
    have h3 : Measurable (fun p : (ℕ → ℝ) × (ℕ → Fin d → ℝ) => ((fun k => p.1 (k+1), p.2) : (ℕ → ℝ) × (ℕ → Fin d → ℝ))) :=
      Measurable.prodMk (measurable_pi_iff.2 (fun k => (measurable_pi_apply (k+1)).comp measurable_fst)) measurable_snd
    exact MeasurableSet.iUnion (fun i => (h1 (measurable_pick row i)).inter (h3 (hB i)))
  unfold goLaw
  rw [Measure.prod_apply_symm (by exact hm)]
  have e : ∀ z : ℕ → Fin d → ℝ, drawsLaw ((fun x => (x, z)) ⁻¹' {p : (ℕ → ℝ) × (ℕ → Fin d → ℝ) | ∃ i, pick row (p.1 0) = .ok i ∧ (fun k => p.1 (k+1), p.2) ∈ B i})
      = ∑ i, ENNReal.ofReal (row i) * drawsLaw ((fun x => (x, z)) ⁻¹' B i) := fun z =>
    drawsLaw_bind row h0 hs (fun i => (fun x => (x, z)) ⁻¹' B i) (fun i => (Measurable.prodMk measurable_id measurable_const) (hB i))
  simp only [e]
  rw [lintegral_finsetSum]
  · refine Finset.sum_congr rfl (fun i _ => ?_)
    rw [lintegral_const_mul _ (measurable_measure_prodMk_right (hB i)), Measure.prod_apply_symm (hB i)]
  · exact fun i _ => (measurable_measure_prodMk_right (hB i)).const_mul _

/-! ### One observation -/

namespace GoHMM

theorem measurable_nextObs (M : GoHMM n d) (s : Fin n) : Measurable (M.nextObs s) :=
  measurable_pi_iff.2 (fun i => ((measurable_pi_apply i).const_mul _).const_add _)

theorem map_nextObs (M : GoHMM n d) (s : Fin n) : (normalLaw d).map (M.nextObs s) = M.obsLaw s := by
  unfold normalLaw obsLaw
  have h : ∀ i, (gaussianReal 0 1).map (fun z => M.mu s i + M.sigma s i * z) = gaussianReal (M.mu s i) (Real.toNNReal (M.sigma s i ^ 2)) := by
    intro i
    have : (fun z => M.mu s i + M.sigma s i * z) = (fun y => M.mu s i + y) ∘ (fun z => M.sigma s i * z) := rfl
    rw [this, ← Measure.map_map (measurable_const_add _) (measurable_const_mul _), gaussianReal_map_const_mul, gaussianReal_map_const_add]
    congr 1
    · simp
    · ext
      simp [Real.coe_toNNReal _ (sq_nonneg (M.sigma s i))]
  have h2 := Measure.pi_map_pi (μ := fun _ : Fin d => gaussianReal 0 1) (f := fun i x => M.mu s i + M.sigma s i * x)
    (fun i => ((measurable_id.const_mul _).const_add _).aemeasurable)
  simp only [h] at h2
  exact h2

theorem measurable_emit (M : GoHMM n d) (s : Fin n) : Measurable (M.emit s) := by
  unfold emit
  refine Finset.measurable_prod _ (fun i _ => ?_)
  have : Measurable (normalWeight (M.mu s i) (M.sigma s i)) := by
    unfold normalWeight
    split_ifs
    · exact measurable_one.indicator (measurableSet_singleton _)
    · exact measurable_gaussianPDFReal _ _
  exact this.comp (measurable_pi_apply i)

theorem emit_nonneg' (M : GoHMM n d) (s : Fin n) (o : Fin d → ℝ) : 0 ≤ M.emit s o := by
  refine Finset.prod_nonneg (fun i _ => ?_)
  unfold normalWeight
  split_ifs
  · exact Set.indicator_nonneg (fun _ _ => zero_le_one) _
  · exact gaussianPDFReal_nonneg _ _ _

/-- With positive standard deviations the law of an observation has the density `emit`. -/
theorem obsLaw_density (M : GoHMM n d) (s : Fin n) (hs : ∀ i, 0 < M.sigma s i) :
    M.obsLaw s = volume.withDensity (fun o => ENNReal.ofReal (M.emit s o)) := by
  have hv : ∀ i, Real.toNNReal (M.sigma s i ^ 2) ≠ 0 := fun i => by
    rw [Ne, Real.toNNReal_eq_zero, not_le]; exact pow_pos (hs i) 2
  have he : ∀ o, ENNReal.ofReal (M.emit s o) = ∏ i, gaussianPDF (M.mu s i) (Real.toNNReal (M.sigma s i ^ 2)) (o i) := by
    intro o
    unfold emit
    rw [ENNReal.ofReal_prod_of_nonneg]
    · refine Finset.prod_congr rfl (fun i _ => ?_)
      unfold normalWeight
      rw [if_neg (hs i).ne', gaussianPDF]
    · intro i _
      unfold normalWeight
      rw [if_neg (hs i).ne']
      exact gaussianPDFReal_nonneg _ _ _
  simp only [he]
  refine Measure.pi_eq (fun A hA => ?_)
  rw [withDensity_apply _ (MeasurableSet.univ_pi hA), volume_pi, Measure.restrict_pi_pi,
    lintegral_fin_prod (fun i => volume.restrict (A i)) (fun i => gaussianPDF (M.mu s i) (Real.toNNReal (M.sigma s i ^ 2)))
      (fun i => measurable_gaussianPDF _ _)]
  exact Finset.prod_congr rfl (fun i _ => (gaussianReal_apply _ (hv i) _).symm)

end GoHMM
end Jajapy
