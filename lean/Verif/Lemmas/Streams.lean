import Mathlib.Probability.StrongLaw
import Mathlib.Probability.Independence.InfinitePi
import Verif.Spec.Streams

set_option linter.unusedSectionVars false

namespace Jajapy

open MeasureTheory ProbabilityTheory Spec Filter Topology

variable {Ω : Type} [MeasurableSpace Ω] (μ : Measure Ω) [IsProbabilityMeasure μ]

open Classical in
/-- The number of calls among the first `N` in which the event happens. -/
noncomputable def occ (D : ℕ → Ω) (A : Set Ω) (N : ℕ) : ℕ := ((Finset.range N).filter (fun j => D j ∈ A)).card

/-- The events of different calls are independent. -/
theorem calls_indep (N : ℕ) (A : ℕ → Set Ω) (hA : ∀ j, MeasurableSet (A j)) :
    callsLaw μ {D | ∀ j < N, D j ∈ A j} = ∏ j ∈ Finset.range N, μ (A j) := by
  unfold callsLaw
  rw [← Measure.infinitePi_pi (μ := fun _ : ℕ => μ) (s := Finset.range N) (t := A) (fun j _ => hA j)]
  congr 1
  ext D
  simp [Set.mem_pi]

theorem calls_one (j : ℕ) (A : Set Ω) (hA : MeasurableSet A) : callsLaw μ {D | D j ∈ A} = μ A := by
  have := measurePreserving_eval_infinitePi (fun _ : ℕ => μ) j
  exact this.measure_preimage hA.nullMeasurableSet

/-- The frequency of an event among the calls converges to its probability. -/
theorem calls_freq (A : Set Ω) (hA : MeasurableSet A) :
    ∀ᵐ D ∂callsLaw μ, Tendsto (fun N : ℕ => (occ D A N : ℝ) / N) atTop (𝓝 (μ A).toReal) := by
  classical
  have hf : Measurable (A.indicator (fun _ => (1:ℝ))) := measurable_const.indicator hA
  have hind : iIndepFun (fun (i : ℕ) (D : ℕ → Ω) => A.indicator (fun _ => (1:ℝ)) (D i)) (callsLaw μ) :=
    iIndepFun_infinitePi (P := fun _ : ℕ => μ) (X := fun _ => A.indicator (fun _ => (1:ℝ))) (fun _ => hf)
  have hid : ∀ i : ℕ, IdentDistrib (fun D : ℕ → Ω => A.indicator (fun _ => (1:ℝ)) (D i)) (fun D => A.indicator (fun _ => (1:ℝ)) (D 0))
      (callsLaw μ) (callsLaw μ) := by
    intro i
    have h1 : ∀ i : ℕ, IdentDistrib (fun D : ℕ → Ω => D i) (fun x : Ω => x) (callsLaw μ) μ := by
      intro i
      refine ⟨(measurable_pi_apply i).aemeasurable, aemeasurable_id, ?_⟩
      unfold callsLaw
      rw [Measure.infinitePi_map_eval (μ := fun _ : ℕ => μ) i]
      exact Measure.map_id'.symm
    exact ((h1 i).trans (h1 0).symm).comp hf
  have hint : Integrable (fun D : ℕ → Ω => A.indicator (fun _ => (1:ℝ)) (D 0)) (callsLaw μ) := by
    have hm : MeasurableSet {D : ℕ → Ω | D 0 ∈ A} := (measurable_pi_apply 0) hA
    have : (fun D : ℕ → Ω => A.indicator (fun _ => (1:ℝ)) (D 0)) = {D : ℕ → Ω | D 0 ∈ A}.indicator (fun _ => (1:ℝ)) := by
      funext D; simp [Set.indicator]
    rw [this]
    exact (integrable_const 1).indicator hm
  have hE : ∫ D, A.indicator (fun _ => (1:ℝ)) (D 0) ∂callsLaw μ = (μ A).toReal := by
    have hm : MeasurableSet {D : ℕ → Ω | D 0 ∈ A} := (measurable_pi_apply 0) hA
    have : (fun D : ℕ → Ω => A.indicator (fun _ => (1:ℝ)) (D 0)) = {D : ℕ → Ω | D 0 ∈ A}.indicator (fun _ => (1:ℝ)) := by
      funext D; simp [Set.indicator]
    rw [this, integral_indicator_const _ hm]
    simp only [Measure.real, smul_eq_mul, mul_one]
    rw [calls_one μ 0 A hA]
  have := strong_law_ae_real (μ := callsLaw μ) (fun (i : ℕ) (D : ℕ → Ω) => A.indicator (fun _ => (1:ℝ)) (D i)) hint
    (fun i j hij => hind.indepFun hij) hid
  filter_upwards [this] with D hD
  rw [hE] at hD
  refine hD.congr (fun N => ?_)
  congr 1
  unfold occ
  rw [Finset.card_filter]
  push_cast
  refine Finset.sum_congr rfl (fun j _ => ?_)
  simp [Set.indicator]

/-- The number of calls with the event has a binomial law. -/
theorem calls_binomial (A : Set Ω) (hA : MeasurableSet A) (N m : ℕ) :
    callsLaw μ {D | occ D A N = m} = (N.choose m) * (μ A ^ m * μ Aᶜ ^ (N - m)) := by
  classical
  have e : {D : ℕ → Ω | occ D A N = m}
      = ⋃ T ∈ Finset.powersetCard m (Finset.range N), {D : ℕ → Ω | ∀ j < N, D j ∈ if j ∈ T then A else Aᶜ} := by
    ext D
    simp only [Set.mem_ofPred_eq, Set.mem_iUnion, Finset.mem_powersetCard, exists_prop]
    unfold occ
    constructor
    · intro h
      refine ⟨(Finset.range N).filter (fun j => D j ∈ A), ⟨Finset.filter_subset _ _, h⟩, fun j hj => ?_⟩
      by_cases hc : D j ∈ A
      · rw [if_pos (by simp [hj, hc])]; exact hc
      · rw [if_neg (by simp [hc])]; exact hc
    · rintro ⟨T, ⟨h1, h2⟩, h3⟩
      rw [← h2]
      congr 1
      ext j
      simp only [Finset.mem_filter, Finset.mem_range]
      constructor
      · rintro ⟨hj, hc⟩
        by_contra hT
        have := h3 j hj
        rw [if_neg hT] at this
        exact this hc
      · intro hT
        have hj := Finset.mem_range.1 (h1 hT)
        have := h3 j hj
        rw [if_pos hT] at this
        exact ⟨hj, this⟩
  have hmT : ∀ (T : Finset ℕ) (j : ℕ), MeasurableSet (if j ∈ T then A else Aᶜ) := by
    intro T j
    split_ifs
    · exact hA
    · exact hA.compl
  rw [e, measure_biUnion_finset]
  · rw [Finset.sum_congr rfl (g := fun _ => μ A ^ m * μ Aᶜ ^ (N - m))]
    · rw [Finset.sum_const, Finset.card_powersetCard, Finset.card_range, nsmul_eq_mul]
    · intro T hT
      rw [Finset.mem_powersetCard] at hT
      rw [calls_indep μ N _ (hmT T)]
      simp only [apply_ite μ]
      rw [Finset.prod_ite, Finset.prod_const, Finset.prod_const]
      have h1 : (Finset.range N).filter (fun j => j ∈ T) = T := by
        ext j; simp only [Finset.mem_filter]; exact ⟨fun h => h.2, fun h => ⟨hT.1 h, h⟩⟩
      have h2 : (Finset.range N).filter (fun j => j ∉ T) = Finset.range N \ T := by
        ext j; simp
      rw [h1, h2, Finset.card_sdiff_of_subset hT.1, hT.2, Finset.card_range]
  · intro T hT T' hT' hne
    rw [Function.onFun, Set.disjoint_left]
    intro D h1 h2
    apply hne
    have hT := (Finset.mem_powersetCard.1 hT).1
    have hT' := (Finset.mem_powersetCard.1 hT').1
    ext j
    constructor
    · intro hj
      have hjN := Finset.mem_range.1 (hT hj)
      have a1 := h1 j hjN
      have a2 := h2 j hjN
      rw [if_pos hj] at a1
      by_contra hc
      rw [if_neg hc] at a2
      exact a2 a1
    · intro hj
      have hjN := Finset.mem_range.1 (hT' hj)
      have a1 := h1 j hjN
      have a2 := h2 j hjN
      rw [if_pos hj] at a2
      by_contra hc
      rw [if_neg hc] at a1
      exact a1 a2
  · intro T hT
    have : {D : ℕ → Ω | ∀ j < N, D j ∈ if j ∈ T then A else Aᶜ} = ⋂ j, ⋂ _ : j < N, (fun D : ℕ → Ω => D j) ⁻¹' (if j ∈ T then A else Aᶜ) := by
      ext D; simp
    rw [this]
    exact MeasurableSet.iInter (fun j => MeasurableSet.iInter (fun _ => (measurable_pi_apply j) (hmT T j)))

/-- Almost surely all the calls have an event of probability 1. -/
theorem calls_all (A : Set Ω) (hA : MeasurableSet A) (h1 : μ A = 1) : ∀ᵐ D ∂callsLaw μ, ∀ j, D j ∈ A := by
  rw [ae_all_iff]
  intro j
  have hm : MeasurableSet {D : ℕ → Ω | D j ∈ A} := (measurable_pi_apply j) hA
  refine (mem_ae_iff_prob_eq_one hm).2 ?_
  rw [calls_one μ j A hA, h1]

end Jajapy
