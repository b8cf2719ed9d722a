import Verif.Lemmas.Evaluation
import Verif.Lemmas.Hoeffding
import Verif.Lemmas.OneStream
import Verif.Props.GenerateOne

/-!
C118: Hoeffding's inequality for an average over a generated set.
-/

set_option autoImplicit false
set_option linter.unusedSectionVars false

namespace Jajapy

open MeasureTheory ProbabilityTheory Spec Tools

variable {O : Type} [DecidableEq O] {Ω : Type} [MeasurableSpace Ω] {μ : Measure Ω} [IsProbabilityMeasure μ] {sim : Ω → Py (List O)}
  {W : Set (List O)}

open Classical in
/-- The value of the trace that a call returns. -/
noncomputable def valueOf (sim : Ω → Py (List O)) (F : Finset (List O)) (f : List O → ℝ) (ω : Ω) : ℝ :=
  ∑ w ∈ F, if sim ω = .ok w then f w else 0

theorem valueOf_ok {F : Finset (List O)} {f : List O → ℝ} {ω : Ω} {w : List O} (h : sim ω = .ok w) (hw : w ∈ F) : valueOf sim F f ω = f w := by
  unfold valueOf
  rw [Finset.sum_eq_single_of_mem w hw, if_pos h]
  intro w' _ hne
  rw [if_neg]
  rw [h]
  intro e
  injection e with e
  exact hne e.symm

theorem Simulates.measurable_valueOf (h : Simulates μ sim W) (F : Finset (List O)) (f : List O → ℝ) : Measurable (valueOf sim F f) := by
  unfold valueOf
  exact Finset.measurable_sum _ (fun w _ => Measurable.ite (h.meas w) measurable_const measurable_const)

theorem Simulates.integral_valueOf (h : Simulates μ sim W) (F : Finset (List O)) (f : List O → ℝ) :
    ∫ ω, valueOf sim F f ω ∂μ = ∑ w ∈ F, μ.real {ω | sim ω = .ok w} * f w := by
  classical
  unfold valueOf
  have e : ∀ w, (fun ω => if sim ω = .ok w then f w else 0) = Set.indicator {ω | sim ω = .ok w} (fun _ => f w) := by
    intro w
    funext ω
    simp [Set.indicator_apply]
  rw [integral_finsetSum]
  · refine Finset.sum_congr rfl (fun w _ => ?_)
    rw [e, integral_indicator_const _ (h.meas w), smul_eq_mul]
  · intro w _
    rw [e]
    exact (integrable_const _).indicator (h.meas w)

theorem sum_occ (D : ℕ → Ω) (F : Finset (List O)) (f : List O → ℝ) (N : ℕ) :
    ∑ j ∈ Finset.range N, valueOf sim F f (D j) = ∑ w ∈ F, (occ D {ω | sim ω = .ok w} N : ℝ) * f w := by
  classical
  unfold valueOf
  rw [Finset.sum_comm]
  refine Finset.sum_congr rfl (fun w _ => ?_)
  rw [← Finset.sum_filter, Finset.sum_const, nsmul_eq_mul]
  unfold occ
  congr 3
  ext j
  simp

/-- One side of Hoeffding's inequality, for the average of `f` over the traces of a generated set. -/
theorem mean_ge_law (h : Simulates μ sim W) {gen : (ℕ → Py (List O)) → ℕ → Py (TSet O)} (hgen : CountsTraces gen W) (F : Finset (List O))
    (hF : ∀ w ∈ W, w ∈ F) (f : List O → ℝ) (a b : ℝ) (hf : ∀ w, μ {ω | sim ω = .ok w} ≠ 0 → f w ∈ Set.Icc a b) (t : ℝ) (ht : 0 ≤ t) (N : ℕ)
    (hN : 1 ≤ N) (R : TSet O → Prop)
    (hR : ∀ S, S.Countable → S.times.sum = N → (∀ w ∈ S.sequences, w ∈ W) → R S →
      t ≤ (∑ w ∈ F, (S.mult w : ℝ) * f w) / N - ∑ w ∈ F, μ.real {ω | sim ω = .ok w} * f w) :
    (callsLaw μ).real {D | ∃ S, gen (fun i => sim (D i)) N = .ok S ∧ R S} ≤ Real.exp (-(2 * N * t ^ 2 / (b - a) ^ 2)) := by
  have hmeas := h.measurable_valueOf F f
  have hmp : ∀ j : ℕ, MeasurePreserving (Function.eval j) (callsLaw μ) μ := by
    intro j
    unfold callsLaw
    exact measurePreserving_eval_infinitePi _ j
  have hmem : ∀ᵐ ω ∂μ, valueOf sim F f ω ∈ Set.Icc a b := by
    have h1 : ∀ᵐ ω ∂μ, ω ∈ {ω | ∃ w, sim ω = .ok w} := (prob_compl_eq_zero_iff h.meas_ok).2 h.total
    have h2 : ∀ᵐ ω ∂μ, ∀ w ∈ F, sim ω = .ok w → μ {ω | sim ω = .ok w} ≠ 0 := by
      rw [Filter.eventually_all_finset]
      intro w _
      by_cases hz : μ {ω | sim ω = .ok w} = 0
      · have : ∀ᵐ ω ∂μ, ω ∉ {ω | sim ω = .ok w} := by
          rw [ae_iff]
          simpa using hz
        filter_upwards [this] with ω hω e
        exact absurd e hω
      · exact .of_forall (fun ω _ => hz)
    filter_upwards [h1, h2] with ω ⟨w, hw⟩ h3
    have hwF := hF w (h.mem ω w hw)
    rw [valueOf_ok hw hwF]
    exact hf w (h3 w hwF hw)
  set X : ℕ → (ℕ → Ω) → ℝ := fun j D => valueOf sim F f (D j) - ∑ w ∈ F, μ.real {ω | sim ω = .ok w} * f w with hX
  have hind : iIndepFun X (callsLaw μ) := by
    have := iIndepFun_infinitePi (P := fun _ : ℕ => μ) (X := fun _ ω => valueOf sim F f ω - ∑ w ∈ F, μ.real {ω | sim ω = .ok w} * f w)
      (fun _ => hmeas.sub_const _)
    exact this
  have hsub : ∀ j < N, HasSubgaussianMGF (X j) ((‖b - a‖₊ / 2) ^ 2) (callsLaw μ) := by
    intro j _
    have h1 := hasSubgaussianMGF_of_mem_Icc (μ := callsLaw μ) (X := fun D : ℕ → Ω => valueOf sim F f (D j)) (a := a) (b := b)
      (hmeas.comp (measurable_pi_apply j)).aemeasurable ((hmp j).quasiMeasurePreserving.ae hmem)
    have h2 : ∫ D, valueOf sim F f (D j) ∂callsLaw μ = ∑ w ∈ F, μ.real {ω | sim ω = .ok w} * f w := by
      rw [← h.integral_valueOf F f]
      have e1 := integral_map (μ := callsLaw μ) (hmp j).measurable.aemeasurable (f := valueOf sim F f) hmeas.aestronglyMeasurable
      rw [(hmp j).map_eq] at e1
      exact e1.symm
    rw [h2] at h1
    exact h1
  have key := HasSubgaussianMGF.measure_sum_range_ge_le_of_iIndepFun hind hsub (ε := N * t) (by positivity)
  have hN' : (0:ℝ) < N := by exact_mod_cast hN
  refine le_trans ?_ (key.trans (le_of_eq ?_))
  · unfold Measure.real
    refine ENNReal.toReal_mono (measure_ne_top _ _) (measure_mono_ae ?_)
    filter_upwards [h.all_ok] with D hD
    rintro ⟨S, hS, hQ⟩
    obtain ⟨S', h1, h2, h3, h4, h5⟩ := h.sets hgen D hD N
    rw [h1] at hS
    injection hS with hS
    subst hS
    have h6 := hR S' h2 h3 h4 hQ
    show (N:ℝ) * t ≤ ∑ j ∈ Finset.range N, X j D
    simp only [hX, Finset.sum_sub_distrib, sum_occ, Finset.sum_const, Finset.card_range, nsmul_eq_mul]
    simp only [← h5]
    have := mul_le_mul_of_nonneg_left h6 hN'.le
    rw [mul_sub, mul_div_cancel₀ _ hN'.ne'] at this
    linarith
  · congr 1
    push_cast
    rw [Real.norm_eq_abs, div_pow, sq_abs]
    by_cases hz : b - a = 0
    · simp [hz]
    · field_simp

/-- Hoeffding's inequality, for the average of `f` over the traces of a generated set. -/
theorem mean_law (h : Simulates μ sim W) {gen : (ℕ → Py (List O)) → ℕ → Py (TSet O)} (hgen : CountsTraces gen W) (F : Finset (List O))
    (hF : ∀ w ∈ W, w ∈ F) (f : List O → ℝ) (a b : ℝ) (hf : ∀ w, μ {ω | sim ω = .ok w} ≠ 0 → f w ∈ Set.Icc a b) (t : ℝ) (ht : 0 ≤ t) (N : ℕ)
    (hN : 1 ≤ N) (R : TSet O → Prop)
    (hR : ∀ S, S.Countable → S.times.sum = N → (∀ w ∈ S.sequences, w ∈ W) → R S →
      t ≤ |(∑ w ∈ F, (S.mult w : ℝ) * f w) / N - ∑ w ∈ F, μ.real {ω | sim ω = .ok w} * f w|) :
    (callsLaw μ).real {D | ∃ S, gen (fun i => sim (D i)) N = .ok S ∧ R S} ≤ 2 * Real.exp (-(2 * N * t ^ 2 / (b - a) ^ 2)) := by
  have h1 := mean_ge_law h hgen F hF f a b hf t ht N hN
    (fun S => S.Countable ∧ t ≤ (∑ w ∈ F, (S.mult w : ℝ) * f w) / N - ∑ w ∈ F, μ.real {ω | sim ω = .ok w} * f w) (fun S _ _ _ h => h.2)
  have h2 := mean_ge_law h hgen F hF (fun w => - f w) (-b) (-a) (fun w hw => ⟨neg_le_neg (hf w hw).2, neg_le_neg (hf w hw).1⟩) t ht N hN
    (fun S => S.Countable ∧ t ≤ -((∑ w ∈ F, (S.mult w : ℝ) * f w) / N - ∑ w ∈ F, μ.real {ω | sim ω = .ok w} * f w)) (fun S _ _ _ h => by
      simp only [mul_neg, Finset.sum_neg_distrib]
      have := h.2
      rw [neg_div]
      linarith)
  rw [show -a - -b = b - a by ring] at h2
  have hun : (callsLaw μ).real {D | ∃ S, gen (fun i => sim (D i)) N = .ok S ∧ R S} ≤ (callsLaw μ).real
      {D | ∃ S, gen (fun i => sim (D i)) N = .ok S ∧ S.Countable ∧ t ≤ (∑ w ∈ F, (S.mult w : ℝ) * f w) / N - ∑ w ∈ F, μ.real {ω | sim ω = .ok w} * f w}
      + (callsLaw μ).real {D | ∃ S, gen (fun i => sim (D i)) N = .ok S ∧ S.Countable ∧ t ≤ -((∑ w ∈ F, (S.mult w : ℝ) * f w) / N - ∑ w ∈ F, μ.real {ω | sim ω = .ok w} * f w)} := by
    refine le_trans ?_ (measureReal_union_le (μ := callsLaw μ)
      {D | ∃ S, gen (fun i => sim (D i)) N = .ok S ∧ S.Countable ∧ t ≤ (∑ w ∈ F, (S.mult w : ℝ) * f w) / N - ∑ w ∈ F, μ.real {ω | sim ω = .ok w} * f w}
      {D | ∃ S, gen (fun i => sim (D i)) N = .ok S ∧ S.Countable ∧ t ≤ -((∑ w ∈ F, (S.mult w : ℝ) * f w) / N - ∑ w ∈ F, μ.real {ω | sim ω = .ok w} * f w)})
    unfold Measure.real
    refine ENNReal.toReal_mono (measure_ne_top _ _) (measure_mono_ae ?_)
    filter_upwards [h.all_ok] with D hD
    rintro ⟨S, hS, hQ⟩
    obtain ⟨S', e1, e2, e3, e4, e5⟩ := h.sets hgen D hD N
    have hS' := hS
    rw [e1] at hS'
    injection hS' with hS'
    subst hS'
    rcases le_abs.1 (hR S' e2 e3 e4 hQ) with hc | hc
    · exact Or.inl ⟨S', hS, e2, hc⟩
    · exact Or.inr ⟨S', hS, e2, hc⟩
  linarith

/-! ### The average log-likelihood -/

theorem avg_eq_mean (Q : List O → ℝ) (S : TSet O) (N : ℕ) (hS : S.Countable) (hsum : S.times.sum = N) (F : Finset (List O))
    (hF : ∀ w ∈ S.sequences, w ∈ F) :
    avgLogLik Q S = (∑ w ∈ F, (S.mult w : ℝ) * (if 0 < Q w then Real.log (Q w) else 0)) / N := by
  rw [TSet.avgLogLik_eq Q S hS.1.1 F hF]
  congr 1
  have := TSet.sum_times_eq S hS.1.1 F hF
  rw [hsum] at this
  exact this.symm

theorem logIcc {q B : ℝ} (h1 : q ≤ 1) (h : q = 0 ∨ Real.exp (-B) ≤ q) (hB : 0 ≤ B) : (if 0 < q then Real.log q else 0) ∈ Set.Icc (-B) 0 := by
  split_ifs with hq
  · refine ⟨?_, Real.log_nonpos hq.le h1⟩
    rcases h with h | h
    · exact absurd h hq.ne'
    · rw [Real.le_log_iff_exp_le hq]
      exact h
  · exact ⟨by linarith, le_rfl⟩

/-- What is used of the generator: its traces are in `F` and have the probabilities `P`. -/
structure Draws (μ : Measure Ω) (sim : Ω → Py (List O)) (W : Set (List O)) (F : Finset (List O)) (P : List O → ℝ) : Prop where
  simulates : Simulates μ sim W
  mem : ∀ w ∈ W, w ∈ F
  prob : ∀ w ∈ F, μ.real {ω | sim ω = .ok w} = P w

theorem Draws.mean {F : Finset (List O)} {P : List O → ℝ} (h : Draws μ sim W F P) (f : List O → ℝ) :
    ∑ w ∈ F, μ.real {ω | sim ω = .ok w} * f w = ∑ w ∈ F, P w * f w := Finset.sum_congr rfl (fun w hw => by rw [h.prob w hw])

theorem Draws.possible {F : Finset (List O)} {P : List O → ℝ} (h : Draws μ sim W F P) {w : List O} (hw : μ {ω | sim ω = .ok w} ≠ 0) :
    w ∈ F ∧ 0 < P w := by
  obtain ⟨ω, hω⟩ := nonempty_of_measure_ne_zero hw
  have hF := h.mem w (h.simulates.mem ω w hω)
  refine ⟨hF, ?_⟩
  rw [← h.prob w hF]
  exact ENNReal.toReal_pos hw (measure_ne_top _ _)

/-- The precision of an average log-likelihood. -/
theorem Draws.precision {F : Finset (List O)} {P : List O → ℝ} (h : Draws μ sim W F P) {gen : (ℕ → Py (List O)) → ℕ → Py (TSet O)}
    (hgen : CountsTraces gen W) (Q : List O → ℝ) (B : ℝ) (hB : 0 ≤ B) (hQ : ∀ w ∈ F, 0 < P w → Q w ≤ 1 ∧ (Q w = 0 ∨ Real.exp (-B) ≤ Q w))
    (t : ℝ) (ht : 0 ≤ t) (N : ℕ) (hN : 1 ≤ N) (ll : TSet O → ℝ → Prop)
    (hll : ∀ S l, S.Countable → S.times.sum = N → (∀ w ∈ S.sequences, w ∈ W) → ll S l → l = avgLogLik Q S) :
    (callsLaw μ).real {D | ∃ S, gen (fun i => sim (D i)) N = .ok S ∧ ∃ l, ll S l ∧ t ≤ |l - expectedLogLik F P Q|}
      ≤ 2 * Real.exp (-(2 * N * t ^ 2 / B ^ 2)) := by
  have := mean_law h.simulates hgen F h.mem (fun w => if 0 < Q w then Real.log (Q w) else 0) (-B) 0
    (fun w hw => by
      obtain ⟨h1, h2⟩ := h.possible hw
      exact logIcc (hQ w h1 h2).1 (hQ w h1 h2).2 hB) t ht N hN (fun S => ∃ l, ll S l ∧ t ≤ |l - expectedLogLik F P Q|)
    (by
      rintro S h1 h2 h3 ⟨l, h4, h5⟩
      rw [hll S l h1 h2 h3 h4, avg_eq_mean Q S N h1 h2 F (fun w hw => h.mem w (h3 w hw)), expectedLogLik_eq] at h5
      rw [h.mean]
      exact h5)
  rw [show (0:ℝ) - -B = B by ring] at this
  exact this

/-- The probability that the wrong model has the larger average log-likelihood. -/
theorem Draws.winner {F : Finset (List O)} {P : List O → ℝ} (h : Draws μ sim W F P) {gen : (ℕ → Py (List O)) → ℕ → Py (TSet O)}
    (hgen : CountsTraces gen W) (Q₁ Q₂ : List O → ℝ) (B₁ B₂ : ℝ) (hB₁ : 0 ≤ B₁) (hB₂ : 0 ≤ B₂)
    (hQ₁ : ∀ w ∈ F, 0 < P w → Q₁ w ≤ 1 ∧ (Q₁ w = 0 ∨ Real.exp (-B₁) ≤ Q₁ w))
    (hQ₂ : ∀ w ∈ F, 0 < P w → Q₂ w ≤ 1 ∧ (Q₂ w = 0 ∨ Real.exp (-B₂) ≤ Q₂ w))
    (hgap : expectedLogLik F P Q₂ ≤ expectedLogLik F P Q₁) (N : ℕ) (hN : 1 ≤ N) (ll₁ ll₂ : TSet O → ℝ → Prop)
    (hll₁ : ∀ S l, S.Countable → S.times.sum = N → (∀ w ∈ S.sequences, w ∈ W) → ll₁ S l → l = avgLogLik Q₁ S)
    (hll₂ : ∀ S l, S.Countable → S.times.sum = N → (∀ w ∈ S.sequences, w ∈ W) → ll₂ S l → l = avgLogLik Q₂ S) :
    (callsLaw μ).real {D | ∃ S, gen (fun i => sim (D i)) N = .ok S ∧ ∃ l₁ l₂, ll₁ S l₁ ∧ ll₂ S l₂ ∧ l₁ ≤ l₂}
      ≤ Real.exp (-(2 * N * (expectedLogLik F P Q₁ - expectedLogLik F P Q₂) ^ 2 / (B₁ + B₂) ^ 2)) := by
  have := mean_ge_law h.simulates hgen F h.mem (fun w => (if 0 < Q₂ w then Real.log (Q₂ w) else 0) - (if 0 < Q₁ w then Real.log (Q₁ w) else 0)) (-B₂) B₁
    (fun w hw => by
      obtain ⟨h1, h2⟩ := h.possible hw
      have a1 := logIcc (hQ₁ w h1 h2).1 (hQ₁ w h1 h2).2 hB₁
      have a2 := logIcc (hQ₂ w h1 h2).1 (hQ₂ w h1 h2).2 hB₂
      constructor
      · linarith [a1.2, a2.1]
      · linarith [a1.1, a2.2]) (expectedLogLik F P Q₁ - expectedLogLik F P Q₂) (by linarith) N hN
    (fun S => ∃ l₁ l₂, ll₁ S l₁ ∧ ll₂ S l₂ ∧ l₁ ≤ l₂)
    (by
      rintro S h1 h2 h3 ⟨l₁, l₂, h4, h5, h6⟩
      rw [hll₁ S l₁ h1 h2 h3 h4, hll₂ S l₂ h1 h2 h3 h5, avg_eq_mean Q₁ S N h1 h2 F (fun w hw => h.mem w (h3 w hw)),
        avg_eq_mean Q₂ S N h1 h2 F (fun w hw => h.mem w (h3 w hw))] at h6
      rw [h.mean, expectedLogLik_eq, expectedLogLik_eq]
      simp only [mul_sub, Finset.sum_sub_distrib, sub_div]
      linarith)
  rw [show B₁ - -B₂ = B₁ + B₂ by ring] at this
  exact this

/-- The precision of the proportion of a trace. -/
theorem Draws.frequency {F : Finset (List O)} {P : List O → ℝ} (h : Draws μ sim W F P) {gen : (ℕ → Py (List O)) → ℕ → Py (TSet O)}
    (hgen : CountsTraces gen W) (w : List O) (hw : w ∈ F) (t : ℝ) (ht : 0 ≤ t) (N : ℕ) (hN : 1 ≤ N) :
    (callsLaw μ).real {D | ∃ S, gen (fun i => sim (D i)) N = .ok S ∧ t ≤ |(S.mult w : ℝ) / N - P w|} ≤ 2 * Real.exp (-(2 * N * t ^ 2)) := by
  have := mean_law h.simulates hgen F h.mem (fun w' => if w' = w then 1 else 0) 0 1
    (fun w' _ => by split_ifs <;> simp) t ht N hN (fun S => t ≤ |(S.mult w : ℝ) / N - P w|)
    (fun S _ _ _ h5 => by
      rw [h.mean]
      simpa [hw] using h5)
  simpa using this

/-! ### One sequence of random numbers -/

theorem stream_real_le {sim : (ℕ → ℝ) → Py (List O)} {c : ℕ} (hc : 0 < c) (hr : Reads sim c) (gen : (ℕ → Py (List O)) → ℕ → Py (TSet O)) (N : ℕ)
    (Q : TSet O → Prop) :
    drawsLaw.real {d | ∃ S, gen (fun j => sim (fun i => d (j * c + i))) N = .ok S ∧ Q S}
      ≤ (callsLaw (blockLaw c)).real {D | ∃ S, gen (fun j => sim (padZero c (D j))) N = .ok S ∧ Q S} := by
  unfold Measure.real
  refine ENNReal.toReal_mono (measure_ne_top _ _) ?_
  have hm := blocks_law c hc
  have := Measure.le_map_apply (μ := drawsLaw) hm.measurable.aemeasurable {D : ℕ → Fin c → ℝ | ∃ S, gen (fun j => sim (padZero c (D j))) N = .ok S ∧ Q S}
  rw [hm.map_eq] at this
  refine le_trans (le_of_eq ?_) this
  congr 1
  ext d
  simp only [Set.mem_preimage, Set.mem_ofPred_eq, hr.block]

theorem Draws.block {sim : (ℕ → ℝ) → Py (List O)} {F : Finset (List O)} {P : List O → ℝ} (h : Draws drawsLaw sim W F P) {c : ℕ} (hc : 0 < c)
    (hr : Reads sim c) : Draws (blockLaw c) (fun v => sim (padZero c v)) W F P where
  simulates := h.simulates.block hc hr
  mem := h.mem
  prob := fun w hw => by
    rw [← h.prob w hw]
    unfold Measure.real
    congr 1
    exact hr.law hc (fun r => r = .ok w) (h.simulates.meas w)

theorem Draws.results {sim : (ℕ → ℝ) → Py (List O)} {F : Finset (List O)} {P : List O → ℝ} (h : Draws drawsLaw sim W F P) :
    letI := simSpace sim
    Draws (resultLaw sim) (keepIn W) W F P := by
  letI := simSpace sim
  refine ⟨h.simulates.results, h.mem, fun w hw => ?_⟩
  rw [← h.prob w hw]
  unfold Measure.real
  rw [resultLaw, Measure.map_apply measurable_sim (h.simulates.results.meas w)]
  congr 2
  ext d
  simp only [Set.mem_preimage, Set.mem_ofPred_eq, h.simulates.keep_ok]

theorem MDP.one_stream_real_le {σ : Type} {n : ℕ} {sch : Sched ℝ O σ} {P : Policy σ O} {dom : σ → Prop} (M : MDP ℝ O n)
    (hn : M.actions.Nodup) (hS : M.Stochastic) (hB : Behaves sch P dom) (kind : O → Kind)
    (steps : ℕ) (geom : ℕ → ℕ) (st : σ) {W : Set (List O)} (h : Simulates drawsLaw (M.outcome sch steps st) W) (N : ℕ)
    (Q : TSet O → Prop) (c : ℝ) :
    letI := simSpace (M.outcome sch steps st)
    (callsLaw (resultLaw (M.outcome sch steps st))).real
      {Y | ∃ S, generateSetMDP kind (fun j _ => keepIn W (Y j)) N false none (.int steps) geom = .ok S ∧ Q S} ≤ c →
    drawsLaw.real {d | ∃ tr S, M.CollectsOne sch steps st d N tr ∧
      generateSetMDP kind (fun j _ => .ok (tr j)) N false none (.int steps) geom = .ok S ∧ Q S} ≤ c := by
  letI := simSpace (M.outcome sch steps st)
  intro hc
  refine le_trans ?_ hc
  have hk := M.stops hn hS hB steps st
  have hm := hk.law h
  unfold Measure.real
  refine ENNReal.toReal_mono (measure_ne_top _ _) ?_
  have := Measure.le_map_apply (μ := drawsLaw) hm.measurable.aemeasurable
    {Y : ℕ → Py (List O) | ∃ S, generateSetMDP kind (fun j _ => keepIn W (Y j)) N false none (.int steps) geom = .ok S ∧ Q S}
  rw [hm.map_eq] at this
  refine le_trans (measure_mono_ae ?_) this
  filter_upwards [hk.all_ok h] with d hd
  rintro ⟨tr, S, h1, h2, h3⟩
  have h4 := (M.generatedOne_iff hB kind steps geom st d hd N S).1 ⟨tr, h1, h2⟩
  refine ⟨S, ?_, h3⟩
  simp only [fun j => keep_eq h (laterN (M.reads sch steps st) j d) (hd j)]
  exact h4

end Jajapy
