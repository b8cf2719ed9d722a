import Verif.Spec.Evaluation
import Verif.Lemmas.Likelihood
import Verif.Props.GenerateLaw
import Verif.Lemmas.BWHMM

set_option linter.unusedSectionVars false

namespace Jajapy

open MeasureTheory ProbabilityTheory Spec Filter Topology Tools

variable {O : Type}

theorem mem_tracesOver [DecidableEq O] (A : Finset O) (k : ℕ) (w : List O) :
    w ∈ tracesOver A k ↔ w.length = k ∧ ∀ o ∈ w, o ∈ A := by
  unfold tracesOver
  simp only [Finset.mem_image, Fintype.mem_piFinset]
  constructor
  · rintro ⟨f, hf, rfl⟩
    refine ⟨by simp, fun o ho => ?_⟩
    obtain ⟨i, rfl⟩ := (List.mem_ofFn' _ _).1 ho
    exact hf i
  · rintro ⟨rfl, h⟩
    exact ⟨w.get, fun i => h _ (List.getElem_mem _), List.ofFn_get w⟩

theorem expectedLogLik_eq (F : Finset (List O)) (P Q : List O → ℝ) :
    expectedLogLik F P Q = ∑ w ∈ F, P w * (if 0 < Q w then Real.log (Q w) else 0) := by
  unfold expectedLogLik
  rw [Finset.sum_filter]
  refine Finset.sum_congr rfl (fun w _ => ?_)
  by_cases h : 0 < Q w <;> simp [h]

/-- If the proportions of the traces converge, so do the average log-likelihoods. -/
theorem avg_limit [DecidableEq O] (S : ℕ → TSet O) (F : Finset (List O)) (P Q : List O → ℝ) (hC : ∀ N, (S N).Countable)
    (hF : ∀ N, ∀ w ∈ (S N).sequences, w ∈ F) (hsum : ∀ N, (S N).times.sum = N)
    (hlim : ∀ w ∈ F, Tendsto (fun N : ℕ => ((S N).mult w : ℝ) / N) atTop (𝓝 (P w))) :
    Tendsto (fun N => avgLogLik Q (S N)) atTop (𝓝 (expectedLogLik F P Q)) := by
  have e : ∀ N, avgLogLik Q (S N) = ∑ w ∈ F, ((S N).mult w : ℝ) / N * (if 0 < Q w then Real.log (Q w) else 0) := by
    intro N
    have hlen := (hC N).1.1
    have h1 : ∑ w ∈ F, ((S N).mult w : ℝ) = N := by
      have := TSet.sum_times_eq (S N) hlen F (hF N)
      rw [hsum N] at this
      exact this.symm
    rw [TSet.avgLogLik_eq Q (S N) hlen F (hF N), h1, Finset.sum_div]
    refine Finset.sum_congr rfl (fun w _ => ?_)
    ring
  simp only [e, expectedLogLik_eq]
  exact tendsto_finsetSum _ (fun w hw => (hlim w hw).mul tendsto_const_nhds)

/-- Gibbs' inequality: no other sub-distribution has a larger expected logarithm, and only the distribution itself has the same. -/
theorem expectedLogLik_le (F : Finset (List O)) (P Q : List O → ℝ) (hP0 : ∀ w ∈ F, 0 ≤ P w) (hP1 : ∑ w ∈ F, P w = 1)
    (hQ0 : ∀ w ∈ F, 0 ≤ Q w) (hQ1 : ∑ w ∈ F, Q w ≤ 1) (habs : ∀ w ∈ F, 0 < P w → 0 < Q w) :
    expectedLogLik F P Q ≤ expectedLogLik F P P ∧ (expectedLogLik F P Q = expectedLogLik F P P → ∀ w ∈ F, Q w = P w) := by
  have key : ∀ w ∈ F, P w * (if 0 < Q w then Real.log (Q w) else 0) - P w * (if 0 < P w then Real.log (P w) else 0)
      ≤ (if 0 < P w then Q w else 0) - P w ∧
      (P w * (if 0 < Q w then Real.log (Q w) else 0) - P w * (if 0 < P w then Real.log (P w) else 0)
        = (if 0 < P w then Q w else 0) - P w → 0 < P w → Q w = P w) := by
    intro w hw
    by_cases hp : 0 < P w
    · have hq := habs w hw hp
      rw [if_pos hp, if_pos hq, if_pos hp, ← mul_sub, ← Real.log_div hq.ne' hp.ne']
      have hr : 0 < Q w / P w := div_pos hq hp
      constructor
      · have h1 := mul_le_mul_of_nonneg_left (Real.log_le_sub_one_of_pos hr) hp.le
        have h2 : P w * (Q w / P w - 1) = Q w - P w := by field_simp
        linarith
      · intro h _
        by_contra hne
        have hr1 : Q w / P w ≠ 1 := by
          intro hc
          rw [div_eq_one_iff_eq hp.ne'] at hc
          exact hne hc
        have h1 := mul_lt_mul_of_pos_left (Real.log_lt_sub_one_of_pos hr hr1) hp
        have h2 : P w * (Q w / P w - 1) = Q w - P w := by field_simp
        linarith
    · have hp0 : P w = 0 := le_antisymm (not_lt.1 hp) (hP0 w hw)
      simp [hp0]
  have hsum : ∑ w ∈ F, ((if 0 < P w then Q w else 0) - P w) ≤ 0 := by
    rw [Finset.sum_sub_distrib, hP1]
    have : ∑ w ∈ F, (if 0 < P w then Q w else 0) ≤ ∑ w ∈ F, Q w := Finset.sum_le_sum (fun w hw => by
      split_ifs
      · exact le_rfl
      · exact hQ0 w hw)
    linarith
  have hle := Finset.sum_le_sum (fun w hw => (key w hw).1)
  rw [expectedLogLik_eq, expectedLogLik_eq]
  rw [Finset.sum_sub_distrib] at hle
  refine ⟨by linarith, fun heq => ?_⟩
  have hz : ∑ w ∈ F, ((if 0 < P w then Q w else 0) - P w) = 0 := le_antisymm hsum (by linarith)
  have hall : ∀ w ∈ F, P w * (if 0 < Q w then Real.log (Q w) else 0) - P w * (if 0 < P w then Real.log (P w) else 0)
      = (if 0 < P w then Q w else 0) - P w := by
    refine (Finset.sum_eq_sum_iff_of_le (fun w hw => (key w hw).1)).1 ?_
    rw [Finset.sum_sub_distrib, hz]
    linarith
  have hpos : ∀ w ∈ F, 0 < P w → Q w = P w := fun w hw => (key w hw).2 (hall w hw)
  have hQP : ∑ w ∈ F, (if 0 < P w then Q w else 0) = 1 := by
    rw [Finset.sum_sub_distrib, hP1] at hz
    linarith
  have hrest : ∑ w ∈ F, (Q w - (if 0 < P w then Q w else 0)) = 0 := by
    refine le_antisymm ?_ (Finset.sum_nonneg (fun w hw => ?_))
    · rw [Finset.sum_sub_distrib, hQP]
      linarith
    · split_ifs
      · simp
      · simpa using hQ0 w hw
  intro w hw
  by_cases hp : 0 < P w
  · exact hpos w hw hp
  · have hp0 : P w = 0 := le_antisymm (not_lt.1 hp) (hP0 w hw)
    have := (Finset.sum_eq_zero_iff_of_nonneg (fun w hw => by
      split_ifs
      · simp
      · simpa using hQ0 w hw)).1 hrest w hw
    rw [if_neg hp, sub_zero] at this
    rw [this, hp0]

/-- A distribution on the traces of `k` letters. -/
structure TraceDist (Q : List O → ℝ) (k : ℕ) : Prop where
  nonneg : ∀ w : List O, w.length = k → 0 ≤ Q w
  sum_le : ∀ F : Finset (List O), (∀ w ∈ F, w.length = k) → ∑ w ∈ F, Q w ≤ 1

variable [DecidableEq O] {Ω : Type} [MeasurableSpace Ω] {μ : Measure Ω} [IsProbabilityMeasure μ] {sim : Ω → Py (List O)} {W : Set (List O)}

theorem Simulates.sum_le (h : Simulates μ sim W) (F : Finset (List O)) : ∑ w ∈ F, μ {ω | sim ω = .ok w} ≤ 1 := by
  rw [← measure_biUnion_finset]
  · exact prob_le_one
  · intro w _ w' _ hne
    refine Set.disjoint_left.2 (fun ω h1 h2 => hne ?_)
    simp only [Set.mem_ofPred_eq] at h1 h2
    rw [h1] at h2
    injection h2
  · intro w _
    exact h.meas w

theorem Simulates.sum_eq (h : Simulates μ sim W) (F : Finset (List O)) (hF : ∀ w ∈ W, w ∈ F) : ∑ w ∈ F, μ {ω | sim ω = .ok w} = 1 := by
  rw [← measure_biUnion_finset]
  · rw [← h.total]
    congr 1
    ext ω
    simp only [Set.mem_iUnion, Set.mem_ofPred_eq, exists_prop]
    exact ⟨fun ⟨w, _, hw⟩ => ⟨w, hw⟩, fun ⟨w, hw⟩ => ⟨w, hF w (h.mem ω w hw), hw⟩⟩
  · intro w _ w' _ hne
    refine Set.disjoint_left.2 (fun ω h1 h2 => hne ?_)
    simp only [Set.mem_ofPred_eq] at h1 h2
    rw [h1] at h2
    injection h2
  · intro w _
    exact h.meas w

theorem TraceDist.of_simulates (h : Simulates μ sim W) (Q : List O → ℝ) (k : ℕ) (h0 : ∀ w : List O, w.length = k → 0 ≤ Q w)
    (hl : ∀ w : List O, w.length = k → μ {ω | sim ω = .ok w} = ENNReal.ofReal (Q w)) : TraceDist Q k where
  nonneg := h0
  sum_le := by
    intro F hF
    have h1 := h.sum_le F
    rw [Finset.sum_congr rfl (fun w hw => hl w (hF w hw)), ← ENNReal.ofReal_sum_of_nonneg (fun w hw => h0 w (hF w hw)),
      ENNReal.ofReal_le_one] at h1
    exact h1

theorem TraceDist.sum_eq (h : Simulates μ sim W) (Q : List O → ℝ) (k : ℕ) (hQ : TraceDist Q k)
    (hl : ∀ w : List O, w.length = k → μ {ω | sim ω = .ok w} = ENNReal.ofReal (Q w)) (F : Finset (List O)) (hF : ∀ w ∈ W, w ∈ F)
    (hk : ∀ w ∈ F, w.length = k) : ∑ w ∈ F, Q w = 1 := by
  have h1 := h.sum_eq F hF
  rw [Finset.sum_congr rfl (fun w hw => hl w (hk w hw)), ← ENNReal.ofReal_sum_of_nonneg (fun w hw => hQ.nonneg w (hk w hw)),
    ENNReal.ofReal_eq_one] at h1
  exact h1

/-- The comparison of the limits. -/
theorem TraceDist.compare {P Q : List O → ℝ} {k : ℕ} (hP : TraceDist P k) (hQ : TraceDist Q k) (F : Finset (List O))
    (hk : ∀ w ∈ F, w.length = k) (hF : ∑ w ∈ F, P w = 1) (habs : ∀ w : List O, w.length = k → 0 < P w → 0 < Q w)
    (w0 : List O) (hw0 : w0.length = k) (hne : Q w0 ≠ P w0) : expectedLogLik F P Q < expectedLogLik F P P := by
  obtain ⟨h1, h2⟩ := expectedLogLik_le F P Q (fun w hw => hP.nonneg w (hk w hw)) hF (fun w hw => hQ.nonneg w (hk w hw)) (hQ.sum_le F hk)
    (fun w hw => habs w (hk w hw))
  refine lt_of_le_of_ne h1 (fun heq => ?_)
  have h3 := h2 heq
  by_cases hm : w0 ∈ F
  · exact hne (h3 w0 hm)
  · have hall : ∀ w ∈ insert w0 F, w.length = k := by
      intro w hw
      rcases Finset.mem_insert.1 hw with rfl | hw
      · exact hw0
      · exact hk w hw
    have h4 := hP.sum_le (insert w0 F) hall
    have h5 := hQ.sum_le (insert w0 F) hall
    rw [Finset.sum_insert hm] at h4 h5
    rw [Finset.sum_congr rfl h3, hF] at h5
    rw [hF] at h4
    have h6 := hP.nonneg w0 hw0
    have h7 := hQ.nonneg w0 hw0
    exact hne (by linarith)

namespace MC
variable {n : ℕ}

theorem run_lik (M : MC ℝ O n) (hM : M.Stochastic) (steps : ℕ) (w : List O) (hw : w.length = steps + 1) :
    drawsLaw {d | M.run steps d = .ok w} = ENNReal.ofReal (M.lik w) ∧ 0 ≤ M.lik w := by
  have hne : w ≠ [] := by rintro rfl; simp at hw
  obtain ⟨p, hp, hl⟩ := M.run_law hM.1 hM.2.1 hM.2.2.1 hM.2.2.2 steps w hw
  have h0 := M.seqProb_nonneg_gen hM w p hp hne
  rw [M.seqProb_eq_paths w hne] at hp
  injection hp with hp
  subst hp
  exact ⟨hl, h0⟩

theorem traceDist (M : MC ℝ O n) (hM : M.Stochastic) (steps : ℕ) : TraceDist M.lik (steps + 1) :=
  TraceDist.of_simulates (M.simulates hM steps) _ _ (fun w hw => (M.run_lik hM steps w hw).2) (fun w hw => (M.run_lik hM steps w hw).1)

end MC

namespace HMM
variable {n : ℕ}

theorem lik_eq_listProb (M : HMM ℝ O n) (hn : M.alphabet.Nodup) : M.lik = listProb M.initialState M.matrix M.b := by
  unfold lik
  have : M.b = M.emit := by funext s o; exact M.b_eq_emit hn s o
  rw [this]

theorem run_lik (M : HMM ℝ O n) (hn : M.alphabet.Nodup) (hM : M.Stochastic) (steps : ℕ) (hs : 1 ≤ steps) (w : List O)
    (hw : w.length = steps) : drawsLaw {d | M.run steps d = .ok w} = ENNReal.ofReal (M.lik w) ∧ 0 ≤ M.lik w := by
  have hne : w ≠ [] := by rintro rfl; simp at hw; omega
  obtain ⟨p, hp, hl⟩ := M.run_law hn hM.1 hM.2.1 hM.2.2.1 hM.2.2.2.1 hM.2.2.2.2.1 hM.2.2.2.2.2 steps (by omega) w hw
  have h0 := M.seqProb_nonneg_gen hM w p hp hne
  rw [M.seqProb_eq_paths w hne, ← M.lik_eq_listProb hn] at hp
  injection hp with hp
  subst hp
  exact ⟨hl, h0⟩

theorem traceDist (M : HMM ℝ O n) (hn : M.alphabet.Nodup) (hM : M.Stochastic) (steps : ℕ) (hs : 1 ≤ steps) : TraceDist M.lik steps :=
  TraceDist.of_simulates (M.simulates hn hM steps) _ _ (fun w hw => (M.run_lik hn hM steps hs w hw).2)
    (fun w hw => (M.run_lik hn hM steps hs w hw).1)

end HMM
end Jajapy
