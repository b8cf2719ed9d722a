import Verif.Props.GenerateLaw
import Verif.Spec.Geometric

/-!
Property C84: the law of the sets returned by `generateSet` with `distribution='geo'`.
-/

set_option linter.unusedSectionVars false

namespace Jajapy

open MeasureTheory ProbabilityTheory Spec Filter Topology Tools

section
variable {O : Type} [DecidableEq O] {run : ℕ → (ℕ → ℝ) → Py (List O)} {A : Set O} {ν : Measure ℕ} [IsProbabilityMeasure ν]

/-- A simulator called with a random number of steps. -/
theorem simulates_random (hA : A.Countable) (len : ℕ → ℕ) (hlen : Function.Injective len) (m0 : ℕ)
    (h : ∀ k, Simulates drawsLaw (run k) {w | w.length = len k ∧ ∀ o ∈ w, o ∈ A}) :
    Simulates (ν.prod drawsLaw) (fun q => run (m0 + q.1) q.2) {w | (∃ g, w.length = len (m0 + g)) ∧ ∀ o ∈ w, o ∈ A} ∧
    ∀ g w, w.length = len (m0 + g) →
      (ν.prod drawsLaw) {q | run (m0 + q.1) q.2 = .ok w} = ν {g} * drawsLaw {d | run (m0 + g) d = .ok w} := by
  have hset : ∀ g w, w.length = len (m0 + g) →
      {q : ℕ × (ℕ → ℝ) | run (m0 + q.1) q.2 = .ok w} = {g} ×ˢ {d | run (m0 + g) d = .ok w} := by
    intro g w hw
    ext ⟨g', d⟩
    simp only [Set.mem_ofPred_eq, Set.mem_prod, Set.mem_singleton_iff]
    constructor
    · intro hr
      have := ((h (m0 + g')).mem d w hr).1
      have hg : g' = g := by
        have := hlen (this.symm.trans hw)
        omega
      subst hg
      exact ⟨rfl, hr⟩
    · rintro ⟨rfl, hr⟩
      exact hr
  have hmeas : ∀ w, MeasurableSet {q : ℕ × (ℕ → ℝ) | run (m0 + q.1) q.2 = .ok w} := by
    intro w
    by_cases hw : ∃ g, w.length = len (m0 + g)
    · obtain ⟨g, hg⟩ := hw
      rw [hset g w hg]
      exact (measurableSet_singleton g).prod ((h _).meas w)
    · have : {q : ℕ × (ℕ → ℝ) | run (m0 + q.1) q.2 = .ok w} = ∅ := by
        ext ⟨g', d⟩
        simp only [Set.mem_ofPred_eq, Set.mem_empty_iff_false, iff_false]
        intro hr
        exact hw ⟨g', ((h (m0 + g')).mem d w hr).1⟩
      rw [this]
      exact MeasurableSet.empty
  refine ⟨⟨?_, ?_, hmeas, ?_⟩, ?_⟩
  · exact (countable_lists hA).mono (fun _ hw => hw.2)
  · intro q w hw
    have := (h _).mem _ _ hw
    exact ⟨⟨q.1, this.1⟩, this.2⟩
  · rw [measure_congr (eventuallyEq_univ.2 (show {q : ℕ × (ℕ → ℝ) | ∃ w, run (m0 + q.1) q.2 = .ok w} ∈ ae (ν.prod drawsLaw) from ?_)),
      measure_univ]
    have hm : MeasurableSet {q : ℕ × (ℕ → ℝ) | ∃ w, run (m0 + q.1) q.2 = .ok w} := by
      have e : {q : ℕ × (ℕ → ℝ) | ∃ w, run (m0 + q.1) q.2 = .ok w} = ⋃ g : ℕ, {g} ×ˢ {d | ∃ w, run (m0 + g) d = .ok w} := by
        ext ⟨g', d⟩
        simp only [Set.mem_ofPred_eq, Set.mem_iUnion, Set.mem_prod, Set.mem_singleton_iff]
        exact ⟨fun h => ⟨g', rfl, h⟩, fun ⟨g, h1, h2⟩ => by subst h1; exact h2⟩
      rw [e]
      exact MeasurableSet.iUnion (fun g => (measurableSet_singleton g).prod (h _).meas_ok)
    have : ∀ᵐ q ∂ν.prod drawsLaw, ∃ w, run (m0 + q.1) q.2 = .ok w := by
      rw [Measure.ae_prod_iff_ae_ae hm]
      refine Eventually.of_forall (fun g => ?_)
      exact (mem_ae_iff_prob_eq_one (h (m0 + g)).meas_ok).2 (h (m0 + g)).total
    exact this
  · intro g w hw
    rw [hset g w hw, Measure.prod_prod]

end

variable {L : Type} [DecidableEq L] {n : ℕ}

theorem geo_size (m0 : ℕ) (param : SizeParam) (geom : ℕ → ℕ) (j : ℕ) :
    currSize true (some m0) param (fun j => geom j + 1) j = .ok (m0 + 1 + geom j) := by
  simp only [currSize, if_true]
  congr 1
  omega

/-- C84, MC, `generateSet(set_size, q, distribution='geo', min_size=m0)`, where the calls use independent random numbers: the number
of copies of a trace has the binomial law whose parameters are `set_size` and the probability that the size of the trace is drawn
times the likelihood of the trace. -/
theorem MC.generateSet_geo_binomial (M : MC ℝ L n) (hM : M.Stochastic) (kind : L → Kind) (q : unitInterval) (hq : q ≠ 0) (m0 : ℕ)
    (param : SizeParam) (g : ℕ) (w : List L) (hw : w.length = m0 + (g + 1) + 1) :
    ∃ p, M.iface.seqProb w = .ok p ∧ ∀ N m : ℕ,
      callsLaw (geoDrawsLaw q)
        {D | ∃ S, generateSet kind (fun j k => M.run k (D j).2) N true (some m0) param (fun j => (D j).1 + 1) = .ok S ∧ S.mult w = m}
      = ENNReal.ofReal (N.choose m * (((1 - q) ^ g * q * p) ^ m * (1 - (1 - q) ^ g * q * p) ^ (N - m))) := by
  obtain ⟨p, hp, hl⟩ := M.run_law hM.1 hM.2.1 hM.2.2.1 hM.2.2.2 (m0 + 1 + g) w (by omega)
  refine ⟨p, hp, fun N m => ?_⟩
  have hp0 := M.seqProb_nonneg_gen hM w p hp (by rintro rfl; simp at hw)
  obtain ⟨h1, h2⟩ := simulates_random (ν := geometricMeasure q) (Set.countable_range M.labelling) (fun k => k + 1)
    (fun a b h => by simpa using h) (m0 + 1) (fun k => M.simulates hM k)
  have h := h1.binomial (gen_counts kind _ (fun w hw => by obtain ⟨⟨g, hg⟩, -⟩ := hw; omega)) w ((1 - q) ^ g * q * p)
    (mul_nonneg (geometricMeasure_nonneg q g) hp0) (by
      rw [h2 g w (by omega), hl, geometricMeasure_singleton hq, ← ENNReal.ofReal_mul (geometricMeasure_nonneg q g)]) N m
  simp only [gen_eq kind _ N true (some m0) param _ _ (geo_size m0 param _)]
  exact h

/-- C84, MC, 'geo': the proportion of every trace tends to the probability of its size times its likelihood, almost surely. -/
theorem MC.generateSet_geo_frequencies (M : MC ℝ L n) (hM : M.Stochastic) (kind : L → Kind) (q : unitInterval) (hq : q ≠ 0) (m0 : ℕ)
    (param : SizeParam) :
    ∀ᵐ D ∂callsLaw (geoDrawsLaw q), ∃ S : ℕ → TSet L,
      (∀ N, generateSet kind (fun j k => M.run k (D j).2) N true (some m0) param (fun j => (D j).1 + 1) = .ok (S N) ∧
        (S N).Countable ∧ (S N).times.sum = N ∧ ∀ w ∈ (S N).sequences, m0 + 2 ≤ w.length) ∧
      ∀ (g : ℕ) (w : List L), w.length = m0 + (g + 1) + 1 → ∃ p, M.iface.seqProb w = .ok p ∧
        Tendsto (fun N : ℕ => ((S N).mult w : ℝ) / N) atTop (𝓝 ((1 - q) ^ g * q * p)) := by
  obtain ⟨h1, h2⟩ := simulates_random (ν := geometricMeasure q) (Set.countable_range M.labelling) (fun k => k + 1)
    (fun a b h => by simpa using h) (m0 + 1) (fun k => M.simulates hM k)
  have h := h1.frequencies (gen_counts kind _ (fun w hw => by obtain ⟨⟨g, hg⟩, -⟩ := hw; omega))
  unfold geoDrawsLaw
  filter_upwards [h] with D hD
  obtain ⟨S, h3, h4⟩ := hD
  refine ⟨S, fun N => ?_, fun g w hw => ?_⟩
  · rw [gen_eq kind _ N true (some m0) param _ _ (geo_size m0 param _)]
    exact ⟨(h3 N).1, (h3 N).2.1, (h3 N).2.2.1, fun w hw => by obtain ⟨⟨g, hg⟩, -⟩ := (h3 N).2.2.2 w hw; omega⟩
  · obtain ⟨p, hp, hl⟩ := M.run_law hM.1 hM.2.1 hM.2.2.1 hM.2.2.2 (m0 + 1 + g) w (by omega)
    have hp0 := M.seqProb_nonneg_gen hM w p hp (by rintro rfl; simp at hw)
    refine ⟨p, hp, ?_⟩
    have h5 := h4 w
    rwa [h2 g w (by omega), hl, geometricMeasure_singleton hq, ← ENNReal.ofReal_mul (geometricMeasure_nonneg q g),
      ENNReal.toReal_ofReal (mul_nonneg (geometricMeasure_nonneg q g) hp0)] at h5

/-- C84, HMM, 'geo': the same with traces of `m0 + g + 1` letters. -/
theorem HMM.generateSet_geo_binomial (M : HMM ℝ L n) (hn : M.alphabet.Nodup) (hM : M.Stochastic) (kind : L → Kind) (q : unitInterval)
    (hq : q ≠ 0) (m0 : ℕ) (hm : 1 ≤ m0) (param : SizeParam) (g : ℕ) (w : List L) (hw : w.length = m0 + (g + 1)) :
    ∃ p, M.iface.seqProb w = .ok p ∧ ∀ N m : ℕ,
      callsLaw (geoDrawsLaw q)
        {D | ∃ S, generateSet kind (fun j k => M.run k (D j).2) N true (some m0) param (fun j => (D j).1 + 1) = .ok S ∧ S.mult w = m}
      = ENNReal.ofReal (N.choose m * (((1 - q) ^ g * q * p) ^ m * (1 - (1 - q) ^ g * q * p) ^ (N - m))) := by
  obtain ⟨p, hp, hl⟩ := M.run_law hn hM.1 hM.2.1 hM.2.2.1 hM.2.2.2.1 hM.2.2.2.2.1 hM.2.2.2.2.2 (m0 + 1 + g) (by omega) w (by omega)
  refine ⟨p, hp, fun N m => ?_⟩
  have hp0 := M.seqProb_nonneg_gen hM w p hp (by rintro rfl; simp at hw)
  obtain ⟨h1, h2⟩ := simulates_random (ν := geometricMeasure q) (A := {o | o ∈ M.alphabet}) (List.finite_toSet _).countable (fun k => k)
    (fun a b h => h) (m0 + 1) (fun k => M.simulates hn hM k)
  have h := h1.binomial (gen_counts kind _ (fun w hw => by obtain ⟨⟨g, hg⟩, -⟩ := hw; omega)) w ((1 - q) ^ g * q * p)
    (mul_nonneg (geometricMeasure_nonneg q g) hp0) (by
      rw [h2 g w (by omega), hl, geometricMeasure_singleton hq, ← ENNReal.ofReal_mul (geometricMeasure_nonneg q g)]) N m
  simp only [gen_eq kind _ N true (some m0) param _ _ (geo_size m0 param _)]
  exact h

/-- C84, HMM, 'geo'. -/
theorem HMM.generateSet_geo_frequencies (M : HMM ℝ L n) (hn : M.alphabet.Nodup) (hM : M.Stochastic) (kind : L → Kind) (q : unitInterval)
    (hq : q ≠ 0) (m0 : ℕ) (hm : 1 ≤ m0) (param : SizeParam) :
    ∀ᵐ D ∂callsLaw (geoDrawsLaw q), ∃ S : ℕ → TSet L,
      (∀ N, generateSet kind (fun j k => M.run k (D j).2) N true (some m0) param (fun j => (D j).1 + 1) = .ok (S N) ∧
        (S N).Countable ∧ (S N).times.sum = N ∧ ∀ w ∈ (S N).sequences, m0 + 1 ≤ w.length) ∧
      ∀ (g : ℕ) (w : List L), w.length = m0 + (g + 1) → ∃ p, M.iface.seqProb w = .ok p ∧
        Tendsto (fun N : ℕ => ((S N).mult w : ℝ) / N) atTop (𝓝 ((1 - q) ^ g * q * p)) := by
  obtain ⟨h1, h2⟩ := simulates_random (ν := geometricMeasure q) (A := {o | o ∈ M.alphabet}) (List.finite_toSet _).countable (fun k => k)
    (fun a b h => h) (m0 + 1) (fun k => M.simulates hn hM k)
  have h := h1.frequencies (gen_counts kind _ (fun w hw => by obtain ⟨⟨g, hg⟩, -⟩ := hw; omega))
  unfold geoDrawsLaw
  filter_upwards [h] with D hD
  obtain ⟨S, h3, h4⟩ := hD
  refine ⟨S, fun N => ?_, fun g w hw => ?_⟩
  · rw [gen_eq kind _ N true (some m0) param _ _ (geo_size m0 param _)]
    exact ⟨(h3 N).1, (h3 N).2.1, (h3 N).2.2.1, fun w hw => by obtain ⟨⟨g, hg⟩, -⟩ := (h3 N).2.2.2 w hw; omega⟩
  · obtain ⟨p, hp, hl⟩ := M.run_law hn hM.1 hM.2.1 hM.2.2.1 hM.2.2.2.1 hM.2.2.2.2.1 hM.2.2.2.2.2 (m0 + 1 + g) (by omega) w (by omega)
    have hp0 := M.seqProb_nonneg_gen hM w p hp (by rintro rfl; simp at hw)
    refine ⟨p, hp, ?_⟩
    have h5 := h4 w
    rwa [h2 g w (by omega), hl, geometricMeasure_singleton hq, ← ENNReal.ofReal_mul (geometricMeasure_nonneg q g),
      ENNReal.toReal_ofReal (mul_nonneg (geometricMeasure_nonneg q g) hp0)] at h5

end Jajapy
