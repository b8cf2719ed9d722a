import Verif.Lemmas.PCTMCEval
import Verif.Props.TimedEval

set_option linter.unusedSectionVars false

/-!
Property C96: sets of timed traces generated by instantiated parametric CTMCs, and comparing such models on them.
-/

namespace Jajapy

open MeasureTheory ProbabilityTheory Spec Filter Topology Tools

namespace PCTMC
variable {G N : PCTMC ℝ} {ρ σ : String → ℝ}

theorem Live.valid (h : G.Live ρ) : (G.chain ρ).Valid :=
  ⟨fun s => run_law_partial.initial_nonneg h.wf h.init_nonneg s, h.nonneg⟩

theorem Live.sum (h : G.Live ρ) : ∑ s, (G.chain ρ).initialState s = 1 := by
  rw [run_law_partial.initial_sum h.wf, h.init_sum]

theorem Live.exit (h : G.Live ρ) (s : Fin G.matrix.length) : 0 < (G.chain ρ).e s := by
  obtain ⟨j, hj⟩ := h.leaves s
  exact (G.chain ρ).exitRate_pos h.nonneg s j hj

theorem Live.run (h : G.Live ρ) (k : ℕ) : TimedRun (simLaw G.matrix.length) (fun p => G.runTimed k p.1 (fun k => pad (p.2 k)))
    (fun os ts last => asTrace (timedTrace os ts last)) ((G.chain ρ).shown k) := timedRun h.toSim h.leaves h.init_nonneg h.init_sum k

/-- `generateSet(N, k, timed=True)`: every call of `run` returns, and the times are finite. -/
theorem generatedTimed (h : G.Live ρ) (kind : String ⊕ WithTop ℝ → Kind) (k : ℕ) (hk : 1 ≤ k) (geom : ℕ → ℕ) :
    ∀ᵐ D ∂callsLaw (simLaw G.matrix.length), ∃ (S : ℕ → TSet (Sym String)) (o : ℕ → (Fin k → String) × String) (ts : ℕ → Fin k → ℝ),
      (∀ j, o j ∈ (G.chain ρ).shown k ∧ (∀ i, 0 ≤ ts j i) ∧
        G.runTimed k (D j).1 (fun k => pad ((D j).2 k)) = .ok (asTrace (timedTrace (o j).1 (ts j) (o j).2))) ∧ ∀ N,
      generateSet kind (fun j k => G.runTimed k (D j).1 (fun k => pad ((D j).2 k))) N false none (.int k) geom = .ok (S N).asTraces ∧
      (S N).Countable ∧ (S N).times.sum = N ∧
      (∀ w, w ∈ (S N).sequences ↔ ∃ j < N, timedTrace (o j).1 (ts j) (o j).2 = w) ∧
      ∀ w, (S N).mult w = ((List.range N).map (fun j => timedTrace (o j).1 (ts j) (o j).2)).count w := by
  filter_upwards [calls_ae (simLaw G.matrix.length) _ (h.run k).total] with D hD
  choose o ho ts h0 hr using hD
  have := fun N => generateSet_spec kind (fun j k => G.runTimed k (D j).1 (fun k => pad ((D j).2 k))) N false none (.int k) geom (fun _ => k)
    (fun j => asTrace (timedTrace (o j).1 (ts j) (o j).2)) (fun _ _ => rfl) (fun j _ => hr j)
    (fun j _ => by rw [asTrace, List.length_map, CTMC.timedTrace_eq, timed_length, List.length_ofFn]; omega)
  choose S hS using this
  have hread := fun N => (S N).exists_read (fun w hw => by
    obtain ⟨j, -, hj⟩ := ((hS N).2.2.2.1 w).1 hw
    exact ⟨_, hj⟩)
  choose S' hS' using hread
  refine ⟨S', o, ts, fun j => ⟨ho j, h0 j, hr j⟩, fun N => ?_⟩
  obtain ⟨a1, a2, a3, a4, a5⟩ := hS N
  rw [hS' N] at a1 a2 a3 a4 a5
  refine ⟨a1, (TSet.asTraces_countable _).1 a2, a3, fun w => ?_, fun w => ?_⟩
  · rw [← TSet.asTraces_mem, a4]
    exact exists_congr (fun j => and_congr Iff.rfl asTrace_injective.eq_iff)
  · rw [← TSet.asTraces_mult, a5]
    rw [show (fun j => asTrace (timedTrace (o j).1 (ts j) (o j).2)) = asTrace ∘ (fun j => timedTrace (o j).1 (ts j) (o j).2) from rfl, ← List.map_map]
    exact count_map_injective _ asTrace_injective _ _

/-! ### The frequencies of the traces -/

/-- The draws that give these traces. -/
def inBox (G : PCTMC ℝ) {k : ℕ} (o : (Fin k → String) × String) (A : Fin k → Set ℝ) : Set (ℝ × (ℕ → Fin G.matrix.length → ℝ)) :=
  boxSet (fun p => G.runTimed k p.1 (fun k => pad (p.2 k))) (fun os ts last => asTrace (timedTrace os ts last)) o A

theorem occ_tracesIn {k : ℕ} (os : Fin k → String) (last : String) (A : Fin k → Set ℝ) (D : ℕ → ℝ × (ℕ → Fin G.matrix.length → ℝ))
    (tr : ℕ → List (Sym String)) (h : ∀ j, G.runTimed k (D j).1 (fun k => pad ((D j).2 k)) = .ok (asTrace (tr j))) (N : ℕ) :
    occ tr (CTMC.tracesIn os last A) N = occ D (G.inBox (os, last) A) N := by
  unfold occ
  congr 1
  ext j
  simp only [Finset.mem_filter]
  refine and_congr Iff.rfl ?_
  simp only [CTMC.tracesIn, inBox, boxSet, Set.mem_ofPred_eq, h]
  constructor
  · rintro ⟨ts, h1, h2⟩
    exact ⟨ts, h1, by rw [h2]⟩
  · rintro ⟨ts, h1, h2⟩
    injection h2 with h2
    exact ⟨ts, h1, asTrace_injective h2⟩

theorem prob_tracesIn (h : G.Live ρ) {k : ℕ} (os : Fin k → String) (last : String) (A : Fin k → Set ℝ) (hA : ∀ i, MeasurableSet (A i))
    (hA0 : ∀ i, A i ⊆ Set.Ici 0) :
    simLaw G.matrix.length (G.inBox (os, last) A) = ENNReal.ofReal (∫ ts in Set.pi Set.univ A, (G.chain ρ).density (timedTrace os ts last)) := by
  have hsub : Set.pi Set.univ A ⊆ CTMC.orthant k := Set.pi_mono (fun i _ => hA0 i)
  rw [ofReal_integral_eq_lintegral_ofReal (((G.chain ρ).integrable_density_sub h.valid h.sum.le (os, last)).mono_set hsub)
    (Eventually.of_forall (fun ts => (G.chain ρ).density_nn h.valid _ _ _))]
  exact runTimed_law_partial h.toSim h.leaves h.init_nonneg h.init_sum os last A hA hA0

/-- C96: the number of traces of the generated set that have the given observations, and their times in the given sets, has a binomial law, with the
integral of the density as probability. What is missing: models with a state that cannot be left. -/
theorem generateSet_timed_binomial_partial (h : G.Live ρ) (kind : String ⊕ WithTop ℝ → Kind) {k : ℕ} (hk : 1 ≤ k) (geom : ℕ → ℕ) (os : Fin k → String)
    (last : String) (A : Fin k → Set ℝ) (hA : ∀ i, MeasurableSet (A i)) (hA0 : ∀ i, A i ⊆ Set.Ici 0) (N j : ℕ) :
    callsLaw (simLaw G.matrix.length) {D | ∃ S : TSet (Sym String),
        generateSet kind (fun j k => G.runTimed k (D j).1 (fun k => pad ((D j).2 k))) N false none (.int k) geom = .ok S.asTraces ∧
        S.numberIn (CTMC.tracesIn os last A) = j}
      = ENNReal.ofReal (N.choose j * ((∫ ts in Set.pi Set.univ A, (G.chain ρ).density (timedTrace os ts last)) ^ j *
          (1 - ∫ ts in Set.pi Set.univ A, (G.chain ρ).density (timedTrace os ts last)) ^ (N - j))) := by
  have hm : MeasurableSet (G.inBox (os, last) A) := measurable_runTimed h.toSim h.leaves (os, last) A hA
  have e : {D | ∃ S : TSet (Sym String),
        generateSet kind (fun j k => G.runTimed k (D j).1 (fun k => pad ((D j).2 k))) N false none (.int k) geom = .ok S.asTraces ∧
        S.numberIn (CTMC.tracesIn os last A) = j}
      =ᵐ[callsLaw (simLaw G.matrix.length)] {D | occ D (G.inBox (os, last) A) N = j} := by
    filter_upwards [generatedTimed h kind k hk geom] with D hD
    obtain ⟨S, o, ts, ho, hS⟩ := hD
    obtain ⟨h1, h2, -, h4, h5⟩ := hS N
    have h6 := (S N).numberIn_traces _ N h2.1.1 h4 h5 (CTMC.tracesIn os last A)
    rw [occ_tracesIn os last A D _ (fun j => (ho j).2.2)] at h6
    refine propext ⟨?_, ?_⟩
    · rintro ⟨S', e1, e2⟩
      rw [h1] at e1
      injection e1 with e1
      rw [TSet.asTraces_injective e1] at h6
      exact h6.symm.trans e2
    · intro h7
      exact ⟨S N, h1, h6.trans h7⟩
  have hp := prob_tracesIn h os last A hA hA0
  have hp0 : 0 ≤ ∫ ts in Set.pi Set.univ A, (G.chain ρ).density (timedTrace os ts last) :=
    integral_nonneg (fun ts => (G.chain ρ).density_nn h.valid _ _ _)
  have hp1 : ∫ ts in Set.pi Set.univ A, (G.chain ρ).density (timedTrace os ts last) ≤ 1 := by
    have : simLaw G.matrix.length (G.inBox (os, last) A) ≤ 1 := prob_le_one
    rw [hp, ← ENNReal.ofReal_one, ENNReal.ofReal_le_ofReal_iff zero_le_one] at this
    exact this
  rw [measure_congr e, calls_binomial _ _ hm, prob_compl_eq_one_sub hm, hp, ← ENNReal.ofReal_one, ← ENNReal.ofReal_sub _ hp0,
    ENNReal.ofReal_mul (by positivity), ENNReal.ofReal_mul (by positivity), ENNReal.ofReal_pow hp0,
    ENNReal.ofReal_pow (by linarith), ENNReal.ofReal_natCast]

/-- C96: when the generated set grows, the proportion of these traces tends to the integral of the density. What is missing: models with a state that cannot
be left. -/
theorem generateSet_timed_frequencies_partial (h : G.Live ρ) (kind : String ⊕ WithTop ℝ → Kind) {k : ℕ} (hk : 1 ≤ k) (geom : ℕ → ℕ) (os : Fin k → String)
    (last : String) (A : Fin k → Set ℝ) (hA : ∀ i, MeasurableSet (A i)) (hA0 : ∀ i, A i ⊆ Set.Ici 0) :
    ∀ᵐ D ∂callsLaw (simLaw G.matrix.length), ∃ S : ℕ → TSet (Sym String),
      (∀ N, generateSet kind (fun j k => G.runTimed k (D j).1 (fun k => pad ((D j).2 k))) N false none (.int k) geom = .ok (S N).asTraces) ∧
      Tendsto (fun N : ℕ => ((S N).numberIn (CTMC.tracesIn os last A) : ℝ) / N) atTop
        (𝓝 (∫ ts in Set.pi Set.univ A, (G.chain ρ).density (timedTrace os ts last))) := by
  have hm : MeasurableSet (G.inBox (os, last) A) := measurable_runTimed h.toSim h.leaves (os, last) A hA
  filter_upwards [generatedTimed h kind k hk geom, calls_freq (simLaw G.matrix.length) _ hm] with D hD hF
  obtain ⟨S, o, ts, ho, hS⟩ := hD
  refine ⟨S, fun N => (hS N).1, ?_⟩
  rw [prob_tracesIn h os last A hA hA0, ENNReal.toReal_ofReal (integral_nonneg (fun ts => (G.chain ρ).density_nn h.valid _ _ _))] at hF
  refine hF.congr (fun N => ?_)
  obtain ⟨-, h2, -, h4, h5⟩ := hS N
  rw [(S N).numberIn_traces _ N h2.1.1 h4 h5 (CTMC.tracesIn os last A), occ_tracesIn os last A D _ (fun j => (ho j).2.2)]

/-! ### The log-likelihood -/

/-- Almost surely a generated trace is possible. -/
theorem run_possible (h : G.Live ρ) (k : ℕ) : ∀ᵐ p ∂simLaw G.matrix.length, ∃ o ∈ (G.chain ρ).shown k, ∃ ts : Fin k → ℝ, (∀ i, 0 ≤ ts i) ∧
    0 < (G.chain ρ).density (timedTrace o.1 ts o.2) ∧ G.runTimed k p.1 (fun k => pad (p.2 k)) = .ok (asTrace (timedTrace o.1 ts o.2)) := by
  have hz : ∀ᵐ p ∂simLaw G.matrix.length, ∀ o ∈ (G.chain ρ).shown k, (∀ ts, (G.chain ρ).density (timedTrace o.1 ts o.2) = 0) →
      p ∉ G.inBox o (fun _ => Set.Ici 0) := by
    rw [Finset.eventually_all]
    intro o _
    by_cases hd : ∀ ts, (G.chain ρ).density (timedTrace o.1 ts o.2) = 0
    · have := prob_tracesIn h o.1 o.2 (fun _ => Set.Ici 0) (fun _ => measurableSet_Ici) (fun _ => subset_rfl)
      simp only [hd, integral_zero, ENNReal.ofReal_zero] at this
      filter_upwards [measure_eq_zero_iff_ae_notMem.1 this] with p hp _
      exact hp
    · exact Eventually.of_forall (fun p hc => absurd hc hd)
  filter_upwards [(h.run k).total, hz] with p h1 h2
  obtain ⟨o, ho, ts, h0, hr⟩ := h1
  refine ⟨o, ho, ts, h0, ?_, hr⟩
  rcases (G.chain ρ).density_ge h.valid o.1 o.2 with hd | ⟨hd, -⟩
  · exact absurd ⟨ts, h0, hr⟩ (h2 o ho hd)
  · exact hd ts

/-- C96: the log-likelihood of the generated set, for any model that can produce all the traces of `G`, tends to the integral of the density of `G` times the
logarithm of the density of the model. What is missing: generators with a state that cannot be left. -/
theorem evaluation_limit_partial (h : G.Live ρ) (hN : N.Sim σ) (hN0 : ∀ x ∈ N.initialState, 0 ≤ x) (kind : String ⊕ WithTop ℝ → Kind) {k : ℕ} (hk : 1 ≤ k)
    (geom : ℕ → ℕ) (cpus : ℕ) (hc : 2 ≤ cpus)
    (hac : ∀ (os : Fin k → String) last ts, 0 < (G.chain ρ).density (timedTrace os ts last) → 0 < (N.chain σ).density (timedTrace os ts last)) :
    ∀ᵐ D ∂callsLaw (simLaw G.matrix.length), ∃ (S : ℕ → TSet (Sym String)) (ll : ℕ → ℝ),
      (∀ M, generateSet kind (fun j k => G.runTimed k (D j).1 (fun k => pad ((D j).2 k))) M false none (.int k) geom = .ok (S M).asTraces) ∧
      (∀ M ≥ 1, N.logLikelihood cpus (.timed (S M)) = .ok (ll M)) ∧ Tendsto ll atTop (𝓝 ((G.chain ρ).expectedLog (N.chain σ) k)) := by
  have R := h.run k
  have hv : (N.chain σ).Valid := ⟨fun s => run_law_partial.initial_nonneg hN.wf hN0 s, hN.nonneg⟩
  set f : List (String ⊕ WithTop ℝ) → ℝ := fun w => Real.log ((N.chain σ).density (Function.invFun asTrace w)) with hf
  have hfe : ∀ u, f (asTrace u) = Real.log ((N.chain σ).density u) := fun u => by
    simp only [hf]
    rw [Function.leftInverse_invFun asTrace_injective u]
  have hfm : ∀ o ∈ (G.chain ρ).shown k, Measurable (fun ts => f (asTrace (timedTrace o.1 ts o.2))) := by
    intro o _
    simp only [hfe]
    exact ((N.chain σ).measurable_density o.1 o.2).log
  obtain ⟨i1, i2⟩ := R.integral_value (fun o ts => (G.chain ρ).density (timedTrace o.1 ts o.2)) (fun o _ => (G.chain ρ).measurable_density o.1 o.2)
    (fun o _ ts => (G.chain ρ).density_nn h.valid _ _ _)
    (fun o _ A hA hA0 => runTimed_law_partial h.toSim h.leaves h.init_nonneg h.init_sum o.1 o.2 A hA hA0) f hfm
    (fun o _ => by simp only [hfe]; exact (G.chain ρ).integrable_density_log h.valid h.exit (N.chain σ) hv o.1 o.2)
  have i3 : ∫ p, TimedRun.value (fun p => G.runTimed k p.1 (fun k => pad (p.2 k))) (fun os ts last => asTrace (timedTrace os ts last))
      ((G.chain ρ).shown k) f p ∂simLaw G.matrix.length = (G.chain ρ).expectedLog (N.chain σ) k := by
    rw [← integral_congr_ae (R.value_ae f), i2]
    unfold CTMC.expectedLog
    rw [CTMC.orthant_eq]
    simp only [hfe]
    rfl
  filter_upwards [generatedTimed h kind k hk geom, calls_average (simLaw G.matrix.length) _ (R.measurable_value f hfm) i1,
    calls_ae (simLaw G.matrix.length) _ (run_possible h k)] with D hD hF hP
  obtain ⟨S, o, ts, ho, hS⟩ := hD
  have hpos : ∀ j, 0 < (N.chain σ).density (timedTrace (o j).1 (ts j) (o j).2) := by
    intro j
    obtain ⟨o', -, ts', -, hd, hr⟩ := hP j
    have := (ho j).2.2.symm.trans hr
    injection this with this
    rw [asTrace_injective this]
    exact hac _ _ _ hd
  refine ⟨S, fun M => avgLogLik (N.chain σ).density (S M), fun M => (hS M).1, fun M hM => ?_, ?_⟩
  · refine N.logLikelihood_spec_partial hN.wf hN.full σ hN.ext cpus hc (S M) ?_ ?_ ?_
    · intro w hw
      obtain ⟨j, -, rfl⟩ := ((hS M).2.2.2.1 w).1 hw
      rw [CTMC.timedTrace_eq]
      exact isTimed_timed _ _
    · rw [(hS M).2.2.1]; omega
    · intro w hw
      obtain ⟨j, -, rfl⟩ := ((hS M).2.2.2.1 w).1 hw
      exact hpos j
  · rw [← i3]
    refine hF.congr (fun M => ?_)
    rw [TSet.avgLogLik_eq (N.chain σ).density (S M) (hS M).2.1.1.1 (S M).sequences.toFinset (fun w hw => List.mem_toFinset.2 hw),
      (S M).sum_traces _ M (hS M).2.1.1.1 (hS M).2.2.2.1 (hS M).2.2.2.2]
    have h1 := (S M).sum_traces _ M (hS M).2.1.1.1 (hS M).2.2.2.1 (hS M).2.2.2.2 (fun _ => 1)
    simp only [mul_one, Finset.sum_const, Finset.card_range, nsmul_eq_mul] at h1
    rw [h1]
    congr 1
    refine Finset.sum_congr rfl (fun j _ => ?_)
    rw [R.value_eq _ (D j) (o j) (ho j).1 (ts j) (ho j).2.2, hfe, if_pos (hpos j)]

/-- The densities of all the timed traces of a given length add up to 1. -/
theorem total_density (h : G.Live ρ) (k : ℕ) : ∑ o ∈ (G.chain ρ).shown k, ∫ ts in CTMC.orthant k, (G.chain ρ).density (timedTrace o.1 ts o.2) = 1 := by
  have R := h.run k
  have := (R.integral_value (fun o ts => (G.chain ρ).density (timedTrace o.1 ts o.2)) (fun o _ => (G.chain ρ).measurable_density o.1 o.2)
    (fun o _ ts => (G.chain ρ).density_nn h.valid _ _ _)
    (fun o _ A hA hA0 => runTimed_law_partial h.toSim h.leaves h.init_nonneg h.init_sum o.1 o.2 A hA hA0) (fun w => 1)
    (fun o _ => measurable_const) (fun o _ => by simp only [mul_one]; exact (G.chain ρ).integrable_density h.valid h.exit o.1 o.2)).2
  simp only [mul_one] at this
  refine Eq.trans ?_ (this.symm.trans ?_)
  · rfl
  · rw [integral_congr_ae (g := fun _ => (1:ℝ))]
    · simp
    · filter_upwards [R.total] with p hp
      obtain ⟨o, -, ts, -, h⟩ := hp
      rw [h]
      rfl

/-- C96: on a large enough generated set, `G` has a strictly larger log-likelihood than a model that can produce all its traces, but gives another density to
at least one of them. What is missing: generators with a state that cannot be left. -/
theorem evaluation_ranks_partial (h : G.Live ρ) (hN : N.Sim σ) (hN0 : ∀ x ∈ N.initialState, 0 ≤ x) (hN1 : N.initialState.sum ≤ 1)
    (kind : String ⊕ WithTop ℝ → Kind) {k : ℕ} (hk : 1 ≤ k) (geom : ℕ → ℕ) (cpus : ℕ) (hc : 2 ≤ cpus)
    (hac : ∀ (os : Fin k → String) last ts, 0 < (G.chain ρ).density (timedTrace os ts last) → 0 < (N.chain σ).density (timedTrace os ts last))
    (hne : ∃ (os : Fin k → String) (last : String) (ts : Fin k → ℝ), (∀ i, 0 ≤ ts i) ∧ 0 < (G.chain ρ).density (timedTrace os ts last) ∧
      (N.chain σ).density (timedTrace os ts last) ≠ (G.chain ρ).density (timedTrace os ts last)) :
    ∀ᵐ D ∂callsLaw (simLaw G.matrix.length), ∃ (S : ℕ → TSet (Sym String)) (ll ll' : ℕ → ℝ),
      (∀ M, generateSet kind (fun j k => G.runTimed k (D j).1 (fun k => pad ((D j).2 k))) M false none (.int k) geom = .ok (S M).asTraces) ∧
      (∀ M ≥ 1, G.logLikelihood cpus (.timed (S M)) = .ok (ll M)) ∧ (∀ M ≥ 1, N.logLikelihood cpus (.timed (S M)) = .ok (ll' M)) ∧
      ∀ᶠ M in atTop, ll' M < ll M := by
  obtain ⟨os, last, t, ht, hp, hd⟩ := hne
  filter_upwards [evaluation_limit_partial h h.toSim h.init_nonneg kind hk geom cpus hc (fun _ _ _ => id),
    evaluation_limit_partial h hN hN0 kind hk geom cpus hc hac] with D h1 h2
  obtain ⟨S, ll, e1, e2, e3⟩ := h1
  obtain ⟨S', ll', f1, f2, f3⟩ := h2
  have : S' = S := funext (fun M => by
    have := (f1 M).symm.trans (e1 M)
    injection this with this
    exact TSet.asTraces_injective this)
  subst this
  refine ⟨S', ll, ll', e1, e2, f2, f3.eventually_lt e3 ?_⟩
  exact (G.chain ρ).expectedLog_lt h.valid h.exit (N.chain σ) ⟨fun s => run_law_partial.initial_nonneg hN.wf hN0 s, hN.nonneg⟩
    (by rw [run_law_partial.initial_sum hN.wf]; exact hN1) k (total_density h k) hac os last t ht hp hd ((G.chain ρ).density_shown os last t hp.ne')

/-- Where the comparison stops: if `G` can produce observations that the other model cannot, then from some size on the evaluation of the other model raises a
ValueError. -/
theorem evaluation_refused (h : G.Live ρ) (hN : N.Sim σ) (hN0 : ∀ x ∈ N.initialState, 0 ≤ x) (kind : String ⊕ WithTop ℝ → Kind) {k : ℕ} (hk : 1 ≤ k)
    (geom : ℕ → ℕ) (cpus : ℕ) (hne : ∃ (os : Fin k → String) (last : String) (ts : Fin k → ℝ), 0 < (G.chain ρ).density (timedTrace os ts last) ∧
      (N.chain σ).density (timedTrace os ts last) = 0) :
    ∀ᵐ D ∂callsLaw (simLaw G.matrix.length), ∃ S : ℕ → TSet (Sym String),
      (∀ M, generateSet kind (fun j k => G.runTimed k (D j).1 (fun k => pad ((D j).2 k))) M false none (.int k) geom = .ok (S M).asTraces) ∧
      ∀ᶠ M in atTop, N.logLikelihood cpus (.timed (S M)) = .error .valueError := by
  obtain ⟨os, last, t, hp, hd⟩ := hne
  have hv : (N.chain σ).Valid := ⟨fun s => run_law_partial.initial_nonneg hN.wf hN0 s, hN.nonneg⟩
  have gp : ∀ ts, 0 < (G.chain ρ).density (timedTrace os ts last) := by
    rcases (G.chain ρ).density_ge h.valid os last with hz | ⟨hz, -⟩
    · rw [hz] at hp; exact absurd hp (lt_irrefl _)
    · exact hz
  have nz : ∀ ts, (N.chain σ).density (timedTrace os ts last) = 0 := by
    rcases (N.chain σ).density_ge hv os last with hz | ⟨hz, -⟩
    · exact hz
    · exact absurd hd (hz t).ne'
  set A : Fin k → Set ℝ := fun _ => Set.Icc 0 1 with hA
  have hm : MeasurableSet (G.inBox (os, last) A) := measurable_runTimed h.toSim h.leaves (os, last) A (fun _ => measurableSet_Icc)
  have hpr := prob_tracesIn h os last A (fun _ => measurableSet_Icc) (fun _ => Set.Icc_subset_Ici_self)
  have hpos : 0 < (simLaw G.matrix.length (G.inBox (os, last) A)).toReal := by
    have hsub : Set.pi Set.univ A ⊆ CTMC.orthant k := Set.pi_mono (fun i _ => Set.Icc_subset_Ici_self)
    have hI : 0 < ∫ ts in Set.pi Set.univ A, (G.chain ρ).density (timedTrace os ts last) := by
      rw [setIntegral_pos_iff_support_of_nonneg_ae (Eventually.of_forall (fun ts => (gp ts).le))
        (((G.chain ρ).integrable_density_sub h.valid h.sum.le (os, last)).mono_set hsub)]
      have : Function.support (fun ts => (G.chain ρ).density (timedTrace os ts last)) = Set.univ := by
        ext ts; simp [(gp ts).ne']
      rw [this, Set.univ_inter, volume_pi_pi]
      simp [hA]
    rw [hpr, ENNReal.toReal_ofReal hI.le]
    exact hI
  filter_upwards [generatedTimed h kind k hk geom, calls_freq (simLaw G.matrix.length) _ hm] with D hD hQ
  obtain ⟨S, o, ts, ho, hS⟩ := hD
  refine ⟨S, fun M => (hS M).1, ?_⟩
  filter_upwards [hQ.eventually (eventually_gt_nhds hpos)] with M hM
  have hocc : 0 < occ D (G.inBox (os, last) A) M := by
    by_contra hz
    have : occ D (G.inBox (os, last) A) M = 0 := by omega
    rw [this] at hM
    simp at hM
  classical
  obtain ⟨j, hj⟩ := Finset.card_pos.1 hocc
  obtain ⟨hj1, t, ht, hr⟩ := Finset.mem_filter.1 hj
  refine N.logLikelihood_impossible hN.wf hN.full σ hN.ext cpus (S M) (hS M).2.1.1.1 ?_ ⟨_, ((hS M).2.2.2.1 _).2 ⟨j, Finset.mem_range.1 hj1, rfl⟩, ?_⟩
  · intro w hw
    obtain ⟨j, -, rfl⟩ := ((hS M).2.2.2.1 w).1 hw
    rw [CTMC.timedTrace_eq]
    exact isTimed_timed _ _
  · have := (ho j).2.2.symm.trans hr
    injection this with this
    rw [asTrace_injective this]
    exact (nz t).le

/-! ### The hypotheses can be met -/

theorem exLive (x y : ℝ) (hx : 0 < x) (hy : 0 < y) : (exModel ℝ [("x", x), ("y", y)]).Live (valOf [("x", x), ("y", y)]) := by
  refine ⟨⟨exModel_wf _, exModel_full _ _, ?_, ?_⟩, ?_, by simp [exModel], by simp [exModel]⟩
  · intro p x hx
    simp only [exModel] at hx
    unfold valOf
    rw [hx]
    rfl
  · intro s j
    show 0 ≤ Expr.den _ _
    fin_cases s <;> fin_cases j <;> simp [rateExpr, exModel, Expr.den, valOf, List.lookup] <;> positivity
  · intro s
    fin_cases s
    · refine ⟨⟨1, by simp [exModel]⟩, ?_⟩
      simp [chain, rateExpr, exModel, Expr.den, valOf, List.lookup, hx]
    · refine ⟨⟨0, by simp [exModel]⟩, ?_⟩
      simp [chain, rateExpr, exModel, Expr.den, valOf, List.lookup, hy]
    · refine ⟨⟨0, by simp [exModel]⟩, ?_⟩
      simp [chain, rateExpr, exModel, Expr.den, valOf, List.lookup]

theorem density_instant (M : CTMC ℝ String 3) (h0 : M.labelling 0 = "a") (h1 : M.labelling 1 = "b") (h2 : M.labelling 2 = "init")
    (i0 : M.initialState 0 = 0) (i1 : M.initialState 1 = 0) (i2 : M.initialState 2 = 1) (m20 : M.matrix 2 0 = 1) :
    M.density (timedTrace ![("init"), "a"] (fun _ => 0) "b") = M.matrix 0 1 := by
  rw [CTMC.density_suffix]
  simp [CTMC.sufDensity_cons, CTMC.sufDensity_zero, CTMC.rateStep, Fin.sum_univ_three, h0, h1, h2, i0, i1, i2, m20]

/-- On the sets generated with x = 1/2, the model is better with x = 1/2 than with x = 1, from some size on. -/
theorem half_beats_one (y : ℝ) (hy : 0 < y) :
    ∀ᵐ D ∂callsLaw (simLaw 3), ∃ (S : ℕ → TSet (Sym String)) (ll ll' : ℕ → ℝ),
      (∀ M, generateSet (fun _ => .str) (fun j k => (exModel ℝ [("x", 1/2), ("y", y)]).runTimed k (D j).1 (fun k => pad ((D j).2 k))) M false none (.int 2)
        (fun _ => 0) = .ok (S M).asTraces) ∧
      (∀ M ≥ 1, (exModel ℝ [("x", 1/2), ("y", y)]).logLikelihood 4 (.timed (S M)) = .ok (ll M)) ∧
      (∀ M ≥ 1, (exModel ℝ [("x", 1), ("y", y)]).logLikelihood 4 (.timed (S M)) = .ok (ll' M)) ∧ ∀ᶠ M in atTop, ll' M < ll M := by
  have l1 := exLive (1/2) y (by norm_num) hy
  have l2 := exLive 1 y one_pos hy
  have d1 := density_instant ((exModel ℝ [("x", 1/2), ("y", y)]).chain (valOf [("x", 1/2), ("y", y)])) rfl rfl rfl rfl rfl rfl rfl
  have d2 := density_instant ((exModel ℝ [("x", 1), ("y", y)]).chain (valOf [("x", 1), ("y", y)])) rfl rfl rfl rfl rfl rfl rfl
  have e1 : ((exModel ℝ [("x", 1/2), ("y", y)]).chain (valOf [("x", 1/2), ("y", y)])).matrix (0 : Fin 3) (1 : Fin 3) = 1 := by
    show (2 : ℝ) * valOf [("x", 1/2), ("y", y)] "x" = 1
    norm_num [valOf, List.lookup]
  have e2 : ((exModel ℝ [("x", 1), ("y", y)]).chain (valOf [("x", 1), ("y", y)])).matrix (0 : Fin 3) (1 : Fin 3) = 2 := by
    show (2 : ℝ) * valOf [("x", 1), ("y", y)] "x" = 2
    norm_num [valOf, List.lookup]
  refine evaluation_ranks_partial l1 l2.toSim l2.init_nonneg l2.init_sum.le (fun _ => .str) (k := 2) (by norm_num) (fun _ => 0) 4 (by norm_num) ?_
    ⟨![("init"), "a"], "b", fun _ => 0, fun _ => le_rfl, ?_, ?_⟩
  · intro os last ts
    refine CTMC.density_support (n := 3) _ _ l1.valid l2.valid rfl (fun s h => h) (fun s s' h => ?_) os last ts
    fin_cases s <;> fin_cases s' <;> simp [chain, rateExpr, exModel, Expr.den, valOf, List.lookup, hy] at h ⊢
  · exact lt_of_lt_of_eq one_pos (d1.trans e1).symm
  · intro hc
    have := (d2.trans e2).symm.trans (hc.trans (d1.trans e1))
    norm_num at this

end PCTMC
end Jajapy
