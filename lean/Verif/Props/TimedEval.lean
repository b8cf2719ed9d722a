import Verif.Lemmas.TimedEval
import Verif.Props.GenerateLaw
import Verif.Props.CTMC
import Verif.Props.ConsistencyCTMC

set_option linter.unusedSectionVars false

/-!
Property C95: sets of timed traces generated by CTMCs, and comparing CTMCs on them.
-/

namespace Jajapy

open MeasureTheory ProbabilityTheory Spec Filter Topology Tools

namespace CTMC
variable {L : Type} {n m : ℕ} [DecidableEq L]

/-- `generateSet(N, k, timed=True)` when every call of `run` returns. -/
theorem generatedTimed (G : CTMC ℝ L n) (hG : G.Valid) (hi : ∑ s, G.initialState s = 1) (kind : Sym L → Kind) (k : ℕ) (hk : 1 ≤ k) (geom : ℕ → ℕ) :
    ∀ᵐ D ∂callsLaw (simLaw n), ∃ (S : ℕ → TSet (Sym L)) (o : ℕ → (Fin k → L) × L) (ts : ℕ → Fin k → ℝ),
      (∀ j, o j ∈ G.shown k ∧ (∀ i, 0 ≤ ts j i) ∧ G.runTimed k (D j).1 (D j).2 = .ok (timedTrace (o j).1 (ts j) (o j).2)) ∧ ∀ N,
      generateSet kind (fun j k => G.runTimed k (D j).1 (D j).2) N false none (.int k) geom = .ok (S N) ∧ (S N).Countable ∧ (S N).times.sum = N ∧
      (∀ w, w ∈ (S N).sequences ↔ ∃ j < N, timedTrace (o j).1 (ts j) (o j).2 = w) ∧
      ∀ w, (S N).mult w = ((List.range N).map (fun j => timedTrace (o j).1 (ts j) (o j).2)).count w := by
  filter_upwards [calls_ae (simLaw n) _ (G.timedRun hG hi k).total] with D hD
  choose o ho ts h0 hr using hD
  have := fun N => generateSet_spec kind (fun j k => G.runTimed k (D j).1 (D j).2) N false none (.int k) geom (fun _ => k)
    (fun j => timedTrace (o j).1 (ts j) (o j).2) (fun _ _ => rfl) (fun j _ => hr j)
    (fun j _ => by rw [timedTrace_eq, timed_length, List.length_ofFn]; omega)
  choose S hS using this
  exact ⟨S, o, ts, fun j => ⟨ho j, h0 j, hr j⟩, hS⟩

/-! ### The frequencies of the traces -/

/-- The traces with the observations `os`, `last` and the times in `A`. -/
def tracesIn {k : ℕ} (os : Fin k → L) (last : L) (A : Fin k → Set ℝ) : Set (List (Sym L)) := {w | ∃ ts, (∀ i, ts i ∈ A i) ∧ w = timedTrace os ts last}

theorem occ_tracesIn (G : CTMC ℝ L n) {k : ℕ} (os : Fin k → L) (last : L) (A : Fin k → Set ℝ) (D : ℕ → ℝ × (ℕ → Fin n → ℝ)) (tr : ℕ → List (Sym L))
    (h : ∀ j, G.runTimed k (D j).1 (D j).2 = .ok (tr j)) (N : ℕ) :
    occ tr (tracesIn os last A) N = occ D (boxSet (fun p : ℝ × (ℕ → Fin n → ℝ) => G.runTimed k p.1 p.2) timedTrace (os, last) A) N := by
  unfold occ
  congr 1
  ext j
  simp only [Finset.mem_filter]
  refine and_congr Iff.rfl ?_
  simp only [tracesIn, boxSet, Set.mem_ofPred_eq, h]
  constructor
  · rintro ⟨ts, h1, h2⟩
    exact ⟨ts, h1, by rw [h2]⟩
  · rintro ⟨ts, h1, h2⟩
    injection h2 with h2
    exact ⟨ts, h1, h2⟩

theorem prob_tracesIn (G : CTMC ℝ L n) (hG : G.Valid) (hi : ∑ s, G.initialState s = 1) {k : ℕ} (os : Fin k → L) (last : L)
    (A : Fin k → Set ℝ) (hA : ∀ i, MeasurableSet (A i)) (hA0 : ∀ i, A i ⊆ Set.Ici 0) (h : (∀ i, A i ⊆ Set.Iio 1024) ∨ ∀ s s', 0 < G.matrix s s') :
    simLaw n (boxSet (fun p : ℝ × (ℕ → Fin n → ℝ) => G.runTimed k p.1 p.2) timedTrace (os, last) A)
      = ENNReal.ofReal (∫ ts in Set.pi Set.univ A, G.density (timedTrace os ts last)) := by
  have hsub : Set.pi Set.univ A ⊆ orthant k := Set.pi_mono (fun i _ => hA0 i)
  rw [ofReal_integral_eq_lintegral_ofReal ((G.integrable_density_sub hG hi.le (os, last)).mono_set hsub)
    (Eventually.of_forall (fun ts => G.density_nn hG _ _ _))]
  exact G.runTimed_law_partial hG hi os last A hA hA0 h

/-- C95: the number of traces of the generated set that have the given observations, and their times in given sets of times smaller than 1024 (in any
sets if all the rates are positive), has a binomial law, with the integral of the density as probability. -/
theorem generateSet_timed_binomial_partial (G : CTMC ℝ L n) (hG : G.Valid) (hi : ∑ s, G.initialState s = 1) (kind : Sym L → Kind) {k : ℕ} (hk : 1 ≤ k)
    (geom : ℕ → ℕ) (os : Fin k → L) (last : L) (A : Fin k → Set ℝ) (hA : ∀ i, MeasurableSet (A i)) (hA0 : ∀ i, A i ⊆ Set.Ici 0)
    (h : (∀ i, A i ⊆ Set.Iio 1024) ∨ ∀ s s', 0 < G.matrix s s') (N j : ℕ) :
    callsLaw (simLaw n) {D | ∃ S, generateSet kind (fun j k => G.runTimed k (D j).1 (D j).2) N false none (.int k) geom = .ok S ∧
        S.numberIn (tracesIn os last A) = j}
      = ENNReal.ofReal (N.choose j * ((∫ ts in Set.pi Set.univ A, G.density (timedTrace os ts last)) ^ j *
          (1 - ∫ ts in Set.pi Set.univ A, G.density (timedTrace os ts last)) ^ (N - j))) := by
  have hm := G.measurable_runTimed (os, last) A hA
  have e : {D | ∃ S, generateSet kind (fun j k => G.runTimed k (D j).1 (D j).2) N false none (.int k) geom = .ok S ∧ S.numberIn (tracesIn os last A) = j}
      =ᵐ[callsLaw (simLaw n)] {D | occ D (boxSet (fun p : ℝ × (ℕ → Fin n → ℝ) => G.runTimed k p.1 p.2) timedTrace (os, last) A) N = j} := by
    filter_upwards [G.generatedTimed hG hi kind k hk geom] with D hD
    obtain ⟨S, o, ts, ho, hS⟩ := hD
    obtain ⟨h1, h2, -, h4, h5⟩ := hS N
    have h6 := (S N).numberIn_traces _ N h2.1.1 h4 h5 (tracesIn os last A)
    rw [G.occ_tracesIn os last A D _ (fun j => (ho j).2.2)] at h6
    refine propext ⟨?_, ?_⟩
    · rintro ⟨S', e1, e2⟩
      rw [h1] at e1
      injection e1 with e1
      subst e1
      exact h6.symm.trans e2
    · intro h7
      exact ⟨S N, h1, h6.trans h7⟩
  have hp := G.prob_tracesIn hG hi os last A hA hA0 h
  have hp0 : 0 ≤ ∫ ts in Set.pi Set.univ A, G.density (timedTrace os ts last) := integral_nonneg (fun ts => G.density_nn hG _ _ _)
  have hp1 : ∫ ts in Set.pi Set.univ A, G.density (timedTrace os ts last) ≤ 1 := by
    have : simLaw n (boxSet (fun p : ℝ × (ℕ → Fin n → ℝ) => G.runTimed k p.1 p.2) timedTrace (os, last) A) ≤ 1 := prob_le_one
    rw [hp, ← ENNReal.ofReal_one, ENNReal.ofReal_le_ofReal_iff zero_le_one] at this
    exact this
  rw [measure_congr e, calls_binomial _ _ hm, prob_compl_eq_one_sub hm, hp, ← ENNReal.ofReal_one, ← ENNReal.ofReal_sub _ hp0,
    ENNReal.ofReal_mul (by positivity), ENNReal.ofReal_mul (by positivity), ENNReal.ofReal_pow hp0,
    ENNReal.ofReal_pow (by linarith), ENNReal.ofReal_natCast]

/-- C95: when the generated set grows, the proportion of these traces tends to the integral of the density. -/
theorem generateSet_timed_frequencies_partial (G : CTMC ℝ L n) (hG : G.Valid) (hi : ∑ s, G.initialState s = 1) (kind : Sym L → Kind) {k : ℕ} (hk : 1 ≤ k)
    (geom : ℕ → ℕ) (os : Fin k → L) (last : L) (A : Fin k → Set ℝ) (hA : ∀ i, MeasurableSet (A i)) (hA0 : ∀ i, A i ⊆ Set.Ici 0)
    (h : (∀ i, A i ⊆ Set.Iio 1024) ∨ ∀ s s', 0 < G.matrix s s') :
    ∀ᵐ D ∂callsLaw (simLaw n), ∃ S : ℕ → TSet (Sym L),
      (∀ N, generateSet kind (fun j k => G.runTimed k (D j).1 (D j).2) N false none (.int k) geom = .ok (S N)) ∧
      Tendsto (fun N : ℕ => ((S N).numberIn (tracesIn os last A) : ℝ) / N) atTop
        (𝓝 (∫ ts in Set.pi Set.univ A, G.density (timedTrace os ts last))) := by
  have hm := G.measurable_runTimed (os, last) A hA
  filter_upwards [G.generatedTimed hG hi kind k hk geom, calls_freq (simLaw n) _ hm] with D hD hF
  obtain ⟨S, o, ts, ho, hS⟩ := hD
  refine ⟨S, fun N => (hS N).1, ?_⟩
  rw [G.prob_tracesIn hG hi os last A hA hA0 h, ENNReal.toReal_ofReal (integral_nonneg (fun ts => G.density_nn hG _ _ _))] at hF
  refine hF.congr (fun N => ?_)
  rw [(S N).numberIn_traces _ N (hS N).2.1.1.1 (hS N).2.2.2.1 (hS N).2.2.2.2, G.occ_tracesIn os last A D _ (fun j => (ho j).2.2)]

/-! ### Evaluating a model -/

theorem sufDensity_shown (M : CTMC ℝ L n) {k : ℕ} (os : Fin k → L) (last : L) (s : Fin n) (ts : Fin k → ℝ) (h : M.sufDensity os last s ts ≠ 0) :
    (os, last) ∈ M.shown k := by
  rw [mem_shown]
  induction k generalizing s with
  | zero =>
    rw [sufDensity_zero] at h
    refine ⟨fun i => i.elim0, s, ?_⟩
    by_contra hc
    exact h (if_neg (fun h => hc h.symm))
  | succ k ih =>
    rw [sufDensity_cons] at h
    obtain ⟨i, -, hi⟩ := Finset.exists_ne_zero_of_sum_ne_zero h
    obtain ⟨h1, h2⟩ := ih (fun i => os i.succ) i _ (right_ne_zero_of_mul hi)
    have h3 : M.labelling s = os 0 := by
      by_contra hc
      refine left_ne_zero_of_mul hi ?_
      unfold rateStep
      exact if_neg hc
    exact ⟨fun j => Fin.cases ⟨s, h3⟩ h1 j, h2⟩

theorem density_shown (M : CTMC ℝ L n) {k : ℕ} (os : Fin k → L) (last : L) (ts : Fin k → ℝ) (h : M.density (timedTrace os ts last) ≠ 0) :
    (os, last) ∈ M.shown k := by
  rw [density_suffix] at h
  obtain ⟨s, -, hs⟩ := Finset.exists_ne_zero_of_sum_ne_zero h
  exact M.sufDensity_shown os last s ts (right_ne_zero_of_mul hs)

/-- A trace that both models can produce. -/
theorem common_trace (G : CTMC ℝ L n) (hG : G.Valid) (hi : ∑ s, G.initialState s = 1) (N : CTMC ℝ L m) (hN : N.Valid) {k : ℕ} (hk : 1 ≤ k) (os : Fin k → L)
    (last : L) (gp : ∀ ts, 0 < G.density (timedTrace os ts last)) (np : ∀ ts, 0 < N.density (timedTrace os ts last)) :
    ∃ A : Fin k → Set ℝ, (∀ i, MeasurableSet (A i)) ∧ (∀ ts, (∀ i, ts i ∈ A i) → N.density (timedTrace os ts last) ≠ 1) ∧
      0 < simLaw n (boxSet (fun p : ℝ × (ℕ → Fin n → ℝ) => G.runTimed k p.1 p.2) timedTrace (os, last) A) := by
  have hnull : volume {ts | N.density (timedTrace os ts last) = 1} = 0 := by
    obtain ⟨k, rfl⟩ : ∃ k', k = k' + 1 := ⟨k - 1, by omega⟩
    exact N.density_one_null hN os last
  set V : Set (Fin k → ℝ) := Set.pi Set.univ (fun _ => Set.Ioo 0 1024) with hV
  have oV : IsOpen V := isOpen_set_pi Set.finite_univ (fun _ _ => isOpen_Ioo)
  have neV : V.Nonempty := ⟨fun _ => 1, fun i _ => by simp⟩
  obtain ⟨t1, ht1, hd1⟩ : ∃ t ∈ V, N.density (timedTrace os t last) ≠ 1 := by
    by_contra hc
    push Not at hc
    exact (oV.measure_pos volume neV).ne' (measure_mono_null hc hnull)
  have oU : IsOpen (V ∩ {ts | N.density (timedTrace os ts last) ≠ 1}) := oV.inter (isOpen_ne_fun (N.continuous_density os last) continuous_const)
  obtain ⟨δ, hδ, hball⟩ := Metric.isOpen_iff.1 oU t1 ⟨ht1, hd1⟩
  have hb : Set.pi Set.univ (fun i => Metric.ball (t1 i) δ) = Metric.ball t1 δ := (ball_pi t1 hδ).symm
  refine ⟨fun i => Metric.ball (t1 i) δ, fun i => Metric.isOpen_ball.measurableSet, fun ts hts => ?_, ?_⟩
  · exact (hball (hb ▸ (fun i _ => hts i : ts ∈ Set.pi Set.univ (fun i => Metric.ball (t1 i) δ)))).2
  · have hsub : ∀ i, Metric.ball (t1 i) δ ⊆ Set.Ioo 0 1024 := by
      intro i t ht
      classical
      have hin : Function.update t1 i t ∈ Set.pi Set.univ (fun i => Metric.ball (t1 i) δ) := by
        intro j _
        by_cases hj : j = i
        · subst hj
          rw [Function.update_self]
          exact ht
        · rw [Function.update_of_ne hj]
          exact Metric.mem_ball_self hδ
      rw [hb] at hin
      have := (hball hin).1 i (Set.mem_univ i)
      rwa [Function.update_self] at this
    have := G.runTimed_law_partial hG hi os last (fun i => Metric.ball (t1 i) δ) (fun i => Metric.isOpen_ball.measurableSet)
      (fun i t ht => (hsub i ht).1.le) (Or.inl (fun i t ht => (hsub i ht).2))
    refine lt_of_lt_of_eq ?_ this.symm
    rw [hb, setLIntegral_pos_iff (G.measurable_density os last).ennreal_ofReal]
    have hs : Function.support (fun ts => ENNReal.ofReal (G.density (timedTrace os ts last))) = Set.univ := by
      ext ts
      simp [gp ts]
    rw [hs, Set.univ_inter]
    exact Metric.isOpen_ball.measure_pos volume ⟨t1, Metric.mem_ball_self hδ⟩

/-- C95: `G` generates sets of timed traces; `N` is any model, of any size, that can produce one of the sequences of observations that `G` can produce. When the
set grows, the log-likelihood of `N` on it tends to the expected value, over the simulations of `G`, of the logarithm of the density of `N` (0 for the
traces that `N` cannot produce). -/
theorem evaluation_limit (G : CTMC ℝ L n) (hG : G.Valid) (hi : ∑ s, G.initialState s = 1) (he : ∀ s, 0 < G.e s) (kind : Sym L → Kind) {k : ℕ} (hk : 1 ≤ k)
    (geom : ℕ → ℕ) (cpus : ℕ) (hc : 2 ≤ cpus) (N : CTMC ℝ L m) (hN : N.Valid)
    (hcom : ∃ (os : Fin k → L) (last : L) (ts ts' : Fin k → ℝ), 0 < G.density (timedTrace os ts last) ∧ 0 < N.density (timedTrace os ts' last)) :
    Integrable (fun p => N.logOf (G.runTimed k p.1 p.2)) (simLaw n) ∧
    ∀ᵐ D ∂callsLaw (simLaw n), ∃ (S : ℕ → TSet (Sym L)) (ll : ℕ → ℝ),
      (∀ M, generateSet kind (fun j k => G.runTimed k (D j).1 (D j).2) M false none (.int k) geom = .ok (S M)) ∧
      (∀ M, N.logLikelihoodTimed cpus (S M) = .ok (ll M)) ∧ Tendsto ll atTop (𝓝 (∫ p, N.logOf (G.runTimed k p.1 p.2) ∂simLaw n)) := by
  have R := G.timedRun hG hi k
  have hv := G.integrable_value hG hi he N hN k
  have hva := R.value_ae (fun w => Real.log (N.density w))
  simp only [onTrace_logOf] at hva
  refine ⟨hv.congr (by filter_upwards [hva] with p hp using hp.symm), ?_⟩
  have hvm : Measurable (TimedRun.value (fun p : ℝ × (ℕ → Fin n → ℝ) => G.runTimed k p.1 p.2) timedTrace (G.shown k) (fun w => Real.log (N.density w))) :=
    R.measurable_value _ (fun o _ => (N.measurable_density o.1 o.2).log)
  obtain ⟨os, last, t1, t2, g1, n1⟩ := hcom
  have gp : ∀ ts, 0 < G.density (timedTrace os ts last) := by
    rcases G.density_ge hG os last with hz | ⟨hz, -⟩
    · rw [hz] at g1; exact absurd g1 (lt_irrefl _)
    · exact hz
  have np : ∀ ts, 0 < N.density (timedTrace os ts last) := by
    rcases N.density_ge hN os last with hz | ⟨hz, -⟩
    · rw [hz] at n1; exact absurd n1 (lt_irrefl _)
    · exact hz
  obtain ⟨A, hA, hA1, hA2⟩ := G.common_trace hG hi N hN hk os last gp np
  filter_upwards [G.generatedTimed hG hi kind k hk geom, calls_average (simLaw n) _ hvm hv, calls_freq (simLaw n) _ (G.measurable_runTimed (os, last) A hA)]
    with D hD hF hQ
  obtain ⟨S, o, ts, ho, hS⟩ := hD
  have hTS : ∀ M, ∀ w ∈ (S M).sequences, IsTimed w := by
    intro M w hw
    obtain ⟨j, -, rfl⟩ := ((hS M).2.2.2.1 w).1 hw
    rw [timedTrace_eq]
    exact isTimed_timed _ _
  have hsp := fun M => N.logLikelihoodTimed_spec hN cpus hc (S M) (hTS M) (hS M).2.1.1.1 (hS M).2.1.2.1
  classical
  refine ⟨S, fun M => if ∃ w ∈ (S M).sequences, N.density w ≠ 0 ∧ N.density w ≠ 1 then avgLogLik N.density (S M) else -9999, fun M => (hS M).1,
    fun M => ?_, ?_⟩
  · simp only
    by_cases hw : ∃ w ∈ (S M).sequences, N.density w ≠ 0 ∧ N.density w ≠ 1
    · rw [if_pos hw]
      exact (hsp M).1 hw
    · rw [if_neg hw]
      push Not at hw
      exact (hsp M).2 (fun w h => or_iff_not_imp_left.2 (hw w h))
  · rw [integral_congr_ae hva]
    have hQ0 : 0 < (simLaw n (boxSet (fun p : ℝ × (ℕ → Fin n → ℝ) => G.runTimed k p.1 p.2) timedTrace (os, last) A)).toReal :=
      ENNReal.toReal_pos hA2.ne' (measure_ne_top _ _)
    refine hF.congr' ?_
    filter_upwards [hQ.eventually (eventually_gt_nhds hQ0)] with M hM
    have hocc : 0 < occ D (boxSet (fun p : ℝ × (ℕ → Fin n → ℝ) => G.runTimed k p.1 p.2) timedTrace (os, last) A) M := by
      by_contra hz
      have : occ D (boxSet (fun p : ℝ × (ℕ → Fin n → ℝ) => G.runTimed k p.1 p.2) timedTrace (os, last) A) M = 0 := by omega
      rw [this] at hM
      simp at hM
    obtain ⟨j, hj⟩ := Finset.card_pos.1 hocc
    obtain ⟨hj1, t, ht, hr⟩ := Finset.mem_filter.1 hj
    rw [if_pos]
    · rw [TSet.avgLogLik_eq N.density (S M) (hS M).2.1.1.1 (S M).sequences.toFinset (fun w hw => List.mem_toFinset.2 hw),
        (S M).sum_traces _ M (hS M).2.1.1.1 (hS M).2.2.2.1 (hS M).2.2.2.2]
      have h1 := (S M).sum_traces _ M (hS M).2.1.1.1 (hS M).2.2.2.1 (hS M).2.2.2.2 (fun _ => 1)
      simp only [mul_one, Finset.sum_const, Finset.card_range, nsmul_eq_mul] at h1
      rw [h1]
      congr 1
      refine Finset.sum_congr rfl (fun j _ => ?_)
      rw [R.value_eq _ (D j) (o j) (ho j).1 (ts j) (ho j).2.2]
      split_ifs with h
      · rfl
      · rw [le_antisymm (not_lt.1 h) (N.density_nn hN _ _ _), Real.log_zero]
    · refine ⟨_, ((hS M).2.2.2.1 _).2 ⟨j, Finset.mem_range.1 hj1, rfl⟩, ?_⟩
      have := (ho j).2.2.symm.trans hr
      injection this with this
      rw [this]
      exact ⟨(np t).ne', hA1 t ht⟩

/-- C95: if all the rates of `G` are positive, the limit is the integral of the density of `G` times the logarithm of the density of `N`. -/
theorem evaluation_value_partial (G : CTMC ℝ L n) (hG : G.Valid) (hi : ∑ s, G.initialState s = 1) (hpos : ∀ s s', 0 < G.matrix s s')
    (N : CTMC ℝ L m) (hN : N.Valid) (k : ℕ) : ∫ p, N.logOf (G.runTimed k p.1 p.2) ∂simLaw n = G.expectedLog N k :=
  G.integral_logOf hG hi hpos (fun s => Finset.sum_pos (fun i _ => hpos s i) ⟨s, Finset.mem_univ s⟩) N hN k

/-- C95: all the rates of `G` are positive. On a large enough generated set, `G` has a strictly larger log-likelihood than a model that can produce all its
traces, but gives another density to at least one of them. -/
theorem evaluation_ranks_partial (G : CTMC ℝ L n) (hG : G.Valid) (hi : ∑ s, G.initialState s = 1) (hpos : ∀ s s', 0 < G.matrix s s') (kind : Sym L → Kind)
    {k : ℕ} (hk : 1 ≤ k) (geom : ℕ → ℕ) (cpus : ℕ) (hc : 2 ≤ cpus) (N : CTMC ℝ L m) (hN : N.Valid) (hNi : ∑ s, N.initialState s ≤ 1)
    (hac : ∀ (os : Fin k → L) last ts, 0 < G.density (timedTrace os ts last) → 0 < N.density (timedTrace os ts last))
    (hne : ∃ (os : Fin k → L) (last : L) (ts : Fin k → ℝ), (∀ i, 0 ≤ ts i) ∧ 0 < G.density (timedTrace os ts last) ∧
      N.density (timedTrace os ts last) ≠ G.density (timedTrace os ts last)) :
    ∀ᵐ D ∂callsLaw (simLaw n), ∃ (S : ℕ → TSet (Sym L)) (ll ll' : ℕ → ℝ),
      (∀ M, generateSet kind (fun j k => G.runTimed k (D j).1 (D j).2) M false none (.int k) geom = .ok (S M)) ∧
      (∀ M, G.logLikelihoodTimed cpus (S M) = .ok (ll M)) ∧ (∀ M, N.logLikelihoodTimed cpus (S M) = .ok (ll' M)) ∧
      ∀ᶠ M in atTop, ll' M < ll M := by
  have he : ∀ s, 0 < G.e s := fun s => Finset.sum_pos (fun i _ => hpos s i) ⟨s, Finset.mem_univ s⟩
  obtain ⟨os, last, t, ht, hp, hd⟩ := hne
  filter_upwards [(G.evaluation_limit hG hi he kind hk geom cpus hc G hG ⟨os, last, t, t, hp, hp⟩).2,
    (G.evaluation_limit hG hi he kind hk geom cpus hc N hN ⟨os, last, t, t, hp, hac _ _ _ hp⟩).2] with D h1 h2
  obtain ⟨S, ll, e1, e2, e3⟩ := h1
  obtain ⟨S', ll', f1, f2, f3⟩ := h2
  have : S' = S := funext (fun M => by have := (f1 M).symm.trans (e1 M); injection this)
  subst this
  refine ⟨S', ll, ll', e1, e2, f2, f3.eventually_lt e3 ?_⟩
  rw [G.evaluation_value_partial hG hi hpos N hN k, G.evaluation_value_partial hG hi hpos G hG k]
  exact G.expectedLog_lt hG he N hN hNi k (G.sum_density_eq_one hG hi hpos he k) hac os last t ht hp hd (G.density_shown os last t hp.ne')

/-- C95 fails for a model that cannot produce any of the traces: -9999 is reported, for every set. -/
theorem evaluation_floor (G : CTMC ℝ L n) (hG : G.Valid) (hi : ∑ s, G.initialState s = 1) (kind : Sym L → Kind) {k : ℕ} (hk : 1 ≤ k)
    (geom : ℕ → ℕ) (cpus : ℕ) (hc : 2 ≤ cpus) (N : CTMC ℝ L m) (hN : N.Valid)
    (h : ∀ o ∈ G.shown k, ∀ ts, N.density (timedTrace o.1 ts o.2) = 0) :
    ∀ᵐ D ∂callsLaw (simLaw n), ∃ S : ℕ → TSet (Sym L),
      (∀ M, generateSet kind (fun j k => G.runTimed k (D j).1 (D j).2) M false none (.int k) geom = .ok (S M)) ∧
      ∀ M, N.logLikelihoodTimed cpus (S M) = .ok (-9999) := by
  filter_upwards [G.generatedTimed hG hi kind k hk geom] with D hD
  obtain ⟨S, o, ts, ho, hS⟩ := hD
  refine ⟨S, fun M => (hS M).1, fun M => ?_⟩
  refine (N.logLikelihoodTimed_spec hN cpus hc (S M) ?_ (hS M).2.1.1.1 (hS M).2.1.2.1).2 ?_
  · intro w hw
    obtain ⟨j, -, rfl⟩ := ((hS M).2.2.2.1 w).1 hw
    rw [timedTrace_eq]
    exact isTimed_timed _ _
  · intro w hw
    obtain ⟨j, -, rfl⟩ := ((hS M).2.2.2.1 w).1 hw
    exact Or.inl (h _ (ho j).1 _)

/-! ### The hypotheses can be met -/

/-- The model `unitRates`, twice as fast. -/
noncomputable def fastRates : CTMC ℝ ℕ 2 where
  matrix := fun _ _ => 2
  labelling := ![0, 1]
  initialState := fun _ => 1/2

theorem unit_fast (ts : Fin 1 → ℝ) : unitRates.density (timedTrace (fun _ => 0) ts 0) = 1/2 * Real.exp (-2 * ts 0) ∧
    fastRates.density (timedTrace (fun _ => 0) ts 0) = Real.exp (-4 * ts 0) := by
  constructor
  · rw [density_suffix]
    simp [sufDensity_cons, sufDensity_zero, rateStep, unitRates, Fin.sum_univ_two]
  · rw [density_suffix]
    simp [sufDensity_cons, sufDensity_zero, rateStep, fastRates, Fin.sum_univ_two]
    norm_num

theorem fast_pos (ts : Fin 1 → ℝ) (os : Fin 1 → ℕ) (last : ℕ) (h : 0 < unitRates.density (timedTrace os ts last)) :
    0 < fastRates.density (timedTrace os ts last) := by
  have hm := unitRates.density_shown os last ts h.ne'
  rw [mem_shown] at hm
  obtain ⟨h1, s', h2⟩ := hm
  obtain ⟨s, h1⟩ := h1 0
  rw [density_suffix]
  have v : fastRates.Valid := ⟨fun _ => by simp [fastRates], fun _ _ => by simp [fastRates]⟩
  have hl : ∀ s, fastRates.labelling s = unitRates.labelling s := fun _ => rfl
  refine Finset.sum_pos' (fun s _ => mul_nonneg (v.1 s) (fastRates.sufDensity_nonneg v.2 _ _ _ _)) ⟨s, Finset.mem_univ _, ?_⟩
  refine mul_pos (by simp [fastRates]) ?_
  rw [sufDensity_cons]
  refine Finset.sum_pos' (fun i _ => mul_nonneg (fastRates.rateStep_nonneg v.2 _ _ _) (fastRates.sufDensity_nonneg v.2 _ _ _ _)) ⟨s', Finset.mem_univ _, ?_⟩
  rw [sufDensity_zero, hl, if_pos h2.symm, mul_one]
  unfold rateStep
  rw [if_pos ((hl s).trans h1)]
  exact mul_pos (by simp [fastRates]) (Real.exp_pos _)

/-- On the sets generated by `unitRates`, the model `fastRates` is worse from some size on. -/
theorem unit_beats_fast : ∀ᵐ D ∂callsLaw (simLaw 2), ∃ (S : ℕ → TSet (Sym ℕ)) (ll ll' : ℕ → ℝ),
      (∀ M, generateSet (fun _ => .str) (fun j k => unitRates.runTimed k (D j).1 (D j).2) M false none (.int 1) (fun _ => 0) = .ok (S M)) ∧
      (∀ M, unitRates.logLikelihoodTimed 4 (S M) = .ok (ll M)) ∧ (∀ M, fastRates.logLikelihoodTimed 4 (S M) = .ok (ll' M)) ∧
      ∀ᶠ M in atTop, ll' M < ll M := by
  refine unitRates.evaluation_ranks_partial ⟨fun _ => by simp [unitRates], fun _ _ => by simp [unitRates]⟩ (by simp [unitRates]) (fun _ _ => by simp [unitRates])
    (fun _ => .str) (k := 1) le_rfl (fun _ => 0) 4 (by norm_num) fastRates ⟨fun _ => by simp [fastRates], fun _ _ => by simp [fastRates]⟩ (by simp [fastRates])
    (fun os last ts h => fast_pos ts os last h) ⟨fun _ => 0, 0, fun _ => 0, fun _ => le_rfl, ?_, ?_⟩
  · rw [(unit_fast _).1]
    positivity
  · rw [(unit_fast _).1, (unit_fast _).2]
    norm_num

/-- A model with zero rates meets the hypotheses of `evaluation_limit`. -/
example : ∃ limit : ℝ, ∀ᵐ D ∂callsLaw (simLaw 2), ∃ (S : ℕ → TSet (Sym ℕ)) (ll : ℕ → ℝ),
      (∀ M, generateSet (fun _ => .str) (fun j k => twoRates.runTimed k (D j).1 (D j).2) M false none (.int 1) (fun _ => 0) = .ok (S M)) ∧
      (∀ M, twoRates.logLikelihoodTimed 4 (S M) = .ok (ll M)) ∧ Tendsto ll atTop (𝓝 limit) := by
  have v : twoRates.Valid := ⟨fun i => by fin_cases i <;> simp [twoRates], fun i j => by fin_cases i <;> fin_cases j <;> simp [twoRates]⟩
  have d : 0 < twoRates.density (timedTrace (fun _ : Fin 1 => 0) (fun _ => 0) 1) := by
    rw [density_suffix]
    simp [sufDensity_cons, sufDensity_zero, rateStep, twoRates, Fin.sum_univ_two]
  exact ⟨_, (twoRates.evaluation_limit v (by simp [twoRates]) (fun s => by fin_cases s <;> simp [twoRates, e])
    (fun _ => .str) (k := 1) le_rfl (fun _ => 0) 4 (by norm_num) twoRates v ⟨fun _ => 0, 1, _, _, d, d⟩).2⟩

/-- The frequency of the traces 0, t, 0 with t < 1 in the sets generated by `unitRates`. -/
example : ∀ᵐ D ∂callsLaw (simLaw 2), ∃ S : ℕ → TSet (Sym ℕ),
      (∀ N, generateSet (fun _ => .str) (fun j k => unitRates.runTimed k (D j).1 (D j).2) N false none (.int 1) (fun _ => 0) = .ok (S N)) ∧
      Tendsto (fun N : ℕ => ((S N).numberIn (tracesIn (fun _ : Fin 1 => 0) 0 (fun _ => Set.Ico 0 1)) : ℝ) / N) atTop
        (𝓝 (∫ ts in Set.pi Set.univ (fun _ : Fin 1 => Set.Ico (0:ℝ) 1), unitRates.density (timedTrace (fun _ => 0) ts 0))) :=
  unitRates.generateSet_timed_frequencies_partial ⟨fun _ => by simp [unitRates], fun _ _ => by simp [unitRates]⟩ (by simp [unitRates])
    (fun _ => .str) le_rfl (fun _ => 0) _ 0 _ (fun _ => measurableSet_Ico) (fun _ => Set.Ico_subset_Icc_self.trans Set.Icc_subset_Ici_self)
    (Or.inr (fun _ _ => by simp [unitRates]))

/-- The hypothesis of `evaluation_floor` holds for models without a common label. -/
example : ∀ o ∈ unitRates.shown 1, ∀ ts, ({fastRates with labelling := ![5, 6]} : CTMC ℝ ℕ 2).density (timedTrace o.1 ts o.2) = 0 := by
  intro o ho ts
  by_contra h
  have h1 := CTMC.density_shown _ _ _ _ h
  rw [mem_shown] at h1 ho
  obtain ⟨s, hs⟩ := h1.2
  obtain ⟨s', hs'⟩ := ho.2
  have := hs.trans hs'.symm
  fin_cases s <;> fin_cases s' <;> simp [unitRates] at this

end CTMC
end Jajapy
