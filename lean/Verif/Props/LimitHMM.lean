import Verif.Lemmas.LimitHMM
import Verif.Lemmas.LimitCT
import Verif.Lemmas.Climb
import Verif.Props.BWLearnHMM
import Verif.Props.Loop
import Verif.Spec.Stationary
import Mathlib.Topology.Sequences
import Mathlib.Topology.MetricSpace.ProperSpace.Real

/-!
Property C99 for hidden Markov models: what Baum-Welch converges to.
-/

set_option linter.unusedSectionVars false

namespace Jajapy

open Finset Spec BW Filter Topology

/-! ### One distribution -/

theorem nudge_ev {ι : Type} [Finite ι] (p d : ι → ℝ) (hp : ∀ i, 0 ≤ p i) (hz : ∀ i, p i = 0 → d i = 0) :
    ∀ᶠ e in 𝓝 (0:ℝ), ∀ i, 0 ≤ p i + e * d i ∧ (0 < p i → 0 < p i + e * d i) := by
  refine eventually_all.mpr (fun i => ?_)
  rcases (hp i).eq_or_lt with h0 | h0
  · refine Eventually.of_forall (fun e => ?_)
    rw [hz i h0.symm, mul_zero, add_zero]
    exact ⟨hp i, fun h => h⟩
  · have hc : Tendsto (fun e : ℝ => p i + e * d i) (𝓝 0) (𝓝 (p i + 0 * d i)) :=
      (tendsto_const_nhds).add (tendsto_id.mul_const _)
    have := hc.eventually_const_lt (u := 0) (by simpa using h0)
    filter_upwards [this] with e he
    exact ⟨he.le, fun _ => he⟩

theorem row_deriv {ι : Type} [Fintype ι] (a p d : ι → ℝ) :
    HasDerivAt (fun e => ∑ i, a i * Real.log ((p i + e * d i) / p i)) (∑ i, a i * (d i / p i)) 0 := by
  refine HasDerivAt.fun_sum (fun i _ => HasDerivAt.const_mul _ ?_)
  by_cases hm : p i = 0
  · simp only [hm, div_zero, Real.log_zero]
    exact hasDerivAt_const _ _
  · have h1 : HasDerivAt (fun e => (p i + e * d i) / p i) (d i / p i) 0 := by
      refine HasDerivAt.div_const ?_ _
      have := ((hasDerivAt_id (0:ℝ)).mul_const (d i)).const_add (p i)
      simpa using this
    have e1 : (p i + 0 * d i) / p i = 1 := by rw [zero_mul, add_zero, div_self hm]
    have h2 := h1.log (by rw [e1]; exact one_ne_zero)
    rw [e1, div_one] at h2
    exact h2

theorem row_zero {ι : Type} [Fintype ι] (a p d : ι → ℝ) : ∑ i, a i * Real.log ((p i + 0 * d i) / p i) = 0 := by
  refine Finset.sum_eq_zero (fun i _ => ?_)
  by_cases h : p i = 0
  · simp [h]
  · simp [div_self h]

theorem row_stationary {ι : Type} [Fintype ι] (a p d : ι → ℝ) (c : ℝ) (h : ∀ i, a i = c * p i) (hd : ∑ i, d i = 0)
    (hz : ∀ i, p i = 0 → d i = 0) : ∑ i, a i * (d i / p i) = 0 := by
  have : ∀ i, a i * (d i / p i) = c * d i := by
    intro i
    rw [h i]
    by_cases hm : p i = 0
    · rw [hz i hm, zero_div, mul_zero, mul_zero]
    · field_simp
  rw [Finset.sum_congr rfl (fun i _ => this i), ← Finset.mul_sum, hd, mul_zero]

/-- The derivative in the direction of the counts. -/
theorem row_sq {ι : Type} [Fintype ι] (a p : ι → ℝ) (c : ℝ) (hc : ∑ i, a i = c) (hp1 : ∑ i, p i = 1) (hz : ∀ i, p i = 0 → a i = 0) :
    ∑ i, (a i - c * p i) = 0 ∧ ∑ i, a i * ((a i - c * p i) / p i) = ∑ i, (a i - c * p i) ^ 2 / p i := by
  have h0 : ∑ i, (a i - c * p i) = 0 := by rw [Finset.sum_sub_distrib, hc, ← Finset.mul_sum, hp1]; ring
  refine ⟨h0, ?_⟩
  have e : ∀ i, (a i - c * p i) ^ 2 / p i = a i * ((a i - c * p i) / p i) - c * (a i - c * p i) := by
    intro i
    by_cases hm : p i = 0
    · rw [hz i hm, hm]; simp
    · field_simp
  rw [Finset.sum_congr rfl (fun i _ => e i), Finset.sum_sub_distrib, ← Finset.mul_sum, h0]
  simp

theorem row_sq_nonneg {ι : Type} [Fintype ι] (a p : ι → ℝ) (c : ℝ) (hp : ∀ i, 0 ≤ p i) : 0 ≤ ∑ i, (a i - c * p i) ^ 2 / p i :=
  Finset.sum_nonneg (fun i _ => div_nonneg (sq_nonneg _) (hp i))

theorem row_sq_zero {ι : Type} [Fintype ι] (a p : ι → ℝ) (c : ℝ) (hp : ∀ i, 0 ≤ p i) (hz : ∀ i, p i = 0 → a i = 0)
    (h : ∑ i, (a i - c * p i) ^ 2 / p i ≤ 0) (i : ι) : a i = c * p i := by
  have h6 := (Finset.sum_eq_zero_iff_of_nonneg (fun i _ => div_nonneg (sq_nonneg _) (hp i))).mp
    (le_antisymm h (row_sq_nonneg a p c hp)) i (Finset.mem_univ i)
  by_cases hm : p i = 0
  · rw [hz i hm, hm, mul_zero]
  · rw [div_eq_zero_iff] at h6
    have := pow_eq_zero_iff (by norm_num) |>.mp (h6.resolve_right hm)
    linarith

namespace HMM
variable {O : Type} [DecidableEq O] {n : ℕ}

theorem mem_poss (M : HMM ℝ O n) (S : TSet O) (x : List O × ℕ) : x ∈ possHMM M S ↔ x ∈ S.sequences.zip S.times ∧
    totalWeight M.initialState M.step (fun _ => 1) x.1 ≠ 0 := by
  unfold possHMM
  rw [List.mem_filter]
  simp

theorem avg_eq (M N : HMM ℝ O n) (S : TSet O) (hN : ∀ s, ∑ s', N.matrix s s' = 1) (hne : ∀ w ∈ S.sequences, w ≠ [])
    (h : ∀ w ∈ S.sequences, 0 < N.lik w ↔ totalWeight M.initialState M.step (fun _ => 1) w ≠ 0) :
    avgLogLik N.lik S = ((possHMM M S).map (fun x => Real.log (totalWeight N.initialState N.step (fun _ => 1) x.1) * x.2)).sum
      / (S.times.sum : ℕ) := by
  rw [avgLogLik_filter _ _ S h]
  congr 2
  refine List.map_congr_left (fun x hx => ?_)
  rw [N.lik_eq hN _ (hne _ (List.of_mem_zip (List.mem_filter.mp hx).1).1)]

theorem pos_iff (M : HMM ℝ O n) (hM : M.Stochastic) (w : List O) : 0 < M.lik w ↔ M.lik w ≠ 0 :=
  ⟨fun h => h.ne', fun h => lt_of_le_of_ne (M.lik_nonneg hM w) (Ne.symm h)⟩

theorem init_pos (M : HMM ℝ O n) (S : TSet O) (ht : ∀ t ∈ S.times, 1 ≤ t) (h : possHMM M S ≠ []) : 0 < ∑ s, initHMM M S s := by
  rw [sum_initHMM]
  obtain ⟨x, hx⟩ := List.exists_mem_of_ne_nil _ h
  refine sum_map_pos _ _ (fun _ _ => Nat.cast_nonneg _) x hx ?_
  have := ht x.2 (List.of_mem_zip (List.mem_filter.mp hx).1).2
  exact_mod_cast this

theorem new_stochastic (M : HMM ℝ O n) (hnd : M.alphabet.Nodup) (hM : M.Stochastic) (S : TSet O) (ht : ∀ t ∈ S.times, 1 ≤ t)
    (h : possHMM M S ≠ []) : (newHMM M S).Stochastic := by
  have hIs := M.init_pos S ht h
  obtain ⟨hi0, hi1, hm0, hm1, ho0, ho1⟩ := hM
  have hn := numAHMM_nonneg M S hi0 hm0 ho0
  have hb := numBHMM_nonneg M S hi0 hm0 ho0
  have hI := initHMM_nonneg M S hi0 hm0 ho0
  have hd := denHMM_nonneg M S hi0 hm0 ho0
  refine ⟨fun s => div_nonneg (hI s) hIs.le, ?_, fun s s' => ?_, fun s => ?_, fun s i => ?_, fun s => ?_⟩
  · simp only [newHMM]
    rw [← Finset.sum_div, div_self hIs.ne']
  · simp only [newHMM]
    split_ifs
    · exact hm0 _ _
    · exact div_nonneg (hn _ _) (hd _)
  · simp only [newHMM]
    split_ifs with h0
    · exact hm1 s
    · rw [← Finset.sum_div, sum_numAHMM, div_self h0]
  · simp only [newHMM]
    split_ifs
    · exact ho0 _ _
    · exact div_nonneg (hb _ _) (hd _)
  · simp only [newHMM]
    split_ifs with h0
    · exact ho1 s
    · rw [← Finset.sum_div]
      have := sum_numBHMM M hnd S s
      exact (congrArg (· / denHMM M S s) this).trans (div_self h0)

/-- Where nothing of probability 0 appears no trace becomes possible. -/
theorem weight_zero (M N : HMM ℝ O n) (hM : M.Stochastic) (h1 : ∀ s ss, M.matrix s ss = 0 → N.matrix s ss = 0)
    (h2 : ∀ s o, M.emit s o = 0 → N.emit s o = 0) (h3 : ∀ s, M.initialState s = 0 → N.initialState s = 0) (w : List O)
    (h : totalWeight M.initialState M.step (fun _ => 1) w = 0) : totalWeight N.initialState N.step (fun _ => 1) w = 0 := by
  refine totalWeight_zero M.step _ M.initialState _ _ (M.step_nonneg hM.2.2.1 hM.2.2.2.2.1) hM.1 (fun _ => zero_le_one) ?_ h3 w h
  intro s ss o hso
  unfold HMM.step at hso ⊢
  rcases mul_eq_zero.mp hso with h | h
  · rw [h2 s o h, zero_mul]
  · rw [h1 s ss h, mul_zero]

theorem new_poss (M : HMM ℝ O n) (hnd : M.alphabet.Nodup) (hM : M.Stochastic) (S : TSet O)
    (hne : ∀ w ∈ S.sequences, w ≠ []) (hlen : S.times.length = S.sequences.length) (ht : ∀ t ∈ S.times, 1 ≤ t)
    (hp : possHMM M S ≠ []) (w : List O) (hw : w ∈ S.sequences) : (newHMM M S).lik w ≠ 0 ↔ M.lik w ≠ 0 := by
  rw [M.lik_eq hM.2.2.2.1 w (hne w hw), (newHMM M S).lik_eq (M.new_stochastic hnd hM S ht hp).2.2.2.1 w (hne w hw)]
  constructor
  · intro h h0
    refine h (M.weight_zero (newHMM M S) hM (fun s s' h0 => ?_) (fun s o h0 => newHMM_emit_zero M hnd S s o h0) (fun s h0 => ?_) w h0)
    · simp only [newHMM]
      split_ifs
      · exact h0
      · rw [numAHMM_zero M S s s' h0, zero_div]
    · simp only [newHMM]
      rw [initHMM_zero M S s h0, zero_div]
  · intro h
    obtain ⟨t, hm⟩ := mem_zip_of_mem S hlen w hw
    exact ((newHMM_gain M hnd S hM.1 hM.2.1.le hM.2.2.1 (fun s => (hM.2.2.2.1 s).le) hM.2.2.2.2.1 (fun s => (hM.2.2.2.2.2 s).le) ht).1
      (w, t) ((M.mem_poss S _).mpr ⟨hm, h⟩)).ne'

/-- The gain of an iteration is at least the distance it covers. -/
theorem step_gain (M : HMM ℝ O n) (hnd : M.alphabet.Nodup) (hM : M.Stochastic) (S : TSet O)
    (hne : ∀ w ∈ S.sequences, w ≠ []) (hlen : S.times.length = S.sequences.length) (ht : ∀ t ∈ S.times, 1 ≤ t)
    (hpos : 0 < S.times.sum) (hp : possHMM M S ≠ []) :
    moveHMM M S ≤ (S.times.sum : ℕ) * (avgLogLik (newHMM M S).lik S - avgLogLik M.lik S) := by
  have hp' : ((S.times.sum : ℕ) : ℝ) ≠ 0 := by exact_mod_cast hpos.ne'
  have hM' := M.new_stochastic hnd hM S ht hp
  have h0 := M.avg_eq M S hM.2.2.2.1 hne (fun w hw => by rw [M.pos_iff hM, M.lik_eq hM.2.2.2.1 w (hne w hw)])
  have h1 := M.avg_eq (newHMM M S) S hM'.2.2.2.1 hne (fun w hw => by
    rw [pos_iff _ hM', M.new_poss hnd hM S hne hlen ht hp w hw, M.lik_eq hM.2.2.2.1 w (hne w hw)])
  have hg := newHMM_gain_sq M hnd S hM.1 hM.2.1.le hM.2.2.1 (fun s => (hM.2.2.2.1 s).le) hM.2.2.2.2.1 (fun s => (hM.2.2.2.2.2 s).le) ht
  rw [h0, h1, mul_sub, mul_div_cancel₀ _ hp', mul_div_cancel₀ _ hp']
  linarith

theorem poss_total (M : HMM ℝ O n) (S : TSet O) (ht : ∀ t ∈ S.times, 1 ≤ t) (h : possHMM M S ≠ []) : 0 < S.times.sum := by
  obtain ⟨x, hx⟩ := List.exists_mem_of_ne_nil _ h
  have hx2 := (List.of_mem_zip ((M.mem_poss S x).mp hx).1).2
  exact List.sum_pos_iff_exists_pos_nat.mpr ⟨_, hx2, ht _ hx2⟩

/-! ### Strict progress -/

/-- C99, HMM, strict progress: an iteration that changes the HMM strictly increases the log-likelihood. -/
theorem bw_step_strict (processes : ℕ) (S : TSet O) (M M' : HMM ℝ O n) (ll : ℝ) (hnd : M.alphabet.Nodup) (hM : M.Stochastic)
    (hne : ∀ w ∈ S.sequences, w ≠ []) (hlen : S.times.length = S.sequences.length) (ht : ∀ t ∈ S.times, 1 ≤ t)
    (h : stepHMM processes S M = .ok (M', ll)) (hc : M' ≠ M) : avgLogLik M.lik S < avgLogLik M'.lik S := by
  obtain ⟨h1, h2, _, _⟩ := stepHMM_ok _ _ _ _ hnd _ h
  subst h1
  have hg := M.step_gain hnd hM S hne hlen ht (M.poss_total S ht h2) h2
  by_contra hcon
  apply hc
  rw [newHMM_eq_iff M hnd S hM.1 hM.2.2.1 hM.2.2.2.2.1 (M.init_pos S ht h2)]
  refine moveHMM_eq_zero M S hM.1 hM.2.2.1 hM.2.2.2.2.1 (le_trans hg ?_)
  refine mul_nonpos_of_nonneg_of_nonpos (Nat.cast_nonneg _) ?_
  linarith

/-- C99, HMM: an HMM of maximal likelihood among those with the same alphabet in which nothing else is possible is left
unchanged. -/
theorem bw_best_fixed (processes : ℕ) (S : TSet O) (M M' : HMM ℝ O n) (ll : ℝ) (hnd : M.alphabet.Nodup) (hM : M.Stochastic)
    (hne : ∀ w ∈ S.sequences, w ≠ []) (hlen : S.times.length = S.sequences.length) (ht : ∀ t ∈ S.times, 1 ≤ t)
    (h : stepHMM processes S M = .ok (M', ll))
    (hbest : ∀ N : HMM ℝ O n, N.Stochastic → N.alphabet = M.alphabet → (∀ s ss, M.matrix s ss = 0 → N.matrix s ss = 0) →
      (∀ s o, M.emit s o = 0 → N.emit s o = 0) → (∀ s, M.initialState s = 0 → N.initialState s = 0) →
      avgLogLik N.lik S ≤ avgLogLik M.lik S) : M' = M := by
  by_contra hc
  have h1 := M.bw_step_strict processes S M' ll hnd hM hne hlen ht h hc
  obtain ⟨e1, e2, e3, e4⟩ := M.bw_step_zero _ _ _ _ hnd h
  have h3 := hbest M' (M.bw_step_stochastic processes S M' ll hnd hM ht h) e1 e2 e3 e4
  linarith

/-! ### Fixed points and stationary points -/

/-- C99, HMM, the derivative: when the probabilities are moved in the directions `dA`, `dB`, `dI`, the derivative of the average
log-likelihood is the sum of the expected numbers of starts, transitions and emissions times their relative changes, divided by
the number of traces. -/
theorem logLik_deriv (S : TSet O) (M : HMM ℝ O n) (hnd : M.alphabet.Nodup) (hM : M.Stochastic)
    (hne : ∀ w ∈ S.sequences, w ≠ []) (hlen : S.times.length = S.sequences.length) (ht : ∀ t ∈ S.times, 1 ≤ t)
    (dA : Fin n → Fin n → ℝ) (dB : Fin n → Fin M.alphabet.length → ℝ) (dI : Fin n → ℝ) (hd : ∀ s, ∑ ss, dA s ss = 0)
    (hzA : ∀ s ss, M.matrix s ss = 0 → dA s ss = 0) (hzB : ∀ s i, M.output s i = 0 → dB s i = 0)
    (hzI : ∀ s, M.initialState s = 0 → dI s = 0) :
    HasDerivAt (fun e => avgLogLik (M.nudge dA dB dI e).lik S)
      ((∑ s, M.starts S s * (dI s / M.initialState s) + ∑ s, (∑ ss, M.uses S s ss * (dA s ss / M.matrix s ss)
        + ∑ i : Fin M.alphabet.length, M.emissions S s M.alphabet[i] * (dB s i / M.output s i))) / (S.times.sum : ℕ)) 0 := by
  simp only [M.starts_eq S hM.2.2.2.1 hne, M.uses_eq S hM.2.2.2.1 hne, M.emissions_eq S hM.2.2.2.1 hne]
  have evA : ∀ᶠ e in 𝓝 (0:ℝ), ∀ s ss, 0 ≤ M.matrix s ss + e * dA s ss ∧ (0 < M.matrix s ss → 0 < M.matrix s ss + e * dA s ss) :=
    eventually_all.mpr (fun s => nudge_ev _ _ (hM.2.2.1 s) (hzA s))
  have evB : ∀ᶠ e in 𝓝 (0:ℝ), ∀ s i, 0 ≤ M.output s i + e * dB s i ∧ (0 < M.output s i → 0 < M.output s i + e * dB s i) :=
    eventually_all.mpr (fun s => nudge_ev _ _ (hM.2.2.2.2.1 s) (hzB s))
  have evI := nudge_ev _ _ hM.1 hzI
  have hrows : ∀ e s, ∑ ss, (M.nudge dA dB dI e).matrix s ss = 1 := by
    intro e s
    simp only [nudge]
    rw [Finset.sum_add_distrib, ← Finset.mul_sum, hd, mul_zero, add_zero, hM.2.2.2.1 s]
  have hgain : ∀ᶠ e in 𝓝 (0:ℝ), (∀ x ∈ possHMM M S, 0 < totalWeight (M.nudge dA dB dI e).initialState (M.nudge dA dB dI e).step
      (fun _ => 1) x.1) ∧
      ((possHMM M S).map (fun x => Real.log (totalWeight M.initialState M.step (fun _ => 1) x.1) * x.2)).sum
      + (∑ s, initHMM M S s * Real.log ((M.initialState s + e * dI s) / M.initialState s)
      + ∑ s, (∑ ss, numAHMM M S s ss * Real.log ((M.matrix s ss + e * dA s ss) / M.matrix s ss)
        + ∑ i, numBHMM M S s i * Real.log ((M.output s i + e * dB s i) / M.output s i))) ≤
      ((possHMM M S).map (fun x => Real.log (totalWeight (M.nudge dA dB dI e).initialState (M.nudge dA dB dI e).step
        (fun _ => 1) x.1) * x.2)).sum := by
    filter_upwards [evA, evB, evI] with e hA hB hI
    exact hmm_gain_le M hnd S hM.1 hM.2.2.1 hM.2.2.2.2.1 (fun s ss => M.matrix s ss + e * dA s ss) (fun s i => M.output s i + e * dB s i)
      (fun s => M.initialState s + e * dI s) (fun s ss => (hA s ss).1) (fun s i => (hB s i).1) (fun s => (hI s).1) ht
      (fun s ss h _ => (hA s ss).2 h) (fun s i h _ => (hB s i).2 h) (fun s h _ => (hI s).2 h)
  have hlik : ∀ᶠ e in 𝓝 (0:ℝ), avgLogLik (M.nudge dA dB dI e).lik S =
      ((possHMM M S).map (fun x => Real.log (totalWeight (M.nudge dA dB dI e).initialState (M.nudge dA dB dI e).step
        (fun _ => 1) x.1) * x.2)).sum / (S.times.sum : ℕ) := by
    filter_upwards [hgain] with e hg
    refine M.avg_eq (M.nudge dA dB dI e) S (hrows e) hne (fun w hw => ?_)
    rw [(M.nudge dA dB dI e).lik_eq (hrows e) w (hne w hw)]
    constructor
    · intro h h0
      refine h.ne' (M.weight_zero (M.nudge dA dB dI e) hM (fun s ss h0 => ?_) (fun s o h0 => ?_) (fun s h0 => ?_) w h0)
      · simp only [nudge]
        rw [h0, hzA s ss h0, mul_zero, add_zero]
      · rw [(M.nudge dA dB dI e).emit_zero_iff hnd]
        intro i hi
        have h1 := (M.emit_zero_iff hnd s o).mp h0 i hi
        simp only [nudge]
        rw [h1, hzB s i h1, mul_zero, add_zero]
      · simp only [nudge]
        rw [h0, hzI s h0, mul_zero, add_zero]
    · intro h
      obtain ⟨t, hm⟩ := mem_zip_of_mem S hlen w hw
      exact hg.1 (w, t) ((M.mem_poss S _).mpr ⟨hm, h⟩)
  refine HasDerivAt.congr_of_eventuallyEq ?_ hlik
  refine HasDerivAt.div_const ?_ _
  have hstep : ∀ s ss o, Differentiable ℝ (fun e => (M.nudge dA dB dI e).step s ss o) := by
    intro s ss o
    have es : ∀ e, (M.nudge dA dB dI e).step s ss o = (∑ i : Fin M.alphabet.length,
      if M.alphabet[i] = o then M.output s i + e * dB s i else 0) * (M.matrix s ss + e * dA s ss) := fun _ => rfl
    simp only [es]
    refine Differentiable.mul (Differentiable.fun_sum (fun i _ => ?_)) (by fun_prop)
    split_ifs <;> fun_prop
  have h00 : (M.nudge dA dB dI 0) = M := by unfold nudge; simp
  refine hasDerivAt_of_above _ (fun e => ((possHMM M S).map (fun x => Real.log (totalWeight M.initialState M.step (fun _ => 1) x.1) * x.2)).sum
      + (∑ s, initHMM M S s * Real.log ((M.initialState s + e * dI s) / M.initialState s)
      + ∑ s, (∑ ss, numAHMM M S s ss * Real.log ((M.matrix s ss + e * dA s ss) / M.matrix s ss)
        + ∑ i, numBHMM M S s i * Real.log ((M.output s i + e * dB s i) / M.output s i)))) _ 0 ?_ ?_ ?_
      (hgain.mono (fun e h => h.2))
  · refine differentiable_list_sum (possHMM M S) _ 0 (fun x hx => ?_)
    have hx0 := ((M.mem_poss S x).mp hx).2
    refine DifferentiableAt.mul_const (DifferentiableAt.log ?_ (by rw [h00]; exact hx0)) _
    refine differentiable_totalWeight (fun e => (M.nudge dA dB dI e).step) (fun e => (M.nudge dA dB dI e).initialState) (fun _ => 1) hstep
      (fun s => ?_) x.1 0
    have es : ∀ e, (M.nudge dA dB dI e).initialState s = M.initialState s + e * dI s := fun _ => rfl
    simp only [es]
    fun_prop
  · exact HasDerivAt.const_add _ (HasDerivAt.add (row_deriv _ _ _) (HasDerivAt.fun_sum (fun s _ =>
      HasDerivAt.add (row_deriv _ _ _) (row_deriv _ _ _))))
  · rw [h00]
    simp only [row_zero, Finset.sum_const_zero, add_zero]

/-- C99, HMM, fixed points: an iteration leaves an HMM unchanged exactly when it is a stationary point of the log-likelihood of
the training set. -/
theorem bw_fixed_iff_stationary (processes : ℕ) (S : TSet O) (M M' : HMM ℝ O n) (ll : ℝ) (hnd : M.alphabet.Nodup) (hM : M.Stochastic)
    (hne : ∀ w ∈ S.sequences, w ≠ []) (hlen : S.times.length = S.sequences.length) (ht : ∀ t ∈ S.times, 1 ≤ t)
    (h : stepHMM processes S M = .ok (M', ll)) : M' = M ↔ M.Stationary S := by
  obtain ⟨h1, h2, _, _⟩ := stepHMM_ok _ _ _ _ hnd _ h
  subst h1
  have hpos := M.poss_total S ht h2
  have hp : ((S.times.sum : ℕ) : ℝ) ≠ 0 := by exact_mod_cast hpos.ne'
  rw [newHMM_eq_iff M hnd S hM.1 hM.2.2.1 hM.2.2.2.2.1 (M.init_pos S ht h2)]
  constructor
  · rintro ⟨f1, f2, f3⟩ dA dB dI hA hB hI hzA hzB hzI
    have hder := M.logLik_deriv S hnd hM hne hlen ht dA dB dI hA hzA hzB hzI
    simp only [M.starts_eq S hM.2.2.2.1 hne, M.uses_eq S hM.2.2.2.1 hne, M.emissions_eq S hM.2.2.2.1 hne] at hder
    rw [row_stationary _ _ _ _ f1 hI hzI, Finset.sum_eq_zero (fun s _ => by
      rw [row_stationary _ _ _ _ (f2 s) (hA s) (hzA s), row_stationary _ _ _ _ (f3 s) (hB s) (hzB s), add_zero]), add_zero,
      zero_div] at hder
    exact hder
  · intro hst
    obtain ⟨a1, a2⟩ := row_sq (initHMM M S) M.initialState _ rfl hM.2.1 (initHMM_zero M S)
    have b := fun s => row_sq (numAHMM M S s) (M.matrix s) _ (sum_numAHMM M S s) (hM.2.2.2.1 s) (numAHMM_zero M S s)
    have c := fun s => row_sq (numBHMM M S s) (M.output s) _ (sum_numBHMM M hnd S s) (hM.2.2.2.2.2 s) (numBHMM_zero M hnd S s)
    have hzA : ∀ s ss, M.matrix s ss = 0 → numAHMM M S s ss - denHMM M S s * M.matrix s ss = 0 := fun s ss h0 => by
      rw [h0, numAHMM_zero M S s ss h0]; ring
    have hzB : ∀ s i, M.output s i = 0 → numBHMM M S s i - denHMM M S s * M.output s i = 0 := fun s i h0 => by
      rw [h0, numBHMM_zero M hnd S s i h0]; ring
    have hzI : ∀ s, M.initialState s = 0 → initHMM M S s - (∑ s', initHMM M S s') * M.initialState s = 0 := fun s h0 => by
      rw [h0, initHMM_zero M S s h0]; ring
    have h3 := (hst _ _ _ (fun s => (b s).1) (fun s => (c s).1) a1 hzA hzB hzI).unique
      (M.logLik_deriv S hnd hM hne hlen ht _ _ _ (fun s => (b s).1) hzA hzB hzI)
    simp only [M.starts_eq S hM.2.2.2.1 hne, M.uses_eq S hM.2.2.2.1 hne, M.emissions_eq S hM.2.2.2.1 hne] at h3
    have h4 := (div_eq_zero_iff.mp h3.symm).resolve_right hp
    rw [a2] at h4
    simp only [fun s => (b s).2, fun s => (c s).2] at h4
    have n1 := row_sq_nonneg (initHMM M S) M.initialState (∑ s', initHMM M S s') hM.1
    have n2 := fun s => row_sq_nonneg (numAHMM M S s) (M.matrix s) (denHMM M S s) (hM.2.2.1 s)
    have n3 := fun s => row_sq_nonneg (numBHMM M S s) (M.output s) (denHMM M S s) (hM.2.2.2.2.1 s)
    have n4 := Finset.sum_nonneg (fun s (_ : s ∈ (Finset.univ : Finset (Fin n))) => add_nonneg (n2 s) (n3 s))
    have h5 := fun s => (Finset.sum_eq_zero_iff_of_nonneg (fun s _ => add_nonneg (n2 s) (n3 s))).mp (by linarith) s (Finset.mem_univ s)
    refine ⟨row_sq_zero _ _ _ hM.1 (initHMM_zero M S) (by linarith), fun s => ?_, fun s => ?_⟩
    · exact row_sq_zero _ _ _ (hM.2.2.1 s) (numAHMM_zero M S s) (by have := h5 s; have := n3 s; linarith)
    · exact row_sq_zero _ _ _ (hM.2.2.2.2.1 s) (numBHMM_zero M hnd S s) (by have := h5 s; have := n2 s; linarith)

/-! ### Limits -/

/-- What the learned HMMs keep. -/
def Keeps (M : HMM ℝ O n) (S : TSet O) (N : HMM ℝ O n) : Prop :=
  (∃ A B I, N = M.withProb A B I) ∧ N.Stochastic ∧ ∀ w ∈ S.sequences, N.lik w ≠ 0 ↔ M.lik w ≠ 0

theorem Keeps.nodup {M : HMM ℝ O n} {S : TSet O} {N : HMM ℝ O n} (h : M.Keeps S N) (hn : M.alphabet.Nodup) : N.alphabet.Nodup := by
  obtain ⟨⟨A, B, I, rfl⟩, _⟩ := h
  exact hn

theorem poss_congr (M N : HMM ℝ O n) (hM : M.Stochastic) (hN : N.Stochastic) (S : TSet O) (hne : ∀ w ∈ S.sequences, w ≠ [])
    (h : ∀ w ∈ S.sequences, N.lik w ≠ 0 ↔ M.lik w ≠ 0) : possHMM N S = possHMM M S := by
  unfold possHMM
  refine List.filter_congr (fun x hx => ?_)
  have hw := (List.of_mem_zip hx).1
  rw [decide_eq_decide, ← M.lik_eq hM.2.2.2.1 _ (hne _ hw), ← N.lik_eq hN.2.2.2.1 _ (hne _ hw)]
  exact h _ hw

theorem climb (processes : ℕ) (S : TSet O) (M : HMM ℝ O n) (hnd : M.alphabet.Nodup) (hM : M.Stochastic)
    (hne : ∀ w ∈ S.sequences, w ≠ []) (hlen : S.times.length = S.sequences.length) (ht : ∀ t ∈ S.times, 1 ≤ t)
    (hposs : possHMM M S ≠ []) :
    Climb (stepHMM processes S) (fun N => newHMM N S) (M.Keeps S) (fun N => avgLogLik N.lik S) (S.times.sum : ℕ) (Real.log 1) := by
  have hpos := M.poss_total S ht hposs
  have htot : (0:ℝ) < (S.times.sum : ℕ) := by exact_mod_cast hpos
  have hp : ∀ N, M.Keeps S N → possHMM N S ≠ [] := fun N hN => by rw [M.poss_congr N hM hN.2.1 S hne hN.2.2]; exact hposs
  have hgain : ∀ N, M.Keeps S N → moveHMM N S ≤ (S.times.sum : ℕ) * (avgLogLik (newHMM N S).lik S - avgLogLik N.lik S) :=
    fun N hN => N.step_gain (hN.nodup hnd) hN.2.1 S hne hlen ht hpos (hp N hN)
  refine ⟨fun N hN => ?_, fun N N' ll hN h => ?_, htot, fun N hN => ?_, fun N hN h => ?_,
    fun N hN => avgLogLik_le _ S 1 le_rfl (fun w _ => N.lik_le_one hN.2.1 w)⟩
  · refine ⟨?_, N.new_stochastic (hN.nodup hnd) hN.2.1 S ht (hp N hN), fun w hw => ?_⟩
    · obtain ⟨⟨A, B, I, rfl⟩, _⟩ := hN
      exact ⟨_, _, _, rfl⟩
    · rw [← hN.2.2 w hw]
      exact N.new_poss (hN.nodup hnd) hN.2.1 S hne hlen ht (hp N hN) w hw
  · exact ⟨(stepHMM_ok _ _ _ _ (hN.nodup hnd) _ h).1,
      (N.bw_step_monotone processes S N' ll (hN.nodup hnd) hN.2.1 hne hlen ht h).2.2⟩
  · have := nonneg_of_mul_nonneg_right (le_trans (moveHMM_nonneg N S) (hgain N hN)) htot
    linarith
  · have h2 := hgain N hN
    rw [h, sub_self, mul_zero] at h2
    exact (newHMM_eq_iff N (hN.nodup hnd) S hN.2.1.1 hN.2.1.2.2.1 hN.2.1.2.2.2.2.1 (N.init_pos S ht (hp N hN))).mpr
      (moveHMM_eq_zero N S hN.2.1.1 hN.2.1.2.2.1 hN.2.1.2.2.2.2.1 h2)

/-- The core of the limit theorems: iterates along which the gain vanishes. -/
theorem limit_core (processes : ℕ) (S : TSet O) (M : HMM ℝ O n) (hnd : M.alphabet.Nodup) (hM : M.Stochastic)
    (hne : ∀ w ∈ S.sequences, w ≠ []) (hlen : S.times.length = S.sequences.length) (ht : ∀ t ∈ S.times, 1 ≤ t)
    (r1 : HMM ℝ O n × ℝ) (h1 : stepHMM processes S M = .ok r1)
    {J : Type} {l : Filter J} [l.NeBot] (A : J → Fin n → Fin n → ℝ) (B : J → Fin n → Fin M.alphabet.length → ℝ) (I : J → Fin n → ℝ)
    (hK : ∀ j, M.Keeps S (M.withProb (A j) (B j) (I j)))
    (hA0 : ∀ j, avgLogLik M.lik S ≤ avgLogLik (M.withProb (A j) (B j) (I j)).lik S)
    (hg : Tendsto (fun j => avgLogLik (newHMM (M.withProb (A j) (B j) (I j)) S).lik S
      - avgLogLik (M.withProb (A j) (B j) (I j)).lik S) l (𝓝 0))
    (A' : Fin n → Fin n → ℝ) (B' : Fin n → Fin M.alphabet.length → ℝ) (I' : Fin n → ℝ)
    (hA : ∀ s ss, Tendsto (fun j => A j s ss) l (𝓝 (A' s ss))) (hB : ∀ s i, Tendsto (fun j => B j s i) l (𝓝 (B' s i)))
    (hI : ∀ s, Tendsto (fun j => I j s) l (𝓝 (I' s))) :
    (M.withProb A' B' I').Stochastic ∧ (∀ w ∈ S.sequences, (M.withProb A' B' I').lik w ≠ 0 ↔ M.lik w ≠ 0) ∧
    (∃ ll, stepHMM processes S (M.withProb A' B' I') = .ok (M.withProb A' B' I', ll)) ∧ Stationary (M.withProb A' B' I') S ∧
    Tendsto (fun j => avgLogLik (M.withProb (A j) (B j) (I j)).lik S) l (𝓝 (avgLogLik (M.withProb A' B' I').lik S)) := by
  have hst : ∀ j, (M.withProb (A j) (B j) (I j)).Stochastic := fun j => (hK j).2.1
  have hAp : ∀ j, ∀ w ∈ S.sequences, 0 < (M.withProb (A j) (B j) (I j)).lik w ↔ M.lik w ≠ 0 := fun j w hw => by
    rw [pos_iff _ (hst j)]; exact (hK j).2.2 w hw
  obtain ⟨M1, l1⟩ := r1
  obtain ⟨_, hposs, _, hone⟩ := stepHMM_ok _ _ _ _ hnd _ h1
  have hpos := M.poss_total S ht hposs
  have hNs : (M.withProb A' B' I').Stochastic := by
    refine ⟨fun s => ?_, ?_, fun s ss => ?_, fun s => ?_, fun s i => ?_, fun s => ?_⟩
    · exact ge_of_tendsto (hI s) (Eventually.of_forall (fun j => (hst j).1 s))
    · have a := tendsto_finsetSum Finset.univ (fun s _ => hI s)
      exact tendsto_nhds_unique a (tendsto_const_nhds.congr (fun j => (hst j).2.1.symm))
    · exact ge_of_tendsto (hA s ss) (Eventually.of_forall (fun j => (hst j).2.2.1 s ss))
    · have a := tendsto_finsetSum Finset.univ (fun ss _ => hA s ss)
      exact tendsto_nhds_unique a (tendsto_const_nhds.congr (fun j => ((hst j).2.2.2.1 s).symm))
    · exact ge_of_tendsto (hB s i) (Eventually.of_forall (fun j => (hst j).2.2.2.2.1 s i))
    · have a := tendsto_finsetSum Finset.univ (fun i _ => hB s i)
      exact tendsto_nhds_unique a (tendsto_const_nhds.congr (fun j => ((hst j).2.2.2.2.2 s).symm))
  have hlik : ∀ w ∈ S.sequences, Tendsto (fun j => (M.withProb (A j) (B j) (I j)).lik w) l (𝓝 ((M.withProb A' B' I').lik w)) := by
    intro w hw
    rw [lik_eq (M.withProb A' B' I') hNs.2.2.2.1 w (hne w hw)]
    simp only [fun j => lik_eq (M.withProb (A j) (B j) (I j)) (hst j).2.2.2.1 w (hne w hw)]
    exact totalHMM_tendsto M A B I A' B' I' hA hB hI w
  obtain ⟨b1, b2⟩ := avgLogLik_limit (fun j => (M.withProb (A j) (B j) (I j)).lik) (M.withProb A' B' I').lik M.lik S (avgLogLik M.lik S)
    1 le_rfl ht hlen hAp (fun j w _ => lik_le_one (M.withProb (A j) (B j) (I j)) (hst j) w) hA0 hlik
  have hNp : ∀ w ∈ S.sequences, (M.withProb A' B' I').lik w ≠ 0 ↔ M.lik w ≠ 0 := fun w hw => by rw [← b1 w hw, pos_iff _ hNs]
  have hpN : possHMM (M.withProb A' B' I') S = possHMM M S := M.poss_congr _ hM hNs S hne hNp
  have hpj : ∀ j, possHMM (M.withProb (A j) (B j) (I j)) S = possHMM M S := fun j => M.poss_congr _ hM (hst j) S hne (hK j).2.2
  have hmove := moveHMM_tendsto M A B I A' B' I' hA hB hI S (fun j => (hpj j).trans hpN.symm)
  have hzero : moveHMM (M.withProb A' B' I') S ≤ 0 := by
    refine le_of_tendsto_of_tendsto' hmove (mul_zero ((S.times.sum : ℕ) : ℝ) ▸ hg.const_mul ((S.times.sum : ℕ) : ℝ)) (fun j => ?_)
    exact step_gain (M.withProb (A j) (B j) (I j)) hnd (hst j) S hne hlen ht hpos (by rw [hpj j]; exact hposs)
  have hfix : newHMM (M.withProb A' B' I') S = M.withProb A' B' I' :=
    (newHMM_eq_iff (M.withProb A' B' I') hnd S hNs.1 hNs.2.2.1 hNs.2.2.2.2.1
      (init_pos (M.withProb A' B' I') S ht (by rw [hpN]; exact hposs))).mpr
      (moveHMM_eq_zero (M.withProb A' B' I') S hNs.1 hNs.2.2.1 hNs.2.2.2.2.1 hzero)
  have hout : ∃ r, stepHMM processes S (M.withProb A' B' I') = .ok r := by
    refine (bw_step_outcome (M := M.withProb A' B' I') processes S hnd hNs.2.2.2.1 hne hlen).1 ?_
    obtain ⟨x, hx⟩ := List.exists_mem_of_ne_nil _ hposs
    have hx' := (M.mem_poss S x).mp hx
    have hxw := (List.of_mem_zip hx'.1).1
    by_cases hp : 1 < processes
    · exact Or.inl ⟨hp, x.1, hxw, (hNp _ hxw).mpr (by rw [M.lik_eq hM.2.2.2.1 _ (hne _ hxw)]; exact hx'.2)⟩
    · refine Or.inr ⟨by omega, fun h0 => by rw [h0] at hxw; simp at hxw, fun w hw => (hNp _ hw).mpr ?_⟩
      obtain ⟨t, hm⟩ := mem_zip_of_mem S hlen w hw
      rw [M.lik_eq hM.2.2.2.1 _ (hne _ hw)]
      exact hone (by omega) (w, t) hm
  obtain ⟨⟨N', ll⟩, hr⟩ := hout
  have hN' : N' = M.withProb A' B' I' := by rw [(stepHMM_ok processes S (M.withProb A' B' I') N' hnd ll hr).1, hfix]
  rw [hN'] at hr
  have hfs := (bw_fixed_iff_stationary processes S (M.withProb A' B' I') (M.withProb A' B' I') ll hnd hNs hne hlen ht hr).mp rfl
  exact ⟨hNs, hNp, ⟨ll, hr⟩, hfs, b2⟩

theorem withProb_of_keeps (M N : HMM ℝ O n) (ha : N.alphabet = M.alphabet) : ∃ A B I, N = M.withProb A B I := by
  obtain ⟨mat, alph, out, init⟩ := N
  simp only at ha
  subst ha
  exact ⟨mat, out, init, rfl⟩

theorem emit_withProb (M : HMM ℝ O n) (hnd : M.alphabet.Nodup) (A : Fin n → Fin n → ℝ) (B : Fin n → Fin M.alphabet.length → ℝ)
    (I : Fin n → ℝ) (s : Fin n) (i : Fin M.alphabet.length) : (M.withProb A B I).emit s M.alphabet[i] = B s i :=
  (M.withProb A B I).emit_getElem hnd s i

/-- The probabilities of the models of a sequence converge to those of `N`. -/
def Converges (H : ℕ → HMM ℝ O n) (N : HMM ℝ O n) : Prop :=
  (∀ s ss, Tendsto (fun j => (H j).matrix s ss) atTop (𝓝 (N.matrix s ss))) ∧
  (∀ s o, Tendsto (fun j => (H j).emit s o) atTop (𝓝 (N.emit s o))) ∧
  ∀ s, Tendsto (fun j => (H j).initialState s) atTop (𝓝 (N.initialState s))

/-- C99, HMM, limits: let `st k` be the result of learning with `k` iterations (tolerance 0). If the learned probabilities
converge along some subsequence, to those of an HMM `N`, then the same traces of the set are possible in `N`, the
log-likelihoods of all the learned HMMs converge to the one of `N`, and `N` is a stationary point that one more iteration leaves
unchanged. -/
theorem fit_limit (processes : ℕ) (S : TSet O) (M : HMM ℝ O n) (hnd : M.alphabet.Nodup) (hM : M.Stochastic)
    (hne : ∀ w ∈ S.sequences, w ≠ []) (hlen : S.times.length = S.sequences.length) (ht : ∀ t ∈ S.times, 1 ≤ t)
    (st : ℕ → LoopState (HMM ℝ O n)) (h : ∀ k, fit (stepHMM processes S) 0 k M = .ok (st k))
    (φ : ℕ → ℕ) (hφ : StrictMono φ) (N : HMM ℝ O n) (ha : N.alphabet = M.alphabet)
    (hN : Converges (fun j => (st (φ j)).h) N) :
    N.Stochastic ∧ (∀ w ∈ S.sequences, N.lik w ≠ 0 ↔ M.lik w ≠ 0) ∧
    Tendsto (fun k => avgLogLik (st k).h.lik S) atTop (𝓝 (avgLogLik N.lik S)) ∧
    (∃ ll, stepHMM processes S N = .ok (N, ll)) ∧ N.Stationary S := by
  have hposs : possHMM M S ≠ [] := by
    obtain ⟨k, hs', ls, a1, a2, _, _, _, _, a7, _⟩ := fit_iterations _ _ _ _ _ (h 1)
    have h1 := a2 0 (a7 le_rfl)
    rw [a1] at h1
    exact (stepHMM_ok _ _ _ _ hnd _ h1).2.1
  obtain ⟨⟨l1, h1⟩, c2, c3, y, c4⟩ := (M.climb processes S hnd hM hne hlen ht hposs).fit_limits M
    ⟨⟨_, _, _, rfl⟩, hM, fun _ _ => Iff.rfl⟩ st h
  obtain ⟨A', B', I', rfl⟩ := M.withProb_of_keeps N ha
  choose A B I hA using fun k => (c2 k).1.1
  unfold Converges at hN
  simp only [hA] at c2 c3 c4 hN
  obtain ⟨n1, n2, n3⟩ := hN
  obtain ⟨b1, b2, b3, b4, b5⟩ := M.limit_core processes S hnd hM hne hlen ht _ h1 (fun j => A (φ j)) (fun j => B (φ j)) (fun j => I (φ j))
    (fun j => (c2 (φ j)).1) (fun j => (c2 (φ j)).2) (c3.comp hφ.tendsto_atTop) A' B' I' n1 (fun s i => by
      have := n2 s M.alphabet[i]
      simpa only [M.emit_withProb hnd] using this) n3
  refine ⟨b1, b2, ?_, b3, b4⟩
  simp only [hA]
  rw [tendsto_nhds_unique b5 (c4.comp hφ.tendsto_atTop)]
  exact c4

/-- C99, HMM, existence: such subsequences exist. -/
theorem fit_limit_exists (processes : ℕ) (S : TSet O) (M : HMM ℝ O n) (hnd : M.alphabet.Nodup) (hM : M.Stochastic)
    (ht : ∀ t ∈ S.times, 1 ≤ t)
    (st : ℕ → LoopState (HMM ℝ O n)) (h : ∀ k, fit (stepHMM processes S) 0 k M = .ok (st k)) :
    ∃ (φ : ℕ → ℕ) (N : HMM ℝ O n), StrictMono φ ∧ N.alphabet = M.alphabet ∧ Converges (fun j => (st (φ j)).h) N := by
  have hkeep : ∀ k, ∃ A B I, (st k).h = M.withProb A B I := fun k =>
    M.withProb_of_keeps _ (M.fit_structure processes S 0 k hnd (st k) (h k)).1
  choose A B I hA using hkeep
  have hk : ∀ k, (M.withProb (A k) (B k) (I k)).Stochastic := fun k => by
    have := M.fit_stochastic processes S 0 k hnd hM ht (st k) (h k)
    rwa [hA] at this
  have hs : ∀ k, (A k, B k, I k) ∈ Metric.closedBall
      (0 : (Fin n → Fin n → ℝ) × (Fin n → Fin M.alphabet.length → ℝ) × (Fin n → ℝ)) 1 := by
    intro k
    rw [mem_closedBall_zero_iff, Prod.norm_def, Prod.norm_def]
    refine max_le ?_ (max_le ?_ ?_)
    · rw [pi_norm_le_iff_of_nonneg zero_le_one]
      intro s
      rw [pi_norm_le_iff_of_nonneg zero_le_one]
      intro ss
      rw [Real.norm_eq_abs]
      have h0 := (hk k).2.2.1
      rw [abs_of_nonneg (h0 s ss)]
      exact (Finset.single_le_sum (fun u _ => h0 s u) (Finset.mem_univ ss)).trans ((hk k).2.2.2.1 s).le
    · rw [pi_norm_le_iff_of_nonneg zero_le_one]
      intro s
      rw [pi_norm_le_iff_of_nonneg zero_le_one]
      intro i
      rw [Real.norm_eq_abs]
      have h0 := (hk k).2.2.2.2.1
      rw [abs_of_nonneg (h0 s i)]
      exact (Finset.single_le_sum (fun u _ => h0 s u) (Finset.mem_univ i)).trans ((hk k).2.2.2.2.2 s).le
    · rw [pi_norm_le_iff_of_nonneg zero_le_one]
      intro s
      rw [Real.norm_eq_abs]
      have h0 := (hk k).1
      rw [abs_of_nonneg (h0 s)]
      exact (Finset.single_le_sum (fun u _ => h0 u) (Finset.mem_univ s)).trans (hk k).2.1.le
  obtain ⟨a, _, φ, hφ, ha⟩ := (isCompact_closedBall
    (0 : (Fin n → Fin n → ℝ) × (Fin n → Fin M.alphabet.length → ℝ) × (Fin n → ℝ)) 1).tendsto_subseq hs
  have t1 := (continuous_fst.tendsto a).comp ha
  have t2 := ((continuous_fst.comp continuous_snd).tendsto a).comp ha
  have t3 := ((continuous_snd.comp continuous_snd).tendsto a).comp ha
  refine ⟨φ, M.withProb a.1 a.2.1 a.2.2, hφ, rfl, fun s ss => ?_, fun s o => ?_, fun s => ?_⟩
  · simp only [hA]
    exact (tendsto_pi_nhds.mp ((tendsto_pi_nhds.mp t1) s)) ss
  · have e : ∀ (A : Fin n → Fin n → ℝ) (B : Fin n → Fin M.alphabet.length → ℝ) (I : Fin n → ℝ), (M.withProb A B I).emit s o
      = ∑ i : Fin M.alphabet.length, if M.alphabet[i] = o then B s i else 0 := fun _ _ _ => rfl
    simp only [hA, e]
    refine tendsto_finsetSum _ (fun i _ => ?_)
    split_ifs
    · exact (tendsto_pi_nhds.mp ((tendsto_pi_nhds.mp t2) s)) i
    · exact tendsto_const_nhds
  · simp only [hA]
    exact (tendsto_pi_nhds.mp t3) s

/-- C99, HMM, tolerances: let `st j` be the result of learning with the tolerance `eps j`, stopped because the progress was
below the tolerance. If the tolerances tend to 0 and the learned probabilities converge to those of an HMM `N`, then `N` is a
stationary point that one more iteration leaves unchanged. -/
theorem fit_tolerance (processes : ℕ) (S : TSet O) (M : HMM ℝ O n) (hnd : M.alphabet.Nodup) (hM : M.Stochastic)
    (hne : ∀ w ∈ S.sequences, w ≠ []) (hlen : S.times.length = S.sequences.length) (ht : ∀ t ∈ S.times, 1 ≤ t)
    (eps : ℕ → ℝ) (maxIt : ℕ → ℕ) (st : ℕ → LoopState (HMM ℝ O n)) (heps : Tendsto eps atTop (𝓝 0))
    (h : ∀ j, fit (stepHMM processes S) (eps j) (maxIt j) M = .ok (st j)) (hstop : ∀ j, (st j).counter < maxIt j)
    (N : HMM ℝ O n) (ha : N.alphabet = M.alphabet) (hN : Converges (fun j => (st j).h) N) :
    N.Stochastic ∧ (∀ w ∈ S.sequences, N.lik w ≠ 0 ↔ M.lik w ≠ 0) ∧
    (∃ ll, stepHMM processes S N = .ok (N, ll)) ∧ N.Stationary S := by
  have hc : 1 ≤ maxIt 0 := by have := hstop 0; omega
  have hposs : possHMM M S ≠ [] := by
    obtain ⟨k, hs', ls, a1, a2, _, _, _, _, a7, _⟩ := fit_iterations _ _ _ _ _ (h 0)
    have h1 := a2 0 (a7 hc)
    rw [a1] at h1
    exact (stepHMM_ok _ _ _ _ hnd _ h1).2.1
  obtain ⟨⟨l1, h1⟩, c2, c3⟩ := (M.climb processes S hnd hM hne hlen ht hposs).fit_tolerances M
    ⟨⟨_, _, _, rfl⟩, hM, fun _ _ => Iff.rfl⟩ eps maxIt st heps h hstop
  obtain ⟨A', B', I', rfl⟩ := M.withProb_of_keeps N ha
  choose A B I hA using fun k => (c2 k).1.1
  unfold Converges at hN
  simp only [hA] at c2 c3 hN
  obtain ⟨n1, n2, n3⟩ := hN
  obtain ⟨b1, b2, b3, b4, _⟩ := M.limit_core processes S hnd hM hne hlen ht _ h1 A B I
    (fun j => (c2 j).1) (fun j => (c2 j).2) c3 A' B' I' n1 (fun s i => by
      have := n2 s M.alphabet[i]
      simpa only [M.emit_withProb hnd] using this) n3
  exact ⟨b1, b2, b3, b4⟩

/-- C99, HMM, for every starting point: if the initial HMM can generate some trace of the set, learning with more and more
iterations approaches, along a subsequence, a stationary point of the log-likelihood, at least as likely as the initial HMM; and
the log-likelihoods of the learned HMMs converge to its log-likelihood. -/
theorem fit_converges (processes : ℕ) (hp : 1 < processes) (S : TSet O) (M : HMM ℝ O n) (hnd : M.alphabet.Nodup) (hM : M.Stochastic)
    (hne : ∀ w ∈ S.sequences, w ≠ []) (hlen : S.times.length = S.sequences.length) (ht : ∀ t ∈ S.times, 1 ≤ t)
    (w : List O) (hw : w ∈ S.sequences) (hl : M.lik w ≠ 0) :
    ∃ (st : ℕ → LoopState (HMM ℝ O n)) (φ : ℕ → ℕ) (N : HMM ℝ O n), (∀ k, fit (stepHMM processes S) 0 k M = .ok (st k)) ∧
      StrictMono φ ∧ N.Stochastic ∧ N.Stationary S ∧ avgLogLik M.lik S ≤ avgLogLik N.lik S ∧
      Converges (fun j => (st (φ j)).h) N ∧
      Tendsto (fun k => avgLogLik (st k).h.lik S) atTop (𝓝 (avgLogLik N.lik S)) := by
  choose st hst using fun k => M.fit_total processes hp S 0 k hnd hM hne hlen ht w hw hl
  obtain ⟨φ, N, h1, h2, h3⟩ := M.fit_limit_exists processes S hnd hM ht st hst
  obtain ⟨a1, a2, a3, a4, a5⟩ := M.fit_limit processes S hnd hM hne hlen ht st hst φ h1 N h2 h3
  exact ⟨st, φ, N, hst, h1, a1, a5, ge_of_tendsto a3 (Eventually.of_forall (fun k =>
    M.fit_monotone processes S 0 k hnd hM hne hlen ht (st k) (hst k))), h3, a3⟩

/-- The hypotheses are met by `exHMM` and `exSetHMM`: learning converges, along a subsequence, to a stationary point. -/
example : ∃ (st : ℕ → LoopState (HMM ℝ ℕ 2)) (φ : ℕ → ℕ) (N : HMM ℝ ℕ 2),
      (∀ k, fit (stepHMM 2 exSetHMM) 0 k (exHMM ℝ) = .ok (st k)) ∧
      StrictMono φ ∧ N.Stochastic ∧ N.Stationary exSetHMM ∧ avgLogLik (exHMM ℝ).lik exSetHMM ≤ avgLogLik N.lik exSetHMM ∧
      Converges (fun j => (st (φ j)).h) N ∧
      Tendsto (fun k => avgLogLik (st k).h.lik exSetHMM) atTop (𝓝 (avgLogLik N.lik exSetHMM)) :=
  (exHMM ℝ).fit_converges 2 (by norm_num) exSetHMM (by decide) exHMM_stochastic (by decide) (by decide)
    (by decide) [7, 8, 7] (by decide) exHMM_lik.2

end HMM
end Jajapy
