import Mathlib.Topology.Sequences
import Mathlib.Topology.MetricSpace.ProperSpace.Real
import Verif.Lemmas.Climb

/-!
Property C99 for Markov chains: what Baum-Welch converges to.
-/

set_option linter.unusedSectionVars false

namespace Jajapy

open Finset Spec BW Filter Topology

section mc
variable {L : Type} [DecidableEq L] {n : ℕ}

theorem MC.avg_eq (M N : MC ℝ L n) (S : TSet L) (hN : ∀ s, ∑ s', N.matrix s s' = 1) (hne : ∀ w ∈ S.sequences, w ≠ [])
    (h : ∀ w ∈ S.sequences, 0 < N.lik w ↔ totalWeight M.initialState M.step (fun _ => 1) w ≠ 0) :
    avgLogLik N.lik S = ((possMC M S).map (fun x => Real.log (totalWeight N.initialState N.step (fun _ => 1) x.1) * x.2)).sum
      / (S.times.sum : ℕ) := by
  rw [avgLogLik_filter _ _ S h]
  congr 2
  refine List.map_congr_left (fun x hx => ?_)
  rw [N.lik_eq hN _ (hne _ (List.of_mem_zip (List.mem_filter.mp hx).1).1)]

theorem MC.pos_iff (M : MC ℝ L n) (hM : M.Stochastic) (w : List L) : 0 < M.lik w ↔ M.lik w ≠ 0 :=
  ⟨fun h => h.ne', fun h => lt_of_le_of_ne (M.lik_nonneg hM w) (Ne.symm h)⟩

/-- The gain of an iteration is at least the distance it covers. -/
theorem MC.step_gain (S : TSet L) (M : MC ℝ L n) (hM : M.Stochastic) (hM' : (newMC M S).Stochastic)
    (hne : ∀ w ∈ S.sequences, w ≠ []) (hlen : S.times.length = S.sequences.length) (ht : ∀ t ∈ S.times, 1 ≤ t)
    (hpos : 0 < S.times.sum) :
    moveMC M S ≤ S.times.sum * (avgLogLik (newMC M S).lik S - avgLogLik M.lik S) := by
  have hp : ((S.times.sum : ℕ) : ℝ) ≠ 0 := by exact_mod_cast hpos.ne'
  have h0 := M.avg_eq M S hM.2.2.2 hne (fun w hw => by rw [M.pos_iff hM, M.lik_eq hM.2.2.2 w (hne w hw)])
  have h1 := M.avg_eq (newMC M S) S hM'.2.2.2 hne (fun w hw => by
    rw [(newMC M S).pos_iff hM', ← M.stepMC_poss S hM ht hne hM' w hw hlen, M.lik_eq hM.2.2.2 w (hne w hw)])
  have hg := newMC_gain_sq M S hM.1 hM.2.2.1 (fun s => (hM.2.2.2 s).le) ht
  have e : (newMC M S).initialState = M.initialState := rfl
  rw [h0, h1, e, mul_sub, mul_div_cancel₀ _ hp, mul_div_cancel₀ _ hp]
  linarith

theorem newMC_stochastic (S : TSet L) (M : MC ℝ L n) (hM : M.Stochastic) : (newMC M S).Stochastic := by
  have hn := numMC_nonneg M S hM.1 hM.2.2.1
  refine ⟨hM.1, hM.2.1, fun s s' => ?_, fun s => ?_⟩
  · simp only [newMC]
    split_ifs
    · exact hM.2.2.1 _ _
    · exact div_nonneg (hn _ _) (denMC_nonneg M S hM.1 hM.2.2.1 s)
  · simp only [newMC]
    split_ifs with h0
    · exact hM.2.2.2 s
    · rw [← Finset.sum_div, sum_numMC, div_self h0]

theorem possMC_total (M : MC ℝ L n) (S : TSet L) (ht : ∀ t ∈ S.times, 1 ≤ t) (h : possMC M S ≠ []) : 0 < S.times.sum := by
  obtain ⟨x, hx⟩ := List.exists_mem_of_ne_nil _ h
  have hx2 := (List.of_mem_zip ((mem_possMC M S x).mp hx).1).2
  exact List.sum_pos_iff_exists_pos_nat.mpr ⟨_, hx2, ht _ hx2⟩

/-! ### Strict progress -/

/-- C99, strict progress: an iteration that changes the chain strictly increases the log-likelihood. -/
theorem MC.bw_step_strict (processes : ℕ) (S : TSet L) (M M' : MC ℝ L n) (ll : ℝ) (hM : M.Stochastic)
    (hne : ∀ w ∈ S.sequences, w ≠ []) (hlen : S.times.length = S.sequences.length) (ht : ∀ t ∈ S.times, 1 ≤ t)
    (h : stepMC processes S M = .ok (M', ll)) (hc : M' ≠ M) : avgLogLik M.lik S < avgLogLik M'.lik S := by
  obtain ⟨h1, h2, _, _⟩ := stepMC_ok _ _ _ _ _ h
  subst h1
  have hpos := possMC_total M S ht h2
  have hg := M.step_gain S hM (newMC_stochastic S M hM) hne hlen ht hpos
  by_contra hcon
  apply hc
  rw [newMC_eq_iff M S hM.1 hM.2.2.1]
  refine fun s ss => moveMC_eq_zero M S hM.1 hM.2.2.1 (le_trans hg ?_) s ss
  refine mul_nonpos_of_nonneg_of_nonpos (Nat.cast_nonneg _) ?_
  linarith

/-- C99: a chain of maximal likelihood among the chains with the same labels, the same initial distribution and no other
transitions is left unchanged. -/
theorem MC.bw_best_fixed (processes : ℕ) (S : TSet L) (M M' : MC ℝ L n) (ll : ℝ) (hM : M.Stochastic)
    (hne : ∀ w ∈ S.sequences, w ≠ []) (hlen : S.times.length = S.sequences.length) (ht : ∀ t ∈ S.times, 1 ≤ t)
    (h : stepMC processes S M = .ok (M', ll))
    (hbest : ∀ N : MC ℝ L n, N.Stochastic → N.labelling = M.labelling → N.initialState = M.initialState →
      (∀ s ss, M.matrix s ss = 0 → N.matrix s ss = 0) → avgLogLik N.lik S ≤ avgLogLik M.lik S) : M' = M := by
  by_contra hc
  have h1 := M.bw_step_strict processes S M' ll hM hne hlen ht h hc
  have h2 := M.bw_step_keeps_stochastic processes S M' ll hM h
  have h3 := hbest M' h2 (by rw [(stepMC_ok _ _ _ _ _ h).1]; rfl) (by rw [(stepMC_ok _ _ _ _ _ h).1]; rfl)
    (fun s ss h0 => M.bw_step_zero processes S M' ll h s ss h0)
  linarith

/-! ### Fixed points and stationary points -/

theorem MC.nudge_rows (M : MC ℝ L n) (hM : M.Stochastic) (d : Fin n → Fin n → ℝ) (hd : ∀ s, ∑ ss, d s ss = 0) (e : ℝ) (s : Fin n) :
    ∑ ss, (M.nudge d e).matrix s ss = 1 := by
  simp only [nudge]
  rw [Finset.sum_add_distrib, ← Finset.mul_sum, hd, mul_zero, add_zero, hM.2.2.2 s]

theorem MC.nudge_pos (M : MC ℝ L n) (hM : M.Stochastic) (d : Fin n → Fin n → ℝ) (hz : ∀ s ss, M.matrix s ss = 0 → d s ss = 0) :
    ∀ᶠ e in 𝓝 (0:ℝ), ∀ s ss, 0 ≤ (M.nudge d e).matrix s ss ∧ (0 < M.matrix s ss → 0 < (M.nudge d e).matrix s ss) := by
  refine eventually_all.mpr (fun s => eventually_all.mpr (fun ss => ?_))
  rcases (hM.2.2.1 s ss).eq_or_lt with h0 | h0
  · refine Eventually.of_forall (fun e => ?_)
    simp only [nudge]
    rw [hz s ss h0.symm, mul_zero, add_zero]
    exact ⟨hM.2.2.1 s ss, fun h => h⟩
  · have hc : Tendsto (fun e : ℝ => M.matrix s ss + e * d s ss) (𝓝 0) (𝓝 (M.matrix s ss + 0 * d s ss)) :=
      (tendsto_const_nhds).add (tendsto_id.mul_const _)
    have := hc.eventually_const_lt (u := 0) (by simpa using h0)
    filter_upwards [this] with e he
    exact ⟨he.le, fun _ => he⟩

/-- C99, the derivative: when the probabilities are moved in a direction `d`, the derivative of the average log-likelihood is
the sum of the expected uses of the transitions times their relative change, divided by the number of traces. -/
theorem MC.logLik_deriv (S : TSet L) (M : MC ℝ L n) (hM : M.Stochastic) (hne : ∀ w ∈ S.sequences, w ≠ [])
    (hlen : S.times.length = S.sequences.length) (ht : ∀ t ∈ S.times, 1 ≤ t)
    (d : Fin n → Fin n → ℝ) (hd : ∀ s, ∑ ss, d s ss = 0) (hz : ∀ s ss, M.matrix s ss = 0 → d s ss = 0) :
    HasDerivAt (fun e => avgLogLik (M.nudge d e).lik S)
      ((∑ s, ∑ ss, M.uses S s ss * (d s ss / M.matrix s ss)) / (S.times.sum : ℕ)) 0 := by
  simp only [M.uses_eq S hM.2.2.2 hne]
  have hev := M.nudge_pos hM d hz
  have hgain : ∀ᶠ e in 𝓝 (0:ℝ), (∀ x ∈ possMC M S, 0 < totalWeight M.initialState (M.nudge d e).step (fun _ => 1) x.1) ∧
      ((possMC M S).map (fun x => Real.log (totalWeight M.initialState M.step (fun _ => 1) x.1) * x.2)).sum
      + ∑ s, ∑ ss, numMC M S s ss * Real.log ((M.nudge d e).matrix s ss / M.matrix s ss) ≤
      ((possMC M S).map (fun x => Real.log (totalWeight M.initialState (M.nudge d e).step (fun _ => 1) x.1) * x.2)).sum := by
    filter_upwards [hev] with e he
    exact chains_gain_le M (M.nudge d e) S hM.1 hM.2.2.1 (fun s ss => (he s ss).1) rfl ht (fun s ss h _ => (he s ss).2 h)
  have hlik : ∀ᶠ e in 𝓝 (0:ℝ), avgLogLik (M.nudge d e).lik S =
      ((possMC M S).map (fun x => Real.log (totalWeight M.initialState (M.nudge d e).step (fun _ => 1) x.1) * x.2)).sum
        / (S.times.sum : ℕ) := by
    filter_upwards [hev, hgain] with e he hg
    refine M.avg_eq (M.nudge d e) S (M.nudge_rows hM d hd e) hne (fun w hw => ?_)
    rw [(M.nudge d e).lik_eq (M.nudge_rows hM d hd e) w (hne w hw)]
    constructor
    · intro h h0
      have := totalWeight_zero M.step (M.nudge d e).step M.initialState (M.nudge d e).initialState (fun _ => 1)
        (M.step_nonneg hM.2.2.1) hM.1 (fun _ => zero_le_one) (fun s ss o hzero => ?_) (fun _ h => h) w h0
      · exact h.ne' this
      · unfold MC.step at hzero ⊢
        have hl : (M.nudge d e).labelling = M.labelling := rfl
        rw [hl]
        split_ifs at hzero ⊢ with hlab
        · rw [one_mul] at hzero ⊢
          simp only [nudge]
          rw [hzero, hz s ss hzero, mul_zero, add_zero]
        · rw [zero_mul]
    · intro h
      obtain ⟨t, hm⟩ := mem_zip_of_mem S hlen w hw
      exact hg.1 (w, t) ((mem_possMC M S _).mpr ⟨hm, h⟩)
  refine HasDerivAt.congr_of_eventuallyEq ?_ hlik
  refine HasDerivAt.div_const ?_ _
  have hstep : ∀ s ss o, Differentiable ℝ (fun e => (M.nudge d e).step s ss o) := by
    intro s ss o
    unfold MC.step nudge
    simp only
    split_ifs <;> fun_prop
  have h00 : (M.nudge d 0) = M := by unfold nudge; simp
  refine hasDerivAt_of_above _ (fun e => ((possMC M S).map (fun x => Real.log (totalWeight M.initialState M.step (fun _ => 1) x.1) * x.2)).sum
      + ∑ s, ∑ ss, numMC M S s ss * Real.log ((M.nudge d e).matrix s ss / M.matrix s ss)) _ 0 ?_ ?_ ?_ (hgain.mono (fun e h => h.2))
  · refine differentiable_list_sum (possMC M S) _ 0 (fun x hx => ?_)
    refine DifferentiableAt.mul_const (DifferentiableAt.log (differentiable_totalWeight (fun e => (M.nudge d e).step)
      (fun _ => M.initialState) (fun _ => 1) hstep (fun _ => differentiable_const _) x.1 0) ?_) _
    rw [h00]
    exact ((mem_possMC M S x).mp hx).2
  · refine HasDerivAt.const_add _ (HasDerivAt.fun_sum (fun s _ => HasDerivAt.fun_sum (fun ss _ => HasDerivAt.const_mul _ ?_)))
    by_cases hm : M.matrix s ss = 0
    · simp only [hm, div_zero, Real.log_zero]
      exact hasDerivAt_const _ _
    · have h1 : HasDerivAt (fun e => (M.nudge d e).matrix s ss / M.matrix s ss) (d s ss / M.matrix s ss) 0 := by
        simp only [nudge]
        refine HasDerivAt.div_const ?_ _
        have := ((hasDerivAt_id (0:ℝ)).mul_const (d s ss)).const_add (M.matrix s ss)
        simpa using this
      have h2 := h1.log (by rw [h00, div_self hm]; exact one_ne_zero)
      rw [h00, div_self hm, div_one] at h2
      exact h2
  · rw [h00]
    simp

/-- C99, fixed points: an iteration leaves a chain unchanged exactly when the chain is a stationary point of the
log-likelihood of the training set. -/
theorem MC.bw_fixed_iff_stationary (processes : ℕ) (S : TSet L) (M M' : MC ℝ L n) (ll : ℝ) (hM : M.Stochastic)
    (hne : ∀ w ∈ S.sequences, w ≠ []) (hlen : S.times.length = S.sequences.length) (ht : ∀ t ∈ S.times, 1 ≤ t)
    (h : stepMC processes S M = .ok (M', ll)) : M' = M ↔ M.Stationary S := by
  obtain ⟨h1, h2, _, _⟩ := stepMC_ok _ _ _ _ _ h
  subst h1
  have hpos := possMC_total M S ht h2
  have hp : ((S.times.sum : ℕ) : ℝ) ≠ 0 := by exact_mod_cast hpos.ne'
  rw [newMC_eq_iff M S hM.1 hM.2.2.1]
  constructor
  · intro hfix d hd hz
    have hder := M.logLik_deriv S hM hne hlen ht d hd hz
    simp only [M.uses_eq S hM.2.2.2 hne] at hder
    have e : (∑ s, ∑ ss, numMC M S s ss * (d s ss / M.matrix s ss)) = 0 := by
      refine Finset.sum_eq_zero (fun s _ => ?_)
      have : ∀ ss, numMC M S s ss * (d s ss / M.matrix s ss) = denMC M S s * d s ss := by
        intro ss
        rw [hfix s ss]
        by_cases hm : M.matrix s ss = 0
        · rw [hz s ss hm, zero_div, mul_zero, mul_zero]
        · field_simp
      rw [Finset.sum_congr rfl (fun ss _ => this ss), ← Finset.mul_sum, hd, mul_zero]
    rw [e, zero_div] at hder
    exact hder
  · intro hst s ss
    let d : Fin n → Fin n → ℝ := fun s' u => if s' = s then numMC M S s u - denMC M S s * M.matrix s u else 0
    have hd : ∀ s', ∑ u, d s' u = 0 := by
      intro s'
      simp only [d]
      split_ifs with hs
      · rw [Finset.sum_sub_distrib, sum_numMC, ← Finset.mul_sum, hM.2.2.2, mul_one, sub_self]
      · simp
    have hz : ∀ s' u, M.matrix s' u = 0 → d s' u = 0 := by
      intro s' u hm
      simp only [d]
      split_ifs with hs
      · subst hs
        rw [hm, numMC_zero M S _ u hm, mul_zero, sub_zero]
      · rfl
    have h3 := (hst d hd hz).unique (M.logLik_deriv S hM hne hlen ht d hd hz)
    simp only [M.uses_eq S hM.2.2.2 hne] at h3
    have h4 : ∑ s', ∑ u, numMC M S s' u * (d s' u / M.matrix s' u) = 0 := by
      have := h3.symm
      rw [div_eq_zero_iff] at this
      exact this.resolve_right hp
    rw [Finset.sum_eq_single s (by intro s' _ hs'; refine Finset.sum_eq_zero (fun u _ => ?_); simp [d, hs']) (by simp)] at h4
    have h5 : ∑ u, (numMC M S s u - denMC M S s * M.matrix s u) ^ 2 / M.matrix s u = 0 := by
      have e : ∀ u, (numMC M S s u - denMC M S s * M.matrix s u) ^ 2 / M.matrix s u =
          numMC M S s u * (d s u / M.matrix s u) - denMC M S s * d s u := by
        intro u
        by_cases hm : M.matrix s u = 0
        · rw [hz s u hm, hm]; simp
        · simp only [d, if_true]
          field_simp
      rw [Finset.sum_congr rfl (fun u _ => e u), Finset.sum_sub_distrib, h4, ← Finset.mul_sum, hd]
      simp
    have h6 := (Finset.sum_eq_zero_iff_of_nonneg (fun u _ => div_nonneg (sq_nonneg _) (hM.2.2.1 s u))).mp h5 ss (Finset.mem_univ ss)
    by_cases hm : M.matrix s ss = 0
    · rw [numMC_zero M S s ss hm, hm, mul_zero]
    · rw [div_eq_zero_iff] at h6
      have := pow_eq_zero_iff (by norm_num) |>.mp (h6.resolve_right hm)
      linarith

/-! ### Limits -/

theorem MC.avg_le_zero (S : TSet L) (M : MC ℝ L n) (hM : M.Stochastic) : avgLogLik M.lik S ≤ 0 := by
  unfold avgLogLik
  refine div_nonpos_of_nonpos_of_nonneg ?_ (Nat.cast_nonneg _)
  have : ∀ l : List (List L × ℕ), ((l.filter (fun p => 0 < M.lik p.1)).map (fun p => p.2 * Real.log (M.lik p.1))).sum ≤ 0 := by
    intro l
    induction l with
    | nil => simp
    | cons x l ih =>
      rw [List.filter_cons]
      split_ifs
      · rw [List.map_cons, List.sum_cons]
        have := mul_nonpos_of_nonneg_of_nonpos (Nat.cast_nonneg (α := ℝ) x.2)
          (Real.log_nonpos (M.lik_nonneg hM x.1) (M.lik_le_one hM x.1))
        linarith
      · exact ih
  exact this _

/-- What the learned chains keep. -/
def MC.Keeps (M : MC ℝ L n) (S : TSet L) (N : MC ℝ L n) : Prop :=
  N.Stochastic ∧ N.labelling = M.labelling ∧ N.initialState = M.initialState ∧ ∀ w ∈ S.sequences, N.lik w ≠ 0 ↔ M.lik w ≠ 0

theorem MC.climb (processes : ℕ) (S : TSet L) (M : MC ℝ L n)
    (hne : ∀ w ∈ S.sequences, w ≠ []) (hlen : S.times.length = S.sequences.length) (ht : ∀ t ∈ S.times, 1 ≤ t)
    (hpos : 0 < S.times.sum) :
    Climb (stepMC processes S) (fun N => newMC N S) (M.Keeps S) (fun N => avgLogLik N.lik S) (S.times.sum : ℕ) 0 := by
  have htot : (0:ℝ) < (S.times.sum : ℕ) := by exact_mod_cast hpos
  have hgain : ∀ N, M.Keeps S N → moveMC N S ≤ (S.times.sum : ℕ) * (avgLogLik (newMC N S).lik S - avgLogLik N.lik S) :=
    fun N hN => N.step_gain S hN.1 (newMC_stochastic S N hN.1) hne hlen ht hpos
  refine ⟨fun N hN => ?_, fun N N' ll hN h => ?_, htot, fun N hN => ?_, fun N hN h => ?_, fun N hN => N.avg_le_zero S hN.1⟩
  · refine ⟨newMC_stochastic S N hN.1, hN.2.1, hN.2.2.1, fun w hw => ?_⟩
    rw [← hN.2.2.2 w hw]
    exact (N.stepMC_poss S hN.1 ht hne (newMC_stochastic S N hN.1) w hw hlen).symm
  · exact ⟨(stepMC_ok _ _ _ _ _ h).1, (N.bw_step_monotone processes S N' ll hN.1 hne hlen ht h).2.2⟩
  · have h2 : 0 ≤ moveMC N S := Finset.sum_nonneg (fun s _ => Finset.sum_nonneg (fun ss _ => sq_nonneg _))
    have := nonneg_of_mul_nonneg_right (le_trans h2 (hgain N hN)) htot
    linarith
  · have h2 := hgain N hN
    rw [h, sub_self, mul_zero] at h2
    exact (newMC_eq_iff N S hN.1.1 hN.1.2.2.1).mpr (moveMC_eq_zero N S hN.1.1 hN.1.2.2.1 h2)

/-- The core of the limit theorems: iterates along which the gain vanishes. -/
theorem MC.limit_core (processes : ℕ) (S : TSet L) (M : MC ℝ L n) (hM : M.Stochastic)
    (hne : ∀ w ∈ S.sequences, w ≠ []) (hlen : S.times.length = S.sequences.length) (ht : ∀ t ∈ S.times, 1 ≤ t)
    (M1 : MC ℝ L n) (l1 : ℝ) (h1 : stepMC processes S M = .ok (M1, l1))
    {J : Type} {l : Filter J} [l.NeBot] (A : J → MC ℝ L n) (hA : ∀ j, M.Keeps S (A j)) (hA0 : ∀ j, avgLogLik M.lik S ≤ avgLogLik (A j).lik S)
    (hg : Tendsto (fun j => avgLogLik (newMC (A j) S).lik S - avgLogLik (A j).lik S) l (𝓝 0))
    (N : MC ℝ L n) (hl : N.labelling = M.labelling) (hi : N.initialState = M.initialState)
    (hN : ∀ s ss, Tendsto (fun j => (A j).matrix s ss) l (𝓝 (N.matrix s ss))) :
    N.Stochastic ∧ (∀ w ∈ S.sequences, N.lik w ≠ 0 ↔ M.lik w ≠ 0) ∧ (∃ ll, stepMC processes S N = .ok (N, ll)) ∧ N.Stationary S ∧
    Tendsto (fun j => avgLogLik (A j).lik S) l (𝓝 (avgLogLik N.lik S)) := by
  have hst : ∀ j, (A j).Stochastic := fun j => (hA j).1
  have hAl : ∀ j, (A j).labelling = M.labelling := fun j => (hA j).2.1
  have hAi : ∀ j, (A j).initialState = M.initialState := fun j => (hA j).2.2.1
  have hAp : ∀ j, ∀ w ∈ S.sequences, 0 < (A j).lik w ↔ M.lik w ≠ 0 := fun j w hw => by
    rw [MC.pos_iff _ (hst j)]; exact (hA j).2.2.2 w hw
  obtain ⟨_, hposs, _, hone⟩ := stepMC_ok _ _ _ _ _ h1
  have hpos := possMC_total M S ht hposs
  have hNs : N.Stochastic := by
    refine ⟨by rw [hi]; exact hM.1, by rw [hi]; exact hM.2.1, fun s ss => ?_, fun s => ?_⟩
    · exact ge_of_tendsto (hN s ss) (Eventually.of_forall (fun j => (hst j).2.2.1 s ss))
    · have a := tendsto_finsetSum Finset.univ (fun ss _ => hN s ss)
      simp only [fun j => (hst j).2.2.2 s] at a
      exact tendsto_nhds_unique a tendsto_const_nhds |>.symm ▸ rfl
  have hstep : ∀ s ss o, Tendsto (fun j => (A j).step s ss o) l (𝓝 (N.step s ss o)) := by
    intro s ss o
    unfold MC.step
    simp only [hAl, hl]
    exact (hN s ss).const_mul _
  have hlik : ∀ w ∈ S.sequences, Tendsto (fun j => (A j).lik w) l (𝓝 (N.lik w)) := by
    intro w hw
    rw [N.lik_eq hNs.2.2.2 w (hne w hw)]
    simp only [fun j => (A j).lik_eq (hst j).2.2.2 w (hne w hw), hAi, hi]
    exact tendsto_totalWeight (fun j => (A j).step) N.step (fun _ => M.initialState) M.initialState _
      hstep (fun _ => tendsto_const_nhds) w
  obtain ⟨b1, b2⟩ := avgLogLik_limit (fun j => (A j).lik) N.lik M.lik S (avgLogLik M.lik S) 1 le_rfl ht hlen
    hAp (fun j w _ => MC.lik_le_one _ (hst j) w)
    hA0 hlik
  have hNp : ∀ w ∈ S.sequences, N.lik w ≠ 0 ↔ M.lik w ≠ 0 := fun w hw => by rw [← b1 w hw, N.pos_iff hNs]
  have hpossN : ∀ j, possMC (A j) S = possMC N S := by
    intro j
    unfold possMC
    refine List.filter_congr (fun x hx => ?_)
    have hw := (List.of_mem_zip hx).1
    rw [decide_eq_decide, ← MC.lik_eq _ (hst j).2.2.2 _ (hne _ hw), ← N.lik_eq hNs.2.2.2 _ (hne _ hw)]
    have e1 := hAp j x.1 hw
    rw [MC.pos_iff _ (hst j)] at e1
    exact e1.trans (hNp _ hw).symm
  have hmove := moveMC_tendsto (fun j => A j) N S (fun j => by rw [hAl, hl])
    (fun j => by rw [hAi, hi]) hN hpossN
  have hzero : moveMC N S ≤ 0 := by
    refine le_of_tendsto_of_tendsto' hmove (mul_zero ((S.times.sum : ℕ) : ℝ) ▸ hg.const_mul ((S.times.sum : ℕ) : ℝ)) (fun j => ?_)
    exact MC.step_gain S _ (hst j) (newMC_stochastic S _ (hst j)) hne hlen ht hpos
  have hfix : newMC N S = N := (newMC_eq_iff N S hNs.1 hNs.2.2.1).mpr (moveMC_eq_zero N S hNs.1 hNs.2.2.1 hzero)
  have hout : ∃ r, stepMC processes S N = .ok r := by
    refine (N.bw_step_outcome processes S hNs.2.2.2 hne hlen).1 ?_
    obtain ⟨x, hx⟩ := List.exists_mem_of_ne_nil _ hposs
    have hx' := (mem_possMC M S x).mp hx
    have hxw := (List.of_mem_zip hx'.1).1
    by_cases hp : 1 < processes
    · exact Or.inl ⟨hp, x.1, hxw, (hNp _ hxw).mpr (by rw [M.lik_eq hM.2.2.2 _ (hne _ hxw)]; exact hx'.2)⟩
    · refine Or.inr ⟨by omega, fun h0 => by rw [h0] at hxw; simp at hxw, fun w hw => (hNp _ hw).mpr ?_⟩
      obtain ⟨t, hm⟩ := mem_zip_of_mem S hlen w hw
      rw [M.lik_eq hM.2.2.2 _ (hne _ hw)]
      exact hone (by omega) (w, t) hm
  obtain ⟨⟨N', ll⟩, hr⟩ := hout
  have hN' : N' = N := by rw [(stepMC_ok _ _ _ _ _ hr).1, hfix]
  subst hN'
  exact ⟨hNs, hNp, ⟨ll, hr⟩, (MC.bw_fixed_iff_stationary processes S _ _ ll hNs hne hlen ht hr).mp rfl, b2⟩

/-- C99, limits: let `st k` be the result of learning with `k` iterations (tolerance 0). If the learned matrices converge along
some subsequence, to the matrix of a chain `N`, then `N` is a Markov chain, the same traces of the set are possible, the
log-likelihoods of all the learned chains converge to the one of `N`, and `N` is a stationary point that one more iteration
leaves unchanged. -/
theorem MC.fit_limit (processes : ℕ) (S : TSet L) (M : MC ℝ L n) (hM : M.Stochastic)
    (hne : ∀ w ∈ S.sequences, w ≠ []) (hlen : S.times.length = S.sequences.length) (ht : ∀ t ∈ S.times, 1 ≤ t)
    (st : ℕ → LoopState (MC ℝ L n)) (h : ∀ k, fit (stepMC processes S) 0 k M = .ok (st k))
    (φ : ℕ → ℕ) (hφ : StrictMono φ) (N : MC ℝ L n) (hl : N.labelling = M.labelling) (hi : N.initialState = M.initialState)
    (hN : ∀ s ss, Tendsto (fun j => (st (φ j)).h.matrix s ss) atTop (𝓝 (N.matrix s ss))) :
    N.Stochastic ∧ (∀ w ∈ S.sequences, N.lik w ≠ 0 ↔ M.lik w ≠ 0) ∧
    Tendsto (fun k => avgLogLik (st k).h.lik S) atTop (𝓝 (avgLogLik N.lik S)) ∧
    (∃ ll, stepMC processes S N = .ok (N, ll)) ∧ N.Stationary S := by
  have hpos := fit_pos (stepMC processes S) 0 M 1 le_rfl (st 1) (h 1) S ht (fun x hx => ((mem_possMC M S x).mp hx).1)
    (fun r l hr => (stepMC_ok _ _ _ _ _ hr).2.1)
  obtain ⟨⟨l1, h1⟩, c2, c3, y, c4⟩ := (M.climb processes S hne hlen ht hpos).fit_limits M ⟨hM, rfl, rfl, fun _ _ => Iff.rfl⟩ st h
  obtain ⟨b1, b2, b3, b4, b5⟩ := M.limit_core processes S hM hne hlen ht _ l1 h1 (fun j => (st (φ j)).h)
    (fun j => (c2 (φ j)).1) (fun j => (c2 (φ j)).2) (c3.comp hφ.tendsto_atTop) N hl hi hN
  refine ⟨b1, b2, ?_, b3, b4⟩
  rw [tendsto_nhds_unique b5 (c4.comp hφ.tendsto_atTop)]
  exact c4

/-- C99, existence: such subsequences exist. -/
theorem MC.fit_limit_exists (processes : ℕ) (S : TSet L) (M : MC ℝ L n) (hM : M.Stochastic)
    (st : ℕ → LoopState (MC ℝ L n)) (h : ∀ k, fit (stepMC processes S) 0 k M = .ok (st k)) :
    ∃ (φ : ℕ → ℕ) (N : MC ℝ L n), StrictMono φ ∧ N.labelling = M.labelling ∧ N.initialState = M.initialState ∧
      ∀ s ss, Tendsto (fun j => (st (φ j)).h.matrix s ss) atTop (𝓝 (N.matrix s ss)) := by
  have hs : ∀ k, (st k).h.matrix ∈ Metric.closedBall (0 : Fin n → Fin n → ℝ) 1 := by
    intro k
    have hk := M.fit_stochastic processes S 0 k hM (st k) (h k)
    rw [mem_closedBall_zero_iff, pi_norm_le_iff_of_nonneg zero_le_one]
    intro s
    rw [pi_norm_le_iff_of_nonneg zero_le_one]
    intro ss
    rw [Real.norm_eq_abs, abs_of_nonneg (hk.2.2.1 s ss), ← hk.2.2.2 s]
    exact Finset.single_le_sum (fun u _ => hk.2.2.1 s u) (Finset.mem_univ ss)
  obtain ⟨a, _, φ, hφ, ha⟩ := (isCompact_closedBall (0 : Fin n → Fin n → ℝ) 1).tendsto_subseq hs
  refine ⟨φ, { M with matrix := a }, hφ, rfl, rfl, fun s ss => ?_⟩
  exact (tendsto_pi_nhds.mp ((tendsto_pi_nhds.mp ha) s)) ss

/-- C99, tolerances: let `st j` be the result of learning with the tolerance `eps j`, stopped because the progress was below
the tolerance. If the tolerances tend to 0 and the learned matrices converge to the matrix of a chain `N`, then `N` is a
stationary point that one more iteration leaves unchanged. -/
theorem MC.fit_tolerance (processes : ℕ) (S : TSet L) (M : MC ℝ L n) (hM : M.Stochastic)
    (hne : ∀ w ∈ S.sequences, w ≠ []) (hlen : S.times.length = S.sequences.length) (ht : ∀ t ∈ S.times, 1 ≤ t)
    (eps : ℕ → ℝ) (maxIt : ℕ → ℕ) (st : ℕ → LoopState (MC ℝ L n)) (heps : Tendsto eps atTop (𝓝 0))
    (h : ∀ j, fit (stepMC processes S) (eps j) (maxIt j) M = .ok (st j)) (hstop : ∀ j, (st j).counter < maxIt j)
    (N : MC ℝ L n) (hl : N.labelling = M.labelling) (hi : N.initialState = M.initialState)
    (hN : ∀ s ss, Tendsto (fun j => (st j).h.matrix s ss) atTop (𝓝 (N.matrix s ss))) :
    N.Stochastic ∧ (∀ w ∈ S.sequences, N.lik w ≠ 0 ↔ M.lik w ≠ 0) ∧
    (∃ ll, stepMC processes S N = .ok (N, ll)) ∧ N.Stationary S := by
  have hc : 1 ≤ maxIt 0 := by have := hstop 0; omega
  have hpos := fit_pos (stepMC processes S) (eps 0) M (maxIt 0) hc (st 0) (h 0) S ht (fun x hx => ((mem_possMC M S x).mp hx).1)
    (fun r l hr => (stepMC_ok _ _ _ _ _ hr).2.1)
  obtain ⟨⟨l1, h1⟩, c2, c3⟩ := (M.climb processes S hne hlen ht hpos).fit_tolerances M ⟨hM, rfl, rfl, fun _ _ => Iff.rfl⟩
    eps maxIt st heps h hstop
  obtain ⟨b1, b2, b3, b4, _⟩ := M.limit_core processes S hM hne hlen ht _ l1 h1 (fun j => (st j).h)
    (fun j => (c2 j).1) (fun j => (c2 j).2) c3 N hl hi hN
  exact ⟨b1, b2, b3, b4⟩

/-- C99, for every starting point: if the initial chain can generate some trace of the set, learning with more and more
iterations approaches, along a subsequence, a chain that is a stationary point of the log-likelihood, at least as likely as
the initial one; and the log-likelihoods of the learned chains converge to its log-likelihood. -/
theorem MC.fit_converges (processes : ℕ) (hp : 1 < processes) (S : TSet L) (M : MC ℝ L n) (hM : M.Stochastic)
    (hne : ∀ w ∈ S.sequences, w ≠ []) (hlen : S.times.length = S.sequences.length) (ht : ∀ t ∈ S.times, 1 ≤ t)
    (w : List L) (hw : w ∈ S.sequences) (hl : M.lik w ≠ 0) :
    ∃ (st : ℕ → LoopState (MC ℝ L n)) (φ : ℕ → ℕ) (N : MC ℝ L n), (∀ k, fit (stepMC processes S) 0 k M = .ok (st k)) ∧
      StrictMono φ ∧ N.Stochastic ∧ N.Stationary S ∧ avgLogLik M.lik S ≤ avgLogLik N.lik S ∧
      (∀ s ss, Tendsto (fun j => (st (φ j)).h.matrix s ss) atTop (𝓝 (N.matrix s ss))) ∧
      Tendsto (fun k => avgLogLik (st k).h.lik S) atTop (𝓝 (avgLogLik N.lik S)) := by
  choose st hst using fun k => M.fit_total processes hp S 0 k hM hne hlen ht w hw hl
  obtain ⟨φ, N, h1, h2, h3, h4⟩ := M.fit_limit_exists processes S hM st hst
  obtain ⟨a1, a2, a3, a4, a5⟩ := M.fit_limit processes S hM hne hlen ht st hst φ h1 N h2 h3 h4
  exact ⟨st, φ, N, hst, h1, a1, a5, ge_of_tendsto a3 (Eventually.of_forall (fun k =>
    M.fit_monotone processes S 0 k hM hne hlen ht (st k) (hst k))), h4, a3⟩

/-- A set with one trace. -/
def exSetOne : TSet ℕ := { sequences := [[2, 0, 1]], times := [1], floatTimes := false, type := some 0 }

/-- The hypotheses are met by `exMC` and `exSetOne`, and there an iteration does change the chain. -/
example : (exMC ℝ).Stochastic ∧ (∀ w ∈ exSetOne.sequences, w ≠ []) ∧ exSetOne.times.length = exSetOne.sequences.length ∧
    (∀ t ∈ exSetOne.times, 1 ≤ t) ∧ [2, 0, 1] ∈ exSetOne.sequences ∧ (exMC ℝ).lik [2, 0, 1] ≠ 0 ∧
    ∃ M' ll, stepMC 2 exSetOne (exMC ℝ) = .ok (M', ll) ∧ M' ≠ exMC ℝ := by
  have hl : (exMC ℝ).lik [2, 0, 1] ≠ 0 := by rw [exMC_lik.1]; norm_num
  refine ⟨exMC_stochastic, by decide, by decide, by decide, by decide, hl, ?_⟩
  obtain ⟨⟨M', ll⟩, hr⟩ := ((exMC ℝ).bw_step_outcome 2 exSetOne exMC_stochastic.2.2.2 (by decide) (by decide)).1
    (Or.inl ⟨by norm_num, [2, 0, 1], by decide, hl⟩)
  refine ⟨M', ll, hr, fun hc => ?_⟩
  have h1 := (newMC_eq_iff (exMC ℝ) exSetOne exMC_stochastic.1 exMC_stochastic.2.2.1).mp
    ((stepMC_ok _ _ _ _ _ hr).1.symm.trans hc) 0 1
  have hw : totalWeight (exMC ℝ).initialState (exMC ℝ).step (fun _ => 1) [2, 0, 1] = 1 / 2 := by
    rw [← MC.lik_eq _ exMC_stochastic.2.2.2 _ (by simp)]; exact exMC_lik.1
  have hp : possMC (exMC ℝ) exSetOne = [([2, 0, 1], 1)] := by
    unfold possMC exSetOne
    simp [hw]
  rw [← sum_numMC] at h1
  unfold numMC at h1
  rw [hp] at h1
  simp only [List.map_cons, List.map_nil, List.sum_cons, List.sum_nil, wkMC, hw] at h1
  simp [use_cons, beta0, betas, bwd, fwd, exMC, MC.step, Fin.sum_univ_three] at h1

end mc
end Jajapy
