import Verif.Lemmas.LimitMDP
import Verif.Lemmas.LimitCT
import Verif.Lemmas.Climb
import Verif.Props.BWMDP
import Mathlib.Topology.Sequences
import Mathlib.Topology.MetricSpace.ProperSpace.Real

/-!
Property C99 for Markov decision processes: what Baum-Welch converges to.
-/

set_option linter.unusedSectionVars false

namespace Jajapy

open Finset Spec BW Filter Topology

namespace MDP
variable {L : Type} [DecidableEq L] {n : ℕ}

theorem avg_eq (M N : MDP ℝ L n) (S : TSet L) (ho : ∀ w ∈ S.sequences, w.length % 2 = 1)
    (h : ∀ w ∈ S.sequences, 0 < N.lik w ↔ weightMDP M w ≠ 0) :
    avgLogLik N.lik S = ((possMDP M S).map (fun x => Real.log (weightMDP N x.1) * x.2)).sum / (S.times.sum : ℕ) := by
  rw [avgLogLik_filter _ _ S h]
  congr 2
  refine List.map_congr_left (fun x hx => ?_)
  rw [weightMDP_lik N _ (ho _ (List.of_mem_zip (List.mem_filter.mp hx).1).1)]

theorem pos_iff (M : MDP ℝ L n) (hM : M.Stochastic) (w : List L) : 0 < M.lik w ↔ M.lik w ≠ 0 :=
  ⟨fun h => h.ne', fun h => lt_of_le_of_ne (M.lik_nonneg hM.1 hM.2.2.1 w) (Ne.symm h)⟩

/-- Where no transition appears no trace becomes possible. -/
theorem weight_zero (M : MDP ℝ L n) (hi0 : ∀ s, 0 ≤ M.initialState s) (hm0 : ∀ s i s', 0 ≤ M.matrix s i s')
    (B : Fin n → Fin M.actions.length → Fin n → ℝ) (hz : ∀ s i ss, M.matrix s i ss = 0 → B s i ss = 0) (w : List L) (hw : w ≠ [])
    (h : weightMDP M w = 0) : weightMDP (M.withProb B) w = 0 := by
  rw [weightMDP_eq _ w hw] at h ⊢
  refine totalWeight_zero M.step _ M.initialState _ _ (M.step_nonneg hm0) hi0 (maskMDP_nonneg M w) ?_ (fun s hs => hs) _ h
  intro s ss o hso
  unfold step at hso ⊢
  rcases mul_eq_zero.mp hso with h | h
  · rw [h, zero_mul]
  · have e : (M.withProb B).prob s o.2 ss = 0 := by
      unfold prob at h ⊢
      have h0 : ∀ i : Fin M.actions.length, 0 ≤ if M.actions[i] = o.2 then M.matrix s i ss else 0 := by
        intro i
        split_ifs
        · exact hm0 s i ss
        · exact le_refl _
      have h1 := (Finset.sum_eq_zero_iff_of_nonneg (fun i _ => h0 i)).mp h
      refine Finset.sum_eq_zero (fun i _ => ?_)
      have h2 := h1 i (Finset.mem_univ i)
      split_ifs at h2 ⊢ with hc
      · exact hz s i ss h2
      · rfl
    rw [e, mul_zero]

theorem newMDP_zero (M : MDP ℝ L n) (hn : M.actions.Nodup) (S : TSet L) (s : Fin n) (i : Fin M.actions.length) (ss : Fin n)
    (h : M.matrix s i ss = 0) : (newMDP M S).matrix s i ss = 0 := by
  simp only [newMDP, h, numMDP_zero M hn S s i ss h, zero_div, ite_self]

theorem newMDP_poss (M : MDP ℝ L n) (hn : M.actions.Nodup) (hM : M.Stochastic) (S : TSet L)
    (ho : ∀ w ∈ S.sequences, w.length % 2 = 1) (hlen : S.times.length = S.sequences.length) (ht : ∀ t ∈ S.times, 1 ≤ t)
    (w : List L) (hw : w ∈ S.sequences) : (newMDP M S).lik w ≠ 0 ↔ M.lik w ≠ 0 := by
  rw [← weightMDP_lik _ w (ho w hw), ← weightMDP_lik _ w (ho w hw)]
  constructor
  · intro h h0
    exact h (M.weight_zero hM.1 hM.2.2.1 (newMDP M S).matrix (M.newMDP_zero hn S) w (ne_nil_of_odd (ho w hw)) h0)
  · intro h
    obtain ⟨t, hm⟩ := mem_zip_of_mem S hlen w hw
    exact ((newMDP_gain M hn S hM.1 hM.2.2.1 hM.row_le ht).1 (w, t) ((mem_possMDP M S _).mpr ⟨hm, h⟩)).ne'

theorem newMDP_stochastic (M : MDP ℝ L n) (hn : M.actions.Nodup) (hM : M.Stochastic) (S : TSet L) : (newMDP M S).Stochastic := by
  obtain ⟨hi0, hi1, hm0, hm1⟩ := hM
  have hnn := numMDP_nonneg M S hi0 hm0
  refine ⟨hi0, hi1, fun s i s' => ?_, fun s i => ?_⟩
  · simp only [newMDP]
    split_ifs
    · exact hm0 _ _ _
    · exact div_nonneg (hnn _ _ _) (denMDP_nonneg M S hi0 hm0 s i)
  · simp only [newMDP]
    split_ifs with h0
    · exact hm1 s i
    · left
      refine (Finset.sum_div _ _ _).symm.trans ?_
      exact (congrArg (· / denMDP M S s i) (sum_numMDP M S s i)).trans (div_self h0)

/-- The gain of an iteration is at least the distance it covers. -/
theorem step_gain (M : MDP ℝ L n) (hn : M.actions.Nodup) (hM : M.Stochastic) (S : TSet L)
    (ho : ∀ w ∈ S.sequences, w.length % 2 = 1) (hlen : S.times.length = S.sequences.length) (ht : ∀ t ∈ S.times, 1 ≤ t)
    (hpos : 0 < S.times.sum) :
    moveMDP M S ≤ (S.times.sum : ℕ) * (avgLogLik (newMDP M S).lik S - avgLogLik M.lik S) := by
  have hp : ((S.times.sum : ℕ) : ℝ) ≠ 0 := by exact_mod_cast hpos.ne'
  have h0 := M.avg_eq M S ho (fun w hw => by rw [M.pos_iff hM, weightMDP_lik M w (ho w hw)])
  have h1 := M.avg_eq (newMDP M S) S ho (fun w hw => by
    rw [pos_iff _ (M.newMDP_stochastic hn hM S), M.newMDP_poss hn hM S ho hlen ht w hw, weightMDP_lik M w (ho w hw)])
  have hg := newMDP_gain_sq M hn S hM.1 hM.2.2.1 hM.row_le ht
  rw [h0, h1, mul_sub, mul_div_cancel₀ _ hp, mul_div_cancel₀ _ hp]
  linarith

theorem possMDP_total (M : MDP ℝ L n) (S : TSet L) (ht : ∀ t ∈ S.times, 1 ≤ t) (h : possMDP M S ≠ []) : 0 < S.times.sum := by
  obtain ⟨x, hx⟩ := List.exists_mem_of_ne_nil _ h
  have hx2 := (List.of_mem_zip ((mem_possMDP M S x).mp hx).1).2
  exact List.sum_pos_iff_exists_pos_nat.mpr ⟨_, hx2, ht _ hx2⟩

/-! ### Strict progress -/

/-- C99, MDP, strict progress: an iteration that changes the MDP strictly increases the log-likelihood. -/
theorem bw_step_strict (processes : ℕ) (S : TSet L) (M M' : MDP ℝ L n) (ll : ℝ) (hn : M.actions.Nodup) (hM : M.Stochastic)
    (ho : ∀ w ∈ S.sequences, w.length % 2 = 1) (hlen : S.times.length = S.sequences.length) (ht : ∀ t ∈ S.times, 1 ≤ t)
    (h : stepMDP processes S M = .ok (M', ll)) (hc : M' ≠ M) : avgLogLik M.lik S < avgLogLik M'.lik S := by
  obtain ⟨h1, h2, _, _⟩ := stepMDP_ok _ _ _ _ _ hn (fun w hw => ne_nil_of_odd (ho w hw)) h
  subst h1
  have hg := M.step_gain hn hM S ho hlen ht (M.possMDP_total S ht h2)
  by_contra hcon
  apply hc
  rw [newMDP_eq_iff M S hM.1 hM.2.2.1]
  refine fun s i ss => moveMDP_eq_zero M S hM.1 hM.2.2.1 (le_trans hg ?_) s i ss
  refine mul_nonpos_of_nonneg_of_nonpos (Nat.cast_nonneg _) ?_
  linarith

/-- C99, MDP: an MDP of maximal likelihood among those with the same actions, the same labels, the same initial distribution and
no other transitions is left unchanged. -/
theorem bw_best_fixed (processes : ℕ) (S : TSet L) (M M' : MDP ℝ L n) (ll : ℝ) (hn : M.actions.Nodup) (hM : M.Stochastic)
    (ho : ∀ w ∈ S.sequences, w.length % 2 = 1) (hlen : S.times.length = S.sequences.length) (ht : ∀ t ∈ S.times, 1 ≤ t)
    (h : stepMDP processes S M = .ok (M', ll))
    (hbest : ∀ N : MDP ℝ L n, N.Stochastic → N.actions = M.actions → N.labelling = M.labelling → N.initialState = M.initialState →
      (∀ s x ss, M.prob s x ss = 0 → N.prob s x ss = 0) → avgLogLik N.lik S ≤ avgLogLik M.lik S) : M' = M := by
  by_contra hc
  have h1 := M.bw_step_strict processes S M' ll hn hM ho hlen ht h hc
  obtain ⟨e1, e2, e3⟩ := M.bw_step_keeps _ _ _ _ h
  have h3 := hbest M' (M.bw_step_stochastic processes S M' ll hn hM ho h).1 e1 e2 e3
    (fun s x ss h0 => M.bw_step_zero processes S M' ll hn ho h s x ss h0)
  linarith

/-! ### Fixed points and stationary points -/

theorem nudge_pos (M : MDP ℝ L n) (hM : M.Stochastic) (d : Fin n → Fin M.actions.length → Fin n → ℝ)
    (hz : ∀ s i ss, M.matrix s i ss = 0 → d s i ss = 0) :
    ∀ᶠ e in 𝓝 (0:ℝ), ∀ s i ss, 0 ≤ M.matrix s i ss + e * d s i ss ∧ (0 < M.matrix s i ss → 0 < M.matrix s i ss + e * d s i ss) := by
  refine eventually_all.mpr (fun s => eventually_all.mpr (fun i => eventually_all.mpr (fun ss => ?_)))
  rcases (hM.2.2.1 s i ss).eq_or_lt with h0 | h0
  · refine Eventually.of_forall (fun e => ?_)
    rw [hz s i ss h0.symm, mul_zero, add_zero]
    exact ⟨hM.2.2.1 s i ss, fun h => h⟩
  · have hc : Tendsto (fun e : ℝ => M.matrix s i ss + e * d s i ss) (𝓝 0) (𝓝 (M.matrix s i ss + 0 * d s i ss)) :=
      (tendsto_const_nhds).add (tendsto_id.mul_const _)
    have := hc.eventually_const_lt (u := 0) (by simpa using h0)
    filter_upwards [this] with e he
    exact ⟨he.le, fun _ => he⟩

/-- C99, MDP, the derivative: when the probabilities are moved in a direction `d`, the derivative of the average log-likelihood
is the sum of the expected uses of the transitions times their relative change, divided by the number of traces. -/
theorem logLik_deriv (S : TSet L) (M : MDP ℝ L n) (hn : M.actions.Nodup) (hM : M.Stochastic)
    (ho : ∀ w ∈ S.sequences, w.length % 2 = 1) (hlen : S.times.length = S.sequences.length) (ht : ∀ t ∈ S.times, 1 ≤ t)
    (d : Fin n → Fin M.actions.length → Fin n → ℝ) (hz : ∀ s i ss, M.matrix s i ss = 0 → d s i ss = 0) :
    HasDerivAt (fun e => avgLogLik (M.nudge d e).lik S)
      ((∑ s, ∑ i : Fin M.actions.length, ∑ ss, M.uses S s M.actions[i] ss * (d s i ss / M.matrix s i ss)) / (S.times.sum : ℕ)) 0 := by
  simp only [M.uses_eq S ho]
  have hev := M.nudge_pos hM d hz
  have hgain : ∀ᶠ e in 𝓝 (0:ℝ), (∀ x ∈ possMDP M S, 0 < weightMDP (M.nudge d e) x.1) ∧
      ((possMDP M S).map (fun x => Real.log (weightMDP M x.1) * x.2)).sum
      + ∑ s, ∑ i, ∑ ss, numMDP M S s i ss * Real.log ((M.matrix s i ss + e * d s i ss) / M.matrix s i ss) ≤
      ((possMDP M S).map (fun x => Real.log (weightMDP (M.nudge d e) x.1) * x.2)).sum := by
    filter_upwards [hev] with e he
    exact mdp_gain_le M hn S hM.1 hM.2.2.1 (fun s i ss => M.matrix s i ss + e * d s i ss) (fun s i ss => (he s i ss).1) ht
      (fun s i ss h _ => (he s i ss).2 h)
  have hlik : ∀ᶠ e in 𝓝 (0:ℝ), avgLogLik (M.nudge d e).lik S =
      ((possMDP M S).map (fun x => Real.log (weightMDP (M.nudge d e) x.1) * x.2)).sum / (S.times.sum : ℕ) := by
    filter_upwards [hgain] with e hg
    refine M.avg_eq (M.nudge d e) S ho (fun w hw => ?_)
    rw [← weightMDP_lik _ w (ho w hw)]
    constructor
    · intro h h0
      refine h.ne' (M.weight_zero hM.1 hM.2.2.1 (fun s i ss => M.matrix s i ss + e * d s i ss) (fun s i ss h0 => ?_) w
        (ne_nil_of_odd (ho w hw)) h0)
      rw [h0, hz s i ss h0, mul_zero, add_zero]
    · intro h
      obtain ⟨t, hm⟩ := mem_zip_of_mem S hlen w hw
      exact hg.1 (w, t) ((mem_possMDP M S _).mpr ⟨hm, h⟩)
  refine HasDerivAt.congr_of_eventuallyEq ?_ hlik
  refine HasDerivAt.div_const ?_ _
  have hstep : ∀ s ss o, Differentiable ℝ (fun e => (M.nudge d e).step s ss o) := by
    intro s ss o
    have es : ∀ e, (M.nudge d e).step s ss o = (if M.labelling s = o.1 then 1 else 0) *
      ∑ i : Fin M.actions.length, if M.actions[i] = o.2 then M.matrix s i ss + e * d s i ss else 0 := fun _ => rfl
    simp only [es]
    refine Differentiable.const_mul (Differentiable.fun_sum (fun i _ => ?_)) _
    split_ifs <;> fun_prop
  have h00 : (M.nudge d 0) = M := by unfold nudge; simp
  refine hasDerivAt_of_above _ (fun e => ((possMDP M S).map (fun x => Real.log (weightMDP M x.1) * x.2)).sum
      + ∑ s, ∑ i, ∑ ss, numMDP M S s i ss * Real.log ((M.matrix s i ss + e * d s i ss) / M.matrix s i ss)) _ 0 ?_ ?_ ?_
      (hgain.mono (fun e h => h.2))
  · refine differentiable_list_sum (possMDP M S) _ 0 (fun x hx => ?_)
    have hx0 := ((mem_possMDP M S x).mp hx).2
    refine DifferentiableAt.mul_const (DifferentiableAt.log ?_ (by rw [h00]; exact hx0)) _
    simp only [fun e => weightMDP_eq (M.nudge d e) x.1 (ne_nil_of_weight _ _ hx0)]
    exact differentiable_totalWeight (fun e => (M.nudge d e).step) (fun _ => M.initialState) (maskMDP M x.1) hstep
      (fun _ => differentiable_const _) (pairs x.1) 0
  · refine HasDerivAt.const_add _ (HasDerivAt.fun_sum (fun s _ => HasDerivAt.fun_sum (fun i _ => HasDerivAt.fun_sum (fun ss _ =>
      HasDerivAt.const_mul _ ?_))))
    by_cases hm : M.matrix s i ss = 0
    · simp only [hm, div_zero, Real.log_zero]
      exact hasDerivAt_const _ _
    · have h1 : HasDerivAt (fun e => (M.matrix s i ss + e * d s i ss) / M.matrix s i ss) (d s i ss / M.matrix s i ss) 0 := by
        refine HasDerivAt.div_const ?_ _
        have := ((hasDerivAt_id (0:ℝ)).mul_const (d s i ss)).const_add (M.matrix s i ss)
        simpa using this
      have e1 : (M.matrix s i ss + 0 * d s i ss) / M.matrix s i ss = 1 := by rw [zero_mul, add_zero, div_self hm]
      have h2 := h1.log (by rw [e1]; exact one_ne_zero)
      rw [e1, div_one] at h2
      exact h2
  · rw [h00]
    simp only [zero_mul, add_zero]
    have hz : ∀ x : ℝ, Real.log (x / x) = 0 := by
      intro x
      by_cases h : x = 0
      · simp [h]
      · simp [div_self h]
    simp [hz]

/-- C99, MDP, fixed points: an iteration leaves an MDP unchanged exactly when it is a stationary point of the log-likelihood of
the training set. -/
theorem bw_fixed_iff_stationary (processes : ℕ) (S : TSet L) (M M' : MDP ℝ L n) (ll : ℝ) (hn : M.actions.Nodup) (hM : M.Stochastic)
    (ho : ∀ w ∈ S.sequences, w.length % 2 = 1) (hlen : S.times.length = S.sequences.length) (ht : ∀ t ∈ S.times, 1 ≤ t)
    (h : stepMDP processes S M = .ok (M', ll)) : M' = M ↔ M.Stationary S := by
  obtain ⟨h1, h2, _, _⟩ := stepMDP_ok _ _ _ _ _ hn (fun w hw => ne_nil_of_odd (ho w hw)) h
  subst h1
  have hpos := M.possMDP_total S ht h2
  have hp : ((S.times.sum : ℕ) : ℝ) ≠ 0 := by exact_mod_cast hpos.ne'
  rw [newMDP_eq_iff M S hM.1 hM.2.2.1]
  constructor
  · intro hfix d hd hz
    have hder := M.logLik_deriv S hn hM ho hlen ht d hz
    simp only [M.uses_eq S ho] at hder
    have e : (∑ s, ∑ i, ∑ ss, numMDP M S s i ss * (d s i ss / M.matrix s i ss)) = 0 := by
      refine Finset.sum_eq_zero (fun s _ => Finset.sum_eq_zero (fun i _ => ?_))
      have : ∀ ss, numMDP M S s i ss * (d s i ss / M.matrix s i ss) = denMDP M S s i * d s i ss := by
        intro ss
        rw [hfix s i ss]
        by_cases hm : M.matrix s i ss = 0
        · rw [hz s i ss hm, zero_div, mul_zero, mul_zero]
        · field_simp
      rw [Finset.sum_congr rfl (fun ss _ => this ss), ← Finset.mul_sum, hd, mul_zero]
    rw [e, zero_div] at hder
    exact hder
  · intro hst s i ss
    let d : Fin n → Fin M.actions.length → Fin n → ℝ :=
      fun s' i' u => if s' = s ∧ i' = i then numMDP M S s i u - denMDP M S s i * M.matrix s i u else 0
    have hrow : denMDP M S s i * ∑ u, M.matrix s i u = denMDP M S s i := by
      rcases hM.2.2.2 s i with h | h
      · rw [h, mul_one]
      · have h0 : denMDP M S s i = 0 := by
          rw [← sum_numMDP]
          refine Finset.sum_eq_zero (fun ss _ => numMDP_zero M hn S s i ss ?_)
          exact (Finset.sum_eq_zero_iff_of_nonneg (fun ss _ => hM.2.2.1 s i ss)).mp h ss (Finset.mem_univ ss)
        rw [h0, zero_mul]
    have hd : ∀ s' i', ∑ u, d s' i' u = 0 := by
      intro s' i'
      simp only [d]
      split_ifs with hs
      · rw [Finset.sum_sub_distrib, sum_numMDP, ← Finset.mul_sum, hrow, sub_self]
      · simp
    have hz : ∀ s' i' u, M.matrix s' i' u = 0 → d s' i' u = 0 := by
      intro s' i' u hm
      simp only [d]
      split_ifs with hs
      · obtain ⟨rfl, rfl⟩ := hs
        rw [hm, numMDP_zero M hn S _ _ u hm, mul_zero, sub_zero]
      · rfl
    have h3 := (hst d hd hz).unique (M.logLik_deriv S hn hM ho hlen ht d hz)
    simp only [M.uses_eq S ho] at h3
    have h4 : ∑ s', ∑ i', ∑ u, numMDP M S s' i' u * (d s' i' u / M.matrix s' i' u) = 0 := by
      have := h3.symm
      rw [div_eq_zero_iff] at this
      exact this.resolve_right hp
    rw [Finset.sum_eq_single s (by
        intro s' _ hs'
        refine Finset.sum_eq_zero (fun i' _ => Finset.sum_eq_zero (fun u _ => ?_))
        simp [d, hs']) (by simp),
      Finset.sum_eq_single i (by
        intro i' _ hi'
        refine Finset.sum_eq_zero (fun u _ => ?_)
        simp [d, hi']) (by simp)] at h4
    have h5 : ∑ u, (numMDP M S s i u - denMDP M S s i * M.matrix s i u) ^ 2 / M.matrix s i u = 0 := by
      have e : ∀ u, (numMDP M S s i u - denMDP M S s i * M.matrix s i u) ^ 2 / M.matrix s i u =
          numMDP M S s i u * (d s i u / M.matrix s i u) - denMDP M S s i * d s i u := by
        intro u
        by_cases hm : M.matrix s i u = 0
        · rw [hz s i u hm, hm]; simp
        · simp only [d, and_self, if_true]
          field_simp
      rw [Finset.sum_congr rfl (fun u _ => e u), Finset.sum_sub_distrib, h4, ← Finset.mul_sum, hd]
      simp
    have h6 := (Finset.sum_eq_zero_iff_of_nonneg (fun u _ => div_nonneg (sq_nonneg _) (hM.2.2.1 s i u))).mp h5 ss (Finset.mem_univ ss)
    by_cases hm : M.matrix s i ss = 0
    · rw [numMDP_zero M hn S s i ss hm, hm, mul_zero]
    · rw [div_eq_zero_iff] at h6
      have := pow_eq_zero_iff (by norm_num) |>.mp (h6.resolve_right hm)
      linarith

/-! ### Limits -/

/-- What the learned MDPs keep. -/
def Keeps (M : MDP ℝ L n) (S : TSet L) (N : MDP ℝ L n) : Prop :=
  (∃ B, N = M.withProb B) ∧ N.Stochastic ∧ ∀ w ∈ S.sequences, N.lik w ≠ 0 ↔ M.lik w ≠ 0

theorem Keeps.nodup {M : MDP ℝ L n} {S : TSet L} {N : MDP ℝ L n} (h : M.Keeps S N) (hn : M.actions.Nodup) : N.actions.Nodup := by
  obtain ⟨⟨B, rfl⟩, _⟩ := h
  exact hn

theorem climb (processes : ℕ) (S : TSet L) (M : MDP ℝ L n) (hn : M.actions.Nodup)
    (ho : ∀ w ∈ S.sequences, w.length % 2 = 1) (hlen : S.times.length = S.sequences.length) (ht : ∀ t ∈ S.times, 1 ≤ t)
    (hpos : 0 < S.times.sum) :
    Climb (stepMDP processes S) (fun N => newMDP N S) (M.Keeps S) (fun N => avgLogLik N.lik S) (S.times.sum : ℕ) (Real.log 1) := by
  have htot : (0:ℝ) < (S.times.sum : ℕ) := by exact_mod_cast hpos
  have hgain : ∀ N, M.Keeps S N → moveMDP N S ≤ (S.times.sum : ℕ) * (avgLogLik (newMDP N S).lik S - avgLogLik N.lik S) :=
    fun N hN => N.step_gain (hN.nodup hn) hN.2.1 S ho hlen ht hpos
  refine ⟨fun N hN => ?_, fun N N' ll hN h => ?_, htot, fun N hN => ?_, fun N hN h => ?_,
    fun N hN => avgLogLik_le _ S 1 le_rfl (fun w _ => (N.lik_mem_unit (hN.nodup hn) hN.2.1 w).2)⟩
  · refine ⟨?_, N.newMDP_stochastic (hN.nodup hn) hN.2.1 S, fun w hw => ?_⟩
    · obtain ⟨⟨B, rfl⟩, _⟩ := hN
      exact ⟨_, rfl⟩
    · rw [← hN.2.2 w hw]
      exact N.newMDP_poss (hN.nodup hn) hN.2.1 S ho hlen ht w hw
  · exact ⟨(stepMDP_ok _ _ _ _ _ (hN.nodup hn) (fun w hw => ne_nil_of_odd (ho w hw)) h).1,
      (N.bw_step_monotone processes S N' ll (hN.nodup hn) hN.2.1 ho hlen ht h).2.2⟩
  · have := nonneg_of_mul_nonneg_right (le_trans (moveMDP_nonneg N S) (hgain N hN)) htot
    linarith
  · have h2 := hgain N hN
    rw [h, sub_self, mul_zero] at h2
    exact (newMDP_eq_iff N S hN.2.1.1 hN.2.1.2.2.1).mpr (moveMDP_eq_zero N S hN.2.1.1 hN.2.1.2.2.1 h2)

/-- The core of the limit theorems: iterates along which the gain vanishes. -/
theorem limit_core (processes : ℕ) (S : TSet L) (M : MDP ℝ L n) (hn : M.actions.Nodup) (hM : M.Stochastic)
    (ho : ∀ w ∈ S.sequences, w.length % 2 = 1) (hlen : S.times.length = S.sequences.length) (ht : ∀ t ∈ S.times, 1 ≤ t)
    (r1 : MDP ℝ L n × ℝ) (h1 : stepMDP processes S M = .ok r1)
    {J : Type} {l : Filter J} [l.NeBot] (A : J → Fin n → Fin M.actions.length → Fin n → ℝ) (hA : ∀ j, M.Keeps S (M.withProb (A j)))
    (hA0 : ∀ j, avgLogLik M.lik S ≤ avgLogLik (M.withProb (A j)).lik S)
    (hg : Tendsto (fun j => avgLogLik (newMDP (M.withProb (A j)) S).lik S - avgLogLik (M.withProb (A j)).lik S) l (𝓝 0))
    (B : Fin n → Fin M.actions.length → Fin n → ℝ) (hB : ∀ s i ss, Tendsto (fun j => A j s i ss) l (𝓝 (B s i ss))) :
    (M.withProb B).Stochastic ∧ (∀ w ∈ S.sequences, (M.withProb B).lik w ≠ 0 ↔ M.lik w ≠ 0) ∧
    (∃ ll, stepMDP processes S (M.withProb B) = .ok (M.withProb B, ll)) ∧ Stationary (M.withProb B) S ∧
    Tendsto (fun j => avgLogLik (M.withProb (A j)).lik S) l (𝓝 (avgLogLik (M.withProb B).lik S)) := by
  have hne : ∀ w ∈ S.sequences, w ≠ [] := fun w hw => ne_nil_of_odd (ho w hw)
  have hst : ∀ j, (M.withProb (A j)).Stochastic := fun j => (hA j).2.1
  have hAp : ∀ j, ∀ w ∈ S.sequences, 0 < (M.withProb (A j)).lik w ↔ M.lik w ≠ 0 := fun j w hw => by
    rw [pos_iff _ (hst j)]; exact (hA j).2.2 w hw
  obtain ⟨M1, l1⟩ := r1
  obtain ⟨_, hposs, _, hone⟩ := stepMDP_ok _ _ _ _ _ hn hne h1
  have hpos := M.possMDP_total S ht hposs
  have hNs : (M.withProb B).Stochastic := by
    refine ⟨hM.1, hM.2.1, fun s i ss => ?_, fun s i => ?_⟩
    · exact ge_of_tendsto (hB s i ss) (Eventually.of_forall (fun j => (hst j).2.2.1 s i ss))
    · have a := tendsto_finsetSum Finset.univ (fun ss _ => hB s i ss)
      have hcl : IsClosed ({1, 0} : Set ℝ) := (Set.toFinite _).isClosed
      exact hcl.mem_of_tendsto a (Eventually.of_forall (fun j => (hst j).2.2.2 s i))
  have hlik : ∀ w ∈ S.sequences, Tendsto (fun j => (M.withProb (A j)).lik w) l (𝓝 ((M.withProb B).lik w)) := by
    intro w hw
    simp only [fun C : Fin n → Fin M.actions.length → Fin n → ℝ => (weightMDP_lik (M.withProb C) w (ho w hw)).symm]
    exact weightMDP_tendsto M A B hB w (hne w hw)
  obtain ⟨b1, b2⟩ := avgLogLik_limit (fun j => (M.withProb (A j)).lik) (M.withProb B).lik M.lik S (avgLogLik M.lik S) 1 le_rfl ht hlen
    hAp (fun j w _ => (lik_mem_unit (M.withProb (A j)) hn (hst j) w).2) hA0 hlik
  have hNp : ∀ w ∈ S.sequences, (M.withProb B).lik w ≠ 0 ↔ M.lik w ≠ 0 := fun w hw => by rw [← b1 w hw, pos_iff _ hNs]
  have hpossN : ∀ j, possMDP (M.withProb (A j)) S = possMDP (M.withProb B) S := by
    intro j
    unfold possMDP
    refine List.filter_congr (fun x hx => ?_)
    have hw := (List.of_mem_zip hx).1
    rw [decide_eq_decide, weightMDP_lik _ _ (ho _ hw), weightMDP_lik _ _ (ho _ hw)]
    exact ((hA j).2.2 x.1 hw).trans (hNp _ hw).symm
  have hmove := moveMDP_tendsto M S A B hB hpossN
  have hzero : moveMDP (M.withProb B) S ≤ 0 := by
    refine le_of_tendsto_of_tendsto' hmove (mul_zero ((S.times.sum : ℕ) : ℝ) ▸ hg.const_mul ((S.times.sum : ℕ) : ℝ)) (fun j => ?_)
    exact step_gain (M.withProb (A j)) hn (hst j) S ho hlen ht hpos
  have hfix : newMDP (M.withProb B) S = M.withProb B :=
    (newMDP_eq_iff _ S hNs.1 hNs.2.2.1).mpr (moveMDP_eq_zero _ S hNs.1 hNs.2.2.1 hzero)
  have hout : ∃ r, stepMDP processes S (M.withProb B) = .ok r := by
    refine (bw_step_outcome (M := M.withProb B) processes S hn ho hlen).1 ?_
    obtain ⟨x, hx⟩ := List.exists_mem_of_ne_nil _ hposs
    have hx' := (mem_possMDP M S x).mp hx
    have hxw := (List.of_mem_zip hx'.1).1
    by_cases hp : 1 < processes
    · exact Or.inl ⟨hp, x.1, hxw, (hNp _ hxw).mpr (by rw [← weightMDP_lik M _ (ho _ hxw)]; exact hx'.2)⟩
    · refine Or.inr ⟨by omega, fun h0 => by rw [h0] at hxw; simp at hxw, fun w hw => (hNp _ hw).mpr ?_⟩
      obtain ⟨t, hm⟩ := mem_zip_of_mem S hlen w hw
      rw [← weightMDP_lik M _ (ho _ hw)]
      exact hone (by omega) (w, t) hm
  obtain ⟨⟨N', ll⟩, hr⟩ := hout
  have hN' : N' = M.withProb B := by rw [(stepMDP_ok processes S (M.withProb B) N' ll hn hne hr).1, hfix]
  rw [hN'] at hr
  have hfs := (bw_fixed_iff_stationary processes S (M.withProb B) (M.withProb B) ll hn hNs ho hlen ht hr).mp rfl
  exact ⟨hNs, hNp, ⟨ll, hr⟩, hfs, b2⟩

/-- The probabilities of the actions determine the matrix. -/
theorem withProb_of_keeps (M N : MDP ℝ L n) (ha : N.actions = M.actions) (hl : N.labelling = M.labelling)
    (hi : N.initialState = M.initialState) : ∃ B, N = M.withProb B := by
  obtain ⟨acts, mat, lab, init⟩ := N
  simp only at ha hl hi
  subst ha hl hi
  exact ⟨mat, rfl⟩

theorem prob_withProb (M : MDP ℝ L n) (hn : M.actions.Nodup) (B : Fin n → Fin M.actions.length → Fin n → ℝ) (s : Fin n)
    (i : Fin M.actions.length) (ss : Fin n) : (M.withProb B).prob s M.actions[i] ss = B s i ss :=
  (M.withProb B).prob_getElem hn s i ss

/-- C99, MDP, limits: let `st k` be the result of learning with `k` iterations (tolerance 0). If the learned probabilities
converge along some subsequence, to those of an MDP `N`, then the same traces of the set are possible in `N`, the
log-likelihoods of all the learned MDPs converge to the one of `N`, and `N` is a stationary point that one more iteration leaves
unchanged. -/
theorem fit_limit (processes : ℕ) (S : TSet L) (M : MDP ℝ L n) (hn : M.actions.Nodup) (hM : M.Stochastic)
    (ho : ∀ w ∈ S.sequences, w.length % 2 = 1) (hlen : S.times.length = S.sequences.length) (ht : ∀ t ∈ S.times, 1 ≤ t)
    (st : ℕ → LoopState (MDP ℝ L n)) (h : ∀ k, fit (stepMDP processes S) 0 k M = .ok (st k))
    (φ : ℕ → ℕ) (hφ : StrictMono φ) (N : MDP ℝ L n) (ha : N.actions = M.actions) (hl : N.labelling = M.labelling)
    (hi : N.initialState = M.initialState)
    (hN : ∀ s x ss, Tendsto (fun j => (st (φ j)).h.prob s x ss) atTop (𝓝 (N.prob s x ss))) :
    N.Stochastic ∧ (∀ w ∈ S.sequences, N.lik w ≠ 0 ↔ M.lik w ≠ 0) ∧
    Tendsto (fun k => avgLogLik (st k).h.lik S) atTop (𝓝 (avgLogLik N.lik S)) ∧
    (∃ ll, stepMDP processes S N = .ok (N, ll)) ∧ N.Stationary S := by
  have hne : ∀ w ∈ S.sequences, w ≠ [] := fun w hw => ne_nil_of_odd (ho w hw)
  have hpos := fit_pos (stepMDP processes S) 0 M 1 le_rfl (st 1) (h 1) S ht (fun x hx => ((mem_possMDP M S x).mp hx).1)
    (fun r l hr => (stepMDP_ok _ _ _ _ _ hn hne hr).2.1)
  obtain ⟨⟨l1, h1⟩, c2, c3, y, c4⟩ := (M.climb processes S hn ho hlen ht hpos).fit_limits M
    ⟨⟨M.matrix, rfl⟩, hM, fun _ _ => Iff.rfl⟩ st h
  obtain ⟨B, rfl⟩ := M.withProb_of_keeps N ha hl hi
  choose A hA using fun k => (c2 k).1.1
  simp only [hA] at c2 c3 c4 hN
  obtain ⟨b1, b2, b3, b4, b5⟩ := M.limit_core processes S hn hM ho hlen ht _ h1 (fun j => A (φ j))
    (fun j => (c2 (φ j)).1) (fun j => (c2 (φ j)).2) (c3.comp hφ.tendsto_atTop) B (fun s i ss => by
      have := hN s M.actions[i] ss
      simpa only [M.prob_withProb hn] using this)
  refine ⟨b1, b2, ?_, b3, b4⟩
  simp only [hA]
  rw [tendsto_nhds_unique b5 (c4.comp hφ.tendsto_atTop)]
  exact c4

/-- C99, MDP, existence: such subsequences exist. -/
theorem fit_limit_exists (processes : ℕ) (S : TSet L) (M : MDP ℝ L n) (hn : M.actions.Nodup) (hM : M.Stochastic)
    (ho : ∀ w ∈ S.sequences, w.length % 2 = 1)
    (st : ℕ → LoopState (MDP ℝ L n)) (h : ∀ k, fit (stepMDP processes S) 0 k M = .ok (st k)) :
    ∃ (φ : ℕ → ℕ) (N : MDP ℝ L n), StrictMono φ ∧ N.actions = M.actions ∧ N.labelling = M.labelling ∧
      N.initialState = M.initialState ∧
      ∀ s x ss, Tendsto (fun j => (st (φ j)).h.prob s x ss) atTop (𝓝 (N.prob s x ss)) := by
  have hkeep : ∀ k, ∃ B, (st k).h = M.withProb B := fun k => by
    obtain ⟨a1, a2, a3, _⟩ := M.fit_structure processes S 0 k hn ho (st k) (h k)
    exact M.withProb_of_keeps _ a1 a2 a3
  choose A hA using hkeep
  have hs : ∀ k, A k ∈ Metric.closedBall (0 : Fin n → Fin M.actions.length → Fin n → ℝ) 1 := by
    intro k
    have hk := (M.fit_stochastic processes S 0 k hn hM ho (st k) (h k)).1
    rw [hA] at hk
    rw [mem_closedBall_zero_iff, pi_norm_le_iff_of_nonneg zero_le_one]
    intro s
    rw [pi_norm_le_iff_of_nonneg zero_le_one]
    intro i
    rw [pi_norm_le_iff_of_nonneg zero_le_one]
    intro ss
    rw [Real.norm_eq_abs, abs_of_nonneg (hk.2.2.1 s i ss)]
    exact (Finset.single_le_sum (fun u _ => hk.2.2.1 s i u) (Finset.mem_univ ss)).trans (hk.row_le s i)
  obtain ⟨a, _, φ, hφ, ha⟩ := (isCompact_closedBall (0 : Fin n → Fin M.actions.length → Fin n → ℝ) 1).tendsto_subseq hs
  refine ⟨φ, M.withProb a, hφ, rfl, rfl, rfl, fun s x ss => ?_⟩
  have e : ∀ C : Fin n → Fin M.actions.length → Fin n → ℝ, (M.withProb C).prob s x ss
      = ∑ i : Fin M.actions.length, if M.actions[i] = x then C s i ss else 0 := fun _ => rfl
  simp only [hA, e]
  refine tendsto_finsetSum _ (fun i _ => ?_)
  split_ifs
  · exact (tendsto_pi_nhds.mp ((tendsto_pi_nhds.mp ((tendsto_pi_nhds.mp ha) s)) i)) ss
  · exact tendsto_const_nhds

/-- C99, MDP, tolerances: let `st j` be the result of learning with the tolerance `eps j`, stopped because the progress was
below the tolerance. If the tolerances tend to 0 and the learned probabilities converge to those of an MDP `N`, then `N` is a
stationary point that one more iteration leaves unchanged. -/
theorem fit_tolerance (processes : ℕ) (S : TSet L) (M : MDP ℝ L n) (hn : M.actions.Nodup) (hM : M.Stochastic)
    (ho : ∀ w ∈ S.sequences, w.length % 2 = 1) (hlen : S.times.length = S.sequences.length) (ht : ∀ t ∈ S.times, 1 ≤ t)
    (eps : ℕ → ℝ) (maxIt : ℕ → ℕ) (st : ℕ → LoopState (MDP ℝ L n)) (heps : Tendsto eps atTop (𝓝 0))
    (h : ∀ j, fit (stepMDP processes S) (eps j) (maxIt j) M = .ok (st j)) (hstop : ∀ j, (st j).counter < maxIt j)
    (N : MDP ℝ L n) (ha : N.actions = M.actions) (hl : N.labelling = M.labelling) (hi : N.initialState = M.initialState)
    (hN : ∀ s x ss, Tendsto (fun j => (st j).h.prob s x ss) atTop (𝓝 (N.prob s x ss))) :
    N.Stochastic ∧ (∀ w ∈ S.sequences, N.lik w ≠ 0 ↔ M.lik w ≠ 0) ∧
    (∃ ll, stepMDP processes S N = .ok (N, ll)) ∧ N.Stationary S := by
  have hne : ∀ w ∈ S.sequences, w ≠ [] := fun w hw => ne_nil_of_odd (ho w hw)
  have hc : 1 ≤ maxIt 0 := by have := hstop 0; omega
  have hpos := fit_pos (stepMDP processes S) (eps 0) M (maxIt 0) hc (st 0) (h 0) S ht (fun x hx => ((mem_possMDP M S x).mp hx).1)
    (fun r l hr => (stepMDP_ok _ _ _ _ _ hn hne hr).2.1)
  obtain ⟨⟨l1, h1⟩, c2, c3⟩ := (M.climb processes S hn ho hlen ht hpos).fit_tolerances M
    ⟨⟨M.matrix, rfl⟩, hM, fun _ _ => Iff.rfl⟩ eps maxIt st heps h hstop
  obtain ⟨B, rfl⟩ := M.withProb_of_keeps N ha hl hi
  choose A hA using fun k => (c2 k).1.1
  simp only [hA] at c2 c3 hN
  obtain ⟨b1, b2, b3, b4, _⟩ := M.limit_core processes S hn hM ho hlen ht _ h1 A
    (fun j => (c2 j).1) (fun j => (c2 j).2) c3 B (fun s i ss => by
      have := hN s M.actions[i] ss
      simpa only [M.prob_withProb hn] using this)
  exact ⟨b1, b2, b3, b4⟩

/-- C99, MDP, for every starting point: if the initial MDP can generate some trace of the set, learning with more and more
iterations approaches, along a subsequence, a stationary point of the log-likelihood, at least as likely as the initial MDP; and
the log-likelihoods of the learned MDPs converge to its log-likelihood. -/
theorem fit_converges (processes : ℕ) (hp : 1 < processes) (S : TSet L) (M : MDP ℝ L n) (hn : M.actions.Nodup) (hM : M.Stochastic)
    (ho : ∀ w ∈ S.sequences, w.length % 2 = 1) (hlen : S.times.length = S.sequences.length) (ht : ∀ t ∈ S.times, 1 ≤ t)
    (w : List L) (hw : w ∈ S.sequences) (hl : M.lik w ≠ 0) :
    ∃ (st : ℕ → LoopState (MDP ℝ L n)) (φ : ℕ → ℕ) (N : MDP ℝ L n), (∀ k, fit (stepMDP processes S) 0 k M = .ok (st k)) ∧
      StrictMono φ ∧ N.Stochastic ∧ N.Stationary S ∧ avgLogLik M.lik S ≤ avgLogLik N.lik S ∧
      (∀ s x ss, Tendsto (fun j => (st (φ j)).h.prob s x ss) atTop (𝓝 (N.prob s x ss))) ∧
      Tendsto (fun k => avgLogLik (st k).h.lik S) atTop (𝓝 (avgLogLik N.lik S)) := by
  choose st hst using fun k => M.fit_total processes hp S 0 k hn hM ho hlen ht w hw hl
  obtain ⟨φ, N, h1, h2, h3, h4, h5⟩ := M.fit_limit_exists processes S hn hM ho st hst
  obtain ⟨a1, a2, a3, a4, a5⟩ := M.fit_limit processes S hn hM ho hlen ht st hst φ h1 N h2 h3 h4 h5
  exact ⟨st, φ, N, hst, h1, a1, a5, ge_of_tendsto a3 (Eventually.of_forall (fun k =>
    M.fit_monotone processes S 0 k hn hM ho hlen ht (st k) (hst k))), h5, a3⟩

/-- The hypotheses are met by `exMDP` and `exSetMDP`: learning converges, along a subsequence, to a stationary point. -/
example : ∃ (st : ℕ → LoopState (MDP ℝ ℕ 3)) (φ : ℕ → ℕ) (N : MDP ℝ ℕ 3),
      (∀ k, fit (stepMDP 2 exSetMDP) 0 k (exMDP ℝ) = .ok (st k)) ∧
      StrictMono φ ∧ N.Stochastic ∧ N.Stationary exSetMDP ∧ avgLogLik (exMDP ℝ).lik exSetMDP ≤ avgLogLik N.lik exSetMDP ∧
      (∀ s x ss, Tendsto (fun j => (st (φ j)).h.prob s x ss) atTop (𝓝 (N.prob s x ss))) ∧
      Tendsto (fun k => avgLogLik (st k).h.lik exSetMDP) atTop (𝓝 (avgLogLik N.lik exSetMDP)) :=
  (exMDP ℝ).fit_converges 2 (by norm_num) exSetMDP exMDP_stochastic_real.2 exMDP_stochastic_real.1 (by decide)
    (by decide) (by decide) [2, 10, 0] (by decide) (by rw [exMDP_lik]; norm_num)

end MDP
end Jajapy
