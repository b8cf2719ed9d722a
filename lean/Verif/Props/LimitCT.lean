import Verif.Lemmas.LimitCT
import Verif.Lemmas.Climb
import Verif.Props.BWCTMC
import Mathlib.Topology.Sequences
import Mathlib.Topology.MetricSpace.ProperSpace.Real

/-!
Property C100: what Baum-Welch converges to on CTMCs and timed traces, when no rate is fixed and the waiting times are
positive.
-/

set_option linter.unusedSectionVars false

namespace Jajapy

open Finset Spec BW Filter Topology

namespace CTMC
variable {L : Type} [DecidableEq L] {n : ℕ}

theorem avg_eq (M N : CTMC ℝ L n) (S : TSet (Sym L)) (h : ∀ w ∈ S.sequences, 0 < N.density w ↔ M.density w ≠ 0) :
    avgLogLik N.density S = ((possCT M S).map (fun x => Real.log (N.density x.1) * x.2)).sum / (S.times.sum : ℕ) := by
  rw [avgLogLik_filter _ _ S h]
  unfold possCT
  rfl

theorem pos_iff (M : CTMC ℝ L n) (hM : M.Valid) (w : List (Sym L)) : 0 < M.density w ↔ M.density w ≠ 0 :=
  ⟨fun h => h.ne', fun h => lt_of_le_of_ne (M.density_nonneg hM w) (Ne.symm h)⟩

/-- Where no transition appears no trace becomes possible. -/
theorem density_zero (M N : CTMC ℝ L n) (hM : M.Valid) (hl : N.labelling = M.labelling) (hi : N.initialState = M.initialState)
    (hz : ∀ s ss, M.matrix s ss = 0 → N.matrix s ss = 0) (w : List (Sym L)) (h : M.density w = 0) : N.density w = 0 := by
  have hm : N.lastMask w = M.lastMask w := by funext s; unfold lastMask; rw [hl]
  unfold density at h ⊢
  rw [hm]
  refine totalWeight_zero M.rateStep _ M.initialState _ _ (M.rateStep_nonneg hM.2) hM.1 (M.lastMask_nonneg w) ?_
    (fun s hs => by rw [hi]; exact hs) _ h
  intro s ss o hso
  unfold rateStep at hso ⊢
  rw [hl]
  split_ifs at hso ⊢
  · rcases mul_eq_zero.mp hso with h | h
    · rw [hz s ss h, zero_mul]
    · exact absurd h (Real.exp_pos _).ne'
  · rfl

theorem newCT_zero (M : CTMC ℝ L n) (S : TSet (Sym L)) (s ss : Fin n) (h : M.matrix s ss = 0) :
    (newCT M noFixed S).matrix s ss = 0 := by
  simp only [newCT, noFixed, Bool.false_eq_true, if_false, h, numCT_zero M S s ss h]
  split_ifs <;> simp

theorem newCT_poss (M : CTMC ℝ L n) (hM : M.Valid) (S : TSet (Sym L)) (hS : WaitsPos S)
    (hlen : S.times.length = S.sequences.length) (ht : ∀ t ∈ S.times, 1 ≤ t) (w : List (Sym L)) (hw : w ∈ S.sequences) :
    (newCT M noFixed S).density w ≠ 0 ↔ M.density w ≠ 0 := by
  constructor
  · intro h h0
    exact h (M.density_zero (newCT M noFixed S) hM rfl rfl (M.newCT_zero S) w h0)
  · intro h
    obtain ⟨t, hm⟩ := mem_zip_of_mem S hlen w hw
    exact ((newCT_gain M hM noFixed S hS.nonneg ht).1 (w, t) ((mem_possCT M S _).mpr ⟨hm, h⟩)).ne'

/-- The gain of an iteration is at least the distance it covers. -/
theorem step_gain (M : CTMC ℝ L n) (hM : M.Valid) (S : TSet (Sym L)) (hS : WaitsPos S)
    (hlen : S.times.length = S.sequences.length) (ht : ∀ t ∈ S.times, 1 ≤ t) (hpos : 0 < S.times.sum) :
    moveCT M S ≤ (S.times.sum : ℕ) * (avgLogLik (newCT M noFixed S).density S - avgLogLik M.density S) := by
  have hp : ((S.times.sum : ℕ) : ℝ) ≠ 0 := by exact_mod_cast hpos.ne'
  have h0 := M.avg_eq M S (fun w _ => M.pos_iff hM w)
  have h1 := M.avg_eq (newCT M noFixed S) S (fun w hw => by
    rw [pos_iff _ (newCT_valid M hM noFixed S hS.nonneg), M.newCT_poss hM S hS hlen ht w hw])
  have hg := newCT_gain_sq M hM S hS ht
  rw [h0, h1, mul_sub, mul_div_cancel₀ _ hp, mul_div_cancel₀ _ hp]
  linarith

theorem possCT_total (M : CTMC ℝ L n) (S : TSet (Sym L)) (ht : ∀ t ∈ S.times, 1 ≤ t) (h : possCT M S ≠ []) : 0 < S.times.sum := by
  obtain ⟨x, hx⟩ := List.exists_mem_of_ne_nil _ h
  have hx2 := (List.of_mem_zip ((mem_possCT M S x).mp hx).1).2
  exact List.sum_pos_iff_exists_pos_nat.mpr ⟨_, hx2, ht _ hx2⟩

theorem step_poss (processes : ℕ) (fixed : Fin n → Fin n → Bool) (S : TSet (Sym L)) (M : CTMC ℝ L n) (hS : TimedSet S)
    (hlen : S.times.length = S.sequences.length) (r : CTMC ℝ L n × ℝ) (h : stepTimed processes fixed S M = .ok r) :
    possCT M S ≠ [] ∧ (¬ 1 < processes → ∀ w ∈ S.sequences, M.density w ≠ 0) := by
  obtain ⟨a1, a2, a3⟩ := M.bw_step_outcome processes fixed S hS hlen
  refine ⟨(stepTimed_ok _ _ _ _ _ _ hS h).2.1, fun hp w hw h0 => ?_⟩
  rw [a3 ⟨by omega, w, hw, h0⟩] at h
  exact absurd h (by simp)

/-! ### Strict progress -/

/-- C100, strict progress: an iteration that changes some rate strictly increases the log-density. -/
theorem bw_step_strict (processes : ℕ) (S : TSet (Sym L)) (M M' : CTMC ℝ L n) (ll : ℝ) (hM : M.Valid)
    (hS : TimedSet S) (hw : WaitsPos S) (hlen : S.times.length = S.sequences.length) (ht : ∀ t ∈ S.times, 1 ≤ t)
    (h : stepTimed processes noFixed S M = .ok (M', ll)) (hc : M' ≠ M) : avgLogLik M.density S < avgLogLik M'.density S := by
  have hpos := M.possCT_total S ht (M.step_poss processes noFixed S hS hlen _ h).1
  obtain ⟨h1, _, _⟩ := stepTimed_ok _ _ _ _ _ _ hS h
  subst h1
  have hg := M.step_gain hM S hw hlen ht hpos
  by_contra hcon
  apply hc
  rw [newCT_eq_iff M hM S hw]
  refine fun s ss => moveCT_eq_zero M hM S hw.nonneg (le_trans hg ?_) s ss
  refine mul_nonpos_of_nonneg_of_nonpos (Nat.cast_nonneg _) ?_
  linarith

/-- C100: a CTMC of maximal density among those with the same labels, the same initial distribution and no other transitions
is left unchanged. -/
theorem bw_best_fixed (processes : ℕ) (S : TSet (Sym L)) (M M' : CTMC ℝ L n) (ll : ℝ) (hM : M.Valid)
    (hS : TimedSet S) (hw : WaitsPos S) (hlen : S.times.length = S.sequences.length) (ht : ∀ t ∈ S.times, 1 ≤ t)
    (h : stepTimed processes noFixed S M = .ok (M', ll))
    (hbest : ∀ N : CTMC ℝ L n, N.Valid → N.labelling = M.labelling → N.initialState = M.initialState →
      (∀ s ss, M.matrix s ss = 0 → N.matrix s ss = 0) → avgLogLik N.density S ≤ avgLogLik M.density S) : M' = M := by
  by_contra hc
  have h1 := M.bw_step_strict processes S M' ll hM hS hw hlen ht h hc
  obtain ⟨e1, e2, _⟩ := M.bw_update_spec _ _ _ _ _ hS h
  have h3 := hbest M' (M.bw_step_valid processes noFixed S M' ll hM hS hw.nonneg h) e1 e2
    (fun s ss h0 => M.bw_step_zero processes noFixed S M' ll hS h s ss h0)
  linarith

/-! ### Fixed points and stationary points -/

theorem nudge_pos (M : CTMC ℝ L n) (hM : M.Valid) (d : Fin n → Fin n → ℝ) (hz : ∀ s ss, M.matrix s ss = 0 → d s ss = 0) :
    ∀ᶠ e in 𝓝 (0:ℝ), ∀ s ss, 0 ≤ (M.nudge d e).matrix s ss ∧ (0 < M.matrix s ss → 0 < (M.nudge d e).matrix s ss) := by
  refine eventually_all.mpr (fun s => eventually_all.mpr (fun ss => ?_))
  rcases (hM.2 s ss).eq_or_lt with h0 | h0
  · refine Eventually.of_forall (fun e => ?_)
    simp only [nudge]
    rw [hz s ss h0.symm, mul_zero, add_zero]
    exact ⟨hM.2 s ss, fun h => h⟩
  · have hc : Tendsto (fun e : ℝ => M.matrix s ss + e * d s ss) (𝓝 0) (𝓝 (M.matrix s ss + 0 * d s ss)) :=
      (tendsto_const_nhds).add (tendsto_id.mul_const _)
    have := hc.eventually_const_lt (u := 0) (by simpa using h0)
    filter_upwards [this] with e he
    exact ⟨he.le, fun _ => he⟩

/-- C100, the derivative: when the rates are moved in a direction `d`, the derivative of the average log-density is the sum of
the expected numbers of jumps times the relative change of their rates, minus the expected times spent in the states times
the change of their exit rates, divided by the number of traces. -/
theorem logLik_deriv (S : TSet (Sym L)) (M : CTMC ℝ L n) (hM : M.Valid)
    (hlen : S.times.length = S.sequences.length) (ht : ∀ t ∈ S.times, 1 ≤ t)
    (d : Fin n → Fin n → ℝ) (hz : ∀ s ss, M.matrix s ss = 0 → d s ss = 0) :
    HasDerivAt (fun e => avgLogLik (M.nudge d e).density S)
      ((∑ s, ∑ ss, M.jumps S s ss * (d s ss / M.matrix s ss) - ∑ s, M.timeIn S s * ∑ ss, d s ss) / (S.times.sum : ℕ)) 0 := by
  simp only [M.jumps_eq, M.timeIn_eq]
  have hev := M.nudge_pos hM d hz
  have hgain : ∀ᶠ e in 𝓝 (0:ℝ), (∀ x ∈ possCT M S, 0 < (M.nudge d e).density x.1) ∧
      ((possCT M S).map (fun x => Real.log (M.density x.1) * x.2)).sum
      + (∑ s, ∑ ss, Real.log ((M.nudge d e).matrix s ss / M.matrix s ss) * numCT M S s ss
        - ∑ s, denCT M S s * (∑ ss, (M.nudge d e).matrix s ss - ∑ ss, M.matrix s ss)) ≤
      ((possCT M S).map (fun x => Real.log ((M.nudge d e).density x.1) * x.2)).sum := by
    filter_upwards [hev] with e he
    exact rates_gain_le M (M.nudge d e) hM ⟨hM.1, fun s ss => (he s ss).1⟩ rfl rfl S ht (fun s ss h _ => (he s ss).2 h)
  have hlik : ∀ᶠ e in 𝓝 (0:ℝ), avgLogLik (M.nudge d e).density S =
      ((possCT M S).map (fun x => Real.log ((M.nudge d e).density x.1) * x.2)).sum / (S.times.sum : ℕ) := by
    filter_upwards [hgain] with e hg
    refine M.avg_eq (M.nudge d e) S (fun w hw => ⟨fun h h0 => ?_, fun h => ?_⟩)
    · refine h.ne' (M.density_zero (M.nudge d e) hM rfl rfl (fun s ss h0 => ?_) w h0)
      simp only [nudge]
      rw [h0, hz s ss h0, mul_zero, add_zero]
    · obtain ⟨t, hm⟩ := mem_zip_of_mem S hlen w hw
      exact hg.1 (w, t) ((mem_possCT M S _).mpr ⟨hm, h⟩)
  refine HasDerivAt.congr_of_eventuallyEq ?_ hlik
  refine HasDerivAt.div_const ?_ _
  have hmat : ∀ s ss, HasDerivAt (fun e => (M.nudge d e).matrix s ss) (d s ss) 0 := by
    intro s ss
    have := ((hasDerivAt_id (0:ℝ)).mul_const (d s ss)).const_add (M.matrix s ss)
    simpa [nudge] using this
  have hstep : ∀ s ss p, Differentiable ℝ (fun e => (M.nudge d e).rateStep s ss p) := by
    intro s ss p
    unfold rateStep nudge
    simp only
    split_ifs <;> fun_prop
  have h00 : (M.nudge d 0) = M := by unfold nudge; simp
  refine hasDerivAt_of_above _ (fun e => ((possCT M S).map (fun x => Real.log (M.density x.1) * x.2)).sum
      + (∑ s, ∑ ss, Real.log ((M.nudge d e).matrix s ss / M.matrix s ss) * numCT M S s ss
        - ∑ s, denCT M S s * (∑ ss, (M.nudge d e).matrix s ss - ∑ ss, M.matrix s ss))) _ 0 ?_ ?_ ?_ (hgain.mono (fun e h => h.2))
  · refine differentiable_list_sum (possCT M S) _ 0 (fun x hx => ?_)
    refine DifferentiableAt.mul_const (DifferentiableAt.log ?_ ?_) _
    · exact differentiable_totalWeight (fun e => (M.nudge d e).rateStep) (fun _ => M.initialState) (M.lastMask x.1) hstep
        (fun _ => differentiable_const _) (timedSteps x.1) 0
    · rw [h00]
      exact ((mem_possCT M S x).mp hx).2
  · refine HasDerivAt.const_add _ (HasDerivAt.sub
      (HasDerivAt.fun_sum (fun s _ => HasDerivAt.fun_sum (fun ss _ => ?_))) (HasDerivAt.fun_sum (fun s _ => ?_)))
    · rw [mul_comm]
      refine HasDerivAt.mul_const ?_ _
      by_cases hm : M.matrix s ss = 0
      · simp only [hm, div_zero, Real.log_zero]
        exact hasDerivAt_const _ _
      · have h2 := ((hmat s ss).div_const (M.matrix s ss)).log (by rw [h00, div_self hm]; exact one_ne_zero)
        rw [h00, div_self hm, div_one] at h2
        exact h2
    · exact HasDerivAt.const_mul _ (HasDerivAt.sub_const _ (HasDerivAt.fun_sum (fun ss _ => hmat s ss)))
  · rw [h00]
    simp

/-- C100, fixed points: an iteration leaves the rates unchanged exactly when they are a stationary point of the log-density of
the training set. -/
theorem bw_fixed_iff_stationary (processes : ℕ) (S : TSet (Sym L)) (M M' : CTMC ℝ L n) (ll : ℝ) (hM : M.Valid)
    (hS : TimedSet S) (hw : WaitsPos S) (hlen : S.times.length = S.sequences.length) (ht : ∀ t ∈ S.times, 1 ≤ t)
    (h : stepTimed processes noFixed S M = .ok (M', ll)) : M' = M ↔ M.Stationary S := by
  have hpos := M.possCT_total S ht (M.step_poss processes noFixed S hS hlen _ h).1
  have hp : ((S.times.sum : ℕ) : ℝ) ≠ 0 := by exact_mod_cast hpos.ne'
  obtain ⟨h1, _, _⟩ := stepTimed_ok _ _ _ _ _ _ hS h
  subst h1
  rw [newCT_eq_iff M hM S hw]
  constructor
  · intro hfix d hz
    have hder := M.logLik_deriv S hM hlen ht d hz
    simp only [M.jumps_eq, M.timeIn_eq] at hder
    have e : (∑ s, ∑ ss, numCT M S s ss * (d s ss / M.matrix s ss) - ∑ s, denCT M S s * ∑ ss, d s ss) = 0 := by
      rw [← Finset.sum_sub_distrib]
      refine Finset.sum_eq_zero (fun s _ => ?_)
      rw [Finset.mul_sum, ← Finset.sum_sub_distrib]
      refine Finset.sum_eq_zero (fun ss _ => ?_)
      rw [hfix s ss]
      by_cases hm : M.matrix s ss = 0
      · rw [hz s ss hm, zero_div, mul_zero, mul_zero, sub_zero]
      · field_simp
        ring
    rw [e, zero_div] at hder
    exact hder
  · intro hst s ss
    by_cases hm : M.matrix s ss = 0
    · rw [numCT_zero M S s ss hm, hm, mul_zero]
    let d : Fin n → Fin n → ℝ := fun s' u => if s' = s ∧ u = ss then 1 else 0
    have hz : ∀ s' u, M.matrix s' u = 0 → d s' u = 0 := by
      intro s' u h0
      simp only [d]
      rw [if_neg]
      rintro ⟨rfl, rfl⟩
      exact hm h0
    have h3 := (hst d hz).unique (M.logLik_deriv S hM hlen ht d hz)
    simp only [M.jumps_eq, M.timeIn_eq] at h3
    have h4 : ∑ s', ∑ u, numCT M S s' u * (d s' u / M.matrix s' u) - ∑ s', denCT M S s' * ∑ u, d s' u = 0 := by
      have := h3.symm
      rw [div_eq_zero_iff] at this
      exact this.resolve_right hp
    have e1 : ∑ s', ∑ u, numCT M S s' u * (d s' u / M.matrix s' u) = numCT M S s ss * (1 / M.matrix s ss) := by
      rw [Finset.sum_eq_single s (by intro s' _ hs'; refine Finset.sum_eq_zero (fun u _ => ?_); simp [d, hs']) (by simp),
        Finset.sum_eq_single ss (by intro u _ hu; simp [d, hu]) (by simp)]
      simp [d]
    have e2 : ∑ s', denCT M S s' * ∑ u, d s' u = denCT M S s := by
      rw [Finset.sum_eq_single s (by intro s' _ hs'; simp [d, hs']) (by simp)]
      simp [d]
    rw [e1, e2] at h4
    field_simp at h4
    linarith

/-! ### The end of the learning -/

/-- C41 and C100, timed CTMC: with `epsilon > 0` and positive waiting times the learning ends even with an infinite budget, also
when some rates are fixed. -/
theorem fit_terminates (processes : ℕ) (hp : 1 < processes) (fixed : Fin n → Fin n → Bool) (S : TSet (Sym L)) (epsilon : ℝ)
    (he : 0 < epsilon) (M : CTMC ℝ L n) (hM : M.Valid) (hS : TimedSet S) (hw : WaitsPos S)
    (hlen : S.times.length = S.sequences.length) (ht : ∀ t ∈ S.times, 1 ≤ t)
    (w : List (Sym L)) (hw' : w ∈ S.sequences) (hl : M.density w ≠ 0) :
    ∃ st N, ∀ maxIt, N ≤ maxIt → fit (stepTimed processes fixed S) epsilon maxIt M = .ok st := by
  obtain ⟨C, hC, hCb⟩ := density_bound M.initialState S hw
  obtain ⟨⟨M1, l0⟩, hr⟩ := (M.bw_step_outcome processes fixed S hS hlen).1 (Or.inl ⟨hp, w, hw', hl⟩)
  have hbound : ∀ N st, fit (stepTimed processes fixed S) epsilon N M = .ok st →
      (st.counter : ℝ) ≤ ((S.times.sum : ℕ) * Real.log C - l0) / epsilon + 2 := by
    intro N st h
    refine fit_bound _ epsilon he N M (fun M' => M'.Valid ∧ M'.initialState = M.initialState) _ ⟨hM, rfl⟩ ?_ st h M1 l0 hr
    intro h h' ll hi hs
    refine ⟨⟨h.bw_step_valid _ _ _ _ _ hi.1 hS hw.nonneg hs, (h.bw_update_spec _ _ _ _ _ hS hs).2.1.trans hi.2⟩, ?_⟩
    rw [(h.bw_step_monotone _ _ _ _ _ hi.1 hS hw.nonneg hlen ht hs).2.2]
    exact mul_le_mul_of_nonneg_left (avgLogLik_le _ S C hC (hCb h hi.1 hi.2)) (Nat.cast_nonneg _)
  obtain ⟨N, hN⟩ := exists_nat_gt (((S.times.sum : ℕ) * Real.log C - l0) / epsilon + 2)
  obtain ⟨st, hst⟩ := M.fit_total processes hp fixed S epsilon N hM hS hw.nonneg hlen ht w hw' hl
  refine ⟨st, N, fun maxIt hm => fit_stopped _ _ _ _ _ hst ?_ _ hm⟩
  exact_mod_cast lt_of_le_of_lt (hbound N st hst) hN

/-! ### Limits -/

/-- What the learned CTMCs keep. -/
def Keeps (M : CTMC ℝ L n) (S : TSet (Sym L)) (N : CTMC ℝ L n) : Prop :=
  N.Valid ∧ N.labelling = M.labelling ∧ N.initialState = M.initialState ∧ ∀ w ∈ S.sequences, N.density w ≠ 0 ↔ M.density w ≠ 0

theorem climb (processes : ℕ) (S : TSet (Sym L)) (M : CTMC ℝ L n) (C : ℝ) (hC : 1 ≤ C)
    (hCb : ∀ N : CTMC ℝ L n, N.Valid → N.initialState = M.initialState → ∀ w ∈ S.sequences, N.density w ≤ C)
    (hS : TimedSet S) (hw : WaitsPos S) (hlen : S.times.length = S.sequences.length) (ht : ∀ t ∈ S.times, 1 ≤ t)
    (hpos : 0 < S.times.sum) :
    Climb (stepTimed processes noFixed S) (fun N => newCT N noFixed S) (M.Keeps S) (fun N => avgLogLik N.density S)
      (S.times.sum : ℕ) (Real.log C) := by
  have htot : (0:ℝ) < (S.times.sum : ℕ) := by exact_mod_cast hpos
  have hgain : ∀ N, M.Keeps S N →
      moveCT N S ≤ (S.times.sum : ℕ) * (avgLogLik (newCT N noFixed S).density S - avgLogLik N.density S) :=
    fun N hN => N.step_gain hN.1 S hw hlen ht hpos
  refine ⟨fun N hN => ?_, fun N N' ll hN h => ?_, htot, fun N hN => ?_, fun N hN h => ?_,
    fun N hN => avgLogLik_le _ S C hC (hCb N hN.1 hN.2.2.1)⟩
  · refine ⟨newCT_valid N hN.1 noFixed S hw.nonneg, hN.2.1, hN.2.2.1, fun w hw' => ?_⟩
    rw [← hN.2.2.2 w hw']
    exact N.newCT_poss hN.1 S hw hlen ht w hw'
  · exact ⟨(stepTimed_ok _ _ _ _ _ _ hS h).1, (N.bw_step_monotone processes noFixed S N' ll hN.1 hS hw.nonneg hlen ht h).2.2⟩
  · have h2 : 0 ≤ moveCT N S := Finset.sum_nonneg (fun s _ => Finset.sum_nonneg (fun ss _ => sq_nonneg _))
    have := nonneg_of_mul_nonneg_right (le_trans h2 (hgain N hN)) htot
    linarith
  · have h2 := hgain N hN
    rw [h, sub_self, mul_zero] at h2
    exact (newCT_eq_iff N hN.1 S hw).mpr (moveCT_eq_zero N hN.1 S hw.nonneg h2)

/-- The core of the limit theorems: iterates along which the gain vanishes. -/
theorem limit_core (processes : ℕ) (S : TSet (Sym L)) (M : CTMC ℝ L n) (hM : M.Valid)
    (hS : TimedSet S) (hw : WaitsPos S) (hlen : S.times.length = S.sequences.length) (ht : ∀ t ∈ S.times, 1 ≤ t)
    (r1 : CTMC ℝ L n × ℝ) (h1 : stepTimed processes noFixed S M = .ok r1)
    {J : Type} {l : Filter J} [l.NeBot] (A : J → CTMC ℝ L n) (hA : ∀ j, M.Keeps S (A j))
    (hA0 : ∀ j, avgLogLik M.density S ≤ avgLogLik (A j).density S)
    (hg : Tendsto (fun j => avgLogLik (newCT (A j) noFixed S).density S - avgLogLik (A j).density S) l (𝓝 0))
    (N : CTMC ℝ L n) (hl : N.labelling = M.labelling) (hi : N.initialState = M.initialState)
    (hN : ∀ s ss, Tendsto (fun j => (A j).matrix s ss) l (𝓝 (N.matrix s ss))) :
    N.Valid ∧ (∀ w ∈ S.sequences, N.density w ≠ 0 ↔ M.density w ≠ 0) ∧ (∃ ll, stepTimed processes noFixed S N = .ok (N, ll)) ∧
    N.Stationary S ∧ Tendsto (fun j => avgLogLik (A j).density S) l (𝓝 (avgLogLik N.density S)) := by
  obtain ⟨C, hC, hCb⟩ := density_bound M.initialState S hw
  have hst : ∀ j, (A j).Valid := fun j => (hA j).1
  have hAl : ∀ j, (A j).labelling = N.labelling := fun j => (hA j).2.1.trans hl.symm
  have hAi : ∀ j, (A j).initialState = N.initialState := fun j => (hA j).2.2.1.trans hi.symm
  have hAp : ∀ j, ∀ w ∈ S.sequences, 0 < (A j).density w ↔ M.density w ≠ 0 := fun j w hw' => by
    rw [pos_iff _ (hst j)]; exact (hA j).2.2.2 w hw'
  obtain ⟨hposs, hone⟩ := M.step_poss processes noFixed S hS hlen _ h1
  have hpos := M.possCT_total S ht hposs
  have hNs : N.Valid :=
    ⟨by rw [hi]; exact hM.1, fun s ss => ge_of_tendsto (hN s ss) (Eventually.of_forall (fun j => (hst j).2 s ss))⟩
  obtain ⟨b1, b2⟩ := avgLogLik_limit (fun j => (A j).density) N.density M.density S (avgLogLik M.density S) C hC ht hlen
    hAp (fun j w hw' => hCb _ (hst j) (hA j).2.2.1 w hw') hA0 (fun w _ => density_tendsto A N hAl hAi hN w)
  have hNp : ∀ w ∈ S.sequences, N.density w ≠ 0 ↔ M.density w ≠ 0 := fun w hw' => by rw [← b1 w hw', N.pos_iff hNs]
  have hpossN : ∀ j, possCT (A j) S = possCT N S := by
    intro j
    unfold possCT
    refine List.filter_congr (fun x hx => ?_)
    have hw' := (List.of_mem_zip hx).1
    rw [decide_eq_decide]
    exact ((hA j).2.2.2 x.1 hw').trans (hNp _ hw').symm
  have hmove := moveCT_tendsto A N S hAl hAi hN hpossN
  have hzero : moveCT N S ≤ 0 := by
    refine le_of_tendsto_of_tendsto' hmove (mul_zero ((S.times.sum : ℕ) : ℝ) ▸ hg.const_mul ((S.times.sum : ℕ) : ℝ)) (fun j => ?_)
    exact step_gain _ (hst j) S hw hlen ht hpos
  have hfix : newCT N noFixed S = N := (newCT_eq_iff N hNs S hw).mpr (moveCT_eq_zero N hNs S hw.nonneg hzero)
  have hout : ∃ r, stepTimed processes noFixed S N = .ok r := by
    refine (N.bw_step_outcome processes noFixed S hS hlen).1 ?_
    obtain ⟨x, hx⟩ := List.exists_mem_of_ne_nil _ hposs
    have hx' := (mem_possCT M S x).mp hx
    have hxw := (List.of_mem_zip hx'.1).1
    by_cases hp : 1 < processes
    · exact Or.inl ⟨hp, x.1, hxw, (hNp _ hxw).mpr hx'.2⟩
    · exact Or.inr ⟨by omega, fun h0 => by rw [h0] at hxw; simp at hxw, fun w hw' => (hNp _ hw').mpr (hone hp w hw')⟩
  obtain ⟨⟨N', ll⟩, hr⟩ := hout
  have hN' : N' = N := by rw [(stepTimed_ok _ _ _ _ _ _ hS hr).1, hfix]
  subst hN'
  exact ⟨hNs, hNp, ⟨ll, hr⟩, (bw_fixed_iff_stationary processes S _ _ ll hNs hS hw hlen ht hr).mp rfl, b2⟩

/-- C100, limits: let `st k` be the result of learning with `k` iterations (tolerance 0). If the learned rates converge along
some subsequence, to the rates of a CTMC `N`, then the same traces of the set are possible in `N`, the log-densities of all
the learned CTMCs converge to the one of `N`, and `N` is a stationary point that one more iteration leaves unchanged. -/
theorem fit_limit (processes : ℕ) (S : TSet (Sym L)) (M : CTMC ℝ L n) (hM : M.Valid)
    (hS : TimedSet S) (hw : WaitsPos S) (hlen : S.times.length = S.sequences.length) (ht : ∀ t ∈ S.times, 1 ≤ t)
    (st : ℕ → LoopState (CTMC ℝ L n)) (h : ∀ k, fit (stepTimed processes noFixed S) 0 k M = .ok (st k))
    (φ : ℕ → ℕ) (hφ : StrictMono φ) (N : CTMC ℝ L n) (hl : N.labelling = M.labelling) (hi : N.initialState = M.initialState)
    (hN : ∀ s ss, Tendsto (fun j => (st (φ j)).h.matrix s ss) atTop (𝓝 (N.matrix s ss))) :
    N.Valid ∧ (∀ w ∈ S.sequences, N.density w ≠ 0 ↔ M.density w ≠ 0) ∧
    Tendsto (fun k => avgLogLik (st k).h.density S) atTop (𝓝 (avgLogLik N.density S)) ∧
    (∃ ll, stepTimed processes noFixed S N = .ok (N, ll)) ∧ N.Stationary S := by
  have hpos := fit_pos (stepTimed processes noFixed S) 0 M 1 le_rfl (st 1) (h 1) S ht (fun x hx => ((mem_possCT M S x).mp hx).1)
    (fun r l hr => (M.step_poss processes noFixed S hS hlen _ hr).1)
  obtain ⟨C, hC, hCb⟩ := density_bound M.initialState S hw
  obtain ⟨⟨l1, h1⟩, c2, c3, y, c4⟩ := (M.climb processes S C hC hCb hS hw hlen ht hpos).fit_limits M
    ⟨hM, rfl, rfl, fun _ _ => Iff.rfl⟩ st h
  obtain ⟨b1, b2, b3, b4, b5⟩ := M.limit_core processes S hM hS hw hlen ht _ h1 (fun j => (st (φ j)).h)
    (fun j => (c2 (φ j)).1) (fun j => (c2 (φ j)).2) (c3.comp hφ.tendsto_atTop) N hl hi hN
  refine ⟨b1, b2, ?_, b3, b4⟩
  rw [tendsto_nhds_unique b5 (c4.comp hφ.tendsto_atTop)]
  exact c4

/-- C100, bounds: no learned rate exceeds both the largest initial rate and the inverse of the least waiting time. -/
theorem fit_rates_bounded (processes : ℕ) (S : TSet (Sym L)) (epsilon : ℝ) (maxIt : ℕ) (M : CTMC ℝ L n) (hM : M.Valid)
    (hS : TimedSet S) (δ R : ℝ) (hδ : 0 < δ) (hw : ∀ w ∈ S.sequences, ∀ p ∈ timedSteps w, δ ≤ p.2)
    (hR : ∀ s ss, M.matrix s ss ≤ R) (hR' : 1 / δ ≤ R)
    (st : LoopState (CTMC ℝ L n)) (h : fit (stepTimed processes noFixed S) epsilon maxIt M = .ok st) (s ss : Fin n) :
    st.h.matrix s ss ≤ R := by
  have hwn : WaitsNonneg S := fun w hw' p hp => hδ.le.trans (hw w hw' p hp)
  refine (loop_invariant _ _ (fun M' : CTMC ℝ L n => M'.Valid ∧ ∀ s ss, M'.matrix s ss ≤ R) ?_ _ _ _ ⟨hM, hR⟩ h).2 s ss
  rintro M1 M2 ll ⟨i1, i2⟩ hs
  refine ⟨M1.bw_step_valid _ _ _ _ _ i1 hS hwn hs, fun s ss => ?_⟩
  rw [(M1.bw_update_spec _ _ _ _ _ hS hs).2.2.1 s ss rfl, M1.timeIn_eq, M1.jumps_eq]
  split_ifs with h0
  · exact i2 s ss
  · have hd : 0 < denCT M1 S s := lt_of_le_of_ne (denCT_nonneg M1 i1 S hwn s) (Ne.symm h0)
    refine le_trans ?_ hR'
    rw [div_le_div_iff₀ hd hδ, one_mul]
    have h4 := denCT_ge M1 i1 S δ hw s
    have h5 := Finset.single_le_sum (f := fun ss => numCT M1 S s ss) (fun ss _ => numCT_nonneg M1 i1 S s ss) (Finset.mem_univ ss)
    nlinarith

/-- C100, existence: such subsequences exist. -/
theorem fit_limit_exists (processes : ℕ) (S : TSet (Sym L)) (M : CTMC ℝ L n) (hM : M.Valid) (hS : TimedSet S) (hw : WaitsPos S)
    (st : ℕ → LoopState (CTMC ℝ L n)) (h : ∀ k, fit (stepTimed processes noFixed S) 0 k M = .ok (st k)) :
    ∃ (φ : ℕ → ℕ) (N : CTMC ℝ L n), StrictMono φ ∧ N.labelling = M.labelling ∧ N.initialState = M.initialState ∧
      ∀ s ss, Tendsto (fun j => (st (φ j)).h.matrix s ss) atTop (𝓝 (N.matrix s ss)) := by
  obtain ⟨δ, hδ, _, hmin⟩ := hw.least
  set R := 1 / δ + ∑ s, ∑ ss, M.matrix s ss with hRd
  have hsum : 0 ≤ ∑ s, ∑ ss, M.matrix s ss := Finset.sum_nonneg (fun s _ => Finset.sum_nonneg (fun ss _ => hM.2 s ss))
  have hR' : 1 / δ ≤ R := by rw [hRd]; linarith
  have hR0 : 0 ≤ R := le_trans (by positivity) hR'
  have hR : ∀ s ss, M.matrix s ss ≤ R := by
    intro s ss
    have a1 := Finset.single_le_sum (f := fun ss => M.matrix s ss) (fun ss _ => hM.2 s ss) (Finset.mem_univ ss)
    have a2 := Finset.single_le_sum (f := fun s => ∑ ss, M.matrix s ss) (fun s _ => Finset.sum_nonneg (fun ss _ => hM.2 s ss))
      (Finset.mem_univ s)
    have a3 : 0 ≤ 1 / δ := by positivity
    rw [hRd]
    linarith
  have hs : ∀ k, (st k).h.matrix ∈ Metric.closedBall (0 : Fin n → Fin n → ℝ) R := by
    intro k
    have hk := M.fit_valid processes noFixed S 0 k hM hS hw.nonneg (st k) (h k)
    rw [mem_closedBall_zero_iff, pi_norm_le_iff_of_nonneg hR0]
    intro s
    rw [pi_norm_le_iff_of_nonneg hR0]
    intro ss
    rw [Real.norm_eq_abs, abs_of_nonneg (hk.2 s ss)]
    exact M.fit_rates_bounded processes S 0 k hM hS δ R hδ hmin hR hR' (st k) (h k) s ss
  obtain ⟨a, _, φ, hφ, ha⟩ := (isCompact_closedBall (0 : Fin n → Fin n → ℝ) R).tendsto_subseq hs
  refine ⟨φ, { M with matrix := a }, hφ, rfl, rfl, fun s ss => ?_⟩
  exact (tendsto_pi_nhds.mp ((tendsto_pi_nhds.mp ha) s)) ss

/-- C100, tolerances: let `st j` be the result of learning with the tolerance `eps j`, stopped because the progress was below
the tolerance. If the tolerances tend to 0 and the learned rates converge to those of a CTMC `N`, then `N` is a stationary
point that one more iteration leaves unchanged. -/
theorem fit_tolerance (processes : ℕ) (S : TSet (Sym L)) (M : CTMC ℝ L n) (hM : M.Valid)
    (hS : TimedSet S) (hw : WaitsPos S) (hlen : S.times.length = S.sequences.length) (ht : ∀ t ∈ S.times, 1 ≤ t)
    (eps : ℕ → ℝ) (maxIt : ℕ → ℕ) (st : ℕ → LoopState (CTMC ℝ L n)) (heps : Tendsto eps atTop (𝓝 0))
    (h : ∀ j, fit (stepTimed processes noFixed S) (eps j) (maxIt j) M = .ok (st j)) (hstop : ∀ j, (st j).counter < maxIt j)
    (N : CTMC ℝ L n) (hl : N.labelling = M.labelling) (hi : N.initialState = M.initialState)
    (hN : ∀ s ss, Tendsto (fun j => (st j).h.matrix s ss) atTop (𝓝 (N.matrix s ss))) :
    N.Valid ∧ (∀ w ∈ S.sequences, N.density w ≠ 0 ↔ M.density w ≠ 0) ∧
    (∃ ll, stepTimed processes noFixed S N = .ok (N, ll)) ∧ N.Stationary S := by
  have hc : 1 ≤ maxIt 0 := by have := hstop 0; omega
  have hpos := fit_pos (stepTimed processes noFixed S) (eps 0) M (maxIt 0) hc (st 0) (h 0) S ht
    (fun x hx => ((mem_possCT M S x).mp hx).1) (fun r l hr => (M.step_poss processes noFixed S hS hlen _ hr).1)
  obtain ⟨C, hC, hCb⟩ := density_bound M.initialState S hw
  obtain ⟨⟨l1, h1⟩, c2, c3⟩ := (M.climb processes S C hC hCb hS hw hlen ht hpos).fit_tolerances M
    ⟨hM, rfl, rfl, fun _ _ => Iff.rfl⟩ eps maxIt st heps h hstop
  obtain ⟨b1, b2, b3, b4, _⟩ := M.limit_core processes S hM hS hw hlen ht _ h1 (fun j => (st j).h)
    (fun j => (c2 j).1) (fun j => (c2 j).2) c3 N hl hi hN
  exact ⟨b1, b2, b3, b4⟩

/-- C100, for every starting point: if the initial CTMC can generate some trace of the set, learning with more and more
iterations approaches, along a subsequence, a stationary point of the log-density, at least as good as the initial CTMC; and
the log-densities of the learned CTMCs converge to its log-density. -/
theorem fit_converges (processes : ℕ) (hp : 1 < processes) (S : TSet (Sym L)) (M : CTMC ℝ L n) (hM : M.Valid)
    (hS : TimedSet S) (hw : WaitsPos S) (hlen : S.times.length = S.sequences.length) (ht : ∀ t ∈ S.times, 1 ≤ t)
    (w : List (Sym L)) (hw' : w ∈ S.sequences) (hl : M.density w ≠ 0) :
    ∃ (st : ℕ → LoopState (CTMC ℝ L n)) (φ : ℕ → ℕ) (N : CTMC ℝ L n),
      (∀ k, fit (stepTimed processes noFixed S) 0 k M = .ok (st k)) ∧
      StrictMono φ ∧ N.Valid ∧ N.Stationary S ∧ avgLogLik M.density S ≤ avgLogLik N.density S ∧
      (∀ s ss, Tendsto (fun j => (st (φ j)).h.matrix s ss) atTop (𝓝 (N.matrix s ss))) ∧
      Tendsto (fun k => avgLogLik (st k).h.density S) atTop (𝓝 (avgLogLik N.density S)) := by
  choose st hst using fun k => M.fit_total processes hp noFixed S 0 k hM hS hw.nonneg hlen ht w hw' hl
  obtain ⟨φ, N, h1, h2, h3, h4⟩ := M.fit_limit_exists processes S hM hS hw st hst
  obtain ⟨a1, a2, a3, a4, a5⟩ := M.fit_limit processes S hM hS hw hlen ht st hst φ h1 N h2 h3 h4
  exact ⟨st, φ, N, hst, h1, a1, a5, ge_of_tendsto a3 (Eventually.of_forall (fun k =>
    M.fit_monotone processes noFixed S 0 k hM hS hw.nonneg hlen ht (st k) (hst k))), h4, a3⟩

/-- A trace with positive waiting times, and a set with this trace only. -/
noncomputable def exTimedPos : List (Sym ℕ) := timed [(2, 1/2), (0, 1)] 1
noncomputable def exSetPos : TSet (Sym ℕ) := { sequences := [exTimedPos], times := [1], floatTimes := false, type := some 4 }

theorem exSetPos_ok : TimedSet exSetPos ∧ WaitsPos exSetPos ∧ exSetPos.times.length = exSetPos.sequences.length ∧
    (∀ t ∈ exSetPos.times, 1 ≤ t) ∧ (exCTMC ℝ).density exTimedPos ≠ 0 := by
  refine ⟨?_, ?_, rfl, by simp [exSetPos], ?_⟩
  · intro w hw
    rw [List.mem_singleton.mp hw]
    exact ⟨isTimed_timed _ _, by rw [exTimedPos, timed_length]; simp⟩
  · intro w hw
    rw [List.mem_singleton.mp hw, exTimedPos, timedSteps_timed]
    simp
  · unfold density exTimedPos
    rw [totalWeight_eq, timedSteps_timed]
    simp only [beta0, betas, bwd, List.headD, Fin.sum_univ_three, rateStep, lastMask, observations_timed]
    simp [exCTMC]

/-- The hypotheses are met by `exCTMC` and `exSetPos`, and there an iteration does change the rates. -/
example : (exCTMC ℝ).Valid ∧ TimedSet exSetPos ∧ WaitsPos exSetPos ∧ exSetPos.times.length = exSetPos.sequences.length ∧
    (∀ t ∈ exSetPos.times, 1 ≤ t) ∧ exTimedPos ∈ exSetPos.sequences ∧ (exCTMC ℝ).density exTimedPos ≠ 0 ∧
    ∃ M' ll, stepTimed 2 noFixed exSetPos (exCTMC ℝ) = .ok (M', ll) ∧ M' ≠ exCTMC ℝ := by
  obtain ⟨h1, h2, h3, h4, h5⟩ := exSetPos_ok
  refine ⟨exCTMC_valid.1, h1, h2, h3, h4, by simp [exSetPos], h5, ?_⟩
  obtain ⟨⟨M', ll⟩, hr⟩ := ((exCTMC ℝ).bw_step_outcome 2 noFixed exSetPos h1 h3).1
    (Or.inl ⟨by norm_num, exTimedPos, by simp [exSetPos], h5⟩)
  refine ⟨M', ll, hr, fun hc => ?_⟩
  have k1 := (newCT_eq_iff (exCTMC ℝ) exCTMC_valid.1 exSetPos h2).mp ((stepTimed_ok _ _ _ _ _ _ h1 hr).1.symm.trans hc) 2 0
  have hp : possCT (exCTMC ℝ) exSetPos = [(exTimedPos, 1)] := by
    unfold possCT exSetPos
    simp [h5]
  rw [denCT_eq_sum] at k1
  unfold numCT at k1
  rw [hp] at k1
  simp only [List.map_cons, List.map_nil, List.sum_cons, List.sum_nil] at k1
  unfold density exTimedPos at k1
  rw [totalWeight_eq, timedSteps_timed] at k1
  simp only [use_cons, use_nil, beta0, betas, bwd, fwd, List.headD, Fin.sum_univ_three, rateStep, lastMask, observations_timed] at k1
  simp [exCTMC] at k1

end CTMC
end Jajapy
