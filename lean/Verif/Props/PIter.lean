import Verif.Spec.PIter
import Verif.Lemmas.PStep

/-!
C58 for PCTMCs: what one iteration of the estimation of parameters computes.
-/

set_option linter.unusedSectionVars false
set_option autoImplicit false

namespace Jajapy.PCTMC

open Finset BW Spec

variable {M : PCTMC ℝ} {fixed : List String} {C : Cats ℝ}

theorem rateTimes_eq (h : M.Estimable fixed) (u : ℝ) (s ss : Fin M.nb) :
    M.rateTimes fixed u s ss = M.here.matrix s ss * u ^ (M.totalDegree (M.estimated fixed) s ss) := by
  unfold rateTimes
  rw [Expr.den_scale (M.estimated fixed) (h.mono s.2 ss.2) (valOf M.values) _ (fun _ => u)
    (fun p hp => by rw [if_pos ((mem_estimated _ _ _).1 hp)]; rfl) (fun p hp => by rw [if_neg (fun h' => hp ((mem_estimated _ _ _).2 h'))]; rfl)]
  rw [Finset.prod_pow_eq_pow_sum]
  rfl

/-- The factors of an iteration, from the sums of its tables. -/
theorem factors_spec (h : M.Estimable fixed) {v : Valuation ℝ} {u : String → ℝ} (hsc : Scaled M fixed v u) (T : Fin M.nb → ℝ) (N : Fin M.nb → Fin M.nb → ℝ)
    (hb : ∀ p ∈ M.estimated fixed, (u p = 1 ∧ M.spent T p = 0) ∨ (M.spent T p ≠ 0 ∧ Balance M (M.estimated fixed) T N p (u p))) (p : String)
    (hp : p ∈ M.names) (hf : p ∉ fixed) :
    ∃ x w, M.values.lookup p = some x ∧ v.lookup p = some (x * w) ∧ 0 ≤ w ∧ (M.overUses p (fun i j => T i * M.rateTimes fixed 1 i j) = 0 → w = 1) ∧
      (M.overUses p (fun i j => T i * M.rateTimes fixed 1 i j) ≠ 0 →
        M.overUses p (fun i j => T i * M.rateTimes fixed w i j) = M.overUses p N) := by
  have hI := (mem_estimated M fixed p).2 ⟨hp, hf⟩
  have hk : (M.values.lookup p).isSome := (isSome_known _ _).2 (h.full p hp)
  obtain ⟨x, hx⟩ := Option.isSome_iff_exists.1 hk
  have hov : ∀ f : Fin M.nb → Fin M.nb → ℝ, M.overUses p f = ∑ y : Fin M.nb × Fin M.nb, (M.rateExpr y.1 y.2).degree p * f y.1 y.2 :=
    fun f => (Fintype.sum_prod_type (fun y : Fin M.nb × Fin M.nb => (M.rateExpr y.1 y.2).degree p * f y.1 y.2)).symm
  have hone : M.overUses p (fun i j => T i * M.rateTimes fixed 1 i j) = M.spent T p := by
    refine (hov _).trans ?_
    unfold spent
    refine Finset.sum_congr rfl fun y _ => ?_
    rw [rateTimes_eq h, one_pow, mul_one]
  refine ⟨x, u p, hx, ?_, hsc.nonneg p hI, ?_, ?_⟩
  · have := hsc.new p hI
    rw [this]
    unfold valOf
    rw [hx]
    rfl
  · rw [hone]
    intro h0
    rcases hb p hI with ⟨h1, _⟩ | ⟨h1, _⟩
    · exact h1
    · exact absurd h0 h1
  · rw [hone]
    intro h0
    rcases hb p hI with ⟨_, h1⟩ | ⟨_, h1⟩
    · exact absurd h1 h0
    · unfold Balance at h1
      refine (hov _).trans (Eq.trans ?_ (h1.symm.trans (hov _).symm))
      refine Finset.sum_congr rfl fun y _ => ?_
      rw [rateTimes_eq h, mul_assoc]

/-- C58, estimation of parameters from timed traces. One iteration multiplies the value of each estimated parameter by a factor. The factor `w` is the one for
which the number of uses of the parameter predicted from the expected times, all estimated parameters being multiplied by `w`, is its expected number of
uses; the expectations are over all the paths that produce the traces. If the parameter is not used in a state where time is spent it keeps its value. Nothing
else changes, and the reported number is the log-density of the training set before the iteration. -/
theorem bw_update_spec (processes : ℕ) (h : M.Estimable fixed) (hC : M.sortParameters fixed = .ok C) (S : TSet (Sym String))
    (hS : CTMC.TimedSet S) (hw : WaitsNonneg S) (M' : PCTMC ℝ) (ll : ℝ) (hu : estimateStep processes C (.timed S) M = .ok (M', ll)) :
    M' = { M with values := M'.values } ∧
    (∀ p, p ∉ M.names ∨ p ∈ fixed → M'.values.lookup p = M.values.lookup p) ∧
    (∀ p ∈ M.names, p ∉ fixed → ∃ x w, M.values.lookup p = some x ∧ M'.values.lookup p = some (x * w) ∧ 0 ≤ w ∧
      (M.predictedTimed fixed S p 1 = 0 → w = 1) ∧
      (M.predictedTimed fixed S p 1 ≠ 0 → M.predictedTimed fixed S p w = M.usesTimed S p)) ∧
    ll = overSet S M.density (fun w => Real.log (M.density w)) := by
  obtain ⟨ts, hc, hu⟩ := estimateStep_ok processes h _ (tables_timed M.here S hS) M' ll hu
  obtain ⟨h1, _, _⟩ := collect_ok _ _ _ _ hc
  rw [filterMap_ite] at h1
  have hts : ts = (possCT M.here S).map (tbCT M.here) := h1
  have hgood : ∀ t ∈ ts, t.Good M.here := by
    intro t htm
    rw [hts] at htm
    obtain ⟨x, hx, rfl⟩ := List.mem_map.1 htm
    exact tbCT_good _ h.here_valid x (hw _ (List.of_mem_zip ((mem_possCT _ _ _).1 hx).1).1)
  obtain ⟨v, u, rfl, hsc, hb, hll⟩ := step_spec h (sortParameters_spec h C hC) hgood M' ll hu
  have hT : timeSum ts = M.chainNow.timeIn S := funext fun s => by
    rw [hts]; exact (timeSum_timed _ _ s).trans (CTMC.timeIn_eq _ _ _).symm
  have hN : usesSum ts = M.chainNow.jumps S := funext fun s => funext fun ss => by
    rw [hts]; exact (usesSum_timed _ _ s ss).trans (CTMC.jumps_eq _ _ _ _).symm
  rw [hT, hN] at hb
  refine ⟨rfl, ?_, ?_, ?_⟩
  · intro p hp
    refine hsc.same p (fun h' => ?_)
    have := (mem_estimated _ _ _).1 h'
    rcases hp with hp | hp
    · exact hp this.1
    · exact this.2 hp
  · intro p hp hf
    exact factors_spec h hsc _ _ hb p hp hf
  · rw [hll, hts, List.map_map]
    exact filter_sum_eq_overSet S _ _ M.here.density M.here.density (fun _ _ => rfl) (fun _ _ => rfl)

/-- C58, estimation of parameters from untimed traces. -/
theorem bw_update_untimed_spec (processes : ℕ) (h : M.Estimable fixed) (hC : M.sortParameters fixed = .ok C) (S : TSet String)
    (hi : ∑ s, M.chainNow.initialState s = 1) (hS : ∀ w ∈ S.sequences, 2 ≤ w.length) (he : ∀ s, ∑ j, M.chainNow.matrix s j ≠ 0)
    (M' : PCTMC ℝ) (ll : ℝ) (hu : estimateStep processes C (.untimed S) M = .ok (M', ll)) :
    M' = { M with values := M'.values } ∧
    (∀ p, p ∉ M.names ∨ p ∈ fixed → M'.values.lookup p = M.values.lookup p) ∧
    (∀ p ∈ M.names, p ∉ fixed → ∃ x w, M.values.lookup p = some x ∧ M'.values.lookup p = some (x * w) ∧ 0 ≤ w ∧
      (M.predictedUntimed fixed S p 1 = 0 → w = 1) ∧
      (M.predictedUntimed fixed S p 1 ≠ 0 → M.predictedUntimed fixed S p w = M.usesUntimed S p)) ∧
    ll = overSet S M.lik (fun w => Real.log (M.lik w)) := by
  obtain ⟨ts, hc, hu⟩ := estimateStep_ok processes h _ (tables_untimed M.here S hS) M' ll hu
  obtain ⟨h1, _, _⟩ := collect_ok _ _ _ _ hc
  rw [filterMap_ite] at h1
  have hts : ts = (possMC M.here.embedded S).map (tbMC M.here) := h1
  have hgood : ∀ t ∈ ts, t.Good M.here := by
    intro t htm
    rw [hts] at htm
    obtain ⟨x, hx, rfl⟩ := List.mem_map.1 htm
    exact tbMC_good _ h.here_valid he x
  obtain ⟨v, u, rfl, hsc, hb, hll⟩ := step_spec h (sortParameters_spec h C hC) hgood M' ll hu
  have hst : M.here.embedded.Stochastic := M.here.toMC_stochastic h.here_valid hi he
  have hne : ∀ w ∈ S.sequences, w ≠ [] := fun w hw => by rintro rfl; simpa using hS _ hw
  have hT : timeSum ts = fun s => M.chainNow.embedded.visits S s / ∑ k, M.chainNow.matrix s k := funext fun s => by
    rw [hts]
    refine (timeSum_untimed _ _ s).trans ?_
    rw [← MC.visits_eq _ _ hst.2.2.2 hne]
    rfl
  have hN : usesSum ts = M.chainNow.embedded.uses S := funext fun s => funext fun ss => by
    rw [hts]
    refine (usesSum_untimed _ _ s ss).trans ?_
    rw [← MC.uses_eq _ _ hst.2.2.2 hne]
    rfl
  rw [hT, hN] at hb
  refine ⟨rfl, ?_, ?_, ?_⟩
  · intro p hp
    refine hsc.same p (fun h' => ?_)
    have := (mem_estimated _ _ _).1 h'
    rcases hp with hp | hp
    · exact hp this.1
    · exact this.2 hp
  · intro p hp hf
    exact factors_spec h hsc _ _ hb p hp hf
  · rw [hll, hts, List.map_map]
    have hl : ∀ w ∈ S.sequences, M.here.embedded.lik w = totalWeight M.here.embedded.initialState M.here.embedded.step (fun _ => 1) w :=
      fun w hw => M.here.embedded.lik_eq hst.2.2.2 w (hne w hw)
    exact filter_sum_eq_overSet S _ _ M.here.embedded.lik M.here.embedded.lik hl hl

/-- C33, C34 for the estimation of parameters from timed traces: after any number of iterations the model is the same up to the values of the estimated
parameters, no rate is negative, and the rates that were 0 are 0. -/
theorem estimate_structure (processes : ℕ) (h : M.Estimable fixed) (hC : M.sortParameters fixed = .ok C) (S : TSet (Sym String))
    (hS : CTMC.TimedSet S) (hw : WaitsNonneg S) (epsilon : ℝ) (maxIt : ℕ) (st : LoopState (PCTMC ℝ))
    (hf : BW.fit (estimateStep processes C (.timed S)) epsilon maxIt M = .ok st) :
    st.h = { M with values := st.h.values } ∧ (∀ p, p ∉ M.names ∨ p ∈ fixed → st.h.values.lookup p = M.values.lookup p) ∧
    (∀ i j, i < M.matrix.length → j < M.matrix.length → 0 ≤ (M.rateExpr i j).den st.h.valueNow ∧
      ((M.rateExpr i j).den M.valueNow = 0 → (M.rateExpr i j).den st.h.valueNow = 0)) := by
  have i0 : (M = { M with values := M.values } ∧ M.Estimable fixed ∧ Sorted M fixed C) ∧ (∀ p, p ∉ M.names ∨ p ∈ fixed → M.values.lookup p = M.values.lookup p) ∧
      (∀ i j, i < M.matrix.length → j < M.matrix.length → (M.rateExpr i j).den M.valueNow = 0 → (M.rateExpr i j).den M.valueNow = 0) :=
    ⟨⟨rfl, h, sortParameters_spec h C hC⟩, fun _ _ => rfl, fun _ _ _ _ h => h⟩
  have := loop_invariant _ _ (fun N : PCTMC ℝ => (N = { M with values := N.values } ∧ N.Estimable fixed ∧ Sorted N fixed C) ∧
    (∀ p, p ∉ M.names ∨ p ∈ fixed → N.values.lookup p = M.values.lookup p) ∧
    (∀ i j, i < M.matrix.length → j < M.matrix.length → (M.rateExpr i j).den M.valueNow = 0 → (M.rateExpr i j).den N.valueNow = 0)) ?_ _ _ _ i0 hf
  · refine ⟨this.1.1, this.2.1, fun i j hi hj => ⟨?_, this.2.2 i j hi hj⟩⟩
    have hv := this.1.2.1.here_valid.2
    have e := this.1.1
    have hl : st.h.matrix.length = M.matrix.length := by rw [e]
    have := hv ⟨i, by rw [← hl] at hi; exact hi⟩ ⟨j, by rw [← hl] at hj; exact hj⟩
    have er : st.h.rateExpr i j = M.rateExpr i j := by rw [e]; rfl
    have h2 : 0 ≤ (st.h.rateExpr i j).den st.h.valueNow := this
    rwa [er] at h2
  · rintro N N' l ⟨⟨e1, e2, e3⟩, i2, i3⟩ hs
    obtain ⟨ts, hc, hu⟩ := estimateStep_ok processes e2 _ (tables_timed N.here S hS) N' l hs
    obtain ⟨h1, _, _⟩ := collect_ok _ _ _ _ hc
    rw [filterMap_ite] at h1
    have hts : ts = (possCT N.here S).map (tbCT N.here) := h1
    have hgood : ∀ t ∈ ts, t.Good N.here := by
      intro t htm
      rw [hts] at htm
      obtain ⟨x, hx, rfl⟩ := List.mem_map.1 htm
      exact tbCT_good _ e2.here_valid x (hw _ (List.of_mem_zip ((mem_possCT _ _ _).1 hx).1).1)
    obtain ⟨v, u, rfl, hsc, _, _⟩ := step_spec e2 e3 hgood N' l hu
    have en : N.names = M.names := by rw [e1]
    have em : N.matrix.length = M.matrix.length := by rw [e1]
    refine ⟨⟨by rw [e1], hsc.estimable e2, hsc.sorted e2 e3⟩, ?_, ?_⟩
    · intro p hp
      rw [← i2 p hp]
      refine hsc.same p (fun h' => ?_)
      have := (mem_estimated _ _ _).1 h'
      rw [en] at this
      rcases hp with hp | hp
      · exact hp this.1
      · exact this.2 hp
    · intro i j hi hj h0
      have hd := hsc.den e2 (i := i) (j := j) (by rw [em]; exact hi) (by rw [em]; exact hj)
      have er : N.rateExpr i j = M.rateExpr i j := by rw [e1]; rfl
      rw [er] at hd
      refine hd.trans ?_
      have : (M.rateExpr i j).den (valOf N.values) = 0 := i3 i j hi hj h0
      rw [this, zero_mul]

end Jajapy.PCTMC
