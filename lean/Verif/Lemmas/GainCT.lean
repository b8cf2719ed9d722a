import Verif.Lemmas.CTMC
import Verif.Lemmas.BWMC

/-!
The gain of log-density when the rates of a CTMC are replaced by others, for timed traces.
-/

set_option linter.unusedSectionVars false

namespace Jajapy

open Finset Spec BW

section
variable {L : Type} {n : ℕ} [DecidableEq L]

/-- The gain of log-density is at least the gain of the expected complete log-density. -/
theorem rates_gain_le (M N : CTMC ℝ L n) (hM : M.Valid) (hV : N.Valid) (hlab : N.labelling = M.labelling)
    (hinit : N.initialState = M.initialState) (S : TSet (Sym L)) (ht : ∀ t ∈ S.times, 1 ≤ t)
    (hrate : ∀ s ss, 0 < M.matrix s ss → 0 < numCT M S s ss → 0 < N.matrix s ss) :
    (∀ x ∈ possCT M S, 0 < N.density x.1) ∧
    ((possCT M S).map (fun x => Real.log (M.density x.1) * x.2)).sum
      + (∑ s, ∑ ss, Real.log (N.matrix s ss / M.matrix s ss) * numCT M S s ss
        - ∑ s, denCT M S s * (∑ ss, N.matrix s ss - ∑ ss, M.matrix s ss)) ≤
    ((possCT M S).map (fun x => Real.log (N.density x.1) * x.2)).sum := by
  have hmask : ∀ w, N.lastMask w = M.lastMask w := by
    intro w; funext s; unfold CTMC.lastMask; rw [hlab]
  have hnn := numCT_nonneg M hM S
  have hposs : ∀ x ∈ possCT M S, M.density x.1 ≠ 0 ∧ x.2 ∈ S.times ∧ x.1 ∈ S.sequences := by
    intro x hx
    obtain ⟨h1, h2⟩ := (mem_possCT M S x).mp hx
    exact ⟨h2, (List.of_mem_zip h1).2, (List.of_mem_zip h1).1⟩
  have hpos_of : ∀ s ss (o : L × ℝ), 0 < M.rateStep s ss o → M.labelling s = o.1 ∧ 0 < M.matrix s ss := by
    intro s ss o h
    unfold CTMC.rateStep at h
    split_ifs at h with hl
    · exact ⟨hl, pos_of_mul_pos_left h (Real.exp_pos _).le⟩
    · exact absurd h (lt_irrefl _)
  have key := em_total (possCT M S) (fun x => timedSteps x.1) (fun x => M.lastMask x.1) (fun x => (x.2 : ℝ))
    (fun x => M.density x.1) (fun x => N.density x.1)
    M.rateStep N.rateStep M.initialState M.initialState (M.rateStep_nonneg hM.2) (N.rateStep_nonneg hV.2)
    (fun x _ => M.lastMask_nonneg x.1) hM.1 hM.1
    (fun x hx => by unfold CTMC.density; rw [totalWeight_eq])
    (fun x hx => by unfold CTMC.density; rw [totalWeight_eq, hinit, hmask])
    (fun x hx => lt_of_le_of_ne (M.density_nonneg hM _) (hposs x hx).1.symm)
    (fun x hx => by have := ht _ (hposs x hx).2.1; exact_mod_cast this)
    (by
      intro s ss x hx o ho hpos hu
      obtain ⟨e1, e2⟩ := hpos_of s ss o hpos
      have h1 : 0 < numCT M S s ss := hu (fun _ => 1) (fun _ _ _ _ => zero_le_one) zero_lt_one
      have h2 := hrate s ss e2 h1
      unfold CTMC.rateStep
      rw [hlab, if_pos e1]
      exact mul_pos h2 (Real.exp_pos _))
    (by
      intro s hs
      rcases (hM.1 s).eq_or_lt with h | h
      · rw [← h] at hs; simp at hs
      · exact h)
  refine ⟨key.1, ?_⟩
  have hz : ∀ x : ℝ, Real.log (x / x) = 0 := by
    intro x
    by_cases h : x = 0
    · simp [h]
    · simp [div_self h]
  have k2 := key.2
  simp only [hz, mul_zero, Finset.sum_const_zero, zero_add] at k2
  -- the exponential part and the rate part of the gain
  have hgain : (∑ s, ∑ ss, Real.log (N.matrix s ss / M.matrix s ss) * numCT M S s ss
        - ∑ s, denCT M S s * (∑ ss, N.matrix s ss - ∑ ss, M.matrix s ss)) ≤ ∑ s, ∑ ss, ((possCT M S).map (fun y => use M.rateStep M.initialState (M.lastMask y.1)
      (fun o => Real.log (N.rateStep s ss o / M.rateStep s ss o))
      ((y.2 : ℝ) / M.density y.1) (timedSteps y.1) s ss)).sum := by
    have e : ∀ s ss, ((possCT M S).map (fun y => use M.rateStep M.initialState (M.lastMask y.1)
        (fun o => Real.log (N.rateStep s ss o / M.rateStep s ss o))
        ((y.2 : ℝ) / M.density y.1) (timedSteps y.1) s ss)).sum
        = Real.log (N.matrix s ss / M.matrix s ss) * numCT M S s ss
          + ((∑ j, M.matrix s j) - ∑ j, N.matrix s j) *
            ((possCT M S).map (fun x => use M.rateStep M.initialState (M.lastMask x.1) (fun p => p.2)
              (x.2 / M.density x.1) (timedSteps x.1) s ss)).sum := by
      intro s ss
      rcases (hnn s ss).eq_or_lt with h0 | hpos
      · -- the transition is never used
        have hzero : ∀ φ : L × ℝ → ℝ, ∀ y ∈ possCT M S, use M.rateStep M.initialState (M.lastMask y.1) φ
            ((y.2 : ℝ) / M.density y.1) (timedSteps y.1) s ss = 0 := by
          intro φ y hy
          have hone : use M.rateStep M.initialState (M.lastMask y.1) (fun _ => 1)
            ((y.2 : ℝ) / M.density y.1) (timedSteps y.1) s ss = 0 := by
            by_contra hne
            have hge := use_nonneg _ _ _ (M.rateStep_nonneg hM.2) hM.1 (M.lastMask_nonneg y.1) (fun _ => 1)
              ((y.2 : ℝ) / M.density y.1) (div_nonneg (Nat.cast_nonneg _) (M.density_nonneg hM _)) (timedSteps y.1)
              (fun _ _ => zero_le_one) s ss
            have := sum_map_pos (possCT M S) (fun x => use M.rateStep M.initialState (M.lastMask x.1) (fun _ => 1)
              ((x.2 : ℝ) / M.density x.1) (timedSteps x.1) s ss) (fun x _ => use_nonneg _ _ _ (M.rateStep_nonneg hM.2) hM.1
                (M.lastMask_nonneg _) _ _ (div_nonneg (Nat.cast_nonneg _) (M.density_nonneg hM _)) _ (fun _ _ => zero_le_one) _ _)
              y hy (lt_of_le_of_ne hge (Ne.symm hne))
            exact absurd h0 (ne_of_lt this)
          exact use_zero_of_one _ _ _ (M.rateStep_nonneg hM.2) hM.1 (M.lastMask_nonneg y.1) _
            (div_nonneg (Nat.cast_nonneg _) (M.density_nonneg hM _)) _ _ _ hone φ
        rw [List.sum_eq_zero, List.sum_eq_zero, ← h0, mul_zero, mul_zero, add_zero]
        · intro a ha
          obtain ⟨y, hy, rfl⟩ := List.mem_map.mp ha
          exact hzero _ y hy
        · intro a ha
          obtain ⟨y, hy, rfl⟩ := List.mem_map.mp ha
          exact hzero _ y hy
      · unfold numCT
        rw [← sum_map_mul, ← sum_map_mul, ← List.sum_map_add]
        congr 1
        refine List.map_congr_left (fun y hy => ?_)
        rw [← use_smul, ← use_smul, ← use_add]
        refine use_congr _ _ _ _ _ _ _ _ _ (fun o _ ho => ?_)
        obtain ⟨e1, e2⟩ := hpos_of s ss o (lt_of_le_of_ne (M.rateStep_nonneg hM.2 _ _ _) ho.symm)
        have h2 := hrate s ss e2 hpos
        unfold CTMC.rateStep
        rw [hlab, if_pos e1, if_pos e1, Real.log_div (mul_pos h2 (Real.exp_pos _)).ne' (mul_pos e2 (Real.exp_pos _)).ne',
          Real.log_mul h2.ne' (Real.exp_pos _).ne', Real.log_mul e2.ne' (Real.exp_pos _).ne', Real.log_exp, Real.log_exp,
          Real.log_div h2.ne' e2.ne']
        ring
    have e2 : ∀ s, ∑ ss, ((possCT M S).map (fun y => use M.rateStep M.initialState (M.lastMask y.1)
        (fun o => Real.log (N.rateStep s ss o / M.rateStep s ss o))
        ((y.2 : ℝ) / M.density y.1) (timedSteps y.1) s ss)).sum
        = ∑ ss, Real.log (N.matrix s ss / M.matrix s ss) * numCT M S s ss
          - denCT M S s * (∑ ss, N.matrix s ss - ∑ ss, M.matrix s ss) := by
      intro s
      rw [Finset.sum_congr rfl (fun ss _ => e s ss), Finset.sum_add_distrib, ← Finset.mul_sum, ← denCT_eq_sum]
      ring
    rw [Finset.sum_congr rfl (fun s _ => e2 s), Finset.sum_sub_distrib]
  linarith

/-- If the new rates increase the expected complete log-density then they do not decrease the log-density. -/
theorem rates_gain (M N : CTMC ℝ L n) (hM : M.Valid) (hV : N.Valid) (hlab : N.labelling = M.labelling)
    (hinit : N.initialState = M.initialState) (S : TSet (Sym L)) (ht : ∀ t ∈ S.times, 1 ≤ t)
    (hrate : ∀ s ss, 0 < M.matrix s ss → 0 < numCT M S s ss → 0 < N.matrix s ss)
    (hg : ∑ s, denCT M S s * (∑ ss, N.matrix s ss - ∑ ss, M.matrix s ss)
      ≤ ∑ s, ∑ ss, Real.log (N.matrix s ss / M.matrix s ss) * numCT M S s ss) :
    (∀ x ∈ possCT M S, 0 < N.density x.1) ∧
    ((possCT M S).map (fun x => Real.log (M.density x.1) * x.2)).sum ≤
    ((possCT M S).map (fun x => Real.log (N.density x.1) * x.2)).sum := by
  obtain ⟨h1, h2⟩ := rates_gain_le M N hM hV hlab hinit S ht hrate
  exact ⟨h1, by linarith⟩

/-- The same for Markov chains and untimed traces, with the gain. -/
theorem chains_gain_le (M N : MC ℝ L n) (S : TSet L) (hi0 : ∀ s, 0 ≤ M.initialState s) (hm0 : ∀ s s', 0 ≤ M.matrix s s')
    (hm0' : ∀ s s', 0 ≤ N.matrix s s') (hl : N.labelling = M.labelling)
    (ht : ∀ t ∈ S.times, 1 ≤ t) (hrate : ∀ s ss, 0 < M.matrix s ss → 0 < numMC M S s ss → 0 < N.matrix s ss) :
    (∀ x ∈ possMC M S, 0 < totalWeight M.initialState N.step (fun _ => 1) x.1) ∧
    ((possMC M S).map (fun x => Real.log (totalWeight M.initialState M.step (fun _ => 1) x.1) * x.2)).sum
      + ∑ s, ∑ ss, numMC M S s ss * Real.log (N.matrix s ss / M.matrix s ss) ≤
    ((possMC M S).map (fun x => Real.log (totalWeight M.initialState N.step (fun _ => 1) x.1) * x.2)).sum := by
  have hposs : ∀ x ∈ possMC M S, totalWeight M.initialState M.step (fun _ => 1) x.1 ≠ 0 ∧ x.2 ∈ S.times := by
    intro x hx
    obtain ⟨h1, h2⟩ := List.mem_filter.mp hx
    exact ⟨by simpa using h2, (List.of_mem_zip h1).2⟩
  have key := em_total (possMC M S) (fun x => x.1) (fun _ _ => 1) (fun x => (x.2 : ℝ))
    (fun x => totalWeight M.initialState M.step (fun _ => 1) x.1)
    (fun x => totalWeight M.initialState N.step (fun _ => 1) x.1)
    M.step N.step M.initialState M.initialState (M.step_nonneg hm0) (N.step_nonneg hm0')
    (fun _ _ _ => zero_le_one) hi0 hi0 (fun x _ => totalWeight_eq _ _ _ _) (fun x _ => totalWeight_eq _ _ _ _)
    (fun x hx => lt_of_le_of_ne (totalWeight_nonneg _ _ _ (M.step_nonneg hm0) hi0 (fun _ => zero_le_one) _) (hposs x hx).1.symm)
    (fun x hx => by have := ht _ (hposs x hx).2; exact_mod_cast this)
    (by
      intro s ss x hx o ho hpos hu
      have h1 : 0 < numMC M S s ss := hu (fun _ => 1) (fun _ _ _ _ => zero_le_one) zero_lt_one
      unfold MC.step at hpos ⊢
      rw [hl]
      split_ifs at hpos ⊢ with hlab
      · rw [one_mul] at hpos ⊢
        exact hrate s ss hpos h1
      · rw [zero_mul] at hpos; exact absurd hpos (lt_irrefl _))
    (by
      intro s hs
      rcases (hi0 s).eq_or_lt with h | h
      · rw [← h] at hs; simp at hs
      · exact h)
  refine ⟨key.1, ?_⟩
  have hz : ∀ x : ℝ, Real.log (x / x) = 0 := by
    intro x
    by_cases h : x = 0
    · simp [h]
    · simp [div_self h]
  have k2 := key.2
  simp only [hz, mul_zero, Finset.sum_const_zero, zero_add] at k2
  have e : ∀ s ss, ((possMC M S).map (fun y => use M.step M.initialState (fun _ => 1)
      (fun o => Real.log (N.step s ss o / M.step s ss o))
      ((y.2 : ℝ) / totalWeight M.initialState M.step (fun _ => 1) y.1) y.1 s ss)).sum
      = numMC M S s ss * Real.log (N.matrix s ss / M.matrix s ss) := by
    intro s ss
    rw [mul_comm, numMC, ← sum_map_mul]
    congr 1
    refine List.map_congr_left (fun y _ => ?_)
    rw [wkMC, ← use_const]
    refine use_congr _ _ _ _ _ _ _ _ _ (fun o _ ho => ?_)
    unfold MC.step at ho ⊢
    rw [hl]
    split_ifs at ho ⊢ with hlab
    · rw [one_mul, one_mul]
    · simp at ho
  simp only [e] at k2
  linarith

/-- The same for Markov chains and untimed traces. -/
theorem chains_gain (M N : MC ℝ L n) (S : TSet L) (hi0 : ∀ s, 0 ≤ M.initialState s) (hm0 : ∀ s s', 0 ≤ M.matrix s s')
    (hm0' : ∀ s s', 0 ≤ N.matrix s s') (hl : N.labelling = M.labelling)
    (ht : ∀ t ∈ S.times, 1 ≤ t) (hrate : ∀ s ss, 0 < M.matrix s ss → 0 < numMC M S s ss → 0 < N.matrix s ss)
    (hgain : 0 ≤ ∑ s, ∑ ss, numMC M S s ss * Real.log (N.matrix s ss / M.matrix s ss)) :
    (∀ x ∈ possMC M S, 0 < totalWeight M.initialState N.step (fun _ => 1) x.1) ∧
    ((possMC M S).map (fun x => Real.log (totalWeight M.initialState M.step (fun _ => 1) x.1) * x.2)).sum ≤
    ((possMC M S).map (fun x => Real.log (totalWeight M.initialState N.step (fun _ => 1) x.1) * x.2)).sum := by
  obtain ⟨h1, h2⟩ := chains_gain_le M N S hi0 hm0 hm0' hl ht hrate
  exact ⟨h1, by linarith⟩

end
end Jajapy
