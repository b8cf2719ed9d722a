import Mathlib.Analysis.MeanInequalities
import Mathlib.Analysis.SpecialFunctions.Log.Basic

/-!
The inequality behind the estimation of the parameters of monomial rates.
-/

namespace Jajapy.PEst

open Finset

/-- `u^c - 1 ≤ c * u^c * log u`. -/
theorem pow_sub_one_le {u : ℝ} (hu : 0 < u) (c : ℕ) : u ^ c - 1 ≤ c * (u ^ c * Real.log u) := by
  have hp : 0 < u ^ c := pow_pos hu c
  have h := Real.one_sub_inv_le_log_of_pos hp
  rw [Real.log_pow] at h
  have h2 := mul_le_mul_of_nonneg_left h hp.le
  have h3 : u ^ c * (1 - (u ^ c)⁻¹) = u ^ c - 1 := by field_simp
  rw [h3] at h2
  linarith

/-- The inequality of the means, for the powers that occur in a monomial of total degree `c`. -/
theorem prod_pow_le {ι : Type} (I : Finset ι) (a : ι → ℕ) (u : ι → ℝ) (hu : ∀ i ∈ I, 0 ≤ u i) (hc : 0 < ∑ i ∈ I, a i) :
    (∑ i ∈ I, a i : ℕ) * ∏ i ∈ I, u i ^ a i ≤ ∑ i ∈ I, a i * u i ^ (∑ j ∈ I, a j) := by
  set c := ∑ i ∈ I, a i with hcd
  have hc' : (0:ℝ) < c := by exact_mod_cast hc
  have hsum : ∑ i ∈ I, ((a i : ℝ) / c) = 1 := by
    rw [← Finset.sum_div, div_eq_one_iff_eq hc'.ne', hcd]
    push_cast
    rfl
  have h := Real.geom_mean_le_arith_mean_weighted I (fun i => (a i : ℝ) / c) (fun i => u i ^ c)
    (fun i _ => by positivity) hsum (fun i hi => pow_nonneg (hu i hi) c)
  have e1 : ∏ i ∈ I, (u i ^ c) ^ ((a i : ℝ) / c) = ∏ i ∈ I, u i ^ a i := by
    refine Finset.prod_congr rfl (fun i hi => ?_)
    rw [← Real.rpow_natCast (u i) c, ← Real.rpow_mul (hu i hi), mul_div_cancel₀ _ hc'.ne', Real.rpow_natCast]
  rw [e1] at h
  have h2 := mul_le_mul_of_nonneg_left h hc'.le
  refine le_trans h2 (le_of_eq ?_)
  rw [Finset.mul_sum]
  refine Finset.sum_congr rfl (fun i _ => ?_)
  field_simp

/-- The gain of an update of the parameters. `X` are the transitions, `I` the parameters; a transition `x` is used `N x` times,
its source keeps `T x`, its rate `r x` contains the parameter `i` with the exponent `a x i`; each parameter is multiplied by
`u i`. A parameter either keeps its value or satisfies the balance equation. -/
theorem gain_nonneg {ξ ι : Type} (X : Finset ξ) (I : Finset ι) (a : ξ → ι → ℕ) (N T r : ξ → ℝ) (u : ι → ℝ)
    (hN : ∀ x ∈ X, 0 ≤ N x) (hT : ∀ x ∈ X, 0 ≤ T x) (hr : ∀ x ∈ X, 0 ≤ r x) (hu : ∀ i ∈ I, 0 ≤ u i)
    (hbal : ∀ i ∈ I, u i = 1 ∨
      ∑ x ∈ X, a x i * N x = ∑ x ∈ X, a x i * (T x * r x * u i ^ (∑ j ∈ I, a x j))) :
    (∀ x ∈ X, 0 < N x → ∀ i ∈ I, 0 < a x i → 0 < u i) ∧
    ∑ x ∈ X, T x * (r x * (∏ i ∈ I, u i ^ a x i) - r x) ≤ ∑ x ∈ X, N x * Real.log (∏ i ∈ I, u i ^ a x i) := by
  have hpos : ∀ x ∈ X, 0 < N x → ∀ i ∈ I, 0 < a x i → 0 < u i := by
    intro x hx hNx i hi hai
    rcases (hu i hi).eq_or_lt with h0 | h0
    · exfalso
      rcases hbal i hi with h1 | h1
      · rw [← h0] at h1; norm_num at h1
      · have hz : ∑ x ∈ X, (a x i : ℝ) * (T x * r x * u i ^ (∑ j ∈ I, a x j)) = 0 := by
          refine Finset.sum_eq_zero (fun y _ => ?_)
          by_cases hy : a y i = 0
          · simp [hy]
          · have : ∑ j ∈ I, a y j ≠ 0 := by
              intro h
              exact hy (Finset.sum_eq_zero_iff.1 h i hi)
            rw [← h0, zero_pow this]; simp
        rw [hz] at h1
        have h2 := (Finset.sum_eq_zero_iff_of_nonneg (fun y hy => mul_nonneg (Nat.cast_nonneg (a y i)) (hN y hy))).1 h1 x hx
        have h3 : (0:ℝ) < a x i * N x := mul_pos (by exact_mod_cast hai) hNx
        exact absurd h2 h3.ne'
    · exact h0
  refine ⟨hpos, ?_⟩
  -- one parameter
  have hone : ∀ i ∈ I, ∑ x ∈ X, a x i * (T x * r x * ((u i ^ (∑ j ∈ I, a x j) - 1) / (∑ j ∈ I, a x j : ℕ)))
      ≤ ∑ x ∈ X, a x i * (N x * Real.log (u i)) := by
    intro i hi
    rcases hbal i hi with h1 | h1
    · rw [h1]; simp
    rcases (hu i hi).eq_or_lt with h0 | h0
    · rw [← h0, Real.log_zero]
      simp only [mul_zero, Finset.sum_const_zero]
      refine Finset.sum_nonpos (fun x hx => ?_)
      by_cases hax : a x i = 0
      · simp [hax]
      · have hc : ∑ j ∈ I, a x j ≠ 0 := fun h => hax (Finset.sum_eq_zero_iff.1 h i hi)
        rw [zero_pow hc]
        refine mul_nonpos_of_nonneg_of_nonpos (Nat.cast_nonneg _) ?_
        refine mul_nonpos_of_nonneg_of_nonpos (mul_nonneg (hT x hx) (hr x hx)) ?_
        exact div_nonpos_of_nonpos_of_nonneg (by norm_num) (Nat.cast_nonneg _)
    · have e : ∑ x ∈ X, (a x i : ℝ) * (N x * Real.log (u i))
          = ∑ x ∈ X, a x i * (T x * r x * u i ^ (∑ j ∈ I, a x j) * Real.log (u i)) := by
        have : ∑ x ∈ X, (a x i : ℝ) * (N x * Real.log (u i)) = (∑ x ∈ X, a x i * N x) * Real.log (u i) := by
          rw [Finset.sum_mul]; exact Finset.sum_congr rfl (fun x _ => by ring)
        rw [this, h1, Finset.sum_mul]
        exact Finset.sum_congr rfl (fun x _ => by ring)
      rw [e]
      refine Finset.sum_le_sum (fun x hx => ?_)
      by_cases hax : a x i = 0
      · simp [hax]
      · have hc : ∑ j ∈ I, a x j ≠ 0 := fun h => hax (Finset.sum_eq_zero_iff.1 h i hi)
        have hc' : (0:ℝ) < (∑ j ∈ I, a x j : ℕ) := by exact_mod_cast Nat.pos_of_ne_zero hc
        refine mul_le_mul_of_nonneg_left ?_ (Nat.cast_nonneg _)
        rw [mul_assoc (T x * r x)]
        refine mul_le_mul_of_nonneg_left ?_ (mul_nonneg (hT x hx) (hr x hx))
        rw [div_le_iff₀ hc']
        have := pow_sub_one_le h0 (∑ j ∈ I, a x j)
        linarith
  have hall := Finset.sum_le_sum hone
  rw [Finset.sum_comm, Finset.sum_comm (s := I)] at hall
  refine le_trans ?_ (le_trans hall (le_of_eq ?_))
  · refine Finset.sum_le_sum (fun x hx => ?_)
    by_cases hc : ∑ j ∈ I, a x j = 0
    · have ha : ∀ i ∈ I, a x i = 0 := fun i hi => Finset.sum_eq_zero_iff.1 hc i hi
      rw [Finset.prod_eq_one (fun i hi => by rw [ha i hi, pow_zero]), mul_one, sub_self, mul_zero]
      rw [Finset.sum_eq_zero (fun i hi => by rw [ha i hi]; simp)]
    · have hc' : (0:ℝ) < (∑ j ∈ I, a x j : ℕ) := by exact_mod_cast Nat.pos_of_ne_zero hc
      have h := prod_pow_le I (a x) u hu (Nat.pos_of_ne_zero hc)
      have e : ∑ i ∈ I, (a x i : ℝ) * (T x * r x * ((u i ^ (∑ j ∈ I, a x j) - 1) / (∑ j ∈ I, a x j : ℕ)))
          = T x * r x * ((∑ i ∈ I, a x i * u i ^ (∑ j ∈ I, a x j)) / (∑ j ∈ I, a x j : ℕ) - 1) := by
        have e2 : (∑ i ∈ I, (a x i : ℝ)) / (∑ j ∈ I, a x j : ℕ) = 1 := by
          rw [div_eq_one_iff_eq hc'.ne']; push_cast; rfl
        conv_rhs => rw [← e2, ← sub_div, ← Finset.sum_sub_distrib, Finset.sum_div, Finset.mul_sum]
        refine Finset.sum_congr rfl (fun i _ => ?_)
        ring
      rw [e]
      have h5 : ∏ i ∈ I, u i ^ a x i ≤ (∑ i ∈ I, a x i * u i ^ (∑ j ∈ I, a x j)) / (∑ j ∈ I, a x j : ℕ) := by
        rw [le_div_iff₀ hc']; linarith
      have h6 := mul_le_mul_of_nonneg_left h5 (mul_nonneg (hT x hx) (hr x hx))
      calc T x * (r x * ∏ i ∈ I, u i ^ a x i - r x) = T x * r x * (∏ i ∈ I, u i ^ a x i) - T x * r x := by ring
        _ ≤ T x * r x * ((∑ i ∈ I, a x i * u i ^ (∑ j ∈ I, a x j)) / (∑ j ∈ I, a x j : ℕ)) - T x * r x := by linarith
        _ = _ := by ring
  · refine Finset.sum_congr rfl (fun x hx => ?_)
    rcases (hN x hx).eq_or_lt with h0 | h0
    · rw [← h0]; simp
    · rw [Real.log_prod]
      · rw [Finset.mul_sum]
        refine Finset.sum_congr rfl (fun i _ => ?_)
        rw [Real.log_pow]; ring
      · intro i hi
        by_cases ha : a x i = 0
        · rw [ha]; simp
        · exact (pow_pos (hpos x hx h0 i hi (Nat.pos_of_ne_zero ha)) _).ne'

end Jajapy.PEst
