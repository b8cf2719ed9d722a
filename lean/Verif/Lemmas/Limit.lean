import Mathlib.Analysis.SpecialFunctions.Sqrt
import Mathlib.Analysis.SpecialFunctions.Log.Deriv
import Mathlib.Analysis.Calculus.LocalExtr.Basic
import Mathlib.Topology.Algebra.Order.LiminfLimsup
import Verif.Lemmas.EM

/-!
Limits and derivatives of the quantities computed by the forward-backward algorithm, and the inequality that bounds the gain
of an iteration by the distance it covers.
-/

set_option linter.unusedSectionVars false

namespace Jajapy.BW

open Finset Spec Filter Topology

/-- What replacing the rate `b / c` by the frequency `a / c` gains, times `c`, is at least the squared distance of the square
roots. -/
theorem sq_le_gain (a b : ℝ) (ha : 0 ≤ a) (hb : 0 ≤ b) (h : 0 < a → 0 < b) :
    (Real.sqrt a - Real.sqrt b) ^ 2 ≤ a * Real.log (a / b) - a + b := by
  rcases ha.eq_or_lt with h0 | hpos
  · rw [← h0]; simp [Real.sq_sqrt hb]
  · have hbp := h hpos
    have hsa : 0 < Real.sqrt a := Real.sqrt_pos.mpr hpos
    have hsb : 0 < Real.sqrt b := Real.sqrt_pos.mpr hbp
    have ea : a = Real.sqrt a ^ 2 := (Real.sq_sqrt ha).symm
    have eb : b = Real.sqrt b ^ 2 := (Real.sq_sqrt hb).symm
    have hl : Real.log (a / b) = - 2 * Real.log (Real.sqrt b / Real.sqrt a) := by
      rw [Real.log_div hsb.ne' hsa.ne', Real.log_div hpos.ne' hbp.ne', Real.log_sqrt ha, Real.log_sqrt hb]
      ring
    have h1 := Real.log_le_sub_one_of_pos (div_pos hsb hsa)
    have h2 : a * (Real.sqrt b / Real.sqrt a) = Real.sqrt a * Real.sqrt b := by
      nth_rewrite 1 [ea]
      field_simp
    have h3 := mul_le_mul_of_nonneg_left h1 ha
    rw [mul_sub, h2, mul_one] at h3
    rw [hl]
    nlinarith [Real.sq_sqrt ha, Real.sq_sqrt hb]

section
variable {O J : Type} {n : ℕ} {l : Filter J}

theorem tendsto_list_sum {X : Type} (L : List X) (g : J → X → ℝ) (g' : X → ℝ) (h : ∀ x ∈ L, Tendsto (fun j => g j x) l (𝓝 (g' x))) :
    Tendsto (fun j => (L.map (g j)).sum) l (𝓝 (L.map g').sum) := by
  induction L with
  | nil => simpa using tendsto_const_nhds
  | cons x L ih =>
    simp only [List.map_cons, List.sum_cons]
    exact (h x List.mem_cons_self).add (ih (fun y hy => h y (List.mem_cons_of_mem _ hy)))

theorem tendsto_beta0 (τ : J → Fin n → Fin n → O → ℝ) (τ' : Fin n → Fin n → O → ℝ) (f : Fin n → ℝ)
    (h : ∀ s ss o, Tendsto (fun j => τ j s ss o) l (𝓝 (τ' s ss o))) (os : List O) (s : Fin n) :
    Tendsto (fun j => beta0 (τ j) f os s) l (𝓝 (beta0 τ' f os s)) := by
  induction os generalizing s with
  | nil => simpa using tendsto_const_nhds
  | cons o os ih =>
    simp only [beta0_cons]
    exact tendsto_finsetSum _ (fun ss _ => (ih ss).mul (h s ss o))

theorem tendsto_use (τ : J → Fin n → Fin n → O → ℝ) (τ' : Fin n → Fin n → O → ℝ) (v : J → Fin n → ℝ) (v' f : Fin n → ℝ)
    (c : J → ℝ) (c' : ℝ) (h : ∀ s ss o, Tendsto (fun j => τ j s ss o) l (𝓝 (τ' s ss o)))
    (hv : ∀ s, Tendsto (fun j => v j s) l (𝓝 (v' s))) (hc : Tendsto c l (𝓝 c')) (φ : O → ℝ) (os : List O) (s ss : Fin n) :
    Tendsto (fun j => use (τ j) (v j) f φ (c j) os s ss) l (𝓝 (use τ' v' f φ c' os s ss)) := by
  induction os generalizing v v' with
  | nil => simpa using tendsto_const_nhds
  | cons o os ih =>
    simp only [use_cons]
    refine Tendsto.add (Tendsto.mul (Tendsto.mul (Tendsto.mul ((hv s).mul (h s ss o)) (tendsto_beta0 τ τ' f h os ss))
      tendsto_const_nhds) hc) (ih _ _ (fun s' => ?_))
    unfold fwd
    exact tendsto_finsetSum _ (fun i _ => (hv i).mul (h i s' o))

theorem tendsto_totalWeight (τ : J → Fin n → Fin n → O → ℝ) (τ' : Fin n → Fin n → O → ℝ) (v : J → Fin n → ℝ) (v' f : Fin n → ℝ)
    (h : ∀ s ss o, Tendsto (fun j => τ j s ss o) l (𝓝 (τ' s ss o)))
    (hv : ∀ s, Tendsto (fun j => v j s) l (𝓝 (v' s))) (os : List O) :
    Tendsto (fun j => totalWeight (v j) (τ j) f os) l (𝓝 (totalWeight v' τ' f os)) := by
  simp only [totalWeight_eq]
  exact tendsto_finsetSum _ (fun s _ => (hv s).mul (tendsto_beta0 τ τ' f h os s))

theorem differentiable_beta0 (τ : ℝ → Fin n → Fin n → O → ℝ) (f : Fin n → ℝ) (h : ∀ s ss o, Differentiable ℝ (fun e => τ e s ss o))
    (os : List O) (s : Fin n) : Differentiable ℝ (fun e => beta0 (τ e) f os s) := by
  induction os generalizing s with
  | nil => simp
  | cons o os ih =>
    simp only [beta0_cons]
    exact Differentiable.fun_sum (fun ss _ => (ih ss).mul (h s ss o))

theorem differentiable_totalWeight (τ : ℝ → Fin n → Fin n → O → ℝ) (v : ℝ → Fin n → ℝ) (f : Fin n → ℝ)
    (h : ∀ s ss o, Differentiable ℝ (fun e => τ e s ss o)) (hv : ∀ s, Differentiable ℝ (fun e => v e s)) (os : List O) :
    Differentiable ℝ (fun e => totalWeight (v e) (τ e) f os) := by
  simp only [totalWeight_eq]
  exact Differentiable.fun_sum (fun s _ => (hv s).mul (differentiable_beta0 τ f h os s))

theorem differentiable_list_sum {X : Type} (L : List X) (g : ℝ → X → ℝ) (e : ℝ) (h : ∀ x ∈ L, DifferentiableAt ℝ (fun e => g e x) e) :
    DifferentiableAt ℝ (fun e => (L.map (g e)).sum) e := by
  induction L with
  | nil => simp
  | cons x L ih =>
    simp only [List.map_cons, List.sum_cons]
    exact (h x List.mem_cons_self).add (ih (fun y hy => h y (List.mem_cons_of_mem _ hy)))

/-- If `F` is differentiable, `Q` has derivative `q`, and `F` lies above `Q` around a point where they agree, then `q` is the
derivative of `F` there. -/
theorem hasDerivAt_of_above (F Q : ℝ → ℝ) (q x : ℝ) (hF : DifferentiableAt ℝ F x) (hQ : HasDerivAt Q q x) (h0 : F x = Q x)
    (h : ∀ᶠ e in 𝓝 x, Q e ≤ F e) : HasDerivAt F q x := by
  have hd := hF.hasDerivAt.sub hQ
  have hm : IsLocalMin (F - Q) x := by
    filter_upwards [h] with e he
    simp only [Pi.sub_apply]
    linarith
  have := hm.hasDerivAt_eq_zero hd
  have e : deriv F x = q := by linarith
  rw [← e]
  exact hF.hasDerivAt

end
end Jajapy.BW
