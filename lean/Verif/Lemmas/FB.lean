import Mathlib.Analysis.SpecialFunctions.Log.Basic
import Mathlib.Algebra.BigOperators.Ring.Finset
import Mathlib.Algebra.Order.BigOperators.Ring.Finset
import Mathlib.Tactic.Ring
import Mathlib.Tactic.Linarith
import Mathlib.Tactic.FieldSimp
import Mathlib.Tactic.Positivity
import Verif.Model.BW

/-!
Forward-backward identities and the inequality behind the Baum-Welch algorithm.
-/

set_option linter.unusedSectionVars false

namespace Jajapy.BW

open Finset

section field
variable {K O : Type} {n : ℕ} [Field K]
variable (tau : Fin n → Fin n → O → K) (v f : Fin n → K)

/-- Row 0 of the backward table. -/
def beta0 (os : List O) : Fin n → K := (betas tau f os).headD f

@[simp] theorem beta0_nil : beta0 tau f [] = f := rfl
@[simp] theorem beta0_cons (o : O) (os : List O) : beta0 tau f (o :: os) = bwd tau (beta0 tau f os) o := rfl

theorem alphas_ne_nil (os : List O) : alphas tau v os ≠ [] := by cases os <;> simp [alphas]
theorem betas_ne_nil (os : List O) : betas tau f os ≠ [] := by cases os <;> simp [betas]

theorem alphas_length (os : List O) : (alphas tau v os).length = os.length + 1 := by
  induction os generalizing v with
  | nil => simp [alphas]
  | cons o os ih => simp [alphas, ih]

theorem betas_length (os : List O) : (betas tau f os).length = os.length + 1 := by
  induction os with
  | nil => simp [betas]
  | cons o os ih => simp [betas, ih]

/-- `visits` and `uses` on the tables of `os`. -/
def vis (φ : O → K) (c : K) (os : List O) : Fin n → K := visits φ c (alphas tau v os) (betas tau f os) os
def use (φ : O → K) (c : K) (os : List O) : Fin n → Fin n → K := uses tau φ c (alphas tau v os) (betas tau f os) os

@[simp] theorem vis_nil (φ : O → K) (c : K) (s : Fin n) : vis tau v f φ c [] s = 0 := by simp [vis, visits, alphas, betas]
@[simp] theorem use_nil (φ : O → K) (c : K) (s ss : Fin n) : use tau v f φ c [] s ss = 0 := by simp [use, uses, alphas, betas]

theorem vis_cons (φ : O → K) (c : K) (o : O) (os : List O) (s : Fin n) :
    vis tau v f φ c (o :: os) s = v s * beta0 tau f (o :: os) s * φ o * c + vis tau (fwd tau v o) f φ c os s := by
  unfold vis visits
  simp only [alphas, betas]
  rw [List.dropLast_cons_of_ne_nil (alphas_ne_nil _ _ _), List.dropLast_cons_of_ne_nil (betas_ne_nil _ _ _)]
  simp only [List.zip_cons_cons, List.map_cons, List.sum_cons]
  rfl

theorem use_cons (φ : O → K) (c : K) (o : O) (os : List O) (s ss : Fin n) :
    use tau v f φ c (o :: os) s ss = v s * tau s ss o * beta0 tau f os ss * φ o * c + use tau (fwd tau v o) f φ c os s ss := by
  unfold use uses
  simp only [alphas, List.tail_cons]
  rw [List.dropLast_cons_of_ne_nil (alphas_ne_nil _ _ _)]
  have h : betas tau f os = beta0 tau f os :: (betas tau f os).tail := by
    unfold beta0
    cases hb : betas tau f os with
    | nil => exact absurd hb (betas_ne_nil _ _ _)
    | cons a l => simp
  have h2 : (betas tau f (o :: os)).tail = betas tau f os := by simp [betas]
  rw [h2]
  conv_lhs => rw [h]
  simp only [List.zip_cons_cons, List.map_cons, List.sum_cons]

/-- The sum of `alpha*beta` over the states is the same at the beginning and at the end. -/
theorem last_sum (os : List O) : ∑ s, ((alphas tau v os).getLast?.getD (fun _ => 0)) s * f s = ∑ s, v s * beta0 tau f os s := by
  induction os generalizing v with
  | nil => simp [alphas]
  | cons o os ih =>
    have h : (alphas tau v (o :: os)).getLast? = (alphas tau (fwd tau v o) os).getLast? := by
      simp only [alphas]
      rw [List.getLast?_cons_of_ne_nil (alphas_ne_nil _ _ _)]
    rw [h, ih]
    simp only [beta0_cons, fwd, bwd, Finset.sum_mul, Finset.mul_sum]
    rw [Finset.sum_comm]
    refine Finset.sum_congr rfl (fun s _ => Finset.sum_congr rfl (fun ss _ => ?_))
    ring

/-- … and at every step. -/
theorem row_sum (os : List O) (k : ℕ) (a b : Fin n → K) (ha : (alphas tau v os)[k]? = some a)
    (hb : (betas tau f os)[k]? = some b) : ∑ s, a s * b s = ∑ s, v s * beta0 tau f os s := by
  induction os generalizing v k with
  | nil =>
    cases k with
    | zero => simp [alphas, betas] at ha hb; subst ha hb; rfl
    | succ k => simp [alphas] at ha
  | cons o os ih =>
    cases k with
    | zero =>
      simp only [alphas, betas, List.getElem?_cons_zero, Option.some.injEq] at ha hb
      subst ha hb; rfl
    | succ k =>
      simp only [alphas, betas, List.getElem?_cons_succ] at ha hb
      rw [ih _ k ha hb]
      simp only [beta0_cons, fwd, bwd, Finset.sum_mul, Finset.mul_sum]
      rw [Finset.sum_comm]
      refine Finset.sum_congr rfl (fun s _ => Finset.sum_congr rfl (fun ss _ => ?_))
      ring

theorem sum_use (φ : O → K) (c : K) (os : List O) (s : Fin n) : ∑ ss, use tau v f φ c os s ss = vis tau v f φ c os s := by
  induction os generalizing v with
  | nil => simp
  | cons o os ih =>
    simp only [use_cons, Finset.sum_add_distrib, ih, vis_cons, beta0_cons, bwd]
    congr 1
    rw [Finset.mul_sum, Finset.sum_mul, Finset.sum_mul]
    exact Finset.sum_congr rfl (fun ss _ => by ring)

theorem vis_sum (φ : O → K) (c : K) (os : List O) :
    ∑ s, vis tau v f φ c os s = (∑ s, v s * beta0 tau f os s) * (os.map φ).sum * c := by
  induction os generalizing v with
  | nil => simp
  | cons o os ih =>
    simp only [vis_cons, Finset.sum_add_distrib, ih, List.map_cons, List.sum_cons]
    have h : ∑ s, fwd tau v o s * beta0 tau f os s = ∑ s, v s * beta0 tau f (o :: os) s := by
      simp only [beta0_cons, fwd, bwd, Finset.sum_mul, Finset.mul_sum]
      rw [Finset.sum_comm]
      refine Finset.sum_congr rfl (fun s _ => Finset.sum_congr rfl (fun ss _ => ?_))
      ring
    rw [h, ← Finset.sum_mul, ← Finset.sum_mul]
    ring

theorem vis_const (c d : K) (os : List O) (s : Fin n) :
    vis tau v f (fun _ => d) c os s = d * vis tau v f (fun _ => 1) c os s := by
  induction os generalizing v with
  | nil => simp
  | cons o os ih => simp only [vis_cons, ih]; ring

theorem use_const (c d : K) (os : List O) (s ss : Fin n) :
    use tau v f (fun _ => d) c os s ss = d * use tau v f (fun _ => 1) c os s ss := by
  induction os generalizing v with
  | nil => simp
  | cons o os ih => simp only [use_cons, ih]; ring

theorem use_smul (φ : O → K) (c d : K) (os : List O) (s ss : Fin n) :
    use tau v f (fun o => d * φ o) c os s ss = d * use tau v f φ c os s ss := by
  induction os generalizing v with
  | nil => simp
  | cons o os ih => simp only [use_cons, ih]; ring

theorem vis_smul (φ : O → K) (c d : K) (os : List O) (s : Fin n) :
    vis tau v f (fun o => d * φ o) c os s = d * vis tau v f φ c os s := by
  induction os generalizing v with
  | nil => simp
  | cons o os ih => simp only [vis_cons, ih]; ring

theorem use_add (φ ψ : O → K) (c : K) (os : List O) (s ss : Fin n) :
    use tau v f (fun o => φ o + ψ o) c os s ss = use tau v f φ c os s ss + use tau v f ψ c os s ss := by
  induction os generalizing v with
  | nil => simp
  | cons o os ih => simp only [use_cons, ih]; ring

theorem vis_add (φ ψ : O → K) (c : K) (os : List O) (s : Fin n) :
    vis tau v f (fun o => φ o + ψ o) c os s = vis tau v f φ c os s + vis tau v f ψ c os s := by
  induction os generalizing v with
  | nil => simp
  | cons o os ih => simp only [vis_cons, ih]; ring

theorem vis_finsum {ι : Type} (I : Finset ι) (φ : ι → O → K) (c : K) (os : List O) (s : Fin n) :
    vis tau v f (fun o => ∑ i ∈ I, φ i o) c os s = ∑ i ∈ I, vis tau v f (φ i) c os s := by
  induction os generalizing v with
  | nil => simp
  | cons o os ih => simp only [vis_cons, ih, Finset.sum_add_distrib, Finset.mul_sum, Finset.sum_mul]

theorem use_finsum {ι : Type} (I : Finset ι) (φ : ι → O → K) (c : K) (os : List O) (s ss : Fin n) :
    use tau v f (fun o => ∑ i ∈ I, φ i o) c os s ss = ∑ i ∈ I, use tau v f (φ i) c os s ss := by
  induction os generalizing v with
  | nil => simp
  | cons o os ih => simp only [use_cons, ih, Finset.sum_add_distrib, Finset.mul_sum, Finset.sum_mul]

theorem use_congr (φ ψ : O → K) (c : K) (os : List O) (s ss : Fin n) (h : ∀ o ∈ os, tau s ss o ≠ 0 → φ o = ψ o) :
    use tau v f φ c os s ss = use tau v f ψ c os s ss := by
  induction os generalizing v with
  | nil => simp
  | cons o os ih =>
    simp only [use_cons]
    rw [ih _ (fun x hx => h x (List.mem_cons_of_mem _ hx))]
    by_cases h0 : tau s ss o = 0
    · simp [h0]
    · rw [h o List.mem_cons_self h0]

theorem vis_congr (φ ψ : O → K) (c : K) (os : List O) (s : Fin n) (h : ∀ o ∈ os, φ o = ψ o) :
    vis tau v f φ c os s = vis tau v f ψ c os s := by
  induction os generalizing v with
  | nil => simp
  | cons o os ih =>
    simp only [vis_cons]
    rw [ih _ (fun x hx => h x (List.mem_cons_of_mem _ hx)), h o List.mem_cons_self]

theorem use_zero (φ : O → K) (c : K) (os : List O) (s ss : Fin n) (h : ∀ o ∈ os, tau s ss o = 0) :
    use tau v f φ c os s ss = 0 := by
  induction os generalizing v with
  | nil => simp
  | cons o os ih =>
    simp [use_cons, ih _ (fun x hx => h x (List.mem_cons_of_mem _ hx)), h o List.mem_cons_self]

theorem use_c (φ : O → K) (c : K) (os : List O) (s ss : Fin n) :
    use tau v f φ c os s ss = c * use tau v f φ 1 os s ss := by
  induction os generalizing v with
  | nil => simp
  | cons o os ih => simp only [use_cons, ih]; ring

theorem vis_c (φ : O → K) (c : K) (os : List O) (s : Fin n) :
    vis tau v f φ c os s = c * vis tau v f φ 1 os s := by
  induction os generalizing v with
  | nil => simp
  | cons o os ih => simp only [vis_cons, ih]; ring

end field

section order
variable {K O : Type} {n : ℕ} [Field K] [LinearOrder K] [IsStrictOrderedRing K]
variable (tau : Fin n → Fin n → O → K) (v f : Fin n → K)

theorem beta0_nonneg (ht : ∀ s ss o, 0 ≤ tau s ss o) (hf : ∀ s, 0 ≤ f s) (os : List O) (s : Fin n) : 0 ≤ beta0 tau f os s := by
  induction os generalizing s with
  | nil => exact hf s
  | cons o os ih => rw [beta0_cons]; exact Finset.sum_nonneg (fun ss _ => mul_nonneg (ih ss) (ht _ _ _))

theorem fwd_nonneg (ht : ∀ s ss o, 0 ≤ tau s ss o) (hv : ∀ s, 0 ≤ v s) (o : O) (s : Fin n) : 0 ≤ fwd tau v o s :=
  Finset.sum_nonneg (fun ss _ => mul_nonneg (hv ss) (ht _ _ _))

theorem use_nonneg (ht : ∀ s ss o, 0 ≤ tau s ss o) (hv : ∀ s, 0 ≤ v s) (hf : ∀ s, 0 ≤ f s) (φ : O → K) (c : K) (hc : 0 ≤ c)
    (os : List O) (hφ : ∀ o ∈ os, 0 ≤ φ o) (s ss : Fin n) : 0 ≤ use tau v f φ c os s ss := by
  induction os generalizing v with
  | nil => simp
  | cons o os ih =>
    rw [use_cons]
    refine add_nonneg (mul_nonneg (mul_nonneg (mul_nonneg (mul_nonneg (hv s) (ht _ _ _)) (beta0_nonneg _ _ ht hf _ _))
      (hφ o List.mem_cons_self)) hc) (ih _ (fwd_nonneg _ _ ht hv o) (fun x hx => hφ x (List.mem_cons_of_mem _ hx)))

theorem vis_nonneg (ht : ∀ s ss o, 0 ≤ tau s ss o) (hv : ∀ s, 0 ≤ v s) (hf : ∀ s, 0 ≤ f s) (φ : O → K) (c : K) (hc : 0 ≤ c)
    (os : List O) (hφ : ∀ o ∈ os, 0 ≤ φ o) (s : Fin n) : 0 ≤ vis tau v f φ c os s := by
  rw [← sum_use]
  exact Finset.sum_nonneg (fun ss _ => use_nonneg _ _ _ ht hv hf φ c hc os hφ s ss)

theorem use_le_vis (ht : ∀ s ss o, 0 ≤ tau s ss o) (hv : ∀ s, 0 ≤ v s) (hf : ∀ s, 0 ≤ f s) (φ : O → K) (c : K) (hc : 0 ≤ c)
    (os : List O) (hφ : ∀ o ∈ os, 0 ≤ φ o) (s ss : Fin n) : use tau v f φ c os s ss ≤ vis tau v f φ c os s := by
  rw [← sum_use]
  exact Finset.single_le_sum (fun ss _ => use_nonneg _ _ _ ht hv hf φ c hc os hφ s ss) (Finset.mem_univ ss)

theorem use_zero_of_one (ht : ∀ s ss o, 0 ≤ tau s ss o) (hv : ∀ s, 0 ≤ v s) (hf : ∀ s, 0 ≤ f s) (c : K) (hc : 0 ≤ c)
    (os : List O) (s ss : Fin n) (h : use tau v f (fun _ => 1) c os s ss = 0) (φ : O → K) : use tau v f φ c os s ss = 0 := by
  induction os generalizing v with
  | nil => simp
  | cons o os ih =>
    rw [use_cons] at h ⊢
    have h1 : 0 ≤ v s * tau s ss o * beta0 tau f os ss * 1 * c :=
      mul_nonneg (mul_nonneg (mul_nonneg (mul_nonneg (hv s) (ht _ _ _)) (beta0_nonneg _ _ ht hf _ _)) zero_le_one) hc
    have h2 := use_nonneg tau (fwd tau v o) f ht (fwd_nonneg _ _ ht hv o) hf (fun _ => 1) c hc os (fun _ _ => zero_le_one) s ss
    have h3 : use tau (fwd tau v o) f (fun _ => 1) c os s ss = 0 := by linarith
    have h4 : v s * tau s ss o * beta0 tau f os ss * 1 * c = 0 := by linarith
    rw [ih _ (fwd_nonneg _ _ ht hv o) h3, add_zero]
    rw [mul_one] at h4
    calc _ = (v s * tau s ss o * beta0 tau f os ss * c) * φ o := by ring
      _ = 0 := by rw [h4, zero_mul]

end order

/-! ### The log-sum inequality -/

/-- The log-sum inequality. -/
theorem log_sum {ι : Type} (I : Finset ι) (a b : ι → ℝ) (ha : ∀ i ∈ I, 0 ≤ a i) (hb : ∀ i ∈ I, 0 ≤ b i)
    (hab : ∀ i ∈ I, 0 < a i → 0 < b i) :
    (∑ i ∈ I, a i) * Real.log ((∑ i ∈ I, a i) / ∑ i ∈ I, b i) ≤ ∑ i ∈ I, a i * Real.log (a i / b i) := by
  set A := ∑ i ∈ I, a i with hA
  set B := ∑ i ∈ I, b i with hB
  have hA0 : 0 ≤ A := Finset.sum_nonneg ha
  rcases hA0.eq_or_lt with h0 | hpos
  · rw [← h0, zero_mul]
    have hz := (Finset.sum_eq_zero_iff_of_nonneg ha).mp h0.symm
    exact le_of_eq (Finset.sum_eq_zero (fun i hi => by rw [hz i hi, zero_mul])).symm
  · obtain ⟨i, hi, hai⟩ : ∃ i ∈ I, 0 < a i := by
      by_contra hcon
      push Not at hcon
      have : A ≤ 0 := Finset.sum_nonpos hcon
      linarith
    have hBpos : 0 < B := lt_of_lt_of_le (hab i hi hai) (Finset.single_le_sum hb hi)
    have key : ∀ i ∈ I, a i * Real.log (A / B) + (a i - b i * (A / B)) ≤ a i * Real.log (a i / b i) := by
      intro i hi
      rcases (ha i hi).eq_or_lt with h | h
      · rw [← h]; simp only [zero_mul, zero_add, zero_sub]
        have : 0 ≤ b i * (A / B) := mul_nonneg (hb i hi) (by positivity)
        linarith
      · have hbi := hab i hi h
        have e : Real.log (a i / b i) - Real.log (A / B) = Real.log (a i / b i / (A / B)) :=
          (Real.log_div (by positivity) (by positivity)).symm
        have := Real.one_sub_inv_le_log_of_pos (x := a i / b i / (A / B)) (by positivity)
        rw [← e] at this
        have h2 := mul_le_mul_of_nonneg_left this h.le
        have e2 : a i * (1 - (a i / b i / (A / B))⁻¹) = a i - b i * (A / B) := by
          field_simp
        rw [e2] at h2
        linarith
    calc A * Real.log (A / B) = ∑ i ∈ I, (a i * Real.log (A / B) + (a i - b i * (A / B))) := by
          rw [Finset.sum_add_distrib, Finset.sum_sub_distrib, ← Finset.sum_mul, ← Finset.sum_mul, ← hA, ← hB]
          field_simp; ring
      _ ≤ _ := Finset.sum_le_sum key

/-- Gibbs' inequality for one row of expected counts: the normalised counts `N/D` are a better distribution for the
counts `N` than any `a` with `Σ a ≤ 1`. -/
theorem gibbs {ι : Type} (I : Finset ι) (N a : ι → ℝ) (hN : ∀ i ∈ I, 0 ≤ N i) (ha : ∀ i ∈ I, 0 ≤ a i)
    (hsum : ∑ i ∈ I, a i ≤ 1) (hNa : ∀ i ∈ I, 0 < N i → 0 < a i) (hD : 0 < ∑ i ∈ I, N i) :
    0 ≤ ∑ i ∈ I, N i * Real.log (N i / (∑ j ∈ I, N j) / a i) := by
  set D := ∑ i ∈ I, N i with hDd
  have h := log_sum I N (fun i => D * a i) hN (fun i hi => mul_nonneg hD.le (ha i hi))
    (fun i hi h => mul_pos hD (hNa i hi h))
  have e : ∑ i ∈ I, N i * Real.log (N i / D / a i) = ∑ i ∈ I, N i * Real.log (N i / (D * a i)) :=
    Finset.sum_congr rfl (fun i _ => by rw [div_div])
  rw [e]
  refine le_trans ?_ h
  rw [← Finset.mul_sum, ← hDd]
  obtain ⟨i, hi, hNi⟩ : ∃ i ∈ I, 0 < N i := by
    by_contra hcon
    push Not at hcon
    have : D ≤ 0 := Finset.sum_nonpos hcon
    linarith
  have hapos : 0 < ∑ i ∈ I, a i := lt_of_lt_of_le (hNa i hi hNi) (Finset.single_le_sum ha hi)
  refine mul_nonneg hD.le (Real.log_nonneg ?_)
  rw [le_div_iff₀ (by positivity)]
  nlinarith

/-! ### The inequality behind Baum-Welch -/

section em
variable {O : Type} {n : ℕ}
variable (τ τ' : Fin n → Fin n → O → ℝ) (f : Fin n → ℝ)

/-- The transitions used along the sequence have positive probability under `τ'`. -/
def Supp : (Fin n → ℝ) → List O → Prop
  | _, [] => True
  | v, o :: os => (∀ s ss, 0 < v s * τ s ss o * beta0 τ f os ss → 0 < τ' s ss o) ∧ Supp (fwd τ v o) os

theorem supp_of (hτ : ∀ s ss o, 0 ≤ τ s ss o) (hf : ∀ s, 0 ≤ f s) (os : List O) (v : Fin n → ℝ) (hv : ∀ s, 0 ≤ v s)
    (h : ∀ s ss, ∀ o ∈ os, 0 < τ s ss o →
      (∀ φ : O → ℝ, (∀ x ∈ os, 0 ≤ φ x) → 0 < φ o → 0 < use τ v f φ 1 os s ss) → 0 < τ' s ss o) :
    Supp τ τ' f v os := by
  induction os generalizing v with
  | nil => trivial
  | cons o os ih =>
    refine ⟨fun s ss hpos => ?_, ih _ (fwd_nonneg _ _ hτ hv o) (fun s ss x hx htx hu => ?_)⟩
    · have ht : 0 < τ s ss o := by
        rcases (hτ s ss o).eq_or_lt with h0 | h0
        · rw [← h0] at hpos; simp at hpos
        · exact h0
      refine h s ss o List.mem_cons_self ht (fun φ hφ hφo => ?_)
      rw [use_cons]
      have := use_nonneg τ (fwd τ v o) f hτ (fwd_nonneg _ _ hτ hv o) hf φ 1 zero_le_one os
        (fun x hx => hφ x (List.mem_cons_of_mem _ hx)) s ss
      have h1 := mul_pos hpos hφo
      linarith
    · refine h s ss x (List.mem_cons_of_mem _ hx) htx (fun φ hφ hφx => ?_)
      rw [use_cons]
      have h1 := hu φ (fun y hy => hφ y (List.mem_cons_of_mem _ hy)) hφx
      have h2 : 0 ≤ v s * τ s ss o * beta0 τ f os ss * φ o * 1 :=
        mul_nonneg (mul_nonneg (mul_nonneg (mul_nonneg (hv s) (hτ _ _ _)) (beta0_nonneg _ _ hτ hf _ _))
          (hφ o List.mem_cons_self)) zero_le_one
      linarith

/-- For one sequence: the loss of log-likelihood from `(v, τ)` to `(v', τ')` is at most the expected loss of the
complete-data log-likelihood. -/
theorem em_ineq (hτ : ∀ s ss o, 0 ≤ τ s ss o) (hτ' : ∀ s ss o, 0 ≤ τ' s ss o) (hf : ∀ s, 0 ≤ f s)
    (os : List O) (v v' : Fin n → ℝ) (hv : ∀ s, 0 ≤ v s) (hv' : ∀ s, 0 ≤ v' s)
    (hsupp : Supp τ τ' f v os) (hvv : ∀ s, 0 < v s * beta0 τ f os s → 0 < v' s)
    (hp : 0 < ∑ s, v s * beta0 τ f os s) :
    0 < ∑ s, v' s * beta0 τ' f os s ∧
    (∑ s, v s * beta0 τ f os s) * Real.log ((∑ s, v s * beta0 τ f os s) / ∑ s, v' s * beta0 τ' f os s)
      ≤ ∑ s, v s * beta0 τ f os s * Real.log (v s / v' s)
        + ∑ s, ∑ ss, use τ v f (fun o => Real.log (τ s ss o / τ' s ss o)) 1 os s ss := by
  induction os generalizing v v' with
  | nil =>
    simp only [beta0_nil, use_nil, Finset.sum_const_zero, add_zero] at *
    have hpos : 0 < ∑ s, v' s * f s := by
      obtain ⟨s, _, hs⟩ : ∃ s ∈ Finset.univ, 0 < v s * f s := by
        by_contra hcon
        push Not at hcon
        exact absurd (Finset.sum_nonpos hcon) (not_le.mpr hp)
      have hfs : 0 < f s := by
        rcases (hf s).eq_or_lt with h0 | h0
        · rw [← h0] at hs; simp at hs
        · exact h0
      exact lt_of_lt_of_le (mul_pos (hvv s hs) hfs)
        (Finset.single_le_sum (f := fun s => v' s * f s) (fun s _ => mul_nonneg (hv' s) (hf s)) (Finset.mem_univ s))
    refine ⟨hpos, ?_⟩
    refine le_trans (log_sum Finset.univ (fun s => v s * f s) (fun s => v' s * f s) (fun s _ => mul_nonneg (hv s) (hf s))
      (fun s _ => mul_nonneg (hv' s) (hf s)) (fun s _ h => ?_)) (le_of_eq (Finset.sum_congr rfl (fun s _ => ?_)))
    · have hfs : 0 < f s := by
        rcases (hf s).eq_or_lt with h0 | h0
        · rw [← h0] at h; simp at h
        · exact h0
      exact mul_pos (hvv s h) hfs
    · rcases (hf s).eq_or_lt with h0 | h0
      · rw [← h0]; simp
      · rw [mul_div_mul_right _ _ h0.ne']
  | cons o os ih =>
    have hβ := beta0_nonneg τ f hτ hf os
    set β := beta0 τ f os with hβd
    have hstep : ∀ (u : Fin n → ℝ), ∑ s, u s * beta0 τ f (o :: os) s = ∑ s, fwd τ u o s * β s := by
      intro u
      simp only [beta0_cons, fwd, bwd, Finset.sum_mul, Finset.mul_sum, ← hβd]
      rw [Finset.sum_comm]
      refine Finset.sum_congr rfl (fun s _ => Finset.sum_congr rfl (fun ss _ => ?_))
      ring
    have hstep' : ∀ (u : Fin n → ℝ), ∑ s, u s * beta0 τ' f (o :: os) s = ∑ s, fwd τ' u o s * beta0 τ' f os s := by
      intro u
      simp only [beta0_cons, fwd, bwd, Finset.sum_mul, Finset.mul_sum]
      rw [Finset.sum_comm]
      refine Finset.sum_congr rfl (fun s _ => Finset.sum_congr rfl (fun ss _ => ?_))
      ring
    -- support of one step
    have hs1 : ∀ s ss, 0 < β ss → 0 < v s * τ s ss o → 0 < v' s ∧ 0 < τ' s ss o ∧ 0 < v s ∧ 0 < τ s ss o := by
      intro s ss hb hvt
      have hvpos : 0 < v s := by
        rcases (hv s).eq_or_lt with h0 | h0
        · rw [← h0] at hvt; simp at hvt
        · exact h0
      have htpos : 0 < τ s ss o := by
        rcases (hτ s ss o).eq_or_lt with h0 | h0
        · rw [← h0] at hvt; simp at hvt
        · exact h0
      refine ⟨hvv s ?_, hsupp.1 s ss (mul_pos hvt hb), hvpos, htpos⟩
      refine mul_pos hvpos (lt_of_lt_of_le (mul_pos hb htpos) ?_)
      exact Finset.single_le_sum (f := fun ss => β ss * τ s ss o) (fun ss _ => mul_nonneg (hβ ss) (hτ _ _ _)) (Finset.mem_univ ss)
    have hvv1 : ∀ ss, 0 < fwd τ v o ss * β ss → 0 < fwd τ' v' o ss := by
      intro ss h
      have hb : 0 < β ss := by
        rcases (hβ ss).eq_or_lt with h0 | h0
        · rw [← h0] at h; simp at h
        · exact h0
      have hf1 : 0 < fwd τ v o ss := by
        rcases (fwd_nonneg τ v hτ hv o ss).eq_or_lt with h0 | h0
        · rw [← h0] at h; simp at h
        · exact h0
      obtain ⟨s, _, hs⟩ : ∃ s ∈ Finset.univ, 0 < v s * τ s ss o := by
        by_contra hcon
        push Not at hcon
        exact absurd (Finset.sum_nonpos hcon) (not_le.mpr hf1)
      obtain ⟨h1, h2, _, _⟩ := hs1 s ss hb hs
      exact lt_of_lt_of_le (mul_pos h1 h2)
        (Finset.single_le_sum (f := fun s => v' s * τ' s ss o) (fun s _ => mul_nonneg (hv' s) (hτ' _ _ _)) (Finset.mem_univ s))
    obtain ⟨hpos, hineq⟩ := ih (fwd τ v o) (fwd τ' v' o) (fwd_nonneg _ _ hτ hv o) (fwd_nonneg _ _ hτ' hv' o) hsupp.2 hvv1
      (by rw [← hstep]; exact hp)
    rw [hstep, hstep']
    refine ⟨hpos, le_trans hineq ?_⟩
    have hone : ∀ ss, fwd τ v o ss * β ss * Real.log (fwd τ v o ss / fwd τ' v' o ss)
        ≤ ∑ s, v s * τ s ss o * β ss * (Real.log (v s / v' s) + Real.log (τ s ss o / τ' s ss o)) := by
      intro ss
      rcases (hβ ss).eq_or_lt with h0 | hb
      · rw [← h0]; simp
      · have h := log_sum Finset.univ (fun s => v s * τ s ss o) (fun s => v' s * τ' s ss o)
          (fun s _ => mul_nonneg (hv s) (hτ _ _ _)) (fun s _ => mul_nonneg (hv' s) (hτ' _ _ _))
          (fun s _ h => mul_pos (hs1 s ss hb h).1 (hs1 s ss hb h).2.1)
        have h2 := mul_le_mul_of_nonneg_left h hb.le
        have e1 : β ss * ((∑ s, v s * τ s ss o) * Real.log ((∑ s, v s * τ s ss o) / ∑ s, v' s * τ' s ss o))
            = fwd τ v o ss * β ss * Real.log (fwd τ v o ss / fwd τ' v' o ss) := by
          simp only [fwd]; ring
        rw [e1, Finset.mul_sum] at h2
        refine le_trans h2 (le_of_eq (Finset.sum_congr rfl (fun s _ => ?_)))
        rcases (mul_nonneg (hv s) (hτ s ss o)).eq_or_lt with h0 | h0
        · rw [← h0]; simp
        · obtain ⟨a1, a2, a3, a4⟩ := hs1 s ss hb h0
          rw [mul_div_mul_comm, Real.log_mul (by positivity) (by positivity)]
          ring
    have hsum := Finset.sum_le_sum (fun ss (_ : ss ∈ Finset.univ) => hone ss)
    have e2 : ∑ ss, ∑ s, v s * τ s ss o * β ss * (Real.log (v s / v' s) + Real.log (τ s ss o / τ' s ss o))
        = ∑ s, v s * beta0 τ f (o :: os) s * Real.log (v s / v' s)
          + ∑ s, ∑ ss, v s * τ s ss o * β ss * Real.log (τ s ss o / τ' s ss o) := by
      rw [Finset.sum_comm, ← Finset.sum_add_distrib]
      refine Finset.sum_congr rfl (fun s _ => ?_)
      simp only [beta0_cons, bwd, ← hβd]
      rw [Finset.mul_sum, Finset.sum_mul, ← Finset.sum_add_distrib]
      exact Finset.sum_congr rfl (fun ss _ => by ring)
    rw [e2] at hsum
    have e3 : ∑ s, ∑ ss, use τ v f (fun o => Real.log (τ s ss o / τ' s ss o)) 1 (o :: os) s ss
        = ∑ s, ∑ ss, v s * τ s ss o * β ss * Real.log (τ s ss o / τ' s ss o)
          + ∑ s, ∑ ss, use τ (fwd τ v o) f (fun o => Real.log (τ s ss o / τ' s ss o)) 1 os s ss := by
      rw [← Finset.sum_add_distrib]
      refine Finset.sum_congr rfl (fun s _ => ?_)
      rw [← Finset.sum_add_distrib]
      exact Finset.sum_congr rfl (fun ss _ => by rw [use_cons, mul_one])
    rw [e3]
    linarith

/-- The same inequality as a lower bound on the gain, with the weights `t/p` of the code. -/
theorem em_gain (hτ : ∀ s ss o, 0 ≤ τ s ss o) (hτ' : ∀ s ss o, 0 ≤ τ' s ss o) (hf : ∀ s, 0 ≤ f s)
    (os : List O) (v v' : Fin n → ℝ) (hv : ∀ s, 0 ≤ v s) (hv' : ∀ s, 0 ≤ v' s)
    (hsupp : Supp τ τ' f v os) (hvv : ∀ s, 0 < v s * beta0 τ f os s → 0 < v' s)
    (p p' : ℝ) (hpd : p = ∑ s, v s * beta0 τ f os s) (hpd' : p' = ∑ s, v' s * beta0 τ' f os s)
    (hp : 0 < p) (t : ℝ) (ht : 0 ≤ t) :
    0 < p' ∧
    ∑ s, v s * beta0 τ f os s * t / p * Real.log (v' s / v s)
      + ∑ s, ∑ ss, use τ v f (fun o => Real.log (τ' s ss o / τ s ss o)) (t / p) os s ss
      ≤ Real.log p' * t - Real.log p * t := by
  subst hpd hpd'
  obtain ⟨h1, h2⟩ := em_ineq τ τ' f hτ hτ' hf os v v' hv hv' hsupp hvv hp
  refine ⟨h1, ?_⟩
  set p := ∑ s, v s * beta0 τ f os s with hpd
  set p' := ∑ s, v' s * beta0 τ' f os s with hpd'
  have h3 := mul_le_mul_of_nonneg_left h2 (div_nonneg ht hp.le)
  have e1 : t / p * (p * Real.log (p / p')) = Real.log p * t - Real.log p' * t := by
    rw [Real.log_div hp.ne' h1.ne']
    field_simp
  have e2 : ∀ s ss, use τ v f (fun o => Real.log (τ' s ss o / τ s ss o)) (t / p) os s ss
      = - (t / p * use τ v f (fun o => Real.log (τ s ss o / τ' s ss o)) 1 os s ss) := by
    intro s ss
    rw [use_c]
    rw [show (fun o => Real.log (τ' s ss o / τ s ss o)) = fun o => (-1) * Real.log (τ s ss o / τ' s ss o) from
      funext (fun o => by rw [← inv_div (τ s ss o), Real.log_inv]; ring), use_smul]
    ring
  have e3 : ∀ s, v s * beta0 τ f os s * t / p * Real.log (v' s / v s)
      = - (t / p * (v s * beta0 τ f os s * Real.log (v s / v' s))) := by
    intro s
    rw [← inv_div (v s), Real.log_inv]
    ring
  simp only [e2, e3, Finset.sum_neg_distrib, ← Finset.mul_sum]
  rw [e1, mul_add] at h3
  linarith

end em
end Jajapy.BW
