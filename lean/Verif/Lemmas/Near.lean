import Verif.Spec.Near
import Verif.Lemmas.Renaming

/-!
Numbers, and the tables of the forward and backward recursions, that are the same up to a factor.
-/

set_option linter.unusedSectionVars false
set_option autoImplicit false

namespace Jajapy

open Spec Finset

namespace Spec.Near
variable {c d x y x' y' : ℝ}

theorem refl (hx : 0 ≤ x) (hc : 1 ≤ c) : Near c x x := ⟨hx, hx, by nlinarith, by nlinarith⟩

theorem symm (h : Near c x y) : Near c y x := ⟨h.2.1, h.1, h.2.2.2, h.2.2.1⟩

theorem mono (h : Near c x y) (hcd : c ≤ d) : Near d x y :=
  ⟨h.1, h.2.1, h.2.2.1.trans (mul_le_mul_of_nonneg_right hcd h.2.1), h.2.2.2.trans (mul_le_mul_of_nonneg_right hcd h.1)⟩

theorem add (h : Near c x y) (h' : Near c x' y') : Near c (x + x') (y + y') :=
  ⟨add_nonneg h.1 h'.1, add_nonneg h.2.1 h'.2.1, by linarith [h.2.2.1, h'.2.2.1], by linarith [h.2.2.2, h'.2.2.2]⟩

theorem zero : Near c 0 0 := ⟨le_rfl, le_rfl, by simp, by simp⟩

theorem sum {ι : Type} (A : Finset ι) (f g : ι → ℝ) (h : ∀ i ∈ A, Near c (f i) (g i)) : Near c (∑ i ∈ A, f i) (∑ i ∈ A, g i) := by
  classical
  induction A using Finset.induction_on with
  | empty => simpa using zero
  | insert i A hi ih =>
    rw [Finset.sum_insert hi, Finset.sum_insert hi]
    exact (h i (Finset.mem_insert_self _ _)).add (ih (fun j hj => h j (Finset.mem_insert_of_mem hj)))

theorem mul (h : Near c x y) (h' : Near d x' y') (hc : 0 ≤ c) : Near (c * d) (x * x') (y * y') := by
  refine ⟨mul_nonneg h.1 h'.1, mul_nonneg h.2.1 h'.2.1, ?_, ?_⟩
  · calc x * x' ≤ (c * y) * (d * y') := mul_le_mul h.2.2.1 h'.2.2.1 h'.1 (mul_nonneg hc h.2.1)
      _ = c * d * (y * y') := by ring
  · calc y * y' ≤ (c * x) * (d * x') := mul_le_mul h.2.2.2 h'.2.2.2 h'.2.1 (mul_nonneg hc h.1)
      _ = c * d * (x * x') := by ring

theorem eq_zero (h : Near c x y) : x = 0 ↔ y = 0 := by
  constructor
  · rintro rfl
    exact le_antisymm (by simpa using h.2.2.2) h.2.1
  · rintro rfl
    exact le_antisymm (by simpa using h.2.2.1) h.1

theorem pos (h : Near c x y) : 0 < x ↔ 0 < y := by
  constructor
  · intro hx
    exact lt_of_le_of_ne h.2.1 (fun h0 => hx.ne' (h.eq_zero.2 h0.symm))
  · intro hy
    exact lt_of_le_of_ne h.1 (fun h0 => hy.ne' (h.eq_zero.1 h0.symm))

theorem inv (h : Near c x y) : Near c x⁻¹ y⁻¹ := by
  rcases eq_or_lt_of_le h.1 with h0 | hx
  · have hy := h.eq_zero.1 h0.symm
    rw [← h0, hy, inv_zero]
    exact zero
  · have hy := h.pos.1 hx
    refine ⟨inv_nonneg.2 h.1, inv_nonneg.2 h.2.1, ?_, ?_⟩
    · rw [← div_eq_mul_inv, le_div_iff₀ hy, inv_mul_le_iff₀ hx, mul_comm]
      exact h.2.2.2
    · rw [← div_eq_mul_inv, le_div_iff₀ hx, inv_mul_le_iff₀ hy, mul_comm]
      exact h.2.2.1

theorem div (h : Near c x y) (h' : Near d x' y') (hc : 0 ≤ c) : Near (c * d) (x / x') (y / y') := by
  rw [div_eq_mul_inv, div_eq_mul_inv]
  exact h.mul h'.inv hc

theorem log (h : Near c x y) (hx : 0 < x) : |Real.log x - Real.log y| ≤ Real.log c := by
  have hy := h.pos.1 hx
  have hc : 0 < c := by
    by_contra h0
    push Not at h0
    have := h.2.2.1
    nlinarith
  have h1 := Real.log_le_log hx h.2.2.1
  have h2 := Real.log_le_log hy h.2.2.2
  rw [Real.log_mul hc.ne' hy.ne'] at h1
  rw [Real.log_mul hc.ne' hx.ne'] at h2
  rw [abs_le]
  constructor <;> linarith

theorem listSum {A B : Type} {l : List A} {l' : List B} {f : A → ℝ} {g : B → ℝ} (h : List.Forall₂ (fun a b => Near c (f a) (g b)) l l') :
    Near c (l.map f).sum (l'.map g).sum := by
  induction h with
  | nil => simpa using zero
  | cons h _ ih => simpa using h.add ih

end Spec.Near

namespace BW
variable {O : Type} {n : ℕ} {κ : O → ℝ} (hκ : ∀ o, 1 ≤ κ o) {tau tau' : Fin n → Fin n → O → ℝ}
  (ht : ∀ s t o, Near (κ o) (tau s t o) (tau' s t o))

include hκ in
theorem one_le_prod (os : List O) : 1 ≤ (os.map κ).prod := by
  induction os with
  | nil => simp
  | cons o os ih =>
    rw [List.map_cons, List.prod_cons]
    exact one_le_mul_of_one_le_of_one_le (hκ o) ih

include ht in
theorem fwd_near {a : ℝ} (ha : 0 ≤ a) (v v' : Fin n → ℝ) (hv : ∀ s, Near a (v s) (v' s)) (o : O) (s : Fin n) :
    Near (a * κ o) (fwd tau v o s) (fwd tau' v' o s) := Near.sum _ _ _ (fun t _ => (hv t).mul (ht t s o) ha)

include hκ ht in
theorem foldl_near (os : List O) : ∀ {a : ℝ}, 0 ≤ a → ∀ (v v' : Fin n → ℝ), (∀ s, Near a (v s) (v' s)) → ∀ s,
    Near (a * (os.map κ).prod) (os.foldl (fwd tau) v s) (os.foldl (fwd tau') v' s) := by
  induction os with
  | nil => intro a _ v v' hv s; simpa using hv s
  | cons o os ih =>
    intro a ha v v' hv s
    rw [List.foldl_cons, List.foldl_cons, List.map_cons, List.prod_cons, ← mul_assoc]
    exact ih (mul_nonneg ha (zero_le_one.trans (hκ o))) _ _ (fwd_near ht ha v v' hv o) s

include hκ ht in
theorem beta0_near (os : List O) (g g' : Fin n → ℝ) (hg : ∀ s, Near 1 (g s) (g' s)) (s : Fin n) :
    Near (os.map κ).prod (beta0 tau g os s) (beta0 tau' g' os s) := by
  induction os generalizing s with
  | nil => simpa using hg s
  | cons o os ih =>
    rw [beta0_cons, beta0_cons, List.map_cons, List.prod_cons, mul_comm]
    exact Near.sum _ _ _ (fun t _ => (ih t).mul (ht s t o) (zero_le_one.trans (one_le_prod hκ os)))

include hκ ht in
theorem lastSum_near {a : ℝ} (ha : 0 ≤ a) (os : List O) (v v' : Fin n → ℝ) (hv : ∀ s, Near a (v s) (v' s)) :
    Near (a * (os.map κ).prod) (lastSum (alphas tau v os)) (lastSum (alphas tau' v' os)) := by
  rw [lastSum_eq, lastSum_eq]
  exact Near.sum _ _ _ (fun s _ => (hv s).mul (beta0_near hκ ht os _ _ (fun _ => Near.refl zero_le_one le_rfl) s) ha)

include hκ ht in
theorem totalWeight_near {a : ℝ} (ha : 0 ≤ a) (os : List O) (v v' g g' : Fin n → ℝ) (hv : ∀ s, Near a (v s) (v' s)) (hg : ∀ s, Near 1 (g s) (g' s)) :
    Near (a * (os.map κ).prod) (totalWeight v tau g os) (totalWeight v' tau' g' os) := by
  rw [totalWeight_eq, totalWeight_eq]
  exact Near.sum _ _ _ (fun s _ => (hv s).mul (beta0_near hκ ht os _ _ hg s) ha)

include hκ ht in
theorem visits_near (φ : O → ℝ) {d : ℝ} {C C' : ℝ} (hC : Near d C C') (g g' : Fin n → ℝ) (hg : ∀ s, Near 1 (g s) (g' s))
    (os : List O) (hos : ∀ o ∈ os, 0 ≤ φ o) (s : Fin n) : ∀ {a : ℝ}, 0 ≤ a → ∀ (v v' : Fin n → ℝ), (∀ s, Near a (v s) (v' s)) →
    Near (a * (os.map κ).prod * d) (visits φ C (alphas tau v os) (betas tau g os) os s) (visits φ C' (alphas tau' v' os) (betas tau' g' os) os s) := by
  induction os with
  | nil => intro a _ v v' _; simp only [visits_nil]; exact Near.zero
  | cons o os ih =>
    intro a ha v v' hv
    rw [visits_cons, visits_cons]
    refine Near.add ?_ ?_
    · have h1 := (((hv s).mul (beta0_near hκ ht (o :: os) g g' hg s) ha).mul (Near.refl (hos o (by simp)) le_rfl)
        (mul_nonneg ha (zero_le_one.trans (one_le_prod hκ _))))
      have h2 := h1.mul hC (by rw [mul_one]; exact mul_nonneg ha (zero_le_one.trans (one_le_prod hκ _)))
      rwa [mul_one] at h2
    · have := ih (fun o' ho' => hos o' (by simp [ho'])) (mul_nonneg ha (zero_le_one.trans (hκ o))) _ _ (fwd_near ht ha v v' hv o)
      rwa [List.map_cons, List.prod_cons, ← mul_assoc]

include hκ ht in
theorem uses_near (φ : O → ℝ) {d : ℝ} {C C' : ℝ} (hC : Near d C C') (g g' : Fin n → ℝ) (hg : ∀ s, Near 1 (g s) (g' s))
    (os : List O) (hos : ∀ o ∈ os, 0 ≤ φ o) (s ss : Fin n) : ∀ {a : ℝ}, 0 ≤ a → ∀ (v v' : Fin n → ℝ), (∀ s, Near a (v s) (v' s)) →
    Near (a * (os.map κ).prod * d) (uses tau φ C (alphas tau v os) (betas tau g os) os s ss)
      (uses tau' φ C' (alphas tau' v' os) (betas tau' g' os) os s ss) := by
  induction os with
  | nil =>
    intro a _ v v' _
    simp only [uses_nil]
    exact Near.zero
  | cons o os ih =>
    intro a ha v v' hv
    rw [uses_cons, uses_cons]
    have hp := zero_le_one.trans (one_le_prod hκ os)
    have hk := zero_le_one.trans (hκ o)
    refine Near.add ?_ ?_
    · have h0 := ((hv s).mul (ht s ss o) ha).mul (beta0_near hκ ht os g g' hg ss) (mul_nonneg ha hk)
      have h1 := h0.mul (Near.refl (hos o (by simp)) le_rfl) (mul_nonneg (mul_nonneg ha hk) hp)
      have h2 := h1.mul hC (by rw [mul_one]; exact mul_nonneg (mul_nonneg ha hk) hp)
      rwa [mul_one, mul_assoc a, ← List.prod_cons, ← List.map_cons] at h2
    · have := ih (fun o' ho' => hos o' (by simp [ho'])) (mul_nonneg ha hk) _ _ (fwd_near ht ha v v' hv o)
      rwa [List.map_cons, List.prod_cons, ← mul_assoc]

end BW
end Jajapy
