import Verif.Spec.Folding
import Verif.Lemmas.Renaming

/-!
The tables of the forward and backward recursions of a model whose states are put together, and of a part of a model.
-/

set_option linter.unusedSectionVars false
set_option autoImplicit false

namespace Jajapy

open Spec Finset

section gather
variable {K : Type} [Field K] {m n : ℕ} {f : Fin m → Fin n}

theorem sum_gather (f : Fin m → Fin n) (v : Fin m → K) : ∑ t, gather f v t = ∑ s, v s := by
  unfold gather
  exact Finset.sum_fiberwise _ _ _

theorem sum_gather_mul (f : Fin m → Fin n) (v : Fin m → K) (g : Fin n → K) : ∑ t, gather f v t * g t = ∑ s, v s * g (f s) := by
  rw [← sum_gather f (fun s => v s * g (f s))]
  refine Finset.sum_congr rfl (fun t _ => ?_)
  unfold gather
  rw [Finset.sum_mul]
  refine Finset.sum_congr rfl (fun s hs => ?_)
  dsimp only
  rw [(Finset.mem_filter.1 hs).2]

theorem gather_mul (f : Fin m → Fin n) (v : Fin m → K) (g : Fin n → K) (t : Fin n) : gather f (fun s => v s * g (f s)) t = gather f v t * g t := by
  unfold gather
  rw [Finset.sum_mul]
  refine Finset.sum_congr rfl (fun s hs => ?_)
  dsimp only
  rw [(Finset.mem_filter.1 hs).2]

theorem gather_sum {ι : Type} [Fintype ι] (f : Fin m → Fin n) (v : ι → Fin m → K) (t : Fin n) : gather f (fun s => ∑ i, v i s) t = ∑ i, gather f (v i) t := by
  unfold gather
  exact Finset.sum_comm

theorem gather_const_mul (f : Fin m → Fin n) (c : K) (v : Fin m → K) (t : Fin n) : gather f (fun s => c * v s) t = c * gather f v t := by
  unfold gather
  rw [Finset.mul_sum]

theorem gather_div (f : Fin m → Fin n) (c : K) (v : Fin m → K) (t : Fin n) : gather f (fun s => v s / c) t = gather f v t / c := by
  unfold gather
  rw [Finset.sum_div]

theorem gather_zero (f : Fin m → Fin n) (t : Fin n) : gather f (fun _ => (0 : K)) t = 0 := by
  unfold gather
  simp

theorem gather_injective (hf : Function.Injective f) (v : Fin m → K) (s : Fin m) : gather f v (f s) = v s := by
  unfold gather
  have : univ.filter (fun s' => f s' = f s) = {s} := by
    ext s'
    simp [hf.eq_iff]
  rw [this, Finset.sum_singleton]

theorem gather_outside (v : Fin m → K) (t : Fin n) (ht : ∀ s, f s ≠ t) : gather f v t = 0 := by
  unfold gather
  rw [Finset.filter_false_of_mem (fun s _ => ht s), Finset.sum_empty]

end gather

namespace BW

section fold
variable {K O : Type} [Field K] {m n : ℕ} {f : Fin m → Fin n} {tau : Fin m → Fin m → O → K} {tau' : Fin n → Fin n → O → K}
  (ht : ∀ s t o, tau' (f s) t o = gather f (fun s' => tau s s' o) t)

include ht in
theorem fwd_fold (v : Fin m → K) (v' : Fin n → K) (hv : ∀ t, v' t = gather f v t) (o : O) (t : Fin n) : fwd tau' v' o t = gather f (fwd tau v o) t := by
  unfold fwd
  rw [gather_sum]
  simp only [hv]
  rw [sum_gather_mul f v (fun u => tau' u t o)]
  refine Finset.sum_congr rfl (fun s _ => ?_)
  rw [ht, gather_const_mul]

include ht in
theorem foldl_fold (os : List O) : ∀ (v : Fin m → K) (v' : Fin n → K), (∀ t, v' t = gather f v t) → ∀ t,
    os.foldl (fwd tau') v' t = gather f (os.foldl (fwd tau) v) t := by
  induction os with
  | nil => intro v v' hv t; exact hv t
  | cons o os ih =>
    intro v v' hv t
    rw [List.foldl_cons, List.foldl_cons]
    exact ih _ _ (fwd_fold ht v v' hv o) t

end fold

section part
variable {K O : Type} [Field K] {m n : ℕ} {f : Fin m → Fin n} (hf : Function.Injective f) {tau : Fin m → Fin m → O → K} {tau' : Fin n → Fin n → O → K}
  (ht : ∀ s t o, tau' (f s) t o = gather f (fun s' => tau s s' o) t)

include hf in
theorem sum_part (v : Fin m → K) (v' : Fin n → K) (h : ∀ s, v' (f s) = v s) (h0 : ∀ t, (∀ s, f s ≠ t) → v' t = 0) : ∑ t, v' t = ∑ s, v s := by
  symm
  apply Fintype.sum_of_injective f hf
  · intro t ht
    exact h0 t (fun s hs => ht ⟨s, hs⟩)
  · intro s
    exact (h s).symm

include hf ht in
theorem tau_part (s s' : Fin m) (o : O) : tau' (f s) (f s') o = tau s s' o := by rw [ht, gather_injective hf]

include hf ht in
theorem bwd_part (g : Fin m → K) (g' : Fin n → K) (hg : ∀ s, g' (f s) = g s) (o : O) (s : Fin m) : bwd tau' g' o (f s) = bwd tau g o s := by
  unfold bwd
  apply sum_part hf
  · intro s'
    rw [hg, tau_part hf ht]
  · intro t h0
    rw [ht, gather_outside _ t h0, mul_zero]

include hf ht in
theorem beta0_part (os : List O) (g : Fin m → K) (g' : Fin n → K) (hg : ∀ s, g' (f s) = g s) (s : Fin m) : beta0 tau' g' os (f s) = beta0 tau g os s := by
  induction os generalizing s with
  | nil => exact hg s
  | cons o os ih =>
    rw [beta0_cons, beta0_cons]
    exact bwd_part hf ht _ _ ih o s

include hf ht in
theorem visits_part (φ : O → K) (C : K) (g : Fin m → K) (g' : Fin n → K) (hg : ∀ s, g' (f s) = g s) (os : List O) (s : Fin m) :
    ∀ (v : Fin m → K) (v' : Fin n → K), (∀ t, v' t = gather f v t) →
    visits φ C (alphas tau' v' os) (betas tau' g' os) os (f s) = visits φ C (alphas tau v os) (betas tau g os) os s := by
  induction os with
  | nil => intro v v' _; simp only [visits_nil]
  | cons o os ih =>
    intro v v' hv
    rw [visits_cons, visits_cons, ih _ _ (fwd_fold ht v v' hv o), hv, gather_injective hf, beta0_part hf ht (o :: os) g g' hg]

include ht in
theorem visits_outside (φ : O → K) (C : K) (g' : Fin n → K) (os : List O) (t : Fin n) (h0 : ∀ s, f s ≠ t) :
    ∀ (v : Fin m → K) (v' : Fin n → K), (∀ t, v' t = gather f v t) → visits φ C (alphas tau' v' os) (betas tau' g' os) os t = 0 := by
  induction os with
  | nil => intro v v' _; simp only [visits_nil]
  | cons o os ih =>
    intro v v' hv
    rw [visits_cons, ih _ _ (fwd_fold ht v v' hv o), hv, gather_outside _ t h0]
    ring

include hf ht in
theorem uses_part (φ : O → K) (C : K) (g : Fin m → K) (g' : Fin n → K) (hg : ∀ s, g' (f s) = g s) (os : List O) (s : Fin m) (t : Fin n) :
    ∀ (v : Fin m → K) (v' : Fin n → K), (∀ t, v' t = gather f v t) →
    uses tau' φ C (alphas tau' v' os) (betas tau' g' os) os (f s) t = gather f (uses tau φ C (alphas tau v os) (betas tau g os) os s) t := by
  by_cases h0 : ∀ s, f s ≠ t
  · intro v v' hv
    rw [gather_outside _ t h0]
    induction os generalizing v v' with
    | nil => simp only [uses_nil]
    | cons o os ih =>
      rw [uses_cons, ih _ _ (fwd_fold ht v v' hv o), ht, gather_outside _ t h0]
      ring
  · push Not at h0
    obtain ⟨s', rfl⟩ := h0
    induction os with
    | nil => intro v v' _; rw [gather_injective hf]; simp only [uses_nil]
    | cons o os ih =>
      intro v v' hv
      have := ih _ _ (fwd_fold ht v v' hv o)
      rw [gather_injective hf] at this ⊢
      rw [uses_cons, uses_cons, this, hv, gather_injective hf, tau_part hf ht, beta0_part hf ht os g g' hg]

include hf ht in
theorem lastSum_part (os : List O) (v : Fin m → K) (v' : Fin n → K) (hv : ∀ t, v' t = gather f v t) :
    lastSum (alphas tau' v' os) = lastSum (alphas tau v os) := by
  rw [lastSum_eq, lastSum_eq]
  apply sum_part hf
  · intro s
    rw [hv, gather_injective hf, beta0_part hf ht os (fun _ => 1) (fun _ => 1) (fun _ => rfl)]
  · intro t h0
    rw [hv, gather_outside _ t h0, zero_mul]

include hf ht in
theorem lastSum_mask_part (os : List O) (v : Fin m → K) (v' : Fin n → K) (hv : ∀ t, v' t = gather f v t) (g : Fin m → K) (g' : Fin n → K)
    (hg : ∀ s, g' (f s) = g s) : lastSum (maskLast g' (alphas tau' v' os)) = lastSum (maskLast g (alphas tau v os)) := by
  rw [lastSum_maskLast, lastSum_maskLast, totalWeight_eq, totalWeight_eq]
  apply sum_part hf
  · intro s
    rw [hv, gather_injective hf, beta0_part hf ht os g g' hg]
  · intro t h0
    rw [hv, gather_outside _ t h0, zero_mul]

end part
end BW
end Jajapy
