import Mathlib.Algebra.BigOperators.Field
import Verif.Lemmas.FB
import Verif.Lemmas.Paths
import Verif.Spec.Counts

/-!
The forward-backward sums of the code are the expected counts of the specification.
-/

set_option linter.unusedSectionVars false

namespace Jajapy.BW

open Finset Spec

variable {K O : Type} [Field K] {n : ℕ}
variable (tau : Fin n → Fin n → O → K) (f : Fin n → K)

theorem pathWeight_cons (init : Fin n → K) (o : O) (os : List O) (x : Fin n) (q : Fin (os.length + 1) → Fin n) :
    pathWeight init tau f (o :: os) (Fin.cons x q : Fin (os.length + 2) → Fin n)
      = init x * tau x (q 0) o * ((∏ k : Fin os.length, tau (q k.castSucc) (q k.succ) (os.get k)) * f (q (Fin.last _))) := by
  unfold pathWeight
  simp only [List.length_cons]
  rw [Fin.prod_univ_succ]
  simp only [Fin.cons_zero, Fin.castSucc_zero, Fin.cons_succ, ← Fin.succ_castSucc, List.get_cons_zero, List.get_cons_succ',
    ← Fin.succ_last]
  ring

theorem totalWeight_cons (init : Fin n → K) (o : O) (os : List O) :
    totalWeight init tau f (o :: os) = totalWeight (fwd tau init o) tau f os := by
  unfold totalWeight
  simp only [List.length_cons]
  rw [sum_fin_succ_fun]
  refine Finset.sum_congr rfl (fun q _ => ?_)
  rw [Finset.sum_congr rfl (fun x _ => pathWeight_cons tau f init o os x q), ← Finset.sum_mul]
  simp only [pathWeight, fwd]
  ring

theorem totalWeight_eq (init : Fin n → K) (os : List O) :
    totalWeight init tau f os = ∑ s, init s * beta0 tau f os s := by
  induction os generalizing init with
  | nil =>
    unfold totalWeight pathWeight
    simp only [List.length_nil]
    rw [sum_fin_succ_fun]
    simp
  | cons o os ih =>
    rw [totalWeight_cons, ih]
    simp only [beta0_cons, fwd, bwd, Finset.sum_mul, Finset.mul_sum]
    rw [Finset.sum_comm]
    refine Finset.sum_congr rfl (fun s _ => Finset.sum_congr rfl (fun ss _ => ?_))
    ring

theorem use_eq (init : Fin n → K) (φ : O → K) (os : List O) (s ss : Fin n) :
    use tau init f φ 1 os s ss = ∑ p, pathWeight init tau f os p *
      ∑ k : Fin os.length, if p k.castSucc = s ∧ p k.succ = ss then φ (os.get k) else 0 := by
  induction os generalizing init with
  | nil => simp
  | cons o os ih =>
    rw [use_cons, ih]
    simp only [List.length_cons]
    rw [sum_fin_succ_fun (t := os.length + 1)]
    have e : ∀ (q : Fin (os.length + 1) → Fin n) (x : Fin n),
        (∑ k : Fin (os.length + 1), if (Fin.cons x q : Fin (os.length + 2) → Fin n) k.castSucc = s
            ∧ (Fin.cons x q : Fin (os.length + 2) → Fin n) k.succ = ss then φ ((o :: os).get k) else 0)
          = (if x = s ∧ q 0 = ss then φ o else 0)
            + ∑ k : Fin os.length, if q k.castSucc = s ∧ q k.succ = ss then φ (os.get k) else 0 := by
      intro q x
      rw [Fin.sum_univ_succ]
      simp only [Fin.cons_zero, Fin.castSucc_zero, Fin.cons_succ, ← Fin.succ_castSucc, List.get_cons_zero, List.get_cons_succ']
    refine Eq.trans ?_ (Finset.sum_congr rfl (fun q _ => Finset.sum_congr rfl (fun x _ =>
      congrArg (pathWeight init tau f (o :: os) (Fin.cons x q : Fin (os.length + 2) → Fin n) * ·) (e q x)))).symm
    simp only [mul_add, Finset.sum_add_distrib]
    congr 1
    · have h := totalWeight_eq tau f (fun x => init s * tau s x o * φ o * if x = ss then 1 else 0) os
      have e2 : ∑ x, (init s * tau s x o * φ o * if x = ss then 1 else 0) * beta0 tau f os x
          = init s * tau s ss o * beta0 tau f os ss * φ o * 1 := by
        rw [Finset.sum_eq_single ss]
        · simp; ring
        · intro b _ hb; simp [hb]
        · simp
      rw [← e2, ← h]
      unfold totalWeight
      refine Finset.sum_congr rfl (fun q _ => ?_)
      rw [Finset.sum_eq_single s]
      · rw [pathWeight_cons]
        by_cases hq : q 0 = ss
        · simp [pathWeight, hq]; ring
        · simp [pathWeight, hq]
      · intro b _ hb; simp [hb]
      · simp
    · refine Finset.sum_congr rfl (fun q _ => ?_)
      rw [← Finset.sum_mul]
      congr 1
      rw [Finset.sum_congr rfl (fun x _ => pathWeight_cons tau f init o os x q), ← Finset.sum_mul]
      simp only [pathWeight, fwd]
      ring

theorem expUses_eq (init : Fin n → K) (φ : O → K) (os : List O) (s ss : Fin n) (p : K)
    (hp : p = ∑ s, init s * beta0 tau f os s) (t : K) :
    use tau init f φ (t / p) os s ss = t * expUses init tau f φ os s ss := by
  rw [use_c, use_eq, expUses, totalWeight_eq, hp]
  ring

theorem expVisits_eq_sum (init : Fin n → K) (φ : O → K) (os : List O) (s : Fin n) :
    expVisits init tau f φ os s = ∑ ss, expUses init tau f φ os s ss := by
  unfold expVisits expUses
  rw [← Finset.sum_div, Finset.sum_comm]
  congr 1
  refine Finset.sum_congr rfl (fun p _ => ?_)
  rw [← Finset.mul_sum, Finset.sum_comm]
  congr 1
  refine Finset.sum_congr rfl (fun k _ => ?_)
  by_cases h : p k.castSucc = s <;> simp [h]

theorem expVisits_eq (init : Fin n → K) (φ : O → K) (os : List O) (s : Fin n) (p : K)
    (hp : p = ∑ s, init s * beta0 tau f os s) (t : K) :
    vis tau init f φ (t / p) os s = t * expVisits init tau f φ os s := by
  rw [← sum_use, expVisits_eq_sum, Finset.mul_sum]
  exact Finset.sum_congr rfl (fun ss _ => expUses_eq tau f init φ os s ss p hp t)

/-- `alpha[s][k]*beta[s][k]` is the weight of the paths that are in `s` at time `k`. -/
theorem weightAt_eq (init : Fin n → K) (os : List O) (k : Fin (os.length + 1)) (s : Fin n) (a b : Fin n → K)
    (ha : (alphas tau init os)[k.val]? = some a) (hb : (betas tau f os)[k.val]? = some b) :
    a s * b s = weightAt init tau f os k s := by
  unfold weightAt
  rw [Finset.sum_filter]
  induction os generalizing init with
  | nil =>
    have hk0 : k.val = 0 := by have := k.isLt; simp only [List.length_nil] at this; omega
    obtain rfl : k = 0 := Fin.ext hk0
    simp [alphas, betas] at ha hb
    subst ha hb
    simp only [List.length_nil]
    rw [sum_fin_succ_fun]
    simp [pathWeight]
  | cons o os ih =>
    simp only [List.length_cons] at k ha ⊢
    rw [sum_fin_succ_fun (t := os.length + 1)]
    refine Fin.cases ?_ (fun k => ?_) k (motive := fun k => (alphas tau init (o :: os))[k.val]? = some a →
      (betas tau f (o :: os))[k.val]? = some b → a s * b s = ∑ q : Fin (os.length + 1) → Fin n, ∑ x,
        if (Fin.cons x q : Fin (os.length + 2) → Fin n) k = s
          then pathWeight init tau f (o :: os) (Fin.cons x q : Fin (os.length + 2) → Fin n) else 0) ha hb
    · intro ha hb
      simp only [alphas, betas, Fin.val_zero, List.getElem?_cons_zero, Option.some.injEq] at ha hb
      subst ha
      have h := totalWeight_eq tau f (fun x => init s * tau s x o) os
      have e2 : ∑ x, (init s * tau s x o) * beta0 tau f os x = init s * b s := by
        rw [← hb, bwd, Finset.mul_sum]
        exact Finset.sum_congr rfl (fun x _ => by simp only [beta0]; ring)
      rw [← e2, ← h]
      unfold totalWeight
      refine Finset.sum_congr rfl (fun q _ => ?_)
      simp only [Fin.cons_zero, Finset.sum_ite_eq', Finset.mem_univ, if_true]
      rw [pathWeight_cons]
      simp only [pathWeight]
      ring
    · intro ha hb
      simp only [alphas, betas, Fin.val_succ, List.getElem?_cons_succ] at ha hb
      rw [ih (fwd tau init o) k ha hb]
      refine Finset.sum_congr rfl (fun q _ => ?_)
      simp only [Fin.cons_succ]
      by_cases hk : q k = s
      · simp only [hk, if_true]
        rw [Finset.sum_congr rfl (fun x _ => pathWeight_cons tau f init o os x q), ← Finset.sum_mul]
        simp only [pathWeight, fwd]
        ring
      · simp [hk]

theorem expStart_eq (init : Fin n → K) (os : List O) (s : Fin n) (p : K)
    (hp : p = ∑ s, init s * beta0 tau f os s) (t : K) :
    init s * beta0 tau f os s * t / p = t * expStart init tau f os s := by
  have h : init s * beta0 tau f os s = weightAt init tau f os 0 s := by
    apply weightAt_eq
    · cases os <;> simp [alphas]
    · cases os with
      | nil => simp [betas]
      | cons o os => simp only [betas]; rfl
  rw [h, expStart, totalWeight_eq, hp]
  ring

end Jajapy.BW
