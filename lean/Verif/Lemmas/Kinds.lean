import Verif.Spec.Kinds
import Verif.Lemmas.Renaming
import Verif.Lemmas.BWHMM
import Verif.Lemmas.MDP

/-! Lemmas for C108. -/

set_option autoImplicit false
set_option linter.unusedSectionVars false

namespace Jajapy

open Spec BW

namespace BW
variable {K O : Type} {n : ℕ} [Field K] {tau : Fin n → Fin n → O → K}

/-- If `s` only emits `a`, the visits of `s` are visits with the observation `a`. -/
theorem visits_own [DecidableEq O] (lab : Fin n → O) (ht : ∀ s ss o, o ≠ lab s → tau s ss o = 0) (φ : O → K) (C : K) (g : Fin n → K) (s : Fin n)
    (os : List O) : ∀ v : Fin n → K, visits φ C (alphas tau v os) (betas tau g os) os s
      = φ (lab s) * visits (fun _ => 1) C (alphas tau v os) (betas tau g os) os s := by
  induction os with
  | nil => intro v; simp [visits_nil]
  | cons o os ih =>
    intro v
    rw [visits_cons, visits_cons, ih]
    by_cases h : o = lab s
    · subst h; ring
    · have : beta0 tau g (o :: os) s = 0 := by
        rw [beta0_cons]
        exact Finset.sum_eq_zero (fun ss _ => by rw [ht s ss o h, mul_zero])
      rw [this]
      ring

theorem beta0_snoc (g : Fin n → K) (l : O) (os : List O) : beta0 tau g (os ++ [l]) = beta0 tau (bwd tau g l) os := by
  induction os with
  | nil => rfl
  | cons o os ih => rw [List.cons_append, beta0_cons, beta0_cons, ih]

theorem visits_snoc (C : K) (g : Fin n → K) (l : O) (s : Fin n) (os : List O) : ∀ v : Fin n → K,
    visits (fun _ => 1) C (alphas tau v (os ++ [l])) (betas tau g (os ++ [l])) (os ++ [l]) s
      = visits (fun _ => 1) C (alphas tau v os) (betas tau (bwd tau g l) os) os s + os.foldl (fwd tau) v s * bwd tau g l s * C := by
  induction os with
  | nil =>
    intro v
    rw [List.nil_append, visits_cons, visits_nil, visits_nil]
    simp
  | cons o os ih =>
    intro v
    rw [List.cons_append, visits_cons, visits_cons, ih, ← List.cons_append, beta0_snoc, List.foldl_cons]
    ring

theorem uses_snoc (C : K) (g : Fin n → K) (l : O) (s ss : Fin n) (os : List O) : ∀ v : Fin n → K,
    uses tau (fun _ => 1) C (alphas tau v (os ++ [l])) (betas tau g (os ++ [l])) (os ++ [l]) s ss
      = uses tau (fun _ => 1) C (alphas tau v os) (betas tau (bwd tau g l) os) os s ss + os.foldl (fwd tau) v s * tau s ss l * g ss * C := by
  induction os with
  | nil =>
    intro v
    rw [List.nil_append, uses_cons, uses_nil, uses_nil]
    simp
  | cons o os ih =>
    intro v
    rw [List.cons_append, uses_cons, uses_cons, ih, beta0_snoc, List.foldl_cons]
    ring

end BW

theorem intersperse_snoc {L : Type} (x last : L) (os : List L) :
    List.intersperse x (os ++ [last]) = alternate (os.map (fun o => (o, x))) last := by
  induction os with
  | nil => rfl
  | cons o os ih =>
    rw [List.map_cons, alternate, ← ih]
    cases os with
    | nil => rfl
    | cons o' os => rfl

end Jajapy
