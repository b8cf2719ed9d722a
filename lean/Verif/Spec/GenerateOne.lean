import Verif.Spec.GenerateMDP

/-!
Specification of the calls of `MDP.run` made by `MDP.generateSet`: they read one sequence of random numbers.
-/

namespace Jajapy.MDP

variable {σ L : Type} [DecidableEq L] {n : ℕ}

/-- The numbers `d a, …, d (b-1)`. -/
def slice (d : ℕ → ℝ) (a b : ℕ) : List ℝ := List.ofFn (fun i : Fin (b - a) => d (a + i))

/-- The first `N` calls of `run` return the traces `tr j`. They read one sequence of numbers: the `j`-th call starts with the number of
index `pos j`, returns once it has read the numbers before `pos (j+1)` and not earlier, and the next call goes on from there. Every
call finds the scheduler in the state in which the call before has left it. -/
def CollectsOne (M : MDP ℝ L n) (sch : Sched ℝ L σ) (steps : ℕ) (st0 : σ) (d : ℕ → ℝ) (N : ℕ) (tr : ℕ → List L) : Prop :=
  ∃ (st : ℕ → σ) (pos : ℕ → ℕ), st 0 = st0 ∧ pos 0 = 0 ∧
    ∀ j < N, pos j ≤ pos (j + 1) ∧
      M.run sch steps (slice d (pos j) (pos (j + 1))) (st j) = some (.ok (tr j, st (j + 1))) ∧
      ∀ k < pos (j + 1), M.run sch steps (slice d (pos j) k) (st j) = none

end Jajapy.MDP
