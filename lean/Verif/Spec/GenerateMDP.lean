import Verif.Spec.MDPSim

/-!
Specification vocabulary for the sets generated by MDPs.
-/

namespace Jajapy.MDP

variable {σ L : Type} [DecidableEq L] {n : ℕ}

/-- The first `N` calls of `run`, with the numbers `D j` for the `j`-th call, return the traces `tr j`; every call finds the scheduler
in the state in which the call before has left it. -/
def Collects (M : MDP ℝ L n) (sch : Sched ℝ L σ) (steps : ℕ) (st0 : σ) (D : ℕ → ℕ → ℝ) (N : ℕ) (tr : ℕ → List L) : Prop :=
  ∃ st : ℕ → σ, st 0 = st0 ∧
    ∀ j < N, ∃ k, M.run sch steps (List.ofFn (fun i : Fin k => D j i)) (st j) = some (.ok (tr j, st (j + 1)))

end Jajapy.MDP
