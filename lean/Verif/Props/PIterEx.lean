import Verif.Props.PIter
import Verif.Props.FitParametersEx

/-!
C58 for PCTMCs: a model that meets the hypotheses.
-/

set_option autoImplicit false

namespace Jajapy.PCTMC

open BW Spec

/-- An iteration on the example ends, and both parameters are used in the expected times. -/
theorem exModel_step : ∃ C M' ll, (exModel ℝ [("x", 1/2), ("y", 3)]).sortParameters [] = .ok C ∧
    estimateStep 2 C (.timed exTimed) (exModel ℝ [("x", 1/2), ("y", 3)]) = .ok (M', ll) := by
  obtain ⟨C, hC, _, _, h3⟩ := exModel_sort
  have hf : (exModel ℝ [("x", 1/2), ("y", 3)]).names.filter (fun p => p ∉ ["x", "y"]) = [] := by decide +kernel
  obtain ⟨d, M', h⟩ := estimate_total 2 (by decide) exTimed (exModel ℝ [("x", 1/2), ("y", 3)]) ["x", "y"]
    (by rw [hf]; exact exModel_estimable) 0 1 C (by rw [hf]; exact hC) h3 exTimed_ok.1 exTimed_ok.2 rfl
    (by simp [exTimed]) (timed [("init", 0), ("a", 1)] "b") (by simp [exTimed]) exModel_density.ne'
  cases hs : estimateStep 2 C (.timed exTimed) (exModel ℝ [("x", 1/2), ("y", 3)]) with
  | ok r => exact ⟨C, r.1, r.2, hC, hs⟩
  | error e =>
    exfalso
    unfold estimate at h
    rw [hf, hC] at h
    have hl : BW.fit (estimateStep 2 C (.timed exTimed)) 0 1 (exModel ℝ [("x", 1/2), ("y", 3)]) = .error e := by
      unfold BW.fit
      rw [loop_error _ _ _ _ _ hs]
    simp only [Bind.bind, Except.bind] at h
    rw [hl] at h
    simp at h

/-- The hypotheses of `bw_update_spec` hold on the example, which is learnt in one step. -/
example : ∃ C M' ll x w, (exModel ℝ [("x", 1/2), ("y", 3)]).sortParameters [] = .ok C ∧
    estimateStep 2 C (.timed exTimed) (exModel ℝ [("x", 1/2), ("y", 3)]) = .ok (M', ll) ∧
    (exModel ℝ [("x", 1/2), ("y", 3)]).values.lookup "x" = some x ∧ M'.values.lookup "x" = some (x * w) := by
  obtain ⟨C, M', ll, hC, hs⟩ := exModel_step
  obtain ⟨_, _, h, _⟩ := bw_update_spec 2 exModel_estimable hC exTimed exTimed_ok.1 exTimed_ok.2 M' ll hs
  obtain ⟨x, w, h1, h2, _⟩ := h "x" (by simp [exModel]) (by simp)
  exact ⟨C, M', ll, x, w, hC, hs, h1, h2⟩

end Jajapy.PCTMC
