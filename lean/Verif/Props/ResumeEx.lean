import Verif.Props.Resume
import Verif.Props.ScaleEx

/-!
C105: learnings that meet the hypotheses, and why the second go may make one iteration more.
-/

set_option autoImplicit false

namespace Jajapy

open BW Spec Files Create

theorem branch_fit (epsilon : ℝ) (he : epsilon ≤ 0) (a : ℕ) : fit (stepMC 2 branchSet) epsilon (a + 1) branch = .ok ⟨branch', a + 1, some (if a = 0 then 3 * Real.log (1/2) else 0)⟩ := by
  have key : ∀ a c, loop (stepMC 2 branchSet) epsilon a ⟨branch', c, some 0⟩ = .ok ⟨branch', c + a, some 0⟩ := by
    intro a
    induction a with
    | zero => intro c; rfl
    | succ a ih =>
      intro c
      rw [loop_succ _ _ _ _ _ _ branch'_step, if_neg]
      · simp only
        rw [ih (c + 1), show c + 1 + a = c + (a + 1) by omega]
      · rintro ⟨p, hp, h⟩
        obtain rfl := Option.some.inj hp
        linarith
  unfold fit
  rw [loop_succ _ _ _ _ _ _ branch_step, if_neg (by simp)]
  cases a with
  | zero => rfl
  | succ a =>
    have l1 : Real.log (1/2) = - Real.log 2 := by rw [one_div, Real.log_inv]
    have l2 : 0 < Real.log 2 := Real.log_pos (by norm_num)
    rw [loop_succ _ _ _ _ _ _ branch'_step, if_neg]
    · simp only
      rw [key, if_neg (by omega), show 0 + 1 + 1 + a = a + 1 + 1 by omega]
    · rintro ⟨p, hp, h⟩
      obtain rfl := Option.some.inj hp
      rw [l1] at h
      linarith

/-- The hypotheses of `fit_resume` and of `MC.resume_file`: 1 iteration, then 4 more from the file. -/
example (printable : Char → Bool) : ∃ t M', (callMC printable realIO ['m'] ⟨true, false, false, false⟩ 2 branchSet 0 1 branch).file = some t ∧
    loadMC realIO t = .ok (['m'], ⟨2, M'⟩) ∧ fit (stepMC 2 branchSet) 0 4 M' = .ok ⟨branch', 4, some 0⟩ :=
  MC.resume_file printable realIO branch.matrix ["init", "a"] branch ['m'] ⟨true, false, false, false⟩ 2 branchSet 0 1 4 _ _ branch_mk branch_stochastic
    ⟨by decide, by decide⟩ rfl (branch_fit 0 le_rfl 4) (by decide) (branch_fit 0 le_rfl 0) branch'_dom.1 branch'_dom.2

/-- The hypotheses of `MC.fit_add`. -/
example : fit (stepMC 2 branchSet) 0 (2 + 3) branch = fit (stepMC 2 branchSet) 0 2 branch >>= fun s => (fit (stepMC 2 branchSet) 0 3 s.h).map s.after :=
  MC.fit_add 2 branchSet 0 le_rfl 2 3 branch branch_stochastic (by decide) (by decide) (by decide)

/-- C105: when the learning in one go ends with the iteration `a + 1`, the second go may make one more iteration: it has no previous log-likelihood to
compare the first one with. -/
theorem MC.resume_one_more : ∃ (S : TSet String) (M : MC ℝ String 2) (epsilon : ℝ) (st st1 st2 : LoopState (MC ℝ String 2)),
    fit (stepMC 2 S) epsilon (1 + 5) M = .ok st ∧ fit (stepMC 2 S) epsilon 1 M = .ok st1 ∧ fit (stepMC 2 S) epsilon 5 st1.h = .ok st2 ∧
    st.counter = 2 ∧ st1.counter + st2.counter = 3 := by
  have l1 : Real.log (1/2) = - Real.log 2 := by rw [one_div, Real.log_inv]
  have l2 : 0 < Real.log 2 := Real.log_pos (by norm_num)
  refine ⟨branchSet, branch, 6 * Real.log 2, ⟨branch', 2, some 0⟩, ⟨branch', 1, some (3 * Real.log (1/2))⟩, ⟨branch', 2, some 0⟩, ?_, ?_, ?_, rfl, rfl⟩
  · unfold fit
    rw [loop_succ _ _ _ _ _ _ branch_step, if_neg (by simp), loop_succ _ _ _ _ _ _ branch'_step, if_pos ⟨_, rfl, by rw [l1]; linarith⟩]
  · unfold fit
    rw [loop_succ _ _ _ _ _ _ branch_step, if_neg (by simp), loop_zero]
  · unfold fit
    rw [loop_succ _ _ _ _ _ _ branch'_step, if_neg (by simp), loop_succ _ _ _ _ _ _ branch'_step, if_pos ⟨_, rfl, by linarith⟩]

end Jajapy
