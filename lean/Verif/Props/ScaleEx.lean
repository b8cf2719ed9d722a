import Verif.Props.ScalePCTMC
import Verif.Props.FinishEx
import Verif.Props.FinishPCTMCEx
import Verif.Props.BWGoHMM
import Verif.Props.BWMDP

/-!
C104: training sets and models that meet the hypotheses, and why the tolerance has to be multiplied too.
-/

set_option autoImplicit false

namespace Jajapy

open BW Spec Files Create

/-- Seven times the set of `branch`. -/
def branchSet7 : TSet String := ⟨[["init", "a", "a"]], [21], false, some 0⟩

theorem branchSet7_repeats : TSet.Repeats 7 branchSet branchSet7 := ⟨rfl, rfl, rfl⟩

/-- A learning on the repeated set that ends, and what it gives. -/
example (epsilon : ℝ) : ∃ st, fit (stepMC 2 branchSet7) (7 * epsilon) 1 branch = .ok st ∧ st.h = branch' := by
  obtain ⟨st, h1, h2, _⟩ := branch_learns 2 (by norm_num) epsilon
  have h := MC.fit_repeats 2 (k := 7) (by norm_num) branchSet7_repeats epsilon 1 branch
  rw [h1] at h
  exact ⟨st.times 7, by exact_mod_cast h, h2⟩

example (epsilon : ℝ) (maxIt : ℕ) : ∃ T, TSet.Repeats 3 exSetHMM T ∧ T ≠ exSetHMM ∧ ∃ st, fit (stepHMM 4 exSetHMM) epsilon maxIt (exHMM ℝ) = .ok st :=
  ⟨{ exSetHMM with times := [6, 3] }, ⟨rfl, rfl, rfl⟩, by decide, (exHMM ℝ).fit_total 4 (by norm_num) exSetHMM epsilon maxIt (by decide) exHMM_stochastic (by decide)
    (by decide) (by decide) [7, 8, 7] (by decide) exHMM_lik.2⟩

example : ∃ T, TSet.Repeats 3 MDP.exSetMDP T ∧ T ≠ MDP.exSetMDP := ⟨{ MDP.exSetMDP with times := [6, 3, 9] }, ⟨rfl, rfl, rfl⟩, by decide⟩

example : ∃ T, TSet.Repeats 3 CTMC.exSetT T ∧ T.times ≠ CTMC.exSetT.times := ⟨{ CTMC.exSetT with times := [6, 3] }, ⟨rfl, rfl, rfl⟩, by simp [CTMC.exSetT]⟩

example : ∃ T, TSet.Repeats 3 exSetGo T ∧ T.times ≠ exSetGo.times := ⟨{ exSetGo with times := [3, 6] }, ⟨rfl, rfl, rfl⟩, by simp [exSetGo]⟩

/-- A learning on a PCTMC. -/
example (epsilon : ℝ) (lo hi : Option ℝ) : ∃ T, PCTMC.Traces.Repeats 5 (.timed PCTMC.exOne) T ∧
    PCTMC.fit 2 T (PCTMC.exTwin "b" 3) (.names []) false (5 * epsilon) 1 lo hi [[]] = .ok (some (PCTMC.exTwin "b" 1)) := by
  obtain ⟨C, st, h1, h2, h3, _⟩ := PCTMC.exTwinB_fit epsilon lo hi
  have h : PCTMC.Traces.Repeats 5 (.timed PCTMC.exOne) (.timed { PCTMC.exOne with times := [5] }) := ⟨rfl, rfl, rfl⟩
  refine ⟨_, h, ?_⟩
  have e := PCTMC.fit_repeats 2 (k := 5) (by norm_num) h (PCTMC.exTwin "b" 3) (.names []) false epsilon 1 lo hi [[]]
  rw [show ((5 : ℕ) : ℝ) = 5 by norm_num] at e
  rw [e]
  exact (PCTMC.fit_eq_ok _ _ _ _ _ _ _ _ _ _ _).2 ⟨_, _, _, _, h1, h2, h3⟩

theorem branch'_weight : totalWeight branch'.initialState branch'.step (fun _ => 1) ["init", "a", "a"] = 1 := by
  rw [totalWeight_eq]
  simp [beta0, betas, bwd, MC.step, branch', branch, Fin.sum_univ_two]

theorem branch'_stochastic : branch'.Stochastic := by
  refine ⟨?_, ?_, ?_, ?_⟩
  · intro s; fin_cases s <;> simp [branch', branch]
  · simp [branch', branch, Fin.sum_univ_two]
  · intro s s'; fin_cases s <;> fin_cases s' <;> simp [branch']
  · intro s; fin_cases s <;> simp [branch', Fin.sum_univ_two]

/-- The first iteration. -/
theorem branch_step : stepMC 2 branchSet branch = .ok (branch', 3 * Real.log (1/2)) := by
  obtain ⟨st, h1, h2, h3⟩ := branch_learns 2 (by norm_num) 0
  obtain ⟨r, hr⟩ := (branch.bw_step_outcome 2 branchSet branch_stochastic.2.2.2 (by decide) (by decide)).1
    (Or.inl ⟨by norm_num, ["init", "a", "a"], by decide, by
      rw [branch.lik_eq branch_stochastic.2.2.2 _ (by decide), branch_weight]; norm_num⟩)
  unfold fit at h1
  rw [loop_succ _ _ _ _ r.1 r.2 (by simpa using hr), if_neg (by simp), loop_zero] at h1
  obtain rfl := Except.ok.inj h1
  obtain ⟨_, _, hl, _⟩ := stepMC_ok _ _ _ _ _ hr
  have hp : possMC branch branchSet = [(["init", "a", "a"], 3)] := by
    simp [possMC, branchSet, branch_weight]
  rw [hp] at hl
  simp only [List.map_cons, List.map_nil, List.sum_cons, List.sum_nil, branch_weight, add_zero] at hl
  rw [hr, ← h2]
  congr 1
  refine Prod.ext rfl ?_
  show r.2 = _
  rw [hl]
  push_cast
  ring

/-- The next ones: nothing changes. -/
theorem branch'_step : stepMC 2 branchSet branch' = .ok (branch', 0) := by
  obtain ⟨r, hr⟩ := (branch'.bw_step_outcome 2 branchSet branch'_stochastic.2.2.2 (by decide) (by decide)).1
    (Or.inl ⟨by norm_num, ["init", "a", "a"], by decide, by
      rw [branch'.lik_eq branch'_stochastic.2.2.2 _ (by decide), branch'_weight]; norm_num⟩)
  obtain ⟨h1, _, hl, _⟩ := stepMC_ok _ _ _ _ _ hr
  have hp : possMC branch' branchSet = [(["init", "a", "a"], 3)] := by
    simp [possMC, branchSet, branch'_weight]
  rw [hp] at hl
  simp only [List.map_cons, List.map_nil, List.sum_cons, List.sum_nil, branch'_weight, add_zero, Real.log_one, zero_mul] at hl
  have e : ∀ s ss, numMC branch' branchSet s ss = ![![0, 3], ![0, 6]] s ss := by
    intro s ss
    unfold numMC
    rw [hp]
    simp only [List.map_cons, List.map_nil, List.sum_cons, List.sum_nil, wkMC, branch'_weight]
    fin_cases s <;> fin_cases ss <;> simp [use, uses, alphas, betas, fwd, bwd, MC.step, branch', branch, Fin.sum_univ_two] <;> norm_num
  have d : ∀ s, denMC branch' branchSet s = ![3, 6] s := by
    intro s
    unfold denMC
    rw [hp]
    simp only [List.map_cons, List.map_nil, List.sum_cons, List.sum_nil, wkMC, branch'_weight]
    fin_cases s <;> simp [vis, visits, alphas, betas, fwd, bwd, MC.step, branch', branch, Fin.sum_univ_two] <;> norm_num
  rw [hr]
  congr 1
  refine Prod.ext ?_ hl
  rw [h1]
  unfold newMC
  show MC.mk _ _ _ = MC.mk _ _ _
  congr 1
  funext s ss
  rw [e, d]
  fin_cases s <;> fin_cases ss <;> simp

/-- C104: the tolerance of the stopping test is compared with a sum over the traces, so with the same `epsilon` the repeated set can take more
iterations. -/
theorem MC.same_tolerance : ∃ (S T : TSet String) (M : MC ℝ String 2) (epsilon : ℝ) (s s' : LoopState (MC ℝ String 2)), TSet.Repeats 7 S T ∧
    fit (stepMC 2 S) epsilon 3 M = .ok s ∧ fit (stepMC 2 T) epsilon 3 M = .ok s' ∧ s.counter = 2 ∧ s'.counter = 3 := by
  have h1 := MC.step_repeats 2 (k := 7) (by norm_num) branchSet7_repeats branch
  have h2 := MC.step_repeats 2 (k := 7) (by norm_num) branchSet7_repeats branch'
  rw [branch_step] at h1
  rw [branch'_step] at h2
  simp only [Except.map, mul_zero] at h1 h2
  have l1 : Real.log (1/2) = - Real.log 2 := by rw [one_div, Real.log_inv]
  have l2 : 0 < Real.log 2 := Real.log_pos (by norm_num)
  refine ⟨branchSet, branchSet7, branch, 6 * Real.log 2, ⟨branch', 2, some 0⟩, ⟨branch', 3, some 0⟩, branchSet7_repeats, ?_, ?_, rfl, rfl⟩
  · unfold fit
    rw [loop_succ _ _ _ _ _ _ branch_step, if_neg (by simp), loop_succ _ _ _ _ _ _ branch'_step, if_pos ⟨_, rfl, by rw [l1]; linarith⟩]
  · unfold fit
    rw [loop_succ _ _ _ _ _ _ h1, if_neg (by simp), loop_succ _ _ _ _ _ _ h2, if_neg (by
      rintro ⟨prev, hp, h⟩
      obtain rfl := Option.some.inj hp
      rw [l1] at h
      push_cast at h
      linarith), loop_succ _ _ _ _ _ _ h2, if_pos ⟨_, rfl, by linarith⟩]

end Jajapy
