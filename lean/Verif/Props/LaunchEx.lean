import Verif.Props.Launch
import Verif.Props.ScaleEx

/-!
C107 for each kind of model, examples, and the machines on which the same call has different results.
-/

set_option autoImplicit false

namespace Jajapy

open BW Spec

section machines

variable (printable : Char → Bool) (IO : Files.FloatIO ℝ) {n : ℕ} (name : List Char) (mac mac' : Machine) (processes processes' verbose : IntArg)
  (title : String) (o : Options) (epsilon : ℝ) (maxIt : ℕ)

/-- C107, MC: two machines, two values of `processes`; Storm on both or on none, or not asked for. -/
theorem MC.launch_machine_partial (S : TSet String) (M : MC ℝ String n) (hM : M.Stochastic) (hne : ∀ w ∈ S.sequences, w ≠ [])
    (hlen : S.times.length = S.sequences.length) (ht : ∀ t ∈ S.times, 1 ≤ t) (hs : o.storm = true → mac.storm = mac'.storm)
    (h : (∀ w ∈ S.sequences, M.lik w ≠ 0) ∨ (1 < mac.processes processes ∧ 1 < mac'.processes processes')) :
    launchMC printable IO name S mac processes verbose title o epsilon maxIt M = launchMC printable IO name S mac' processes' verbose title o epsilon maxIt M :=
  launch_machine _ _ _ _ _ _ _ _ _ _ _ _ _ _ _ _ hs (M.fit_processes _ _ S epsilon maxIt hM hne hlen ht h)

theorem HMM.launch_machine_partial (S : TSet String) (M : HMM ℝ String n) (hnd : M.alphabet.Nodup) (hM : M.Stochastic) (hne : ∀ w ∈ S.sequences, w ≠ [])
    (hlen : S.times.length = S.sequences.length) (ht : ∀ t ∈ S.times, 1 ≤ t) (hs : o.storm = true → mac.storm = mac'.storm)
    (h : (∀ w ∈ S.sequences, M.lik w ≠ 0) ∨ (1 < mac.processes processes ∧ 1 < mac'.processes processes')) :
    launchHMM printable IO name S mac processes verbose title o epsilon maxIt M = launchHMM printable IO name S mac' processes' verbose title o epsilon maxIt M :=
  launch_machine _ _ _ _ _ _ _ _ _ _ _ _ _ _ _ _ hs (M.fit_processes _ _ S epsilon maxIt hnd hM hne hlen ht h)

theorem MDP.launch_machine_partial (S : TSet String) (M : MDP ℝ String n) (hn : M.actions.Nodup) (hM : M.Stochastic)
    (ho : ∀ w ∈ S.sequences, w.length % 2 = 1) (hlen : S.times.length = S.sequences.length) (ht : ∀ t ∈ S.times, 1 ≤ t)
    (hs : o.storm = true → mac.storm = mac'.storm)
    (h : (∀ w ∈ S.sequences, M.lik w ≠ 0) ∨ (1 < mac.processes processes ∧ 1 < mac'.processes processes')) :
    launchMDP printable IO name S mac processes verbose title o epsilon maxIt M = launchMDP printable IO name S mac' processes' verbose title o epsilon maxIt M :=
  launch_machine _ _ _ _ _ _ _ _ _ _ _ _ _ _ _ _ hs (M.fit_processes _ _ S epsilon maxIt hn hM ho hlen ht h)

theorem CTMC.launch_machine_partial (fixed : Fin n → Fin n → Bool) (S : TSet (Sym String)) (M : CTMC ℝ String n) (hM : M.Valid)
    (hS : TimedSet S) (hw : WaitsNonneg S) (hlen : S.times.length = S.sequences.length) (ht : ∀ t ∈ S.times, 1 ≤ t)
    (hs : o.storm = true → mac.storm = mac'.storm)
    (h : (∀ w ∈ S.sequences, M.density w ≠ 0) ∨ (1 < mac.processes processes ∧ 1 < mac'.processes processes')) :
    launchCTMC printable IO name fixed S mac processes verbose title o epsilon maxIt M =
      launchCTMC printable IO name fixed S mac' processes' verbose title o epsilon maxIt M :=
  launch_machine _ _ _ _ _ _ _ _ _ _ _ _ _ _ _ _ hs (M.fit_processes _ _ fixed S epsilon maxIt hM hS hw hlen ht h)

end machines

/-- A training set with a trace that `branch` cannot generate. -/
def branchSetBad : TSet String := ⟨[["init", "a", "a"], ["a"]], [3, 1], false, some 0⟩

theorem branch_lik : branch.lik ["init", "a", "a"] = 1/2 ∧ branch.lik ["a"] = 0 := by
  constructor
  · rw [branch.lik_eq branch_stochastic.2.2.2 _ (by simp)]
    exact branch_weight
  · rw [branch.lik_eq branch_stochastic.2.2.2 _ (by simp), totalWeight_eq]
    simp [beta0, betas, bwd, MC.step, branch, Fin.sum_univ_two]

/-- C107 is violated: with the default arguments, on two machines that differ only in the number of processors, the same call raises a TypeError on the one with
two and returns a model on the one with three. -/
theorem MC.launch_machine_differs (printable : Char → Bool) (IO : Files.FloatIO ℝ) (name : List Char) :
    (launchMC printable IO name branchSetBad ⟨true, 2, false⟩ .other .other "" ⟨false, false, true, false⟩ 0.01 5 branch).2.result = .error .typeError ∧
    ∃ r, (launchMC printable IO name branchSetBad ⟨true, 3, false⟩ .other .other "" ⟨false, false, true, false⟩ 0.01 5 branch).2.result = .ok r := by
  constructor
  · have hs := (branch.bw_step_outcome 1 branchSetBad branch_stochastic.2.2.2 (by decide) (by decide)).2
      (Or.inr ⟨le_refl _, ["a"], by decide, branch_lik.2⟩)
    have : fit (stepMC 1 branchSetBad) 0.01 5 branch = .error .typeError := by
      unfold fit
      rw [loop_error _ _ _ _ _ hs]
    unfold launchMC launch
    rw [show (⟨true, 2, false⟩ : Machine).processes .other = 1 from rfl, this]
  · obtain ⟨st, hst⟩ := branch.fit_total 2 (by norm_num) branchSetBad 0.01 5 branch_stochastic (by decide) (by decide) (by decide) ["init", "a", "a"]
      (by decide) (by rw [branch_lik.1]; norm_num)
    unfold launchMC launch
    rw [show (⟨true, 3, false⟩ : Machine).processes .other = 2 from rfl, hst]
    exact ⟨⟨.inl st.h, none⟩, by simp [finish, finishStorm, returned]⟩

/-- The hypotheses of `MC.launch_machine_partial`: one process on Windows, eight processors on Linux. -/
example (printable : Char → Bool) (IO : Files.FloatIO ℝ) (epsilon : ℝ) (maxIt : ℕ) :
    launchMC printable IO [] branchSet ⟨false, 4, true⟩ .other (.int 3) "" ⟨true, true, true, true⟩ epsilon maxIt branch =
      launchMC printable IO [] branchSet ⟨true, 8, true⟩ (.int 5) (.int 3) "" ⟨true, true, true, true⟩ epsilon maxIt branch :=
  MC.launch_machine_partial _ _ _ _ _ _ _ _ _ _ _ _ _ _ branch_stochastic (by decide) (by decide) (by decide) (fun _ => rfl)
    (Or.inl (by simp [branchSet, branch_lik.1]))

/-- Level 3: everything is shown. -/
example (printable : Char → Bool) (IO : Files.FloatIO ℝ) :
    (launchMC printable IO [] branchSet ⟨true, 3, false⟩ .other (.int 3) "t" ⟨false, false, true, false⟩ 0.01 1 branch).1 =
      [.learning 0, .noStorm, .bar "t", .recap 1] := by
  unfold launchMC launch
  have : fit (stepMC 2 branchSet) 0.01 1 branch = .ok ⟨branch', 1, some (3 * Real.log (1/2))⟩ := by
    unfold fit
    rw [loop_succ _ _ _ _ _ _ branch_step, if_neg (by simp), loop_zero]
  rw [show (⟨true, 3, false⟩ : Machine).processes .other = 2 from rfl, this]
  rfl

/-- C107: at level 1 the call shows a line that is not a warning. -/
theorem BW.launch_level_one_header {H R : Type} (kind : ℕ) (save : H → List Char) (savePrism : H → Py (List Char)) (convert : H → Py R) (chain : Bool)
    (step : ℕ → H → Py (H × ℝ)) (mac : Machine) (processes : IntArg) (title : String) (o : Options) (epsilon : ℝ) (maxIt : ℕ) (h : H) :
    ∃ x ∈ (launch kind save savePrism convert chain step mac processes (.int 1) title o epsilon maxIt h).1, ¬ Allowed (level (.int 1)) x := by
  refine ⟨.learning kind, ?_, by simp [level, Allowed]⟩
  unfold launch
  rw [verbosity_eq]
  cases fit (step (mac.processes processes)) epsilon maxIt h <;> simp [shownBefore, level]

end Jajapy
