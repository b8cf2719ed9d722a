import Verif.Props.ShortEx
import Verif.Props.FoldingEx

/-!
C111 at work: two models compared by their short traces.
-/

set_option linter.unusedSectionVars false
set_option autoImplicit false

namespace Jajapy

open Spec BW

/-- A fair coin. -/
noncomputable def fairHMM : HMM ℝ Bool 1 where
  matrix := fun _ _ => 1
  alphabet := [true, false]
  output := fun _ _ => 1/2
  initialState := fun _ => 1

/-- Two unfair coins, one of them chosen for each throw. No state of it behaves like the state of `fairHMM`. -/
noncomputable def unfairHMM : HMM ℝ Bool 2 where
  matrix := fun _ _ => 1/2
  alphabet := [true, false]
  output := fun s i => if s.1 = i.1 then 1/4 else 3/4
  initialState := fun _ => 1/2

theorem fairHMM_stochastic : fairHMM.Stochastic ∧ fairHMM.alphabet.Nodup := by
  refine ⟨⟨fun _ => ?_, ?_, fun _ _ => ?_, fun _ => ?_, fun _ _ => ?_, fun _ => ?_⟩, by simp [fairHMM]⟩
  · norm_num [fairHMM]
  · norm_num [fairHMM]
  · norm_num [fairHMM]
  · norm_num [fairHMM]
  · show (0 : ℝ) ≤ 1/2
    norm_num
  · show ∑ _i : Fin 2, (1/2 : ℝ) = 1
    norm_num

theorem unfairHMM_stochastic : unfairHMM.Stochastic ∧ unfairHMM.alphabet.Nodup := by
  refine ⟨⟨fun _ => ?_, ?_, fun _ _ => ?_, fun _ => ?_, fun s i => ?_, fun s => ?_⟩, by simp [unfairHMM]⟩
  · norm_num [unfairHMM]
  · norm_num [unfairHMM]
  · norm_num [unfairHMM]
  · norm_num [unfairHMM]
  · simp only [unfairHMM]
    split_ifs <;> norm_num
  · show ∑ i : Fin 2, (if s.1 = i.1 then (1/4 : ℝ) else 3/4) = 1
    rw [Fin.sum_univ_two]
    fin_cases s <;> norm_num

theorem fairHMM_b (s : Fin 1) (o : Bool) : fairHMM.b s o = 1/2 := by
  unfold HMM.b
  rw [dif_pos (by cases o <;> simp [fairHMM])]
  rfl

theorem unfairHMM_b (s : Fin 2) (o : Bool) : unfairHMM.b s o = if (s = 0 ↔ o = true) then 1/4 else 3/4 := by
  have h : o ∈ unfairHMM.alphabet := by cases o <;> simp [unfairHMM]
  have e : unfairHMM.b s o = if s.1 = unfairHMM.alphabet.idxOf o then 1/4 else 3/4 := by
    unfold HMM.b
    rw [dif_pos h]
    rfl
  rw [e]
  cases o <;> fin_cases s <;> norm_num [unfairHMM]

/-- The two models give the same probability to all traces: it is enough to look at the traces with one or two symbols. -/
theorem fair_unfair : ∀ w, w ≠ [] → fairHMM.lik w = unfairHMM.lik w := by
  refine (HMM.agree_of_short fairHMM_stochastic.2 unfairHMM_stochastic.2 fairHMM_stochastic.1 unfairHMM_stochastic.1 (fun w hw hl => ?_)).1
  have e := fairHMM.seqProb_lik fairHMM_stochastic.2 w hw
  have e' := unfairHMM.seqProb_lik unfairHMM_stochastic.2 w hw
  match w, hw, hl with
  | [a], _, _ =>
    simp only [Iface.seqProb, Iface.seqLoop, HMM.iface, fairHMM_b, Except.ok.injEq] at e
    simp only [Iface.seqProb, Iface.seqLoop, HMM.iface, unfairHMM_b, Except.ok.injEq] at e'
    rw [← e, ← e']
    cases a <;> norm_num [Fin.sum_univ_two, fairHMM, unfairHMM]
  | [a, b], _, _ =>
    simp only [Iface.seqProb, Iface.seqLoop, Iface.fwdStep, HMM.tau, HMM.iface, fairHMM_b, Except.ok.injEq] at e
    simp only [Iface.seqProb, Iface.seqLoop, Iface.fwdStep, HMM.tau, HMM.iface, unfairHMM_b, Except.ok.injEq] at e'
    rw [← e, ← e']
    cases a <;> cases b <;> norm_num [Fin.sum_univ_two, fairHMM, unfairHMM]
  | a :: b :: c :: w, _, h => simp at h; omega

/-- The chains of C109 with three and two states meet the hypotheses. -/
theorem fold_short : ∀ w, w ≠ [] → w.length < 3 + 2 → foldMC.lik w = foldedMC.lik w := by
  intro w hw _
  have := (MC.likelihood_folded foldMC_folds).1 w
  rw [MC.seqProb_lik _ _ hw, MC.seqProb_lik _ _ hw] at this
  exact (Except.ok.inj this).symm

/-- So do an MDP, a CTMC and a Gaussian model with a state split in two. -/
theorem split_short {L : Type} [DecidableEq L] {m n d : ℕ} {f : Fin m → Fin n} {w : Fin m → ℝ} (hw : ∀ t, gather f w t = 1) :
    (∀ M : MDP ℝ L n, M.actions.Nodup → ∀ x, (M.split f w).lik x = M.lik x) ∧
      (∀ M : CTMC ℝ L n, ∀ x, IsTimed x → (M.split f w).density x = M.density x) ∧
      ∀ M : GoHMM n d, ∀ x, (M.split f w).iface.seqProb x = M.iface.seqProb x := by
  refine ⟨fun M hn x => ?_, fun M x hx => ?_, fun M x => ?_⟩
  · exact (MDP.lik_folded (MDP.split_folds hw M) hn x).symm
  · have := CTMC.timedSum_folded (CTMC.split_folds hw M) x
    rw [CTMC.timedSum_spec _ _ hx, CTMC.timedSum_spec _ _ hx] at this
    exact (Except.ok.inj this).symm
  · exact ((GoHMM.likelihood_folded (GoHMM.split_folds hw M)).1 x).symm

end Jajapy
