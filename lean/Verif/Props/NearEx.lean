import Verif.Props.NearTotal
import Verif.Props.NearMDP
import Verif.Props.NearCTMC

/-!
C110: concrete models that meet the hypotheses.
-/

set_option autoImplicit false

namespace Jajapy

open Spec BW

/-- A hidden coin: heads with probability `p`, whatever the state; the states carry the labels 0 and 1. -/
noncomputable def nearMC (p : ℝ) : MC ℝ ℕ 2 := ⟨fun _ t => if t = 0 then p else 1 - p, fun s => s.1, fun s => if s = 0 then p else 1 - p⟩

theorem near_both (s : Fin 2) : Spec.Near (4 / 3) (if s = 0 then (1 / 2 : ℝ) else 1 - 1 / 2) (if s = 0 then (3 / 8 : ℝ) else 1 - 3 / 8) := by
  split_ifs <;> exact ⟨by norm_num, by norm_num, by norm_num, by norm_num⟩

/-- A fair coin and a coin with probability 3/8. -/
theorem nearMC_near : MC.Near (4 / 3) (nearMC (1 / 2)) (nearMC (3 / 8)) := ⟨rfl, fun _ t => near_both t, near_both⟩

theorem nearMC_stochastic (p : ℝ) (h0 : 0 ≤ p) (h1 : p ≤ 1) : (nearMC p).Stochastic := by
  have hn : ∀ s : Fin 2, 0 ≤ (if s = 0 then p else 1 - p) := fun s => by split_ifs <;> linarith
  exact ⟨hn, by simp [nearMC], fun _ t => hn t, fun s => by simp [nearMC]⟩

/-- The two coins after three iterations of the learning from `[0,1,1]` and `[0,0]`. -/
example : SameOutcome (MC.Near ((4 / 3) ^ ((4 * (3 + 1)) ^ 3))) (rounds (stepMC 1 (⟨[[0, 1, 1], [0, 0]], [2, 5], false, some 0⟩ : TSet ℕ)) 3 (nearMC (1 / 2)))
    (rounds (stepMC 1 ⟨[[0, 1, 1], [0, 0]], [2, 5], false, some 0⟩) 3 (nearMC (3 / 8))) :=
  MC.rounds_near 1 _ 3 (by intro w hw; fin_cases hw <;> simp) 3 (by norm_num) nearMC_near

/-- All the traces with three symbols: together they differ by at most 3/4. -/
example : ∃ P P' : (Fin 3 → ℕ) → ℝ, (∀ w, (nearMC (1 / 2)).iface.seqProb (List.ofFn w) = .ok (P w)) ∧
    (∀ w, (nearMC (3 / 8)).iface.seqProb (List.ofFn w) = .ok (P' w)) ∧
    ∑ w ∈ Fintype.piFinset (fun _ : Fin 3 => {0, 1}), |P w - P' w| ≤ 1 / 4 + (2 : ℕ) * (1 / 4) := by
  have e : ∀ p q : ℝ, ∑ t : Fin 2, |(if t = 0 then p else 1 - p) - (if t = 0 then q else 1 - q)| = |p - q| + |q - p| := by
    intro p q
    rw [Fin.sum_univ_two]
    simp only [if_true, one_ne_zero, if_false]
    congr 2
    ring
  refine MC.total_near (nearMC_stochastic (1 / 2) (by norm_num) (by norm_num)) (nearMC_stochastic (3 / 8) (by norm_num) (by norm_num)) rfl
    (fun s => (e _ _).trans_le ?_) ((e _ _).trans_le ?_) {0, 1} 2 <;>
  · rw [abs_of_nonneg (by norm_num), abs_of_neg (by norm_num)]
    norm_num

/-- A state that only emits 0 and 1. -/
noncomputable def nearHMM (p : ℝ) : HMM ℝ ℕ 2 :=
  ⟨fun _ t => if t = 0 then p else 1 - p, [0, 1], fun _ i => if i = (0 : Fin 2) then p else 1 - p, fun s => if s = 0 then p else 1 - p⟩

theorem nearHMM_near : HMM.Near (4 / 3) (nearHMM (1 / 2)) (nearHMM (3 / 8)) := by
  refine ⟨List.Perm.refl _, fun _ t => near_both t, fun s o => ?_, near_both⟩
  refine Spec.Near.sum (Finset.univ : Finset (Fin 2)) (fun i => if [0, 1][i] = o then (if i = (0 : Fin 2) then (1 / 2 : ℝ) else 1 - 1 / 2) else 0)
    (fun i => if [0, 1][i] = o then (if i = (0 : Fin 2) then (3 / 8 : ℝ) else 1 - 3 / 8) else 0) (fun i _ => ?_)
  split_ifs with h1 h2
  · exact ⟨by norm_num, by norm_num, by norm_num, by norm_num⟩
  · exact ⟨by norm_num, by norm_num, by norm_num, by norm_num⟩
  · exact Spec.Near.zero

example : Spec.Near ((4 / 3) ^ (2 * 3)) ((nearHMM (1 / 2)).lik [0, 1, 0]) ((nearHMM (3 / 8)).lik [0, 1, 0]) :=
  HMM.likelihood_near (by norm_num) nearHMM_near (by decide : [0, 1].Nodup) [0, 1, 0] (by simp)

/-- One action, 7. -/
noncomputable def nearMDP (p : ℝ) : MDP ℝ ℕ 2 :=
  ⟨[7], fun _ _ t => if t = 0 then p else 1 - p, fun s => s.1, fun s => if s = 0 then p else 1 - p⟩

theorem nearMDP_near : MDP.Near (4 / 3) (nearMDP (1 / 2)) (nearMDP (3 / 8)) := by
  refine ⟨List.Perm.refl _, rfl, fun s x t => ?_, near_both⟩
  refine Spec.Near.sum (Finset.univ : Finset (Fin 1)) (fun i => if [7][i] = x then (if t = 0 then (1 / 2 : ℝ) else 1 - 1 / 2) else 0)
    (fun i => if [7][i] = x then (if t = 0 then (3 / 8 : ℝ) else 1 - 3 / 8) else 0) (fun i _ => ?_)
  split_ifs with h1 h2
  · exact ⟨by norm_num, by norm_num, by norm_num, by norm_num⟩
  · exact ⟨by norm_num, by norm_num, by norm_num, by norm_num⟩
  · exact Spec.Near.zero

example : Spec.Near ((4 / 3) ^ 3) ((nearMDP (1 / 2)).lik [0, 7, 1, 7, 1]) ((nearMDP (3 / 8)).lik [0, 7, 1, 7, 1]) :=
  MDP.likelihood_near (by norm_num) nearMDP_near (by decide : [7].Nodup) [0, 7, 1, 7, 1]

/-- Two states; the rates are `r` and `2 * r`. -/
noncomputable def nearCTMC (r : ℝ) : CTMC ℝ ℕ 2 := ⟨fun s t => if s = t then 0 else if s = 0 then r else 2 * r, fun s => s.1, fun s => if s = 0 then 1 else 0⟩

theorem nearCTMC_near : CTMC.Near (5 / 4) (nearCTMC 4) (nearCTMC 5) := by
  refine ⟨rfl, fun s t => ?_, fun s => ?_⟩
  · simp only [nearCTMC]
    split_ifs
    · exact Spec.Near.zero
    · exact ⟨by norm_num, by norm_num, by norm_num, by norm_num⟩
    · exact ⟨by norm_num, by norm_num, by norm_num, by norm_num⟩
  · simp only [nearCTMC]
    split_ifs
    · exact Spec.Near.refl zero_le_one (by norm_num)
    · exact Spec.Near.zero

theorem nearCTMC_e (r : ℝ) (hr : 0 ≤ r) (s : Fin 2) : (nearCTMC r).e s ≤ 2 * r := by
  unfold CTMC.e nearCTMC
  rw [Fin.sum_univ_two]
  fin_cases s <;> simp
  linarith

/-- Both clocks on traces with at most two steps and the duration 1. -/
example : SameOutcome (fun x y => CTMC.Near (((5 / 4) ^ (2 + 1) * Real.exp ((5 / 4 - 1) * 10 * 1)) ^ 4) x.1 y.1)
    (stepTimed 1 (fun _ _ => false) (⟨[[.obs 0, .time (1 / 2), .obs 1, .time (1 / 2), .obs 0]], [3], false, some 4⟩ : TSet (Sym ℕ)) (nearCTMC 4))
    (stepTimed 1 (fun _ _ => false) ⟨[[.obs 0, .time (1 / 2), .obs 1, .time (1 / 2), .obs 0]], [3], false, some 4⟩ (nearCTMC 5)) := by
  refine CTMC.step_near (by norm_num) nearCTMC_near (by norm_num) (fun s => (nearCTMC_e 4 (by norm_num) s).trans (by norm_num))
    (fun s => (nearCTMC_e 5 (by norm_num) s).trans (by norm_num)) 1 _ _ ?_ 2 1 ?_
  · intro w hw
    rw [List.mem_singleton] at hw
    subst hw
    refine ⟨isTimed_timed [(0, 1 / 2), (1, 1 / 2)] 0, ?_⟩
    simp [waits]
  · intro w hw
    rw [List.mem_singleton] at hw
    subst hw
    simp only [waits, List.filterMap_cons, List.filterMap_nil, List.length_cons, List.length_nil, List.sum_cons, List.sum_nil]
    norm_num

end Jajapy
