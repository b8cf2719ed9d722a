import Verif.Props.FoldingMDP
import Verif.Props.FoldingCTMC
import Verif.Props.FoldingGo

/-!
Property C109: concrete cases, and why learning needs states that cannot be reached rather than states that behave the same.
-/

set_option autoImplicit false

namespace Jajapy

open Spec BW

/-! ### Every model has a part, and can be split -/

section gather
variable {m n : ℕ} {f : Fin m → Fin n}

theorem gather_part (hf : Function.Injective f) (v : Fin n → ℝ) (h : ∀ t, (∀ s, f s ≠ t) → v t = 0) (t : Fin n) : v t = gather f (fun s => v (f s)) t := by
  by_cases h1 : ∀ s, f s ≠ t
  · rw [gather_outside _ t h1, h t h1]
  · push Not at h1
    obtain ⟨s, rfl⟩ := h1
    rw [gather_injective hf]

theorem gather_split (w : Fin m → ℝ) (hw : ∀ t, gather f w t = 1) (v : Fin n → ℝ) (t : Fin n) : v t = gather f (fun s => w s * v (f s)) t := by
  rw [gather_mul, hw, one_mul]

end gather

section constructions
variable {L : Type} [DecidableEq L] {m n d : ℕ} (f : Fin m → Fin n) (w : Fin m → ℝ)

/-- The part of the chain with the states `f s`. -/
def MC.part (M : MC ℝ L n) : MC ℝ L m := ⟨fun s s' => M.matrix (f s) (f s'), fun s => M.labelling (f s), fun s => M.initialState (f s)⟩

/-- The chain whose states are split, the copy `s` of the state `f s` being reached with the share `w s`. -/
def MC.split (M : MC ℝ L n) : MC ℝ L m :=
  ⟨fun s s' => w s' * M.matrix (f s) (f s'), fun s => M.labelling (f s), fun s => w s * M.initialState (f s)⟩

def HMM.part (M : HMM ℝ L n) : HMM ℝ L m := ⟨fun s s' => M.matrix (f s) (f s'), M.alphabet, fun s => M.output (f s), fun s => M.initialState (f s)⟩
def HMM.split (M : HMM ℝ L n) : HMM ℝ L m :=
  ⟨fun s s' => w s' * M.matrix (f s) (f s'), M.alphabet, fun s => M.output (f s), fun s => w s * M.initialState (f s)⟩

def MDP.part (M : MDP ℝ L n) : MDP ℝ L m := ⟨M.actions, fun s i s' => M.matrix (f s) i (f s'), fun s => M.labelling (f s), fun s => M.initialState (f s)⟩
def MDP.split (M : MDP ℝ L n) : MDP ℝ L m :=
  ⟨M.actions, fun s i s' => w s' * M.matrix (f s) i (f s'), fun s => M.labelling (f s), fun s => w s * M.initialState (f s)⟩

def CTMC.part (M : CTMC ℝ L n) : CTMC ℝ L m := ⟨fun s s' => M.matrix (f s) (f s'), fun s => M.labelling (f s), fun s => M.initialState (f s)⟩
def CTMC.split (M : CTMC ℝ L n) : CTMC ℝ L m :=
  ⟨fun s s' => w s' * M.matrix (f s) (f s'), fun s => M.labelling (f s), fun s => w s * M.initialState (f s)⟩

def GoHMM.part (M : GoHMM n d) : GoHMM m d := ⟨fun s s' => M.matrix (f s) (f s'), fun s => M.mu (f s), fun s => M.sigma (f s), fun s => M.initialState (f s)⟩
def GoHMM.split (M : GoHMM n d) : GoHMM m d :=
  ⟨fun s s' => w s' * M.matrix (f s) (f s'), fun s => M.mu (f s), fun s => M.sigma (f s), fun s => w s * M.initialState (f s)⟩

variable {f w}

/-- C109: a set of states in which the chain starts and which it never leaves is a part of it. -/
theorem MC.part_folds (hf : Function.Injective f) (M : MC ℝ L n) (hm : ∀ s t, (∀ s', f s' ≠ t) → M.matrix (f s) t = 0)
    (hi : ∀ t, (∀ s', f s' ≠ t) → M.initialState t = 0) : MC.Folds f (M.part f) M :=
  ⟨fun _ => rfl, fun s => gather_part hf _ (hm s), gather_part hf _ hi⟩

/-- C109: the copies of a state behave like it. -/
theorem MC.split_folds (hw : ∀ t, gather f w t = 1) (M : MC ℝ L n) : MC.Folds f (M.split f w) M :=
  ⟨fun _ => rfl, fun s => gather_split w hw (M.matrix (f s)), gather_split w hw M.initialState⟩

theorem HMM.part_folds (hf : Function.Injective f) (M : HMM ℝ L n) (hm : ∀ s t, (∀ s', f s' ≠ t) → M.matrix (f s) t = 0)
    (hi : ∀ t, (∀ s', f s' ≠ t) → M.initialState t = 0) : HMM.Folds f (M.part f) M :=
  ⟨List.Perm.refl _, fun _ _ => rfl, fun s => gather_part hf _ (hm s), gather_part hf _ hi⟩

theorem HMM.split_folds (hw : ∀ t, gather f w t = 1) (M : HMM ℝ L n) : HMM.Folds f (M.split f w) M :=
  ⟨List.Perm.refl _, fun _ _ => rfl, fun s => gather_split w hw (M.matrix (f s)), gather_split w hw M.initialState⟩

theorem MDP.part_folds (hf : Function.Injective f) (M : MDP ℝ L n) (hm : ∀ s i t, (∀ s', f s' ≠ t) → M.matrix (f s) i t = 0)
    (hi : ∀ t, (∀ s', f s' ≠ t) → M.initialState t = 0) : MDP.Folds f (M.part f) M := by
  refine ⟨List.Perm.refl _, fun _ => rfl, fun s x => ?_, gather_part hf _ hi⟩
  refine gather_part hf (M.prob (f s) x) (fun t ht => ?_)
  unfold MDP.prob
  refine Finset.sum_eq_zero (fun i _ => ?_)
  rw [hm s i t ht, ite_self]

theorem MDP.split_folds (hw : ∀ t, gather f w t = 1) (M : MDP ℝ L n) : MDP.Folds f (M.split f w) M := by
  refine ⟨List.Perm.refl _, fun _ => rfl, fun s x t => ?_, gather_split w hw M.initialState⟩
  rw [gather_split w hw (M.prob (f s) x) t]
  congr 1
  funext s'
  unfold MDP.prob MDP.split
  rw [Finset.mul_sum]
  exact Finset.sum_congr rfl (fun i _ => by rw [mul_ite, mul_zero])

theorem CTMC.part_folds (hf : Function.Injective f) (M : CTMC ℝ L n) (hm : ∀ s t, (∀ s', f s' ≠ t) → M.matrix (f s) t = 0)
    (hi : ∀ t, (∀ s', f s' ≠ t) → M.initialState t = 0) : CTMC.Folds f (M.part f) M :=
  ⟨fun _ => rfl, fun s => gather_part hf _ (hm s), gather_part hf _ hi⟩

theorem CTMC.split_folds (hw : ∀ t, gather f w t = 1) (M : CTMC ℝ L n) : CTMC.Folds f (M.split f w) M :=
  ⟨fun _ => rfl, fun s => gather_split w hw (M.matrix (f s)), gather_split w hw M.initialState⟩

theorem GoHMM.part_folds (hf : Function.Injective f) (M : GoHMM n d) (hm : ∀ s t, (∀ s', f s' ≠ t) → M.matrix (f s) t = 0)
    (hi : ∀ t, (∀ s', f s' ≠ t) → M.initialState t = 0) : GoHMM.Folds f (M.part f) M :=
  ⟨fun _ => rfl, fun _ => rfl, fun s => gather_part hf _ (hm s), gather_part hf _ hi⟩

theorem GoHMM.split_folds (hw : ∀ t, gather f w t = 1) (M : GoHMM n d) : GoHMM.Folds f (M.split f w) M :=
  ⟨fun _ => rfl, fun _ => rfl, fun s => gather_split w hw (M.matrix (f s)), gather_split w hw M.initialState⟩

/-- The shares of two copies of the second of two states. -/
example : ∀ t, gather (fun s : Fin 3 => if s = 0 then (0 : Fin 2) else 1) (fun s => if s = 0 then (1 : ℝ) else if s = 1 then 1/3 else 2/3) t = 1 := by
  intro t
  fin_cases t <;> norm_num [show ((2 : Fin 3) = 0) = False by decide, show ((2 : Fin 3) = 1) = False by decide, gather, Finset.sum_filter, Fin.sum_univ_three]

end constructions

/-! ### Concrete cases -/

/-- Two states with label 1 that behave the same: both stay among themselves with probability 1/2. -/
noncomputable def foldMC : MC ℝ ℕ 3 where
  matrix := fun s s' => if s = 0 then (if s' = 0 then 1 else 0) else (if s' = 1 then 0 else 1/2)
  labelling := fun s => if s = 0 then 0 else 1
  initialState := fun s => if s = 1 then 1 else 0

/-- They are one state of `foldedMC`. -/
noncomputable def foldedMC : MC ℝ ℕ 2 where
  matrix := fun s s' => if s = 0 then (if s' = 0 then 1 else 0) else 1/2
  labelling := fun s => if s = 0 then 0 else 1
  initialState := fun s => if s = 1 then 1 else 0

theorem foldMC_folds : MC.Folds ![0, 1, 1] foldMC foldedMC where
  labelling := by decide
  matrix := by
    intro s t
    fin_cases s <;> fin_cases t <;> simp [gather, Finset.sum_filter, Fin.sum_univ_three, foldMC, foldedMC]
  initial := by
    intro t
    fin_cases t <;> simp [gather, Finset.sum_filter, Fin.sum_univ_three, foldMC, foldedMC]

/-- A state that cannot be reached is added. -/
noncomputable def partMC : MC ℝ ℕ 3 where
  matrix := fun s s' => if s = 0 then (if s' = 0 then 1 else 0) else if s = 1 then (if s' = 2 then 0 else 1/2) else 1/3
  labelling := fun s => if s = 0 then 0 else 1
  initialState := fun s => if s = 1 then 1 else 0

/-- `foldedMC` is the part of `partMC` that can be reached. -/
theorem partMC_folds : MC.Folds ![0, 1] foldedMC partMC ∧ Function.Injective ![(0 : Fin 3), 1] := by
  have hi : Function.Injective ![(0 : Fin 3), 1] := by decide
  refine ⟨?_, hi⟩
  have h : foldedMC = partMC.part ![0, 1] := by
    unfold foldedMC partMC MC.part
    congr 1
    · funext s s'
      fin_cases s <;> fin_cases s' <;> simp
    · decide
    · funext s
      fin_cases s <;> simp
  rw [h]
  refine MC.part_folds hi _ (fun s t ht => ?_) (fun t ht => ?_)
  · have : t = 2 := by revert t; decide
    subst this
    fin_cases s <;> simp [partMC]
  · have : t = 2 := by revert t; decide
    subst this
    simp [partMC]

def foldSet : TSet ℕ := { sequences := [[1, 1, 0]], times := [1], floatTimes := false, type := some 0 }

theorem two0 : ((2 : Fin 3) = 0) = False := by decide
theorem two1 : ((2 : Fin 3) = 1) = False := by decide

/-- Learning can tell states that behave the same apart: they need not behave the same afterwards. -/
theorem learning_unfolds : ∃ r r', stepMC 2 foldSet foldMC = .ok r ∧ stepMC 2 foldSet foldedMC = .ok r' ∧
    r.1.matrix 1 2 = 1 ∧ r.1.matrix 2 0 = 1 ∧ r'.1.matrix 1 1 = 1/2 ∧ ¬ MC.Folds ![0, 1, 1] r.1 r'.1 := by
  have p1 : lastSum (alphas foldMC.tau foldMC.initialState [1, 1, 0]) = 1/4 := by
    norm_num [two0, two1, foldMC, alphas, fwd, lastSum, MC.tau, Fin.sum_univ_three]
  have p2 : lastSum (alphas foldedMC.tau foldedMC.initialState [1, 1, 0]) = 1/4 := by
    norm_num [foldedMC, alphas, fwd, lastSum, MC.tau, Fin.sum_univ_two]
  have h1 : ∃ r, stepMC 2 foldSet foldMC = .ok r ∧ r.1.matrix 1 2 = 1 ∧ r.1.matrix 1 1 = 0 ∧ r.1.matrix 2 0 = 1 := by
    have e : processWorkMC foldMC [1, 1, 0] 1 ≠ none := by simp [processWorkMC, p1]
    obtain ⟨w, hw⟩ := Option.ne_none_iff_exists'.1 e
    refine ⟨(updateMC foldMC [w], logLik [(w.proba, w.times)]), ?_, ?_⟩
    · simp [stepMC, workMC, foldSet, hw, collect, bind, Except.bind, pure, Except.pure]
    · rw [processWorkMC] at hw
      rw [p1, if_neg (by norm_num)] at hw
      obtain rfl := Option.some.inj hw
      refine ⟨?_, ?_, ?_⟩ <;>
      norm_num [two0, two1, foldMC, updateMC, alphas, betas, fwd, bwd, visits, uses, MC.tau, Fin.sum_univ_three]
  have h2 : ∃ r, stepMC 2 foldSet foldedMC = .ok r ∧ r.1.matrix 1 1 = 1/2 := by
    have e : processWorkMC foldedMC [1, 1, 0] 1 ≠ none := by simp [processWorkMC, p2]
    obtain ⟨w, hw⟩ := Option.ne_none_iff_exists'.1 e
    refine ⟨(updateMC foldedMC [w], logLik [(w.proba, w.times)]), ?_, ?_⟩
    · simp [stepMC, workMC, foldSet, hw, collect, bind, Except.bind, pure, Except.pure]
    · rw [processWorkMC] at hw
      rw [p2, if_neg (by norm_num)] at hw
      obtain rfl := Option.some.inj hw
      norm_num [foldedMC, updateMC, alphas, betas, fwd, bwd, visits, uses, MC.tau, Fin.sum_univ_two]
  obtain ⟨r, a1, a2, a3, a4⟩ := h1
  obtain ⟨r', b1, b2⟩ := h2
  refine ⟨r, r', a1, b1, a2, a4, b2, fun hc => ?_⟩
  have := hc.matrix 1 1
  rw [show (![0, 1, 1] : Fin 3 → Fin 2) 1 = 1 from rfl, b2] at this
  have g : gather ![0, 1, 1] (r.1.matrix 1) (1 : Fin 2) = r.1.matrix 1 1 + r.1.matrix 1 2 := by
    simp [gather, Finset.sum_filter, Fin.sum_univ_three]
  rw [g, a2, a3] at this
  norm_num at this

end Jajapy
