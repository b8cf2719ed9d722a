import Verif.Spec.Models
import Verif.Spec.MDP
import Verif.Spec.CTMC

/-!
Specification vocabulary (C110): two models whose numbers are the same up to a small relative error.
-/

set_option autoImplicit false

namespace Jajapy

namespace Spec

/-- The numbers `x` and `y` are not negative, and each of them is at most `c` times the other. -/
def Near (c x y : ℝ) : Prop := 0 ≤ x ∧ 0 ≤ y ∧ x ≤ c * y ∧ y ≤ c * x

/-- The total number of symbols of the traces of a set, with their multiplicities. -/
def symbols {O : Type} (S : TSet O) : ℕ := ((S.sequences.zip S.times).map (fun p => p.2 * p.1.length)).sum

/-- `k` iterations of the learning. -/
noncomputable def rounds {H : Type} (step : H → Py (H × ℝ)) : ℕ → H → Py H
  | 0, h => .ok h
  | k + 1, h => do
    let r ← step h
    rounds step k r.1

end Spec

open Spec

variable {L : Type} {n : ℕ}

/-- Two Markov chains with the same labels whose probabilities are the same up to the factor `c`. -/
structure MC.Near (c : ℝ) (M M' : MC ℝ L n) : Prop where
  labelling : M'.labelling = M.labelling
  matrix : ∀ s t, Spec.Near c (M.matrix s t) (M'.matrix s t)
  initial : ∀ s, Spec.Near c (M.initialState s) (M'.initialState s)

/-- The same for hidden Markov models. -/
structure HMM.Near [DecidableEq L] (c : ℝ) (M M' : HMM ℝ L n) : Prop where
  alphabet : M'.alphabet.Perm M.alphabet
  matrix : ∀ s t, Spec.Near c (M.matrix s t) (M'.matrix s t)
  emit : ∀ s o, Spec.Near c (M.emit s o) (M'.emit s o)
  initial : ∀ s, Spec.Near c (M.initialState s) (M'.initialState s)

/-- The same for MDPs, for every action. -/
structure MDP.Near [DecidableEq L] (c : ℝ) (M M' : MDP ℝ L n) : Prop where
  actions : M'.actions.Perm M.actions
  labelling : M'.labelling = M.labelling
  prob : ∀ s x t, Spec.Near c (M.prob s x t) (M'.prob s x t)
  initial : ∀ s, Spec.Near c (M.initialState s) (M'.initialState s)

/-- The same for CTMCs, with rates. -/
structure CTMC.Near (c : ℝ) (M M' : CTMC ℝ L n) : Prop where
  labelling : M'.labelling = M.labelling
  matrix : ∀ s t, Spec.Near c (M.matrix s t) (M'.matrix s t)
  initial : ∀ s, Spec.Near c (M.initialState s) (M'.initialState s)

end Jajapy
