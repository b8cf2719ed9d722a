import Mathlib.Analysis.Calculus.Deriv.Basic
import Verif.Spec.Models
import Verif.Spec.Paths
import Verif.Spec.CTMC
import Verif.Spec.MDP

/-!
Stationary points of the log-likelihood of a training set.
-/

namespace Jajapy

open Spec

variable {L : Type} {n : ℕ}

/-- The chain whose matrix is moved by `e` in the direction `d`. -/
def MC.nudge (M : MC ℝ L n) (d : Fin n → Fin n → ℝ) (e : ℝ) : MC ℝ L n :=
  { M with matrix := fun s ss => M.matrix s ss + e * d s ss }

/-- A chain is a stationary point of the log-likelihood of a training set: whatever the direction in which its
probabilities are moved (so that the rows still sum to 1, and no transition appears), the derivative of the average
log-likelihood is 0. -/
def MC.Stationary [DecidableEq L] (M : MC ℝ L n) (S : TSet L) : Prop :=
  ∀ d : Fin n → Fin n → ℝ, (∀ s, ∑ ss, d s ss = 0) → (∀ s ss, M.matrix s ss = 0 → d s ss = 0) →
    HasDerivAt (fun e => avgLogLik (M.nudge d e).lik S) 0 0

/-- The MDP whose matrix is moved by `e` in the direction `d`. -/
def MDP.nudge (M : MDP ℝ L n) (d : Fin n → Fin M.actions.length → Fin n → ℝ) (e : ℝ) : MDP ℝ L n :=
  { M with matrix := fun s i ss => M.matrix s i ss + e * d s i ss }

/-- An MDP is a stationary point of the log-likelihood of a training set (given its actions): whatever the direction in which
its probabilities are moved (so that the sums of the rows are kept, and no transition appears), the derivative of the average
log-likelihood is 0. -/
def MDP.Stationary [DecidableEq L] (M : MDP ℝ L n) (S : TSet L) : Prop :=
  ∀ d : Fin n → Fin M.actions.length → Fin n → ℝ, (∀ s i, ∑ ss, d s i ss = 0) → (∀ s i ss, M.matrix s i ss = 0 → d s i ss = 0) →
    HasDerivAt (fun e => avgLogLik (M.nudge d e).lik S) 0 0

/-- The HMM whose transition, emission and initial probabilities are moved by `e` in the directions `dA`, `dB` and `dI`. -/
def HMM.nudge (M : HMM ℝ L n) (dA : Fin n → Fin n → ℝ) (dB : Fin n → Fin M.alphabet.length → ℝ) (dI : Fin n → ℝ) (e : ℝ) : HMM ℝ L n :=
  { M with
    matrix := fun s ss => M.matrix s ss + e * dA s ss
    output := fun s i => M.output s i + e * dB s i
    initialState := fun s => M.initialState s + e * dI s }

/-- An HMM is a stationary point of the log-likelihood of a training set: whatever the direction in which its probabilities are
moved (so that all the distributions still add up to 1, and nothing of probability 0 becomes possible), the derivative of the
average log-likelihood is 0. -/
def HMM.Stationary [DecidableEq L] (M : HMM ℝ L n) (S : TSet L) : Prop :=
  ∀ (dA : Fin n → Fin n → ℝ) (dB : Fin n → Fin M.alphabet.length → ℝ) (dI : Fin n → ℝ),
    (∀ s, ∑ ss, dA s ss = 0) → (∀ s, ∑ i, dB s i = 0) → (∑ s, dI s = 0) →
    (∀ s ss, M.matrix s ss = 0 → dA s ss = 0) → (∀ s i, M.output s i = 0 → dB s i = 0) → (∀ s, M.initialState s = 0 → dI s = 0) →
    HasDerivAt (fun e => avgLogLik (M.nudge dA dB dI e).lik S) 0 0

/-- The CTMC whose rates are moved by `e` in the direction `d`. -/
def CTMC.nudge (M : CTMC ℝ L n) (d : Fin n → Fin n → ℝ) (e : ℝ) : CTMC ℝ L n :=
  { M with matrix := fun s ss => M.matrix s ss + e * d s ss }

/-- A CTMC is a stationary point of the log-density of a set of timed traces: whatever the direction in which its rates are
moved (so that no transition appears), the derivative of the average log-density is 0. -/
def CTMC.Stationary [DecidableEq L] (M : CTMC ℝ L n) (S : TSet (Sym L)) : Prop :=
  ∀ d : Fin n → Fin n → ℝ, (∀ s ss, M.matrix s ss = 0 → d s ss = 0) →
    HasDerivAt (fun e => avgLogLik (M.nudge d e).density S) 0 0

/-- All the waiting times of the set are positive. -/
def WaitsPos (S : TSet (Sym L)) : Prop := ∀ w ∈ S.sequences, ∀ p ∈ timedSteps w, 0 < p.2

end Jajapy
