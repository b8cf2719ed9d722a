import Verif.Model.MC
import Verif.Spec.Paths
import Verif.Spec.Counts

/-!
Specification vocabulary for the models: stochasticity, trace probabilities, expected counts over a training set.
-/

namespace Jajapy

open Finset Spec

namespace MC
variable {K L : Type} {n : ℕ} [Field K]

/-- The initial distribution and every row of the matrix are probability distributions. -/
def Stochastic [LinearOrder K] (M : MC K L n) : Prop :=
  (∀ s, 0 ≤ M.initialState s) ∧ ∑ s, M.initialState s = 1 ∧
  (∀ s s', 0 ≤ M.matrix s s') ∧ ∀ s, ∑ s', M.matrix s s' = 1

/-- The probability of a trace: each state emits its label. -/
def lik [DecidableEq L] (M : MC K L n) : List L → K :=
  listProb M.initialState M.matrix (fun s o => if M.labelling s = o then 1 else 0)

/-- The probability of moving from `s` to `s'` while observing `o`. -/
def step [DecidableEq L] (M : MC K L n) (s s' : Fin n) (o : L) : K :=
  (if M.labelling s = o then 1 else 0) * M.matrix s s'

end MC

namespace HMM
variable {K O : Type} {n : ℕ} [Field K]

/-- The initial distribution and every row of the two matrices are probability distributions. -/
def Stochastic [LinearOrder K] (M : HMM K O n) : Prop :=
  (∀ s, 0 ≤ M.initialState s) ∧ ∑ s, M.initialState s = 1 ∧
  (∀ s s', 0 ≤ M.matrix s s') ∧ (∀ s, ∑ s', M.matrix s s' = 1) ∧
  (∀ s i, 0 ≤ M.output s i) ∧ (∀ s, ∑ i, M.output s i = 1)

/-- The probability of emitting `o` in `s`: the sum of the entries of the row for the positions of `o` in the alphabet
(there is at most one position when the alphabet has no duplicate). -/
def emit [DecidableEq O] (M : HMM K O n) (s : Fin n) (o : O) : K :=
  ∑ i : Fin M.alphabet.length, if M.alphabet[i] = o then M.output s i else 0

/-- The probability of a trace. -/
def lik [DecidableEq O] (M : HMM K O n) : List O → K := listProb M.initialState M.matrix M.emit

/-- The probability of moving from `s` to `s'` while observing `o`. -/
def step [DecidableEq O] (M : HMM K O n) (s s' : Fin n) (o : O) : K := M.emit s o * M.matrix s s'

end HMM

namespace Spec
variable {O X : Type}

/-- The sum, over the traces `w` of the training set that have `P w ≠ 0`, of `mult(w) * g w`. -/
def overSet {K : Type} [Field K] [DecidableEq K] (S : TSet O) (P : List O → K) (g : List O → K) : K :=
  (((S.sequences.zip S.times).filter (fun x => P x.1 ≠ 0)).map (fun x => (x.2 : K) * g x.1)).sum

end Spec
end Jajapy
