import Verif.Spec.Models
import Verif.Spec.Counts
import Verif.Spec.MDP
import Verif.Spec.CTMC
import Verif.Spec.Renaming

/-!
Specification vocabulary: the same process given as two kinds of model.
-/

set_option autoImplicit false

namespace Jajapy

variable {K L : Type} {n : ℕ} [Field K] [DecidableEq L]

/-- The hidden Markov model `H` is the Markov chain `M`: the same states, each of which emits its own label only. -/
structure MC.IsHMM (M : MC K L n) (H : HMM K L n) : Prop where
  matrix : ∀ s s', H.matrix s s' = M.matrix s s'
  initial : ∀ s, H.initialState s = M.initialState s
  alphabet : H.alphabet.Nodup
  emit : ∀ s o, H.emit s o = if M.labelling s = o then 1 else 0

/-- The MDP `D` is the Markov chain `M`: the same states, and one action, `x`. -/
structure MC.IsMDP (x : L) (M : MC K L n) (D : MDP K L n) : Prop where
  actions : D.actions = [x]
  prob : ∀ s s', D.prob s x s' = M.matrix s s'
  labelling : ∀ s, D.labelling s = M.labelling s
  initial : ∀ s, D.initialState s = M.initialState s

/-- The chain starts in the state `s₀`. -/
def MC.StartsIn (M : MC K L n) (s₀ : Fin n) : Prop := ∀ s, M.initialState s = if s = s₀ then 1 else 0

/-- The probability, given the trace `w`, that the last label of `w` is the one of the state `s`: that the path of `w` ends in `s`. -/
def MC.expEnd (M : MC K L n) (w : List L) (s : Fin n) : K :=
  Spec.weightAt M.initialState M.step (fun _ => 1) w ⟨w.length - 1, by omega⟩ s / Spec.totalWeight M.initialState M.step (fun _ => 1) w

/-- The expected number of traces of the training set that end in `s`. -/
noncomputable def MC.ends (M : MC ℝ L n) (S : TSet L) (s : Fin n) : ℝ := Spec.overSet S M.lik (fun w => M.expEnd w s)

/-- The traces of a chain written as traces of an MDP: the action `x` is written between the labels. -/
def Spec.withAction (x : L) (S : TSet L) : TSet L := { S with sequences := S.sequences.map (List.intersperse x), type := some 1 }

end Jajapy
