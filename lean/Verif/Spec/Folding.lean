import Verif.Spec.Models
import Verif.Spec.MDP
import Verif.Spec.CTMC
import Verif.Model.GoHMM

/-!
Specification vocabulary (C109): a model whose states can be put together into the states of another model.
-/

set_option autoImplicit false

namespace Jajapy

open Finset

variable {K L : Type} {m n : ℕ}

namespace Spec

/-- The sum of the values of the states that go into the state `t`. -/
def gather [Field K] (f : Fin m → Fin n) (v : Fin m → K) (t : Fin n) : K := ∑ s ∈ univ.filter (fun s => f s = t), v s

end Spec

open Spec

/-- Every state `s` of `M` behaves like the state `f s` of `M'`: it has its label, and goes to the states that behave like `t` with the probability
with which `f s` goes to `t`. (If `f` is injective, `M` is a part of `M'` that is never left.) -/
structure MC.Folds [Field K] (f : Fin m → Fin n) (M : MC K L m) (M' : MC K L n) : Prop where
  labelling : ∀ s, M'.labelling (f s) = M.labelling s
  matrix : ∀ s t, M'.matrix (f s) t = gather f (M.matrix s) t
  initial : ∀ t, M'.initialState t = gather f M.initialState t

/-- The same for hidden Markov models: `s` emits what `f s` emits. -/
structure HMM.Folds [Field K] [DecidableEq L] (f : Fin m → Fin n) (M : HMM K L m) (M' : HMM K L n) : Prop where
  alphabet : M'.alphabet.Perm M.alphabet
  emit : ∀ s o, M'.emit (f s) o = M.emit s o
  matrix : ∀ s t, M'.matrix (f s) t = gather f (M.matrix s) t
  initial : ∀ t, M'.initialState t = gather f M.initialState t

/-- The same for MDPs, for every action. -/
structure MDP.Folds [Field K] [DecidableEq L] (f : Fin m → Fin n) (M : MDP K L m) (M' : MDP K L n) : Prop where
  actions : M'.actions.Perm M.actions
  labelling : ∀ s, M'.labelling (f s) = M.labelling s
  prob : ∀ s x t, M'.prob (f s) x t = gather f (M.prob s x) t
  initial : ∀ t, M'.initialState t = gather f M.initialState t

/-- The same for CTMCs, with rates. -/
structure CTMC.Folds [Field K] (f : Fin m → Fin n) (M : CTMC K L m) (M' : CTMC K L n) : Prop where
  labelling : ∀ s, M'.labelling (f s) = M.labelling s
  matrix : ∀ s t, M'.matrix (f s) t = gather f (M.matrix s) t
  initial : ∀ t, M'.initialState t = gather f M.initialState t

/-- The same for GoHMMs. -/
structure GoHMM.Folds {d : ℕ} (f : Fin m → Fin n) (M : GoHMM m d) (M' : GoHMM n d) : Prop where
  mu : ∀ s, M'.mu (f s) = M.mu s
  sigma : ∀ s, M'.sigma (f s) = M.sigma s
  matrix : ∀ s t, M'.matrix (f s) t = gather f (M.matrix s) t
  initial : ∀ t, M'.initialState t = gather f M.initialState t

end Jajapy
