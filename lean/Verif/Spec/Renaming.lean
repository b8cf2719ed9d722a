import Verif.Spec.Models
import Verif.Spec.MDP
import Verif.Spec.CTMC
import Verif.Model.GoHMM

/-!
Specification vocabulary: the same model with other numbers for its states, other names for its labels, other units.
-/

namespace Jajapy

namespace Spec

/-- Both calls raise the same exception, or both return, and then their results are related. -/
def SameOutcome {A B : Type} (R : A → B → Prop) : Py A → Py B → Prop
  | .ok a, .ok b => R a b
  | .error e, .error e' => e = e'
  | _, _ => False

/-- The training set with each symbol replaced by its image. -/
def renameSet {O O' : Type} (f : O → O') (S : TSet O) : TSet O' := { S with sequences := S.sequences.map (List.map f) }

/-- The symbol of a timed trace with another name for the label and the waiting time in another unit. -/
def renameSym {L L' : Type} (f : L → L') (a : ℝ) : Sym L → Sym L'
  | .obs o => .obs (f o)
  | .time t => .time (a * t)

end Spec

variable {K L L' : Type} {n : ℕ}

/-- State `s` of `M'` is state `σ s` of `M`, and label `o` of `M` is called `f o` in `M'`. -/
structure MC.Renamed (σ : Equiv.Perm (Fin n)) (f : L → L') (M : MC K L n) (M' : MC K L' n) : Prop where
  matrix : ∀ s s', M'.matrix s s' = M.matrix (σ s) (σ s')
  labelling : ∀ s, M'.labelling s = f (M.labelling (σ s))
  initial : ∀ s, M'.initialState s = M.initialState (σ s)

/-- State `s` of `M'` is state `σ s` of `M`, and observation `o` of `M` is called `f o` in `M'`; the alphabets contain the same
observations, in any order. -/
structure HMM.Renamed [Field K] [DecidableEq L] [DecidableEq L'] (σ : Equiv.Perm (Fin n)) (f : L → L') (M : HMM K L n) (M' : HMM K L' n) :
    Prop where
  matrix : ∀ s s', M'.matrix s s' = M.matrix (σ s) (σ s')
  alphabet : M'.alphabet.Perm (M.alphabet.map f)
  emit : ∀ s o, M'.emit s (f o) = M.emit (σ s) o
  initial : ∀ s, M'.initialState s = M.initialState (σ s)

/-- State `s` of `M'` is state `σ s` of `M`, and label or action `o` of `M` is called `f o` in `M'`; the lists of actions contain the
same actions, in any order. -/
structure MDP.Renamed [Field K] [DecidableEq L] [DecidableEq L'] (σ : Equiv.Perm (Fin n)) (f : L → L') (M : MDP K L n) (M' : MDP K L' n) :
    Prop where
  actions : M'.actions.Perm (M.actions.map f)
  prob : ∀ s x s', M'.prob s (f x) s' = M.prob (σ s) x (σ s')
  labelling : ∀ s, M'.labelling s = f (M.labelling (σ s))
  initial : ∀ s, M'.initialState s = M.initialState (σ s)

/-- State `s` of `M'` is state `σ s` of `M`, label `o` of `M` is called `f o` in `M'`, and one unit of time of `M` is `a` units of
time of `M'`. -/
structure CTMC.Renamed [Field K] (σ : Equiv.Perm (Fin n)) (f : L → L') (a : K) (M : CTMC K L n) (M' : CTMC K L' n) : Prop where
  matrix : ∀ s s', M'.matrix s s' = M.matrix (σ s) (σ s') / a
  labelling : ∀ s, M'.labelling s = f (M.labelling (σ s))
  initial : ∀ s, M'.initialState s = M.initialState (σ s)

/-- State `s` of `M'` is state `σ s` of `M`, and the value `x` of entry `i` of an observation of `M` is the value `a i * x + b i` in
`M'`. -/
structure GoHMM.Renamed {d : ℕ} (σ : Equiv.Perm (Fin n)) (a b : Fin d → ℝ) (M M' : GoHMM n d) : Prop where
  matrix : ∀ s s', M'.matrix s s' = M.matrix (σ s) (σ s')
  mu : ∀ s i, M'.mu s i = a i * M.mu (σ s) i + b i
  sigma : ∀ s i, M'.sigma s i = |a i| * M.sigma (σ s) i
  initial : ∀ s, M'.initialState s = M.initialState (σ s)

end Jajapy
