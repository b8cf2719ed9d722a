import Verif.Spec.Models
import Verif.Spec.MDP
import Verif.Spec.CTMC

/-!
Specification vocabulary for fully observed models, those whose states have pairwise different labels: what a training set
says about each transition, by counting.
-/

namespace Jajapy.Spec

variable {L : Type} [DecidableEq L]

/-- How often the training set goes from label `x` to label `y`: over its traces, multiplicity times the number of
positions where `x` is immediately followed by `y`. -/
def moves (S : TSet L) (x y : L) : ℕ :=
  ((S.sequences.zip S.times).map (fun p => p.2 * (p.1.zip p.1.tail).count (x, y))).sum

/-- How often the training set leaves label `x`: the occurrences of `x` that are not at the end of a trace. -/
def leaves (S : TSet L) (x : L) : ℕ :=
  ((S.sequences.zip S.times).map (fun p => p.2 * p.1.dropLast.count x)).sum

/-- How many traces of the training set end in label `x`. -/
def ends (S : TSet L) (x : L) : ℕ :=
  ((S.sequences.zip S.times).map (fun p => if p.1.getLast? = some x then p.2 else 0)).sum

/-- How often the training set, in label `o`, does the action `a` and arrives in label `o'` (a trace is
`[o0, a0, o1, a1, …]`). -/
def mdpMoves (S : TSet L) (o a o' : L) : ℕ :=
  ((S.sequences.zip S.times).map (fun p => p.2 * (List.range (p.1.length / 2)).countP
    (fun k => p.1[2 * k]? = some o ∧ p.1[2 * k + 1]? = some a ∧ p.1[2 * k + 2]? = some o'))).sum

/-- How often the training set does the action `a` in label `o`. -/
def mdpTries (S : TSet L) (o a : L) : ℕ :=
  ((S.sequences.zip S.times).map (fun p => p.2 * (List.range (p.1.length / 2)).countP
    (fun k => p.1[2 * k]? = some o ∧ p.1[2 * k + 1]? = some a))).sum

/-- How often the timed training set jumps from label `x` to label `y`. -/
def jumpCount (S : TSet (Sym L)) (x y : L) : ℕ :=
  ((S.sequences.zip S.times).map (fun p => p.2 * ((observations p.1).zip (observations p.1).tail).count (x, y))).sum

/-- The total time that the training set spends in label `x`. -/
noncomputable def totalTime (S : TSet (Sym L)) (x : L) : ℝ :=
  ((S.sequences.zip S.times).map (fun p => p.2 * ((timedSteps p.1).map (fun q => if q.1 = x then q.2 else 0)).sum)).sum

end Jajapy.Spec

namespace Jajapy.MC

open Spec

variable {K L : Type} {n : ℕ} [Field K] [DecidableEq L]

/-- The chain of the observed frequencies: the probability of going from `s` to `s'` is the proportion of the departures
from `s` that go to `s'`. A state that the training set never leaves keeps its row. -/
def frequencies (M : MC K L n) (S : TSet L) : MC K L n :=
  { M with matrix := fun s s' =>
      if leaves S (M.labelling s) = 0 then M.matrix s s'
      else moves S (M.labelling s) (M.labelling s') / leaves S (M.labelling s) }

end Jajapy.MC

namespace Jajapy

open Spec

variable {L : Type} {n : ℕ} [DecidableEq L]

/-- The MDP of the observed frequencies: the probability of going from `s` to `s'` with an action is the proportion of
the uses of this action in `s` that arrive in `s'`. The row of an action that is never used in `s` is kept. -/
noncomputable def MDP.frequencies (M : MDP ℝ L n) (S : TSet L) : MDP ℝ L n :=
  { M with matrix := fun s i s' =>
      if mdpTries S (M.labelling s) M.actions[i] = 0 then M.matrix s i s'
      else mdpMoves S (M.labelling s) M.actions[i] (M.labelling s') / mdpTries S (M.labelling s) M.actions[i] }

/-- The CTMC of the observed rates: number of jumps divided by the time spent in the source. The rates of a state in
which no time is spent are kept. -/
noncomputable def CTMC.frequencies (M : CTMC ℝ L n) (S : TSet (Sym L)) : CTMC ℝ L n :=
  { M with matrix := fun s s' =>
      if totalTime S (M.labelling s) = 0 then M.matrix s s'
      else jumpCount S (M.labelling s) (M.labelling s') / totalTime S (M.labelling s) }

end Jajapy
