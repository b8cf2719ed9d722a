import Verif.Model.CTMC
import Verif.Spec.Models

/-!
Specification vocabulary for continuous-time Markov chains: timed traces, their density, the embedded chain.
-/

namespace Jajapy

open Finset Spec

namespace Spec
variable {L : Type}

/-- The observations of a timed trace. -/
def observations (w : List (Sym L)) : List L :=
  w.filterMap (fun x => match x with | .obs o => some o | .time _ => none)

/-- The waiting times of a timed trace. -/
def waits (w : List (Sym L)) : List ℝ :=
  w.filterMap (fun x => match x with | .obs _ => none | .time t => some t)

/-- A timed trace: observations at the even positions, times at the odd positions, starting and ending with an
observation. -/
def IsTimed (w : List (Sym L)) : Prop :=
  w.length % 2 = 1 ∧ ∀ (k : ℕ) (h : k < w.length), k % 2 = 0 ↔ ∃ o, w[k] = Sym.obs o

/-- Its steps: each observation but the last one with the time spent before the next one. -/
def timedSteps (w : List (Sym L)) : List (L × ℝ) := (observations w).zip (waits w)

end Spec

namespace CTMC
variable {K L : Type} {n : ℕ} [Field K]

/-- Rates and initial probabilities are not negative. -/
def Valid [LinearOrder K] (M : CTMC K L n) : Prop := (∀ s, 0 ≤ M.initialState s) ∧ ∀ s s', 0 ≤ M.matrix s s'

/-- The density of leaving `s` for `s'` after the time `p.2` while `p.1` is observed. -/
noncomputable def rateStep [DecidableEq L] (M : CTMC ℝ L n) (s s' : Fin n) (p : L × ℝ) : ℝ :=
  if M.labelling s = p.1 then M.matrix s s' * Real.exp (-(∑ j, M.matrix s j) * p.2) else 0

/-- The indicator of the states that carry the last observation of the trace. -/
noncomputable def lastMask [DecidableEq L] (M : CTMC ℝ L n) (w : List (Sym L)) (s : Fin n) : ℝ :=
  if (observations w).getLast? = some (M.labelling s) then 1 else 0

/-- The density of a timed trace: the sum over all the state paths. -/
noncomputable def density [DecidableEq L] (M : CTMC ℝ L n) (w : List (Sym L)) : ℝ :=
  totalWeight M.initialState M.rateStep (M.lastMask w) (timedSteps w)

/-- The embedded Markov chain: from `s` the race is won by `s'` with probability rate/(sum of the rates). -/
def embedded (M : CTMC K L n) : MC K L n where
  matrix := fun s s' => M.matrix s s' / ∑ j, M.matrix s j
  labelling := M.labelling
  initialState := M.initialState

end CTMC
end Jajapy
