import Verif.Model.TSet

/-!
Specification of training sets: the multiplicity of a trace, and well formed sets.
-/

namespace Jajapy.TSet

variable {α : Type} [DecidableEq α]

/-- The number of times the trace `tr` occurs in a set: the sum of the multiplicities stored with `tr`. -/
def mult (S : TSet α) (tr : List α) : ℕ :=
  (((S.sequences.zip S.times).filter (fun p => p.1 = tr)).map (·.2)).sum

/-- Every stored trace has a multiplicity and no trace is stored twice. -/
def WF (S : TSet α) : Prop :=
  S.times.length = S.sequences.length ∧ S.sequences.Nodup

/-- Well formed, and every multiplicity is a positive integer (not a float). -/
def Countable (S : TSet α) : Prop :=
  S.WF ∧ (∀ t ∈ S.times, 1 ≤ t) ∧ S.floatTimes = false

end Jajapy.TSet
