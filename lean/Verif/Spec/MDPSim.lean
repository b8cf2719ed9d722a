import Verif.Spec.MDP
import Verif.Spec.Counts
import Verif.Spec.Draws

/-!
Specification vocabulary for the simulation of MDPs: randomised schedulers with a memory, and the probability of a trace under
such a scheduler.
-/

namespace Jajapy

open Finset Spec

namespace Spec

/-- A randomised scheduler: its memory at the start, the probability with which it proposes an action, and what it remembers
after an observation. -/
structure Policy (σ L : Type) where
  start : σ
  propose : σ → L → ℝ
  update : σ → L → σ

/-- The steps of a trace with the memory of the scheduler before each of them. -/
def Policy.steps {σ L : Type} (P : Policy σ L) : σ → List (L × L) → List (σ × L × L)
  | _, [] => []
  | m, (o, x) :: ps => (m, o, x) :: P.steps (P.update m o) ps

/-- The probability that the scheduler proposes the actions of the trace, given the observations. -/
def Policy.actionsProb {σ L : Type} (P : Policy σ L) (w : List L) : ℝ :=
  ((P.steps P.start (mdpSteps w)).map (fun q => P.propose q.1 q.2.2)).prod

/-- The policy of a uniform scheduler: no memory, every element of the list has the same probability. -/
noncomputable def uniformPolicy {L : Type} [DecidableEq L] (actions : List L) : Policy Unit L where
  start := ()
  propose := fun _ x => actions.count x / actions.length
  update := fun _ _ => ()

/-- The policy of a finite-memory scheduler given by its two tables. -/
noncomputable def fmPolicy {L : Type} [DecidableEq L] (F : FMScheduler ℝ L) : Policy ℕ L where
  start := 0
  propose := fun s x => match F.actionMatrix s with
    | none => 0
    | some (probs, acts) => ∑ i : Fin probs.length, if acts[i.1]? = some x then probs[i] else 0
  update := fun s o => match F.transitionMatrix o with
    | none => s
    | some row => row.getD s 0

/-- The tables of a finite-memory scheduler with the memory states `0, …, N-1`: in each of them a distribution on a list of
actions; every row of the transition table leads from each of them to one of them. -/
def FMValid {L : Type} (F : FMScheduler ℝ L) (N : ℕ) : Prop :=
  0 < N ∧
  (∀ s < N, ∃ probs acts, F.actionMatrix s = some (probs, acts) ∧ probs.length = acts.length ∧ (∀ p ∈ probs, 0 ≤ p) ∧ probs.sum = 1) ∧
  ∀ o row, F.transitionMatrix o = some row → ∀ s < N, ∃ s' < N, row[s]? = some s'

end Spec

namespace MDP
variable {σ L : Type} {n : ℕ} [DecidableEq L]

open Classical in
/-- The probability that a proposal is an action possible in the state `s`. -/
noncomputable def acceptProb (M : MDP ℝ L n) (P : Policy σ L) (s : Fin n) (m : σ) : ℝ :=
  ∑ x ∈ M.actions.toFinset with M.Allowed s x, P.propose m x

open Classical in
/-- The probability that the action done in the state `s` is `x`: the scheduler is asked again as long as it proposes
impossible actions. -/
noncomputable def choiceProb (M : MDP ℝ L n) (P : Policy σ L) (s : Fin n) (m : σ) (x : L) : ℝ :=
  if M.Allowed s x then P.propose m x / M.acceptProb P s m else 0

/-- The probability of a trace under a scheduler: the sum over the paths of states of the product of the probabilities of the
actions and of the moves. -/
noncomputable def runProb (M : MDP ℝ L n) (P : Policy σ L) (w : List L) : ℝ :=
  totalWeight M.initialState
    (fun s s' (q : σ × L × L) => (if M.labelling s = q.2.1 then 1 else 0) * (M.choiceProb P s q.1 q.2.2 * M.prob s q.2.2 s'))
    (mdpLast M.labelling w) (P.steps P.start (mdpSteps w))

/-- The trace is returned by `run`, after some number of draws. -/
def Returns (M : MDP ℝ L n) (sch : Sched ℝ L σ) (steps : ℕ) (st : σ) (w : List L) (d : ℕ → ℝ) : Prop :=
  ∃ N st', M.run sch steps (List.ofFn (fun i : Fin N => d i)) st = some (.ok (w, st'))

end MDP
end Jajapy
