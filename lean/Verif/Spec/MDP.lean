import Verif.Model.MDP
import Verif.Spec.Models

/-!
Specification vocabulary for Markov decision processes.
-/

namespace Jajapy

open Finset Spec

namespace Spec
variable {K L : Type} [CommSemiring K] [DecidableEq L] {n : ℕ}

/-- The probability of observing `obs 0, …, obs t` when the actions are `act 0, …, act (t-1)`: the sum, over all paths of
states, of the probability of the path, for the paths whose labels are the observations. `a s x s'` is the probability of
going from `s` to `s'` with action `x`. -/
def mdpProb (init : Fin n → K) (a : Fin n → L → Fin n → K) (lab : Fin n → L) {t : ℕ} (obs : Fin (t+1) → L)
    (act : Fin t → L) : K :=
  ∑ p : Fin (t+1) → Fin n, init (p 0) * (∏ k : Fin t, a (p k.castSucc) (act k) (p k.succ)) *
    ∏ k : Fin (t+1), if lab (p k) = obs k then 1 else 0

/-- The trace with observations `obs` and actions `act`: `[obs 0, act 0, obs 1, …, obs t]`. -/
def interleave : {t : ℕ} → (Fin (t+1) → L) → (Fin t → L) → List L
  | 0, obs, _ => [obs 0]
  | _ + 1, obs, act => obs 0 :: act 0 :: interleave (fun k => obs k.succ) (fun k => act k.succ)

end Spec

namespace Spec

/-- The steps (observation, action) of a trace `[o0, a0, o1, a1, …]`. -/
def mdpSteps {L : Type} (w : List L) : List (L × L) :=
  List.ofFn (fun k : Fin (w.length / 2) => (w[2 * k.1]'(by omega), w[2 * k.1 + 1]'(by omega)))

/-- The indicator of the states that carry the last label of the trace. -/
def mdpLast {K L : Type} [Field K] [DecidableEq L] {n : ℕ} (lab : Fin n → L) (w : List L) (s : Fin n) : K :=
  if w.getLast? = some (lab s) then 1 else 0

end Spec

namespace MDP
variable {K L : Type} {n : ℕ} [Field K] [DecidableEq L]

/-- The probability of going from `s` to `s'` with the action `x` (the sum over the positions of `x` in the list of
actions: there is at most one when the list has no duplicate). -/
def prob (M : MDP K L n) (s : Fin n) (x : L) (s' : Fin n) : K :=
  ∑ i : Fin M.actions.length, if M.actions[i] = x then M.matrix s i s' else 0

/-- The probability of a trace `[o0, a0, o1, …, ot]` given its actions: observations are at the even positions, actions
at the odd ones. Lists of even length are not traces of an MDP. -/
def lik (M : MDP K L n) (w : List L) : K :=
  if h : w.length % 2 = 1 then
    mdpProb M.initialState M.prob M.labelling (t := w.length / 2)
      (fun k => w[2 * k.1]'(by omega)) (fun k => w[2 * k.1 + 1]'(by omega))
  else 0

/-- The probability of moving from `s` to `s'` while observing the label `o` and doing the action `x`, given the
action. -/
def step (M : MDP K L n) (s s' : Fin n) (p : L × L) : K :=
  (if M.labelling s = p.1 then 1 else 0) * M.prob s p.2 s'

/-- The initial distribution is a distribution, and each row (state, action) is a distribution or only zeros (the action
is not available in the state). -/
def Stochastic [LinearOrder K] (M : MDP K L n) : Prop :=
  (∀ s, 0 ≤ M.initialState s) ∧ ∑ s, M.initialState s = 1 ∧
  (∀ s i s', 0 ≤ M.matrix s i s') ∧ ∀ s i, ∑ s', M.matrix s i s' = 1 ∨ ∑ s', M.matrix s i s' = 0

/-- The action `x` is possible in the state `s`. -/
def Allowed [LinearOrder K] (M : MDP K L n) (s : Fin n) (x : L) : Prop := ∃ s', 0 < M.prob s x s'

end MDP

/-! ### Executions under a scheduler -/

section executions
variable {K L σ : Type} {n : ℕ} [Field K] [DecidableEq L] [LinearOrder K]

/-- Asking a scheduler in the state `st` until it proposes an action with the property `allowed`: every proposal before
the last one is refused. Each proposal uses a random draw in `[0,1)`. -/
inductive Spec.Asks (sch : Sched K L σ) (allowed : L → Prop) : σ → L → σ → Prop
  | accept {st x st'} (r : K) : 0 ≤ r → r < 1 → sch.getAction st r = .ok (x, st') → allowed x → Asks sch allowed st x st'
  | reject {st y st1 x st'} (r : K) : 0 ≤ r → r < 1 → sch.getAction st r = .ok (y, st1) → ¬ allowed y → Asks sch allowed st1 x st' →
      Asks sch allowed st x st'

/-- `Execution M sch s st w st'`: starting from the state `s` of the model and the state `st` of the scheduler, the model
can produce the trace `w` and leave the scheduler in the state `st'`. At each step the scheduler is asked until it proposes
an action possible in the current state, a successor of positive probability is taken, and the scheduler receives the label
of the state that is left. -/
inductive Spec.Execution (M : MDP K L n) (sch : Sched K L σ) : Fin n → σ → List L → σ → Prop
  | stop (s : Fin n) (st : σ) : Execution M sch s st [M.labelling s] st
  | step {s st x st1 s' st2 w st3} : Asks sch (M.Allowed s) st x st1 → 0 < M.prob s x s' →
      sch.addObservation st1 (M.labelling s) = .ok st2 → Execution M sch s' st2 w st3 →
      Execution M sch s st (M.labelling s :: x :: w) st3

/-- `Follows F s obs s'`: reading the observations `obs` in the transition table leads from `s` to `s'` (an observation
that is not in the table has no effect). -/
inductive Spec.Follows (F : FMScheduler K L) : ℕ → List L → ℕ → Prop
  | nil (s : ℕ) : Follows F s [] s
  | known {s o row s' obs s''} : F.transitionMatrix o = some row → row[s]? = some s' → Follows F s' obs s'' →
      Follows F s (o :: obs) s''
  | unknown {s o obs s''} : F.transitionMatrix o = none → Follows F s obs s'' → Follows F s (o :: obs) s''

end executions
end Jajapy
