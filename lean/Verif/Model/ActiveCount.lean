import Verif.Model.Active
import Verif.Model.BW

/-!
Model of the number of iterations that `Active_BW_MDP.fit` reports (`learning_rounds`; `jajapy/mdp/Active_BW_MDP.py`, lines 205-268): the loop of Model/Active.lean
with the variable `counter`.
-/

namespace Jajapy.Active

variable {K L : Type} {n : ℕ} [Field K] [LinearOrder K] [DecidableEq L]

omit [LinearOrder K] [DecidableEq L] [Field K] in
/-- `_, info = super().fit(S, initial_model=…, return_data=True)` for the model with the address `h`: the objects, the address of `self.h`, and
`info['learning_rounds']`. `train` gives the new value of the model and the number of iterations. -/
def superFitC (train : TSet L → MDP K L n → Py (MDP K L n × ℕ)) (S : TSet L) (models : List (MDP K L n)) (h : ℕ) :
    Py (List (MDP K L n) × ℕ × ℕ) :=
  match models[h]? with
  | none => .error .indexError
  | some M => do
    let r ← train S M
    return (models.set h r.1, h, r.2)

/-- Active_BW_MDP.py:224-244, one round of the loop; `counter` is the variable of this name before the round. -/
def roundC [DecidableEq K] (train : TSet L → MDP K L n → Py (MDP K L n × ℕ)) (sample : MDP K L n → TSet L → Py (TSet L)) (lr : Rate K)
    (W : Learning K L n) (counter : ℕ) : Py (Learning K L n × ℕ) :=
  match W.models[W.h]? with
  | none => .error .indexError
  | some M => do
    let traces ← sample M W.total
    let total ← W.total.addSet traces
    match lr with
    | .const x =>
      if x = 0 then
        let q ← superFitC train total W.models W.h
        return (⟨q.1, q.2.1, total⟩, counter + q.2.2)
      else
        let q ← superFitC train traces W.models W.h
        let models ← mergeObjects x q.1 q.2.1 W.h
        return (⟨models, q.2.1, total⟩, counter + q.2.2)
    | .dynamic =>
      let q ← superFitC train traces W.models W.h
      let models ← mergeObjects ((traces.times.sum : K) / ((total.times.sum : K) - (traces.times.sum : K))) q.1 q.2.1 W.h
      return (⟨models, q.2.1, total⟩, counter + q.2.2)

/-- Active_BW_MDP.py:222-246: the loop. -/
def roundsC [DecidableEq K] (train : TSet L → MDP K L n → Py (MDP K L n × ℕ)) (lr : Rate K) :
    List (MDP K L n → TSet L → Py (TSet L)) → Learning K L n → ℕ → Py (Learning K L n × ℕ)
  | [], W, counter => .ok (W, counter)
  | sample :: rest, W, counter => do
    let r ← roundC train sample lr W counter
    roundsC train lr rest r.1 r.2

/-- Active_BW_MDP.py:205-246, 263: the objects at the end and the value of `counter`, which is returned as `learning_rounds`. The simplifications are those of
`Active.fit`. -/
def fitC [DecidableEq K] (train0 train : TSet L → MDP K L n → Py (MDP K L n × ℕ)) (lr : Rate K)
    (samples : List (MDP K L n → TSet L → Py (TSet L))) (W : Learning K L n) : Py (Learning K L n × ℕ) := do
  let q ← superFitC train0 W.total W.models W.h
  roundsC train lr samples ⟨q.1, q.2.1, W.total⟩ (0 + q.2.2)

/-- Baum-Welch with `return_data=True` as the training: the model and `learning_rounds` (BW.py:321-323). -/
noncomputable def trainC (processes : ℕ) (epsilon : ℝ) (maxIt : ℕ) (S : TSet L) (M : MDP ℝ L n) : Py (MDP ℝ L n × ℕ) := do
  let r ← BW.fitData (BW.stepMDP processes S) epsilon maxIt M
  return (r.1, r.2.1)

open Classical in
/-- `Active_BW_MDP.fit(traces, lr, …, max_it=maxIt0, epsilon=epsilon, processes=processes, return_data=True)`: the trainings of the rounds do not get `max_it`;
`maxIt` stands for their bound (infinite in the code). -/
noncomputable def fitRounds (processes : ℕ) (epsilon : ℝ) (maxIt0 maxIt : ℕ) (lr : Rate ℝ) (samples : List (MDP ℝ L n → TSet L → Py (TSet L)))
    (M : MDP ℝ L n) (S : TSet L) : Py (Learning ℝ L n × ℕ) :=
  fitC (trainC processes epsilon maxIt0) (trainC processes epsilon maxIt) lr samples ⟨[M], 0, S⟩

end Jajapy.Active
