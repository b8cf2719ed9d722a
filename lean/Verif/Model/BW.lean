import Mathlib.Algebra.Order.Field.Basic
import Verif.Model.MC

/-!
Model of the Baum-Welch learner (`jajapy/base/BW.py`): forward and backward tables, expected counts, the updates of an
MC and of an HMM, and the learning loop.

Simplifications: numbers are elements of a field (no rounding); the tables are lists of rows, row `k` being column `k` of
the transposed array returned by the code.
-/

namespace Jajapy

open Finset

namespace BW

variable {K O : Type} {n : ℕ} [Field K]

/-- One step of the forward recursion (BW.py:1559-1562). -/
def fwd (tau : Fin n → Fin n → O → K) (v : Fin n → K) (o : O) : Fin n → K := fun s => ∑ ss, v ss * tau ss s o

/-- One step of the backward recursion (BW.py:1632-1635). -/
def bwd (tau : Fin n → Fin n → O → K) (v : Fin n → K) (o : O) : Fin n → K := fun s => ∑ ss, v ss * tau s ss o

/-- BW.py:1533-1563 `_computeAlphas`: rows 0 to T of the table, starting from `initial_state`. -/
def alphas (tau : Fin n → Fin n → O → K) (v : Fin n → K) : List O → List (Fin n → K)
  | [] => [v]
  | o :: os => v :: alphas tau (fwd tau v o) os

/-- BW.py:1606-1636 `_computeBetas`: rows 0 to T of the table, row T being `f`. -/
def betas (tau : Fin n → Fin n → O → K) (f : Fin n → K) : List O → List (Fin n → K)
  | [] => [f]
  | o :: os => bwd tau ((betas tau f os).headD f) o :: betas tau f os

/-- The sums over the steps of the trace that give all the denominators, and the numerators of the emissions:
`Σ_k alpha[s][k]*beta[s][k]*φ(o_k)*times/proba_seq`
(BW.py:336, 455-456, 718, 720, 763, 771-774, 817, 822-823). `c` is `times/proba_seq`. -/
def visits (φ : O → K) (c : K) (al be : List (Fin n → K)) (os : List O) (s : Fin n) : K :=
  (((al.dropLast.zip be.dropLast).zip os).map (fun x => x.1.1 s * x.1.2 s * φ x.2 * c)).sum

/-- The sums over the steps of the trace that give the numerators of the transitions:
`Σ_k alpha[s][k]*tau(s,ss,o_k)*beta[ss][k+1]*φ(o_k)*times/proba_seq` (BW.py:340-341, 458-462, 725-730, 769-770, 824-826). -/
def uses (tau : Fin n → Fin n → O → K) (φ : O → K) (c : K) (al be : List (Fin n → K)) (os : List O) (s ss : Fin n) : K :=
  (((al.dropLast.zip be.tail).zip os).map (fun x => x.1.1 s * tau s ss x.2 * x.1.2 ss * φ x.2 * c)).sum

/-- `alpha_matrix.T[-1].sum()` (BW.py:332). -/
def lastSum (al : List (Fin n → K)) : K := ∑ s, (al.getLast?.getD (fun _ => 0)) s

/-- BW.py:1641-1649 `_runProcesses`, with what `_update` does first with its result. With several processes the `False`
are dropped; with one process they are kept and indexing them in `_update` raises TypeError. The update functions also
raise `empty` when no result is left: TypeError (`len` of a numpy scalar) for MC, HMM, CTMC and GoHMM, an explicit
ValueError for MDP (BW.py:468-471). -/
def collect {R : Type} (empty : Err) (processes : ℕ) (results : List (Option R)) : Py (List R) :=
  if 1 < processes then
    match results.filterMap id with
    | [] => .error empty
    | r => .ok r
  else if results.any Option.isNone then .error .typeError
  else match results.filterMap id with
    | [] => .error empty
    | r => .ok r

/-! ### MC -/

/-- What `_processWork_MC` returns: `[den, num, proba_seq, times]`. -/
structure WorkMC (K : Type) (n : ℕ) where
  den : Fin n → K
  num : Fin n → Fin n → K
  proba : K
  times : ℕ

/-- BW.py:329-343 `_processWork_MC`; `none` is `False`. -/
def processWorkMC [DecidableEq K] [DecidableEq O] (M : MC K O n) (seq : List O) (times : ℕ) : Option (WorkMC K n) :=
  let al := alphas M.tau M.initialState seq
  let be := betas M.tau (fun _ => 1) seq
  let p := lastSum al
  if p = 0 then none
  else some { den := visits (fun _ => 1) (times / p) al be seq,
              num := uses M.tau (fun _ => 1) (times / p) al be seq,
              proba := p, times := times }

/-- BW.py:345-360 `_update_MC`: the new matrix. -/
def updateMC [DecidableEq K] (M : MC K O n) (temp : List (WorkMC K n)) : MC K O n :=
  let den := fun s => (temp.map (fun w => w.den s)).sum
  let num := fun s ss => (temp.map (fun w => w.num s ss)).sum
  { M with matrix := fun s ss => if den s = 0 then M.matrix s ss else num s ss / den s }

/-- BW.py:351: `dot(log(lst_proba),lst_times)`. -/
noncomputable def logLik (l : List (ℝ × ℕ)) : ℝ := (l.map (fun p => Real.log p.1 * p.2)).sum

/-- The results of the workers for the whole training set. -/
def workMC [DecidableEq K] [DecidableEq O] (processes : ℕ) (S : TSet O) (M : MC K O n) : Py (List (WorkMC K n)) :=
  collect .typeError processes ((S.sequences.zip S.times).map (fun p => processWorkMC M p.1 p.2))

/-- One iteration of the learning of an MC (BW.py:294-296): the new hypothesis and `currentloglikelihood`. -/
noncomputable def stepMC [DecidableEq O] (processes : ℕ) (S : TSet O) (M : MC ℝ O n) : Py (MC ℝ O n × ℝ) := do
  let temp ← workMC processes S M
  return (updateMC M temp, logLik (temp.map (fun w => (w.proba, w.times))))

/-! ### HMM -/

/-- What `_processWork_HMM` returns. -/
structure WorkHMM (K : Type) (n m : ℕ) where
  den : Fin n → K
  numA : Fin n → Fin n → K
  numB : Fin n → Fin m → K
  proba : K
  times : ℕ
  numInit : Fin n → K

/-- BW.py:757-779 `_processWork_HMM`. -/
def processWorkHMM [DecidableEq K] [DecidableEq O] (M : HMM K O n) (seq : List O) (times : ℕ) :
    Option (WorkHMM K n M.alphabet.length) :=
  let al := alphas M.tau M.initialState seq
  let be := betas M.tau (fun _ => 1) seq
  let p := lastSum al
  if p = 0 then none
  else some { den := visits (fun _ => 1) (times / p) al be seq,
              numA := uses M.tau (fun _ => 1) (times / p) al be seq,
              numB := fun s i => visits (fun t => if t = M.alphabet[i] then 1 else 0) (times / p) al be seq s,
              proba := p, times := times,
              numInit := fun s => al.headD (fun _ => 0) s * be.headD (fun _ => 0) s * times / p }

/-- BW.py:781-806 `_update_HMM`. -/
def updateHMM [DecidableEq K] (M : HMM K O n) (temp : List (WorkHMM K n M.alphabet.length)) : HMM K O n :=
  let den := fun s => (temp.map (fun w => w.den s)).sum
  let numA := fun s ss => (temp.map (fun w => w.numA s ss)).sum
  let numB := fun s i => (temp.map (fun w => w.numB s i)).sum
  let init := fun s => (temp.map (fun w => w.numInit s)).sum
  { M with
    matrix := fun s ss => if den s = 0 then M.matrix s ss else numA s ss / den s
    output := fun s i => if den s = 0 then M.output s i else numB s i / den s
    initialState := fun s => init s / ∑ s', init s' }

/-- The results of the workers for the whole training set. -/
def workHMM [DecidableEq K] [DecidableEq O] (processes : ℕ) (S : TSet O) (M : HMM K O n) :
    Py (List (WorkHMM K n M.alphabet.length)) :=
  collect .typeError processes ((S.sequences.zip S.times).map (fun p => processWorkHMM M p.1 p.2))

/-- One iteration of the learning of an HMM. -/
noncomputable def stepHMM [DecidableEq O] (processes : ℕ) (S : TSet O) (M : HMM ℝ O n) : Py (HMM ℝ O n × ℝ) := do
  let temp ← workHMM processes S M
  return (updateHMM M temp, logLik (temp.map (fun w => (w.proba, w.times))))

/-! ### The loop -/

/-- What the loop of `_bw` leaves: the hypothesis, `counter`, and `currentloglikelihood` (`none` if never assigned). -/
structure LoopState (H : Type) where
  h : H
  counter : ℕ
  ll : Option ℝ

open Classical in
/-- BW.py:293-305, the loop of `_bw`, with `fuel` iterations left (`max_it - counter`); `ll` is `prevloglikelihood`
(`none` is `-infty`). -/
noncomputable def loop {H : Type} (step : H → Py (H × ℝ)) (epsilon : ℝ) : ℕ → LoopState H → Py (LoopState H)
  | 0, st => .ok st
  | fuel + 1, st => do
    let (h', cur) ← step st.h
    let st' : LoopState H := { h := h', counter := st.counter + 1, ll := some cur }
    match st.ll with
    | some prev => if cur - prev < epsilon then return st' else loop step epsilon fuel st'
    | none => loop step epsilon fuel st'

/-- BW.py:278-325 `_bw` with a finite `max_it`, up to the end of the loop: what `_bw` returns is the field `h`
(output files and conversion to Storm are in Model/Finish.lean; timing is not part of the model). -/
noncomputable def fit {H : Type} (step : H → Py (H × ℝ)) (epsilon : ℝ) (maxIt : ℕ) (h : H) : Py (LoopState H) :=
  loop step epsilon maxIt { h := h, counter := 0, ll := none }

/-- BW.py:321-323: the model and the data returned when `return_data=True`: `learning_rounds` and
`training_set_loglikelihood`. The latter is unbound (UnboundLocalError) when there was no iteration. -/
noncomputable def fitData {H : Type} (step : H → Py (H × ℝ)) (epsilon : ℝ) (maxIt : ℕ) (h : H) : Py (H × ℕ × ℝ) := do
  let st ← fit step epsilon maxIt h
  match st.ll with
  | some ll => return (st.h, st.counter, ll)
  | none => .error .unboundLocalError

end BW
end Jajapy
