import Verif.Model.MDP
import Mathlib.Analysis.SpecialFunctions.Exp

/-!
Model of the class `CTMC` (`jajapy/ctmc/CTMC.py`) and of the part of the Baum-Welch learner for CTMCs
(`jajapy/base/BW.py` lines 489-753).

Simplifications: numbers are elements of a field, or reals where `exp` is used (no rounding). Dividing by an exit rate 0
gives `nan` in the code (numpy) and 0 in the model: the theorems about `tau`, `expected_time` and untimed learning assume
that the exit rates are not 0.
-/

namespace Jajapy

open Finset Tools

/-- The attributes of a CTMC (CTMC.py:45-53, Base_MC.py:27-36) that its methods use. -/
structure CTMC (K L : Type) (n : ℕ) where
  matrix : Fin n → Fin n → K
  labelling : Fin n → L
  initialState : Fin n → K

/-- A symbol of a timed trace: an observation (a `str`) or a waiting time (a `float`). -/
inductive Sym (L : Type)
  | obs (o : L)
  | time (t : ℝ)

noncomputable instance {L : Type} : DecidableEq (Sym L) := Classical.decEq _

namespace CTMC

variable {K L : Type} {n : ℕ} [Field K]

/-- CTMC.py:55-68 `e`. -/
def e (M : CTMC K L n) (s : Fin n) : K := ∑ s', M.matrix s s'

/-- CTMC.py:71-94 `l`. -/
def l [DecidableEq L] (M : CTMC K L n) (s1 s2 : Fin n) (obs : L) : K :=
  if M.labelling s1 ≠ obs then 0 else M.matrix s1 s2

/-- CTMC.py:116-134 `tau`. -/
def tau [DecidableEq L] (M : CTMC K L n) (s1 s2 : Fin n) (obs : L) : K := M.l s1 s2 obs / M.e s1

/-- Base_MC.py:81-84 `b`. -/
def b [DecidableEq L] (M : CTMC K L n) (s : Fin n) (label : L) : K := if M.labelling s = label then 1 else 0

/-- CTMC.py:136-150 `expected_time`. -/
def expectedTime (M : CTMC K L n) (s : Fin n) : K := 1 / M.e s

/-- CTMC.py:96-114 `lkl`. -/
noncomputable def lkl (M : CTMC ℝ L n) (s : Fin n) (t : ℝ) : ℝ :=
  if t < 0 then 0 else M.e s * Real.exp (-(M.e s) * t)

/-- The methods used by the abstract class: the likelihood of untimed traces is inherited (CTMC.py:241-242). -/
def iface [DecidableEq L] (M : CTMC K L n) : Iface K L n := { tau := M.tau, b := M.b, init := M.initialState }

/-- CTMC.py:262-280 `toMC`: the returned chain and the CTMC as it is after the call. `new_matrix` is not a copy: the rows
of `self.matrix` are divided in place, each by its own sum computed just before. (The initial distribution of the chain is
computed from the labels by its constructor, as the one of the CTMC was.) -/
def toMC (M : CTMC K L n) : MC K L n × CTMC K L n :=
  let newMatrix := fun i j => M.matrix i j / M.e i
  ({ matrix := newMatrix, labelling := M.labelling, initialState := M.initialState }, { M with matrix := newMatrix })

/-! ### Simulation -/

/-- CTMC.py:173-178: the waiting times of the transitions out of `state`. `numpy.random.exponential(scale)` is `scale` times a
draw of the standard exponential law; `draws j` is that draw for the transition to `j`. -/
def waitingTimes [LinearOrder K] (M : CTMC K L n) (state : Fin n) (draws : Fin n → K) : List K :=
  List.ofFn (fun j => if M.matrix state j ≤ 0 then 1024 else 1 / M.matrix state j * draws j)

/-- CTMC.py:163-181 `next`: the observation, the next state and the time spent; `min` of an empty list is a ValueError. -/
def next [LinearOrder K] (M : CTMC K L n) (state : Fin n) (draws : Fin n → K) : Py (L × Fin n × K) :=
  match (M.waitingTimes state draws).min? with
  | none => .error .valueError
  | some m =>
    if h : (M.waitingTimes state draws).idxOf m < n then .ok (M.labelling state, ⟨_, h⟩, m) else .error .valueError

/-- CTMC.py:202-214, the loop of `run` with `timed=True` and the final label. -/
noncomputable def runTimedLoop (M : CTMC ℝ L n) : ℕ → (ℕ → Fin n → ℝ) → Fin n → Py (List (Sym L))
  | 0, _, current => .ok [.obs (M.labelling current)]
  | steps + 1, draws, current => do
    let (symbol, nextState, timeSpent) ← M.next current (draws 0)
    let rest ← runTimedLoop M steps (fun k => draws (k+1)) nextState
    return .obs symbol :: .time timeSpent :: rest

/-- CTMC.py:202-214, the loop of `run` with `timed=False` and the final label. -/
def runLoop [LinearOrder K] (M : CTMC K L n) : ℕ → (ℕ → Fin n → K) → Fin n → Py (List L)
  | 0, _, current => .ok [M.labelling current]
  | steps + 1, draws, current => do
    let (symbol, nextState, _) ← M.next current (draws 0)
    let rest ← runLoop M steps (fun k => draws (k+1)) nextState
    return symbol :: rest

/-- CTMC.py:183-215 `run(number_steps, timed=True)`: `r` is the draw that chooses the initial state. -/
noncomputable def runTimed (M : CTMC ℝ L n) (steps : ℕ) (r : ℝ) (draws : ℕ → Fin n → ℝ) : Py (List (Sym L)) := do
  let current ← pick M.initialState r
  M.runTimedLoop steps draws current

/-- CTMC.py:183-215 `run(number_steps)`. -/
def run [LinearOrder K] (M : CTMC K L n) (steps : ℕ) (r : K) (draws : ℕ → Fin n → K) : Py (List L) := do
  let current ← pick M.initialState r
  M.runLoop steps draws current

end CTMC

/-! ### Timed traces -/

/-- The number at a time position; `exp(-e*x)` raises TypeError if `x` is a string. -/
def Sym.val {L : Type} : Sym L → Py ℝ
  | .time t => .ok t
  | .obs _ => .error .typeError

/-- CTMC.py:218-220 and BW.py:697-698: the steps `(obs_seq[k], times_seq[k])` for `k < len(obs_seq)-1`, and `obs_seq[-1]`
(IndexError on an empty trace). -/
def splitTimed {L : Type} (seq : List (Sym L)) : Py (List (Sym L × ℝ) × Sym L) :=
  let obsSeq := TSet.evens seq
  let timesSeq := TSet.odds seq
  match obsSeq.getLast? with
  | none => .error .indexError
  | some last => do
    let times ← (timesSeq.take (obsSeq.length - 1)).mapM Sym.val
    return (obsSeq.dropLast.zip times, last)

namespace CTMC

variable {L : Type} {n : ℕ} [DecidableEq L]

/-- `self.l(ss,s,obs_seq[k])*exp(-self.e(ss)*times_seq[k])` (CTMC.py:226, BW.py:600, 674-675, 725). -/
noncomputable def tauTimed (M : CTMC ℝ L n) (s ss : Fin n) (p : Sym L × ℝ) : ℝ :=
  (if Sym.obs (M.labelling s) ≠ p.1 then 0 else M.matrix s ss) * Real.exp (-(M.e s) * p.2)

/-- `array(self.labelling) == obs_seq[-1]` (CTMC.py:229, BW.py:602, 669). -/
noncomputable def maskTimed (M : CTMC ℝ L n) (o : Sym L) (s : Fin n) : ℝ := if Sym.obs (M.labelling s) = o then 1 else 0

/-- CTMC.py:217-229: `last_arr.sum()`. -/
noncomputable def timedSum (M : CTMC ℝ L n) (seq : List (Sym L)) : Py ℝ := do
  let (steps, last) ← splitTimed seq
  return ∑ s, (steps.foldl (fun v p => fun s => ∑ ss, v ss * M.tauTimed ss s p) M.initialState) s * M.maskTimed last s

/-- CTMC.py:217-234 `_computeAlphas_timed`; `none` is `False` (`log` of a number that is not positive). -/
noncomputable def computeAlphasTimed (M : CTMC ℝ L n) (seq : List (Sym L)) (times : ℕ) : Py (Option ℝ) := do
  let p ← M.timedSum seq
  return if 0 < p then some (Real.log p * times) else none

open Classical in
/-- CTMC.py:243-258, `logLikelihood` of a timed set (both platforms: `False in temp`, `temp.remove(False)` and
`res.get() != False` all treat `0.0` as `False`). `cpus` is `cpu_count()`; `Pool(processes=0)` raises ValueError. -/
noncomputable def logLikelihoodTimed (M : CTMC ℝ L n) (cpus : ℕ) (S : TSet (Sym L)) : Py ℝ :=
  if cpus < 2 then .error .valueError
  else do
    let res ← (S.sequences.zip S.times).mapM (fun p => M.computeAlphasTimed p.1 p.2)
    let temp := res.filterMap Iface.keepResult
    if temp = [] then return -9999
    else return temp.sum / (S.times.sum : ℕ)

end CTMC

/-! ### Learning -/

namespace BW

variable {L : Type} {n : ℕ} [DecidableEq L]

/-- What `_processWork_CTMC` returns: `[den, num, proba_seq, times]`. -/
abbrev WorkCTMC (n : ℕ) := WorkMC ℝ n

/-- BW.py:705-734 `_processWork_CTMC` for a timed trace, with `_splitTime` (680-703, IndexError for a trace with less than
two symbols), `_computeAlphas_timed` (577-603) and `_computeBetas_timed` (652-678). `fixed` is `fixed_parameters`.
A trace whose second symbol is not a time is used with `times_seq = None`, which raises TypeError in the tables.
Simplification: a trace of even length raises ValueError (the shapes of the arrays do not agree); for 2 and 4 symbols
numpy would broadcast instead. -/
noncomputable def processWorkTimed (M : CTMC ℝ L n) (fixed : Fin n → Fin n → Bool) (seq : List (Sym L)) (times : ℕ) :
    Py (Option (WorkCTMC n)) :=
  if seq.length < 2 then .error .indexError
  else match splitTimed seq with
    | .error e => .error e
    | .ok (steps, last) =>
      if seq.length % 2 = 0 then .error .valueError
      else
        let al := maskLast (M.maskTimed last) (alphas M.tauTimed M.initialState steps)
        let be := betas M.tauTimed (M.maskTimed last) steps
        let p := lastSum al
        .ok (if p = 0 then none
          else some { den := visits (fun x => x.2) (times / p) al be steps,
                      num := fun s ss => if fixed s ss then 0 else uses M.tauTimed (fun _ => 1) (times / p) al be steps s ss,
                      proba := p, times := times })

/-- BW.py:705-734 `_processWork_CTMC` for an untimed trace: the tables are `_computeAlphas` (1533-1563) and `_computeBetas`
(1606-1636). -/
noncomputable def processWorkUntimed (M : CTMC ℝ L n) (fixed : Fin n → Fin n → Bool) (seq : List L) (times : ℕ) :
    Py (Option (WorkCTMC n)) :=
  if seq.length < 2 then .error .indexError
  else
    let al := alphas M.tau M.initialState seq
    let be := betas M.tau (fun _ => 1) seq
    let p := lastSum al
    .ok (if p = 0 then none
      else some { den := visits (fun _ => 1) (times / p) al be seq,
                  num := fun s ss => if fixed s ss then 0 else uses M.tau (fun _ => 1) (times / p) al be seq s ss,
                  proba := p, times := times })

/-- BW.py:736-753 `_update_CTMC`: the new matrix. -/
noncomputable def updateCTMC (M : CTMC ℝ L n) (fixed : Fin n → Fin n → Bool) (temp : List (WorkCTMC n)) : CTMC ℝ L n :=
  let den := fun s => (temp.map (fun w => w.den s)).sum
  let num := fun s ss => (temp.map (fun w => w.num s ss)).sum
  { M with matrix := fun s ss =>
      M.matrix s ss * (if fixed s ss then 1 else 0) + (if den s = 0 then M.matrix s ss / 1 else num s ss / den s) }

/-- One iteration of the learning of a CTMC from the results of the workers. -/
noncomputable def stepOf (processes : ℕ) (M : CTMC ℝ L n) (fixed : Fin n → Fin n → Bool)
    (res : Py (List (Option (WorkCTMC n)))) : Py (CTMC ℝ L n × ℝ) := do
  let temp ← collect .typeError processes (← res)
  return (updateCTMC M fixed temp, logLik (temp.map (fun w => (w.proba, w.times))))

/-- One iteration of the learning of a CTMC from a timed training set. -/
noncomputable def stepTimed (processes : ℕ) (fixed : Fin n → Fin n → Bool) (S : TSet (Sym L)) (M : CTMC ℝ L n) :
    Py (CTMC ℝ L n × ℝ) :=
  stepOf processes M fixed ((S.sequences.zip S.times).mapM (fun p => processWorkTimed M fixed p.1 p.2))

/-- One iteration of the learning of a CTMC from an untimed training set. -/
noncomputable def stepUntimed (processes : ℕ) (fixed : Fin n → Fin n → Bool) (S : TSet L) (M : CTMC ℝ L n) :
    Py (CTMC ℝ L n × ℝ) :=
  stepOf processes M fixed ((S.sequences.zip S.times).mapM (fun p => processWorkUntimed M fixed p.1 p.2))

end BW
end Jajapy
