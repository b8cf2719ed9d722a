import Verif.Model.BW

/-!
Model of the class `MDP` (`jajapy/mdp/MDP.py`), of the schedulers (`jajapy/mdp/Scheduler.py`) and of the part of the
Baum-Welch learner for MDPs (`jajapy/base/BW.py` lines 363-487).

`L` is the type of the symbols of a trace: labels and actions are both strings. A trace of an MDP is a list
`[o0, a0, o1, a1, …, oT]`.
-/

namespace Jajapy

open Finset Tools

/-- The attributes of an MDP (MDP.py:36-45) that its methods use; row `s`, `i` of the matrix is for the action of index
`i` in `actions`. -/
structure MDP (K L : Type) (n : ℕ) where
  actions : List L
  matrix : Fin n → Fin actions.length → Fin n → K
  labelling : Fin n → L
  initialState : Fin n → K

/-- The steps of a trace: `(sequence[k], sequence[k+1])` for `k` in `range(0, len(sequence)-1, 2)`
(MDP.py:340-341, 435-438, BW.py:443-444). -/
def pairs {L : Type} : List L → List (L × L)
  | o :: a :: rest => (o, a) :: pairs rest
  | _ => []

namespace MDP

variable {K L : Type} {n : ℕ} [Field K] [DecidableEq L]

/-- `self.actions.index(action)`. -/
def actionIndex (M : MDP K L n) (action : L) : Option (Fin M.actions.length) :=
  if h : action ∈ M.actions then some ⟨M.actions.idxOf action, List.idxOf_lt_length_iff.mpr h⟩ else none

/-- MDP.py:76-116 `tau`. -/
def tau (M : MDP K L n) (s1 : Fin n) (action : L) (s2 : Fin n) (obs : L) : K :=
  if obs ≠ M.labelling s1 then 0
  else match M.actionIndex action with
    | none => 0
    | some i => M.matrix s1 i s2

/-- MDP.py:118-143 `a`: `list.index` raises ValueError for an unknown action. -/
def a (M : MDP K L n) (s1 s2 : Fin n) (action : L) : Py K :=
  match M.actionIndex action with
  | none => .error .valueError
  | some i => .ok (M.matrix s1 i s2)

omit [DecidableEq L] in
/-- MDP.py:47-73 `getActions(state)`: the actions whose row has a positive sum (as a list without the order and the
repetitions: the code returns `list(set(…))`, and only membership is used). -/
def getActions [LinearOrder K] (M : MDP K L n) (state : Fin n) : List L :=
  ((List.finRange M.actions.length).filter (fun i => 0 < ∑ s, M.matrix state i s)).map (fun i => M.actions[i])

/-- `tau` in the shape of the other models: the observation and the action are read together. -/
def tauP (M : MDP K L n) (s1 s2 : Fin n) (p : L × L) : K := M.tau s1 p.2 s2 p.1

/-- The vector `array(self.labelling) == o` (MDP.py:353, 441, BW.py:413, 434). -/
def mask (M : MDP K L n) (o : L) (s : Fin n) : K := if M.labelling s = o then 1 else 0

/-! ### Simulation -/

/-- MDP.py:145-182 `next`; `r` is the random draw. -/
def next [LinearOrder K] (M : MDP K L n) (state : Fin n) (action : L) (r : K) : Py (Fin n × L) :=
  match M.actionIndex action with
  | none => .error .valueError
  | some i => do
    let c ← pick (M.matrix state i) r
    return (c, M.labelling state)

end MDP

/-- A scheduler as `run` uses it (Scheduler.py:3-17): an object with a state, and the methods `reset`, `getAction` (which
uses one random draw and may change the state) and `addObservation`. -/
structure Sched (K L σ : Type) where
  reset : σ → σ
  getAction : σ → K → Py (L × σ)
  addObservation : σ → L → Py σ

namespace MDP

variable {K L σ : Type} {n : ℕ} [Field K] [LinearOrder K] [DecidableEq L]

/-- MDP.py:208-211: ask the scheduler until it proposes an action that is possible in the current state. The draws are a
list; `none` means that all the draws have been used and the loop is still running. -/
def chooseAction (M : MDP K L n) (sch : Sched K L σ) (current : Fin n) : List K → σ → Option (Py (L × σ × List K))
  | [], _ => none
  | r :: rs, st =>
    match sch.getAction st r with
    | .error e => some (.error e)
    | .ok (action, st') => if action ∈ M.getActions current then some (.ok (action, st', rs)) else chooseAction M sch current rs st'

/-- MDP.py:207-220, the loop of `run` and the final label. -/
def runLoop (M : MDP K L n) (sch : Sched K L σ) : ℕ → List K → Fin n → σ → Option (Py (List L × σ))
  | 0, _, current, st => some (.ok ([M.labelling current], st))
  | steps + 1, draws, current, st =>
    match M.chooseAction sch current draws st with
    | none => none
    | some (.error e) => some (.error e)
    | some (.ok (_, _, [])) => none
    | some (.ok (action, st', r :: rs)) =>
      match M.next current action r with
      | .error e => some (.error e)
      | .ok (nextState, observation) =>
        match sch.addObservation st' observation with
        | .error e => some (.error e)
        | .ok st'' =>
          match runLoop M sch steps rs nextState st'' with
          | none => none
          | some (.error e) => some (.error e)
          | some (.ok (rest, st3)) => some (.ok (observation :: action :: rest, st3))

/-- MDP.py:184-220 `run(number_steps, scheduler)` with the default `current = -1`; the result is the trace and the state
in which the scheduler is left. -/
def run (M : MDP K L n) (sch : Sched K L σ) (steps : ℕ) : List K → σ → Option (Py (List L × σ))
  | [], _ => none
  | r :: draws, st =>
    match pick M.initialState r with
    | .error e => some (.error e)
    | .ok current => M.runLoop sch steps draws current (sch.reset st)

end MDP

/-! ### Schedulers -/

section sched
variable {K L : Type} [Field K] [LinearOrder K]

/-- `actions[resolveRandom(probs)]` (Scheduler.py:45, 128). -/
def drawAction (probs : List K) (actions : List L) (r : K) : Py L := do
  let i ← resolveRandom probs r
  match actions[i]? with
  | some a => .ok a
  | none => .error .indexError

/-- Scheduler.py:19-45 `UniformScheduler`: it has no state, `reset` and `addObservation` do nothing
(Scheduler.py:13-17). -/
def uniformScheduler (actions : List L) : Sched K L Unit where
  reset := id
  getAction := fun _ r => (drawAction (List.replicate actions.length (1 / (actions.length : K))) actions r).map (fun a => (a, ()))
  addObservation := fun _ _ => .ok ()

/-- Scheduler.py:48-79 `MemorylessScheduler` as `run` uses it: its `getAction` needs an argument and is called without
(MDP.py:208), which raises TypeError. -/
def memorylessScheduler : Sched K L Unit where
  reset := id
  getAction := fun _ _ => .error .typeError
  addObservation := fun _ _ => .ok ()

/-- Scheduler.py:65-79 `MemorylessScheduler.getAction(current_state)`. -/
def memorylessAction (actions : List L) (currentState : ℕ) : Py L :=
  match actions[currentState]? with
  | some a => .ok a
  | none => .error .indexError

/-- Scheduler.py:81-110 `FiniteMemoryScheduler`: the two dictionaries. `actionMatrix s` is the pair of lists
(probabilities, actions) of the scheduler state `s`; `transitionMatrix` maps an observation to the list of the
next states. (Dictionaries are functions to `Option`.) -/
structure FMScheduler (K L : Type) where
  actionMatrix : ℕ → Option (List K × List L)
  transitionMatrix : L → Option (List ℕ)

namespace FMScheduler

/-- Scheduler.py:119-128 `getAction`. -/
def getAction (F : FMScheduler K L) (s : ℕ) (r : K) : Py L :=
  match F.actionMatrix s with
  | none => .error .keyError
  | some (probs, actions) => drawAction probs actions r

omit [Field K] [LinearOrder K] in
/-- Scheduler.py:130-141 `addObservation`: the new state. -/
def addObservation (F : FMScheduler K L) (s : ℕ) (obs : L) : Py ℕ :=
  match F.transitionMatrix obs with
  | none => .ok s
  | some row => match row[s]? with
    | some s' => .ok s'
    | none => .error .indexError

/-- The scheduler as `run` uses it; Scheduler.py:112-117 `reset`. -/
def sched (F : FMScheduler K L) : Sched K L ℕ where
  reset := fun _ => 0
  getAction := fun s r => (F.getAction s r).map (fun a => (a, s))
  addObservation := F.addObservation

omit [Field K] [LinearOrder K] in
/-- Scheduler.py:143-163 `getActions`. -/
def getActions (F : FMScheduler K L) (current : ℕ) (s : Option ℕ) : Py (List K × List L) :=
  match F.actionMatrix (s.getD current) with
  | none => .error .keyError
  | some r => .ok r

omit [Field K] [LinearOrder K] in
/-- Scheduler.py:165-185 `getSequenceStates`: the method it calls for each observation is named `add_observation`, which
does not exist. -/
def getSequenceStates (_F : FMScheduler K L) (obs : List L) : Py (List ℕ) :=
  match obs with
  | [] => .ok [0]
  | _ :: _ => .error .attributeError

omit [LinearOrder K] in
/-- Scheduler.py:187-209 `getProbability`. -/
def getProbability [DecidableEq L] (F : FMScheduler K L) (current : ℕ) (action : L) (state : Option ℕ) : Py K :=
  match F.actionMatrix (state.getD current) with
  | none => .error .keyError
  | some (probs, actions) =>
    if action ∉ actions then .ok 0
    else match probs[actions.idxOf action]? with
      | some p => .ok p
      | none => .error .indexError

end FMScheduler
end sched

/-! ### Likelihood -/

namespace MDP

variable {K L : Type} {n : ℕ} [Field K] [DecidableEq L]

/-- The loop MDP.py:435-440 and MDP.py:402-405 for one step. -/
def fwdStep (M : MDP K L n) (v : Fin n → K) (p : L × L) : Fin n → K := fun s => ∑ ss, v ss * M.tauP ss s p

/-- MDP.py:432-442: `prev_arr.sum()` at the end of `_computeAlphas`; `sequence[-1]` raises IndexError on an empty
sequence. -/
def seqProb (M : MDP K L n) (seq : List L) : Py K :=
  match seq.getLast? with
  | none => .error .indexError
  | some last => .ok (∑ s, (pairs seq).foldl M.fwdStep M.initialState s * M.mask last s)

open Classical in
/-- MDP.py:416-444 `_computeAlphas`; `log` raises ValueError on a negative number. -/
noncomputable def computeAlphas (M : MDP ℝ L n) (seq : List L) (times : ℕ) : Py ℝ := do
  let p ← M.seqProb seq
  if p = 0 then return 0
  else if p < 0 then .error .valueError
  else return Real.log p * times

open Classical in
/-- MDP.py:408-414 `_logLikelihood_multiproc`: `cpus` is `cpu_count()`, `Pool(processes=0)` raises ValueError; the test
`res.get() != False` drops the zeros; dividing by the sum of no multiplicities raises ZeroDivisionError. -/
noncomputable def logLikelihoodMultiproc (M : MDP ℝ L n) (cpus : ℕ) (S : TSet L) : Py ℝ :=
  if cpus < 2 then .error .valueError
  else do
    let res ← (S.sequences.zip S.times).mapM (fun p => M.computeAlphas p.1 p.2)
    let temp := res.filter (fun x => x ≠ 0)
    if S.times.sum = 0 then .error .zeroDivisionError
    else return temp.sum / (S.times.sum : ℕ)

/-- `_initAlphaMatrix` (Model.py:286-303) and `_updateAlphaMatrix` (MDP.py:360-406) are the functions of the abstract
class on the sequence of the steps. -/
def iface (M : MDP K L n) : Iface K (L × L) n := { tau := M.tauP, b := fun _ _ => 0, init := M.initialState }

/-- MDP.py:339-356, the loop over the sorted sequences: the times are looked up in the caller's set `S`; previous
sequence (`none` for the first), table, accumulated value. `sequence[-1]` raises IndexError on an empty sequence. -/
noncomputable def oneprocLoop (M : MDP ℝ L n) (S : TSet L) :
    List (List L) → Option (List L) → List (Fin n → ℝ) → ℝ → Py ℝ
  | [], _, _, ll => .ok ll
  | seq :: rest, prev, alpha, ll =>
    match S.times[S.sequences.idxOf seq]? with
    | none => .error .indexError
    | some times =>
      let common := (match prev with
        | none => 0
        | some p => Iface.commonPrefix p seq) / 2
      let alpha := M.iface.updateAlphaMatrix (pairs seq) common alpha
      match seq.getLast? with
      | none => .error .indexError
      | some last =>
        let s := ∑ i, (alpha.getLast?.getD (fun _ => 0)) i * M.mask last i
        oneprocLoop M S rest (some seq) alpha (if 0 < s then ll + Real.log s * times else ll)

/-- MDP.py:321-358 `_logLikelihood_oneproc`: it sorts a copy, the caller's set is not changed. The traces are compared
as lists of strings. -/
noncomputable def logLikelihoodOneproc [LinearOrder L] (M : MDP ℝ L n) (S : TSet L) : Py ℝ :=
  let sorted := S.sequences.mergeSort (fun a b => decide (a ≤ b))
  match sorted with
  | [] => .error .indexError
  | s0 :: _ => do
    let ll ← M.oneprocLoop S sorted none (M.iface.initAlphaMatrix (s0.length / 2)) 0
    if S.times.sum = 0 then .error .zeroDivisionError
    else return ll / (S.times.sum : ℕ)

end MDP

/-! ### Learning -/

namespace BW

variable {K L : Type} {n : ℕ} [Field K] [DecidableEq L]

/-- BW.py:413: the last row of the forward table is multiplied by the mask. -/
def maskLast (f : Fin n → K) : List (Fin n → K) → List (Fin n → K)
  | [] => []
  | [v] => [fun s => v s * f s]
  | v :: rest => v :: maskLast f rest

/-- What `_processWork_MDP` returns. -/
structure WorkMDP (K : Type) (n m : ℕ) where
  den : Fin n → Fin m → K
  num : Fin n → Fin m → Fin n → K
  proba : K
  times : ℕ

/-- BW.py:442-465 `_processWork_MDP`, with `_computeAlphas_MDP` (386-414) and `_computeBetas_MDP` (416-440);
`sequence[-1]` raises IndexError on an empty sequence. `none` is `False`. -/
def processWorkMDP [DecidableEq K] (M : MDP K L n) (seq : List L) (times : ℕ) : Py (Option (WorkMDP K n M.actions.length)) :=
  match seq.getLast? with
  | none => .error .indexError
  | some last =>
    let steps := pairs seq
    let al := maskLast (M.mask last) (alphas M.tauP M.initialState steps)
    let be := betas M.tauP (M.mask last) steps
    let p := lastSum al
    .ok (if p = 0 then none
      else some { den := fun s i => visits (fun x => if x.2 = M.actions[i] then 1 else 0) (times / p) al be steps s,
                  num := fun s i ss => uses M.tauP (fun x => if x.2 = M.actions[i] then 1 else 0) (times / p) al be steps s ss,
                  proba := p, times := times })

/-- BW.py:467-487 `_update_MDP`: the new matrix. -/
def updateMDP [DecidableEq K] (M : MDP K L n) (temp : List (WorkMDP K n M.actions.length)) : MDP K L n :=
  let den := fun s i => (temp.map (fun w => w.den s i)).sum
  let num := fun s i ss => (temp.map (fun w => w.num s i ss)).sum
  { M with matrix := fun s i ss => if den s i = 0 then M.matrix s i ss else num s i ss / den s i }

/-- The results of the workers for the whole training set. -/
def workMDP [DecidableEq K] (processes : ℕ) (S : TSet L) (M : MDP K L n) : Py (List (WorkMDP K n M.actions.length)) := do
  let res ← (S.sequences.zip S.times).mapM (fun p => processWorkMDP M p.1 p.2)
  collect .valueError processes res

/-- One iteration of the learning of an MDP: the new hypothesis and `currentloglikelihood`. -/
noncomputable def stepMDP (processes : ℕ) (S : TSet L) (M : MDP ℝ L n) : Py (MDP ℝ L n × ℝ) := do
  let temp ← workMDP processes S M
  return (updateMDP M temp, logLik (temp.map (fun w => (w.proba, w.times))))

end BW
end Jajapy
