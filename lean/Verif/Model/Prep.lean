import Verif.Model.TSet
import Verif.Model.BW

/-!
Model of what `BW.fit` does before the iterations: `_getInitialModel`, `_getTrainingSet`, the compatibility test and the
choice of the functions in `_preparation` (BW.py:174-276, 1415-1490), with the objects it changes.

Types are numbered as in Model.py:10-15: 0 MC, 1 MDP, 2 HMM, 3 GoHMM, 4 CTMC, 5 PCTMC; the types of sets are 0 (labels),
1 (actions and labels), 3 (vectors), 4 (labels and dwell times).
-/

namespace Jajapy
namespace Prep

variable {α : Type}

/-- A `Set` object whose traces are lists in a memory: `refs` are the addresses of the lists in `sequences`. (Two entries
of `sequences` can be the same list object.) -/
structure SetObj where
  refs : List ℕ
  times : List ℕ
  floatTimes : Bool
  type : Option ℕ
  deriving DecidableEq, Repr

/-- The value of a set object in a memory. -/
def SetObj.content (mem : List (List α)) (S : SetObj) : TSet α :=
  { sequences := S.refs.map (fun r => mem.getD r []), times := S.times, floatTimes := S.floatTimes, type := S.type }

/-- The argument `training_set` of `fit`: a list of traces (an array is first turned into a list, BW.py:1435-1436), or a
`Set` object. -/
inductive TrainArg (α : Type)
  | list (l : List (List α))
  | obj (S : SetObj)

/-- BW.py:1437-1451. For a list, a new `Set` is built; its traces are new lists, because `setFromList` copies each trace
(Set.py:77). The test of BW.py:1446, `a.intersection(l) != {}`, compares a set with a dictionary and is always true: the
loop stops with `mdp = False` at the first trace, so `mdp` stays true only without traces. -/
def resolve [DecidableEq α] (kind : α → Kind) (mem : List (List α)) : TrainArg α → Py (List (List α) × SetObj)
  | .obj S => .ok (mem, S)
  | .list l => do
    let T ← TSet.mk' kind l none none
    let type := if T.type = some 0 ∧ T.sequences = [] then some 1 else T.type
    return (mem ++ T.sequences, ⟨List.range' mem.length T.sequences.length, T.times, T.floatTimes, type⟩)

/-- BW.py:1458-1459: `sequences[s].insert(0,'init')` for every position `s`. -/
def insertInit (init : α) (refs : List ℕ) (mem : List (List α)) : List (List α) :=
  refs.foldl (fun m r => m.modify r (init :: ·)) mem

/-- BW.py:1434-1462 `_getTrainingSet`: the memory, the set object `self.training_set`, and `self.alphabet` (`none` if it
is not assigned). -/
def getTrainingSet [DecidableEq α] (kind : α → Kind) (init : α) (typeModel : Option ℕ) (mem : List (List α))
    (arg : TrainArg α) : Py (List (List α) × SetObj × Option (List α)) := do
  let (mem, S) ← resolve kind mem arg
  if S.type ≠ some 3 ∧ typeModel ≠ some 2 then
    let alphabet ← (S.content mem).getAlphabet
    if init ∉ alphabet then return (insertInit init S.refs mem, S, some alphabet)
    else return (mem, S, some (alphabet.erase init))
  else return (mem, S, none)

/-- BW.py:189-193: the test under which `fit` raises a RuntimeError. `t` is the type of the set, `m` of the model. -/
def refused (t m : ℕ) : Bool :=
  t ≠ m && (t ≠ 0 && m ≠ 2) && (t ≠ 0 && m ≠ 4) && (t ≠ 0 && m ≠ 5) && (t ≠ 4 && m ≠ 5)

/-! ### The learner object -/

/-- The functions that the attribute `_computeAlphas` (and `_computeBetas`) can be bound to. -/
inductive Fwd
  | plain | mdp | timed | matrix | timedMatrix
  deriving DecidableEq, Repr

/-- The functions that `_h_tau` can be bound to. -/
inductive HTau
  | plain | mdp | pctmc
  deriving DecidableEq, Repr

/-- The attributes of a `BW` object that stay between two calls of `fit`: `_computeAlphas`/`_computeBetas`, `_h_tau`,
whether `_computeTaus`, `_h_e`, `_h_l` are bound to the PCTMC versions, and whether `verbose` and `processes` exist.
(`_update` and `_processWork` are assigned by every call.) -/
structure Learner where
  fwd : Fwd
  hTau : HTau
  pctmc : Bool
  ready : Bool
  deriving DecidableEq, Repr

/-- BW.py:16-23: a new learner has the methods of the class, and neither `verbose` nor `processes`. -/
def Learner.fresh : Learner := ⟨.plain, .plain, false, false⟩

/-- The calls that train a model: `fit` with a model of type `m` and a set of type `t`, or `fit_parameters`
(`fit_nonInstantiatedParameters`) with a PCTMC and a set of type `t`. -/
inductive Call
  | fit (m t : ℕ)
  | params (t : ℕ)
  deriving DecidableEq, Repr

/-- BW.py:148-162, 202-267 and 1385-1396: the attributes assigned before the iterations. Only `fit` assigns `processes`
and `verbose`. -/
def Learner.bind (L : Learner) : Call → Learner
  | .fit m t =>
    let L := { L with ready := true }
    if m = 1 then { L with fwd := .mdp, hTau := .mdp }
    else if m = 4 then (if t = 4 then { L with fwd := .timed } else L)
    else if m = 5 then ⟨if t = 4 then .timedMatrix else .matrix, .pctmc, true, true⟩
    else L
  | .params t => ⟨if t = 4 then .timed else L.fwd, .pctmc, true, L.ready⟩

/-- The exception raised by the first iteration when the attributes do not suit the model, `ok` if they do:
`_computeTaus` is called first (BW.py:294) and its PCTMC version reads `self.h.transitionValue`, which no other model has
(AttributeError); then the first trace (of at least two symbols) is processed.
`_processWork_MC` and `_processWork_HMM` call `_computeAlphas(sequence)`: the MDP and timed versions miss an argument
(TypeError). `_processWork_GoHMM` calls `_computeAlphas(sequence,longdouble)`: the MDP version then calls `self.h.tau` with
four arguments (TypeError), the timed one reads `self.h.l` (AttributeError). `_processWork_CTMC` and `_processWork_PCTMC`
call `_computeAlphas(obs_seq,times_seq)` with `times_seq = None` for an untimed trace: the MDP and timed versions read
`None[0]`, the matrix version takes one argument less (TypeError); so `fit` of a PCTMC on an untimed set always raises
(BW.py:242, 1077, 1492). `_processWork_MDP` finds the functions assigned by this very call. `_bw` reads `self.verbose`
before anything else (BW.py:280): AttributeError on a learner whose `fit` was never called. -/
def Learner.firstCall (L : Learner) : Call → Py Unit
  | .fit m t =>
    if m = 5 then (if t = 4 then .ok () else .error .typeError)
    else if L.pctmc then .error .attributeError
    else if m = 1 then .ok ()
    else if m = 4 ∧ t = 4 then .ok ()
    else match L.fwd with
      | .plain => .ok ()
      | .timed => if m = 3 then .error .attributeError else .error .typeError
      | _ => .error .typeError
  | .params t =>
    if !L.ready then .error .attributeError
    else if t = 4 then .ok ()
    else match L.fwd with
      | .plain => .ok ()
      | _ => .error .typeError

/-- A training call on the learner `L` with a non-empty set of traces of at least two symbols and `max_it ≥ 1`: the learner
after the call, and the outcome. `run` is what the call does once the functions are the right ones: it reads nothing else
from the learner that was not assigned by the call. -/
def Learner.train {R : Type} (L : Learner) (c : Call) (run : Py R) : Learner × Py R :=
  let L' := L.bind c
  (L', do let _ ← L'.firstCall c; run)

/-- A history of calls on one learner. -/
def Learner.after (L : Learner) (calls : List Call) : Learner := calls.foldl Learner.bind L

/-! ### The whole call -/

/-- The objects in the caller's hands: trace lists, and models of type `H`. -/
structure World (O H : Type) where
  traces : List (List O)
  models : List H

/-- BW.py:148-325 `fit(training_set,initial_model)` with the model at address `h`, of type number `m`: the objects after the
call and the address of the returned model. `step` is one iteration for this type of model (on the prepared set).
`self.h = initial_model` (BW.py:1431) is the caller's object, and the updates assign its attributes (BW.py:359, 486, 752,
803-805, 856-858, 1173). -/
noncomputable def fitObj {O H : Type} [DecidableEq O] (kind : O → Kind) (init : O) (m : ℕ) (step : TSet O → H → Py (H × ℝ))
    (epsilon : ℝ) (maxIt : ℕ) (W : World O H) (arg : TrainArg O) (h : ℕ) : Py (World O H × ℕ) := do
  match W.models[h]? with
  | none => .error .indexError
  | some M =>
    let r ← getTrainingSet kind init (some m) W.traces arg
    if refused (r.2.1.type.getD 0) m then .error .runtimeError
    else
      let st ← BW.fit (step (r.2.1.content r.1)) epsilon maxIt M
      return (⟨r.1, W.models.set h st.h⟩, h)

end Prep
end Jajapy
