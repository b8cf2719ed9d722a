import Verif.Model.CTMC
import Verif.Model.GoHMM
import Verif.Model.PCTMC

/-!
The methods that take a state ID, on every argument a Python program may pass for it: the rest of the model has the states
`0 … nb_states-1` only.

Not modelled: `bool` arguments (for the classes other than PCTMC they are refused as the other values that are not of type
`int`), `nan` and infinite floats, and the methods without a check on arguments that are not integers (they are modelled on
the integers).
-/

namespace Jajapy

open Finset Tools

/-- A value passed as a state ID. -/
inductive Arg
  /-- a Python `int` -/
  | int (i : ℤ)
  /-- a numpy integer, such as the entries of the array that `numpy.nonzero` returns -/
  | npInt (i : ℤ)
  /-- a finite `float` -/
  | float (q : ℚ)
  /-- a `str`, with the integer that `int(…)` reads in it, if any -/
  | str (parsed : Option ℤ)
  /-- Python's `None` -/
  | none
  deriving DecidableEq

/-- What `Model.run` (Model.py:129-137) and the methods `next` without a check do with an integer `i` as an index of a list or
of an axis of an array with `n` entries: a negative index counts from the end. -/
def wrapIndex (n : ℕ) (i : ℤ) : Py (Fin n) :=
  if h : 0 ≤ i ∧ i < n then .ok ⟨i.toNat, by omega⟩
  else if h : -(n : ℤ) ≤ i ∧ i < 0 then .ok ⟨(i + n).toNat, by omega⟩
  else .error .indexError

/-- Indexing a Python list (`self.labelling[s]`): TypeError if the index is not an integer. -/
def listIndex (n : ℕ) : Arg → Py (Fin n)
  | .int i => wrapIndex n i
  | .npInt i => wrapIndex n i
  | .float _ => .error .typeError
  | .str _ => .error .typeError
  | .none => .error .typeError

/-- Indexing a numpy array (`self.matrix[s]`): IndexError if the index is not an integer. (`None` adds an axis instead; every
method below has refused it before.) -/
def arrayIndex (n : ℕ) : Arg → Py (Fin n)
  | .int i => wrapIndex n i
  | .npInt i => wrapIndex n i
  | .float _ => .error .indexError
  | .str _ => .error .indexError
  | .none => .error .typeError

/-- Model.py:383-389 `_checkStateIndex`. The type of a numpy integer is not `int`. -/
def checkStateIndex (n : ℕ) : Arg → Py Unit
  | .int i => if i < 0 then .error .indexError else if i ≥ n then .error .indexError else .ok ()
  | .npInt _ => .error .typeError
  | .float _ => .error .typeError
  | .str _ => .error .typeError
  | .none => .error .typeError

namespace MC
variable {K L : Type} {n : ℕ} [Field K] [DecidableEq L]

/-- MC.py:64-68 `tau`. -/
def tauArg (M : MC K L n) (s1 s2 : Arg) (obs : L) : Py K := do
  checkStateIndex n s1
  checkStateIndex n s2
  let i ← listIndex n s1
  if obs ≠ M.labelling i then return 0
  let i ← arrayIndex n s1
  let j ← arrayIndex n s2
  return M.matrix i j

omit [DecidableEq L] in
/-- MC.py:91-93 `a`. -/
def aArg (M : MC K L n) (s1 s2 : Arg) : Py K := do
  checkStateIndex n s1
  checkStateIndex n s2
  let i ← arrayIndex n s1
  let j ← arrayIndex n s2
  return M.matrix i j

omit [Field K] [DecidableEq L] in
/-- Base_MC.py:78-79 `getLabel`. -/
def getLabelArg (M : MC K L n) (s : Arg) : Py L := do
  checkStateIndex n s
  let i ← listIndex n s
  return M.labelling i

/-- Base_MC.py:81-84 `b`. -/
def bArg (M : MC K L n) (s : Arg) (label : L) : Py K := do
  if (← M.getLabelArg s) = label then return 1 else return 0

omit [DecidableEq L] in
/-- Model.py:93-107 `pi`: no check. -/
def piArg (M : MC K L n) (s : ℤ) : Py K := do return M.initialState (← wrapIndex n s)

omit [DecidableEq L] in
/-- MC.py:95-120 `next`: no check, and the state that is returned is the entry of `mi` chosen by `resolveRandom`
(tools.py:58-64), a numpy integer. -/
def nextArg [LinearOrder K] (M : MC K L n) (state : ℤ) (r : K) : Py (Arg × L) := do
  let i ← wrapIndex n state
  let c ← pick (M.matrix i) r
  return (.npInt (c : ℕ), M.labelling i)

omit [DecidableEq L] in
/-- MC.py:122-150 `run(number_steps, current)`: `-1` stands for "not set". -/
def runFrom [LinearOrder K] (M : MC K L n) (steps : ℕ) (current : ℤ) (draws : ℕ → K) : Py (List L) :=
  if current = -1 then M.run steps draws
  else do M.runLoop steps draws (← wrapIndex n current)

end MC

namespace CTMC
variable {K L : Type} {n : ℕ} [Field K]

/-- CTMC.py:67-68 `e`. -/
def eArg (M : CTMC K L n) (s : Arg) : Py K := do
  checkStateIndex n s
  let i ← arrayIndex n s
  return ∑ j, M.matrix i j

/-- CTMC.py:90-94 `l`. -/
def lArg [DecidableEq L] (M : CTMC K L n) (s1 s2 : Arg) (obs : L) : Py K := do
  checkStateIndex n s1
  checkStateIndex n s2
  let i ← listIndex n s1
  if M.labelling i ≠ obs then return 0
  let i ← arrayIndex n s1
  let j ← arrayIndex n s2
  return M.matrix i j

/-- CTMC.py:134 `tau`. -/
def tauArg [DecidableEq L] (M : CTMC K L n) (s1 s2 : Arg) (obs : L) : Py K := do
  let x ← M.lArg s1 s2 obs
  let y ← M.eArg s1
  return x / y

/-- CTMC.py:151 `expected_time`. -/
def expectedTimeArg (M : CTMC K L n) (s : Arg) : Py K := do return 1 / (← M.eArg s)

/-- CTMC.py:111-113 `lkl`: the time is looked at first. -/
noncomputable def lklArg (M : CTMC ℝ L n) (s : Arg) (t : ℝ) : Py ℝ := do
  if t < 0 then return 0
  let x ← M.eArg s
  let y ← M.eArg s
  return x * Real.exp (-y * t)

omit [Field K] in
/-- Base_MC.py:78-79 `getLabel`. -/
def getLabelArg (M : CTMC K L n) (s : Arg) : Py L := do
  checkStateIndex n s
  let i ← listIndex n s
  return M.labelling i

/-- CTMC.py:163-181 `next`: no check; the state that is returned is `exps.index(…)`, an `int`. -/
def nextArg [LinearOrder K] (M : CTMC K L n) (state : ℤ) (draws : Fin n → K) : Py (L × Arg × K) := do
  let i ← wrapIndex n state
  let (o, j, t) ← M.next i draws
  return (o, .int (j : ℕ), t)

end CTMC

namespace MDP
variable {K L : Type} {n : ℕ} [Field K] [DecidableEq L]

/-- MDP.py:110-116 `tau`. -/
def tauArg (M : MDP K L n) (s1 : Arg) (action : L) (s2 : Arg) (obs : L) : Py K := do
  checkStateIndex n s1
  checkStateIndex n s2
  let i ← listIndex n s1
  if obs ≠ M.labelling i then return 0
  match M.actionIndex action with
  | none => return 0
  | some k => do
    let i ← arrayIndex n s1
    let j ← arrayIndex n s2
    return M.matrix i k j

/-- MDP.py:141-143 `a`: `self.matrix[s1]` is read before `self.actions.index(action)`. -/
def aArg (M : MDP K L n) (s1 s2 : Arg) (action : L) : Py K := do
  checkStateIndex n s1
  checkStateIndex n s2
  let i ← arrayIndex n s1
  match M.actionIndex action with
  | none => .error .valueError
  | some k => do
    let j ← arrayIndex n s2
    return M.matrix i k j

omit [Field K] [DecidableEq L] in
/-- Base_MC.py:78-79 `getLabel`. -/
def getLabelArg (M : MDP K L n) (s : Arg) : Py L := do
  checkStateIndex n s
  let i ← listIndex n s
  return M.labelling i

omit [DecidableEq L] in
/-- MDP.py:70-73 `getActions(state)`: no check; `-1` stands for "not set". -/
def getActionsArg [LinearOrder K] (M : MDP K L n) (state : ℤ) : Py (List L) :=
  if state = -1 then .ok M.actions else do return M.getActions (← wrapIndex n state)

/-- MDP.py:181-182 `next`: no check; the state that is returned is a numpy integer. -/
def nextArg [LinearOrder K] (M : MDP K L n) (state : ℤ) (action : L) (r : K) : Py (Arg × L) := do
  let i ← wrapIndex n state
  let (c, o) ← M.next i action r
  return (.npInt (c : ℕ), o)

end MDP

namespace HMM
variable {K O : Type} {n : ℕ} [Field K]

/-- Base_HMM.py:57-59 `a`. -/
def aArg (M : HMM K O n) (s1 s2 : Arg) : Py K := do
  checkStateIndex n s1
  checkStateIndex n s2
  let i ← arrayIndex n s1
  let j ← arrayIndex n s2
  return M.matrix i j

/-- `s < 0 or s >= nb_states` (HMM.py:65); comparing a `str` or `None` with a number is a TypeError. -/
def outOfRange (n : ℕ) : Arg → Py Bool
  | .int i => .ok (decide (i < 0) || decide (i ≥ n))
  | .npInt i => .ok (decide (i < 0) || decide (i ≥ n))
  | .float q => .ok (decide (q < 0) || decide (q ≥ n))
  | .str _ => .error .typeError
  | .none => .error .typeError

/-- HMM.py:65-67 `b`. -/
def bArg [DecidableEq O] (M : HMM K O n) (s : Arg) (l : O) : Py K := do
  if ← outOfRange n s then return 0
  if h : l ∈ M.alphabet then do
    let i ← arrayIndex n s
    return M.output i ⟨M.alphabet.idxOf l, List.idxOf_lt_length_iff.mpr h⟩
  else return 0

/-- Base_HMM.py:80 `tau`. -/
def tauArg [DecidableEq O] (M : HMM K O n) (s1 s2 : Arg) (obs : O) : Py K := do
  let x ← M.aArg s1 s2
  let y ← M.bArg s1 obs
  return x * y

/-- HMM.py:110-114 `getAlphabet(state)`: `-1` stands for "not set". -/
def getAlphabetArg [LinearOrder K] (M : HMM K O n) (s : Arg) : Py (List O) :=
  if s = .int (-1) ∨ s = .npInt (-1) ∨ s = .float (-1) then .ok M.alphabet
  else do
    checkStateIndex n s
    let i ← arrayIndex n s
    return ((List.finRange M.alphabet.length).filter (fun k => 0 < M.output i k)).map (fun k => M.alphabet[k])

/-- Base_HMM.py:107-123 `next_state`: no check; a numpy integer is returned. -/
def nextStateArg [LinearOrder K] (M : HMM K O n) (state : ℤ) (r : K) : Py Arg := do
  let i ← wrapIndex n state
  let c ← pick (M.matrix i) r
  return .npInt (c : ℕ)

/-- HMM.py:142-152 `next_obs`: no check. -/
def nextObsArg [LinearOrder K] (M : HMM K O n) (state : ℤ) (r : K) : Py O := do
  let i ← wrapIndex n state
  M.nextObs i r

/-- Model.py:109-137 `run(number_steps, current)`: `-1` stands for "not set"; `current` is not looked at when
`number_steps` is 0. -/
def runFrom [LinearOrder K] (M : HMM K O n) (steps : ℕ) (current : ℤ) (draws : ℕ → K) : Py (List O) :=
  if current = -1 then M.run steps draws
  else if steps = 0 then .ok []
  else do M.runLoop steps draws (← wrapIndex n current)

end HMM

namespace GoHMM
variable {n d : ℕ}

/-- Base_HMM.py:57-59 `a`. -/
def aArg (M : GoHMM n d) (s1 s2 : Arg) : Py ℝ := do
  checkStateIndex n s1
  checkStateIndex n s2
  let i ← arrayIndex n s1
  let j ← arrayIndex n s2
  return M.matrix i j

/-- GoHMM.py:100-103 `b`, one factor after the other; every factor reads `self.output[s]` (GoHMM.py:125). An empty
observation has no factor. -/
noncomputable def bArg (M : GoHMM n d) (s : Arg) (l : Fin d → ℝ) : Py ℝ :=
  (List.finRange d).foldlM (fun res k => do
    let i ← arrayIndex n s
    return res * M.bn i k (l k)) 1

/-- Base_HMM.py:80 `tau`. -/
noncomputable def tauArg (M : GoHMM n d) (s1 s2 : Arg) (obs : Fin d → ℝ) : Py ℝ := do
  let x ← M.aArg s1 s2
  let y ← M.bArg s1 obs
  return x * y

/-- GoHMM.py:50-64 `mu`: no check. -/
def muArg (M : GoHMM n d) (s : ℤ) : Py (Fin d → ℝ) := do return M.mu (← wrapIndex n s)

end GoHMM

namespace PCTMC
variable {K : Type} [Field K] [LinearOrder K]

/-- Parametric_Model.py:451-459 `_checkStateIndex`: `int(s)` reads numpy integers, floats (towards zero) and strings; a string
without an integer is a ValueError. -/
def checkArg (M : PCTMC K) (s : Arg) : Py Unit :=
  let go (i : ℤ) : Py Unit :=
    if i < 0 then .error .indexError else if i ≥ M.nb then .error .indexError else .ok ()
  match s with
  | .int i => go i
  | .npInt i => go i
  | .float q => go (if 0 ≤ q then ⌊q⌋ else ⌈q⌉)
  | .str (some i) => go i
  | .str none => .error .valueError
  | .none => .error .typeError

/-- Parametric_Model.py:149-165 `transitionExpression`: no check; `self.matrix[i,j]` with indexes of any kind. -/
def transitionExpressionArg (M : PCTMC K) (i j : Arg) : Py (Expr K) := do
  let i' ← arrayIndex M.nb i
  let j' ← arrayIndex M.nb j
  M.transitionExpression i' j'

/-- Parametric_Model.py:251-284 `evaluateTransition(i,j)`. -/
def evaluateArg (M : PCTMC K) (i j : Arg) : Py (Option K) := do
  return (← M.transitionExpressionArg i j).eval M.values

/-- Parametric_Model.py:304-313 `involvedParameters(i)`. -/
def involvedStateArg (M : PCTMC K) (i : Arg) : Py (List String) := do
  return ((← (List.range M.nb).mapM (fun j => do
    return (← M.transitionExpressionArg i (.int (j : ℕ))).free)).foldl (· ∪ ·) [])

/-- Parametric_Model.py:111-124 `isInstantiated(state1)`; `None` stands for "not set". -/
def isInstantiatedArg (M : PCTMC K) (s : Arg) : Py Bool :=
  if s = .none then .ok M.isInstantiated
  else do
    M.checkArg s
    return (← M.involvedStateArg s).all M.hasValue

/-- PCTMC.py:70-72 `e`. -/
def eArg (M : PCTMC K) (s : Arg) : Py K := do
  if ← M.isInstantiatedArg s then
    return ((← (List.range M.nb).mapM (fun i => M.evaluateArg s (.int (i : ℕ)))).map (fun x => x.getD 0)).sum
  else .error .valueError

/-- PCTMC.py:93-97 `l`. -/
def lArg (M : PCTMC K) (s1 s2 : Arg) (obs : String) : Py (Option K) := do
  M.checkArg s1
  M.checkArg s2
  let i ← listIndex M.nb s1
  if M.labelling.getD i "" ≠ obs then return some 0 else M.evaluateArg s1 s2

/-- Parametric_Model.py:334-335 `getLabel`. -/
def getLabelArg (M : PCTMC K) (s : Arg) : Py String := do
  M.checkArg s
  let i ← listIndex M.nb s
  return M.labelling.getD i ""

/-- PCTMC.py:141-147 `tau`. -/
def tauArg (M : PCTMC K) (s1 s2 : Arg) (obs : String) : Py (Out K) :=
  match M.eArg s1 with
  | .ok er =>
    if er = 0 then .ok .inf
    else match M.lArg s1 s2 obs with
      | .ok x => .ok (.fin (x.getD 0 / er))
      | .error .valueError => .ok .nothing
      | .error x => .error x
  | .error .valueError => .ok .nothing
  | .error x => .error x

/-- PCTMC.py:164-170 `expected_time`. -/
def expectedTimeArg (M : PCTMC K) (s : Arg) : Py (Out K) :=
  orNothing (M.eArg s) (fun er => if er = 0 then .ok .inf else .ok (.fin (1 / er)))

end PCTMC
end Jajapy
