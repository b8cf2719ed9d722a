import Verif.Model.Print
import Verif.Model.PFiles

/-!
Model of `str` of a PCTMC: `Parametric_Model.__str__` (`jajapy/base/Parametric_Model.py:353-370`) and `PCTMC._stateToString`
(`jajapy/pctmc/PCTMC.py:260-270`).
-/

namespace Jajapy
namespace Print

open Files PCTMC

/-- What is assumed of the texts of sympy, on the expressions of a domain: the assumptions of `ExprIO`, and the text has neither a
line break nor the character `=`. `number` is `str(round(x,5))` of a sympy number: it has no line break and shows a number
that is at most one unit of the fifth digit away (`shows` reads it). -/
structure SymIO (K : Type) [Field K] [LinearOrder K] extends ExprIO K where
  str_chars : ∀ e, dom e → '\n' ∉ (str e).toList ∧ '=' ∉ (str e).toList
  number : K → List Char
  shows : List Char → Option K
  number_chars : ∀ x, '\n' ∉ number x
  number_err : ∀ x, ∃ y, shows (number x) = some y ∧ |y - x| ≤ 1 / 10 ^ 5

variable {K : Type} [Field K] [LinearOrder K] (IO : RoundIO K) (SIO : SymIO K)

/-- Parametric_Model.py:355-357: the values of the parameters. (No value of the dictionary is `nan`.) -/
def valueLines (v : Valuation K) : List Char :=
  v.flatMap (fun p => p.1.toList ++ " = ".toList ++ IO.repr (IO.round 5 p.2) ++ ['\n'])

/-- `str(round(x,5))` of what `expected_time` returns. -/
def outText : Out K → List Char
  | .nothing => "None".toList
  | .fin x => IO.repr (IO.round 5 x)
  | .inf => "inf".toList

/-- PCTMC.py:264-269: the line of a transition. `transitionValue` is a number since its parameters have values. -/
def linePCTMC (M : PCTMC K) (i j : ℕ) : Py (List Char) :=
  if (M.matrix.getD i []).getD j 0 ≠ 0 then do
    let val := (SIO.str (← M.transitionExpression i j)).toList
    if (← M.isInstantiatedPair i j) && decide ((← M.involved i j).length > 0) then
      let x := (← M.evaluate i j).getD 0
      return transition i j ("lambda = ".toList ++ (val ++ " (=".toList ++ SIO.number x ++ [')']))
    else return transition i j ("lambda = ".toList ++ val)
  else .ok []

/-- PCTMC.py:262-263: the expected waiting time, if the state is instantiated. -/
def waitingPCTMC (M : PCTMC K) (i : ℕ) : Py (List Char) := do
  if ← M.isInstantiatedState i then
    return "Exepected waiting time: ".toList ++ outText IO (← M.expectedTime i) ++ ['\n']
  else return []

/-- PCTMC.py:260-270 `_stateToString`. -/
def statePCTMC (M : PCTMC K) (i : ℕ) : Py (List Char) := do
  let w ← waitingPCTMC IO M i
  let ls ← (List.range (M.matrix.getD i []).length).mapM (linePCTMC SIO M i)
  return header i (M.labelling.getD i "").toList ++ w ++ ls.flatten

/-- Parametric_Model.py:359-366: the line of the initial distribution, after the text `res`. -/
def initialText {n : ℕ} (res : List Char) (init : Fin n → K) : List Char :=
  match (List.finRange n).find? (fun i => init i = 1) with
  | some i => res ++ ("Initial state: s".toList ++ reprNat i ++ ['\n'])
  | none => (res ++ "Initial state: ".toList ++ initialItems IO init).dropLast.dropLast ++ ['\n']

/-- Parametric_Model.py:353-370 `__str__` of a PCTMC. -/
def printPCTMC (M : PCTMC K) (name : List Char) : Py (List Char) := do
  let res := "Name: ".toList ++ name ++ ['\n'] ++ valueLines IO M.values ++ ['\n']
  let res := initialText IO (n := M.nb) res (fun i => M.initialState.getD i 0)
  let ss ← (List.range M.nb).mapM (statePCTMC IO SIO M)
  return res ++ (ss.map (· ++ ['\n'])).flatten ++ ['\n']

end Print
end Jajapy
