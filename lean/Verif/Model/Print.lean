import Verif.Model.Files
import Verif.Model.CTMC

/-!
Model of `str(model)` (what `print` shows): `Model.__str__` (`jajapy/base/Model.py:201-214`) and the `_stateToString` of the
Markov chains (`mc/MC.py:168-173`), CTMCs (`ctmc/CTMC.py:153-161`), MDPs (`mdp/MDP.py:290-296`), HMMs
(`base/Base_HMM.py:82-88`, `hmm/HMM.py:116-121`) and GoHMMs (`gohmm/GoHMM.py:186-191`). The text is the list of its characters.

`str` of an entry of an array is `repr` of the float (numpy prints the same digits). `round(x,d)` is a function of which only
the error is known. PCTMCs: Model/PrintPCTMC.
-/

namespace Jajapy
namespace Print

open Files

/-- What is assumed of `round(x,d)` on the finite floats, on top of what is assumed of `float.__repr__`: the result is a
finite float and it is less than a unit of the last digit away (numpy: at most half a unit plus the error of a division). -/
structure RoundIO (K : Type) [Field K] [LinearOrder K] extends FloatIO K where
  round : ℕ → K → K
  round_dom : ∀ d x, dom x → dom (round d x)
  round_err : ∀ d x, dom x → |round d x - x| ≤ 1 / 10 ^ d

variable {K : Type} [Field K] [LinearOrder K] (IO : RoundIO K)

/-- Model.py:206-210: the entries of the initial distribution that are shown, `'s'+str(i)+': '+str(round(...,3))+', '`. -/
def initialItems {n : ℕ} (init : Fin n → K) : List Char :=
  (List.finRange n).flatMap (fun i =>
    if init i ≥ 1 / 1000 then 's' :: (reprNat i ++ ": ".toList ++ IO.repr (IO.round 3 (init i)) ++ ", ".toList) else [])

/-- Model.py:201-211: the lines before the states. The last two characters of the whole text are cut (line 211). -/
def headText {n : ℕ} (name : List Char) (init : Fin n → K) : List Char :=
  let res := "Name: ".toList ++ name ++ ['\n']
  match (List.finRange n).find? (fun i => init i = 1) with
  | some i => res ++ ("Initial state: s".toList ++ reprNat i ++ ['\n'])
  | none => (res ++ "Initial state: ".toList ++ initialItems IO init).dropLast.dropLast ++ ['\n']

/-- Model.py:201-214 `Model.__str__`, with the texts of the states. -/
def modelText {n : ℕ} (name : List Char) (init : Fin n → K) (state : Fin n → List Char) : List Char :=
  headText IO name init ++ (List.finRange n).flatMap (fun i => state i ++ ['\n']) ++ ['\n']

/-- MC.py:169, CTMC.py:154, MDP.py:291: the first line of a state. -/
def header (i : ℕ) (label : List Char) : List Char :=
  "----STATE ".toList ++ reprNat i ++ "--".toList ++ label ++ "----\n".toList

/-- `"s"+str(state)+" -> s"+str(j)+" : "+x+'\n'`. -/
def transition (i j : ℕ) (x : List Char) : List Char :=
  's' :: (reprNat i ++ " -> s".toList ++ reprNat j ++ " : ".toList ++ x ++ ['\n'])

/-- MC.py:168-173 `MC._stateToString`. -/
def stateMC {n : ℕ} (M : MC K String n) (i : Fin n) : List Char :=
  header i (M.labelling i).toList ++ (List.finRange n).flatMap (fun j =>
    if M.matrix i j > 1 / 10000 then transition i j (IO.repr (IO.round 5 (M.matrix i j))) else [])

/-- `str` of a `MC`. -/
def printMC {n : ℕ} (M : MC K String n) (name : List Char) : List Char := modelText IO name M.initialState (stateMC IO M)

/-- `str(1/e)`: the exit rate is a numpy float, so that `1/0.0` is `inf`. -/
def waitingText (e : K) : List Char := if e = 0 then "inf".toList else IO.repr (1 / e)

/-- CTMC.py:153-161 `CTMC._stateToString`. If the exit rate is 0 every quotient is `nan`, or `inf` if negative and positive
rates cancel out; the rates are not negative (the constructor does not check it: assumed here), so nothing is shown. -/
def stateCTMC {n : ℕ} (M : CTMC K String n) (i : Fin n) : List Char :=
  header i (M.labelling i).toList ++ ("Exepected waiting time: ".toList ++ waitingText IO (M.e i) ++ ['\n']) ++
    (List.finRange n).flatMap (fun j =>
      if M.e i ≠ 0 ∧ M.matrix i j / M.e i > 1 / 10000 then transition i j ("lambda = ".toList ++ IO.repr (M.matrix i j)) else [])

/-- `str` of a `CTMC`. -/
def printCTMC {n : ℕ} (M : CTMC K String n) (name : List Char) : List Char := modelText IO name M.initialState (stateCTMC IO M)

/-- MDP.py:290-296 `MDP._stateToString`. -/
def stateMDP {n : ℕ} (M : MDP K String n) (i : Fin n) : List Char :=
  header i (M.labelling i).toList ++ (List.finRange M.actions.length).flatMap (fun a => (List.finRange n).flatMap (fun j =>
    if M.matrix i a j > 1 / 10000 then
      's' :: (reprNat i ++ " - (".toList ++ M.actions[a].toList ++ ") -> s".toList ++ reprNat j ++ " : ".toList
        ++ IO.repr (M.matrix i a j) ++ ['\n'])
    else []))

/-- `str` of a `MDP`. -/
def printMDP {n : ℕ} (M : MDP K String n) (name : List Char) : List Char := modelText IO name M.initialState (stateMDP IO M)

/-- Base_HMM.py:82-88 `Base_HMM._stateToString`. -/
def stateBase {n : ℕ} (matrix : Fin n → Fin n → K) (i : Fin n) : List Char :=
  "----STATE s".toList ++ reprNat i ++ "----\n".toList ++ (List.finRange n).flatMap (fun j =>
    if matrix i j > 1 / 10000 then transition i j (IO.repr (matrix i j)) else []) ++ "************\n".toList

/-- HMM.py:116-121 `HMM._stateToString`. -/
def stateHMM {n : ℕ} (M : HMM K String n) (i : Fin n) : List Char :=
  stateBase IO M.matrix i ++ (List.finRange M.alphabet.length).flatMap (fun k =>
    if M.output i k > 1 / 10000 then
      's' :: (reprNat i ++ " => ".toList ++ M.alphabet[k].toList ++ " : ".toList ++ IO.repr (M.output i k) ++ ['\n'])
    else [])

/-- `str` of a `HMM`. -/
def printHMM {n : ℕ} (M : HMM K String n) (name : List Char) : List Char := modelText IO name M.initialState (stateHMM IO M)

/-- GoHMM.py:186-191 `GoHMM._stateToString`. -/
def stateGoHMM {n d : ℕ} (matrix : Fin n → Fin n → K) (mu sigma : Fin n → Fin d → K) (i : Fin n) : List Char :=
  stateBase IO matrix i ++ (List.finRange d).flatMap (fun k =>
    ("mean ".toList ++ reprNat (k.val + 1) ++ ": ".toList ++ IO.repr (IO.round 4 (mu i k)) ++ ['\n']) ++
    ("std ".toList ++ reprNat (k.val + 1) ++ ": ".toList ++ IO.repr (IO.round 4 (sigma i k)) ++ ['\n']))

/-- `str` of a `GoHMM`. -/
def printGoHMM {n d : ℕ} (matrix : Fin n → Fin n → K) (mu sigma : Fin n → Fin d → K) (init : Fin n → K) (name : List Char) :
    List Char := modelText IO name init (stateGoHMM IO matrix mu sigma)

end Print
end Jajapy
