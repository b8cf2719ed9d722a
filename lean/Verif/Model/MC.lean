import Verif.Model.Base
import Verif.Model.Tools

/-!
Model of the classes `MC` (`jajapy/mc/MC.py`) and `HMM` (`jajapy/hmm/HMM.py`, `jajapy/base/Base_HMM.py`):
attributes, transition and emission probabilities, simulation.
Arrays are functions on `Fin n`: state indexes out of range, which `_checkStateIndex` (Model.py:383-389) refuses,
do not exist in this part of the model.
-/

namespace Jajapy

open Finset Tools

/-- The attributes of an MC (Base_MC.py:27-36, Model.py:40-52) that its methods use.
`L` is the type of labels (`str` in the code). -/
structure MC (K L : Type) (n : ℕ) where
  matrix : Fin n → Fin n → K
  labelling : Fin n → L
  initialState : Fin n → K

/-- `resolveRandom(row)` as it is used to choose a state; `r` is the random draw. -/
def pick {K : Type} [Field K] [LinearOrder K] {n : ℕ} (row : Fin n → K) (r : K) : Py (Fin n) :=
  match resolveRandom (List.ofFn row) r with
  | .ok i => if h : i < n then .ok ⟨i, h⟩ else .error .indexError
  | .error e => .error e

namespace MC

variable {K L : Type} {n : ℕ} [Field K] [DecidableEq L]

/-- MC.py:34-68 `tau`. -/
def tau (M : MC K L n) (s1 s2 : Fin n) (obs : L) : K :=
  if obs ≠ M.labelling s1 then 0 else M.matrix s1 s2

/-- Base_MC.py:81-84 `b`. -/
def b (M : MC K L n) (s : Fin n) (label : L) : K :=
  if M.labelling s = label then 1 else 0

/-- The methods of an MC used by the abstract class. -/
def iface (M : MC K L n) : Iface K L n := { tau := M.tau, b := M.b, init := M.initialState }

omit [DecidableEq L] in
/-- MC.py:95-120 `next`: the next state and the label of the current one. -/
def next [LinearOrder K] (M : MC K L n) (state : Fin n) (r : K) : Py (Fin n × L) := do
  let c ← pick (M.matrix state) r
  return (c, M.labelling state)

omit [DecidableEq L] in
/-- MC.py:144-150, the loop of `run` and the final label. The list is built front to back; `draws k` is the k-th
random number of this loop. -/
def runLoop [LinearOrder K] (M : MC K L n) : ℕ → (ℕ → K) → Fin n → Py (List L)
  | 0, _, current => .ok [M.labelling current]
  | steps + 1, draws, current => do
    let ns ← M.next current (draws 0)
    let rest ← runLoop M steps (fun k => draws (k+1)) ns.1
    return ns.2 :: rest

omit [DecidableEq L] in
/-- MC.py:122-150 `run(number_steps)` with the default `current = -1`. -/
def run [LinearOrder K] (M : MC K L n) (steps : ℕ) (draws : ℕ → K) : Py (List L) := do
  let current ← pick M.initialState (draws 0)
  M.runLoop steps (fun k => draws (k+1)) current

end MC

/-- The attributes of an HMM (HMM.py:33-39) that its methods use: row `s` of `output` is indexed by the positions in
`alphabet`. -/
structure HMM (K O : Type) (n : ℕ) where
  matrix : Fin n → Fin n → K
  alphabet : List O
  output : Fin n → Fin alphabet.length → K
  initialState : Fin n → K

namespace HMM

variable {K O : Type} {n : ℕ} [Field K]

/-- HMM.py:41-65 `b`. -/
def b [DecidableEq O] (M : HMM K O n) (s : Fin n) (l : O) : K :=
  if h : l ∈ M.alphabet then M.output s ⟨M.alphabet.idxOf l, List.idxOf_lt_length_iff.mpr h⟩ else 0

/-- Base_HMM.py:61-80 `tau`. -/
def tau [DecidableEq O] (M : HMM K O n) (s1 s2 : Fin n) (obs : O) : K := M.matrix s1 s2 * M.b s1 obs

/-- The methods of an HMM used by the abstract class. -/
def iface [DecidableEq O] (M : HMM K O n) : Iface K O n := { tau := M.tau, b := M.b, init := M.initialState }

/-- Base_HMM.py:95-105 `next_obs`. -/
def nextObs [LinearOrder K] (M : HMM K O n) (state : Fin n) (r : K) : Py O := do
  let c ← pick (M.output state) r
  return M.alphabet[c]

/-- Base_HMM.py:124-139 `next`: the next state is drawn first, then the observation. -/
def next [LinearOrder K] (M : HMM K O n) (state : Fin n) (r₁ r₂ : K) : Py (Fin n × O) := do
  let c ← pick (M.matrix state) r₁
  let o ← M.nextObs state r₂
  return (c, o)

/-- Model.py:132-135, the loop of `run`. -/
def runLoop [LinearOrder K] (M : HMM K O n) : ℕ → (ℕ → K) → Fin n → Py (List O)
  | 0, _, _ => .ok []
  | steps + 1, draws, current => do
    let ns ← M.next current (draws 0) (draws 1)
    let rest ← runLoop M steps (fun k => draws (k+2)) ns.1
    return ns.2 :: rest

/-- Model.py:109-137 `run(number_steps)` with the default `current = -1`. -/
def run [LinearOrder K] (M : HMM K O n) (steps : ℕ) (draws : ℕ → K) : Py (List O) := do
  let current ← pick M.initialState (draws 0)
  M.runLoop steps (fun k => draws (k+1)) current

end HMM
end Jajapy
