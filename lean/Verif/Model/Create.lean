import Mathlib.Data.List.Sort
import Mathlib.Data.List.Dedup
import Mathlib.Data.String.Basic
import Mathlib.Algebra.Order.Archimedean.Real.Basic
import Verif.Model.MC
import Verif.Model.MDP
import Verif.Model.CTMC
import Verif.Model.GoHMM

/-!
Model of the constructors of the models, of `updateLabelling`, of the creation functions (`createMC`, `createMDP`,
`createCTMC`, `createHMM`, `createGoHMM`) and of the random generators.

Simplifications. Labels, actions and observations are strings, state ids are integers. The `matrix` given to a
constructor is a square array (n,n) (for an MDP (n,|actions|,n)); the `output` of an HMM has the shape (n,|alphabet|)
and the `output` of a GoHMM the shape (n,d,2). The `name` is not part of the object here (see Model/Files.lean).
Printed warnings are not modelled.
-/

namespace Jajapy

open Finset Tools

variable {K : Type} [Field K] [LinearOrder K]

/-- Python's `a[i]` on a list or array of length `m`: negative indexes count from the end. -/
def pyIndex (m : ℕ) (i : ℤ) : Py (Fin m) :=
  if h : 0 ≤ i ∧ i < m then .ok ⟨i.toNat, by omega⟩
  else if h : -(m : ℤ) ≤ i ∧ i < 0 then .ok ⟨(i + m).toNat, by omega⟩
  else .error .indexError

/-- The argument `initial_state`: an `int`, or a list of floats. -/
inductive InitArg (K : Type)
  | int (i : ℤ)
  | list (l : List K)

/-- Model.py:41-50: the attribute `initial_state` computed by `Model.__init__`; `n` is `nb_states`. -/
def modelInit [FloorRing K] (n : ℕ) : InitArg K → Py (List K)
  | .int i => do
    let k ← pyIndex n i
    return List.ofFn (fun s : Fin n => if s = k then 1 else 0)
  | .list l => if roundHalfEven l.sum ≠ 1 then .error .valueError else .ok l

/-- Base_MC.py:34: the list `initial_state` computed from the labels. -/
def initFromLabels (labelling : List String) : List K :=
  labelling.map (fun i => if i = "init" then 1 / (labelling.count "init" : K) else 0)

/-- Base_MC.py:27-38 `Base_MC.__init__`: the labelling and the initial distribution as functions of the state. -/
def baseMCInit [FloorRing K] (n : ℕ) (labelling : List String) : Py ((Fin n → String) × (Fin n → K)) :=
  if "init" ∉ labelling then .error .valueError
  else do
    let init ← modelInit n (.list (initFromLabels labelling : List K))
    if h : labelling.length = n then
      return (fun s => labelling[s]'(by rw [h]; exact s.2), fun s => init.getD s 0)
    else .error .valueError

/-- MC.py:26-32 `MC.__init__`. -/
def mkMC [FloorRing K] {n : ℕ} (matrix : Fin n → Fin n → K) (labelling : List String) : Py (MC K String n) := do
  let li ← baseMCInit n labelling
  if ∀ i, checkProbabilities (List.ofFn (matrix i)) = true then
    return { matrix := matrix, labelling := li.1, initialState := li.2 }
  else .error .valueError

/-- CTMC.py:44-51 `CTMC.__init__`: the rates are not checked, states without transition give a printed warning. The
attribute `synchronous_transitions` is not part of this object. -/
def mkCTMC [FloorRing K] {n : ℕ} (matrix : Fin n → Fin n → K) (labelling : List String) : Py (CTMC K String n) := do
  let li ← baseMCInit n labelling
  return { matrix := matrix, labelling := li.1, initialState := li.2 }

/-- MDP.py:35-45 `MDP.__init__`. -/
def mkMDP [FloorRing K] {n : ℕ} (actions : List String) (matrix : Fin n → Fin actions.length → Fin n → K)
    (labelling : List String) : Py (MDP K String n) := do
  let li ← baseMCInit n labelling
  if ∀ i a, checkProbabilities (List.ofFn (matrix i a)) = true then
    return { actions := actions, matrix := matrix, labelling := li.1, initialState := li.2 }
  else .error .valueError

/-- An HMM object as the constructor leaves it: the length of `initial_state` is whatever the caller gave. -/
structure HMMObj (K : Type) (n : ℕ) where
  matrix : Fin n → Fin n → K
  alphabet : List String
  output : Fin n → Fin alphabet.length → K
  initialState : List K

/-- The HMM of the rest of the model, for an object whose initial distribution has one entry per state. -/
def HMMObj.toHMM {n : ℕ} (o : HMMObj K n) (h : o.initialState.length = n) : HMM K String n :=
  { matrix := o.matrix, alphabet := o.alphabet, output := o.output,
    initialState := fun s => o.initialState[s]'(by rw [h]; exact s.2) }

/-- HMM.py:33-39 `HMM.__init__`, with Base_HMM.py:27-30. (When a row is refused and `output` is a list of lists, building
the message of the ValueError, `output[i].sum()`, raises an AttributeError instead; arrays are assumed.) -/
def mkHMM [FloorRing K] {n : ℕ} (matrix : Fin n → Fin n → K) (alphabet : List String)
    (output : Fin n → Fin alphabet.length → K) (initial : InitArg K) : Py (HMMObj K n) := do
  let init ← modelInit n initial
  if ¬ ∀ i, checkProbabilities (List.ofFn (matrix i)) = true then .error .valueError
  else if ¬ ∀ i, checkProbabilities (List.ofFn (output i)) = true then .error .valueError
  else return { matrix := matrix, alphabet := alphabet, output := output, initialState := init }

/-- A GoHMM object as the constructor leaves it. -/
structure GoHMMObj (K : Type) (n d : ℕ) where
  matrix : Fin n → Fin n → K
  mu : Fin n → Fin d → K
  sigma : Fin n → Fin d → K
  initialState : List K

/-- GoHMM.py:32-48 `GoHMM.__init__`, with Base_HMM.py:27-30, on an `output` of shape (n,d,2) with `n, d ≥ 1`
(`min` of an empty array is a ValueError, the first branch; `output[0]` for `n = 0` is an IndexError). -/
def mkGoHMM [FloorRing K] {n d : ℕ} (matrix : Fin n → Fin n → K) (mu sigma : Fin n → Fin d → K) (initial : InitArg K) :
    Py (GoHMMObj K n d) := do
  if n = 0 then .error .indexError
  else if d = 0 ∨ ∃ i j, sigma i j < 0 then .error .valueError
  else
    let init ← modelInit n initial
    if ¬ ∀ i, checkProbabilities (List.ofFn (matrix i)) = true then .error .valueError
    else return { matrix := matrix, mu := mu, sigma := sigma, initialState := init }

/-! ### updateLabelling -/

/-- A labelled model as `updateLabelling` sees it: `nb_states`, `labelling`, `initial_state`. -/
structure Labelled (K : Type) where
  nbStates : ℕ
  labelling : List String
  initialState : List K

/-- Base_MC.py:50-57 `updateLabelling`: the caller's list and the model after the call. -/
def updateLabelling (M : Labelled K) (newLabels : List String) : List String × Labelled K :=
  let newLabels := if newLabels.length + 1 = M.nbStates then newLabels ++ ["init"] else newLabels
  if "init" ∈ newLabels then (newLabels, { M with labelling := newLabels }) else (newLabels, M)

/-! ### Creation functions

Each returns the value of the caller's `labelling` list after the call and the outcome of the call. -/

/-- `list(set(l))` followed by `sort()`: the distinct elements in increasing order (MC.py:325-326 and the same lines of the
other creation functions). -/
def sortedSet {α : Type} [LinearOrder α] (l : List α) : List α := l.dedup.insertionSort (· ≤ ·)

/-- MC.py:334-336 (CTMC.py:487-489, HMM.py:278-280): `res = zeros(...)` then `res[states.index(t[0])][states.index(t[1])] = t[2]`
for each transition in order. -/
def fill (states : List ℤ) (transitions : List (ℤ × ℤ × K)) : ℕ → ℕ → K :=
  transitions.foldl
    (fun m t => fun i j => if i = states.idxOf t.1 ∧ j = states.idxOf t.2.1 then t.2.2 else m i j) (fun _ _ => 0)

/-- MC.py:341-348: the row of the added state. `res[-1][initial_state] = 1.0` on a row of length `nb + 1`, or the given
list followed by 0. -/
def initRowMC (nb : ℕ) : InitArg K → Py (Fin (nb + 1) → K)
  | .int i => do
    let k ← pyIndex (nb + 1) i
    return fun s => if s = k then 1 else 0
  | .list l => if l.length ≠ nb then .error .valueError else .ok (fun s => (l ++ [0]).getD s 0)

/-- CTMC.py:494-499 and MDP.py:591-598: the same without the test of the length. Assigning an array of a wrong length
to a row is a ValueError, except for an array of length 1 (an empty list followed by 0), which numpy broadcasts. -/
def initRow (nb : ℕ) : InitArg K → Py (Fin (nb + 1) → K)
  | .int i => do
    let k ← pyIndex (nb + 1) i
    return fun s => if s = k then 1 else 0
  | .list l => if l.length = 0 then .ok (fun _ => 0)
      else if l.length ≠ nb then .error .valueError else .ok (fun s => (l ++ [0]).getD s 0)

/-- MC.py:339-340: `vstack` and `hstack` add a row and a column of zeros; the row is then replaced by the initial row. -/
def extend (nb : ℕ) (m : ℕ → ℕ → K) (last : Fin (nb + 1) → K) : Fin (nb + 1) → Fin (nb + 1) → K :=
  fun i j => if (i : ℕ) < nb then (if (j : ℕ) < nb then m i j else 0) else last j

/-- The state ids of a list of transitions (MC.py:325-326). -/
def stateIds (transitions : List (ℤ × ℤ × K)) : List ℤ :=
  sortedSet (transitions.map (·.1) ++ transitions.map (·.2.1))

/-- MC.py:321-350 `createMC`. -/
def createMC [FloorRing K] (transitions : List (ℤ × ℤ × K)) (labelling : List String) (initial : InitArg K) :
    List String × Py (MC K String ((stateIds transitions).length + 1)) :=
  let states := stateIds transitions
  let nb := states.length
  if "init" ∈ labelling then (labelling, .error .syntaxError)
  else if nb > labelling.length then (labelling, .error .valueError)
  else
    let labelling := labelling ++ ["init"]
    (labelling, do
      let last ← initRowMC nb initial
      mkMC (extend nb (fill states transitions) last) labelling)

/-- The state ids at CTMC.py:476-479: those of the transitions and of the synchronous transitions
(source, action, destination, rate). -/
def stateIdsCTMC (transitions : List (ℤ × ℤ × K)) (sync : List (ℤ × String × ℤ × K)) : List ℤ :=
  sortedSet ((transitions.map (·.1) ++ transitions.map (·.2.1)) ++ (sync.map (·.1) ++ sync.map (·.2.2.1)))

/-- CTMC.py:472-500 `createCTMC`. -/
def createCTMC [FloorRing K] (transitions : List (ℤ × ℤ × K)) (sync : List (ℤ × String × ℤ × K))
    (labelling : List String) (initial : InitArg K) :
    List String × Py (CTMC K String ((stateIdsCTMC transitions sync).length + 1)) :=
  let states := stateIdsCTMC transitions sync
  let nb := states.length
  if "init" ∈ labelling then (labelling, .error .syntaxError)
  else if nb > labelling.length then (labelling, .error .valueError)
  else
    let labelling := labelling ++ ["init"]
    (labelling, do
      let last ← initRow nb initial
      mkCTMC (extend nb (fill states transitions) last) labelling)

/-- The transitions of an MDP: (source, action, destination, probability). The state ids (MDP.py:572-573). -/
def stateIdsMDP (transitions : List (ℤ × String × ℤ × K)) : List ℤ :=
  sortedSet (transitions.map (·.1) ++ transitions.map (·.2.2.1))

/-- MDP.py:575-576. -/
def actionsMDP (transitions : List (ℤ × String × ℤ × K)) : List String :=
  sortedSet (transitions.map (·.2.1))

/-- MDP.py:584-586. -/
def fillMDP (states : List ℤ) (actions : List String) (transitions : List (ℤ × String × ℤ × K)) : ℕ → ℕ → ℕ → K :=
  transitions.foldl
    (fun m t => fun i a j => if i = states.idxOf t.1 ∧ a = actions.idxOf t.2.1 ∧ j = states.idxOf t.2.2.1 then t.2.2.2
      else m i a j) (fun _ _ _ => 0)

/-- MDP.py:568-600 `createMDP`. With no action at all the initial row is never assigned. -/
def createMDP [FloorRing K] (transitions : List (ℤ × String × ℤ × K)) (labelling : List String) (initial : InitArg K) :
    List String × Py (MDP K String ((stateIdsMDP transitions).length + 1)) :=
  let states := stateIdsMDP transitions
  let nb := states.length
  let actions := actionsMDP transitions
  if "init" ∈ labelling then (labelling, .error .syntaxError)
  else if nb > labelling.length then (labelling, .error .valueError)
  else
    let labelling := labelling ++ ["init"]
    (labelling,
      if actions.length = 0 then mkMDP actions (fun _ _ _ => 0) labelling
      else do
        let last ← initRow nb initial
        mkMDP actions
          (fun i a j => extend nb (fun i j => fillMDP states actions transitions i a j) last i j)
          labelling)

/-- HMM.py:274-284 `createHMM`. `order` is the order in which `list(set(...))` gives the emitted labels (line 276): any
list with exactly these elements. `states.index` of an unknown id is a ValueError. -/
def createHMM [FloorRing K] (transitions : List (ℤ × ℤ × K)) (emission : List (ℤ × String × K)) (order : List String)
    (initial : InitArg K) : Py (HMMObj K (stateIds transitions).length) :=
  let states := stateIds transitions
  if ∃ t ∈ emission, t.1 ∉ states then .error .valueError
  else
    let output : ℕ → ℕ → K := emission.foldl
      (fun m t => fun i k => if i = states.idxOf t.1 ∧ k = order.idxOf t.2.1 then t.2.2 else m i k) (fun _ _ => 0)
    mkHMM (fun i j => fill states transitions i j) order (fun i k => output i k) initial

/-- GoHMM.py:313-325 `createGoHMM`: line 320 replaces the argument `output` by the array of the three numbers
`(nb_states, nb_distributions, 2)`, and line 322 enumerates its first element, a number: a TypeError. Before that
`output[0]` raises IndexError on an empty list. -/
def createGoHMM {n d : ℕ} (_transitions : List (ℤ × ℤ × K)) (output : List (List (K × K))) (_initial : InitArg K) :
    Py (GoHMMObj K n d) :=
  if output.length = 0 then .error .indexError else .error .typeError

/-! ### Random models

`draws s k` is the k-th draw of the s-th call of `randomProbabilities`; `choice k` is the position drawn by
`random.choices` for the k-th missing label. The number of states is a natural number. -/

/-- One label drawn by `choices`: `k` is the drawn position. -/
def labelAt (labelling : List String) (k : ℕ) : Py String :=
  match labelling[k]? with
  | some l => .ok l
  | none => .error .indexError

/-- Base_MC.py:145-165 `labelsForRandomModel`. `choices` on an empty population is an IndexError. -/
def labelsForRandomModel (nb : ℕ) (labelling : List String) (choice : ℕ → ℕ) : Py (List String) := do
  if "init" ∈ labelling then .error .syntaxError
  else
    let more ← (List.range (nb - labelling.length)).mapM (fun k => labelAt labelling (choice k))
    return labelling.take (min labelling.length nb) ++ more ++ ["init"]

/-- A matrix given by its rows. -/
def ofRows (rows : List (List K)) (i j : ℕ) : K := (rows.getD i []).getD j 0

/-- The last row of a random labelled model (MC.py:272-275): a random distribution followed by 0, or state 0. -/
def lastRow (nb : ℕ) (randomInit : Bool) (draws : ℕ → ℕ) : Py (List K) :=
  if randomInit then (randomProbabilities draws (.int nb)).map (· ++ [0]) else .ok (1 :: List.replicate nb 0)

/-- MC.py:266-279 `MC_random`. -/
def MC_random [FloorRing K] (nb : ℕ) (labelling : List String) (randomInit : Bool) (draws : ℕ → ℕ → ℕ)
    (choice : ℕ → ℕ) : Py (MC K String (nb + 1)) := do
  let rows ← (List.range nb).mapM (fun s => (randomProbabilities (draws s) (.int nb)).map (· ++ [(0 : K)]))
  let last ← lastRow nb randomInit (draws nb)
  let labels ← labelsForRandomModel nb labelling choice
  mkMC (fun i j => ofRows (rows ++ [last]) i j) labels

/-- CTMC.py:404-409: the row of state `s` before line 411. `insert(p,i,0.0)` is `List.insertIdx`. -/
def ctmcRow (nb s : ℕ) (selfLoop : Bool) (draws : ℕ → ℕ) : Py (List K) :=
  if selfLoop then randomProbabilities draws (.int nb)
  else (randomProbabilities draws (.int ((nb : ℤ) - 1))).map (fun p => p.insertIdx s (0 : K))

/-- CTMC.py:398-424 `CTMC_random`. `wait s` is the value of
`randint(min_exit_rate_time,max_exit_rate_time)` for state `s` (line 410); a waiting time 0 divides by zero and is not
modelled (`wait` is positive in the theorems). The last row of the `(nb+1, nb)` array when the initial state is not
random has `nb - 1` zeros: for `nb = 0` this is an array of length 1 assigned to a row of length 0, a ValueError. -/
def CTMC_random [FloorRing K] (nb : ℕ) (labelling : List String) (selfLoop randomInit : Bool) (draws : ℕ → ℕ → ℕ)
    (wait : ℕ → ℕ) (choice : ℕ → ℕ) : Py (CTMC K String (nb + 1)) := do
  let rows ← (List.range nb).mapM (fun s =>
    (ctmcRow nb s selfLoop (draws s)).map (fun p => p.map (· / (wait s : K)) ++ [0]))
  let last ← if nb = 0 then .error .valueError else lastRow nb randomInit (draws nb)
  let labels ← labelsForRandomModel nb labelling choice
  mkCTMC (fun i j => ofRows (rows ++ [last]) i j) labels

/-- MDP.py:511-519, one row of a deterministic random MDP: `order` is `list(set(labelling))`, `dest o` the position drawn
by `choices` among those labelled `o`; `p[i] = j` raises IndexError when `i` is not a state. -/
def detRow (nb : ℕ) (labelling order : List String) (dest : String → ℕ) (draws : ℕ → ℕ) : Py (List K) := do
  let positions := order.map (fun o => ((List.range labelling.length).filter (fun i => labelling[i]? = some o)).getD (dest o) 0)
  let probs ← randomProbabilities draws (.int order.length)
  if ∃ i ∈ positions, nb ≤ i then .error .indexError
  else return (positions.zip probs).foldl (fun p ij => p.set ij.1 ij.2) (List.replicate nb 0)

/-- MDP.py:510-521: the row of a state and an action, with the added column. -/
def mdpRow (nb : ℕ) (labelling : List String) (deterministic : Bool) (order : List String) (dest : String → ℕ)
    (draws : ℕ → ℕ) : Py (List K) :=
  if deterministic then (detRow nb labelling order dest draws).map (· ++ [(0 : K)])
  else (randomProbabilities draws (.int nb)).map (· ++ [(0 : K)])

/-- MDP.py:504-536 `MDP_random`. `draws s a` are the draws for state `s` and action `a`. -/
def MDP_random [FloorRing K] (nb : ℕ) (labelling actions : List String) (randomInit deterministic : Bool)
    (order : List String) (dest : ℕ → ℕ → String → ℕ) (draws : ℕ → ℕ → ℕ → ℕ) (choice : ℕ → ℕ) :
    Py (MDP K String (nb + 1)) := do
  let rows ← (List.range nb).mapM (fun s => (List.range actions.length).mapM (fun a =>
    mdpRow nb labelling deterministic order (dest s a) (draws s a)))
  let last ← lastRow nb randomInit (draws nb 0)
  let labels ← labelsForRandomModel nb labelling choice
  mkMDP actions (fun i a j => ofRows ((rows ++ [List.replicate actions.length last]).getD i []) a j) labels

/-- HMM.py:215-218: the two rows of a state. -/
def hmmRows (nb m : ℕ) (draws1 draws2 : ℕ → ℕ) : Py (List K × List K) := do
  let p1 ← randomProbabilities draws1 (.int nb)
  let p2 ← randomProbabilities draws2 (.int m)
  return (p1, p2)

/-- HMM.py:222-225 and GoHMM.py:270-273. -/
def randomInitArg (nb : ℕ) (randomInit : Bool) (draws : ℕ → ℕ) : Py (InitArg K) :=
  if randomInit then (randomProbabilities draws (.int nb)).map InitArg.list else .ok (.int 0)

/-- HMM.py:210-228 `HMM_random`: `draws (2*s)` and `draws (2*s+1)` are the draws for the two rows of state `s`. -/
def HMM_random [FloorRing K] (nb : ℕ) (alphabet : List String) (randomInit : Bool) (draws : ℕ → ℕ → ℕ) :
    Py (HMMObj K nb) := do
  let rows ← (List.range nb).mapM (fun s => hmmRows nb alphabet.length (draws (2 * s)) (draws (2 * s + 1)))
  let init ← randomInitArg nb randomInit (draws (2 * nb))
  mkHMM (fun i j => ofRows (rows.map (·.1)) i j) alphabet (fun i k => ofRows (rows.map (·.2)) i k) init

/-- GoHMM.py:256-276 `GoHMM_random`. `u s j` and `v s j` are the values of the two calls of `random.uniform` (line 264),
already rounded to three digits. -/
def GoHMM_random [FloorRing K] (nb d : ℕ) (randomInit : Bool) (draws : ℕ → ℕ → ℕ) (u v : ℕ → ℕ → K) :
    Py (GoHMMObj K nb d) := do
  let rows ← (List.range nb).mapM (fun s => (randomProbabilities (draws s) (.int nb) : Py (List K)))
  let init ← randomInitArg nb randomInit (draws nb)
  mkGoHMM (fun i j => ofRows rows i j) (fun i j => u i j) (fun i j => v i j) init

end Jajapy
