import Mathlib.Analysis.SpecialFunctions.Exp
import Mathlib.Analysis.SpecialFunctions.Trigonometric.Basic
import Mathlib.Analysis.SpecialFunctions.Sqrt
import Verif.Model.BW

/-!
Model of the class `GoHMM` (`jajapy/gohmm/GoHMM.py`) and of its Baum-Welch update (`jajapy/base/BW.py` 809-859).

Simplifications: numbers are reals (no rounding, overflow or NaN, so the `isnan` test of BW.py:812-813 never holds); an
observation is a vector with exactly `nb_distributions` entries. The number of states is `n`, `nb_distributions` is `d`.
-/

namespace Jajapy

open Finset Tools

/-- The attributes of a GoHMM (GoHMM.py:32-49): `mu s i` is `output[s][i][0]` and `sigma s i` is `output[s][i][1]`. -/
structure GoHMM (n d : ℕ) where
  matrix : Fin n → Fin n → ℝ
  mu : Fin n → Fin d → ℝ
  sigma : Fin n → Fin d → ℝ
  initialState : Fin n → ℝ

namespace GoHMM

variable {n d : ℕ}

open Classical in
/-- GoHMM.py:104-127 `b_n`. -/
noncomputable def bn (M : GoHMM n d) (s : Fin n) (i : Fin d) (l : ℝ) : ℝ :=
  if M.sigma s i ≤ 0 then (if l = M.mu s i then 1 else 0)
  else Real.exp (-0.5 * ((M.mu s i - l) / M.sigma s i) ^ 2) / (M.sigma s i * Real.sqrt (2 * Real.pi))

/-- GoHMM.py:83-102 `b`: the product over the entries of the observation. -/
noncomputable def b (M : GoHMM n d) (s : Fin n) (l : Fin d → ℝ) : ℝ := ∏ i, M.bn s i (l i)

/-- GoHMM.py:146-165 `tau`, i.e. Base_HMM.py:61-80. -/
noncomputable def tau (M : GoHMM n d) (s1 s2 : Fin n) (obs : Fin d → ℝ) : ℝ := M.matrix s1 s2 * M.b s1 obs

/-- The methods of a GoHMM used by the abstract class. -/
noncomputable def iface (M : GoHMM n d) : Iface ℝ (Fin d → ℝ) n := { tau := M.tau, b := M.b, init := M.initialState }

/-- GoHMM.py:129-144 `next_obs`. `normal i` is the standard normal variate behind the draw for entry `i`: numpy's
`normal(loc, scale)` returns `loc + scale * z`. -/
noncomputable def nextObs (M : GoHMM n d) (s : Fin n) (normal : Fin d → ℝ) : Fin d → ℝ :=
  fun i => M.mu s i + M.sigma s i * normal i

/-- Base_HMM.py:124-139 `next`: the next state is drawn first, then the observation (of the state that is left). -/
noncomputable def next (M : GoHMM n d) (state : Fin n) (r : ℝ) (normal : Fin d → ℝ) : Py (Fin n × (Fin d → ℝ)) := do
  let c ← pick (M.matrix state) r
  return (c, M.nextObs state normal)

/-- Model.py:132-135, the loop of `run`. -/
noncomputable def runLoop (M : GoHMM n d) : ℕ → (ℕ → ℝ) → (ℕ → Fin d → ℝ) → Fin n → Py (List (Fin d → ℝ))
  | 0, _, _, _ => .ok []
  | steps + 1, draws, normals, current => do
    let ns ← M.next current (draws 0) (normals 0)
    let rest ← runLoop M steps (fun k => draws (k+1)) (fun k => normals (k+1)) ns.1
    return ns.2 :: rest

/-- Model.py:109-137 `run(number_steps)` with the default `current = -1`. -/
noncomputable def run (M : GoHMM n d) (steps : ℕ) (draws : ℕ → ℝ) (normals : ℕ → Fin d → ℝ) : Py (List (Fin d → ℝ)) := do
  let current ← pick M.initialState (draws 0)
  M.runLoop steps (fun k => draws (k+1)) normals current

end GoHMM

namespace BW
variable {n d : ℕ}

/-- What `_processWork_GoHMM` returns: `[den,num_a,num_mu,num_va,proba_seq,times,num_init]`. -/
structure WorkGoHMM (n d : ℕ) where
  den : Fin n → ℝ
  numA : Fin n → Fin n → ℝ
  numMu : Fin n → Fin d → ℝ
  numVa : Fin n → Fin d → ℝ
  proba : ℝ
  times : ℕ
  numInit : Fin n → ℝ

open Classical in
/-- BW.py:809-829 `_processWork_GoHMM` for a non-empty sequence (for an empty one the sums over axis 1 of a
one-dimensional array raise an exception). The mean in `num_va` is the one of the current hypothesis (line 823). -/
noncomputable def processWorkGoHMM (M : GoHMM n d) (seq : List (Fin d → ℝ)) (times : ℕ) : Option (WorkGoHMM n d) :=
  let al := alphas M.tau M.initialState seq
  let be := betas M.tau (fun _ => 1) seq
  let p := lastSum al
  if p = 0 then none
  else some { den := visits (fun _ => 1) (times / p) al be seq,
              numA := uses M.tau (fun _ => 1) (times / p) al be seq,
              numMu := fun s i => visits (fun o => o i) (times / p) al be seq s,
              numVa := fun s i => visits (fun o => (o i - M.mu s i) ^ 2) (times / p) al be seq s,
              proba := p, times := times,
              numInit := fun s => al.headD (fun _ => 0) s * be.headD (fun _ => 0) s * times / p }

open Classical in
/-- BW.py:831-859 `_update_GoHMM`. When `den[s]` is 0 the current `sigma` is put in `va` and its square root is taken
(lines 843-849). -/
noncomputable def updateGoHMM (M : GoHMM n d) (temp : List (WorkGoHMM n d)) : GoHMM n d :=
  let den := fun s => (temp.map (fun w => w.den s)).sum
  let a := fun s ss => (temp.map (fun w => w.numA s ss)).sum
  let mu := fun s i => (temp.map (fun w => w.numMu s i)).sum
  let va := fun s i => (temp.map (fun w => w.numVa s i)).sum
  let init := fun s => (temp.map (fun w => w.numInit s)).sum
  { matrix := fun s ss => if den s = 0 then M.matrix s ss else a s ss / den s
    mu := fun s i => if den s = 0 then M.mu s i else mu s i / den s
    sigma := fun s i => Real.sqrt (if den s = 0 then M.sigma s i else va s i / den s)
    initialState := fun s => init s / ∑ s', init s' }

/-- The results of the workers for the whole training set. -/
noncomputable def workGoHMM (processes : ℕ) (S : TSet (Fin d → ℝ)) (M : GoHMM n d) : Py (List (WorkGoHMM n d)) :=
  collect .typeError processes ((S.sequences.zip S.times).map (fun p => processWorkGoHMM M p.1 p.2))

/-- One iteration of the learning of a GoHMM. -/
noncomputable def stepGoHMM (processes : ℕ) (S : TSet (Fin d → ℝ)) (M : GoHMM n d) : Py (GoHMM n d × ℝ) := do
  let temp ← workGoHMM processes S M
  return (updateGoHMM M temp, logLik (temp.map (fun w => (w.proba, w.times))))

end BW
end Jajapy
