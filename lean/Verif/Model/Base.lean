import Mathlib.Algebra.BigOperators.Group.Finset.Basic
import Mathlib.Algebra.BigOperators.Fin
import Mathlib.Algebra.Field.Basic
import Mathlib.Analysis.SpecialFunctions.Log.Basic
import Verif.Model.TSet

/-!
Model of the likelihood functions of `jajapy/base/Model.py` (lines 216-381).

These functions are methods of the abstract class `Model`; they only use the methods `tau`, `b` of the concrete class,
and the attribute `initial_state`. The structure `Iface` contains exactly these three ingredients; each concrete class
(MC, HMM, CTMC) provides one. `n` is `nb_states`.
-/

namespace Jajapy

open Finset

/-- What the abstract class uses of a concrete model: `tau(s1,s2,obs)`, `b(s,obs)`, `initial_state[s]`. -/
structure Iface (K O : Type) (n : ℕ) where
  tau : Fin n → Fin n → O → K
  b : Fin n → O → K
  init : Fin n → K

namespace Iface

variable {K O : Type} {n : ℕ} [Field K]

/-- One step of the forward algorithm: Model.py:281-283 and Model.py:370-374
(`new_arr[s] = dot(prev_arr, [tau(ss,s,o) for ss in range(nb_states)])`). -/
def fwdStep (M : Iface K O n) (v : Fin n → K) (o : O) : Fin n → K :=
  fun s => ∑ ss, v ss * M.tau ss s o

/-- Model.py:369-375: the loop over `range(len_seq-1)` followed by the multiplication by `b(s,sequence[-1])`.
Arguments: `prev_arr`, the current symbol, the remaining symbols. -/
def seqLoop (M : Iface K O n) : (Fin n → K) → O → List O → (Fin n → K)
  | v, o, [] => fun s => v s * M.b s o
  | v, o, o' :: os => seqLoop M (M.fwdStep v o) o' os

/-- `prev_arr.sum()` at Model.py:377. `sequence[-1]` raises IndexError on an empty sequence. -/
def seqProb (M : Iface K O n) : List O → Py K
  | [] => .error .indexError
  | o :: os => .ok (∑ s, M.seqLoop M.init o os s)

/-- Model.py:351-381 `_computeAlphas`: `none` stands for the returned `False` (`math.log` raises ValueError on a
number that is not positive). In the code `prev_arr` may be the array `self.initial_state` itself (one-symbol
sequences) and is then overwritten; the method is only called in a worker process (line 343), on a copy of the model,
so this is not visible. -/
noncomputable def computeAlphas (M : Iface ℝ O n) (seq : List O) (times : ℕ) : Py (Option ℝ) := do
  let p ← M.seqProb seq
  return if 0 < p then some (Real.log p * times) else none

open Classical in
/-- Model.py:344, the test `res.get() != False`: as `0.0 == False` in Python it also drops the value 0. -/
noncomputable def keepResult : Option ℝ → Option ℝ
  | some x => if x ≠ 0 then some x else none
  | none => none

open Classical in
/-- Model.py:339-349 `_logLikelihood_multiproc`. `cpus` is `cpu_count()`; `Pool(processes=0)` raises ValueError.
The exceptions of the workers are raised again by `res.get()`. -/
noncomputable def logLikelihoodMultiproc (M : Iface ℝ O n) (cpus : ℕ) (S : TSet O) : Py ℝ :=
  if cpus < 2 then .error .valueError
  else do
    let res ← (S.sequences.zip S.times).mapM (fun p => M.computeAlphas p.1 p.2)
    let temp := res.filterMap keepResult
    let s := temp.sum
    return if s = 0 then 0 else s / (S.times.sum : ℕ)

/-- Model.py:286-303 `_initAlphaMatrix`: the row `initial_state` followed by `len_seq` rows of zeros. -/
def initAlphaMatrix (M : Iface K O n) (lenSeq : ℕ) : List (Fin n → K) :=
  M.init :: List.replicate lenSeq (fun _ => 0)

/-- Model.py:274-279: give the table `len(sequence)+1` rows, adding rows of zeros or keeping the first ones
(`vsplit(alpha_matrix,[len(alpha_matrix)-diff_size,…])[0]`). -/
def resize (lenSeq : ℕ) (alpha : List (Fin n → K)) : List (Fin n → K) :=
  if alpha.length < lenSeq + 1 then alpha ++ List.replicate (lenSeq + 1 - alpha.length) (fun _ => 0)
  else alpha.take (lenSeq + 1)

/-- Model.py:281-283, the body of the loop for a given `k`. (The accesses are in range.) -/
def updateRow (M : Iface K O n) (seq : List O) (alpha : List (Fin n → K)) (k : ℕ) : List (Fin n → K) :=
  match alpha[k]?, seq[k]? with
  | some v, some o => alpha.set (k+1) (M.fwdStep v o)
  | _, _ => alpha

/-- Model.py:240-284 `_updateAlphaMatrix`. -/
def updateAlphaMatrix (M : Iface K O n) (seq : List O) (common : ℕ) (alpha : List (Fin n → K)) : List (Fin n → K) :=
  (List.range' common (seq.length - common)).foldl (M.updateRow seq) (resize seq.length alpha)

/-- Model.py:326-331: the number of leading symbols shared with the previous sequence. -/
def commonPrefix [DecidableEq O] : List O → List O → ℕ
  | a :: as, b :: bs => if a ≠ b then 0 else commonPrefix as bs + 1
  | _, _ => 0

/-- Model.py:323-335, the loop over the sequences: previous sequence (`none` for the first), table, accumulated value. -/
noncomputable def oneprocLoop [DecidableEq O] (M : Iface ℝ O n) :
    List (List O × ℕ) → Option (List O) → List (Fin n → ℝ) → ℝ → ℝ
  | [], _, _, ll => ll
  | (seq, times) :: rest, prev, alpha, ll =>
    let common := match prev with
      | none => 0
      | some p => commonPrefix p seq
    let alpha := M.updateAlphaMatrix seq common alpha
    let s := ∑ i, (alpha.getLast?.getD (fun _ => 0)) i
    oneprocLoop M rest (some seq) alpha (if 0 < s then ll + Real.log s * times else ll)

/-- Model.py:305-337 `_logLikelihood_oneproc`. The set is sorted first (line 320; the caller's set is changed);
`sequences.sequences[0]` raises IndexError on an empty set. -/
noncomputable def logLikelihoodOneproc [LinearOrder O] (M : Iface ℝ O n) (S : TSet O) : Py ℝ :=
  let S := S.sort
  match S.sequences with
  | [] => .error .indexError
  | s0 :: _ =>
    .ok (M.oneprocLoop (S.sequences.zip S.times) none (M.initAlphaMatrix s0.length) 0 / (S.times.sum : ℕ))

end Iface
end Jajapy
