import Verif.Model.Finish
import Verif.Model.Alergia
import Verif.Model.IOAlergia
import Verif.Model.Active

/-!
Model of the end of `fit` of the other learners: `Alergia` (`jajapy/mc/Alergia.py`, lines 206-223), `IOAlergia` (`jajapy/mdp/IOAlergia.py`, lines 543-561) and
`Active_BW_MDP` (`jajapy/mdp/Active_BW_MDP.py`, lines 200-270).
-/

namespace Jajapy

open BW

/-- Alergia.py:208-223 and IOAlergia.py:545-561, the end of `fit` for the learnt model `m`; `prism`: a path is given for `output_file_prism`; `storm`: the value of
`stormpy_output` after line 215 (552), False if Storm is not installed. These learners have no attribute `h`, which lines 218 and 556 read. -/
def finishMerging {H R : Type} (convert : H → R) (prism storm : Bool) (m : H) : Py (H ⊕ R) :=
  if prism then .error .attributeError
  else if storm then .ok (.inr (convert m)) else .ok (.inl m)

/-- Alergia.py:190-223 `fit`. -/
def Alergia.call (K : Type) [Field K] [LinearOrder K] [FloorRing K] (bound : ℕ → ℕ → ℕ → ℕ → Py Bool) (prism storm : Bool) (S : TSet String) :
    Py (Option ((Σ states : List ℕ, MC K String states.length) ⊕ Storm.Sparse K)) := do
  match ← Alergia.fit K bound S with
  | none => return none
  | some m => return some (← finishMerging (fun m => Storm.ofMC m.2) prism storm m)

/-- IOAlergia.py:427-440, 514-561 `fit`, for a set of type 1. -/
def IOAlergia.call (K : Type) [Field K] [LinearOrder K] [FloorRing K] (bound : ℕ → ℕ → ℕ → ℕ → Py Bool) (prism storm : Bool) (S : TSet String) :
    Py (Option ((Σ red : List ℕ, MDP K String (red.length + 1)) ⊕ Storm.Sparse K)) := do
  match ← IOAlergia.fit K bound S with
  | none => return none
  | some m => return some (← finishMerging (fun m => Storm.ofMDP m.2) prism storm m)

namespace Active

variable {n : ℕ}

/-- What `Active_BW_MDP.fit` returns: the model and, with `return_data`, `training_set_loglikelihood` (`learning_rounds` is in Model/ActiveCount.lean; the time is not modelled). -/
structure Returned (n : ℕ) where
  model : MDP ℝ String n ⊕ Storm.Sparse ℝ
  ll : Option ℝ

/-- Active_BW_MDP.py:258-270: the conversion to Storm and the returned value. Line 264 calls `logLikelihood` on `self.h`, which is the Storm model if there was a
conversion: Storm models have no such method. (Linux: the version with several processes; `cpus` is `cpu_count()`.) -/
noncomputable def returned (cpus : ℕ) (o : Options) (total : TSet String) (M : MDP ℝ String n) : Py (Returned n) :=
  let model := if o.storm then .inr (Storm.ofMDP M) else .inl M
  if o.data then
    if o.storm then .error .attributeError
    else do
      let ll ← M.logLikelihoodMultiproc cpus total
      return ⟨model, some ll⟩
  else .ok ⟨model, none⟩

/-- Active_BW_MDP.py:248-270: the end of `fit`. -/
noncomputable def finish (save : MDP ℝ String n → List Char) (savePrism : MDP ℝ String n → Py (List Char)) (cpus : ℕ) (o : Options) (total : TSet String)
    (M : MDP ℝ String n) : Outcome (Returned n) :=
  let file := if o.file then some (save M) else none
  if o.prism then
    match savePrism M with
    | .ok t => ⟨file, some t, returned cpus o total M⟩
    | .error e => ⟨file, none, .error e⟩
  else ⟨file, none, returned cpus o total M⟩

/-- Active_BW_MDP.py:209-214: the first training saves its model at the place of `output_file_prism`. -/
def firstPrism (savePrism : MDP ℝ String n → Py (List Char)) (o : Options) (models : List (MDP ℝ String n)) (h : ℕ) : Py Unit :=
  if o.prism then
    match models[h]? with
    | some M => do
      let _ ← savePrism M
      return ()
    | none => .error .indexError
  else .ok ()

/-- Active_BW_MDP.py:209-246: the trainings. -/
noncomputable def trainings (savePrism : MDP ℝ String n → Py (List Char)) (o : Options) (train0 train : TSet String → MDP ℝ String n → Py (MDP ℝ String n))
    (lr : Rate ℝ) (samples : List (MDP ℝ String n → TSet String → Py (TSet String))) (W : Learning ℝ String n) : Py (Learning ℝ String n) := do
  let q ← superFit train0 W.total W.models W.h
  firstPrism savePrism o q.1 q.2
  rounds train lr samples ⟨q.1, q.2, W.total⟩

/-- Active_BW_MDP.py:205-270 `fit` with a `Set` and an initial model. The files of a call that raises an exception during the trainings are not modelled. -/
noncomputable def call (save : MDP ℝ String n → List Char) (savePrism : MDP ℝ String n → Py (List Char)) (cpus : ℕ) (o : Options)
    (train0 train : TSet String → MDP ℝ String n → Py (MDP ℝ String n)) (lr : Rate ℝ)
    (samples : List (MDP ℝ String n → TSet String → Py (TSet String))) (W : Learning ℝ String n) : Outcome (Returned n) :=
  match trainings savePrism o train0 train lr samples W with
  | .error e => ⟨none, none, .error e⟩
  | .ok W' =>
    match W'.models[W'.h]? with
    | none => ⟨none, none, .error .indexError⟩
    | some M => finish save savePrism cpus o W'.total M

/-- The calls of `super().fit` with `return_data=True` (lines 209-214, 228-231, 238-241), for a `Set` of traces that start with `init`: the model, or the exception
of the learning or of the access to the log-likelihood (BW.py:323). -/
noncomputable def train (processes : ℕ) (epsilon : ℝ) (maxIt : ℕ) (S : TSet String) (M : MDP ℝ String n) : Py (MDP ℝ String n) := do
  let st ← BW.fit (stepMDP processes S) epsilon maxIt M
  let _ ← BW.returned (R := Empty) true st (.inl st.h)
  return st.h

/-- `Active_BW_MDP.fit` on a MDP with the name `name` and a `Set`, without changes of the options that `super().fit` gets. `maxIt0` is `max_it`; the trainings of the
rounds do not get this argument: `maxIt` stands for their bound (infinite in the code). -/
noncomputable def callBW (printable : Char → Bool) (IO : Files.FloatIO ℝ) (name : List Char) (cpus : ℕ) (o : Options) (processes : ℕ) (epsilon : ℝ)
    (maxIt0 maxIt : ℕ) (lr : Rate ℝ) (samples : List (MDP ℝ String n → TSet String → Py (TSet String))) (M : MDP ℝ String n) (S : TSet String) :
    Outcome (Returned n) :=
  call (fun M => Files.saveMDP printable IO M name) (fun M => Prism.saveMDP IO M name) cpus o (train processes epsilon maxIt0) (train processes epsilon maxIt) lr
    samples ⟨[M], 0, S⟩

/-- Active_BW_MDP.py:219-220: the number of steps of the sampled traces; `traces` is the training set given by the caller. -/
def sequenceLength {L : Type} (given : Option ℕ) (traces : TSet L) : Py ℕ :=
  match given with
  | some k => .ok k
  | none =>
    match traces.sequences with
    | [] => .error .indexError
    | w :: _ => .ok (w.length / 2)

/-- Active_BW_MDP.py:205-270 `fit` with a list of traces: `first` is the result of the first training (on the set that `super().fit` builds). The variables
`traces` and `total_traces` hold the list, which has neither `sequences` (line 220, and `_strategy`, called by `_addTraces` on line 224) nor, for the
`logLikelihood` of line 264, what a `Set` has. -/
def callList {A : Type} (first : Py A) (given : Option ℕ) (iterations : ℕ) (data : Bool) (rest : A → Py A) : Py A := do
  let a ← first
  match given with
  | none => .error .attributeError
  | some _ =>
    if 0 < iterations then .error .attributeError
    else if data then .error .attributeError else rest a

end Active
end Jajapy
