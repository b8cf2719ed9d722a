import Verif.Model.BW
import Verif.Model.MDP
import Verif.Model.CTMC
import Verif.Model.GoHMM
import Verif.Model.Files
import Verif.Model.Prism
import Verif.Model.Storm

/-!
Model of the end of `BW._bw` (`jajapy/base/BW.py`, lines 307-325): the files that `fit` writes and what it returns.
-/

namespace Jajapy
namespace BW

/-- The options of `fit` that concern its results: `output_file` and `output_file_prism` (whether a path is given), `stormpy_output` (after line 158, which sets it
to False if Storm is not installed) and `return_data`. -/
structure Options where
  file : Bool
  prism : Bool
  storm : Bool
  data : Bool

/-- What `fit` returns: a jajapy model or a Storm model and, with `return_data`, `learning_rounds` and `training_set_loglikelihood`. -/
structure Returned (H R : Type) where
  model : H ⊕ R
  info : Option (ℕ × ℝ)

/-- What a call leaves: the text of the two files, if they are written, and the value or the exception. A Prism file that is left unfinished because `savePrism`
raises an exception counts as not written. -/
structure Outcome (A : Type) where
  file : Option (List Char)
  prism : Option (List Char)
  result : Py A

/-- BW.py:321-325: the returned value. -/
def returned {H R : Type} (data : Bool) (st : LoopState H) (model : H ⊕ R) : Py (Returned H R) :=
  if data then
    match st.ll with
    | some ll => .ok ⟨model, some (st.counter, ll)⟩
    | none => .error .unboundLocalError
  else .ok ⟨model, none⟩

/-- BW.py:318-325: the conversion to Storm and the returned value. -/
def finishStorm {H R : Type} (convert : H → Py R) (chain : Bool) (o : Options) (st : LoopState H) : Py (Returned H R) :=
  if o.storm && chain then do
    let r ← convert st.h
    returned o.data st (.inr r)
  else returned o.data st (.inl st.h)

/-- BW.py:307-325: the end of `_bw`, after the loop. `save` and `savePrism` are the texts of the files, `convert` is the conversion to Storm; `chain` is false for
HMMs and GoHMMs. -/
def finish {H R : Type} (save : H → List Char) (savePrism : H → Py (List Char)) (convert : H → Py R) (chain : Bool) (o : Options) (st : LoopState H) :
    Outcome (Returned H R) :=
  let file := if o.file then some (save st.h) else none
  if o.prism && chain then
    match savePrism st.h with
    | .ok t => ⟨file, some t, finishStorm convert chain o st⟩
    | .error e => ⟨file, none, .error e⟩
  else ⟨file, none, finishStorm convert chain o st⟩

/-- BW.py:278-325 `_bw`. -/
noncomputable def call {H R : Type} (save : H → List Char) (savePrism : H → Py (List Char)) (convert : H → Py R) (chain : Bool) (o : Options)
    (step : H → Py (H × ℝ)) (epsilon : ℝ) (maxIt : ℕ) (h : H) : Outcome (Returned H R) :=
  match fit step epsilon maxIt h with
  | .ok st => finish save savePrism convert chain o st
  | .error e => ⟨none, none, .error e⟩

variable (printable : Char → Bool) (IO : Files.FloatIO ℝ) {n : ℕ}

/-- `BW.fit` on a MC with the name `name`. -/
noncomputable def callMC (name : List Char) (o : Options) (processes : ℕ) (S : TSet String) (epsilon : ℝ) (maxIt : ℕ) (M : MC ℝ String n) :
    Outcome (Returned (MC ℝ String n) (Storm.Sparse ℝ)) :=
  call (fun M => Files.saveMC printable IO M name) (fun M => Prism.saveMC IO M name) (fun M => .ok (Storm.ofMC M)) true o (stepMC processes S) epsilon maxIt M

/-- `BW.fit` on a MDP with the name `name`. -/
noncomputable def callMDP (name : List Char) (o : Options) (processes : ℕ) (S : TSet String) (epsilon : ℝ) (maxIt : ℕ) (M : MDP ℝ String n) :
    Outcome (Returned (MDP ℝ String n) (Storm.Sparse ℝ)) :=
  call (fun M => Files.saveMDP printable IO M name) (fun M => Prism.saveMDP IO M name) (fun M => .ok (Storm.ofMDP M)) true o (stepMDP processes S) epsilon maxIt M

/-- `BW.fit` on a CTMC with the name `name`, with timed traces; `fixed` are the fixed transitions. -/
noncomputable def callCTMC (name : List Char) (o : Options) (processes : ℕ) (fixed : Fin n → Fin n → Bool) (S : TSet (Sym String)) (epsilon : ℝ) (maxIt : ℕ)
    (M : CTMC ℝ String n) : Outcome (Returned (CTMC ℝ String n) (Storm.Sparse (Option ℝ))) :=
  call (fun M => Files.saveCTMC printable IO M name) (fun M => Prism.saveCTMC IO M name) (fun M => .ok (Storm.ofCTMC M)) true o (stepTimed processes fixed S)
    epsilon maxIt M

/-- The object of a HMM. -/
def HMMObj.of {K : Type} (M : HMM K String n) : HMMObj K n :=
  { matrix := M.matrix, alphabet := M.alphabet, output := M.output, initialState := List.ofFn M.initialState }

/-- The object of a GoHMM. -/
def GoHMMObj.of {d : ℕ} (M : GoHMM n d) : GoHMMObj ℝ n d :=
  { matrix := M.matrix, mu := M.mu, sigma := M.sigma, initialState := List.ofFn M.initialState }

/-- `BW.fit` on a HMM with the name `name`: no Prism file, no conversion to Storm (HMMs do not have these methods). -/
noncomputable def callHMM (name : List Char) (o : Options) (processes : ℕ) (S : TSet String) (epsilon : ℝ) (maxIt : ℕ) (M : HMM ℝ String n) :
    Outcome (Returned (HMM ℝ String n) Empty) :=
  call (fun M => Files.saveHMM printable IO (HMMObj.of M) name) (fun _ => .error .attributeError) (fun _ => .error .attributeError) false o
    (stepHMM processes S) epsilon maxIt M

/-- `BW.fit` on a GoHMM with the name `name`. -/
noncomputable def callGoHMM {d : ℕ} (name : List Char) (o : Options) (processes : ℕ) (S : TSet (Fin d → ℝ)) (epsilon : ℝ) (maxIt : ℕ) (M : GoHMM n d) :
    Outcome (Returned (GoHMM n d) Empty) :=
  call (fun M => Files.saveGoHMM printable IO (GoHMMObj.of M) name) (fun _ => .error .attributeError) (fun _ => .error .attributeError) false o
    (stepGoHMM processes S) epsilon maxIt M

end BW
end Jajapy
