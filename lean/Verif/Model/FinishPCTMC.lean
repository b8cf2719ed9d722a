import Verif.Model.Finish
import Verif.Model.PFit
import Verif.Model.PFiles

/-!
Model of the calls of `fit`, `fit_parameters` and `fit_nonInstantiatedParameters` on a PCTMC with their options (`jajapy/base/BW.py`, lines 155-171, 228-325 and
1402-1412): the files that they write and what they return.
-/

namespace Jajapy

open BW

namespace PCTMC

/-- BW.py:162-168, 228-276: what `_preparation` leaves in the learner: the first hypothesis, the sorted parameters and the training set. `none`: the random
instantiation is still running after the given rounds. -/
noncomputable def ready (S : Traces) (M : PCTMC ℝ) (fixedArg : FixedArg) (lo hi : Option ℝ) (rounds : List (List ℝ)) :
    Py (Option (PCTMC ℝ × Cats ℝ × Traces)) := do
  let S' ← prepare S
  match ← M.randomInstantiation none lo hi rounds with
  | none => return none
  | some M' =>
    let fixed ← fixedArg.resolve M'
    let C ← M'.sortParameters fixed
    return some (M', C, S')

/-- BW.py:294-296: one iteration. -/
noncomputable def iteration (processes : ℕ) (C : Cats ℝ) (constants : Bool) : Traces → PCTMC ℝ → Py (PCTMC ℝ × ℝ)
  | .timed S => fitStep processes C constants S
  | .untimed S => fitStepUntimed processes S

/-- `BW.fit` on a PCTMC with the name `name` and the options `o`; `none`: the random instantiation is still running after the given rounds. -/
noncomputable def callFit (printable : Char → Bool) (IO : Files.FloatIO ℝ) (EIO : Files.ExprIO ℝ) (name : List Char) (o : Options) (processes : ℕ) (S : Traces)
    (M : PCTMC ℝ) (fixedArg : FixedArg) (constants : Bool) (epsilon : ℝ) (maxIt : ℕ) (lo hi : Option ℝ) (rounds : List (List ℝ)) :
    Option (Outcome (Returned (PCTMC ℝ) (Storm.Sparse (Option ℝ)))) :=
  match M.ready S fixedArg lo hi rounds with
  | .error e => some ⟨none, none, .error e⟩
  | .ok none => none
  | .ok (some (M0, C, S')) => some (BW.call (fun M => Files.savePCTMC printable IO EIO M name) (fun M => Prism.savePCTMC IO EIO M name) Storm.ofPCTMC true o
      (iteration processes C constants S') epsilon maxIt M0)

/-- BW.py:1402-1412: the end of `fit_parameters`, with `return_data`: the dictionary (`none` is `nan`), and `learning_rounds` and `training_set_loglikelihood`. -/
noncomputable def estimateData (processes : ℕ) (S : Traces) (M : PCTMC ℝ) (toUpdate : List String) (epsilon : ℝ) (maxIt : ℕ) (data : Bool) :
    Py (List (String × Option ℝ) × Option (ℕ × ℝ)) := do
  let C ← M.sortParameters (M.names.filter (fun p => p ∉ toUpdate))
  let st ← BW.fit (estimateStep processes C S) epsilon maxIt M
  let r ← BW.returned (R := Empty) data st (.inl st.h)
  return (toUpdate.map (fun p => (p, st.h.values.lookup p)), r.info)

/-- BW.py:1264-1412 `fit_parameters` with `return_data` (see `fitParameters`). -/
noncomputable def fitParametersData (processes : ℕ) (S : Traces) (M : PCTMC ℝ) (toUpdate : List String) (epsilon : ℝ) (maxIt : ℕ)
    (lo hi : Option ℝ) (rounds : List (List ℝ)) (data : Bool) : Py (Option (List (String × Option ℝ) × Option (ℕ × ℝ))) := do
  if ∃ p ∈ toUpdate, p ∉ M.names then .error .runtimeError
  else
    let alphabet ← labelsOf S
    let S' ← prepare S
    match ← (M.reduceForTraces alphabet).start lo hi rounds with
    | none => return none
    | some M' => return some (← estimateData processes S' M' toUpdate epsilon maxIt data)

end PCTMC
end Jajapy
