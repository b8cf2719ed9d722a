import Verif.Model.Storm

/-!
Model of the calls that convert any model to Storm or from Storm: `toStormpy` (`jajapy/base/Base_MC.py`), `jajapyModeltoStormpy` and
`stormpyModeltoJajapy` (`jajapy/with_stormpy/model_converter.py`), and of the argument `initial_model` of `BW.fit` (`jajapy/base/BW.py`).
The conversions of the various kinds of model are in Model/Storm.lean.
-/

namespace Jajapy.Storm

variable {K : Type}

/-- A jajapy model. The classes MC, MDP and CTMC inherit from `Base_MC`, HMM and GoHMM from `Base_HMM`, PCTMC from `Parametric_Model`. -/
inductive Obj (K : Type)
  | mc (n : ℕ) (M : MC K String n)
  | mdp (n : ℕ) (M : MDP K String n)
  | ctmc (n : ℕ) (M : CTMC K String n)
  | pctmc (M : PCTMC K)
  | hmm (n : ℕ) (M : HMMObj K n)
  | gohmm (n d : ℕ) (M : GoHMMObj K n d)

/-- A Storm model, with its type; `other` is any type that the code does not know. -/
inductive SObj (K : Type)
  | dtmc (S : Sparse K)
  | mdp (S : Sparse K)
  | ctmc (S : Sparse (Option K))
  | pctmc (S : Sparse (Expr K))
  | other

section
variable [Field K] [LinearOrder K] [FloorRing K]

/-- model_converter.py:141-171 `jajapyModeltoStormpy`. -/
def convert : Obj K → Py (SObj K)
  | .mdp _ M => .ok (.mdp (ofMDP M))
  | .ctmc _ M => .ok (.ctmc (ofCTMC M))
  | .mc _ M => .ok (.dtmc (ofMC M))
  | .pctmc M => do return .ctmc (← ofPCTMC M)
  | .hmm _ _ => .error .typeError
  | .gohmm _ _ _ => .error .typeError

/-- Base_MC.py:129-143 `toStormpy`, a method of the classes that inherit from `Base_MC`; for the others there is no such attribute. `installed`: whether
stormpy can be imported. -/
def toStormpy (installed : Bool) (x : Obj K) : Py (SObj K) :=
  match x with
  | .mc _ _ | .mdp _ _ | .ctmc _ _ => if installed then convert x else .error .runtimeError
  | _ => .error .attributeError

/-- model_converter.py:12-139 `stormpyModeltoJajapy` with `from_prism=False`. `order` is the order of `list(set(actions))` (line 55), for MDPs. The result `none` is a
CTMC with entries `nan`. -/
def back (order : List String) : SObj K → Py (Option (Obj K))
  | .dtmc S => do let M ← toMC S; return some (.mc _ M.2)
  | .mdp S => do let M ← toMDP S order; return some (.mdp _ M.2)
  | .ctmc S => do return (← toCTMC S false).map (fun M => .ctmc _ M.2)
  | .pctmc S => do return some (.pctmc (← toPCTMC S))
  | .other => .error .typeError

/-- The argument `initial_model` of `fit`. -/
inductive InitArg (K : Type)
  | nothing
  | jajapy (x : Obj K)
  | storm (Z : SObj K)

/-- What the learning starts from: a random model (drawn later), a model (`self.h`), or a CTMC with entries `nan`. -/
inductive Start (K : Type)
  | random (nbStates : ℕ)
  | model (x : Obj K)
  | nan

/-- BW.py:1415-1432 `_getInitialModel`. A model without attribute `name` is a Storm model (lines 1425-1430). -/
def initialModel (installed : Bool) (order : List String) (arg : InitArg K) (nbStates : Option ℕ) : Py (Start K) :=
  match arg with
  | .nothing => match nbStates with
    | none => .error .runtimeError
    | some k => .ok (.random k)
  | .jajapy x => .ok (.model x)
  | .storm Z =>
    if installed then do
      match ← back order Z with
      | some x => return .model x
      | none => return .nan
    else .error .runtimeError

end
end Jajapy.Storm
