import Verif.Model.Finish

/-!
Model of the arguments `processes` and `verbose` of `BW.fit` (`jajapy/base/BW.py`, lines 148-162), of the test for Storm (lines 271-276) and of what the call
prints (lines 200-276, 280, 292, 315-316, 1651-1658), on a given machine.
-/

set_option autoImplicit false

namespace Jajapy
namespace BW

/-- A value given for an argument that should be an `int`. `type(x) != int` holds for every other object, `True`, `None` and `2.0` included. -/
inductive IntArg
  | int (z : ℤ)
  | other
  deriving DecidableEq, Repr

/-- The machine: whether `platform` is neither `win32` nor `darwin`, `cpu_count()`, and whether Storm is installed. -/
structure Machine where
  linux : Bool
  cpus : ℕ
  storm : Bool
  deriving DecidableEq, Repr

/-- BW.py:148-156: `self.processes`. (`cpu_count()` is at least 1.) -/
def Machine.processes (m : Machine) (arg : IntArg) : ℕ :=
  if !m.linux then 1
  else match arg with
    | .other => m.cpus - 1
    | .int z => if z > m.cpus ∨ z < 1 then m.cpus - 1 else z.toNat

/-- BW.py:158-162: `verbose`. -/
def verbosity : IntArg → ℕ
  | .other => 2
  | .int z => if z > 3 ∨ z < 0 then 2 else z.toNat

/-- What appears on the screen: the line that names the kind of model (`Learning an MC...`, numbered as in Model.py:10-15), the warning about Storm, the
progress bar with its title, the recap with the number of iterations (the running time is left out). -/
inductive Shown
  | learning (kind : ℕ)
  | noStorm
  | bar (title : String)
  | recap (iterations : ℕ)
  deriving DecidableEq, Repr

/-- BW.py:200-276: what `_preparation` prints. -/
def shownBefore (mac : Machine) (kind : ℕ) (storm : Bool) (verbose : ℕ) : List Shown :=
  (if 0 < verbose then [.learning kind] else []) ++
    (if storm && !mac.storm then (if 0 < verbose then [.noStorm] else []) else [])

/-- BW.py:280, 292: the progress bar is disabled if `verbose < 2`. -/
def shownBar (title : String) (verbose : ℕ) : List Shown := if verbose < 2 then [] else [.bar title]

/-- BW.py:307-316: the recap comes after the files, before the conversion to Storm. -/
def shownAfter {H : Type} (savePrism : H → Py (List Char)) (chain : Bool) (o : Options) (verbose : ℕ) (st : LoopState H) : List Shown :=
  match (if o.prism && chain then savePrism st.h else .ok []) with
  | .ok _ => if verbose = 3 then [.recap st.counter] else []
  | .error _ => []

/-- BW.py:148-325 `fit` with an initial model that suits the training set: what is shown, the files and the value. `o.storm` is the argument
`stormpy_output`; `step p` is one iteration with `p` processes. -/
noncomputable def launch {H R : Type} (kind : ℕ) (save : H → List Char) (savePrism : H → Py (List Char)) (convert : H → Py R) (chain : Bool)
    (step : ℕ → H → Py (H × ℝ)) (mac : Machine) (processes verbose : IntArg) (title : String) (o : Options) (epsilon : ℝ) (maxIt : ℕ) (h : H) :
    List Shown × Outcome (Returned H R) :=
  let v := verbosity verbose
  let before := shownBefore mac kind o.storm v ++ shownBar title v
  let o' := { o with storm := o.storm && mac.storm }
  match fit (step (mac.processes processes)) epsilon maxIt h with
  | .error e => (before, ⟨none, none, .error e⟩)
  | .ok st => (before ++ shownAfter savePrism chain o' v st, finish save savePrism convert chain o' st)

variable (printable : Char → Bool) (IO : Files.FloatIO ℝ) {n : ℕ}

/-- `fit` on a MC. -/
noncomputable def launchMC (name : List Char) (S : TSet String) (mac : Machine) (processes verbose : IntArg) (title : String) (o : Options) (epsilon : ℝ)
    (maxIt : ℕ) (M : MC ℝ String n) : List Shown × Outcome (Returned (MC ℝ String n) (Storm.Sparse ℝ)) :=
  launch 0 (fun M => Files.saveMC printable IO M name) (fun M => Prism.saveMC IO M name) (fun M => .ok (Storm.ofMC M)) true (fun p => stepMC p S) mac
    processes verbose title o epsilon maxIt M

/-- `fit` on a MDP. -/
noncomputable def launchMDP (name : List Char) (S : TSet String) (mac : Machine) (processes verbose : IntArg) (title : String) (o : Options) (epsilon : ℝ)
    (maxIt : ℕ) (M : MDP ℝ String n) : List Shown × Outcome (Returned (MDP ℝ String n) (Storm.Sparse ℝ)) :=
  launch 1 (fun M => Files.saveMDP printable IO M name) (fun M => Prism.saveMDP IO M name) (fun M => .ok (Storm.ofMDP M)) true (fun p => stepMDP p S) mac
    processes verbose title o epsilon maxIt M

/-- `fit` on a HMM. -/
noncomputable def launchHMM (name : List Char) (S : TSet String) (mac : Machine) (processes verbose : IntArg) (title : String) (o : Options) (epsilon : ℝ)
    (maxIt : ℕ) (M : HMM ℝ String n) : List Shown × Outcome (Returned (HMM ℝ String n) Empty) :=
  launch 2 (fun M => Files.saveHMM printable IO (HMMObj.of M) name) (fun _ => .error .attributeError) (fun _ => .error .attributeError) false
    (fun p => stepHMM p S) mac processes verbose title o epsilon maxIt M

/-- `fit` on a CTMC, with timed traces. -/
noncomputable def launchCTMC (name : List Char) (fixed : Fin n → Fin n → Bool) (S : TSet (Sym String)) (mac : Machine) (processes verbose : IntArg)
    (title : String) (o : Options) (epsilon : ℝ) (maxIt : ℕ) (M : CTMC ℝ String n) :
    List Shown × Outcome (Returned (CTMC ℝ String n) (Storm.Sparse (Option ℝ))) :=
  launch 4 (fun M => Files.saveCTMC printable IO M name) (fun M => Prism.saveCTMC IO M name) (fun M => .ok (Storm.ofCTMC M)) true
    (fun p => stepTimed p fixed S) mac processes verbose title o epsilon maxIt M

end BW
end Jajapy
