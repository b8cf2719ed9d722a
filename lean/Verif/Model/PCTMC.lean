import Verif.Model.Create

/-!
Model of the class `PCTMC` (`jajapy/base/Parametric_Model.py`, `jajapy/pctmc/PCTMC.py`) and of `PCTMCtoCTMC`
(`jajapy/with_stormpy/model_converter.py:265-290`).

The rate expressions are sympy objects. They are modelled by the trees `Expr` (numbers, symbols, sums, products, natural
powers); what is used of sympy is: `free_symbols` is the set of the symbols that occur, and `evalf(subs=values)` is a
number exactly when all of them have a value, and then it is the value of the expression. Not modelled: the automatic
simplifications of sympy (`p - p` is `0` there, and has no free symbol), divisions and negative powers, rounding.
State ids are natural numbers; `_checkStateIndex` raises IndexError for the ids that are too big, and negative ids are not
modelled.
-/

namespace Jajapy

open Tools

/-- A rate expression (an element of `transition_expr`). -/
inductive Expr (K : Type)
  | num (c : K)
  | sym (p : String)
  | add (a b : Expr K)
  | mul (a b : Expr K)
  | pow (a : Expr K) (k : ℕ)
  deriving DecidableEq

/-- A Python `dict` from parameter names to numbers. -/
abbrev Valuation (K : Type) := List (String × K)

namespace Expr
variable {K : Type} [Field K]

/-- sympy's `free_symbols`, as the list of the distinct names. -/
def free : Expr K → List String
  | num _ => []
  | sym p => [p]
  | add a b => a.free ∪ b.free
  | mul a b => a.free ∪ b.free
  | pow a _ => a.free

/-- sympy's `evalf(subs=values)` followed by `float`: `none` when the result is still symbolic (`float` raises TypeError). -/
def eval (v : Valuation K) : Expr K → Option K
  | num c => some c
  | sym p => v.lookup p
  | add a b => do return (← a.eval v) + (← b.eval v)
  | mul a b => do return (← a.eval v) * (← b.eval v)
  | pow a k => do return (← a.eval v) ^ k

end Expr

/-- The attributes of a PCTMC (Parametric_Model.py:50-82, PCTMC.py:52-54). `matrix[i][j]` is an index of `exprs`; 0 is the
index of the expression `0.0` ("no transition"). -/
structure PCTMC (K : Type) where
  matrix : List (List ℕ)
  labelling : List String
  exprs : List (Expr K)
  values : Valuation K
  indexes : List (List (ℕ × ℕ))
  names : List String
  initialState : List K
  sync : List (ℕ × String × ℕ × Expr K)

variable {K : Type} [Field K] [LinearOrder K]

/-- Parametric_Model.py:50-84 and PCTMC.py:52-54, the constructor. `matrix` is a square array of indexes that are not
negative. `max` of an empty array is a ValueError. A value `none` is `nan`: lines 74-77 delete it from the dictionary
(the change of the caller's dictionary is in Model/PHeap). -/
def mkPCTMC [FloorRing K] (matrix : List (List ℕ)) (labelling : List String) (exprs : List (Expr K))
    (values : List (String × Option K)) (indexes : List (List (ℕ × ℕ))) (names : List String)
    (sync : List (ℕ × String × ℕ × Expr K)) : Py (PCTMC K) :=
  if "init" ∉ labelling then .error .valueError
  else if indexes.length ≠ names.length then .error .valueError
  else match matrix.flatten.max? with
  | none => .error .valueError
  | some m =>
    if m ≥ exprs.length then .error .valueError
    else if labelling.length ≠ matrix.length then .error .valueError
    else do
      let init ← modelInit matrix.length (.list (initFromLabels labelling))
      return { matrix := matrix, labelling := labelling, exprs := exprs,
               values := values.filterMap (fun p => p.2.map (fun x => (p.1, x))), indexes := indexes, names := names,
               initialState := init, sync := sync }

namespace PCTMC

/-- `self.nb_states` (Parametric_Model.py:52). -/
def nb (M : PCTMC K) : ℕ := M.matrix.length

/-- Parametric_Model.py:443-451 `_checkStateIndex` (the id is a natural number). -/
def checkState (M : PCTMC K) (s : ℕ) : Py Unit := if s ≥ M.nb then .error .indexError else .ok ()

/-- Parametric_Model.py:157-173 `transitionExpression`. -/
def transitionExpression (M : PCTMC K) (i j : ℕ) : Py (Expr K) :=
  match M.matrix[i]? with
  | none => .error .indexError
  | some row => match row[j]? with
    | none => .error .indexError
    | some t => match M.exprs[t]? with
      | none => .error .indexError
      | some x => .ok x

/-- Parametric_Model.py:251-285 `evaluateTransition` with explicit values: a number, or `none` for a result that is still
symbolic. -/
def evaluateWith (M : PCTMC K) (v : Valuation K) (i j : ℕ) : Py (Option K) := do
  return (← M.transitionExpression i j).eval v

/-- Parametric_Model.py:251-285 `evaluateTransition(i,j)`; also 133-155 `transitionValue`. -/
def evaluate (M : PCTMC K) (i j : ℕ) : Py (Option K) := M.evaluateWith M.values i j

/-- Parametric_Model.py:287-316 `involvedParameters(i,j)`. -/
def involved (M : PCTMC K) (i j : ℕ) : Py (List String) := do return (← M.transitionExpression i j).free

/-- Parametric_Model.py:287-316 `involvedParameters(i)`. -/
def involvedState (M : PCTMC K) (i : ℕ) : Py (List String) := do
  return ((← (List.range M.nb).mapM (fun j => M.involved i j)).foldl (· ∪ ·) [])

/-- Parametric_Model.py:118-119 `isInstantiated(param=p)`: the name is a key of the dictionary. -/
def hasValue (M : PCTMC K) (p : String) : Bool := (M.values.lookup p).isSome

/-- Parametric_Model.py:120-121 `isInstantiated()`. -/
def isInstantiated (M : PCTMC K) : Bool := M.names.all M.hasValue

/-- Parametric_Model.py:122-131 `isInstantiated(state1)`. -/
def isInstantiatedState (M : PCTMC K) (s : ℕ) : Py Bool := do
  M.checkState s
  return (← M.involvedState s).all M.hasValue

/-- Parametric_Model.py:122-131 `isInstantiated(state1,state2)`. -/
def isInstantiatedPair (M : PCTMC K) (s s' : ℕ) : Py Bool := do
  M.checkState s
  return (← M.involved s s').all M.hasValue

/-- PCTMC.py:56-71 `e`. After the test every term of the sum is a number. -/
def e (M : PCTMC K) (s : ℕ) : Py K := do
  if ← M.isInstantiatedState s then
    return ((← (List.range M.nb).mapM (fun i => M.evaluate s i)).map (fun x => x.getD 0)).sum
  else .error .valueError

/-- PCTMC.py:73-95 `l`: `none` is a symbolic result. -/
def l (M : PCTMC K) (s1 s2 : ℕ) (obs : String) : Py (Option K) := do
  M.checkState s1
  M.checkState s2
  if M.labelling.getD s1 "" ≠ obs then return some 0 else M.evaluate s1 s2

/-- What a method returns: nothing (Python's `None`, after a printed warning), a number, or `inf`. -/
inductive Out (K : Type)
  | nothing
  | fin (x : K)
  | inf
  deriving DecidableEq

/-- The `except ValueError:` of `tau`, `expected_time` and `lkl`, with the body `f` that uses the exit rate. -/
def orNothing {α : Type} (x : Py α) (f : α → Py (Out K)) : Py (Out K) :=
  match x with
  | .ok a => f a
  | .error .valueError => .ok .nothing
  | .error er => .error er

/-- PCTMC.py:120-146 `tau`. (`l` is a number since the state is instantiated.) -/
def tau (M : PCTMC K) (s1 s2 : ℕ) (obs : String) : Py (Out K) :=
  orNothing (M.e s1) (fun er =>
    if er = 0 then .ok .inf
    else do return .fin ((← M.l s1 s2 obs).getD 0 / er))

/-- PCTMC.py:148-170 `expected_time`. -/
def expectedTime (M : PCTMC K) (s : ℕ) : Py (Out K) :=
  orNothing (M.e s) (fun er => if er = 0 then .ok .inf else .ok (.fin (1 / er)))

/-- PCTMC.py:97-118 `lkl`. -/
noncomputable def lkl (M : PCTMC ℝ) (s : ℕ) (t : ℝ) : Py (Out ℝ) :=
  if t < 0 then .ok (.fin 0)
  else orNothing (M.e s) (fun er => .ok (.fin (er * Real.exp (-er * t))))

/-! ### Instantiation -/

/-- `new_values[s] = v` on a dictionary. -/
def dictSet (v : Valuation K) (p : String) (x : K) : Valuation K :=
  if (v.lookup p).isSome then v.map (fun q => if q.1 = p then (p, x) else q) else v ++ [(p, x)]

/-- Parametric_Model.py:216-244 `Parametric_Model.instantiate`: a copy of the dictionary where the parameters have the given
values. -/
def newValues (M : PCTMC K) (parameters : List String) (values : List K) : Valuation K :=
  (parameters.zip values).foldl (fun v q => dictSet v q.1 q.2) M.values

/-- PCTMC.py:172-181 `_checkRates(values)`: the argument `values` is not used, `evaluateTransition(x,y)` evaluates with the
values of the model. -/
def checkRates (M : PCTMC K) (_values : Valuation K) : Py Bool := do
  let pairs := (List.range M.nb).flatMap (fun x => (List.range M.nb).map (fun y => (x, y)))
  let nonZero := pairs.filter (fun p => ((M.matrix.getD p.1 []).getD p.2 0) ≠ 0)
  let vs ← nonZero.mapM (fun p => M.evaluate p.1 p.2)
  return vs.all (fun v => match v with | some x => decide (¬ x < 0) | none => true)

/-- PCTMC.py:183-206 `instantiate`: the returned boolean and the model after the call. -/
def instantiate (M : PCTMC K) (parameters : List String) (values : List K) : Py (Bool × PCTMC K) := do
  let new := M.newValues parameters values
  if ← M.checkRates new then return (true, { M with values := new }) else return (false, M)

/-- PCTMC.py:233-239: the default list of parameters. (No value of the dictionary is `nan`.) -/
def defaultParameters (M : PCTMC K) : List String := M.names.filter (fun p => !M.hasValue p)

/-- PCTMC.py:240-249: the default bounds. -/
def defaultBounds (M : PCTMC K) : K × K :=
  if M.values.length > 1 then
    (((M.values.map (·.2)).min?).getD 0, ((M.values.map (·.2)).max?).getD 0)
  else (1/100, 3/10)

/-- PCTMC.py:253-255, the `while` loop; `rounds` are the vectors of draws of `rand`, one per round. `none`: every round was
refused, the loop is still running after these rounds. -/
def instantiateLoop (M : PCTMC K) (parameters : List String) (lo hi : K) : List (List K) → Py (Option (PCTMC K))
  | [] => .ok none
  | r :: rounds => do
    let (ok, M') ← M.instantiate parameters (r.map (fun u => u * (hi - lo) + lo))
    if ok then return some M' else instantiateLoop M' parameters lo hi rounds

/-- PCTMC.py:208-257 `randomInstantiation`. -/
def randomInstantiation (M : PCTMC K) (parameters : Option (List String)) (lo hi : Option K) (rounds : List (List K)) :
    Py (Option (PCTMC K)) :=
  M.instantiateLoop (parameters.getD M.defaultParameters) (lo.getD M.defaultBounds.1) (hi.getD M.defaultBounds.2) rounds

/-! ### Simulation -/

/-- A waiting time: a number or `inf`. -/
abbrev Time (K : Type) := WithTop K

/-- PCTMC.py:284-289: the waiting times. `exponential(scale)` is `scale` times a draw of the standard exponential law (`draws j` is
that draw for the transition to `j`) and raises ValueError on a negative scale. The rates are numbers since the state is
instantiated. -/
def waits (rates : List K) (draws : ℕ → K) : Py (List (Time K)) :=
  rates.zipIdx.mapM (fun p => if p.1 = 0 then .ok ⊤ else if p.1 < 0 then .error .valueError else .ok ((1 / p.1 * draws p.2 : K) : Time K))

/-- The position of the first smallest element of a list, `exps.index(min(exps))`, and this element. -/
def argmin (ts : List (Time K)) : Py (ℕ × Time K) :=
  match ts.min? with
  | none => .error .valueError
  | some m => .ok (ts.idxOf m, m)

/-- PCTMC.py:272-292 `next`. -/
def next (M : PCTMC K) (state : ℕ) (draws : ℕ → K) : Py (String × ℕ × Time K) := do
  if ← M.isInstantiatedState state then
    let rates ← (List.range M.nb).mapM (fun j => M.evaluate state j)
    let exps ← waits (rates.map (fun x => x.getD 0)) draws
    let (j, t) ← argmin exps
    return (M.labelling.getD state "", j, t)
  else .error .valueError

/-- PCTMC.py:315-324: the loop of `run` with `timed=False` and the final label; `draws k` are those of the k-th step. -/
def runLoop (M : PCTMC K) : ℕ → (ℕ → ℕ → K) → ℕ → Py (List String)
  | 0, _, current => .ok [M.labelling.getD current ""]
  | steps + 1, draws, current => do
    let (symbol, nextState, _) ← M.next current (draws 0)
    let rest ← runLoop M steps (fun k => draws (k+1)) nextState
    return symbol :: rest

/-- PCTMC.py:294-324 `run(number_steps)`; `r` is the draw of the initial state. -/
def run (M : PCTMC K) (steps : ℕ) (r : K) (draws : ℕ → ℕ → K) : Py (List String) := do
  let current ← resolveRandom M.initialState r
  M.runLoop steps draws current

/-- PCTMC.py:315-324: the loop of `run` with `timed=True` and the final label. -/
def runTimedLoop (M : PCTMC K) : ℕ → (ℕ → ℕ → K) → ℕ → Py (List (String ⊕ Time K))
  | 0, _, current => .ok [.inl (M.labelling.getD current "")]
  | steps + 1, draws, current => do
    let (symbol, nextState, timeSpent) ← M.next current (draws 0)
    let rest ← runTimedLoop M steps (fun k => draws (k+1)) nextState
    return .inl symbol :: .inr timeSpent :: rest

/-- PCTMC.py:294-324 `run(number_steps, timed=True)`. -/
def runTimed (M : PCTMC K) (steps : ℕ) (r : K) (draws : ℕ → ℕ → K) : Py (List (String ⊕ Time K)) := do
  let current ← resolveRandom M.initialState r
  M.runTimedLoop steps draws current

/-! ### Likelihood -/

/-- `self.l(ss,s,obs)` (PCTMC.py:337). The symbol at an even position may be a number: it is then different from every
label. -/
def lSym (M : PCTMC K) (ss s : ℕ) : Sym String → Py (Option K)
  | .obs o => M.l ss s o
  | .time _ => .ok (some 0)

/-- `self.l(ss,s,obs)*exp(-self.e(ss)*t)` (PCTMC.py:337). -/
noncomputable def stepEntry (M : PCTMC ℝ) (p : Sym String × ℝ) (ss s : ℕ) : Py ℝ := do
  let x ← M.lSym ss s p.1
  let er ← M.e ss
  return x.getD 0 * Real.exp (-er * p.2)

/-- PCTMC.py:336-338: `new_arr[s]`. -/
noncomputable def stepCell (M : PCTMC ℝ) (v : List ℝ) (p : Sym String × ℝ) (s : ℕ) : Py ℝ := do
  let row ← (List.range M.nb).mapM (fun ss => M.stepEntry p ss s)
  return (List.zipWith (· * ·) v row).sum

/-- PCTMC.py:335-339: one step. -/
noncomputable def stepTimed (M : PCTMC ℝ) (v : List ℝ) (p : Sym String × ℝ) : Py (List ℝ) :=
  (List.range M.nb).mapM (fun s => M.stepCell v p s)

/-- `array(self.labelling) == obs_seq[-1]` as numbers (PCTMC.py:340). -/
noncomputable def mask (M : PCTMC ℝ) (o : Sym String) : List ℝ :=
  M.labelling.map (fun x => if Sym.obs x = o then 1 else 0)

/-- PCTMC.py:329-340: `last_arr.sum()`. -/
noncomputable def timedSum (M : PCTMC ℝ) (seq : List (Sym String)) : Py ℝ := do
  let (steps, last) ← splitTimed seq
  let v ← steps.foldlM (fun v p => M.stepTimed v p) M.initialState
  return (List.zipWith (· * ·) v (M.mask last)).sum

/-- PCTMC.py:329-341 `_computeAlphas_timed`: `log` raises ValueError on a number that is not positive. -/
noncomputable def computeAlphasTimed (M : PCTMC ℝ) (seq : List (Sym String)) (times : ℕ) : Py ℝ := do
  let p ← M.timedSum seq
  if 0 < p then return Real.log p * times else .error .valueError

/-- A set of traces as `logLikelihood` sees it: untimed (type 0) or timed. -/
inductive Traces
  | untimed (S : TSet String)
  | timed (S : TSet (Sym String))

open Classical in
/-- PCTMC.py:343-371 `logLikelihood` (Linux). For untimed traces `Model.logLikelihood` calls `self.b` in each worker
(Model.py:375), a method that PCTMC does not have: AttributeError as soon as there is one trace; for an empty set
Model.py:345-348 returns 0. (If an expression has a symbol that is not in `names`, the workers may fail before, with a
TypeError: not modelled.) A trace whose value is `0.0` is dropped (`0.0 != False` is false), which does not change the sum. -/
noncomputable def logLikelihood (M : PCTMC ℝ) (cpus : ℕ) : Traces → Py ℝ
  | .untimed S =>
    if M.isInstantiated = false then .error .valueError
    else if cpus < 2 then .error .valueError
    else if (S.sequences.zip S.times) = [] then .ok 0
    else .error .attributeError
  | .timed S =>
    if M.isInstantiated = false then .error .valueError
    else if cpus < 2 then .error .valueError
    else do
      let res ← (S.sequences.zip S.times).mapM (fun p => M.computeAlphasTimed p.1 p.2)
      let temp := res.filter (fun x => decide (x ≠ 0))
      if S.times.sum = 0 then .error .zeroDivisionError
      else return temp.sum / (S.times.sum : ℕ)

/-! ### Conversion -/

/-- model_converter.py:265-290 `PCTMCtoCTMC`. Assigning a symbolic value to an entry of a float array is a TypeError.
(`mkCTMC` takes the entries of the array.) -/
def toCTMC [FloorRing K] (M : PCTMC K) : Py (CTMC K String M.nb) :=
  if M.isInstantiated = false then .error .valueError
  else do
    let res ← (List.range M.nb).mapM (fun s => (List.range M.nb).mapM (fun ss => M.evaluate s ss))
    if res.all (fun row => row.all (fun x => x.isSome)) then
      mkCTMC (fun i j => ((res.getD i []).getD j none).getD 0) M.labelling
    else .error .typeError

end PCTMC
end Jajapy
