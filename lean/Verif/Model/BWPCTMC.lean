import Verif.Model.PReduce
import Mathlib.Algebra.Polynomial.Roots
import Mathlib.Analysis.Complex.Basic
import Mathlib.Analysis.SpecialFunctions.Pow.Real

/-!
Model of the estimation of the parameters of a PCTMC (`jajapy/base/BW.py` lines 862-1412: `fit_parameters`,
`fit_nonInstantiatedParameters` and what they call).

What is used of sympy besides `Model/PCTMC`: `args` of a product or of a sum are its terms, here read from left to right.
What is used of numpy: `polyroots(c)` are the complex roots of the polynomial, with multiplicities, and there are none if it
is constant; `max` of complex numbers (numpy scalars) is the lexicographic one.
Simplifications: numbers are reals (no rounding; the exponents are stored as `float16`); arrays indexed by the position of
a parameter are functions of its name (the names are distinct); an entry of `parameter_indexes` is a pair of states (an id
that is too big reads 0 here, it is an IndexError in the code); in an untimed set a state with exit rate 0 gives `inf` in
the code and 0 here: the theorems about untimed sets assume that the exit rates are not 0.
-/

namespace Jajapy

open Tools BW Polynomial

namespace Expr
variable {K : Type} [Field K]

/-- BW.py:903-935 `_a_pi`, for the parameter `p`: the walk goes to the first argument that contains `p`, until a power or a
symbol. If no argument contains `p` the code asks the user to press a key (`input()`), and then searches again: EOFError
without a terminal. -/
def power (p : String) : Expr K → Py ℕ
  | num _ => .error .eofError
  | sym _ => .ok 1
  | pow _ k => .ok k
  | add a b => if p ∈ a.free then a.power p else if p ∈ b.free then b.power p else .error .eofError
  | mul a b => if p ∈ a.free then a.power p else if p ∈ b.free then b.power p else .error .eofError

/-- BW.py:969-977: the product of the factors of a `Mul` other than the symbol `p`. A symbol is replaced by its value (a
parameter without value gives `nan` in the code, 0 here: the first iteration then raises TypeError); `float` raises TypeError
if another factor is still symbolic. (A factor without symbol is a number.) -/
def cofactor (v : Valuation K) (p : String) : Expr K → Py K
  | mul a b => do return (← a.cofactor v p) * (← b.cofactor v p)
  | sym q => .ok (if q = p then 1 else (v.lookup q).getD 0)
  | num c => .ok c
  | add a b => if (add a b).free = [] then .ok (((add a b).eval v).getD 0) else .error .typeError
  | pow a k => if (pow a k).free = [] then .ok (((pow a k).eval v).getD 0) else .error .typeError

/-- BW.py:937-979 `_c_pi`, for the parameter `p`: as `_a_pi`, until a product or a symbol. -/
def coefficient (v : Valuation K) (p : String) : Expr K → Py K
  | num _ => .error .eofError
  | sym _ => .ok 1
  | mul a b => (mul a b).cofactor v p
  | add a b => if p ∈ a.free then a.coefficient v p else if p ∈ b.free then b.coefficient v p else .error .eofError
  | pow a _ => if p ∈ a.free then a.coefficient v p else .error .eofError

end Expr

namespace PCTMC

section
variable {K : Type} [Field K] [LinearOrder K]

/-- Parametric_Model.py:188-214 `parameterIndexes`, for a declared parameter. -/
def indexesOf (M : PCTMC K) (p : String) : List (ℕ × ℕ) := M.indexes.getD (M.names.idxOf p) []

/-- `self.h.parameter_values[p]`, for a parameter that has a value. -/
def current (M : PCTMC K) (p : String) : K := (M.values.lookup p).getD 0

/-- BW.py:876-878: an entry of the array `a_pis`; it stays 0 for the fixed parameters and for the transitions that are not
recorded for `p`. -/
def powerAt (M : PCTMC K) (fixed : List String) (s ss : ℕ) (p : String) : Py ℕ :=
  if p ∈ fixed ∨ (s, ss) ∉ M.indexesOf p then .ok 0 else do (← M.transitionExpression s ss).power p

/-- BW.py:981-1001 `_C`, with the array `a_pis`. -/
def totalPower (M : PCTMC K) (power : ℕ → ℕ → String → ℕ) (s ss : ℕ) : Py ℕ := do
  let ps ← M.involved s ss
  if ∀ p ∈ ps, p ∈ M.names then return (ps.map (power s ss)).sum else .error .valueError

/-- BW.py:883-890: the category of a parameter that is not fixed. `min` of an empty list is a ValueError. -/
def category (M : PCTMC K) (power : ℕ → ℕ → String → ℕ) (p : String) : Py ℕ := do
  let cs ← (M.indexesOf p).mapM (fun q => M.totalPower power q.1 q.2)
  if M.indexesOf p = [] then .error .valueError
  else if (∀ q ∈ M.indexesOf p, power q.1 q.2 p = 1) ∧ (∀ c ∈ cs, c = 1) then return 1
  else if ∀ c ∈ cs, c = cs.headD 0 then return 2
  else return 3

/-- What `_sortParameters` leaves in the learner: `a_pis`, the values of `_C`, `parameters_cat` and `c_pis`. -/
structure Cats (K : Type) where
  power : ℕ → ℕ → String → ℕ
  total : ℕ → ℕ → ℕ
  cat1 : List String
  cat2 : List String
  cat3 : List String
  coeff : ℕ → ℕ → K

/-- BW.py:892-895: the array `c_pis`; an entry that is written twice keeps the last value. -/
def coefficients (M : PCTMC K) (cat1 : List String) : Py (ℕ → ℕ → K) :=
  (cat1.flatMap (fun p => (M.indexesOf p).map (fun q => (p, q)))).foldlM (fun c x => do
    let v ← (← M.transitionExpression x.2.1 x.2.2).coefficient M.values x.1
    return fun s ss => if (s, ss) = x.2 then v else c s ss) (fun _ _ => 0)

/-- BW.py:863-895 `_sortParameters`. -/
def sortParameters (M : PCTMC K) (fixed : List String) : Py (Cats K) := do
  let free := M.names.filter (fun p => p ∉ fixed)
  let _ ← free.mapM (fun p => (M.indexesOf p).mapM (fun q => M.powerAt fixed q.1 q.2 p))
  let power := fun s ss p => (M.powerAt fixed s ss p).toOption.getD 0
  let cats ← free.mapM (fun p => M.category power p)
  let ofCat := fun k => ((free.zip cats).filter (fun x => x.2 = k)).map (·.1)
  let coeff ← M.coefficients (ofCat 1)
  return { power := power, total := fun s ss => (M.totalPower power s ss).toOption.getD 0,
           cat1 := ofCat 1, cat2 := ofCat 2, cat3 := ofCat 3, coeff := coeff }

/-- BW.py:897-901 `_computeTaus_PCTMC`: the array `hval` with the labels and the initial distribution of the model.
Assigning a symbolic value to an entry of the array is a TypeError. -/
def hypothesis (M : PCTMC K) : Py (CTMC K String M.nb) := do
  let res ← (List.range M.nb).mapM (fun s => (List.range M.nb).mapM (fun ss => M.evaluate s ss))
  if res.all (fun row => row.all (fun x => x.isSome)) then
    return { matrix := fun i j => ((res.getD i []).getD j none).getD 0,
             labelling := fun s => M.labelling.getD s "",
             initialState := fun s => M.initialState.getD s 0 }
  else .error .typeError

end

/-! ### The workers -/

/-- What a worker computes for each state and each transition: `Σ_k alpha*beta*t_k*times/proba` (without `t_k` and divided by
the exit rate if the trace is untimed), `Σ_k alpha*p*beta*times/proba`, and the test `p.sum() > 0`. -/
structure Tables (n : ℕ) where
  time : Fin n → ℝ
  uses : Fin n → Fin n → ℝ
  seen : Fin n → Fin n → Prop
  proba : ℝ
  times : ℕ

/-- BW.py:1070-1079 and the sums of 1105-1146 for a timed trace: the same tables and sums as for a CTMC. -/
noncomputable def tablesTimed {n : ℕ} (H : CTMC ℝ String n) (seq : List (Sym String)) (times : ℕ) :
    Py (Option (Tables n)) := do
  let r ← processWorkTimed H (fun _ _ => false) seq times
  let (steps, _) ← splitTimed seq
  return r.map (fun w => { time := w.den, uses := w.num, seen := fun s ss => 0 < (steps.map (H.tauTimed s ss)).sum,
                           proba := w.proba, times := w.times })

/-- BW.py:1070-1079 and the sums of 1105-1146 for an untimed trace. -/
noncomputable def tablesUntimed {n : ℕ} (H : CTMC ℝ String n) (seq : List String) (times : ℕ) : Py (Option (Tables n)) := do
  let r ← processWorkUntimed H (fun _ _ => false) seq times
  return r.map (fun w => { time := fun s => w.den s / H.e s, uses := w.num,
                           seen := fun s ss => 0 < (seq.map (H.tau s ss)).sum, proba := w.proba, times := w.times })

/-- `a[s]` and `a[s,ss]` for state ids. -/
noncomputable def at1 {n : ℕ} (f : Fin n → ℝ) (s : ℕ) : ℝ := if h : s < n then f ⟨s, h⟩ else 0
noncomputable def at2 {n : ℕ} (f : Fin n → Fin n → ℝ) (s ss : ℕ) : ℝ :=
  if h : s < n ∧ ss < n then f ⟨s, h.1⟩ ⟨ss, h.2⟩ else 0

def Tables.seenAt {n : ℕ} (t : Tables n) (s ss : ℕ) : Prop := ∃ (h : s < n) (h' : ss < n), t.seen ⟨s, h⟩ ⟨ss, h'⟩

/-- What `_processWork_PCTMC` returns (with `update_constant` false), for the parameters of each category. -/
structure Work where
  den1 : String → ℝ
  num1 : String → ℝ
  den2 : String → ℝ
  num2 : String → ℝ
  terms : String → ℝ[X]
  proba : ℝ
  times : ℕ

open Classical in
/-- BW.py:1101-1150. `temp[k]` is the coefficient of degree `k`. -/
noncomputable def work (M : PCTMC ℝ) (C : Cats ℝ) (H : CTMC ℝ String M.nb) (t : Tables M.nb) : Work where
  den1 := fun p => ((M.indexesOf p).map (fun q =>
    if t.seenAt q.1 q.2 then C.coeff q.1 q.2 * at1 t.time q.1 else 0)).sum
  num1 := fun p => ((M.indexesOf p).map (fun q =>
    if t.seenAt q.1 q.2 then at2 t.uses q.1 q.2 else 0)).sum
  den2 := fun p => ((M.indexesOf p).map (fun q =>
    C.power q.1 q.2 p * at2 H.matrix q.1 q.2 * at1 t.time q.1)).sum
  num2 := fun p => ((M.indexesOf p).map (fun q => C.power q.1 q.2 p * at2 t.uses q.1 q.2)).sum
  terms := fun p => ((M.indexesOf p).map (fun q =>
    monomial (C.total q.1 q.2) (C.power q.1 q.2 p * at2 H.matrix q.1 q.2 * at1 t.time q.1 / M.current p ^ C.total q.1 q.2)
      - Polynomial.C (C.power q.1 q.2 p * at2 t.uses q.1 q.2))).sum
  proba := t.proba
  times := t.times

/-! ### The update -/

/-- BW.py:1175-1179: the new value of a parameter of the first category. -/
noncomputable def value1 (M : PCTMC ℝ) (den num : ℝ) (p : String) : ℝ :=
  if den = 0 then M.current p / 1 else num / den

/-- BW.py:1181-1190: the new value of a parameter of the second category; `1/c` is a ZeroDivisionError if `c` is 0. -/
noncomputable def value2 (M : PCTMC ℝ) (C : Cats ℝ) (den num : ℝ) (p : String) : Py ℝ :=
  if den = 0 then .ok (M.current p / 1)
  else
    let q := (M.indexesOf p).headD (0, 0)
    let c := C.total q.1 q.2
    if c = 0 then .error .zeroDivisionError
    else .ok (M.current p * num ^ (1 / (c : ℝ)) / den ^ (1 / (c : ℝ)))

/-- The lexicographic order of Python's `max` on complex numbers returned by numpy. -/
def lexLE (w z : ℂ) : Prop := w.re < z.re ∨ (w.re = z.re ∧ w.im ≤ z.im)

open Classical in
/-- BW.py:1193-1194 `max(polyroots(temp))`; `max` of an empty array is a ValueError. If the greatest root is not a real
number the parameter gets a complex value, and the evaluation of the transitions (BW.py:901) raises TypeError: here it is
raised at once. -/
noncomputable def maxRoot (P : ℝ[X]) : Py ℝ :=
  if h : ∃ z ∈ (P.map Complex.ofRealHom).roots, ∀ w ∈ (P.map Complex.ofRealHom).roots, lexLE w z then
    if h.choose.im = 0 then .ok h.choose.re else .error .typeError
  else .error .valueError

/-- BW.py:1192-1194: the new value of a parameter of the third category. If the current value is 0 the coefficients are
`nan` and `polyroots` raises a LinAlgError (a ValueError). -/
noncomputable def value3 (M : PCTMC ℝ) (P : ℝ[X]) (p : String) : Py ℝ :=
  if M.current p = 0 then .error .valueError else maxRoot P

/-- BW.py:1152-1197 `_update_PCTMC`. -/
noncomputable def update (M : PCTMC ℝ) (C : Cats ℝ) (temp : List Work) : Py (PCTMC ℝ × ℝ) := do
  let v1 := C.cat1.map (fun p => M.value1 (temp.map (fun w => w.den1 p)).sum (temp.map (fun w => w.num1 p)).sum p)
  let v2 ← C.cat2.mapM (fun p => M.value2 C (temp.map (fun w => w.den2 p)).sum (temp.map (fun w => w.num2 p)).sum p)
  let v3 ← C.cat3.mapM (fun p => M.value3 (temp.map (fun w => w.terms p)).sum p)
  let (_, M') ← M.instantiate (C.cat1 ++ C.cat2 ++ C.cat3) (v1 ++ v2 ++ v3)
  return (M', logLik (temp.map (fun w => (w.proba, w.times))))

/-- The tables of all the traces. -/
noncomputable def tables {n : ℕ} (H : CTMC ℝ String n) : Traces → Py (List (Option (Tables n)))
  | .timed S => (S.sequences.zip S.times).mapM (fun x => tablesTimed H x.1 x.2)
  | .untimed S => (S.sequences.zip S.times).mapM (fun x => tablesUntimed H x.1 x.2)

/-- One iteration (BW.py:294-296): the model and `currentloglikelihood`. -/
noncomputable def estimateStep (processes : ℕ) (C : Cats ℝ) (S : Traces) (M : PCTMC ℝ) : Py (PCTMC ℝ × ℝ) := do
  let H ← M.hypothesis
  let temp ← collect .typeError processes (← tables H S)
  M.update C (temp.map (M.work C H))

/-! ### The calls -/

/-- `_getTrainingSet` (BW.py:1434-1453) for a set of traces: the symbol 'init' is inserted at the beginning of each trace if
no trace contains it. (The traces are distinct objects.) -/
def withInit {A : Type} [DecidableEq A] (init : A) (S : TSet A) : Py (TSet A) := do
  if init ∈ (← S.getAlphabet) then return S
  else return { S with sequences := S.sequences.map (fun w => init :: w) }

/-- `traces.getAlphabet()`, read as labels. -/
noncomputable def labelsOf : Traces → Py (List String)
  | .untimed S => S.getAlphabet
  | .timed S => do return (← S.getAlphabet).filterMap (fun x => match x with | .obs o => some o | .time _ => none)

/-- The training set that the iterations use. -/
noncomputable def prepare : Traces → Py Traces
  | .untimed S => do return .untimed (← withInit "init" S)
  | .timed S => do return .timed (← withInit (.obs "init") S)

/-- BW.py:1383-1389: the optional random instantiation; `none`: the loop is still running after the given rounds. -/
noncomputable def start (M : PCTMC ℝ) (lo hi : Option ℝ) (rounds : List (List ℝ)) : Py (Option (PCTMC ℝ)) :=
  if lo = none ∧ hi = none then .ok (some M) else M.randomInstantiation none lo hi rounds

/-- BW.py:1402-1412: from the sorting of the parameters to the returned dictionary (`none` is `nan`), and the model. -/
noncomputable def estimate (processes : ℕ) (S : Traces) (M : PCTMC ℝ) (toUpdate : List String) (epsilon : ℝ) (maxIt : ℕ) :
    Py (List (String × Option ℝ) × PCTMC ℝ) := do
  let C ← M.sortParameters (M.names.filter (fun p => p ∉ toUpdate))
  let st ← BW.fit (estimateStep processes C S) epsilon maxIt M
  return (toUpdate.map (fun p => (p, st.h.values.lookup p)), st.h)

/-- BW.py:1264-1412 `fit_parameters` on a learner whose `fit` has been called (see `Model/Prep` for the other learners, and
for the functions that are bound to the learner), with a finite `max_it`. -/
noncomputable def fitParameters (processes : ℕ) (S : Traces) (M : PCTMC ℝ) (toUpdate : List String) (epsilon : ℝ) (maxIt : ℕ)
    (lo hi : Option ℝ) (rounds : List (List ℝ)) : Py (Option (List (String × Option ℝ) × PCTMC ℝ)) := do
  if ∃ p ∈ toUpdate, p ∉ M.names then .error .runtimeError
  else
    let alphabet ← labelsOf S
    let S' ← prepare S
    match ← (M.reduceForTraces alphabet).start lo hi rounds with
    | none => return none
    | some M' => return some (← estimate processes S' M' toUpdate epsilon maxIt)

/-- BW.py:1199-1262 `fit_nonInstantiatedParameters`: all the parameters of the model are updated (lines 1257-1259). -/
noncomputable def fitNonInstantiated (processes : ℕ) (S : Traces) (M : PCTMC ℝ) (epsilon : ℝ) (maxIt : ℕ)
    (lo hi : Option ℝ) (rounds : List (List ℝ)) : Py (Option (List (String × Option ℝ) × PCTMC ℝ)) :=
  fitParameters processes S M M.names epsilon maxIt lo hi rounds

end PCTMC
end Jajapy
