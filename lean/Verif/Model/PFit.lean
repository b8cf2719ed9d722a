import Verif.Model.BWPCTMC

/-!
Model of `fit` on a PCTMC (`jajapy/base/BW.py`: `_preparation` lines 228-255, the tables `_computeAlphas_timed_matrix` and
`_computeBetas_timed_matrix` lines 529-575 and 605-650, `_processWork_PCTMC` lines 1069-1150 with `update_constant`,
`_update_PCTMC` lines 1152-1197).

What is used of numpy: the product of two one-dimensional arrays of the same length is taken entry by entry; an array of
length 1 is repeated; other lengths give a ValueError.
What is used of sympy besides `Model/BWPCTMC`: `is_real` is true for the expressions without symbol and not for the others
(symbols have no assumption).
Simplifications: as in `Model/BWPCTMC`. Adding an expression to itself and dividing it by the number of traces gives the
same expression. The model comes back as a jajapy object (`stormpy_output=False`) and is not saved.
-/

namespace Jajapy

open Tools BW

namespace PCTMC

/-- The argument `fixed_parameters` of `fit`: not given (`False`), an array of booleans (as documented), or a list of
names. -/
inductive FixedArg
  | notGiven
  | mask
  | names (l : List String)

/-- `param in fixed_parameters` (BW.py:876, 882) for the parameters of the model: TypeError on a boolean, as soon as there
is a parameter; a string is never an element of an array of booleans. -/
def FixedArg.resolve {K : Type} (M : PCTMC K) : FixedArg → Py (List String)
  | .notGiven => if M.names = [] then .ok [] else .error .typeError
  | .mask => .ok []
  | .names l => .ok l

/-- The product of two numpy arrays of dimension 1. -/
noncomputable def bmul (a b : List ℝ) : Py (List ℝ) :=
  if a.length = b.length then .ok (List.zipWith (· * ·) a b)
  else if a.length = 1 then .ok (b.map (fun x => a.headD 0 * x))
  else if b.length = 1 then .ok (a.map (fun x => x * b.headD 0))
  else .error .valueError

/-! ### The tables -/

variable {n : ℕ}

/-- BW.py:546-555, 622-631: `tau`. -/
noncomputable def tauMatrix (H : CTMC ℝ String n) (s ss : Fin n) : ℝ :=
  if H.e s ≠ 0 then H.matrix s ss / H.e s else if s = ss then 1 else 0

/-- BW.py:557-566, 633-642: a row of `phi`, but the last. -/
noncomputable def phiTimed (H : CTMC ℝ String n) (p : Sym String × ℝ) (j : Fin n) : ℝ :=
  (if Sym.obs (H.labelling j) = p.1 then 1 else 0) * H.e j * Real.exp (-(H.e j) * p.2)

/-- BW.py:557-566, 633-642: `phi`. -/
noncomputable def phiRows (H : CTMC ℝ String n) (steps : List (Sym String × ℝ)) (last : Sym String) : List (Fin n → ℝ) :=
  steps.map (phiTimed H) ++ [H.maskTimed last]

/-- BW.py:529-575 `_computeAlphas_timed_matrix`. -/
noncomputable def alphasMatrix (H : CTMC ℝ String n) (steps : List (Sym String × ℝ)) (last : Sym String) :
    List (Fin n → ℝ) :=
  alphas (fun s ss (φ : Fin n → ℝ) => φ s * tauMatrix H s ss) H.initialState (phiRows H steps last)

/-- BW.py:605-650 `_computeBetas_timed_matrix`: the last row is removed (line 648), here and not in the other table. -/
noncomputable def betasMatrix (H : CTMC ℝ String n) (steps : List (Sym String × ℝ)) (last : Sym String) :
    List (Fin n → ℝ) :=
  (betas (fun s ss (φ : Fin n → ℝ) => φ s * tauMatrix H s ss) (fun _ => 1) (phiRows H steps last)).dropLast

/-- BW.py:680-703 `_splitTime`: the observations and the times. If the trace does not begin with a label and a time, the
times are `None` and the tables raise TypeError (`None[0]`); so does a label at the position of a time (`exp`). -/
def splitTimes (seq : List (Sym String)) : Py (List (Sym String) × List ℝ) :=
  match seq with
  | .obs _ :: .time _ :: _ => do return (TSet.evens seq, ← (TSet.odds seq).mapM Sym.val)
  | _ :: _ :: _ => .error .typeError
  | _ => .error .indexError

/-- The sums of a worker, with the exceptions they can raise. -/
structure FitTables (n : ℕ) where
  visits : Fin n → Py ℝ
  uses : Fin n → Fin n → Py ℝ
  seen : Fin n → Fin n → Prop
  proba : ℝ
  times : ℕ

/-- BW.py:1090, 1112: `dot(alpha[s][:-1]*beta[s][:-1]*times_seq, c).sum()`. -/
noncomputable def visitsMatrix (al be : List (Fin n → ℝ)) (ts : List ℝ) (c : ℝ) (s : Fin n) : Py ℝ := do
  let x ← bmul (al.map (· s)).dropLast (be.map (· s)).dropLast
  let y ← bmul x ts
  return (y.map (fun z => z * c)).sum

/-- BW.py:1094, 1115: `dot(alpha[s][:-1]*p*beta[ss][1:], c).sum()`. -/
noncomputable def usesMatrix (al be : List (Fin n → ℝ)) (p : List ℝ) (c : ℝ) (s ss : Fin n) : Py ℝ := do
  let x ← bmul (al.map (· s)).dropLast p
  let y ← bmul x (be.map (· ss)).tail
  return (y.map (fun z => z * c)).sum

open Classical in
/-- BW.py:1070-1079 and the sums of 1089-1146; `none` is `False`. -/
noncomputable def fitTables (H : CTMC ℝ String n) (seq : List (Sym String)) (times : ℕ) : Py (Option (FitTables n)) := do
  let (obs, ts) ← splitTimes seq
  let steps := obs.dropLast.zip ts
  let last := obs.getLast?.getD (.time 0)
  let al := alphasMatrix H steps last
  let be := betasMatrix H steps last
  let proba := lastSum al
  let p := fun s ss => (obs.zip ts).map (H.tauTimed s ss)
  return if proba = 0 then none
    else some { visits := visitsMatrix al be ts (times / proba), uses := fun s ss => usesMatrix al be (p s ss) (times / proba) s ss,
                seen := fun s ss => 0 < (p s ss).sum, proba := proba, times := times }

/-! ### The workers -/

/-- The sums as numbers, for those that can be computed. -/
noncomputable def FitTables.total (t : FitTables n) : Tables n :=
  { time := fun s => (t.visits s).toOption.getD 0, uses := fun s ss => (t.uses s ss).toOption.getD 0, seen := t.seen,
    proba := t.proba, times := t.times }

/-- `a[s]` and `a[s,ss]` for state ids. -/
def FitTables.visitsAt (t : FitTables n) (s : ℕ) : Py ℝ := if h : s < n then t.visits ⟨s, h⟩ else .error .indexError
def FitTables.usesAt (t : FitTables n) (s ss : ℕ) : Py ℝ :=
  if h : s < n ∧ ss < n then t.uses ⟨s, h.1⟩ ⟨ss, h.2⟩ else .error .indexError

def FitTables.seenAt (t : FitTables n) (s ss : ℕ) : Prop := ∃ (h : s < n) (h' : ss < n), t.seen ⟨s, h⟩ ⟨ss, h'⟩

/-- BW.py:1086-1087: the first transition with the expression number `t`, in the order of the matrix. -/
def firstCell {K : Type} (M : PCTMC K) (t : ℕ) : Option (ℕ × ℕ) :=
  ((List.range M.matrix.length).flatMap (fun i => (List.range M.matrix.length).map (fun j => (i, j)))).find?
    (fun q => (M.matrix.getD q.1 []).getD q.2 0 = t)

/-- BW.py:1082-1094 for the expression number `i`: the denominator and the numerator, `none` for an expression with
symbols. A constant that no transition has is an IndexError (`s[0]`). -/
noncomputable def constWork (M : PCTMC ℝ) (t : FitTables M.nb) (i : ℕ) (x : Expr ℝ) : Py (Option (ℝ × ℝ)) :=
  if x.free = [] then
    match M.firstCell i with
    | none => .error .indexError
    | some q => do
      let den ← t.visitsAt q.1
      let num ← t.usesAt q.1 q.2
      return some (den, num)
  else .ok none

/-- BW.py:1081-1098: the sums for the constants of `transition_expr[1:]`. -/
noncomputable def constWorks (M : PCTMC ℝ) (t : FitTables M.nb) (constants : Bool) : Py (List (Option (ℝ × ℝ))) :=
  if constants then ((M.exprs.tail).zipIdx 1).mapM (fun x => M.constWork t x.2 x.1) else .ok []

/-- The sums of BW.py:1101-1148 for a transition that is recorded for a parameter, without their values. -/
noncomputable def sums (M : PCTMC ℝ) (t : FitTables M.nb) (q : ℕ × ℕ) : Py Unit := do
  let _ ← t.visitsAt q.1
  let _ ← t.usesAt q.1 q.2
  return ()

open Classical in
/-- BW.py:1069-1150 `_processWork_PCTMC` after the tables: the sums for the constants and for the parameters. -/
noncomputable def fitWork (M : PCTMC ℝ) (C : Cats ℝ) (H : CTMC ℝ String M.nb) (constants : Bool) (t : FitTables M.nb) :
    Py (List (Option (ℝ × ℝ)) × Work) := do
  let cs ← M.constWorks t constants
  let _ ← (C.cat1.flatMap M.indexesOf).mapM (fun q => if t.seenAt q.1 q.2 then M.sums t q else .ok ())
  let _ ← ((C.cat2 ++ C.cat3).flatMap M.indexesOf).mapM (M.sums t)
  return (cs, M.work C H t.total)

/-- BW.py:1069-1150 `_processWork_PCTMC`; `none` is `False`. -/
noncomputable def fitTrace (M : PCTMC ℝ) (C : Cats ℝ) (H : CTMC ℝ String M.nb) (constants : Bool) (x : List (Sym String) × ℕ) :
    Py (Option (List (Option (ℝ × ℝ)) × Work)) := do
  match ← fitTables H x.1 x.2 with
  | none => return none
  | some t => return some (← M.fitWork C H constants t)

/-! ### The update -/

/-- BW.py:1170-1173 for an expression: `c` are the sums of the traces for it (`none`: an expression with symbols). -/
noncomputable def newConst (x : Expr ℝ) (c : List (Option (ℝ × ℝ))) : Expr ℝ :=
  if x.free = [] then
    let den := (c.map (fun y => (y.getD (0, 0)).1)).sum
    let num := (c.map (fun y => (y.getD (0, 0)).2)).sum
    if den = 0 then x else .num (num / den)
  else x

/-- BW.py:1166-1173: the new `transition_expr`. -/
noncomputable def newExprs (M : PCTMC ℝ) (cs : List (List (Option (ℝ × ℝ)))) : List (Expr ℝ) :=
  M.exprs.zipIdx.map (fun x => if x.2 = 0 then x.1 else newConst x.1 (cs.map (fun c => c.getD (x.2 - 1) none)))

/-- One iteration on timed traces (BW.py:294-296): the model and `currentloglikelihood`. -/
noncomputable def fitStep (processes : ℕ) (C : Cats ℝ) (constants : Bool) (S : TSet (Sym String)) (M : PCTMC ℝ) :
    Py (PCTMC ℝ × ℝ) := do
  let H ← M.hypothesis
  let res ← (S.sequences.zip S.times).mapM (M.fitTrace C H constants)
  let temp ← collect .typeError processes res
  let M1 := if constants then { M with exprs := M.newExprs (temp.map (·.1)) } else M
  M1.update C (temp.map (·.2))

/-- One iteration on untimed traces: `_processWork_PCTMC` calls `_computeAlphas_matrix(obs_seq,times_seq)` (BW.py:244, 1075),
a method with one argument (BW.py:1492): TypeError. -/
noncomputable def fitStepUntimed (processes : ℕ) (S : TSet String) (M : PCTMC ℝ) : Py (PCTMC ℝ × ℝ) := do
  let _ ← M.hypothesis
  let res ← (S.sequences.zip S.times).mapM (fun x =>
    (if x.1.length < 2 then .error .indexError else .error .typeError : Py (Option Work)))
  let _ ← collect .typeError processes res
  .error .typeError

/-- BW.py:26-171 `fit(training_set,initial_model)` on a PCTMC, with a finite `max_it`; `constants` is `update_constant`.
`none`: the random instantiation is still running after the given rounds. -/
noncomputable def fit (processes : ℕ) (S : Traces) (M : PCTMC ℝ) (fixedArg : FixedArg) (constants : Bool) (epsilon : ℝ)
    (maxIt : ℕ) (lo hi : Option ℝ) (rounds : List (List ℝ)) : Py (Option (PCTMC ℝ)) := do
  let S' ← prepare S
  match ← M.randomInstantiation none lo hi rounds with
  | none => return none
  | some M' =>
    let fixed ← fixedArg.resolve M'
    let C ← M'.sortParameters fixed
    let st ← BW.fit (match S' with
      | .timed S => fitStep processes C constants S
      | .untimed S => fitStepUntimed processes S) epsilon maxIt M'
    return some st.h

end PCTMC
end Jajapy
