import Verif.Model.PCTMC

/-!
Model of `createPCTMC` (`jajapy/pctmc/PCTMC.py:461-546`).

The state ids are natural numbers. A transition carries the expression that `sympify(str(t[2]))` gives. The matrix has the type
`uint16`: an index is stored modulo 65536 (numpy before 2.0; numpy 2 raises OverflowError instead).
-/

namespace Jajapy.CreatePCTMC

variable {K : Type} [Field K] [LinearOrder K]

/-- A transition: source, destination, expression. -/
abbrev Trans (K : Type) := ℕ × ℕ × Expr K

/-- The argument `initial_state`. -/
inductive PInit (K : Type)
  | int (i : ℕ)
  | list (l : List K)

/-- PCTMC.py:509-512: the number of distinct state ids. -/
def nbIds (ts : List (Trans K)) (sync : List (ℕ × String × ℕ × Expr K)) : ℕ :=
  (sortedSet ((ts.map (·.1) ++ ts.map (·.2.1)) ++ (sync.map (·.1) ++ sync.map (·.2.2.1)))).length

/-- PCTMC.py:513-517: the transitions of the added state `nb`. -/
def initTrans (nb : ℕ) : PInit K → List (Trans K)
  | .int i => [(nb, i, .num 1)]
  | .list l => l.zipIdx.map (fun p => (nb, p.2, .num p.1))

/-- The variables `matrix`, `transition_expr`, `parameter_indexes`. -/
structure St (K : Type) where
  matrix : ℕ → ℕ → ℕ
  exprs : List (Expr K)
  indexes : List (List (ℕ × ℕ))

/-- PCTMC.py:533-534. In the trees `Expr` an expression is real for sympy exactly when it has no symbol. -/
def addExpr (exprs : List (Expr K)) (e : Expr K) : List (Expr K) :=
  if e.free = [] ∨ e ∉ exprs then exprs ++ [e] else exprs

/-- PCTMC.py:536-537: `parameter_indexes[parameter_str.index(str(p))].append([t[0],t[1]])`. -/
def addIndex (params : List String) (ij : ℕ × ℕ) (ix : List (List (ℕ × ℕ))) (p : String) : Py (List (List (ℕ × ℕ))) :=
  if p ∈ params then .ok (ix.modify (params.idxOf p) (· ++ [ij])) else .error .valueError

/-- PCTMC.py:530-537, one round of the loop; `n` is the size of the matrix. -/
def step (params : List String) (n : ℕ) (st : St K) (t : Trans K) : Py (St K) := do
  let exprs := addExpr st.exprs t.2.2
  if n ≤ t.1 ∨ n ≤ t.2.1 then .error .indexError
  else
    let ix ← t.2.2.free.foldlM (addIndex params (t.1, t.2.1)) st.indexes
    return St.mk (fun i j => if i = t.1 ∧ j = t.2.1 then exprs.idxOf t.2.2 % 65536 else st.matrix i j) exprs ix

/-- PCTMC.py:524-529, before the loop. -/
def start (params : List String) : St K := St.mk (fun _ _ => 0) [.num 0] (params.map (fun _ => []))

/-- PCTMC.py:539-543: the instantiations of the parameters that exist. -/
def chosen (params : List String) (inst : List (String × Option K)) : List (String × Option K) :=
  inst.filter (fun p => p.1 ∈ params)

/-- PCTMC.py:503-546 `createPCTMC`: the caller's lists `labelling` and `transitions` after the call, and its outcome. -/
def createPCTMC [FloorRing K] (ts : List (Trans K)) (labelling : List String) (params : List String) (initial : PInit K)
    (inst : List (String × Option K)) (sync : List (ℕ × String × ℕ × Expr K)) :
    List String × List (Trans K) × Py (PCTMC K) :=
  if "init" ∈ labelling then (labelling, ts, .error .syntaxError)
  else
    let lab := labelling ++ ["init"]
    let nb := nbIds ts sync
    let all := ts ++ initTrans nb initial
    if nb + 1 > lab.length then (lab, all, .error .valueError)
    else (lab, all, do
      let st ← all.foldlM (step params (nb + 1)) (start params)
      mkPCTMC ((List.range (nb + 1)).map (fun i => (List.range (nb + 1)).map (st.matrix i))) lab st.exprs (chosen params inst)
        st.indexes params sync)

end Jajapy.CreatePCTMC
