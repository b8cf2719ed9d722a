import Verif.Model.PReduce

/-!
Model of `synchronousCompositionCTMCs` (`jajapy/ctmc/CTMC.py:503-649`).

`sympify` of a parameter name is the symbol with this name. The arrays `matrix` have the type `uint8`: an index of an expression
is stored modulo 256 (numpy before 2.0; numpy 2 raises OverflowError instead). Rates are elements of an ordered field.
-/

namespace Jajapy.Compose

open PCTMC

variable {K : Type} [Field K] [LinearOrder K]

/-- A CTMC as the composition reads it: its array of rates, its labels, its synchronous transitions (source, action,
destination, rate). -/
structure Part (K : Type) where
  rate : ℕ → ℕ → K
  labelling : List String
  sync : List (ℕ × String × ℕ × K)

/-- CTMC.py:522-523: the states labelled 'init'. -/
def inits (lab : List String) : List ℕ := (lab.zipIdx.filter (fun p => p.1 = "init")).map (·.2)

/-- CTMC.py:527-528: `[i-ref[:i].count("init") for i,li in enumerate(lab) if li != 'init']`, where `ref` is `m1.labelling` in
both lines. -/
def sids (ref lab : List String) : List ℕ :=
  (lab.zipIdx.filter (fun p => p.1 ≠ "init")).map (fun p => p.2 - (ref.take p.2).count "init")

/-- The two components with the data of CTMC.py:522-528. -/
structure Ctx (K : Type) where
  m1 : Part K
  m2 : Part K

namespace Ctx

def sids1 (c : Ctx K) : List ℕ := sids c.m1.labelling c.m1.labelling
def sids2 (c : Ctx K) : List ℕ := sids c.m1.labelling c.m2.labelling
/-- CTMC.py:524. -/
def n1 (c : Ctx K) : ℕ := c.m1.labelling.length - (inits c.m1.labelling).length
/-- CTMC.py:525. -/
def n2 (c : Ctx K) : ℕ := c.m2.labelling.length - (inits c.m2.labelling).length
/-- CTMC.py:526. -/
def nb (c : Ctx K) : ℕ := c.n1 * c.n2

/-- CTMC.py:537-540 `get_state_index`, on ids that are in the lists. -/
def idx (c : Ctx K) (s1 s2 : ℕ) : ℕ := c.sids1.idxOf s1 * c.n2 + c.sids2.idxOf s2

/-- CTMC.py:537-540 `get_state_index`: `index` raises ValueError on an id that is not in the list. -/
def stateIndex (c : Ctx K) (s1 s2 : ℕ) : Py ℕ :=
  if s2 ∉ c.sids2 then .error .valueError
  else if s1 ∉ c.sids1 then .error .valueError
  else .ok (c.idx s1 s2)

end Ctx

/-- The local variables `matrix`, `t_e`, `p_v`, `p_str`, `p_i`. -/
structure Build (K : Type) where
  matrix : ℕ → ℕ → ℕ
  exprs : List (Expr K)
  values : Valuation K
  names : List String
  indexes : List (List (ℕ × ℕ))

/-- `matrix[x,y] = t` in an array of type `uint8`. -/
def setEntry (m : ℕ → ℕ → ℕ) (x y t : ℕ) : ℕ → ℕ → ℕ := fun a b => if a = x ∧ b = y then t % 256 else m a b

/-- CTMC.py:564-568 and 572-576 with `add_in_matrix` (542-554): a new parameter whose transition is written in `cells`. -/
def addTransition (B : Build K) (name : String) (value : K) (cells : List (ℕ × ℕ)) : Build K where
  matrix := cells.foldl (fun m q => setEntry m q.1 q.2 B.exprs.length) B.matrix
  exprs := B.exprs ++ [.sym name]
  values := dictSet B.values name value
  names := B.names ++ [name]
  indexes := B.indexes ++ [cells]

/-- The parameters of CTMC.py:561-568: for each non-zero rate of the first component, its name, its value and its cells. -/
def params1 (c : Ctx K) : List (String × K × List (ℕ × ℕ)) :=
  (c.sids1.flatMap (fun i => c.sids1.map (fun j => (i, j)))).filterMap (fun p =>
    if c.m1.rate p.1 p.2 ≠ 0 then
      some ("p_" ++ toString p.1 ++ "_" ++ toString p.2, c.m1.rate p.1 p.2,
        c.sids2.map (fun k => (c.idx p.1 k, c.idx p.2 k)))
    else none)

/-- The parameters of CTMC.py:569-576, for the second component. -/
def params2 (c : Ctx K) : List (String × K × List (ℕ × ℕ)) :=
  (c.sids2.flatMap (fun i => c.sids2.map (fun j => (i, j)))).filterMap (fun p =>
    if c.m2.rate p.1 p.2 ≠ 0 then
      some ("q_" ++ toString p.1 ++ "_" ++ toString p.2, c.m2.rate p.1 p.2,
        c.sids1.map (fun k => (c.idx k p.1, c.idx k p.2)))
    else none)

/-- CTMC.py:561-576, the two loops. -/
def addAll (B : Build K) (ps : List (String × K × List (ℕ × ℕ))) : Build K :=
  ps.foldl (fun B p => addTransition B p.1 p.2.1 p.2.2) B

/-- CTMC.py:578-583: the cells of the double self-loops get the sum of the symbols `p<i>_<i>` and `q<j>_<j>` (the parameters are
called `p_<i>_<i>` and `q_<j>_<j>`). -/
def selfLoops (c : Ctx K) (B : Build K) : Build K :=
  (c.sids1.flatMap (fun i => c.sids2.map (fun j => (i, j)))).foldl (fun B p =>
    if c.m1.rate p.1 p.1 ≠ 0 ∧ c.m2.rate p.2 p.2 ≠ 0 then
      { B with
        matrix := setEntry B.matrix (c.idx p.1 p.2) (c.idx p.1 p.2) B.exprs.length
        exprs := B.exprs ++ [.add (.sym ("p" ++ toString p.1 ++ "_" ++ toString p.1)) (.sym ("q" ++ toString p.2 ++ "_" ++ toString p.2))] }
    else B) B

/-- The pairs of synchronous transitions with the same action, in the order of CTMC.py:585-587. -/
def syncPairs (c : Ctx K) : List ((ℕ × String × ℕ × K) × (ℕ × String × ℕ × K)) :=
  (c.m1.sync.flatMap (fun t => c.m2.sync.map (fun u => (t, u)))).filter (fun p => p.1.2.1 = p.2.2.1)

/-- CTMC.py:588-589, for one pair: the expression of the cell plus the product of the two rates. -/
def syncStep (c : Ctx K) (B : Build K) (p : (ℕ × String × ℕ × K) × (ℕ × String × ℕ × K)) : Py (Build K) := do
  let x ← c.stateIndex p.1.1 p.2.1
  let y ← c.stateIndex p.1.2.2.1 p.2.2.2.1
  match B.exprs[B.matrix x y]? with
  | none => .error .indexError
  | some e =>
    return { B with
      matrix := setEntry B.matrix x y B.exprs.length
      exprs := B.exprs ++ [.add e (.num (p.1.2.2.2 * p.2.2.2.2))] }

/-- CTMC.py:594-608: the rates from the initial states: `zeros`, then for each initial state a product or a sum. -/
def initTrans (rate : ℕ → ℕ → K) (init : List ℕ) (ids : List ℕ) : List K :=
  init.foldl (fun v i => List.zipWith (fun a t => if a * t > 0 then a * t else a + t) v (ids.map (fun j => rate i j)))
    (ids.map (fun _ => 0))

/-- CTMC.py:609-618: the parameters of the initial rates. -/
def addInitParams (pre : String) (v : List K) (B : Build K) : Build K :=
  v.zipIdx.foldl (fun B p =>
    if p.1 > 0 then
      { B with values := dictSet B.values (pre ++ toString p.2) p.1
               names := B.names ++ [pre ++ toString p.2]
               indexes := B.indexes ++ [[]] }
    else B) B

/-- `p_i[p_str.index(name)].append(q)`: ValueError if the name is not in the list. -/
def recordIndex (B : Build K) (name : String) (q : ℕ × ℕ) : Py (Build K) :=
  if name ∉ B.names then .error .valueError
  else .ok { B with indexes := B.indexes.modify (B.names.idxOf name) (fun l => l ++ [q]) }

/-- CTMC.py:619-627, for one pair of initial rates. -/
def initStep (c : Ctx K) (B : Build K) (p : (K × ℕ) × (K × ℕ)) : Py (Build K) := do
  let y ← c.stateIndex p.1.2 p.2.2
  if p.1.1 * p.2.1 ≤ 0 then return { B with matrix := setEntry B.matrix c.nb y 0 }
  else
    let B : Build K := { B with
      matrix := setEntry B.matrix c.nb y B.exprs.length
      exprs := B.exprs ++ [.mul (.sym ("initp_" ++ toString p.1.2)) (.sym ("initq_" ++ toString p.2.2))] }
    let B ← recordIndex B ("initp_" ++ toString p.1.2) (c.nb, y)
    recordIndex B ("initq_" ++ toString p.2.2) (c.nb, y)

/-- CTMC.py:530-535: the empty build. -/
def Build.empty : Build K where
  matrix := fun _ _ => 0
  exprs := [.num 0]
  values := []
  names := []
  indexes := []

/-- CTMC.py:594-627: the row of the initial state. -/
def addInit (c : Ctx K) (B : Build K) : Py (Build K) := do
  let v1 := initTrans c.m1.rate (inits c.m1.labelling) c.sids1
  let v2 := initTrans c.m2.rate (inits c.m2.labelling) c.sids2
  let B := addInitParams "initq_" v2 (addInitParams "initp_" v1 B)
  (v1.zipIdx.flatMap (fun a => v2.zipIdx.map (fun b => (a, b)))).foldlM (initStep c) B

/-- CTMC.py:556-559 and 591: the labels. -/
def labels (c : Ctx K) : List String :=
  c.sids1.flatMap (fun s1 => c.sids2.map (fun s2 => c.m1.labelling.getD s1 "" ++ "," ++ c.m2.labelling.getD s2 "")) ++ ["init"]

/-- CTMC.py:530-627: the model before the removal of the unreachable states. The constructor computes `initialState`; before, it is a
list of zeros. -/
def composeRaw (c : Ctx K) : Py (PCTMC K) := do
  let B := selfLoops c (addAll (addAll Build.empty (params1 c)) (params2 c))
  let B ← (syncPairs c).foldlM (syncStep c) B
  let B ← addInit c B
  return { matrix := (List.range (c.nb + 1)).map (fun x => (List.range (c.nb + 1)).map (fun y => B.matrix x y))
           labelling := labels c, exprs := B.exprs, values := B.values, indexes := B.indexes, names := B.names,
           initialState := List.replicate (c.nb + 1) 0, sync := [] }

/-- CTMC.py:503-649 `synchronousCompositionCTMCs`. -/
def compose [FloorRing K] (m1 m2 : Part K) : Py (PCTMC K) := do
  let R ← composeRaw ⟨m1, m2⟩
  let R := R.removeUnreachable
  mkPCTMC R.matrix R.labelling R.exprs (R.values.map (fun q => (q.1, some q.2))) R.indexes R.names []

end Jajapy.Compose
