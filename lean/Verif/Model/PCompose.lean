import Verif.Model.Compose

/-!
Model of `synchronousCompositionPCTMCs` and `synchronousComposition2PCTMCs` (`jajapy/pctmc/PCTMC.py:548-752`).

What is used of sympy: a sum or a product of two expressions is the tree with these two subtrees (sympy normalises it: the
normal form has the same value; that two expressions with the same normal form share one index is not modelled), `==` between
a `Symbol` and a Python string is False, and `free_symbols` are `Symbol` objects. A `Symbol` that is an entry of
`parameter_str` is modelled by the string `symKey p`, which no parameter name is meant to have. The iteration order of a
Python `set` is a parameter of the model (`order`, `perm`). The arrays `matrix` have the type `uint16`: an index is stored modulo
65536 (numpy before 2.0; numpy 2 raises OverflowError instead). The composed model has the same dictionary object
`parameter_values` as the first component (aliasing, not modelled).
-/

namespace Jajapy.PCompose

open PCTMC

variable {K : Type} [Field K] [LinearOrder K]

/-- A synchronous transition: source, action, destination, rate expression. -/
abbrev Sync (K : Type) := ℕ × String × ℕ × Expr K

/-- The two components, as `Compose.Ctx`: only the labels are read there (the lines PCTMC.py:640-658 are those of CTMC.py). -/
def ctx (m1 m2 : PCTMC K) : Compose.Ctx K := ⟨⟨fun _ _ => 0, m1.labelling, []⟩, ⟨fun _ _ => 0, m2.labelling, []⟩⟩

/-- The local variables `matrix`, `trans_expr`, `p_i` of `synchronousComposition2PCTMCs`. -/
structure Build (K : Type) where
  matrix : ℕ → ℕ → ℕ
  exprs : List (Expr K)
  indexes : List (List (ℕ × ℕ))

/-- `matrix[x,y] = t` in an array of type `uint16`. -/
def setEntry (m : ℕ → ℕ → ℕ) (x y t : ℕ) : ℕ → ℕ → ℕ := fun a b => if a = x ∧ b = y then t % 65536 else m a b

/-- `if not expr in trans_expr: trans_expr.append(expr)` (PCTMC.py:680-681, 714-715, 615-616). -/
def addExpr (es : List (Expr K)) (e : Expr K) : List (Expr K) := if e ∈ es then es else es ++ [e]

/-- PCTMC.py:674-687 `add_transition` with `add_in_matrix` (660-672), for the expression `e` and the cells of the loop over the
states of the other component. A symbol that is not in `p_str` is appended there and not in `p_i`: IndexError. -/
def addTransition (names : List String) (B : Build K) (e : Expr K) (cells : List (ℕ × ℕ)) : Py (Build K) :=
  if e.free.any (fun p => p ∉ names) then .error .indexError
  else .ok {
    matrix := cells.foldl (fun m q => setEntry m q.1 q.2 ((addExpr B.exprs e).idxOf e)) B.matrix
    exprs := addExpr B.exprs e
    indexes := e.free.foldl (fun ix p => ix.modify (names.idxOf p) (fun l => l ++ cells)) B.indexes }

/-- All the pairs of two lists, in the order of two nested loops. -/
def pairs (l l' : List ℕ) : List (ℕ × ℕ) := l.flatMap (fun i => l'.map (fun j => (i, j)))

/-- PCTMC.py:703-705, for one pair of states of the first component. -/
def step1 (m1 m2 : PCTMC K) (names : List String) (B : Build K) (p : ℕ × ℕ) : Py (Build K) := do
  let e ← m1.transitionExpression p.1 p.2
  addTransition names B e ((ctx m1 m2).sids2.map (fun k => ((ctx m1 m2).idx p.1 k, (ctx m1 m2).idx p.2 k)))

/-- PCTMC.py:706-708, for one pair of states of the second component. -/
def step2 (m1 m2 : PCTMC K) (names : List String) (B : Build K) (p : ℕ × ℕ) : Py (Build K) := do
  let e ← m2.transitionExpression p.1 p.2
  addTransition names B e ((ctx m1 m2).sids1.map (fun k => ((ctx m1 m2).idx k p.1, (ctx m1 m2).idx k p.2)))

/-- `m.matrix[i,j]` for two ids that are in range. -/
def entry (M : PCTMC K) (i j : ℕ) : ℕ := (M.matrix.getD i []).getD j 0

/-- PCTMC.py:709-716, for one pair of states: two self-loops are added (the lists of the parameters are not updated). -/
def loopStep (m1 m2 : PCTMC K) (B : Build K) (p : ℕ × ℕ) : Py (Build K) :=
  if entry m1 p.1 p.1 ≠ 0 ∧ entry m2 p.2 p.2 ≠ 0 then do
    let a ← m1.transitionExpression p.1 p.1
    let b ← m2.transitionExpression p.2 p.2
    return { B with
      matrix := setEntry B.matrix ((ctx m1 m2).idx p.1 p.2) ((ctx m1 m2).idx p.1 p.2) ((addExpr B.exprs (.add a b)).idxOf (.add a b))
      exprs := addExpr B.exprs (.add a b) }
  else .ok B

/-- The pairs of synchronous transitions with the same action, in the order of PCTMC.py:717-723. -/
def syncPairs (s1 s2 : List (Sync K)) : List (Sync K × Sync K) :=
  (s1.flatMap (fun t => s2.map (fun u => (t, u)))).filter (fun p => p.1.2.1 = p.2.2.1)

/-- PCTMC.py:689-698 `add_sync_transition`: the synchronous transition of a pair. -/
def syncOf (m1 m2 : PCTMC K) (p : Sync K × Sync K) : Py (Sync K) := do
  let x ← (ctx m1 m2).stateIndex p.1.1 p.2.1
  let y ← (ctx m1 m2).stateIndex p.1.2.2.1 p.2.2.2.1
  return (x, p.1.2.1, y, .mul p.1.2.2.2 p.2.2.2.2)

/-- The entry of `parameter_str` for a `Symbol` object. -/
def symKey (p : String) : String := "Symbol " ++ p

/-- PCTMC.py:693-696: a `Symbol` is never equal to a string, so each free symbol is appended once. -/
def addSymbols (names : List String) (e : Expr K) : List String :=
  e.free.foldl (fun ns p => if symKey p ∈ ns then ns else ns ++ [symKey p]) names

/-- PCTMC.py:728-735 (and 736-743): the rates from the initial states. The comparison of a symbolic value with 0.0 is a
TypeError. -/
def initValues (M : PCTMC K) (init ids : List ℕ) : Py (List K) :=
  init.foldlM (fun v i => do
    let t ← ids.mapM (fun j => M.evaluate i j)
    if t.any Option.isNone then .error .typeError
    else return List.zipWith (fun a t => if a * t > 0 then a * t else a + t) v (t.map (fun o => o.getD 0)))
    (ids.map (fun _ => 0))

/-- PCTMC.py:744-750, for one pair of initial rates. -/
def initStep (m1 m2 : PCTMC K) (B : Build K) (p : (K × ℕ) × (K × ℕ)) : Py (Build K) := do
  let y ← (ctx m1 m2).stateIndex p.1.2 p.2.2
  if p.1.1 * p.2.1 = 0 then return { B with matrix := setEntry B.matrix (ctx m1 m2).nb y 0 }
  else return { B with
    matrix := setEntry B.matrix (ctx m1 m2).nb y B.exprs.length
    exprs := B.exprs ++ [.num (p.1.1 * p.2.1)] }

/-- PCTMC.py:648-653, the empty build. -/
def Build.empty (names : List String) : Build K := ⟨fun _ _ => 0, [.num 0], names.map (fun _ => [])⟩

/-- PCTMC.py:703-716: the transitions of the two components. -/
def locals (m1 m2 : PCTMC K) (names : List String) : Py (Build K) := do
  let B ← (pairs (ctx m1 m2).sids1 (ctx m1 m2).sids1).foldlM (step1 m1 m2 names) (Build.empty names)
  let B ← (pairs (ctx m1 m2).sids2 (ctx m1 m2).sids2).foldlM (step2 m1 m2 names) B
  (pairs (ctx m1 m2).sids1 (ctx m1 m2).sids2).foldlM (loopStep m1 m2) B

/-- PCTMC.py:728-750: the row of the initial state. -/
def addInit (m1 m2 : PCTMC K) (B : Build K) : Py (Build K) := do
  let v1 ← initValues m1 (Compose.inits m1.labelling) (ctx m1 m2).sids1
  let v2 ← initValues m2 (Compose.inits m2.labelling) (ctx m1 m2).sids2
  (v1.zipIdx.flatMap (fun a => v2.zipIdx.map (fun b => (a, b)))).foldlM (initStep m1 m2) B

/-- PCTMC.py:624-752 `synchronousComposition2PCTMCs`: the composed model and the synchronised transitions, which are not in
its matrix. `order` is `list(set(m1.parameter_str+m2.parameter_str))`; `s1` and `s2` are the lists
`synchronous_transitions` of the components at the time of the call; `dflt` is the content of the default argument of the
constructor, which is the list `synchronous_transitions` of the result. -/
def compose2 [FloorRing K] (order : List String) (m1 m2 : PCTMC K) (s1 s2 dflt : List (Sync K)) : Py (PCTMC K × List (Sync K)) := do
  let B ← locals m1 m2 order
  let ts ← (syncPairs s1 s2).mapM (syncOf m1 m2)
  let names := ts.foldl (fun ns t => addSymbols ns t.2.2.2) order
  let B ← addInit m1 m2 B
  let M ← mkPCTMC ((List.range ((ctx m1 m2).nb + 1)).map (fun x => (List.range ((ctx m1 m2).nb + 1)).map (fun y => B.matrix x y)))
    (Compose.labels (ctx m1 m2)) B.exprs (m1.values.map (fun q => (q.1, some q.2)))
    (B.indexes ++ List.replicate (names.length - order.length) []) names dflt
  return (M, ts)

/-- A component: a model, and whether its list `synchronous_transitions` is the default argument of the constructor
(PCTMC.py:17: `synchronous_transitions: list = []`, one object for all the calls); then `model.sync` is not used. -/
structure Comp (K : Type) where
  model : PCTMC K
  shared : Bool

/-- The list `synchronous_transitions` of a component when the default argument contains `dflt`. -/
def Comp.syncs (m : Comp K) (dflt : List (Sync K)) : List (Sync K) := if m.shared then dflt else m.model.sync

/-- PCTMC.py:604-609, the loop: `m1.synchronous_transitions.append(t)` for the last synchronised transitions, then the
composition with the next model. The result of a composition has the default argument as its list. The first value is the content of
the default argument afterwards. -/
def loop [FloorRing K] : List (Comp K × List String) → List (Sync K) → Comp K → List (Sync K) → List (Sync K) × Py (PCTMC K × List (Sync K))
  | [], dflt, m1, ts => (dflt, .ok (m1.model, ts))
  | (m2, order) :: rest, dflt, m1, ts =>
    let dflt := if m1.shared then dflt ++ ts else dflt
    let s1 := if m1.shared then dflt else m1.model.sync ++ ts
    match compose2 order m1.model m2.model s1 (m2.syncs dflt) dflt with
    | .error e => (dflt, .error e)
    | .ok r => loop rest dflt ⟨r.1, true⟩ r.2

/-- PCTMC.py:618-619: `m1.parameter_indexes[m1.parameter_str.index(p)].append([i,d])` for each free symbol `p`, which is a
`Symbol` object: ValueError when this object is not in `parameter_str`. -/
def recordAll (names : List String) (cell : ℕ × ℕ) (ix : List (List (ℕ × ℕ))) (ps : List String) : Py (List (List (ℕ × ℕ))) :=
  ps.foldlM (fun ix p =>
    if symKey p ∉ names then .error .valueError
    else .ok (ix.modify (names.idxOf (symKey p)) (fun l => l ++ [cell]))) ix

/-- PCTMC.py:612-614: the expression of a synchronised transition, plus the expression of the cell when there is a transition. -/
def syncExpr (M : PCTMC K) (t : Sync K) : Py (Expr K) :=
  if entry M t.1 t.2.2.1 ≠ 0 then do return .add t.2.2.2 (← M.transitionExpression t.1 t.2.2.1) else .ok t.2.2.2

/-- PCTMC.py:611-619, for one synchronised transition. -/
def addSync (M : PCTMC K) (t : Sync K) : Py (PCTMC K) := do
  let e ← syncExpr M t
  let ix ← recordAll M.names (t.1, t.2.2.1) M.indexes e.free
  return { M with
    exprs := addExpr M.exprs e
    matrix := M.matrix.set t.1 ((M.matrix.getD t.1 []).set t.2.2.1 ((addExpr M.exprs e).idxOf e % 65536))
    indexes := ix }

/-- PCTMC.py:589: the indexes of the expressions that no transition uses, in increasing order. -/
def unused (M : PCTMC K) : List ℕ := (List.range M.exprs.length).filter (fun t => !M.uses t)

/-- PCTMC.py:611-622: the synchronised transitions are added, and what is not used is removed. `perm` gives the iteration
order of the set of PCTMC.py:589. -/
def finish (perm : List ℕ → List ℕ) (M : PCTMC K) (ts : List (Sync K)) : Py (PCTMC K) := do
  let M ← ts.foldlM addSync M
  let M := M.removeUnreachable
  return dropAll (perm (unused M)) M

/-- PCTMC.py:548-622 `synchronousCompositionPCTMCs(ms)`: the content of the default argument of the constructor after the call,
and the result. Each model but the first one comes with the iteration order of the names in its composition. -/
def composeAll [FloorRing K] (perm : List ℕ → List ℕ) (dflt : List (Sync K)) : List (Comp K × List String) → List (Sync K) × Py (PCTMC K)
  | [] => (dflt, .error .valueError)
  | [m] => (dflt, .ok m.1.model)
  | m :: rest =>
    match loop rest dflt m.1 [] with
    | (dflt', r) => (dflt', r.bind (fun q => finish perm q.1 q.2))

end Jajapy.PCompose
