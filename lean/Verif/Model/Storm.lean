import Verif.Model.CreatePCTMC

/-!
Model of `jajapy/with_stormpy/model_converter.py`: the conversion of models to Storm and back.

Storm itself is not modelled. A Storm sparse model is the data that the code puts in it and reads from it: for each state its labels and,
for each of its actions (choices), the entries of a row of the sparse matrix; for a CTMC the exit rates. What is used of Storm: the data are
kept as they are given; `build_sparse_matrix` stores the entries that are not 0, by increasing column (a `nan` is not 0, so it is stored);
`str` of an action is its position among the actions of its state.
`loadPrism` (lines 292-330) is `stormpyModeltoJajapy` with `from_prism=True`, applied to the sparse model that Storm builds from the file; Storm's
reading of the file is not modelled.
-/

namespace Jajapy.Storm

open Tools

/-- A state of a sparse model: `s.labels` (a set: no duplicates) and, for each element of `s.actions`, its transitions (column, value). -/
structure State (V : Type) where
  labels : List String
  actions : List (List (ℕ × V))

/-- A sparse model. `exitRates` is used for CTMCs, `choiceLabels` (the labels of the choices of all the states, one after the other) for MDPs. -/
structure Sparse (V : Type) where
  states : List (State V)
  exitRates : List V
  choiceLabels : List (List String)

section
variable {K : Type} [Field K] [LinearOrder K]

/-! ### To Storm -/

/-- stormpy's `build_sparse_matrix`, one row. -/
def sparseRow {n : ℕ} (row : Fin n → K) : List (ℕ × K) :=
  (List.finRange n).filterMap (fun j => if row j = 0 then none else some (j.val, row j))

/-- model_converter.py:173-179 `_buildStateLabeling`, 215-236 `MCtoStormpy`. -/
def ofMC {n : ℕ} (M : MC K String n) : Sparse K :=
  ⟨List.ofFn (fun s => ⟨[M.labelling s], [sparseRow (M.matrix s)]⟩), [], []⟩

/-- model_converter.py:181-213 `MDPtoStormpy`: every state has a row for every action (lines 198-200); only the first `nb_actions` choices
get a label (lines 201-204). The reward model (lines 205-207) is not modelled. -/
def ofMDP {n : ℕ} (M : MDP K String n) : Sparse K :=
  ⟨List.ofFn (fun s => ⟨[M.labelling s], List.ofFn (fun a => sparseRow (M.matrix s a))⟩), [],
    (List.range (n * M.actions.length)).map (fun c => (M.actions[c]?).toList)⟩

/-- model_converter.py:254-256: the rates divided by the exit rate; `none` is numpy's `nan` (0/0: a state that is never left; the rates are
not negative). -/
def jumpRow {n : ℕ} (M : CTMC K String n) (s : Fin n) : List (ℕ × Option K) :=
  if M.e s = 0 then (List.finRange n).map (fun j => (j.val, none))
  else (sparseRow (fun j => M.matrix s j / M.e s)).map (fun q => (q.1, some q.2))

/-- model_converter.py:238-263 `CTMCtoStormpy`. -/
def ofCTMC {n : ℕ} (M : CTMC K String n) : Sparse (Option K) :=
  ⟨List.ofFn (fun s => ⟨[M.labelling s], [jumpRow M s]⟩), List.ofFn (fun s => some (M.e s)), []⟩

/-- model_converter.py:164-169: a PCTMC is converted to a CTMC first; every ValueError is replaced by a ValueError with another text. -/
def ofPCTMC [FloorRing K] (M : PCTMC K) : Py (Sparse (Option K)) := do return ofCTMC (← M.toCTMC)

end

/-! ### From Storm -/

/-- model_converter.py:69-81: the label of a state, and whether a new state 'init' is needed for it. -/
def labelOf (labels : List String) : String × Bool :=
  let temp := (labels.erase "deadlock").insertionSort (· ≤ ·)
  if temp.length = 0 then ("empty", false)
  else if "init" ∈ temp ∧ 1 < temp.length then (String.intercalate "_" (temp.erase "init"), true)
  else (String.intercalate "_" temp, false)

variable {V : Type}

/-- The variable `labelling` after the loop: a new label 'init' is added for each state that needs it. -/
def labelling (S : Sparse V) : List String :=
  S.states.map (fun s => (labelOf s.labels).1) ++ (S.states.filter (fun s => (labelOf s.labels).2)).map (fun _ => "init")

/-- The variable `add_init_state` after the loop: the last state that needs a new state 'init'. -/
def addInit (S : Sparse V) : Option ℕ :=
  ((S.states.zipIdx.filter (fun p => (labelOf p.1.labels).2)).getLast?).map (·.2)

/-- The final number of states (model_converter.py:113-128: one state is added, or none). -/
def size (S : Sparse V) : ℕ := S.states.length + (if (addInit S).isSome then 1 else 0)

/-- `matrix[c][dest] = t_val`, for the transitions of a row, on a row of `z`. -/
def denseRow (z : V) (row : List (ℕ × V)) : ℕ → V :=
  row.foldl (fun f q => fun j => if j = q.1 then q.2 else f j) (fun _ => z)

/-- model_converter.py:119-122: the array with the row and the column of the added state; `m` is the array of the `n` states. -/
def extend {W : Type} (z one : W) (n : ℕ) (k : Option ℕ) (m : ℕ → ℕ → W) (i j : ℕ) : W :=
  if i < n then (if j < n then m i j else z) else if some j = k then one else z

/-- The transitions of the state number `i`, whatever the action. -/
def row (S : Sparse V) (i : ℕ) : List (ℕ × V) := ((S.states[i]?).map (fun s => s.actions.flatten)).getD []

section
variable {K : Type} [Field K] [LinearOrder K]

/-- model_converter.py:12-139 `stormpyModeltoJajapy` for a SparseDtmc. -/
def toMC [FloorRing K] (S : Sparse K) : Py (Σ n, MC K String n) := do
  let M ← mkMC (n := size S) (fun i j => extend 0 1 S.states.length (addInit S) (fun i => denseRow 0 (row S i)) i j) (labelling S)
  return ⟨_, M⟩

/-- Multiplication of numpy numbers; `none` is `nan`. -/
def times (x y : Option K) : Option K := x.bind (fun a => y.map (fun b => a * b))

/-- model_converter.py:83-90, 110-111: the array of a SparseCtmc. -/
def rates (S : Sparse (Option K)) (fromPrism : Bool) (i j : ℕ) : Option K :=
  if fromPrism then denseRow (some 0) (row S i) j else times (denseRow (some 0) (row S i) j) (S.exitRates.getD i none)

/-- model_converter.py:12-139 `stormpyModeltoJajapy` for a SparseCtmc. The result `none` is a CTMC with entries `nan`. -/
def toCTMC [FloorRing K] (S : Sparse (Option K)) (fromPrism : Bool) : Py (Option (Σ n, CTMC K String n)) := do
  let M ← mkCTMC (n := size S) (fun i j => (extend (some 0) (some 1) S.states.length (addInit S) (rates S fromPrism) i j).getD 0) (labelling S)
  return if ∀ i < S.states.length, ∀ j < S.states.length, (rates S fromPrism i j).isSome then some ⟨_, M⟩ else none

/-- model_converter.py:51-54: the name of the action number `a`. -/
def actionName (names : List String) (a : ℕ) : String := if names.length ≤ a then "a" ++ toString a else names.getD a ""

/-- model_converter.py:48-54: the names of the actions of all the states, before duplicates are removed. -/
def allNames (S : Sparse V) (names : List String) : List String :=
  S.states.flatMap (fun s => (List.range s.actions.length).map (actionName names))

/-- The transitions of the state number `i` for the action number `a`. -/
def rowMDP (S : Sparse V) (i a : ℕ) : List (ℕ × V) := ((S.states[i]?).map (fun s => s.actions.getD a [])).getD []

/-- model_converter.py:115-118: the array of an MDP; in the added state every action leads to the state `k`. -/
def extendMDP (n : ℕ) (k : Option ℕ) (m : ℕ → ℕ → ℕ → K) (i a j : ℕ) : K :=
  if i < n then (if j < n then m i a j else 0) else if some j = k then 1 else 0

/-- model_converter.py:12-139 `stormpyModeltoJajapy` for a SparseMdp. `order` is the order of `list(set(actions))` (line 55): Python gives any
order. A transition of an action whose number is too big raises IndexError (line 88). -/
def toMDP [FloorRing K] (S : Sparse K) (order : List String) : Py (Σ n, MDP K String n) :=
  if ∀ s ∈ S.states, ∀ r ∈ s.actions.drop order.length, r.isEmpty = true then do
    let M ← mkMDP (n := size S) order (fun i a j => extendMDP S.states.length (addInit S) (fun i a => denseRow 0 (rowMDP S i a)) i a j) (labelling S)
    return ⟨_, M⟩
  else .error .indexError

/-! ### Parametric CTMCs -/

/-- The variables `matrix`, `t_expr`, `p_str` and `p_i`. -/
structure PSt (K : Type) where
  matrix : ℕ → ℕ → ℕ
  exprs : List (Expr K)
  names : List String
  indexes : List (List (ℕ × ℕ))

/-- model_converter.py:97-103: one parameter of the transition `ij`. -/
def addParam (ij : ℕ × ℕ) (st : PSt K) (v : String) : PSt K :=
  let st' : PSt K := if v ∈ st.names then st else ⟨st.matrix, st.exprs, st.names ++ [v], st.indexes ++ [[]]⟩
  ⟨st'.matrix, st'.exprs, st'.names, st'.indexes.modify (st'.names.idxOf v) (· ++ [ij])⟩

/-- model_converter.py:92-109: one transition. The order of `gather_variables` is the one of `free`; `sympify(str(e))` is the expression `e`.
The matrix has the type `uint16`: an index is stored modulo 65536 (numpy before 2.0). -/
def addTrans (st : PSt K) (t : ℕ × ℕ × Expr K) : PSt K :=
  let st := t.2.2.free.foldl (addParam (t.1, t.2.1)) st
  if t.2.2.free = [] ∨ t.2.2 ∉ st.exprs then
    ⟨fun i j => if i = t.1 ∧ j = t.2.1 then st.exprs.length % 65536 else st.matrix i j, st.exprs ++ [t.2.2], st.names, st.indexes⟩
  else ⟨fun i j => if i = t.1 ∧ j = t.2.1 then st.exprs.idxOf t.2.2 % 65536 else st.matrix i j, st.exprs, st.names, st.indexes⟩

/-- The transitions of all the states: source, destination, expression. -/
def transitions (S : Sparse (Expr K)) : List (ℕ × ℕ × Expr K) :=
  S.states.zipIdx.flatMap (fun p => p.1.actions.flatten.map (fun q => (p.2, q.1, q.2)))

/-- model_converter.py:123-128: the added state. (The variables of `1.0` are not searched.) -/
def addInitTrans (n : ℕ) (k : Option ℕ) (st : PSt K) : PSt K :=
  match k with
  | none => st
  | some k => ⟨fun i j => if i = n ∧ j = k then st.exprs.length % 65536 else st.matrix i j, st.exprs ++ [.num 1], st.names, st.indexes⟩

/-- The array as a list of rows. -/
def array (n : ℕ) (m : ℕ → ℕ → ℕ) : List (List ℕ) := (List.range n).map (fun i => (List.range n).map (m i))

/-- model_converter.py:12-139 `stormpyModeltoJajapy` for a SparseParametricCtmc (the entries are rates). -/
def toPCTMC [FloorRing K] (S : Sparse (Expr K)) : Py (PCTMC K) :=
  let st := addInitTrans S.states.length (addInit S) ((transitions S).foldl addTrans ⟨fun _ _ => 0, [.num 0], [], []⟩)
  mkPCTMC (array (size S) st.matrix) (labelling S) st.exprs (st.names.map (fun p => (p, none))) st.indexes st.names []

end
end Jajapy.Storm
