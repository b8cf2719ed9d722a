import Verif.Model.Files
import Verif.Model.PCTMC

/-!
Model of the files of PCTMCs: `PCTMC.save` (`jajapy/pctmc/PCTMC.py:369-383`), `Parametric_Model._save`
(`jajapy/base/Parametric_Model.py:434-449`), `loadParametricModel` (Parametric_Model.py:461-474) and `loadPCTMC`
(PCTMC.py:433-458).

The rate expressions are printed by sympy and read by `sympify`; what is assumed of the two is the contract `ExprIO`. The
fifth line is a dictionary; it has its own printer and reader, built on those of `Model/Files.lean`. In Python a
dictionary could also occur where a list is expected, and the reverse; here the fifth line has to be a dictionary, and the
others may not contain one.
-/

namespace Jajapy
namespace Files

variable {K : Type}

/-- What is assumed of `str` on the expressions of sympy and of `sympify`, on the expressions `dom`. (A float constant is
printed with 15 digits, and a symbol may have the name of a function of sympy: such expressions are not in `dom`.) `none`
is a SympifyError, a kind of ValueError. -/
structure ExprIO (K : Type) where
  dom : Expr K → Prop
  str : Expr K → String
  parse : String → Option (Expr K)
  parse_str : ∀ e, dom e → parse (str e) = some e

variable (printable : Char → Bool) (IO : FloatIO K) (EIO : ExprIO K)

/-- The entries of a dictionary after the first one, each preceded by a comma and a space, and the closing brace. -/
def reprPairsTail : List (Val K × Val K) → List Char
  | [] => ['}']
  | p :: l => ',' :: ' ' :: (repr printable IO p.1 ++ ':' :: ' ' :: (repr printable IO p.2 ++ reprPairsTail l))

/-- `repr` of a dictionary. -/
def reprDict : List (Val K × Val K) → List Char
  | [] => ['{', '}']
  | p :: l => '{' :: (repr printable IO p.1 ++ ':' :: ' ' :: (repr printable IO p.2 ++ reprPairsTail printable IO l))

/-- The colon after a key. -/
def readColon (s : List Char) : Option (List Char) :=
  match s.dropWhile (· = ' ') with
  | ':' :: s' => some s'
  | _ => Option.none

/-- A key, a colon and a value. -/
def readPair (f : ℕ) (s : List Char) : Option ((Val K × Val K) × List Char) :=
  match readVal IO f s with
  | some (k, s1) =>
    match readColon s1 with
    | some s2 =>
      match readVal IO f s2 with
      | some (v, s3) => some ((k, v), s3)
      | Option.none => Option.none
    | Option.none => Option.none
  | Option.none => Option.none

mutual
/-- The entries of a dictionary, after the opening brace or a comma. -/
def readPairs : ℕ → List Char → Option (List (Val K × Val K) × List Char)
  | 0, _ => Option.none
  | _ + 1, [] => Option.none
  | f + 1, c :: s =>
    if c = ' ' then readPairs f s
    else if c = '}' then some ([], s)
    else match readPair IO f (c :: s) with
      | some (p, s') =>
        match readPairsTail f s' with
        | some (l, s'') => some (p :: l, s'')
        | Option.none => Option.none
      | Option.none => Option.none

/-- What follows an entry. -/
def readPairsTail : ℕ → List Char → Option (List (Val K × Val K) × List Char)
  | 0, _ => Option.none
  | _ + 1, [] => Option.none
  | f + 1, c :: s =>
    if c = ' ' then readPairsTail f s
    else if c = '}' then some ([], s)
    else if c = ',' then readPairs f s
    else Option.none
end

/-- `ast.literal_eval` on the text of a dictionary: the entries in the order of the text. -/
def literalEvalDict (s : List Char) : Py (List (Val K × Val K)) :=
  match s with
  | '{' :: s' =>
    match readPairs IO (2 * s.length + 1) s' with
    | some (l, rest) => if rest.all (· = ' ') then .ok l else .error .syntaxError
    | Option.none => .error .syntaxError
  | _ => .error .syntaxError

/-- `d[k] = v` on a dictionary: the value of a key that is there is replaced. -/
def setKey (d : List (String × K)) (k : String) (v : K) : List (String × K) :=
  if k ∈ d.map Prod.fst then d.map (fun p => if p.1 = k then (k, v) else p) else d ++ [(k, v)]

/-- One entry: the key is a string and the value a number (Python would keep other ones). -/
def dictStep [IntCast K] (d : List (String × K)) (p : Val K × Val K) : Py (List (String × K)) := do
  let k ← toStr p.1
  let v ← toNum p.2
  return setKey d k v

/-- The dictionary of the entries read; of several entries with the same key the last one counts. -/
def toDict [IntCast K] (l : List (Val K × Val K)) : Py (List (String × K)) :=
  l.foldlM dictStep []

/-- A natural number as a value. -/
def natVal (n : ℕ) : Val K := .int n

/-- `matrix.tolist()` of the array of indexes. -/
def natMatVal (l : List (List ℕ)) : Val K := .list (l.map (fun r => .list (r.map natVal)))

/-- `parameter_indexes`: for each parameter the list of the pairs `[i, j]`. -/
def indexesVal (l : List (List (ℕ × ℕ))) : Val K :=
  .list (l.map (fun r => .list (r.map (fun p => .list [natVal p.1, natVal p.2]))))

/-- The instantiation of the parameters. -/
def valuesVal (d : List (String × K)) : List (Val K × Val K) := d.map (fun p => (.str p.1.toList, .float p.2))

/-- PCTMC.py:369-383 `PCTMC.save` and Parametric_Model.py:434-449 `_save`. The synchronous transitions are not written. The
values of the parameters are floats. -/
def savePCTMC (M : PCTMC K) (name : List Char) : List Char :=
  lines ["PCTMC".toList, name, repr printable IO (natMatVal M.matrix), repr printable IO (strList M.labelling),
    reprDict printable IO (valuesVal M.values), repr printable IO (indexesVal M.indexes),
    repr printable IO (strList M.names), repr printable IO (strList (M.exprs.map EIO.str))]

/-- An index read from a file; a negative one is refused by the constructor (Parametric_Model.py:66-67). -/
def toNat : Val K → Py ℕ
  | .int z => if 0 ≤ z then .ok z.toNat else .error .valueError
  | _ => .error .valueError
/-- A row of the matrix. -/
def toNats : Val K → Py (List ℕ)
  | .list l => l.mapM toNat
  | _ => .error .valueError
/-- The matrix, `array(literal_eval(…))`. -/
def toNatMat : Val K → Py (List (List ℕ))
  | .list l => l.mapM toNats
  | _ => .error .valueError
/-- A pair `[i, j]`. Python keeps any value. -/
def toPair : Val K → Py (ℕ × ℕ)
  | .list [a, b] => do return (← toNat a, ← toNat b)
  | _ => .error .valueError
/-- The pairs of one parameter. -/
def toPairs : Val K → Py (List (ℕ × ℕ))
  | .list l => l.mapM toPair
  | _ => .error .valueError
/-- `parameter_indexes`. -/
def toIndexes : Val K → Py (List (List (ℕ × ℕ)))
  | .list l => l.mapM toPairs
  | _ => .error .valueError

/-- `sympify(i)` (Parametric_Model.py:473). -/
def sympify (s : String) : Py (Expr K) :=
  match EIO.parse s with
  | some e => .ok e
  | Option.none => .error .valueError

variable [Field K] [LinearOrder K] [FloorRing K]

/-- PCTMC.py:433-458 `loadPCTMC` and Parametric_Model.py:461-474 `loadParametricModel`. A matrix that is not square is
refused (numpy refuses a ragged one; the constructor accepts a rectangular one). -/
def loadPCTMC (text : List Char) : Py (List Char × PCTMC K) := do
  let s := universal text
  if (line s).1 ≠ "PCTMC".toList then .error .valueError
  else
    let s1 := (line s).2
    let name := (line s1).1
    let s2 := (line s1).2
    let vm ← literalEval IO (line s2).1
    let matrix ← toNatMat vm
    let s3 := (line s2).2
    let vl ← literalEval IO (line s3).1
    let labelling ← toStrList vl
    let s4 := (line s3).2
    let vd ← literalEvalDict IO (line s4).1
    let values ← toDict vd
    let s5 := (line s4).2
    let vi ← literalEval IO (line s5).1
    let indexes ← toIndexes vi
    let s6 := (line s5).2
    let vn ← literalEval IO (line s6).1
    let names ← toStrList vn
    let s7 := (line s6).2
    let ve ← literalEval IO (line s7).1
    let strs ← toStrList ve
    let exprs ← strs.mapM (sympify EIO)
    if ∀ r ∈ matrix, r.length = matrix.length then
      let M ← mkPCTMC matrix labelling exprs (values.map (fun p => (p.1, some p.2))) indexes names []
      return (name, M)
    else .error .valueError

end Files
end Jajapy
