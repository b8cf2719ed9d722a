import Mathlib.Data.Nat.Digits.Defs
import Verif.Model.TSet
import Verif.Model.Create

/-!
Model of the text files: `str` of Python values, `ast.literal_eval`, `readline`, `Set.save`/`loadSet`, and
`save`/`load…` of MC, MDP, CTMC, HMM and GoHMM.

A file is the list of its characters. What is written reaches the file unchanged; reading goes through Python's universal
newlines (`'\r'` and `'\r\n'` are read as `'\n'`).

Simplifications.
* `literalEval` accepts the literals that occur in these files: `None`, integers, floats, strings with the escapes that
  `repr` produces, and lists, with spaces between tokens. Python accepts more (tuples, sets, hexadecimal numbers, other
  escapes, concatenated strings, comments…). Every failure is a SyntaxError here (Python also raises ValueError).
* The two facts about CPython's floats that are needed (`repr` of a finite float is a decimal literal, and reading it
  gives the float back) are the contract `FloatIO`; infinities and NaN are outside its domain.
* numpy numbers inside traces print as Python numbers (numpy < 2).
* Characters are Unicode scalar values (no lone surrogates); `printable` is Unicode's table, an arbitrary predicate.
-/

namespace Jajapy
namespace Files

/-- The characters of a number literal. -/
def isNumChar (c : Char) : Bool :=
  ('0' ≤ c && c ≤ '9') || c = '.' || c = 'e' || c = '+' || c = '-'

def isDigit (c : Char) : Bool := '0' ≤ c && c ≤ '9'

/-- An optional minus sign followed by digits. -/
def isIntLiteral : List Char → Bool
  | '-' :: ds => !ds.isEmpty && ds.all isDigit
  | ds => !ds.isEmpty && ds.all isDigit

/-- What is assumed of CPython's `float.__repr__` and of the reading of float literals, on the domain `dom` (the finite
floats). -/
structure FloatIO (K : Type) where
  dom : K → Prop
  repr : K → List Char
  parse : List Char → Option K
  parse_repr : ∀ x, dom x → parse (repr x) = some x
  repr_ne : ∀ x, dom x → repr x ≠ []
  repr_chars : ∀ x, dom x → ∀ c ∈ repr x, isNumChar c = true
  repr_notInt : ∀ x, dom x → isIntLiteral (repr x) = false

/-- The Python values that occur in the files. -/
inductive Val (K : Type)
  | none
  | int (z : ℤ)
  | float (x : K)
  | str (s : List Char)
  | list (l : List (Val K))

variable {K : Type}

/-! ### `str` / `repr` -/

/-- The digit `d < 10`. -/
def digitChar (d : ℕ) : Char := Char.ofNat (48 + d)

/-- Decimal digits of a natural number. -/
def reprNat (n : ℕ) : List Char := if n = 0 then ['0'] else (Nat.digits 10 n).reverse.map digitChar

/-- `int.__repr__`. -/
def reprInt : ℤ → List Char
  | .ofNat n => reprNat n
  | .negSucc n => '-' :: reprNat (n + 1)

/-- The hexadecimal digit `d < 16`. -/
def hexChar (d : ℕ) : Char := if d < 10 then Char.ofNat (48 + d) else Char.ofNat (87 + d)

/-- `k` hexadecimal digits of `m`. -/
def hexDigits : ℕ → ℕ → List Char
  | 0, _ => []
  | k + 1, m => hexDigits k (m / 16) ++ [hexChar (m % 16)]

/-- `str.__repr__` on one character, inside quotes `q`. -/
def reprChar (printable : Char → Bool) (q c : Char) : List Char :=
  if c = q ∨ c = '\\' then ['\\', c]
  else if c = '\t' then ['\\', 't']
  else if c = '\n' then ['\\', 'n']
  else if c = '\r' then ['\\', 'r']
  else if c.toNat < 32 ∨ c.toNat = 127 then '\\' :: 'x' :: hexDigits 2 c.toNat
  else if c.toNat < 127 ∨ printable c then [c]
  else if c.toNat < 256 then '\\' :: 'x' :: hexDigits 2 c.toNat
  else if c.toNat < 65536 then '\\' :: 'u' :: hexDigits 4 c.toNat
  else '\\' :: 'U' :: hexDigits 8 c.toNat

/-- The quote chosen by `str.__repr__`. -/
def quoteFor (s : List Char) : Char := if '\'' ∈ s ∧ '"' ∉ s then '"' else '\''

/-- `str.__repr__`. -/
def reprStr (printable : Char → Bool) (s : List Char) : List Char :=
  let q := quoteFor s
  q :: (s.flatMap (reprChar printable q) ++ [q])

variable (printable : Char → Bool) (IO : FloatIO K)

mutual
/-- `repr` of a value. -/
def repr : Val K → List Char
  | .none => ['N', 'o', 'n', 'e']
  | .int z => reprInt z
  | .float x => IO.repr x
  | .str s => reprStr printable s
  | .list l => '[' :: reprItems l

/-- The items of a list and the closing bracket. -/
def reprItems : List (Val K) → List Char
  | [] => [']']
  | v :: l => repr v ++ reprTail l

/-- The remaining items, each preceded by a comma and a space. -/
def reprTail : List (Val K) → List Char
  | [] => [']']
  | v :: l => ',' :: ' ' :: (repr v ++ reprTail l)
end

/-! ### `literal_eval` -/

/-- The value of a decimal digit. -/
def digitVal (c : Char) : ℕ := c.toNat - 48

/-- The value of a sequence of digits. -/
def natOfDigits (l : List Char) : ℕ := l.foldl (fun n c => 10 * n + digitVal c) 0

/-- The integer of an integer literal. -/
def intOfLiteral : List Char → ℤ
  | '-' :: ds => -(natOfDigits ds : ℤ)
  | ds => natOfDigits ds

/-- The value of a hexadecimal digit. -/
def hexVal (c : Char) : Option ℕ :=
  if '0' ≤ c ∧ c ≤ '9' then some (c.toNat - 48)
  else if 'a' ≤ c ∧ c ≤ 'f' then some (c.toNat - 87)
  else if 'A' ≤ c ∧ c ≤ 'F' then some (c.toNat - 55)
  else Option.none

/-- Reads `k` hexadecimal digits; `acc` is the value read so far. -/
def readHex : ℕ → ℕ → List Char → Option (ℕ × List Char)
  | 0, acc, s => some (acc, s)
  | k + 1, acc, c :: s =>
    match hexVal c with
    | some d => readHex k (16 * acc + d) s
    | Option.none => Option.none
  | _ + 1, _, [] => Option.none

/-- The character of an escape sequence (the text after the backslash) and what follows. -/
def readEscape : List Char → Option (Char × List Char)
  | 'n' :: s => some ('\n', s)
  | 't' :: s => some ('\t', s)
  | 'r' :: s => some ('\r', s)
  | '\\' :: s => some ('\\', s)
  | '\'' :: s => some ('\'', s)
  | '"' :: s => some ('"', s)
  | 'x' :: s => (readHex 2 0 s).map (fun p => (Char.ofNat p.1, p.2))
  | 'u' :: s => (readHex 4 0 s).map (fun p => (Char.ofNat p.1, p.2))
  | 'U' :: s => (readHex 8 0 s).map (fun p => (Char.ofNat p.1, p.2))
  | _ => Option.none

/-- The text of a string literal up to the closing quote `q`; the first argument bounds the number of characters. -/
def readStr (q : Char) : ℕ → List Char → Option (List Char × List Char)
  | 0, _ => Option.none
  | _ + 1, [] => Option.none
  | f + 1, c :: s =>
    if c = q then some ([], s)
    else if c = '\n' then Option.none
    else if c = '\\' then
      match readEscape s with
      | some (d, s') => (readStr q f s').map (fun p => (d :: p.1, p.2))
      | Option.none => Option.none
    else (readStr q f s).map (fun p => (c :: p.1, p.2))

/-- A number: the longest sequence of characters of a number. -/
def readNum (s : List Char) : Option (Val K × List Char) :=
  let tok := s.takeWhile isNumChar
  let rest := s.dropWhile isNumChar
  if isIntLiteral tok then some (.int (intOfLiteral tok), rest)
  else match IO.parse tok with
    | some x => some (.float x, rest)
    | Option.none => Option.none

/-- The rest of `None`. -/
def readNone : List Char → Option (Val K × List Char)
  | 'o' :: 'n' :: 'e' :: s => some (.none, s)
  | _ => Option.none

mutual
/-- A value; the first argument bounds the number of calls. -/
def readVal : ℕ → List Char → Option (Val K × List Char)
  | 0, _ => Option.none
  | _ + 1, [] => Option.none
  | f + 1, c :: s =>
    if c = ' ' then readVal f s
    else if c = '\'' ∨ c = '"' then (readStr c (s.length + 1) s).map (fun p => (.str p.1, p.2))
    else if c = '[' then (readItems f s).map (fun p => (.list p.1, p.2))
    else if c = 'N' then readNone s
    else if isNumChar c then readNum IO (c :: s)
    else Option.none

/-- The items of a list, after the opening bracket or a comma. -/
def readItems : ℕ → List Char → Option (List (Val K) × List Char)
  | 0, _ => Option.none
  | _ + 1, [] => Option.none
  | f + 1, c :: s =>
    if c = ' ' then readItems f s
    else if c = ']' then some ([], s)
    else match readVal f (c :: s) with
      | some (v, s') =>
        match readTail f s' with
        | some (l, s'') => some (v :: l, s'')
        | Option.none => Option.none
      | Option.none => Option.none

/-- What follows an item of a list. -/
def readTail : ℕ → List Char → Option (List (Val K) × List Char)
  | 0, _ => Option.none
  | _ + 1, [] => Option.none
  | f + 1, c :: s =>
    if c = ' ' then readTail f s
    else if c = ']' then some ([], s)
    else if c = ',' then readItems f s
    else Option.none
end

/-- `ast.literal_eval`. -/
def literalEval (s : List Char) : Py (Val K) :=
  match readVal IO (2 * s.length + 1) s with
  | some (v, rest) => if rest.all (· = ' ') then .ok v else .error .syntaxError
  | Option.none => .error .syntaxError

/-- `int(s)` on a string: digits, with an optional sign. -/
def pyInt (s : List Char) : Py ℤ :=
  match s with
  | '+' :: ds => if !ds.isEmpty && ds.all isDigit then .ok (natOfDigits ds) else .error .valueError
  | s => if isIntLiteral s then .ok (intOfLiteral s) else .error .valueError

/-! ### Files -/

/-- Universal newlines, applied when a text file is read. -/
def universal : List Char → List Char
  | [] => []
  | '\r' :: '\n' :: s => '\n' :: universal s
  | '\r' :: s => '\n' :: universal s
  | c :: s => c :: universal s

/-- `f.readline()`: the line with its newline (if any), and the remaining text. -/
def readline : List Char → List Char × List Char
  | [] => ([], [])
  | c :: s => if c = '\n' then ([c], s) else let p := readline s; (c :: p.1, p.2)

/-- `f.readline()[:-1]`. -/
def line (s : List Char) : List Char × List Char :=
  let p := readline s
  (p.1.dropLast, p.2)

/-! ### `Set.save` and `loadSet` -/

/-- `str(self.type)` (Set.py:60). -/
def typeVal : Option ℕ → Val K
  | some t => .int t
  | Option.none => .none

/-- Set.py:63: `str(self.times[i])`; a float multiplicity prints with `.0`. -/
def reprTimes (floatTimes : Bool) (t : ℕ) : List Char :=
  if floatTimes then reprNat t ++ ['.', '0'] else reprNat t

/-- Set.py:50-64 `Set.save`: the text written. -/
def saveSet (S : TSet (Val K)) : List Char :=
  repr printable IO (typeVal S.type) ++ '\n' ::
    (S.sequences.zip S.times).flatMap (fun p =>
      repr printable IO (.list p.1) ++ '\n' :: (reprTimes S.floatTimes p.2 ++ ['\n']))

/-- A multiplicity read from a file. (A negative one cannot be represented in `TSet`; Python would keep it. `save` never
writes one.) -/
def timesOf (z : ℤ) : Py ℕ := if 0 ≤ z then .ok z.toNat else .error .valueError

/-- The trace of a line; Python would store any value, here it has to be a list. -/
def traceOf : Val K → Py (List (Val K))
  | .list l => .ok l
  | _ => .error .typeError

/-- Set.py:232-237, the loop of `loadSet`: the first argument bounds the number of rounds. -/
def loadRecords : ℕ → List Char → Py (List (List (Val K) × ℕ))
  | 0, _ => .ok []
  | f + 1, s => do
    if s = [] then return []
    else
      let v ← literalEval IO (line s).1
      let tr ← traceOf v
      let z ← pyInt (line (line s).2).1
      let t ← timesOf z
      let rest ← loadRecords f (line (line s).2).2
      return (tr, t) :: rest

/-- The type read from the first line. -/
def typeOf : Val K → Py (Option ℕ)
  | .int z => if 0 ≤ z then .ok (some z.toNat) else .error .typeError
  | .none => .ok Option.none
  | _ => .error .typeError

/-- `type(x)` as the constructor of `Set` sees it (Set.py:37-39). -/
def kindOf : Val K → Kind
  | .str _ => .str
  | .float _ => .float
  | .list _ => .list
  | _ => .other

/-- Set.py:214-239 `loadSet`. -/
def loadSet [DecidableEq (Val K)] (text : List Char) : Py (TSet (Val K)) := do
  let s := universal text
  let v ← literalEval IO (line s).1
  let t ← typeOf v
  let recs ← loadRecords IO (line s).2.length (line s).2
  TSet.mk' kindOf (recs.map (·.1)) (some (recs.map (·.2))) t

/-! ### Models -/

/-- A list of strings as a value. -/
def strList (l : List String) : Val K := .list (l.map (fun s => .str s.toList))

/-- `a.tolist()` of a vector. -/
def vecVal (l : List K) : Val K := .list (l.map .float)

/-- `a.tolist()` of a matrix. -/
def matVal (l : List (List K)) : Val K := .list (l.map vecVal)

/-- `a.tolist()` of a three-dimensional array. -/
def cubeVal (l : List (List (List K))) : Val K := .list (l.map matVal)

/-- The lines of a file. -/
def lines (l : List (List Char)) : List Char := l.flatMap (fun x => x ++ ['\n'])

/-- Rows of a matrix given as a function. -/
def rows {n m : ℕ} (f : Fin n → Fin m → K) : List (List K) := List.ofFn (fun i => List.ofFn (f i))

/-- MC.py:164-166 `MC.save`, Base_MC.py:124-127, Model.py:78-85. -/
def saveMC {n : ℕ} (M : MC K String n) (name : List Char) : List Char :=
  lines ["MC".toList, repr printable IO (strList (List.ofFn M.labelling)), name,
    repr printable IO (vecVal (List.ofFn M.initialState)), repr printable IO (matVal (rows M.matrix))]

/-- CTMC.py:295-297 `CTMC.save`. -/
def saveCTMC {n : ℕ} (M : CTMC K String n) (name : List Char) : List Char :=
  lines ["CTMC".toList, repr printable IO (strList (List.ofFn M.labelling)), name,
    repr printable IO (vecVal (List.ofFn M.initialState)), repr printable IO (matVal (rows M.matrix))]

/-- MDP.py:284-288 `MDP.save`. -/
def saveMDP {n : ℕ} (M : MDP K String n) (name : List Char) : List Char :=
  lines ["MDP".toList, repr printable IO (strList M.actions), repr printable IO (strList (List.ofFn M.labelling)), name,
    repr printable IO (vecVal (List.ofFn M.initialState)),
    repr printable IO (cubeVal (List.ofFn (fun i => rows (M.matrix i))))]

/-- HMM.py:136-140 `HMM.save`, Base_HMM.py:90-93, Model.py:78-85. -/
def saveHMM {n : ℕ} (M : HMMObj K n) (name : List Char) : List Char :=
  lines ["HMM".toList, repr printable IO (strList M.alphabet), repr printable IO (matVal (rows M.output)), name,
    repr printable IO (vecVal M.initialState), repr printable IO (matVal (rows M.matrix))]

/-- The array `output` of a GoHMM: `[mu, sigma]` for each distribution. -/
def goOutput {n d : ℕ} (M : GoHMMObj K n d) : List (List (List K)) :=
  List.ofFn (fun i => List.ofFn (fun j => [M.mu i j, M.sigma i j]))

/-- GoHMM.py:182-184 `GoHMM.save`. -/
def saveGoHMM {n d : ℕ} (M : GoHMMObj K n d) (name : List Char) : List Char :=
  lines ["GoHMM".toList, repr printable IO (cubeVal (goOutput M)), name,
    repr printable IO (vecVal M.initialState), repr printable IO (matVal (rows M.matrix))]

/-- A list of strings read from a file. Python keeps any value (a wrong one is refused, or not, by the constructor);
here everything but a list of strings is refused. -/
def toStr : Val K → Py String
  | .str s => .ok (String.ofList s)
  | _ => .error .typeError
def toStrList : Val K → Py (List String)
  | .list l => l.mapM toStr
  | _ => .error .typeError

/-- `array(v)` for a list of numbers, of lists of numbers, …; a list of another shape is refused. -/
def toNum [IntCast K] : Val K → Py K
  | .float x => .ok x
  | .int z => .ok z
  | _ => .error .valueError
def toVec [IntCast K] : Val K → Py (List K)
  | .list l => l.mapM toNum
  | _ => .error .valueError
def toMat [IntCast K] : Val K → Py (List (List K))
  | .list l => l.mapM toVec
  | _ => .error .valueError
def toCube [IntCast K] : Val K → Py (List (List (List K)))
  | .list l => l.mapM toMat
  | _ => .error .valueError

/-- A list of `n` rows of length `m` as a function. -/
def ofMat [Zero K] (n m : ℕ) (l : List (List K)) : Py (Fin n → Fin m → K) :=
  if l.length = n ∧ ∀ r ∈ l, r.length = m then .ok (fun i j => (l.getD i []).getD j 0) else .error .valueError

/-- Array of shape (n,m,k). -/
def ofCube [Zero K] (n m k : ℕ) (l : List (List (List K))) : Py (Fin n → Fin m → Fin k → K) :=
  if l.length = n ∧ ∀ r ∈ l, r.length = m ∧ ∀ s ∈ r, s.length = k then
    .ok (fun i a j => ((l.getD i []).getD a []).getD j 0)
  else .error .valueError

variable [Field K] [LinearOrder K] [FloorRing K]

/-- The result of loading a labelled model: the name, the number of states, the model. -/
abbrev Loaded (M : ℕ → Type) := List Char × (Σ n, M n)

/-- MC.py:217-225, the lines after the header: labelling, name, initial state, matrix; the text is the one after the
header. -/
def readBase (s : List Char) : Py (List String × List Char × List (List K)) := do
  let v ← literalEval IO (line s).1
  let labelling ← toStrList v
  let s2 := (line s).2
  let name := (line s2).1
  let s3 := (line s2).2
  let vi ← literalEval IO (line s3).1
  let _ ← toVec vi
  let s4 := (line s3).2
  let vm ← literalEval IO (line s4).1
  let m ← toMat vm
  return (labelling, name, m)

/-- MC.py:198-227 `loadMC`. -/
def loadMC (text : List Char) : Py (Loaded (MC K String)) := do
  let s := universal text
  if (line s).1 ≠ "MC".toList then .error .valueError
  else
    let r ← readBase IO (line s).2
    let m ← ofMat r.2.2.length r.2.2.length r.2.2
    let M ← mkMC m r.1
    return (r.2.1, ⟨_, M⟩)

/-- CTMC.py:321-345 `loadCTMC`: a wrong header is only printed. -/
def loadCTMC (text : List Char) : Py (Loaded (CTMC K String)) := do
  let s := universal text
  let r ← readBase IO (line s).2
  let m ← ofMat r.2.2.length r.2.2.length r.2.2
  let M ← mkCTMC m r.1
  return (r.2.1, ⟨_, M⟩)

/-- MDP.py:446-472 `loadMDP`. -/
def loadMDP (text : List Char) : Py (Loaded (MDP K String)) := do
  let s := universal text
  if (line s).1 ≠ "MDP".toList then .error .valueError
  else
    let s1 := (line s).2
    let va ← literalEval IO (line s1).1
    let actions ← toStrList va
    let s2 := (line s1).2
    let vl ← literalEval IO (line s2).1
    let labelling ← toStrList vl
    let s3 := (line s2).2
    let name := (line s3).1
    let s4 := (line s3).2
    let vi ← literalEval IO (line s4).1
    let _ ← toVec vi
    let s5 := (line s4).2
    let vm ← literalEval IO (line s5).1
    let c ← toCube vm
    let m ← ofCube c.length actions.length c.length c
    let M ← mkMDP actions m labelling
    return (name, ⟨_, M⟩)

/-- HMM.py:155-181 `loadHMM`: a wrong header is only printed. -/
def loadHMM (text : List Char) : Py (Loaded (HMMObj K)) := do
  let s := universal text
  let s1 := (line s).2
  let va ← literalEval IO (line s1).1
  let alphabet ← toStrList va
  let s2 := (line s1).2
  let vo ← literalEval IO (line s2).1
  let out ← toMat vo
  let s3 := (line s2).2
  let name := (line s3).1
  let s4 := (line s3).2
  let vi ← literalEval IO (line s4).1
  let init ← toVec vi
  let s5 := (line s4).2
  let vm ← literalEval IO (line s5).1
  let mat ← toMat vm
  let m ← ofMat mat.length mat.length mat
  let o ← ofMat mat.length alphabet.length out
  let M ← mkHMM m alphabet o (.list init)
  return (name, ⟨_, M⟩)

/-- GoHMM.py:194-219 `loadGoHMM`: a wrong header is only printed; `d` is the number of distributions of the first
state. -/
def loadGoHMM (text : List Char) : Py (List Char × (Σ n, Σ d, GoHMMObj K n d)) := do
  let s := universal text
  let s1 := (line s).2
  let vo ← literalEval IO (line s1).1
  let out ← toCube vo
  let s2 := (line s1).2
  let name := (line s2).1
  let s3 := (line s2).2
  let vi ← literalEval IO (line s3).1
  let init ← toVec vi
  let s4 := (line s3).2
  let vm ← literalEval IO (line s4).1
  let mat ← toMat vm
  let m ← ofMat mat.length mat.length mat
  let o ← ofCube mat.length (out.headD []).length 2 out
  let M ← mkGoHMM m (fun i j => o i j 0) (fun i j => o i j 1) (.list init)
  return (name, ⟨_, _, M⟩)

end Files
end Jajapy
