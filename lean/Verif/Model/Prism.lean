import Verif.Model.Files
import Verif.Model.PFiles
import Verif.Model.CTMC

/-!
Model of `savePrism` (`jajapy/base/Base_MC.py:102-121`, `jajapy/mc/MC.py:175-197`, `jajapy/ctmc/CTMC.py:299-320`,
`jajapy/mdp/MDP.py:298-320`, `jajapy/pctmc/PCTMC.py:385-430`): the text of the Prism file, as the list of its characters.

`str` of an entry of an array is `repr` of the float (numpy prints the same digits). If an exception is raised the file is
left without its end; only the exception is modelled.
-/

namespace Jajapy
namespace Prism

open Files

variable {K : Type} [Field K] [DecidableEq K] (IO : FloatIO K)

/-- `where(self.initial_state==1.0)[0][0]`; IndexError if no state has the initial probability 1. -/
def initialIndex (l : List K) : Py ℕ :=
  match l.zipIdx.find? (fun p => p.1 = 1) with
  | some p => .ok p.2
  | none => .error .indexError

/-- `where(row != 0.0)[0]` with the entries. -/
def nonzero (row : List K) : List (ℕ × K) := (row.zipIdx.filter (fun p => p.1 ≠ 0)).map (fun p => (p.2, p.1))

/-- `' '+p+":(s'="+str(s2)+") +"` for the text `p`. -/
def updateText (colon : List Char) (p : List Char) (j : ℕ) : List Char :=
  ' ' :: (p ++ colon ++ "(s'=".toList ++ reprNat j ++ ") +".toList)

/-- The line of a command: the updates are (text of the probability or of the rate, destination); `res[:-2]+';\n'`. -/
def commandText (colon action : List Char) (s : ℕ) (ups : List (List Char × ℕ)) : List Char :=
  ('\t' :: '[' :: (action ++ "] s=".toList ++ reprNat s ++ " ->".toList ++ ups.flatMap (fun u => updateText colon u.1 u.2))).dropLast.dropLast
    ++ [';', '\n']

/-- A row of the array: nothing if all its entries are 0. -/
def rowText (action : List Char) (s : ℕ) (row : List K) : List Char :=
  if row.any (fun x => x ≠ 0) then commandText [':'] action s ((nonzero row).map (fun p => (IO.repr p.2, p.1))) else []

/-- MC.py:188-195, CTMC.py:312-319 `_savePrismMatrix`. -/
def matrixText (m : List (List K)) : List Char := m.zipIdx.flatMap (fun p => rowText IO [] p.2 p.1)

/-- MDP.py:311-319 `_savePrismMatrix`. -/
def cubeText (actions : List String) (m : List (List (List K))) : List Char :=
  m.zipIdx.flatMap (fun p => (actions.zip p.1).flatMap (fun q => rowText IO q.1.toList p.2 q.2))

/-- Base_MC.py:109-114: the dictionary `labels`. -/
def addLabel (d : List (String × List ℕ)) (p : String × ℕ) : List (String × List ℕ) :=
  if p.1 = "init" then d
  else if p.1 ∉ d.map Prod.fst then d ++ [(p.1, [p.2])]
  else d.map (fun q => if q.1 = p.1 then (q.1, q.2 ++ [p.2]) else q)

/-- Base_MC.py:108-115. -/
def labelTable (labelling : List String) : List (String × List ℕ) := labelling.zipIdx.foldl addLabel []

/-- Base_MC.py:116-120: one label. -/
def labelText (p : String × List ℕ) : List Char :=
  ("label \"".toList ++ p.1.toList ++ "\" =".toList ++ p.2.flatMap (fun s => " s=".toList ++ reprNat s ++ " |".toList)).dropLast ++ [';', '\n']

/-- The declaration of the variable: Base_MC.py:104, PCTMC.py:405. -/
def variableText (hi init : ℕ) : List Char :=
  "\ts: [0..".toList ++ reprNat hi ++ "] init ".toList ++ reprNat init ++ ";\n\n".toList

/-- Base_MC.py:102-121 `_savePrism`, after the first line `kind`. -/
def savePrismText (kind name : List Char) (initialState : List K) (commands : List Char) (labelling : List String) : Py (List Char) := do
  let i ← initialIndex initialState
  return kind ++ "\n\n".toList ++ "module ".toList ++ name ++ ['\n'] ++ variableText (labelling.length - 1) i ++ commands
    ++ "endmodule\n\n".toList ++ (labelTable labelling).flatMap labelText

/-- MC.py:175-186 `MC.savePrism`. -/
def saveMC {n : ℕ} (M : MC K String n) (name : List Char) : Py (List Char) :=
  savePrismText "dtmc".toList name (List.ofFn M.initialState) (matrixText IO (rows M.matrix)) (List.ofFn M.labelling)

/-- CTMC.py:299-310 `CTMC.savePrism`. -/
def saveCTMC {n : ℕ} (M : CTMC K String n) (name : List Char) : Py (List Char) :=
  savePrismText "ctmc".toList name (List.ofFn M.initialState) (matrixText IO (rows M.matrix)) (List.ofFn M.labelling)

/-- MDP.py:298-309 `MDP.savePrism`. -/
def saveMDP {n : ℕ} (M : MDP K String n) (name : List Char) : Py (List Char) :=
  savePrismText "mdp".toList name (List.ofFn M.initialState) (cubeText IO M.actions (List.ofFn (fun i => rows (M.matrix i))))
    (List.ofFn M.labelling)

/-! ### PCTMC -/

/-- `t.replace('**','^')`. -/
def replaceStars : List Char → List Char
  | '*' :: '*' :: s => '^' :: replaceStars s
  | c :: s => c :: replaceStars s
  | [] => []

/-- PCTMC.py:397-401: the declaration of a parameter. -/
def constText (values : List (String × K)) (p : String) : List Char :=
  "const double ".toList ++ p.toList ++ (match values.lookup p with
    | some v => " = ".toList ++ IO.repr v
    | none => []) ++ ";\n".toList

variable (EIO : ExprIO K)

/-- PCTMC.py:407-415: a row of the matrix of indexes. An index that is not in the list of expressions is an IndexError. -/
def rowTextPCTMC (exprs : List (Expr K)) (s : ℕ) (row : List ℕ) : Py (List Char) :=
  if row.any (fun x => x ≠ 0) then do
    let ups ← ((row.zipIdx.filter (fun p => p.1 ≠ 0))).mapM (fun p =>
      match exprs[p.1]? with
      | some e => (.ok (replaceStars (EIO.str e).toList, p.2) : Py (List Char × ℕ))
      | none => .error .indexError)
    return commandText " : ".toList [] s ups
  else return []

/-- PCTMC.py:385-430 `PCTMC.savePrism`. -/
def savePCTMC (M : PCTMC K) (name : List Char) : Py (List Char) := do
  let i ← initialIndex M.initialState
  let commands ← M.matrix.zipIdx.mapM (fun p => rowTextPCTMC EIO M.exprs p.2 p.1)
  return "ctmc\n\n".toList ++ M.names.flatMap (constText IO M.values) ++ "\nmodule ".toList ++ name ++ ['\n'] ++ variableText M.matrix.length i
    ++ commands.flatten ++ "endmodule\n\n".toList ++ (labelTable M.labelling).flatMap labelText

end Prism
end Jajapy
