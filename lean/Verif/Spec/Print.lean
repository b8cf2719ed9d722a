import Verif.Model.Files
import Mathlib.Data.List.SplitOn

/-!
How a user reads a printed model: the lines of the text, the section of a state (the lines between its header and the next empty
line) and the form of the lines.
-/

namespace Jajapy
namespace Spec

open Files

/-- The lines of a text. -/
def textLines (t : List Char) : List (List Char) := t.splitOn '\n'

/-- The lines that follow the first line equal to `h`, up to the next empty line. -/
def sectionOf (t h : List Char) : List (List Char) := ((textLines t).dropWhile (fun l => l ≠ h)).tail.takeWhile (fun l => l ≠ [])

/-- `----STATE i--label----` -/
def headerLine (i : ℕ) (label : String) : List Char :=
  "----STATE ".toList ++ reprNat i ++ "--".toList ++ label.toList ++ "----".toList

/-- `----STATE si----` -/
def headerLineHMM (i : ℕ) : List Char := "----STATE s".toList ++ reprNat i ++ "----".toList

/-- `si -> sj : x` -/
def arrowLine (i j : ℕ) (x : List Char) : List Char := "s".toList ++ reprNat i ++ " -> s".toList ++ reprNat j ++ " : ".toList ++ x

/-- `si - (a) -> sj : x` -/
def actionLine (i : ℕ) (a : String) (j : ℕ) (x : List Char) : List Char :=
  "s".toList ++ reprNat i ++ " - (".toList ++ a.toList ++ ") -> s".toList ++ reprNat j ++ " : ".toList ++ x

/-- `si => o : x` -/
def outputLine (i : ℕ) (o : String) (x : List Char) : List Char :=
  "s".toList ++ reprNat i ++ " => ".toList ++ o.toList ++ " : ".toList ++ x

/-- `word k: x` -/
def numberedLine (word : List Char) (k : ℕ) (x : List Char) : List Char := word ++ " ".toList ++ reprNat k ++ ": ".toList ++ x

/-- `p = x` -/
def valueLine (p : String) (x : List Char) : List Char := p.toList ++ " = ".toList ++ x

/-- `si: x` -/
def initialItem (i : ℕ) (x : List Char) : List Char := "s".toList ++ reprNat i ++ ": ".toList ++ x

end Spec
end Jajapy
