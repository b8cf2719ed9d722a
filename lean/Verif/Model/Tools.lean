import Mathlib.Algebra.Order.Field.Basic
import Mathlib.Algebra.Order.Floor.Ring
import Mathlib.Algebra.BigOperators.Group.List.Basic
import Mathlib.Analysis.SpecialFunctions.Log.Basic
import Mathlib.Analysis.Real.Sqrt
import Verif.Model.Basic

/-!
Model of `jajapy/base/tools.py`.
Numbers are elements of a linearly ordered field (no rounding); the random draws are arguments.
`normpdf` (lines 7-29) is a call to scipy and is not modelled.
-/

namespace Jajapy.Tools

variable {K : Type*} [Field K] [LinearOrder K]

/-- numpy's `cumsum` (used at tools.py:57), started from an accumulator. -/
def cumsumFrom (acc : K) : List K → List K
  | [] => []
  | x :: xs => (acc + x) :: cumsumFrom (acc + x) xs

/-- numpy's `cumsum`. -/
def cumsum (m : List K) : List K := cumsumFrom 0 m

/-- tools.py:61-64, the `while` loop over the entries of `mi`, each given with its cumulative sum.
Running past the end of `mi` is an IndexError. -/
def resolveLoop (r : K) : List (K × ℕ) → Py ℕ
  | [] => .error .indexError
  | (c, i) :: rest => if r > c then resolveLoop r rest else .ok i

/-- tools.py:32-64 `resolveRandom`; `r` is the value returned by `random()` (line 59).
`mi` (line 58) is the list of the indexes whose cumulative sum is not zero. -/
def resolveRandom (m : List K) (r : K) : Py ℕ :=
  resolveLoop r ((cumsum m).zipIdx.filter (fun p => p.1 ≠ 0))

/-- tools.py:66-83 `normalize`. `sum(ll) = 0` gives a ZeroDivisionError for a non-empty list of Python floats
(for a numpy array it gives `nan`s with a warning: the array version is only called on positive integers, line 117). -/
def normalize (ll : List K) : Py (List K) :=
  if ll ≠ [] ∧ ll.sum = 0 then .error .zeroDivisionError else .ok (ll.map (fun i => i / ll.sum))

/-- The `size` argument of `randomProbabilities`: an `int`, or a number that is not an `int`. -/
inductive SizeArg
  | int (n : ℤ)
  | nonInt (x : ℚ)

/-- tools.py:85-118 `randomProbabilities`; `draws k` is the k-th value of `randint(1,11)` (line 117). -/
def randomProbabilities (draws : ℕ → ℕ) : SizeArg → Py (List K)
  | .int n => if n ≤ 0 then .error .valueError
      else normalize ((List.range n.toNat).map (fun k => ((draws k : ℕ) : K)))
  | .nonInt x => if x ≤ 0 then .error .valueError else .error .typeError

/-- Python's / numpy's `round` to an integer: to the nearest, ties to the even one. -/
def roundHalfEven [FloorRing K] (x : K) : ℤ :=
  let f := ⌊x⌋
  let d := x - f
  if d < 1/2 then f
  else if 1/2 < d then f + 1
  else if f % 2 = 0 then f else f + 1

/-- `round(x,3)` on a numpy float: `rint(x*1000)/1000`. -/
def round3 [FloorRing K] (x : K) : K := (roundHalfEven (x * 1000) : K) / 1000

/-- tools.py:120-135 `checkProbabilities`. -/
def checkProbabilities [FloorRing K] (l : List K) : Bool :=
  round3 l.sum = 1 ∨ round3 l.sum = 0

open Classical in
/-- tools.py:137-141 `hoeffdingBound`, over the reals. The error branches are those of `math.sqrt`, `math.log`
and of the division on Python numbers: negative counts, `alpha = 0`, `alpha < 0`, and `alpha > 2`
(square root of a negative logarithm). -/
noncomputable def hoeffdingBound (f1 n1 f2 n2 alpha : ℝ) : Py Bool :=
  if n1 * n2 = 0 then .ok true
  else if n1 < 0 ∨ n2 < 0 then .error .valueError
  else if alpha = 0 then .error .zeroDivisionError
  else if alpha < 0 ∨ 2 < alpha then .error .valueError
  else .ok (decide (|f1 / n1 - f2 / n2| <
    (Real.sqrt (1 / n1) + Real.sqrt (1 / n2)) * Real.sqrt (1/2 * Real.log (2 / alpha))))

end Jajapy.Tools
