import Verif.Model.PCTMC

/-!
Model of the removal of states and of transition expressions: `BW.fit_parameters` (BW.py:1345-1376) and the local functions
`removeUnreachableState` and `removeUnusedTrans` of `synchronousCompositionPCTMCs` (PCTMC.py:565-598).
The model object is changed in place; here the changed model is returned. The entries of `parameter_indexes` are distinct
list objects (as the creation functions make them).
-/

namespace Jajapy.PCTMC

variable {K : Type}

/-- BW.py:1357-1367 (PCTMC.py:575-584), for one entry of `parameter_indexes[j]`: an entry that contains the removed state is
deleted, the bigger ids are decremented. -/
def shiftPair (s : ℕ) (p : ℕ × ℕ) : Option (ℕ × ℕ) :=
  if p.1 = s ∨ p.2 = s then none
  else some (if p.1 > s then p.1 - 1 else p.1, if p.2 > s then p.2 - 1 else p.2)

/-- BW.py:1350-1367 (PCTMC.py:569-584): the state `s` is removed. (`initial_model.alphabet` is not updated.) -/
def removeState (M : PCTMC K) (s : ℕ) : PCTMC K :=
  { M with
    labelling := M.labelling.eraseIdx s
    initialState := M.initialState.eraseIdx s
    matrix := (M.matrix.eraseIdx s).map (fun row => row.eraseIdx s)
    indexes := M.indexes.map (fun l => l.filterMap (shiftPair s)) }

/-- The `while` loop of BW.py:1347-1369 (PCTMC.py:567-586): after a removal the scan starts again from the first state. -/
def removeLoop (bad : PCTMC K → ℕ → Bool) (M : PCTMC K) (s : ℕ) : PCTMC K :=
  if _h : s < M.matrix.length then
    if bad M s then removeLoop bad (M.removeState s) 0 else removeLoop bad M (s + 1)
  else M
  termination_by (M.matrix.length, M.matrix.length - s)
  decreasing_by
    · apply Prod.Lex.left
      simp only [removeState, List.length_map, List.length_eraseIdx]
      split <;> omega
    · apply Prod.Lex.right
      omega

/-- BW.py:1347-1369: the states whose label is not in the alphabet of the traces are removed. -/
def removeUnseen (alphabet : List String) (M : PCTMC K) : PCTMC K :=
  removeLoop (fun M s => decide (M.labelling.getD s "" ∉ alphabet)) M 0

/-- PCTMC.py:565-586 `removeUnreachableState`: the states that have no incoming transition and are not labelled 'init' are
removed. -/
def removeUnreachable (M : PCTMC K) : PCTMC K :=
  removeLoop (fun M i => M.matrix.all (fun row => row.getD i 0 == 0) && decide (M.labelling.getD i "" ≠ "init")) M 0

/-- BW.py:1373-1375 (PCTMC.py:591-595): the expression of index `t` is removed and the bigger indexes are decremented. -/
def dropExpr (M : PCTMC K) (t : ℕ) : PCTMC K :=
  { M with
    exprs := M.exprs.eraseIdx t
    matrix := M.matrix.map (fun row => row.map (fun x => if x > t then x - 1 else x)) }

/-- `(initial_model.matrix == t).any()` (BW.py:1373). -/
def uses (M : PCTMC K) (t : ℕ) : Bool := M.matrix.any (fun row => row.any (fun x => x == t))

/-- BW.py:1370-1378, the loop from `t`. -/
def dropUnused (M : PCTMC K) (t : ℕ) : PCTMC K :=
  if _h : t < M.exprs.length then
    if M.uses t = false then dropUnused (M.dropExpr t) t else dropUnused M (t + 1)
  else M
  termination_by M.exprs.length - t
  decreasing_by
    · simp only [dropExpr, List.length_eraseIdx]
      split <;> omega
    · omega

/-- BW.py:1345-1378: the model that `fit_parameters` trains. -/
def reduceForTraces (alphabet : List String) (M : PCTMC K) : PCTMC K := (M.removeUnseen alphabet).dropUnused 1

/-- PCTMC.py:590-598, the loop of `removeUnusedTrans`: `toRemove` are the entries that are still to be read; the entries
bigger than the removed index are decremented. -/
def dropAll : List ℕ → PCTMC K → PCTMC K
  | [], M => M
  | i :: toRemove, M => dropAll (toRemove.map (fun x => if x > i then x - 1 else x)) (M.dropExpr i)
  termination_by l => l.length

end Jajapy.PCTMC
