import Verif.Spec.StateArgs
import Verif.Props.Simulation

/-!
Lemmas for property C93.
-/

namespace Jajapy

open StateArgs Tools

namespace StateArgs
variable {n : ℕ}

theorem check_int (i : Fin n) : checkStateIndex n (.int (i : ℕ)) = .ok () := by
  have := i.isLt
  rw [checkStateIndex, if_neg (by omega), if_neg (by omega)]

theorem check_fault {a : Arg} {e : Err} (h : fault n a = some e) : checkStateIndex n a = .error e := by
  cases a with
  | int i =>
    simp only [fault] at h
    split_ifs at h with hi
    cases h
    simp only [checkStateIndex]
    by_cases h0 : i < 0
    · simp [h0]
    · have : (n : ℤ) ≤ i := by
        by_contra hc; exact hi ⟨not_lt.mp h0, not_le.mp hc⟩
      simp [h0, this]
  | npInt i => simp only [fault, Option.some.injEq] at h; subst h; rfl
  | float q => simp only [fault, Option.some.injEq] at h; subst h; rfl
  | str s => simp only [fault, Option.some.injEq] at h; subst h; rfl
  | none => simp only [fault, Option.some.injEq] at h; subst h; rfl

theorem wrap_nat (i : Fin n) : wrapIndex n (i : ℕ) = .ok i := by
  have := i.isLt
  simp [wrapIndex]

theorem wrap_neg (i : Fin n) : wrapIndex n ((i : ℕ) - n) = .ok i := by
  have := i.isLt
  rw [wrapIndex, dif_neg (by omega), dif_pos (by omega)]
  congr 1
  apply Fin.ext
  simp

theorem wrap_out {z : ℤ} (h : z < -n ∨ n ≤ z) : wrapIndex n z = .error .indexError := by
  rw [wrapIndex, dif_neg (by omega), dif_neg (by omega)]

theorem list_int (i : Fin n) : listIndex n (.int (i : ℕ)) = .ok i := wrap_nat i
theorem array_int (i : Fin n) : arrayIndex n (.int (i : ℕ)) = .ok i := wrap_nat i
theorem array_npInt (i : Fin n) : arrayIndex n (.npInt (i : ℕ)) = .ok i := wrap_nat i
theorem list_npInt (i : Fin n) : listIndex n (.npInt (i : ℕ)) = .ok i := wrap_nat i

end StateArgs

namespace PCTMC
variable {K : Type} [Field K] [LinearOrder K]

omit [Field K] [LinearOrder K] in
theorem mapM_error {α β : Type} {f : α → Py β} {l : List α} {e : Err} (hl : l ≠ []) (hf : ∀ a, f a = .error e) :
    l.mapM f = .error e := by
  cases l with
  | nil => exact absurd rfl hl
  | cons a l => simp [List.mapM_cons, hf, bind, Except.bind]

theorem Names.check {M : PCTMC K} {s : Arg} {i : Fin M.nb} (h : M.Names s i) : M.checkArg s = .ok () := by
  have := i.isLt
  rcases h with rfl | rfl <;> simp only [checkArg] <;> rw [if_neg (by omega), if_neg (by omega)]

theorem Names.list {M : PCTMC K} {s : Arg} {i : Fin M.nb} (h : M.Names s i) : listIndex M.nb s = .ok i := by
  rcases h with rfl | rfl
  · exact list_int i
  · exact list_npInt i

theorem Names.array {M : PCTMC K} {s : Arg} {i : Fin M.nb} (h : M.Names s i) : arrayIndex M.nb s = .ok i := by
  rcases h with rfl | rfl
  · exact array_int i
  · exact array_npInt i

/-- A value that passes the check and is accepted by numpy (or by a list) is the number of a state. -/
theorem names_of_check {M : PCTMC K} {s : Arg} (hc : M.checkArg s = .ok ())
    (hs : (∃ z, s = .int z) ∨ ∃ z, s = .npInt z) : ∃ i, M.Names s i := by
  rcases hs with ⟨z, rfl⟩ | ⟨z, rfl⟩ <;>
  · simp only [checkArg] at hc
    split_ifs at hc with h1 h2
    refine ⟨⟨z.toNat, by omega⟩, ?_⟩
    have : ((z.toNat : ℕ) : ℤ) = z := by omega
    simp [Names, this]

theorem transitionExpressionArg_of {M : PCTMC K} {s : Arg} {i : Fin M.nb} (hi : arrayIndex M.nb s = .ok i) (j : ℕ) (hj : j < M.nb) :
    M.transitionExpressionArg s (.int j) = M.transitionExpression i j := by
  have := array_int (⟨j, hj⟩ : Fin M.nb)
  simp only at this
  simp [transitionExpressionArg, hi, this, bind, Except.bind]

theorem evaluateArg_of {M : PCTMC K} {s : Arg} {i : Fin M.nb} (hi : arrayIndex M.nb s = .ok i) (j : ℕ) (hj : j < M.nb) :
    M.evaluateArg s (.int j) = M.evaluate i j := by
  rw [evaluateArg, transitionExpressionArg_of hi j hj]; rfl

omit [Field K] [LinearOrder K] in
theorem mapM_range_congr {β : Type} {f g : ℕ → Py β} {n : ℕ} (h : ∀ j, j < n → f j = g j) :
    (List.range n).mapM f = (List.range n).mapM g := by
  have key : ∀ l : List ℕ, (∀ j ∈ l, j < n) → l.mapM f = l.mapM g := by
    intro l
    induction l with
    | nil => intro _; rfl
    | cons a l ih =>
      intro hl
      rw [List.mapM_cons, List.mapM_cons, h a (hl a (by simp)), ih (fun j hj => hl j (by simp [hj]))]
  exact key _ (fun j hj => List.mem_range.mp hj)

theorem isInstantiatedArg_of {M : PCTMC K} {s : Arg} {i : Fin M.nb} (hi : M.Names s i) :
    M.isInstantiatedArg s = M.isInstantiatedState i := by
  have hne : s ≠ .none := by rcases hi with rfl | rfl <;> simp
  have hc : M.checkState i = .ok () := by simp [checkState]
  have hm : M.involvedStateArg s = M.involvedState i := by
    simp only [involvedStateArg, involvedState]
    rw [mapM_range_congr (g := fun j => M.involved i j)]
    intro j hj
    rw [transitionExpressionArg_of hi.array j hj]; rfl
  simp [isInstantiatedArg, hne, isInstantiatedState, hi.check, hc, hm, bind, Except.bind]

/-- `PCTMC.e` on a state. -/
theorem eArg_of {M : PCTMC K} {s : Arg} {i : Fin M.nb} (hi : M.Names s i) : M.eArg s = M.e i := by
  simp only [eArg, e, isInstantiatedArg_of hi]
  rw [mapM_range_congr (fun j hj => evaluateArg_of hi.array j hj)]

end PCTMC
end Jajapy
