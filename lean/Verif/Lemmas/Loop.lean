import Verif.Model.BW
import Mathlib.Tactic.Linarith

/-!
The learning loop: a run of the loop is a chain of iterations.
-/

namespace Jajapy.BW

variable {H : Type}

theorem loop_zero (step : H → Py (H × ℝ)) (epsilon : ℝ) (st : LoopState H) : loop step epsilon 0 st = .ok st := rfl

theorem loop_succ (step : H → Py (H × ℝ)) (epsilon : ℝ) (fuel : ℕ) (st : LoopState H) (h' : H) (cur : ℝ)
    (hs : step st.h = .ok (h', cur)) :
    loop step epsilon (fuel + 1) st =
      if ∃ prev, st.ll = some prev ∧ cur - prev < epsilon then .ok { h := h', counter := st.counter + 1, ll := some cur }
      else loop step epsilon fuel { h := h', counter := st.counter + 1, ll := some cur } := by
  classical
  rw [loop, hs]
  cases hl : st.ll with
  | none => simp [bind, Except.bind]
  | some prev =>
    by_cases hc : cur - prev < epsilon
    · simp [bind, Except.bind, pure, Except.pure, hc]
    · simp [bind, Except.bind, hc]

theorem loop_error (step : H → Py (H × ℝ)) (epsilon : ℝ) (fuel : ℕ) (st : LoopState H) (e : Err)
    (hs : step st.h = .error e) : loop step epsilon (fuel + 1) st = .error e := by
  rw [loop, hs]; rfl

/-- A property of the hypothesis that every iteration keeps holds at the end. -/
theorem loop_invariant (step : H → Py (H × ℝ)) (epsilon : ℝ) (Inv : H → Prop)
    (hinv : ∀ h h' ll, Inv h → step h = .ok (h', ll) → Inv h') (fuel : ℕ) (st st' : LoopState H) (h0 : Inv st.h)
    (h : loop step epsilon fuel st = .ok st') : Inv st'.h := by
  induction fuel generalizing st with
  | zero => rw [loop_zero] at h; injection h with h; rw [← h]; exact h0
  | succ fuel ih =>
    cases hs : step st.h with
    | error e => rw [loop_error _ _ _ _ _ hs] at h; cases h
    | ok r =>
      obtain ⟨h', cur⟩ := r
      rw [loop_succ _ _ _ _ _ _ hs] at h
      have hi := hinv _ _ _ h0 hs
      split_ifs at h
      · injection h with h; rw [← h]; exact hi
      · exact ih _ hi h

/-- The value of `prevloglikelihood` at iteration `i`. -/
def prevOf (l : Option ℝ) (ls : ℕ → ℝ) : ℕ → Option ℝ
  | 0 => l
  | i + 1 => some (ls i)

theorem loop_spec (step : H → Py (H × ℝ)) (epsilon : ℝ) (fuel : ℕ) (st st' : LoopState H)
    (h : loop step epsilon fuel st = .ok st') :
    ∃ (k : ℕ) (hs : ℕ → H) (ls : ℕ → ℝ), hs 0 = st.h ∧ (∀ i < k, step (hs i) = .ok (hs (i+1), ls i)) ∧
      st'.h = hs k ∧ st'.counter = st.counter + k ∧ st'.ll = prevOf st.ll ls k ∧ k ≤ fuel ∧
      (∀ i, i + 1 < k → ∀ prev, prevOf st.ll ls i = some prev → epsilon ≤ ls i - prev) ∧
      (k = fuel ∨ ∃ j prev, k = j + 1 ∧ prevOf st.ll ls j = some prev ∧ ls j - prev < epsilon) := by
  induction fuel generalizing st with
  | zero =>
    rw [loop_zero] at h; injection h with h; subst h
    exact ⟨0, fun _ => st.h, fun _ => 0, rfl, by simp, rfl, rfl, rfl, le_refl _, by simp, Or.inl rfl⟩
  | succ fuel ih =>
    cases hstep : step st.h with
    | error e => rw [loop_error _ _ _ _ _ hstep] at h; cases h
    | ok r =>
      obtain ⟨h', cur⟩ := r
      rw [loop_succ _ _ _ _ _ _ hstep] at h
      split_ifs at h with hc
      · injection h with h
        subst h
        obtain ⟨prev, hp, hlt⟩ := hc
        refine ⟨1, fun i => if i = 0 then st.h else h', fun _ => cur, by simp, ?_, by simp, rfl, rfl, by omega, by omega,
          Or.inr ⟨0, prev, rfl, hp, hlt⟩⟩
        intro i hi
        obtain rfl : i = 0 := by omega
        simpa using hstep
      · obtain ⟨k, hs, ls, a1, a2, a3, a4, a5, a6, a7, a8⟩ := ih _ h
        refine ⟨k + 1, fun i => Nat.casesOn i st.h hs, fun i => Nat.casesOn i cur ls, rfl, ?_, a3, ?_, ?_, by omega, ?_, ?_⟩
        · intro i hi
          cases i with
          | zero =>
            simp only
            rw [a1]
            exact hstep
          | succ i => exact a2 i (by omega)
        · rw [a4]; simp only; omega
        · rw [a5]
          cases k <;> rfl
        · intro i hi prev hprev
          cases i with
          | zero =>
            by_contra hcon
            exact hc ⟨prev, hprev, not_le.mp hcon⟩
          | succ i =>
            refine a7 i (by omega) prev ?_
            cases i <;> exact hprev
        · rcases a8 with a8 | ⟨j, prev, b1, b2, b3⟩
          · left; omega
          · right
            refine ⟨j + 1, prev, by omega, ?_, b3⟩
            cases j <;> exact b2

/-- A longer budget does not change a run that stopped by itself. -/
theorem loop_more (step : H → Py (H × ℝ)) (epsilon : ℝ) (fuel : ℕ) (st st' : LoopState H)
    (h : loop step epsilon fuel st = .ok st') (hlt : st'.counter < st.counter + fuel) (fuel' : ℕ) (hf : fuel ≤ fuel') :
    loop step epsilon fuel' st = .ok st' := by
  induction fuel generalizing st fuel' with
  | zero =>
    rw [loop_zero] at h; injection h with h; subst h; omega
  | succ fuel ih =>
    obtain ⟨fuel', rfl⟩ : ∃ m, fuel' = m + 1 := ⟨fuel' - 1, by omega⟩
    cases hstep : step st.h with
    | error e => rw [loop_error _ _ _ _ _ hstep] at h; cases h
    | ok r =>
      obtain ⟨h', cur⟩ := r
      rw [loop_succ _ _ _ _ _ _ hstep] at h ⊢
      split_ifs at h ⊢ with hc
      · exact h
      · exact ih _ h (by simp only; omega) fuel' (by omega)

end Jajapy.BW
