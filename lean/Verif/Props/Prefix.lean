import Verif.Spec.Continues
import Verif.Props.AlergiaError
import Verif.Model.PCTMC
import Verif.Props.MDP
import Verif.Props.GoHMM
import Verif.Props.CTMC

/-!
Property C112, first part: with the same random numbers a longer run continues the shorter one.
-/

set_option linter.unusedSectionVars false
set_option autoImplicit false

namespace Jajapy

open Spec

theorem Spec.Continues.bind {A B : Type} {k : ℕ} (x : Py B) {f g : B → Py (List A)} (h : ∀ b, x = .ok b → Continues k (f b) (g b)) :
    Continues k (x >>= f) (x >>= g) := by
  cases x with
  | error e => exact ⟨fun w hw => by simp [Bind.bind, Except.bind] at hw, fun e' he => he⟩
  | ok b => exact h b rfl

theorem Spec.Continues.cons {A : Type} {k : ℕ} (a : A) {x y : Py (List A)} (h : Continues k x y) :
    Continues (k + 1) (x >>= fun r => pure (a :: r)) (y >>= fun r => pure (a :: r)) := by
  refine ⟨fun w hw => ?_, fun e he => ?_⟩
  · cases x with
    | error e => simp [Bind.bind, Except.bind] at hw
    | ok w' =>
      rw [h.1 w' rfl]
      simp only [Bind.bind, Except.bind, pure, Except.pure, Except.ok.injEq] at hw ⊢
      rw [← hw, List.take_succ_cons]
  · cases y with
    | ok w' => simp [Bind.bind, Except.bind, pure, Except.pure] at he
    | error e' =>
      rw [h.2 e' rfl]
      exact he

theorem Spec.Continues.refl_of_nil {A : Type} {x : Py (List A)} : Continues 0 x (.ok []) := by
  refine ⟨fun w _ => by simp, fun e he => by simp at he⟩

/-- A run that fails later. -/
theorem Spec.Continues.head {A : Type} (a : A) {x : Py (List A)} : Continues 1 (x >>= fun r => pure (a :: r)) (.ok [a]) := by
  refine ⟨fun w hw => ?_, fun e he => by simp at he⟩
  cases x with
  | error e => simp [Bind.bind, Except.bind] at hw
  | ok w' =>
    simp only [Bind.bind, Except.bind, pure, Except.pure, Except.ok.injEq] at hw
    rw [← hw]
    rfl

theorem Spec.Continues.of_ok {A : Type} {k : ℕ} {x : Py (List A)} {w : List A} (h : ∀ w', x = .ok w' → w'.take k = w) : Continues k x (.ok w) :=
  ⟨fun w' hw => by rw [h w' hw], fun e he => by simp at he⟩

section
variable {K L : Type} [Field K] [LinearOrder K] {n : ℕ}

/-! ### Markov chains -/

theorem MC.runLoop_continues (M : MC K L n) (j : ℕ) : ∀ (k : ℕ), j ≤ k → ∀ (d : ℕ → K) (s : Fin n), Continues (j + 1) (M.runLoop k d s) (M.runLoop j d s) := by
  induction j with
  | zero =>
    intro k _ d s
    cases k with
    | zero => exact ⟨fun w hw => by rw [MC.runLoop] at hw ⊢; rw [← Except.ok.inj hw]; rfl, fun e he => he⟩
    | succ k =>
      refine Continues.of_ok (fun w hw => ?_)
      rw [MC.runLoop, MC.next] at hw
      cases hp : pick (M.matrix s) (d 0) with
      | error e => rw [hp] at hw; simp [Bind.bind, Except.bind] at hw
      | ok c =>
        rw [hp] at hw
        simp only [Bind.bind, Except.bind, pure, Except.pure] at hw
        split at hw
        · simp at hw
        · rw [← Except.ok.inj hw]
          rfl
  | succ j ih =>
    intro k hk d s
    obtain ⟨k, rfl⟩ : ∃ k', k = k' + 1 := ⟨k - 1, by omega⟩
    rw [MC.runLoop, MC.runLoop]
    exact Continues.bind _ (fun ns _ => (ih k (by omega) _ ns.1).cons ns.2)

/-- C112, Markov chains. -/
theorem MC.run_continues (M : MC K L n) (j k : ℕ) (h : j ≤ k) (d : ℕ → K) : Continues (j + 1) (M.run k d) (M.run j d) :=
  Continues.bind _ (fun c _ => M.runLoop_continues j k h _ c)

/-! ### Hidden Markov models -/

theorem HMM.runLoop_continues (M : HMM K L n) (j : ℕ) : ∀ (k : ℕ), j ≤ k → ∀ (d : ℕ → K) (s : Fin n), Continues j (M.runLoop k d s) (M.runLoop j d s) := by
  induction j with
  | zero => exact fun k _ d s => Continues.refl_of_nil
  | succ j ih =>
    intro k hk d s
    obtain ⟨k, rfl⟩ : ∃ k', k = k' + 1 := ⟨k - 1, by omega⟩
    rw [HMM.runLoop, HMM.runLoop]
    exact Continues.bind _ (fun ns _ => (ih k (by omega) _ ns.1).cons ns.2)

/-- C112, hidden Markov models. -/
theorem HMM.run_continues (M : HMM K L n) (j k : ℕ) (h : j ≤ k) (d : ℕ → K) : Continues j (M.run k d) (M.run j d) :=
  Continues.bind _ (fun c _ => M.runLoop_continues j k h _ c)

/-! ### Gaussian observations -/

theorem GoHMM.runLoop_continues {d : ℕ} (M : GoHMM n d) (j : ℕ) : ∀ (k : ℕ), j ≤ k → ∀ (r : ℕ → ℝ) (z : ℕ → Fin d → ℝ) (s : Fin n),
    Continues j (M.runLoop k r z s) (M.runLoop j r z s) := by
  induction j with
  | zero => exact fun k _ r z s => Continues.refl_of_nil
  | succ j ih =>
    intro k hk r z s
    obtain ⟨k, rfl⟩ : ∃ k', k = k' + 1 := ⟨k - 1, by omega⟩
    rw [GoHMM.runLoop, GoHMM.runLoop]
    exact Continues.bind _ (fun ns _ => (ih k (by omega) _ _ ns.1).cons ns.2)

/-- C112, Gaussian observations. -/
theorem GoHMM.run_continues {d : ℕ} (M : GoHMM n d) (j k : ℕ) (h : j ≤ k) (r : ℕ → ℝ) (z : ℕ → Fin d → ℝ) : Continues j (M.run k r z) (M.run j r z) :=
  Continues.bind _ (fun c _ => M.runLoop_continues j k h _ _ c)

/-! ### CTMCs -/

theorem CTMC.next_symbol (M : CTMC K L n) (s : Fin n) (d : Fin n → K) {r : L × Fin n × K} (h : M.next s d = .ok r) : r.1 = M.labelling s := by
  unfold CTMC.next at h
  split at h
  · cases h
  · split_ifs at h
    rw [← Except.ok.inj h]

theorem CTMC.runLoop_continues (M : CTMC K L n) (j : ℕ) : ∀ (k : ℕ), j ≤ k → ∀ (d : ℕ → Fin n → K) (s : Fin n),
    Continues (j + 1) (M.runLoop k d s) (M.runLoop j d s) := by
  induction j with
  | zero =>
    intro k _ d s
    cases k with
    | zero => exact ⟨fun w hw => by rw [CTMC.runLoop] at hw ⊢; rw [← Except.ok.inj hw]; rfl, fun e he => he⟩
    | succ k =>
      rw [CTMC.runLoop, CTMC.runLoop]
      cases hp : M.next s (d 0) with
      | error e => exact ⟨fun w hw => by simp [Bind.bind, Except.bind] at hw, fun e he => by simp at he⟩
      | ok r =>
        rw [← M.next_symbol s _ hp]
        exact Continues.head r.1
  | succ j ih =>
    intro k hk d s
    obtain ⟨k, rfl⟩ : ∃ k', k = k' + 1 := ⟨k - 1, by omega⟩
    rw [CTMC.runLoop, CTMC.runLoop]
    exact Continues.bind _ (fun ns _ => (ih k (by omega) _ ns.2.1).cons ns.1)

/-- C112, CTMCs, untimed. -/
theorem CTMC.run_continues (M : CTMC K L n) (j k : ℕ) (h : j ≤ k) (r : K) (d : ℕ → Fin n → K) : Continues (j + 1) (M.run k r d) (M.run j r d) :=
  Continues.bind _ (fun c _ => M.runLoop_continues j k h _ c)

end

section timed
variable {L : Type} {n : ℕ}

theorem Spec.Continues.cons2 {A : Type} {k : ℕ} (a b : A) {x y : Py (List A)} (h : Continues k x y) :
    Continues (k + 2) (x >>= fun r => pure (a :: b :: r)) (y >>= fun r => pure (a :: b :: r)) := by
  have := (h.cons b).cons a
  simpa [Bind.bind, Except.bind, pure, Except.pure] using (by
    cases x <;> cases y <;> exact this)

theorem CTMC.runTimedLoop_continues (M : CTMC ℝ L n) (j : ℕ) : ∀ (k : ℕ), j ≤ k → ∀ (d : ℕ → Fin n → ℝ) (s : Fin n),
    Continues (2 * j + 1) (M.runTimedLoop k d s) (M.runTimedLoop j d s) := by
  induction j with
  | zero =>
    intro k _ d s
    cases k with
    | zero => exact ⟨fun w hw => by rw [CTMC.runTimedLoop] at hw ⊢; rw [← Except.ok.inj hw]; rfl, fun e he => he⟩
    | succ k =>
      rw [CTMC.runTimedLoop, CTMC.runTimedLoop]
      cases hp : M.next s (d 0) with
      | error e => exact ⟨fun w hw => by simp [Bind.bind, Except.bind] at hw, fun e he => by simp at he⟩
      | ok r =>
        refine Continues.of_ok (fun w hw => ?_)
        rw [← M.next_symbol s _ hp]
        simp only [Bind.bind, Except.bind, pure, Except.pure] at hw
        split at hw
        · cases hw
        · rw [← Except.ok.inj hw]
          rfl
  | succ j ih =>
    intro k hk d s
    obtain ⟨k, rfl⟩ : ∃ k', k = k' + 1 := ⟨k - 1, by omega⟩
    rw [CTMC.runTimedLoop, CTMC.runTimedLoop]
    exact Continues.bind _ (fun ns _ => (ih k (by omega) _ ns.2.1).cons2 _ _)

/-- C112, CTMCs, timed. -/
theorem CTMC.runTimed_continues (M : CTMC ℝ L n) (j k : ℕ) (h : j ≤ k) (r : ℝ) (d : ℕ → Fin n → ℝ) :
    Continues (2 * j + 1) (M.runTimed k r d) (M.runTimed j r d) :=
  Continues.bind _ (fun c _ => M.runTimedLoop_continues j k h _ c)

end timed

/-! ### Parametric CTMCs -/

namespace PCTMC
variable {K : Type} [Field K] [LinearOrder K]

theorem next_symbol (M : PCTMC K) (s : ℕ) (d : ℕ → K) {r : String × ℕ × Time K} (h : M.next s d = .ok r) : r.1 = M.labelling.getD s "" := by
  unfold PCTMC.next at h
  obtain ⟨b, -, h⟩ := (Except.bind_eq_ok _ _ _).1 h
  split_ifs at h
  obtain ⟨x, -, h⟩ := (Except.bind_eq_ok _ _ _).1 h
  obtain ⟨y, -, h⟩ := (Except.bind_eq_ok _ _ _).1 h
  obtain ⟨z, -, h⟩ := (Except.bind_eq_ok _ _ _).1 h
  rw [← Except.ok.inj h]

theorem runLoop_continues (M : PCTMC K) (j : ℕ) : ∀ (k : ℕ), j ≤ k → ∀ (d : ℕ → ℕ → K) (s : ℕ),
    Continues (j + 1) (M.runLoop k d s) (M.runLoop j d s) := by
  induction j with
  | zero =>
    intro k _ d s
    cases k with
    | zero => exact ⟨fun w hw => by rw [runLoop] at hw ⊢; rw [← Except.ok.inj hw]; rfl, fun e he => he⟩
    | succ k =>
      rw [runLoop, runLoop]
      cases hp : M.next s (d 0) with
      | error e => exact ⟨fun w hw => by simp [Bind.bind, Except.bind] at hw, fun e he => by simp at he⟩
      | ok r =>
        rw [← M.next_symbol s _ hp]
        exact Continues.head r.1
  | succ j ih =>
    intro k hk d s
    obtain ⟨k, rfl⟩ : ∃ k', k = k' + 1 := ⟨k - 1, by omega⟩
    rw [runLoop, runLoop]
    exact Continues.bind _ (fun ns _ => (ih k (by omega) _ ns.2.1).cons ns.1)

theorem runTimedLoop_continues (M : PCTMC K) (j : ℕ) : ∀ (k : ℕ), j ≤ k → ∀ (d : ℕ → ℕ → K) (s : ℕ),
    Continues (2 * j + 1) (M.runTimedLoop k d s) (M.runTimedLoop j d s) := by
  induction j with
  | zero =>
    intro k _ d s
    cases k with
    | zero => exact ⟨fun w hw => by rw [runTimedLoop] at hw ⊢; rw [← Except.ok.inj hw]; rfl, fun e he => he⟩
    | succ k =>
      rw [runTimedLoop, runTimedLoop]
      cases hp : M.next s (d 0) with
      | error e => exact ⟨fun w hw => by simp [Bind.bind, Except.bind] at hw, fun e he => by simp at he⟩
      | ok r =>
        refine Continues.of_ok (fun w hw => ?_)
        rw [← M.next_symbol s _ hp]
        simp only [Bind.bind, Except.bind, pure, Except.pure] at hw
        split at hw
        · cases hw
        · rw [← Except.ok.inj hw]
          rfl
  | succ j ih =>
    intro k hk d s
    obtain ⟨k, rfl⟩ : ∃ k', k = k' + 1 := ⟨k - 1, by omega⟩
    rw [runTimedLoop, runTimedLoop]
    exact Continues.bind _ (fun ns _ => (ih k (by omega) _ ns.2.1).cons2 _ _)

/-- C112, parametric CTMCs. -/
theorem run_continues (M : PCTMC K) (j k : ℕ) (h : j ≤ k) (r : K) (d : ℕ → ℕ → K) :
    Continues (j + 1) (M.run k r d) (M.run j r d) ∧ Continues (2 * j + 1) (M.runTimed k r d) (M.runTimed j r d) :=
  ⟨Continues.bind _ (fun c _ => M.runLoop_continues j k h _ c), Continues.bind _ (fun c _ => M.runTimedLoop_continues j k h _ c)⟩

end PCTMC

/-! ### MDPs -/

namespace MDP
variable {K L σ : Type} [Field K] [DecidableEq L] [LinearOrder K] {n : ℕ}

theorem next_label (M : MDP K L n) (s : Fin n) (x : L) (r : K) {c : Fin n × L} (h : M.next s x r = .ok c) : c.2 = M.labelling s := by
  unfold MDP.next at h
  split at h
  · cases h
  · obtain ⟨y, -, h⟩ := (Except.bind_eq_ok _ _ _).1 h
    rw [← Except.ok.inj h]

theorem runLoop_continues (M : MDP K L n) (sch : Sched K L σ) (j : ℕ) : ∀ (k : ℕ), j ≤ k → ∀ (d : List K) (s : Fin n) (st : σ),
    (∀ w st', M.runLoop sch k d s st = some (.ok (w, st')) → ∃ st'', M.runLoop sch j d s st = some (.ok (w.take (2 * j + 1), st''))) ∧
      ∀ e, M.runLoop sch j d s st = some (.error e) → M.runLoop sch k d s st = some (.error e) := by
  induction j with
  | zero =>
    intro k _ d s st
    refine ⟨fun w st' hw => ?_, fun e he => by simp [runLoop] at he⟩
    rw [runLoop]
    cases k with
    | zero =>
      simp only [runLoop, Option.some.injEq, Except.ok.injEq, Prod.mk.injEq] at hw
      rw [← hw.1]
      exact ⟨st, rfl⟩
    | succ k =>
      rw [runLoop] at hw
      split at hw
      any_goals simp at hw; done
      split at hw
      any_goals simp at hw; done
      rename_i hnext
      split at hw
      any_goals simp at hw; done
      split at hw
      any_goals simp at hw; done
      simp only [Option.some.injEq, Except.ok.injEq, Prod.mk.injEq] at hw
      rw [← hw.1, ← M.next_label _ _ _ hnext]
      exact ⟨st, rfl⟩
  | succ j ih =>
    intro k hk d s st
    obtain ⟨k, rfl⟩ : ∃ k', k = k' + 1 := ⟨k - 1, by omega⟩
    rw [runLoop, runLoop]
    cases hc : M.chooseAction sch s d st with
    | none => simp
    | some rc =>
      rcases rc with e | ⟨action, st1, _ | ⟨r, rs⟩⟩
      · simp
      · simp
      · dsimp only
        cases hnx : M.next s action r with
        | error e => simp
        | ok c =>
          dsimp only
          cases ha : sch.addObservation st1 c.2 with
          | error e => simp
          | ok st2 =>
            dsimp only
            obtain ⟨h1, h2⟩ := ih k (by omega) rs c.1 st2
            constructor
            · intro w st' hw
              cases hk' : M.runLoop sch k rs c.1 st2 with
              | none => rw [hk'] at hw; simp at hw
              | some rr =>
                rcases rr with e | ⟨rest, st3⟩
                · rw [hk'] at hw; simp at hw
                · rw [hk'] at hw
                  simp only [Option.some.injEq, Except.ok.injEq, Prod.mk.injEq] at hw
                  obtain ⟨st4, h4⟩ := h1 rest st3 hk'
                  refine ⟨st4, ?_⟩
                  rw [h4, ← hw.1]
                  rfl
            · intro e he
              cases hj' : M.runLoop sch j rs c.1 st2 with
              | none => rw [hj'] at he; simp at he
              | some rr =>
                rcases rr with e' | ⟨rest, st3⟩
                · rw [h2 e' hj']
                  rw [hj'] at he
                  exact he
                · rw [hj'] at he; simp at he

/-- C112, MDPs: with the same scheduler and the same random numbers. -/
theorem run_continues (M : MDP K L n) (sch : Sched K L σ) (j k : ℕ) (h : j ≤ k) (d : List K) (st : σ) :
    (∀ w st', M.run sch k d st = some (.ok (w, st')) → ∃ st'', M.run sch j d st = some (.ok (w.take (2 * j + 1), st''))) ∧
      ∀ e, M.run sch j d st = some (.error e) → M.run sch k d st = some (.error e) := by
  cases d with
  | nil => simp [run]
  | cons r d =>
    rw [run, run]
    cases pick M.initialState r with
    | error e => simp
    | ok c => exact M.runLoop_continues sch j k h d c _

end MDP
end Jajapy
