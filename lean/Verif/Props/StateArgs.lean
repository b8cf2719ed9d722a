import Verif.Lemmas.StateArgs
import Mathlib.Data.Rat.Floor
import Mathlib.Tactic.FinCases

/-!
Property C93: a method given something that is not a state of the model raises an exception; the states a model hands out can be
handed back to it.
-/

namespace Jajapy

open StateArgs Tools

/-! ### MC -/

namespace MC
variable {K L : Type} {n : ℕ} [Field K] [DecidableEq L]

/-- C93, `MC.tau`. -/
theorem tau_states (M : MC K L n) (obs : L) :
    StatesOnly₂ n (fun s1 s2 => M.tauArg s1 s2 obs) (fun i j => .ok (M.tau i j obs)) := by
  refine ⟨fun i j => ?_, fun a b e h => ?_, fun i b e h => ?_⟩
  · by_cases hl : obs = M.labelling i <;>
      simp [tauArg, check_int, list_int, array_int, tau, hl, bind, Except.bind, pure, Except.pure]
  · simp [tauArg, check_fault h, bind, Except.bind]
  · simp [tauArg, check_int, check_fault h, bind, Except.bind]

omit [Field K] [DecidableEq L] in
/-- C93, `MC.a`. -/
theorem a_states (M : MC K L n) : StatesOnly₂ n M.aArg (fun i j => .ok (M.matrix i j)) := by
  refine ⟨fun i j => ?_, fun a b e h => ?_, fun i b e h => ?_⟩
  · simp [aArg, check_int, array_int, bind, Except.bind, pure, Except.pure]
  · simp [aArg, check_fault h, bind, Except.bind]
  · simp [aArg, check_int, check_fault h, bind, Except.bind]

omit [Field K] [DecidableEq L] in
/-- C93, `MC.getLabel`. -/
theorem getLabel_states (M : MC K L n) : StatesOnly n M.getLabelArg (fun i => .ok (M.labelling i)) := by
  refine ⟨fun i => ?_, fun a e h => ?_⟩
  · simp [getLabelArg, check_int, list_int, bind, Except.bind, pure, Except.pure]
  · simp [getLabelArg, check_fault h, bind, Except.bind]

/-- C93, `MC.b`. -/
theorem b_states (M : MC K L n) (label : L) : StatesOnly n (fun s => M.bArg s label) (fun i => .ok (M.b i label)) := by
  refine ⟨fun i => ?_, fun a e h => ?_⟩
  · by_cases hl : M.labelling i = label <;>
      simp [bArg, M.getLabel_states.1 i, b, hl, bind, Except.bind, pure, Except.pure]
  · simp [bArg, M.getLabel_states.2 a e h, bind, Except.bind]

omit [DecidableEq L] in
/-- C93 fails for `pi`: it answers about another state. -/
theorem pi_countsFromEnd (M : MC K L n) : CountsFromEnd n M.piArg (fun i => .ok (M.initialState i)) := by
  refine ⟨fun i => ?_, fun i => ?_, fun z h => ?_⟩
  · simp [piArg, wrap_nat, bind, Except.bind, pure, Except.pure]
  · simp [piArg, wrap_neg, bind, Except.bind, pure, Except.pure]
  · simp [piArg, wrap_out h, bind, Except.bind]

omit [DecidableEq L] in
/-- C93 fails for `MC.next`: it simulates a step from another state. -/
theorem next_countsFromEnd [LinearOrder K] (M : MC K L n) (r : K) :
    CountsFromEnd n (fun s => M.nextArg s r) (fun i => (M.next i r).map (fun p => (.npInt (p.1 : ℕ), p.2))) := by
  refine ⟨fun i => ?_, fun i => ?_, fun z h => ?_⟩
  · simp only [nextArg, next, wrap_nat, bind, Except.bind, pure, Except.pure]
    cases pick (M.matrix i) r <;> rfl
  · simp only [nextArg, next, wrap_neg, bind, Except.bind, pure, Except.pure]
    cases pick (M.matrix i) r <;> rfl
  · simp [nextArg, wrap_out h, bind, Except.bind]

omit [DecidableEq L] in
/-- C93 fails for `MC.run(number_steps, current)`: a negative `current` other than -1 starts from another state. -/
theorem runFrom_negative [LinearOrder K] (M : MC K L n) (steps : ℕ) (draws : ℕ → K) (i : Fin n) (hi : (i : ℕ) + 1 ≠ n) :
    M.runFrom steps ((i : ℕ) - n) draws = M.runFrom steps (i : ℕ) draws := by
  have h1 : ((i : ℕ) : ℤ) - n ≠ -1 := by omega
  have h2 : ((i : ℕ) : ℤ) ≠ -1 := by omega
  simp [runFrom, h1, h2, wrap_neg, wrap_nat]

/-- C93 fails for the states that `MC.next` returns: whatever the model, the state and the draw, the other methods refuse them
with a TypeError. -/
theorem next_refused [LinearOrder K] (M : MC K L n) (s : ℤ) (r : K) {s' : Arg} {o : L} (h : M.nextArg s r = .ok (s', o))
    (b : Arg) (obs : L) :
    M.getLabelArg s' = .error .typeError ∧ M.aArg s' b = .error .typeError ∧ M.tauArg s' b obs = .error .typeError := by
  simp only [nextArg] at h
  obtain ⟨i, -, h⟩ := (Except.bind_eq_ok _ _ _).1 h
  obtain ⟨c, -, h⟩ := (Except.bind_eq_ok _ _ _).1 h
  cases h
  exact ⟨M.getLabel_states.2 _ _ rfl, M.a_states.2.1 _ _ _ rfl, (M.tau_states obs).2.1 _ _ _ rfl⟩

end MC

/-! ### CTMC -/

namespace CTMC
variable {K L : Type} {n : ℕ} [Field K]

/-- C93, `CTMC.e`. -/
theorem e_states (M : CTMC K L n) : StatesOnly n M.eArg (fun i => .ok (M.e i)) := by
  refine ⟨fun i => ?_, fun a e h => ?_⟩
  · simp [eArg, e, check_int, array_int, bind, Except.bind, pure, Except.pure]
  · simp [eArg, check_fault h, bind, Except.bind]

/-- C93, `CTMC.l`. -/
theorem l_states [DecidableEq L] (M : CTMC K L n) (obs : L) :
    StatesOnly₂ n (fun s1 s2 => M.lArg s1 s2 obs) (fun i j => .ok (M.l i j obs)) := by
  refine ⟨fun i j => ?_, fun a b e h => ?_, fun i b e h => ?_⟩
  · by_cases hl : M.labelling i = obs <;>
      simp [lArg, check_int, list_int, array_int, l, hl, bind, Except.bind, pure, Except.pure]
  · simp [lArg, check_fault h, bind, Except.bind]
  · simp [lArg, check_int, check_fault h, bind, Except.bind]

/-- C93, `CTMC.tau`. -/
theorem tau_states [DecidableEq L] (M : CTMC K L n) (obs : L) :
    StatesOnly₂ n (fun s1 s2 => M.tauArg s1 s2 obs) (fun i j => .ok (M.tau i j obs)) := by
  have hl := M.l_states obs
  refine ⟨fun i j => ?_, fun a b e h => ?_, fun i b e h => ?_⟩
  · have := hl.1 i j
    simp only at this
    simp [tauArg, tau, this, M.e_states.1 i, bind, Except.bind, pure, Except.pure]
  · have := hl.2.1 a b e h
    simp only at this
    simp [tauArg, this, bind, Except.bind]
  · have := hl.2.2 i b e h
    simp only at this
    simp [tauArg, this, bind, Except.bind]

/-- C93, `CTMC.expected_time`. -/
theorem expectedTime_states (M : CTMC K L n) : StatesOnly n M.expectedTimeArg (fun i => .ok (M.expectedTime i)) := by
  refine ⟨fun i => ?_, fun a e h => ?_⟩
  · simp [expectedTimeArg, expectedTime, M.e_states.1 i, bind, Except.bind, pure, Except.pure]
  · simp [expectedTimeArg, M.e_states.2 a e h, bind, Except.bind]

omit [Field K] in
/-- C93, `CTMC.getLabel`. -/
theorem getLabel_states (M : CTMC K L n) : StatesOnly n M.getLabelArg (fun i => .ok (M.labelling i)) := by
  refine ⟨fun i => ?_, fun a e h => ?_⟩
  · simp [getLabelArg, check_int, list_int, bind, Except.bind, pure, Except.pure]
  · simp [getLabelArg, check_fault h, bind, Except.bind]

/-- C93, `CTMC.lkl` for a time that is not negative. -/
theorem lkl_states_partial (M : CTMC ℝ L n) (t : ℝ) (ht : 0 ≤ t) :
    StatesOnly n (fun s => M.lklArg s t) (fun i => .ok (M.lkl i t)) := by
  refine ⟨fun i => ?_, fun a e h => ?_⟩
  · simp [lklArg, lkl, not_lt.mpr ht, M.e_states.1 i, bind, Except.bind, pure, Except.pure]
  · simp [lklArg, not_lt.mpr ht, M.e_states.2 a e h, bind, Except.bind]

/-- C93 fails for `CTMC.lkl` and a negative time: every argument is accepted. -/
theorem lkl_negative (M : CTMC ℝ L n) (t : ℝ) (ht : t < 0) (s : Arg) : M.lklArg s t = .ok 0 := by
  simp [lklArg, ht, pure, Except.pure]

/-- C93 fails for `CTMC.next`. -/
theorem next_countsFromEnd [LinearOrder K] (M : CTMC K L n) (draws : Fin n → K) :
    CountsFromEnd n (fun s => M.nextArg s draws)
      (fun i => (M.next i draws).map (fun p => (p.1, .int (p.2.1 : ℕ), p.2.2))) := by
  refine ⟨fun i => ?_, fun i => ?_, fun z h => ?_⟩
  · simp only [nextArg, wrap_nat, bind, Except.bind, pure, Except.pure]
    cases M.next i draws <;> rfl
  · simp only [nextArg, wrap_neg, bind, Except.bind, pure, Except.pure]
    cases M.next i draws <;> rfl
  · simp [nextArg, wrap_out h, bind, Except.bind]

/-- C93, the states that `CTMC.next` returns are accepted by the other methods. -/
theorem next_accepted [LinearOrder K] [DecidableEq L] (M : CTMC K L n) (s : ℤ) (draws : Fin n → K) {s' : Arg} {o : L} {t : K}
    (h : M.nextArg s draws = .ok (o, s', t)) :
    ∃ j : Fin n, s' = .int (j : ℕ) ∧ M.getLabelArg s' = .ok (M.labelling j) ∧ M.eArg s' = .ok (M.e j) := by
  simp only [nextArg] at h
  obtain ⟨i, -, h⟩ := (Except.bind_eq_ok _ _ _).1 h
  obtain ⟨⟨o', j, t'⟩, -, h⟩ := (Except.bind_eq_ok _ _ _).1 h
  cases h
  exact ⟨j, rfl, M.getLabel_states.1 j, M.e_states.1 j⟩

end CTMC

/-! ### MDP -/

namespace MDP
variable {K L : Type} {n : ℕ} [Field K] [DecidableEq L]

/-- C93, `MDP.tau`. -/
theorem tau_states (M : MDP K L n) (action obs : L) :
    StatesOnly₂ n (fun s1 s2 => M.tauArg s1 action s2 obs) (fun i j => .ok (M.tau i action j obs)) := by
  refine ⟨fun i j => ?_, fun a b e h => ?_, fun i b e h => ?_⟩
  · by_cases hl : obs = M.labelling i
    · cases ha : M.actionIndex action <;>
        simp [tauArg, check_int, list_int, array_int, tau, hl, ha, bind, Except.bind, pure, Except.pure]
    · simp [tauArg, check_int, list_int, tau, hl, bind, Except.bind, pure, Except.pure]
  · simp [tauArg, check_fault h, bind, Except.bind]
  · simp [tauArg, check_int, check_fault h, bind, Except.bind]

/-- C93, `MDP.a`. -/
theorem a_states (M : MDP K L n) (action : L) :
    StatesOnly₂ n (fun s1 s2 => M.aArg s1 s2 action) (fun i j => M.a i j action) := by
  refine ⟨fun i j => ?_, fun a b e h => ?_, fun i b e h => ?_⟩
  · cases ha : M.actionIndex action <;>
      simp [aArg, check_int, array_int, a, ha, bind, Except.bind, pure, Except.pure]
  · simp [aArg, check_fault h, bind, Except.bind]
  · simp [aArg, check_int, check_fault h, bind, Except.bind]

omit [Field K] [DecidableEq L] in
/-- C93, `MDP.getLabel`. -/
theorem getLabel_states (M : MDP K L n) : StatesOnly n M.getLabelArg (fun i => .ok (M.labelling i)) := by
  refine ⟨fun i => ?_, fun a e h => ?_⟩
  · simp [getLabelArg, check_int, list_int, bind, Except.bind, pure, Except.pure]
  · simp [getLabelArg, check_fault h, bind, Except.bind]

omit [DecidableEq L] in
/-- C93 fails for `MDP.getActions`: a negative number other than -1 gives the actions of another state. -/
theorem getActions_negative [LinearOrder K] (M : MDP K L n) (i : Fin n) (hi : (i : ℕ) + 1 ≠ n) :
    M.getActionsArg ((i : ℕ) - n) = .ok (M.getActions i) := by
  have h1 : ((i : ℕ) : ℤ) - n ≠ -1 := by omega
  simp [getActionsArg, h1, wrap_neg, bind, Except.bind, pure, Except.pure]

/-- C93 fails for `MDP.next`. -/
theorem next_countsFromEnd [LinearOrder K] (M : MDP K L n) (action : L) (r : K) :
    CountsFromEnd n (fun s => M.nextArg s action r)
      (fun i => (M.next i action r).map (fun p => (.npInt (p.1 : ℕ), p.2))) := by
  refine ⟨fun i => ?_, fun i => ?_, fun z h => ?_⟩
  · simp only [nextArg, wrap_nat, bind, Except.bind, pure, Except.pure]
    cases M.next i action r <;> rfl
  · simp only [nextArg, wrap_neg, bind, Except.bind, pure, Except.pure]
    cases M.next i action r <;> rfl
  · simp [nextArg, wrap_out h, bind, Except.bind]

/-- C93 fails for the states that `MDP.next` returns. -/
theorem next_refused [LinearOrder K] (M : MDP K L n) (s : ℤ) (action : L) (r : K) {s' : Arg} {o : L}
    (h : M.nextArg s action r = .ok (s', o)) (b : Arg) (action' obs : L) :
    M.getLabelArg s' = .error .typeError ∧ M.aArg s' b action' = .error .typeError ∧
      M.tauArg s' action' b obs = .error .typeError := by
  simp only [nextArg] at h
  obtain ⟨i, -, h⟩ := (Except.bind_eq_ok _ _ _).1 h
  obtain ⟨⟨c, o'⟩, -, h⟩ := (Except.bind_eq_ok _ _ _).1 h
  cases h
  exact ⟨M.getLabel_states.2 _ _ rfl, (M.a_states action').2.1 _ _ _ rfl, (M.tau_states action' obs).2.1 _ _ _ rfl⟩

end MDP

/-! ### HMM -/

namespace HMM
variable {K O : Type} {n : ℕ} [Field K]

/-- C93, `HMM.a`. -/
theorem a_states (M : HMM K O n) : StatesOnly₂ n M.aArg (fun i j => .ok (M.matrix i j)) := by
  refine ⟨fun i j => ?_, fun a b e h => ?_, fun i b e h => ?_⟩
  · simp [aArg, check_int, array_int, bind, Except.bind, pure, Except.pure]
  · simp [aArg, check_fault h, bind, Except.bind]
  · simp [aArg, check_int, check_fault h, bind, Except.bind]

/-- `HMM.b` on a state. -/
theorem bArg_int [DecidableEq O] (M : HMM K O n) (i : Fin n) (l : O) : M.bArg (.int (i : ℕ)) l = .ok (M.b i l) := by
  have := i.isLt
  by_cases hl : l ∈ M.alphabet <;>
    simp [bArg, outOfRange, array_int, b, hl, bind, Except.bind, pure, Except.pure]

/-- C93, `HMM.b`: as documented, it answers 0 for the integers that are not states. -/
theorem b_zero [DecidableEq O] (M : HMM K O n) (z : ℤ) (h : z < 0 ∨ n ≤ z) (l : O) : M.bArg (.int z) l = .ok 0 := by
  have : (decide (z < 0) || decide (z ≥ (n : ℤ))) = true := by
    rcases h with h | h <;> simp [h]
  simp [bArg, outOfRange, this, bind, Except.bind, pure, Except.pure]

/-- C93, `HMM.tau`: an exception, where the documentation of the method promises 0. -/
theorem tau_states [DecidableEq O] (M : HMM K O n) (obs : O) :
    StatesOnly₂ n (fun s1 s2 => M.tauArg s1 s2 obs) (fun i j => .ok (M.tau i j obs)) := by
  refine ⟨fun i j => ?_, fun a b e h => ?_, fun i b e h => ?_⟩
  · simp [tauArg, M.a_states.1 i j, M.bArg_int, tau, bind, Except.bind, pure, Except.pure]
  · simp [tauArg, M.a_states.2.1 a b e h, bind, Except.bind]
  · simp [tauArg, M.a_states.2.2 i b e h, bind, Except.bind]

/-- C93, `HMM.getAlphabet(state)`: the letters that the state can emit, the whole alphabet for -1, an exception otherwise. -/
theorem getAlphabet_states [LinearOrder K] (M : HMM K O n) :
    (∀ (i : Fin n), ∃ l, M.getAlphabetArg (.int (i : ℕ)) = .ok l ∧
      ∀ o, o ∈ l ↔ ∃ k : Fin M.alphabet.length, M.alphabet[k] = o ∧ 0 < M.output i k) ∧
    M.getAlphabetArg (.int (-1)) = .ok M.alphabet ∧
    ∀ z : ℤ, z < -1 ∨ n ≤ z → M.getAlphabetArg (.int z) = .error .indexError := by
  refine ⟨fun i => ?_, by simp [getAlphabetArg], fun z h => ?_⟩
  · have h1 : ((i : ℕ) : ℤ) ≠ -1 := by omega
    refine ⟨_, by simp [getAlphabetArg, h1, check_int, array_int, bind, Except.bind, pure, Except.pure]; rfl, fun o => ?_⟩
    simp only [List.mem_map, List.mem_filter, List.mem_finRange, true_and, decide_eq_true_eq, Fin.getElem_fin]
    exact ⟨fun ⟨k, h1, h2⟩ => ⟨k, h2, h1⟩, fun ⟨k, h1, h2⟩ => ⟨k, h2, h1⟩⟩
  · have h1 : z ≠ -1 := by omega
    have hf : fault n (.int z) = some .indexError := by
      simp only [fault]; rw [if_neg (by omega)]
    simp [getAlphabetArg, h1, check_fault hf, bind, Except.bind]

/-- C93 fails for `HMM.next_state` and `HMM.next_obs`. -/
theorem next_countsFromEnd [LinearOrder K] (M : HMM K O n) (r : K) :
    CountsFromEnd n (fun s => M.nextStateArg s r) (fun i => (pick (M.matrix i) r).map (fun c => .npInt (c : ℕ))) ∧
    CountsFromEnd n (fun s => M.nextObsArg s r) (fun i => M.nextObs i r) := by
  refine ⟨⟨fun i => ?_, fun i => ?_, fun z h => ?_⟩, ⟨fun i => ?_, fun i => ?_, fun z h => ?_⟩⟩
  · simp only [nextStateArg, wrap_nat, bind, Except.bind, pure, Except.pure]
    cases pick (M.matrix i) r <;> rfl
  · simp only [nextStateArg, wrap_neg, bind, Except.bind, pure, Except.pure]
    cases pick (M.matrix i) r <;> rfl
  · simp [nextStateArg, wrap_out h, bind, Except.bind]
  · simp [nextObsArg, wrap_nat, bind, Except.bind]
  · simp [nextObsArg, wrap_neg, bind, Except.bind]
  · simp [nextObsArg, wrap_out h, bind, Except.bind]

/-- C93 fails for `HMM.run(number_steps, current)`. -/
theorem runFrom_negative [LinearOrder K] (M : HMM K O n) (steps : ℕ) (draws : ℕ → K) (i : Fin n) (hi : (i : ℕ) + 1 ≠ n) :
    M.runFrom steps ((i : ℕ) - n) draws = M.runFrom steps (i : ℕ) draws := by
  have h1 : ((i : ℕ) : ℤ) - n ≠ -1 := by omega
  have h2 : ((i : ℕ) : ℤ) ≠ -1 := by omega
  simp [runFrom, h1, h2, wrap_neg, wrap_nat]

/-- C93 fails for the states that `HMM.next_state` returns: `a` and `tau` refuse them. -/
theorem next_refused [LinearOrder K] [DecidableEq O] (M : HMM K O n) (s : ℤ) (r : K) {s' : Arg}
    (h : M.nextStateArg s r = .ok s') (b : Arg) (obs : O) :
    M.aArg s' b = .error .typeError ∧ M.tauArg s' b obs = .error .typeError := by
  simp only [nextStateArg] at h
  obtain ⟨i, -, h⟩ := (Except.bind_eq_ok _ _ _).1 h
  obtain ⟨c, -, h⟩ := (Except.bind_eq_ok _ _ _).1 h
  cases h
  exact ⟨M.a_states.2.1 _ _ _ rfl, (M.tau_states obs).2.1 _ _ _ rfl⟩

end HMM

/-! ### GoHMM -/

namespace GoHMM
variable {n d : ℕ}

/-- C93, `GoHMM.a`. -/
theorem a_states (M : GoHMM n d) : StatesOnly₂ n M.aArg (fun i j => .ok (M.matrix i j)) := by
  refine ⟨fun i j => ?_, fun a b e h => ?_, fun i b e h => ?_⟩
  · simp [aArg, check_int, array_int, bind, Except.bind, pure, Except.pure]
  · simp [aArg, check_fault h, bind, Except.bind]
  · simp [aArg, check_int, check_fault h, bind, Except.bind]

theorem bArg_of_index (M : GoHMM n d) {s : Arg} {i : Fin n} (hs : arrayIndex n s = .ok i) (l : Fin d → ℝ) :
    M.bArg s l = .ok (M.b i l) := by
  have key : ∀ (ks : List (Fin d)) (acc : ℝ),
      ks.foldlM (fun res k => do
        let i ← arrayIndex n s
        return res * M.bn i k (l k)) acc = (.ok (acc * (ks.map (fun k => M.bn i k (l k))).prod) : Py ℝ) := by
    intro ks
    induction ks with
    | nil => intro acc; simp [pure, Except.pure]
    | cons k ks ih =>
      intro acc
      rw [List.foldlM_cons]
      simp only [hs, bind, Except.bind, pure, Except.pure] at ih ⊢
      rw [ih]
      simp [mul_assoc]
  rw [bArg, key, one_mul, b, ← List.prod_ofFn, List.ofFn_eq_map]

/-- C93, `GoHMM.tau`. -/
theorem tau_states (M : GoHMM n d) (obs : Fin d → ℝ) :
    StatesOnly₂ n (fun s1 s2 => M.tauArg s1 s2 obs) (fun i j => .ok (M.tau i j obs)) := by
  refine ⟨fun i j => ?_, fun a b e h => ?_, fun i b e h => ?_⟩
  · simp [tauArg, M.a_states.1 i j, M.bArg_of_index (array_int i), tau, bind, Except.bind, pure, Except.pure]
  · simp [tauArg, M.a_states.2.1 a b e h, bind, Except.bind]
  · simp [tauArg, M.a_states.2.2 i b e h, bind, Except.bind]

/-- C93 fails for `GoHMM.b`: the likelihood in another state. -/
theorem b_negative (M : GoHMM n d) (i : Fin n) (l : Fin d → ℝ) : M.bArg (.int ((i : ℕ) - n)) l = .ok (M.b i l) :=
  M.bArg_of_index (s := .int ((i : ℕ) - n)) (wrap_neg i) l

/-- C93 fails for `GoHMM.mu`. -/
theorem mu_countsFromEnd (M : GoHMM n d) : CountsFromEnd n M.muArg (fun i => .ok (M.mu i)) := by
  refine ⟨fun i => ?_, fun i => ?_, fun z h => ?_⟩
  · simp [muArg, wrap_nat, bind, Except.bind, pure, Except.pure]
  · simp [muArg, wrap_neg, bind, Except.bind, pure, Except.pure]
  · simp [muArg, wrap_out h, bind, Except.bind]

end GoHMM

/-! ### PCTMC -/

namespace PCTMC
variable {K : Type} [Field K] [LinearOrder K]

/-- C93, `PCTMC.getLabel`: answers about the states only. Numpy integers are accepted. -/
theorem getLabel_states (M : PCTMC K) (s : Arg) (x : String) :
    M.getLabelArg s = .ok x ↔ ∃ i, M.Names s i ∧ x = M.labelling.getD i "" := by
  constructor
  · intro h
    simp only [getLabelArg] at h
    obtain ⟨_, hc, h⟩ := (Except.bind_eq_ok _ _ _).1 h
    obtain ⟨i, hi, h⟩ := (Except.bind_eq_ok _ _ _).1 h
    have hs : (∃ z, s = .int z) ∨ ∃ z, s = .npInt z := by
      cases s with
      | int z => exact .inl ⟨z, rfl⟩
      | npInt z => exact .inr ⟨z, rfl⟩
      | float _ => cases hi
      | str _ => cases hi
      | none => cases hi
    obtain ⟨j, hj⟩ := names_of_check hc hs
    rw [hj.list] at hi
    cases hi
    cases h
    exact ⟨i, hj, rfl⟩
  · rintro ⟨i, hi, rfl⟩
    simp [getLabelArg, hi.check, hi.list, bind, Except.bind, pure, Except.pure]

/-- C93, `PCTMC.e`: answers about the states only (a model has at least one state). -/
theorem e_states (M : PCTMC K) (hn : 0 < M.nb) (s : Arg) (x : K) :
    M.eArg s = .ok x ↔ ∃ i : Fin M.nb, M.Names s i ∧ M.e i = .ok x := by
  constructor
  · intro h
    have hr : List.range M.nb ≠ [] := by
      intro hc; rw [List.range_eq_nil] at hc; omega
    have hs : (∃ z, s = .int z) ∨ ∃ z, s = .npInt z := by
      have h' := h
      simp only [eArg] at h'
      obtain ⟨b, _, h'⟩ := (Except.bind_eq_ok _ _ _).1 h'
      split_ifs at h' with hb
      obtain ⟨l, hl, _⟩ := (Except.bind_eq_ok _ _ _).1 h'
      cases s with
      | int z => exact .inl ⟨z, rfl⟩
      | npInt z => exact .inr ⟨z, rfl⟩
      | float q =>
        rw [mapM_error (e := .indexError) hr (fun a => by
          simp [evaluateArg, transitionExpressionArg, arrayIndex, bind, Except.bind])] at hl
        cases hl
      | str q =>
        rw [mapM_error (e := .indexError) hr (fun a => by
          simp [evaluateArg, transitionExpressionArg, arrayIndex, bind, Except.bind])] at hl
        cases hl
      | none =>
        rw [mapM_error (e := .typeError) hr (fun a => by
          simp [evaluateArg, transitionExpressionArg, arrayIndex, bind, Except.bind])] at hl
        cases hl
    have hne : s ≠ .none := by rcases hs with ⟨z, rfl⟩ | ⟨z, rfl⟩ <;> simp
    have hc : M.checkArg s = .ok () := by
      simp only [eArg, isInstantiatedArg, if_neg hne] at h
      obtain ⟨b, hb, _⟩ := (Except.bind_eq_ok _ _ _).1 h
      obtain ⟨_, hc, _⟩ := (Except.bind_eq_ok _ _ _).1 hb
      exact hc
    obtain ⟨i, hi⟩ := names_of_check hc hs
    exact ⟨i, hi, by rw [← eArg_of hi]; exact h⟩
  · rintro ⟨i, hi, hx⟩
    rw [eArg_of hi, hx]

/-- C93 fails for `PCTMC.tau` and `PCTMC.expected_time`: on a string that is not a number they return nothing, since the
ValueError of `int(…)` is taken for the one of a state that is not instantiated. -/
theorem tau_string (M : PCTMC K) (s2 : Arg) (obs : String) :
    M.tauArg (.str none) s2 obs = .ok .nothing ∧ M.expectedTimeArg (.str none) = .ok .nothing := by
  have : M.eArg (.str none) = .error .valueError := by
    simp [eArg, isInstantiatedArg, checkArg, bind, Except.bind]
  simp [tauArg, expectedTimeArg, orNothing, this]

/-- C93 fails for `PCTMC.tau` out of a state without transitions: every destination is accepted. -/
theorem tau_anyDestination (M : PCTMC K) (i : Fin M.nb) (h : M.e i = .ok 0) (s2 : Arg) (obs : String) :
    M.tauArg (.int (i : ℕ)) s2 obs = .ok .inf := by
  have : M.eArg (.int (i : ℕ)) = .ok 0 := by rw [eArg_of (.inl rfl), h]
  simp [tauArg, this]

/-- C93 fails for `transitionExpression` (and the methods that use it without a check): negative numbers count from the end. -/
theorem transitionExpression_negative (M : PCTMC K) (i j : Fin M.nb) :
    M.transitionExpressionArg (.int ((i : ℕ) - M.nb)) (.int ((j : ℕ) - M.nb)) = M.transitionExpression i j := by
  have hi : arrayIndex M.nb (.int ((i : ℕ) - M.nb)) = .ok i := wrap_neg i
  have hj : arrayIndex M.nb (.int ((j : ℕ) - M.nb)) = .ok j := wrap_neg j
  simp [transitionExpressionArg, hi, hj, bind, Except.bind]

end PCTMC

/-! ### A concrete case -/

/-- A chain with two states: "a" goes to "b", "b" stays. -/
def exArgs : MC ℚ String 2 :=
  { matrix := ![![0, 1], ![0, 1]], labelling := ![ "a", "b"], initialState := ![1, 0] }

example : exArgs.tauArg (.int 0) (.int 1) "a" = .ok 1 := by decide +kernel
example : exArgs.tauArg (.int 0) (.int 2) "a" = .error .indexError := by decide +kernel
example : exArgs.aArg (.int (-1)) (.int 1) = .error .indexError := by decide +kernel
/-- `next(-2)` is a step from state 0, the state that it returns is refused, the same number as an `int` is not. -/
example : exArgs.nextArg (-2) (1/2) = .ok (.npInt 1, "a") ∧ exArgs.getLabelArg (.npInt 1) = .error .typeError ∧
    exArgs.getLabelArg (.int 1) = .ok "b" := by decide +kernel
example : exArgs.runFrom 1 (-2) (fun _ => 1/2) = .ok ["a", "b"] := by decide +kernel

/-- A PCTMC with two states and the rates `p` and 0. -/
def exArgsP : PCTMC ℚ :=
  { matrix := [[0, 1], [0, 0]], labelling := ["init", "b"], exprs := [.num 0, .sym "p"], values := [("p", 3)],
    indexes := [[(0, 1)]], names := ["p"], initialState := [1, 0], sync := [] }

example : exArgsP.eArg (.npInt 0) = .ok 3 ∧ exArgsP.eArg (.float (1/2)) = .error .indexError ∧
    exArgsP.eArg (.int (-1)) = .error .indexError ∧ exArgsP.e 1 = .ok 0 := by decide +kernel
example : exArgsP.tauArg (.int 1) (.int 77) "b" = .ok .inf := by decide +kernel

end Jajapy
