import Verif.Props.RenamingMDP
import Verif.Props.RenamingCTMC
import Verif.Props.RenamingGo
import Verif.Props.CTMCSimEx

/-!
Properties C87 and C88: every model has renamed versions, symmetric models stay symmetric, and the cases in which the units matter.
-/

set_option linter.unusedSectionVars false

namespace Jajapy

open Spec BW

/-! ### Every model can be renamed -/

section exist
variable {L L' : Type} [DecidableEq L] [DecidableEq L'] {n : ℕ}

theorem MC.exists_renamed (σ : Equiv.Perm (Fin n)) (f : L → L') (M : MC ℝ L n) : ∃ M', MC.Renamed σ f M M' :=
  ⟨{ matrix := fun s s' => M.matrix (σ s) (σ s'), labelling := fun s => f (M.labelling (σ s)), initialState := fun s => M.initialState (σ s) },
    fun _ _ => rfl, fun _ => rfl, fun _ => rfl⟩

theorem CTMC.exists_renamed (σ : Equiv.Perm (Fin n)) (f : L → L') (a : ℝ) (M : CTMC ℝ L n) : ∃ M', CTMC.Renamed σ f a M M' :=
  ⟨{ matrix := fun s s' => M.matrix (σ s) (σ s') / a, labelling := fun s => f (M.labelling (σ s)), initialState := fun s => M.initialState (σ s) },
    fun _ _ => rfl, fun _ => rfl, fun _ => rfl⟩

theorem GoHMM.exists_renamed {d : ℕ} (σ : Equiv.Perm (Fin n)) (a b : Fin d → ℝ) (M : GoHMM n d) : ∃ M', GoHMM.Renamed σ a b M M' :=
  ⟨{ matrix := fun s s' => M.matrix (σ s) (σ s'), mu := fun s i => a i * M.mu (σ s) i + b i, sigma := fun s i => |a i| * M.sigma (σ s) i,
     initialState := fun s => M.initialState (σ s) }, fun _ _ => rfl, fun _ _ => rfl, fun _ _ => rfl, fun _ => rfl⟩

theorem HMM.exists_renamed (σ : Equiv.Perm (Fin n)) (f : L → L') (hf : Function.Injective f) (M : HMM ℝ L n) (hn : M.alphabet.Nodup) :
    ∃ M', HMM.Renamed σ f M M' := by
  let M' : HMM ℝ L' n :=
    { matrix := fun s s' => M.matrix (σ s) (σ s'), alphabet := M.alphabet.map f,
      output := fun s i => M.output (σ s) (i.cast (by simp)), initialState := fun s => M.initialState (σ s) }
  refine ⟨M', fun _ _ => rfl, List.Perm.refl _, fun s o => ?_, fun _ => rfl⟩
  rw [← M.b_eq_emit hn, ← M'.b_eq_emit (hn.map hf)]
  unfold HMM.b
  by_cases ho : o ∈ M.alphabet
  · have ho' : f o ∈ M'.alphabet := List.mem_map_of_mem ho
    rw [dif_pos ho, dif_pos ho']
    change M.output (σ s) _ = _
    congr 1
    have h1 : (M.alphabet.map f).idxOf (f o) < (M.alphabet.map f).length := List.idxOf_lt_length_of_mem ho'
    have h2 : (M.alphabet.map f)[(M.alphabet.map f).idxOf (f o)]'h1 = f o := List.getElem_idxOf h1
    have h3 : M.alphabet[(M.alphabet.map f).idxOf (f o)]'(by simpa using h1) = o := by rw [List.getElem_map] at h2; exact hf h2
    apply Fin.ext
    change (M.alphabet.map f).idxOf (f o) = M.alphabet.idxOf o
    conv_rhs => rw [← h3]
    exact (hn.idxOf_getElem _ _).symm
  · have ho' : f o ∉ M'.alphabet := fun hc => ho (by simpa [M', hf.eq_iff] using hc)
    rw [dif_neg ho, dif_neg ho']

theorem MDP.exists_renamed (σ : Equiv.Perm (Fin n)) (f : L → L') (hf : Function.Injective f) (M : MDP ℝ L n) :
    ∃ M', MDP.Renamed σ f M M' := by
  let M' : MDP ℝ L' n :=
    { actions := M.actions.map f, matrix := fun s i s' => M.matrix (σ s) (i.cast (by simp)) (σ s'),
      labelling := fun s => f (M.labelling (σ s)), initialState := fun s => M.initialState (σ s) }
  refine ⟨M', List.Perm.refl _, fun s x s' => ?_, fun _ => rfl, fun _ => rfl⟩
  unfold MDP.prob
  have e : M'.actions.length = M.actions.length := by simp [M']
  refine Fintype.sum_equiv (finCongr e) _ _ (fun i => ?_)
  have h1 : M'.actions[i] = f (M.actions[finCongr e i]) := by simp [M']
  rw [h1]
  simp only [hf.eq_iff]
  rfl

end exist

/-! ### Symmetric models -/

section symmetric
variable {L : Type} [DecidableEq L] {n : ℕ} {σ : Equiv.Perm (Fin n)}

theorem renameSet_id {O : Type} (S : TSet O) : renameSet id S = S := by
  unfold renameSet
  simp

/-- C87: two states that play the same role in the initial chain play the same role in the learned one. -/
theorem MC.fit_symmetric (M : MC ℝ L n) (h : MC.Renamed σ id M M) (processes : ℕ) (S : TSet L) (epsilon : ℝ) (maxIt : ℕ) (st : LoopState (MC ℝ L n))
    (hfit : fit (stepMC processes S) epsilon maxIt M = .ok st) : MC.Renamed σ id st.h st.h := by
  have := MC.fit_renamed Function.injective_id h processes S epsilon maxIt
  rw [renameSet_id, hfit] at this
  exact this.1

/-- C87: two states that play the same role in the initial HMM play the same role in the learned one. -/
theorem HMM.fit_symmetric (M : HMM ℝ L n) (hn : M.alphabet.Nodup) (h : HMM.Renamed σ id M M) (processes : ℕ) (S : TSet L) (epsilon : ℝ) (maxIt : ℕ)
    (st : LoopState (HMM ℝ L n)) (hfit : fit (stepHMM processes S) epsilon maxIt M = .ok st) : HMM.Renamed σ id st.h st.h := by
  have := HMM.fit_renamed Function.injective_id h hn processes S epsilon maxIt
  rw [renameSet_id, hfit] at this
  exact this.1

/-- A HMM whose two states are the same. -/
noncomputable def twinHMM : HMM ℝ ℕ 2 where
  matrix := ![![1/2, 1/2], ![1/2, 1/2]]
  alphabet := [7, 8]
  output := ![![1/3, 2/3], ![1/3, 2/3]]
  initialState := ![1/2, 1/2]

theorem twinHMM_symmetric : HMM.Renamed (Equiv.swap 0 1) id twinHMM twinHMM := by
  refine ⟨fun s s' => ?_, by simp, fun s o => ?_, fun s => ?_⟩
  · fin_cases s <;> fin_cases s' <;> simp [twinHMM]
  · have e : ∀ s t, twinHMM.emit s o = twinHMM.emit t o := by
      intro s t
      unfold HMM.emit
      refine Finset.sum_congr rfl (fun i _ => ?_)
      fin_cases s <;> fin_cases t <;> rfl
    exact e _ _
  · fin_cases s <;> simp [twinHMM]

/-- Whatever the data, the two states of the learned model emit alike: the learner cannot tell them apart. -/
theorem twinHMM_fit (processes : ℕ) (S : TSet ℕ) (epsilon : ℝ) (maxIt : ℕ) (st : LoopState (HMM ℝ ℕ 2))
    (hfit : fit (stepHMM processes S) epsilon maxIt twinHMM = .ok st) :
    (∀ o, st.h.emit 0 o = st.h.emit 1 o) ∧ st.h.initialState 0 = st.h.initialState 1 ∧ st.h.matrix 0 0 = st.h.matrix 1 1 ∧
      st.h.matrix 0 1 = st.h.matrix 1 0 := by
  have h := HMM.fit_symmetric twinHMM (by simp [twinHMM]) twinHMM_symmetric processes S epsilon maxIt st hfit
  refine ⟨fun o => ?_, ?_, ?_, ?_⟩
  · simpa using h.emit 0 o
  · simpa using h.initial 0
  · simpa using h.matrix 0 0
  · simpa using h.matrix 0 1

end symmetric

/-! ### The hypotheses are met -/

/-- A chain of three states with other numbers and names, learned from three traces. -/
example (processes : ℕ) (epsilon : ℝ) (maxIt : ℕ) (S : TSet ℕ) : ∃ M' : MC ℝ ℕ 3, M'.labelling = ![11, 12, 10] ∧
    SameOutcome (fun st st' => MC.Renamed (finRotate 3) (· + 10) st.h st'.h ∧ st'.counter = st.counter ∧ st'.ll = st.ll)
      (fit (stepMC processes S) epsilon maxIt (exMC ℝ)) (fit (stepMC processes (renameSet (· + 10) S)) epsilon maxIt M') := by
  obtain ⟨M', h⟩ := MC.exists_renamed (finRotate 3) (· + 10) (exMC ℝ)
  refine ⟨M', ?_, MC.fit_renamed (add_left_injective 10) h processes S epsilon maxIt⟩
  funext s
  rw [h.labelling]
  fin_cases s <;> rfl

/-- A timed training set: one sequence, seen four times, in the given unit. -/
noncomputable def exUnits (unit : ℝ) : TSet (Sym ℕ) :=
  { sequences := [[.obs 5, .time (unit * 3), .obs 6]], times := [4], floatTimes := false, type := some 4 }

/-- A CTMC in seconds and in milliseconds. -/
example (processes : ℕ) (epsilon : ℝ) (maxIt : ℕ) : ∃ M' : CTMC ℝ ℕ 2, M'.matrix 0 1 = 2 / 1000 ∧
    SameOutcome (fun st st' => CTMC.Renamed (Equiv.refl _) id 1000 st.h st'.h ∧ st'.counter = st.counter ∧
        st'.ll = st.ll.map (· - CTMC.fullCTMC.waitCount (exUnits 1) * Real.log 1000))
      (fit (stepTimed processes (fun _ _ => false) (exUnits 1)) epsilon maxIt CTMC.fullCTMC)
      (fit (stepTimed processes (fun _ _ => false) (renameSet (renameSym id 1000) (exUnits 1))) epsilon maxIt M') := by
  obtain ⟨M', h⟩ := CTMC.exists_renamed (Equiv.refl _) id 1000 CTMC.fullCTMC
  refine ⟨M', by rw [h.matrix]; simp [CTMC.fullCTMC], ?_⟩
  refine CTMC.fit_units Function.injective_id (by norm_num) h CTMC.fullCTMC_valid.1 processes _ _ (fun _ _ => rfl) _ ?_ ?_ rfl (by simp [exUnits]) epsilon maxIt
  · intro w hw
    rw [exUnits, List.mem_singleton] at hw
    subst hw
    exact ⟨isTimed_timed [(5, 1 * 3)] 6, by simp⟩
  · intro w hw
    rw [exUnits, List.mem_singleton] at hw
    subst hw
    simp [timedSteps, observations, waits]

/-- A Gaussian model whose states are all possible. -/
noncomputable def fullGo : GoHMM 2 1 where
  matrix := ![![1/2, 1/2], ![1/4, 3/4]]
  mu := ![![0], ![5]]
  sigma := ![![1], ![2]]
  initialState := ![1/2, 1/2]

theorem fullGo_full : fullGo.Full := by
  refine ⟨⟨fun s => ?_, ?_, fun s s' => ?_, fun s => ?_, fun s i => ?_⟩, fun s => ?_, fun s s' => ?_, fun s i => ?_⟩
  · fin_cases s <;> simp [fullGo]
  · simp [fullGo, Fin.sum_univ_two]; norm_num
  · fin_cases s <;> fin_cases s' <;> simp [fullGo] <;> norm_num
  · fin_cases s <;> simp [fullGo, Fin.sum_univ_two] <;> norm_num
  · fin_cases s <;> fin_cases i <;> simp [fullGo]
  · fin_cases s <;> simp [fullGo]
  · fin_cases s <;> fin_cases s' <;> simp [fullGo]
  · fin_cases s <;> fin_cases i <;> simp [fullGo]

theorem exSetGo_varied : GoHMM.Varied exSetGo := by
  intro i
  exact ⟨[fun _ => 0, fun _ => 2], by simp [exSetGo], [fun _ => 3], by simp [exSetGo], fun _ => 0, by simp, fun _ => 3, by simp, by norm_num⟩

/-- Degrees Celsius and degrees Fahrenheit. -/
example (processes : ℕ) (epsilon : ℝ) (maxIt : ℕ) : ∃ M' : GoHMM 2 1, M'.mu 1 0 = 41 ∧
    SameOutcome (fun st st' => GoHMM.Renamed (Equiv.refl _) (fun _ => 9/5) (fun _ => 32) st.h st'.h ∧ st'.counter = st.counter ∧
        st'.ll = st.ll.map (· - GoHMM.obsCount exSetGo * ∑ _i : Fin 1, Real.log |(9/5 : ℝ)|))
      (fit (stepGoHMM processes exSetGo) epsilon maxIt fullGo)
      (fit (stepGoHMM processes (renameSet (GoHMM.rescale (fun _ => 9/5) (fun _ => 32)) exSetGo)) epsilon maxIt M') := by
  obtain ⟨M', h⟩ := GoHMM.exists_renamed (Equiv.refl _) (fun _ => 9/5) (fun _ => 32) fullGo
  refine ⟨M', by rw [h.mu]; simp [fullGo]; norm_num, ?_⟩
  exact GoHMM.fit_units_partial (fun _ => by norm_num) h fullGo_full processes exSetGo rfl (by simp [exSetGo]) (by simp [exSetGo]) exSetGo_varied epsilon
    maxIt

/-! ### The units matter -/

namespace GoHMM
variable {n d : ℕ} {σ : Equiv.Perm (Fin n)} {a b : Fin d → ℝ}

/-- C88, GoHMM, one iteration: what happens to the standard deviations. Those of a state that is not visited are multiplied by the square root of the
factor. -/
theorem step_sigma_units (ha : ∀ i, a i ≠ 0) (processes : ℕ) (S : TSet (Fin d → ℝ)) (M M' : GoHMM n d) (h : Renamed σ a b M M') (hs : ∀ s i, 0 < M.sigma s i)
    (hm : ∀ s, ∑ s', M.matrix s s' = 1) (hne : ∀ w ∈ S.sequences, w ≠ []) :
    SameOutcome (fun x y => ∀ s i, y.1.sigma s i = (if M.visits S (σ s) = 0 then Real.sqrt |a i| else |a i|) * x.1.sigma (σ s) i)
      (stepGoHMM processes S M) (stepGoHMM processes (renameSet (rescale a b) S) M') := by
  have key := work_renamed ha processes S h (Or.inl hs)
  unfold stepGoHMM
  cases hw : workGoHMM processes S M with
  | error e =>
    rw [hw] at key
    cases hw' : workGoHMM processes (renameSet (rescale a b) S) M' with
    | error e' => rw [hw'] at key; exact key
    | ok y => rw [hw'] at key; exact absurd key (by simp [SameOutcome])
  | ok l =>
    rw [hw] at key
    cases hw' : workGoHMM processes (renameSet (rescale a b) S) M' with
    | error e' => rw [hw'] at key; exact absurd key (by simp [SameOutcome])
    | ok l' =>
      rw [hw'] at key
      have hl : List.Forall₂ (WorkSame σ a b) l l' := key
      intro s i
      have e := (workGo_ok processes S M (fun s i => (hs s i).le) l hw).1
      have hden : (l.map (fun w => w.den (σ s))).sum = M.visits S (σ s) := by
        rw [M.visits_eq S hm hne, e, List.map_map]
        rfl
      simp only [updateGoHMM]
      rw [sum_same' hl (g := fun w => w.den (σ s)) (fun a b hab => hab.den s),
        sum_same (a i ^ 2) hl (g := fun w => w.numVa (σ s) i) (fun a b hab => hab.numVa s i), h.sigma, hden]
      by_cases h0 : M.visits S (σ s) = 0
      · rw [if_pos h0, if_pos h0, if_pos h0, Real.sqrt_mul (abs_nonneg _)]
      · rw [if_neg h0, if_neg h0, if_neg h0, mul_div_assoc, Real.sqrt_mul (sq_nonneg _), Real.sqrt_sq_eq_abs]

/-- C88 fails for a Gaussian state that the data do not visit: with the data in another unit (four times smaller) its standard deviation should be
four times as large after the iteration, but it is twice as large. -/
theorem units_matter : ∃ M' : GoHMM 2 1, Renamed (Equiv.refl _) (fun _ => 4) (fun _ => 0) exGoUnreached M' ∧
    ∃ x y, stepGoHMM 4 exSetGo exGoUnreached = .ok x ∧ stepGoHMM 4 (renameSet (rescale (fun _ => 4) (fun _ => 0)) exSetGo) M' = .ok y ∧
    x.1.sigma 1 0 = 1/2 ∧ y.1.sigma 1 0 = 1 ∧ ¬ Renamed (Equiv.refl _) (fun _ => 4) (fun _ => 0) x.1 y.1 := by
  obtain ⟨M', h⟩ := exists_renamed (Equiv.refl _) (fun _ => 4) (fun _ => 0) exGoUnreached
  refine ⟨M', h, ?_⟩
  have hne : ∀ w ∈ exSetGo.sequences, w ≠ [] := by simp [exSetGo]
  obtain ⟨N, ⟨ll, hx⟩, hv, -, hN⟩ := unvisited_changed
  have key := step_sigma_units (a := fun _ => 4) (b := fun _ => 0) (fun _ => by norm_num) 4 exSetGo exGoUnreached M' h exGoUnreached_valid.2
    exGoUnreached_valid.1.2.2.2.1 hne
  rw [hx] at key
  cases hy : stepGoHMM 4 (renameSet (rescale (fun _ => 4) (fun _ => 0)) exSetGo) M' with
  | error e => rw [hy] at key; exact absurd key (by simp [SameOutcome])
  | ok y =>
    rw [hy] at key
    have k1 := key 1 0
    have h4 : Real.sqrt |(4:ℝ)| = 2 := by rw [abs_of_pos (by norm_num), show (4:ℝ) = 2 ^ 2 by norm_num, Real.sqrt_sq (by norm_num)]
    change y.1.sigma 1 0 = (if exGoUnreached.visits exSetGo 1 = 0 then Real.sqrt |4| else |4|) * N.sigma 1 0 at k1
    rw [if_pos (exGoUnreached.visits_unvisited exSetGo exGoUnreached_valid.1 _ hv), h4] at k1
    have hy1 : y.1.sigma 1 0 = 1 := by
      rw [k1]
      rw [hN]
      norm_num
    refine ⟨(N, ll), y, hx, rfl, hN, hy1, fun hr => ?_⟩
    have := hr.sigma 1 0
    rw [hy1] at this
    change (1:ℝ) = |4| * N.sigma 1 0 at this
    rw [hN, abs_of_pos (by norm_num)] at this
    norm_num at this

/-- C88 fails for a standard deviation 0: the weight of a trace is the same number in every unit, although densities are per unit. -/
theorem units_matter_zero : ∃ M M' : GoHMM 1 1, M.Valid ∧ Renamed (Equiv.refl _) (fun _ => 4) (fun _ => 0) M M' ∧
    M.iface.seqProb [fun _ => 3] = .ok 1 ∧ M'.iface.seqProb [rescale (fun _ => 4) (fun _ => 0) (fun _ => 3)] = .ok 1 := by
  refine ⟨{ matrix := fun _ _ => 1, mu := fun _ _ => 3, sigma := fun _ _ => 0, initialState := fun _ => 1 },
    { matrix := fun _ _ => 1, mu := fun _ _ => 12, sigma := fun _ _ => 0, initialState := fun _ => 1 }, ⟨by simp, by simp, by simp, by simp, by simp⟩,
    ⟨fun _ _ => rfl, fun _ _ => by norm_num, fun _ _ => by simp, fun _ => rfl⟩, ?_, ?_⟩
  · simp [Iface.seqProb, Iface.seqLoop, iface, b, bn]
  · have : (4 * 3 : ℝ) = 12 := by norm_num
    simp [Iface.seqProb, Iface.seqLoop, iface, b, bn, rescale, this]

end GoHMM

namespace CTMC

/-- C88 fails for untimed traces: the learned exit rate of a visited state is the number 1 in every unit. -/
theorem units_matter_untimed : ∃ M M' : CTMC ℝ ℕ 1, M.Valid ∧ Renamed (Equiv.refl _) id 4 M M' ∧
    ∃ x y, stepUntimed 4 (fun _ _ => false) { sequences := [[0, 0]], times := [1], floatTimes := false, type := some 0 } M = .ok x ∧
      stepUntimed 4 (fun _ _ => false) { sequences := [[0, 0]], times := [1], floatTimes := false, type := some 0 } M' = .ok y ∧
      x.1.matrix 0 0 = 1 ∧ y.1.matrix 0 0 = 1 ∧ ¬ Renamed (Equiv.refl _) id 4 x.1 y.1 := by
  have key : ∀ r : ℝ, r ≠ 0 → ∃ x, stepUntimed 4 (fun _ _ => false) { sequences := [[0, 0]], times := [1], floatTimes := false, type := some 0 }
      { matrix := fun _ _ => r, labelling := fun _ => 0, initialState := fun _ => 1 : CTMC ℝ ℕ 1 } = .ok x ∧ x.1.matrix 0 0 = 1 := by
    intro r hr
    have ht : ({ matrix := fun _ _ => r, labelling := fun _ => 0, initialState := fun _ => 1 : CTMC ℝ ℕ 1 } : CTMC ℝ ℕ 1).tau 0 0 0 = 1 := by
      simp [tau, l, e, hr]
    refine ⟨_, by simp [stepUntimed, stepOf, processWorkUntimed, alphas, betas, lastSum, collect, BW.fwd, BW.bwd, bind, Except.bind, pure, Except.pure, ht]; rfl, ?_⟩
    simp [updateCTMC, visits, uses, ht, BW.fwd, BW.bwd, lastSum]
  obtain ⟨x, hx, hx1⟩ := key 8 (by norm_num)
  obtain ⟨y, hy, hy1⟩ := key 2 (by norm_num)
  refine ⟨{ matrix := fun _ _ => 8, labelling := fun _ => 0, initialState := fun _ => 1 },
    { matrix := fun _ _ => 2, labelling := fun _ => 0, initialState := fun _ => 1 }, ⟨by simp, by simp⟩, ⟨fun _ _ => by norm_num, fun _ => rfl, fun _ => rfl⟩, x, y, hx, hy, hx1, hy1, fun hr => ?_⟩
  have := hr.matrix 0 0
  rw [hy1] at this
  change (1:ℝ) = x.1.matrix 0 0 / 4 at this
  rw [hx1] at this
  norm_num at this

end CTMC
end Jajapy
