import Verif.Props.CTMCSim

set_option linter.unusedSectionVars false

/-!
C82: the law of the timed simulation.
-/

namespace Jajapy

open MeasureTheory ProbabilityTheory Spec Finset Tools BW

namespace CTMC
variable {L : Type} {n : ℕ} [DecidableEq L]

theorem timedTrace_eq {k : ℕ} (os : Fin k → L) (ts : Fin k → ℝ) (last : L) :
    timedTrace os ts last = timed (List.ofFn (fun i => (os i, ts i))) last := by
  induction k with
  | zero => simp [timedTrace, timed]
  | succ k ih => simp only [timedTrace, List.ofFn_succ, timed, ih]

/-- The draws with which the simulation from `s` has the given observations, and its times in the given sets. -/
def timedSet (M : CTMC ℝ L n) {k : ℕ} (os : Fin k → L) (A : Fin k → Set ℝ) (last : L) (s : Fin n) : Set (ℕ → Fin n → ℝ) :=
  {d | ∃ ts, (∀ i, ts i ∈ A i) ∧ M.runTimedLoop k d s = .ok (timedTrace os ts last)}

theorem timedSet_zero (M : CTMC ℝ L n) (os : Fin 0 → L) (A : Fin 0 → Set ℝ) (last : L) (s : Fin n) :
    M.timedSet os A last s = {_d | M.labelling s = last} := by
  ext d
  simp only [timedSet, Set.mem_ofPred_eq, runTimedLoop, timedTrace]
  constructor
  · rintro ⟨_, _, h⟩
    injection h with h
    injection h with h
    injection h
  · intro h
    exact ⟨fun i => i.elim0, fun i => i.elim0, by rw [h]⟩

theorem timedSet_succ (M : CTMC ℝ L n) {k : ℕ} (os : Fin (k+1) → L) (A : Fin (k+1) → Set ℝ) (last : L) (s : Fin n) :
    M.timedSet os A last s = {d | M.labelling s = os 0 ∧ ∃ i, d 0 ∈ M.stepSet s i (A 0) ∧
      (fun k => d (k+1)) ∈ M.timedSet (fun i => os i.succ) (fun i => A i.succ) last i} := by
  ext d
  simp only [timedSet, Set.mem_ofPred_eq, timedTrace, runTimedLoop]
  constructor
  · rintro ⟨ts, hts, h⟩
    rw [Except.bind_eq_ok] at h
    obtain ⟨⟨l, c, t⟩, h1, h2⟩ := h
    rw [Except.bind_eq_ok] at h2
    obtain ⟨rest, h2, h3⟩ := h2
    injection h3 with h3
    injection h3 with h3 h4
    injection h4 with h4 h5
    injection h3 with h3
    injection h4 with h4
    obtain ⟨h6, h7⟩ := (M.next_iff s _ _ _ _).1 h1
    refine ⟨h6.trans h3, c, ⟨?_, h7.2⟩, fun i => ts i.succ, fun i => hts i.succ, by rw [h2, h5]⟩
    rw [show ringTimes (M.matrix s) (d 0) c = t from h7.1]
    have h4' : t = ts 0 := h4
    rw [h4']
    exact hts 0
  · rintro ⟨h, i, h1, ts, hts, h2⟩
    refine ⟨Fin.cons (ringTimes (M.matrix s) (d 0) i) ts, ?_, ?_⟩
    · intro j
      refine Fin.cases ?_ (fun j => ?_) j
      · exact h1.1
      · exact hts j
    · rw [(M.next_iff s _ (os 0) i (ringTimes (M.matrix s) (d 0) i)).2 ⟨h, rfl, h1.2⟩]
      simp only [bind, Except.bind, pure, Except.pure, h2, Fin.cons_zero, Fin.cons_succ]

theorem measurable_timedSet (M : CTMC ℝ L n) {k : ℕ} (os : Fin k → L) (A : Fin k → Set ℝ) (hA : ∀ i, MeasurableSet (A i)) (last : L)
    (s : Fin n) : MeasurableSet (M.timedSet os A last s) := by
  induction k generalizing s with
  | zero => rw [timedSet_zero]; exact MeasurableSet.const _
  | succ k ih =>
    rw [timedSet_succ]
    refine MeasurableSet.inter (MeasurableSet.const _) ?_
    exact measurable_clocks_bind (fun i => M.stepSet s i (A 0)) (fun i => M.measurable_stepSet s i (hA 0))
      _ (fun i => ih _ _ (fun j => hA j.succ) i)

/-- The density of the trace from a state. -/
noncomputable def sufDensity (M : CTMC ℝ L n) {k : ℕ} (os : Fin k → L) (last : L) (s : Fin n) (ts : Fin k → ℝ) : ℝ :=
  beta0 M.rateStep (fun s' => if last = M.labelling s' then 1 else 0) (List.ofFn (fun i => (os i, ts i))) s

theorem sufDensity_nonneg (M : CTMC ℝ L n) (h0 : ∀ s s', 0 ≤ M.matrix s s') {k : ℕ} (os : Fin k → L) (last : L) (s : Fin n)
    (ts : Fin k → ℝ) : 0 ≤ M.sufDensity os last s ts :=
  beta0_nonneg _ _ (M.rateStep_nonneg h0) (fun s => by split_ifs <;> norm_num) _ _

theorem sufDensity_cons (M : CTMC ℝ L n) {k : ℕ} (os : Fin (k+1) → L) (last : L) (s : Fin n) (ts : Fin (k+1) → ℝ) :
    M.sufDensity os last s ts
      = ∑ i, M.rateStep s i (os 0, ts 0) * M.sufDensity (fun i => os i.succ) last i (fun i => ts i.succ) := by
  unfold sufDensity
  rw [List.ofFn_succ, beta0_cons]
  unfold bwd
  exact Finset.sum_congr rfl (fun i _ => mul_comm _ _)

theorem measurable_rateStep (M : CTMC ℝ L n) (s i : Fin n) (o : L) : Measurable (fun t => M.rateStep s i (o, t)) := by
  unfold rateStep
  simp only
  split_ifs
  · fun_prop
  · exact measurable_const

theorem measurable_sufDensity (M : CTMC ℝ L n) {k : ℕ} (os : Fin k → L) (last : L) (s : Fin n) : Measurable (M.sufDensity os last s) := by
  induction k generalizing s with
  | zero =>
    have : M.sufDensity os last s = fun _ => if last = M.labelling s then 1 else 0 := by
      funext ts
      simp [sufDensity]
    rw [this]
    exact measurable_const
  | succ k ih =>
    have : M.sufDensity os last s = fun ts => ∑ i, M.rateStep s i (os 0, ts 0) *
        M.sufDensity (fun i => os i.succ) last i (fun i => ts i.succ) := by
      funext ts
      exact M.sufDensity_cons os last s ts
    rw [this]
    refine Finset.measurable_sum _ (fun i _ => Measurable.mul ?_ ?_)
    · exact (M.measurable_rateStep s i (os 0)).comp (measurable_pi_apply 0)
    · exact (ih (fun i => os i.succ) i).comp (measurable_pi_iff.2 (fun j => measurable_pi_apply j.succ))

theorem integral_cons {k : ℕ} (A : Fin (k+1) → Set ℝ) (F : (Fin (k+1) → ℝ) → ENNReal) :
    ∫⁻ ts in Set.pi Set.univ A, F ts
      = ∫⁻ p, F (Fin.cons p.1 p.2) ∂((volume.restrict (A 0)).prod (volume.restrict (Set.pi Set.univ (fun i => A i.succ)))) := by
  have hp := (volume_preserving_piFinSuccAbove (fun _ : Fin (k+1) => ℝ) 0).symm
  rw [← hp.map_eq, MeasurableEquiv.restrict_map, lintegral_map_equiv, Measure.prod_restrict]
  have e : ((MeasurableEquiv.piFinSuccAbove (fun _ : Fin (k+1) => ℝ) 0).symm ⁻¹' Set.pi Set.univ A)
      = A 0 ×ˢ Set.pi Set.univ (fun i => A i.succ) := by
    ext p
    simp only [Set.mem_preimage, Set.mem_pi, Set.mem_univ, true_implies, Set.mem_prod]
    constructor
    · intro h
      exact ⟨h 0, fun i => h i.succ⟩
    · rintro ⟨h1, h2⟩ i
      exact Fin.cases h1 h2 i
  rw [e, Measure.volume_eq_prod]
  refine lintegral_congr (fun p => ?_)
  congr 1
  funext i
  refine Fin.cases ?_ (fun i => ?_) i
  · rfl
  · rfl

theorem timedLoop_law (M : CTMC ℝ L n) (h0 : ∀ s s', 0 ≤ M.matrix s s') {k : ℕ} (os : Fin k → L) (A : Fin k → Set ℝ)
    (hA : ∀ i, MeasurableSet (A i)) (hA0 : ∀ i, A i ⊆ Set.Ici 0) (h : (∀ i, A i ⊆ Set.Iio 1024) ∨ ∀ s s', 0 < M.matrix s s')
    (last : L) (s : Fin n) :
    clocksLaw n (M.timedSet os A last s) = ∫⁻ ts in Set.pi Set.univ A, ENNReal.ofReal (M.sufDensity os last s ts) := by
  induction k generalizing s with
  | zero =>
    rw [timedSet_zero]
    have e : ∀ ts : Fin 0 → ℝ, M.sufDensity os last s ts = if M.labelling s = last then 1 else 0 := by
      intro ts
      simp [sufDensity, eq_comm]
    simp only [e]
    by_cases hl : M.labelling s = last
    · simp [hl, volume_pi]
    · simp [hl]
  | succ k ih =>
    rw [timedSet_succ, integral_cons]
    by_cases hl : M.labelling s = os 0
    · simp only [hl, true_and]
      rw [clocks_bind (fun i => M.stepSet s i (A 0)) (fun i => M.measurable_stepSet s i (hA 0)) (M.stepSet_disjoint s (A 0))
        (fun i => M.timedSet (fun i => os i.succ) (fun i => A i.succ) last i)
        (fun i => M.measurable_timedSet _ _ (fun j => hA j.succ) last i)]
      have e : ∀ p : ℝ × (Fin k → ℝ), ENNReal.ofReal (M.sufDensity os last s (Fin.cons p.1 p.2))
          = ∑ i, ENNReal.ofReal (M.rateStep s i (os 0, p.1)) * ENNReal.ofReal (M.sufDensity (fun i => os i.succ) last i p.2) := by
        intro p
        rw [sufDensity_cons, ENNReal.ofReal_sum_of_nonneg]
        · refine Finset.sum_congr rfl (fun i _ => ?_)
          rw [ENNReal.ofReal_mul (M.rateStep_nonneg h0 _ _ _)]
          rfl
        · exact fun i _ => mul_nonneg (M.rateStep_nonneg h0 _ _ _) (M.sufDensity_nonneg h0 _ _ _ _)
      simp only [e]
      rw [lintegral_finsetSum]
      · refine Finset.sum_congr rfl (fun i _ => ?_)
        rw [lintegral_prod_mul (M.measurable_rateStep s i (os 0)).ennreal_ofReal.aemeasurable
          (M.measurable_sufDensity _ last i).ennreal_ofReal.aemeasurable]
        rw [ih (fun i => os i.succ) (fun i => A i.succ) (fun j => hA j.succ) (fun j => hA0 j.succ) (h.imp (fun h j => h j.succ) id) i]
        congr 1
        rw [M.stepLaw_stepSet s i (hA 0), race_law _ (h0 s) i _ (hA 0) (h.imp (fun h => h 0) (fun h => h s)),
          Set.inter_eq_left.2 (hA0 0)]
        refine lintegral_congr (fun t => ?_)
        unfold rateStep
        rw [if_pos hl]
      · intro i _
        exact ((M.measurable_rateStep s i (os 0)).comp measurable_fst).ennreal_ofReal.mul
          ((M.measurable_sufDensity _ last i).comp measurable_snd).ennreal_ofReal
    · have e : ∀ p : ℝ × (Fin k → ℝ), M.sufDensity os last s (Fin.cons p.1 p.2) = 0 := by
        intro p
        rw [sufDensity_cons]
        refine Finset.sum_eq_zero (fun i _ => ?_)
        unfold rateStep
        simp only
        rw [if_neg hl, zero_mul]
      simp [hl, e]

/-- C82: the probability that `run(number_steps, timed=True)` returns a trace with the given observations and with its times in
the given sets of times smaller than 1024 (or in any sets, if all the rates are positive) is the integral over these sets of the
density whose logarithm `logLikelihood` reports. -/
theorem runTimed_law_partial (M : CTMC ℝ L n) (hM : M.Valid) (hi : ∑ s, M.initialState s = 1) {k : ℕ} (os : Fin k → L) (last : L)
    (A : Fin k → Set ℝ) (hA : ∀ i, MeasurableSet (A i)) (hA0 : ∀ i, A i ⊆ Set.Ici 0)
    (h : (∀ i, A i ⊆ Set.Iio 1024) ∨ ∀ s s', 0 < M.matrix s s') :
    simLaw n {p | ∃ ts, (∀ i, ts i ∈ A i) ∧ M.runTimed k p.1 p.2 = .ok (timedTrace os ts last)}
      = ∫⁻ ts in Set.pi Set.univ A, ENNReal.ofReal (M.density (timedTrace os ts last)) := by
  have e : {p : ℝ × (ℕ → Fin n → ℝ) | ∃ ts, (∀ i, ts i ∈ A i) ∧ M.runTimed k p.1 p.2 = .ok (timedTrace os ts last)}
      = {p | ∃ i, pick M.initialState p.1 = .ok i ∧ p.2 ∈ M.timedSet os A last i} := by
    ext p
    simp only [Set.mem_ofPred_eq, runTimed, timedSet]
    constructor
    · rintro ⟨ts, hts, h⟩
      rw [Except.bind_eq_ok] at h
      obtain ⟨i, h1, h2⟩ := h
      exact ⟨i, h1, ts, hts, h2⟩
    · rintro ⟨i, h1, ts, hts, h2⟩
      exact ⟨ts, hts, by rw [Except.bind_eq_ok]; exact ⟨i, h1, h2⟩⟩
  have ed : ∀ ts, M.density (timedTrace os ts last) = ∑ s, M.initialState s * M.sufDensity os last s ts := by
    intro ts
    rw [timedTrace_eq]
    unfold density
    rw [totalWeight_eq, timedSteps_timed]
    have hm : M.lastMask (timed (List.ofFn (fun i => (os i, ts i))) last) = fun s' => if last = M.labelling s' then 1 else 0 := by
      funext s'
      unfold lastMask
      rw [observations_timed]
      simp
    rw [hm]
    rfl
  rw [e, sim_bind _ hM.1 hi.le _ (fun i => M.measurable_timedSet os A hA last i)]
  have e3 : ∀ ts, ENNReal.ofReal (M.density (timedTrace os ts last))
      = ∑ s, ENNReal.ofReal (M.initialState s) * ENNReal.ofReal (M.sufDensity os last s ts) := by
    intro ts
    rw [ed, ENNReal.ofReal_sum_of_nonneg]
    · exact Finset.sum_congr rfl (fun s _ => ENNReal.ofReal_mul (hM.1 s))
    · exact fun s _ => mul_nonneg (hM.1 s) (M.sufDensity_nonneg hM.2 _ _ _ _)
  simp only [e3]
  rw [lintegral_finsetSum]
  · refine Finset.sum_congr rfl (fun s _ => ?_)
    rw [lintegral_const_mul _ (M.measurable_sufDensity os last s).ennreal_ofReal, M.timedLoop_law hM.2 os A hA hA0 h last s]
  · exact fun s _ => (M.measurable_sufDensity os last s).ennreal_ofReal.const_mul _

end CTMC
end Jajapy
