import Verif.Props.CTMCSimTimed

/-! C82: a CTMC with a transition of rate 0, a CTMC without. -/

namespace Jajapy

open MeasureTheory Spec Finset

namespace CTMC

/-- Two states; the first one has no loop. -/
def simCTMC : CTMC ℝ ℕ 2 where
  matrix := ![![0, 2], ![1, 3]]
  labelling := ![5, 6]
  initialState := ![1, 0]

/-- Two states, all the rates are positive. -/
noncomputable def fullCTMC : CTMC ℝ ℕ 2 where
  matrix := ![![1, 2], ![1, 3]]
  labelling := ![5, 6]
  initialState := ![1/2, 1/2]

theorem simCTMC_valid : simCTMC.Valid ∧ (∑ s, simCTMC.initialState s = 1) ∧ ∀ s, 2 ≤ simCTMC.e s := by
  refine ⟨⟨fun s => ?_, fun s s' => ?_⟩, ?_, fun s => ?_⟩
  · fin_cases s <;> simp [simCTMC]
  · fin_cases s <;> fin_cases s' <;> simp [simCTMC]
  · simp [simCTMC, Fin.sum_univ_succ]
  · fin_cases s <;> simp [CTMC.e, simCTMC, Fin.sum_univ_succ]; norm_num

theorem fullCTMC_valid : fullCTMC.Valid ∧ (∑ s, fullCTMC.initialState s = 1) ∧ ∀ s s', 0 < fullCTMC.matrix s s' := by
  refine ⟨⟨fun s => ?_, fun s s' => ?_⟩, ?_, fun s s' => ?_⟩
  · fin_cases s <;> simp [fullCTMC]
  · fin_cases s <;> fin_cases s' <;> simp [fullCTMC]
  · simp [fullCTMC, Fin.sum_univ_succ]; norm_num
  · fin_cases s <;> fin_cases s' <;> simp [fullCTMC]

/-- Non-vacuity of `next_interval_partial`: from the second state, the loop is taken before time 10 with probability 3/4 * (1 -
exp(-40)). -/
example : stepLaw 2 {d | ∃ t ∈ Set.Ico 0 10, simCTMC.next 1 d = .ok (6, 1, t)} = ENNReal.ofReal (3/4 * (1 - Real.exp (-40))) := by
  have he : simCTMC.e 1 = 4 := by simp [CTMC.e, simCTMC, Fin.sum_univ_succ]; norm_num
  have := simCTMC.next_interval_partial simCTMC_valid.1.2 1 1 0 10 le_rfl (by norm_num) (by norm_num) (by rw [he]; norm_num)
  rw [he] at this
  have hm : simCTMC.matrix 1 1 = 3 := by simp [simCTMC]
  rw [hm] at this
  refine this.trans ?_
  norm_num

/-- Non-vacuity of `next_rate_zero`: the missing loop of the first state is taken with probability exp(-2048). -/
example : stepLaw 2 {d | ∃ t, simCTMC.next 0 d = .ok (5, 0, t)} = ENNReal.ofReal (Real.exp (-2048)) := by
  have he : simCTMC.e 0 = 2 := by simp [CTMC.e, simCTMC, Fin.sum_univ_succ]
  have := (simCTMC.next_rate_zero simCTMC_valid.1.2 0 0 (by simp [simCTMC]) (fun j hj => absurd hj (by simp))).1
  rw [he] at this
  refine this.trans ?_
  norm_num

/-- Non-vacuity of `time_mean`. -/
example : ∫⁻ d, ENNReal.ofReal (fullCTMC.timeSpent 0 d) ∂(stepLaw 2) = ENNReal.ofReal (1/3) := by
  have he : fullCTMC.e 0 = 3 := by simp [CTMC.e, fullCTMC, Fin.sum_univ_succ]; norm_num
  rw [fullCTMC.time_mean fullCTMC_valid.1.2 0 (by rw [he]; norm_num)]
  have hl : fullCTMC.lateProb 0 = 0 := by
    unfold lateProb
    rw [if_neg]
    rintro ⟨j, hj⟩
    exact (fullCTMC_valid.2.2 0 j).ne' hj
  unfold expectedTime
  rw [hl, he, sub_zero, mul_one]

/-- Non-vacuity of `run_law`, `run_law_partial` and `run_law_close_partial`. -/
example : ∃ p, fullCTMC.iface.seqProb [5, 6, 6] = .ok p ∧ simLaw 2 {p | fullCTMC.run 2 p.1 p.2 = .ok [5, 6, 6]} = ENNReal.ofReal p :=
  fullCTMC.run_law_partial fullCTMC_valid.1 fullCTMC_valid.2.1 fullCTMC_valid.2.2 2 _ rfl

example : ∃ p, simCTMC.iface.seqProb [5, 6, 6] = .ok p ∧
    |(simLaw 2 {p | simCTMC.run 2 p.1 p.2 = .ok [5, 6, 6]}).toReal - p| ≤ (2:ℕ) * Real.exp (-1024 * 2) :=
  simCTMC.run_law_close_partial simCTMC_valid.1 simCTMC_valid.2.1 2 (by norm_num) simCTMC_valid.2.2 2 _ rfl

/-- C82 fails: a trace of likelihood 0 is returned with a positive probability. -/
theorem run_impossible : simCTMC.iface.seqProb [5, 5] = .ok 0 ∧ 0 < simLaw 2 {p | simCTMC.run 1 p.1 p.2 = .ok [5, 5]} := by
  constructor
  · rw [simCTMC.seqProb_embedded _ (by simp), listProb_eq_sufProb]
    congr 1
    simp only [sufProb, Fin.sum_univ_two]
    simp [simCTMC]
  · rw [simCTMC.run_law simCTMC_valid.1 simCTMC_valid.2.1 1 [5, 5] rfl, ENNReal.ofReal_pos, listProb_eq_sufProb]
    have h : simCTMC.simProb 0 0 = Real.exp (-2 * 1024) := by
      unfold simProb lateProb
      rw [if_neg (by simp [simCTMC]), if_pos (fun j hj => absurd hj (by simp)), if_pos ⟨0, by simp [simCTMC]⟩]
      congr 2
      simp [simCTMC, Fin.sum_univ_succ]
    simp only [sufProb, Fin.sum_univ_two, h]
    simp [simCTMC]
    exact Real.exp_pos _

/-- Non-vacuity of `runTimed_law_partial`: the probability of observing 5, then 6 after a time between 1 and 2, then 6 again
before time 3. -/
example : simLaw 2 {p | ∃ ts, (∀ i, ts i ∈ (![Set.Ico 1 2, Set.Ico 0 3] : Fin 2 → Set ℝ) i) ∧
      simCTMC.runTimed 2 p.1 p.2 = .ok (timedTrace ![5, 6] ts 6)}
    = ∫⁻ ts in Set.pi Set.univ (![Set.Ico 1 2, Set.Ico 0 3] : Fin 2 → Set ℝ), ENNReal.ofReal (simCTMC.density (timedTrace ![5, 6] ts 6)) := by
  refine simCTMC.runTimed_law_partial simCTMC_valid.1 simCTMC_valid.2.1 _ _ _ (fun i => ?_) (fun i => ?_) (Or.inl (fun i => ?_))
  · fin_cases i <;> exact measurableSet_Ico
  · fin_cases i
    · exact fun t (ht : t ∈ Set.Ico (1:ℝ) 2) => Set.mem_Ici.2 (by linarith [ht.1])
    · exact fun t (ht : t ∈ Set.Ico (0:ℝ) 3) => Set.mem_Ici.2 ht.1
  · fin_cases i
    · exact fun t (ht : t ∈ Set.Ico (1:ℝ) 2) => Set.mem_Iio.2 (by linarith [ht.2])
    · exact fun t (ht : t ∈ Set.Ico (0:ℝ) 3) => Set.mem_Iio.2 (by linarith [ht.2])

example (ts : Fin 2 → ℝ) : timedTrace ![5, 6] ts 6 = [.obs 5, .time (ts 0), .obs 6, .time (ts 1), .obs 6] := rfl

end CTMC
end Jajapy
