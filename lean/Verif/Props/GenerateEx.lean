import Verif.Props.GenerateGeo
import Verif.Props.GenerateMDP
import Verif.Props.GenerateOne
import Verif.Props.CTMCSimEx

/-!
Examples for property C84.
-/

namespace Jajapy

open MeasureTheory ProbabilityTheory Spec Filter Topology

theorem exMC_stochastic_real : (exMC ℝ).Stochastic := by
  refine ⟨?_, ?_, ?_, ?_⟩
  · intro s; fin_cases s <;> simp [exMC]
  · simp [exMC, Fin.sum_univ_succ]
  · intro s s'; fin_cases s <;> fin_cases s' <;> simp [exMC]
  · intro s; fin_cases s <;> simp [exMC, Fin.sum_univ_succ]; norm_num

theorem exMC_seqProb : (exMC ℝ).iface.seqProb [2, 0, 1] = .ok (1 / 2) := by
  rw [MC.seqProb_eq_paths _ _ (by simp), listProb_eq_sufProb]
  congr 1
  simp [sufProb, exMC, Fin.sum_univ_succ]

/-- In a set of two traces with two steps of the example chain, the trace 2, 0, 1 occurs exactly once with probability 1/2. -/
theorem exMC_two_traces : drawsLaw {d | ∃ S, generateSet (fun _ => .str) (fun j k => (exMC ℝ).run k (fun i => d (j * 3 + i))) 2 false none
    (.int 2) (fun _ => 0) = .ok S ∧ S.mult [2, 0, 1] = 1} = ENNReal.ofReal (1 / 2) := by
  obtain ⟨p, hp, h⟩ := (exMC ℝ).generateSet_binomial exMC_stochastic_real (fun _ => .str) 2 (by norm_num) (fun _ => 0) [2, 0, 1] rfl
  rw [exMC_seqProb] at hp
  injection hp with hp
  rw [h 2 1, ← hp]
  congr 1
  norm_num

theorem exHMM_stochastic_real : (exHMM ℝ).Stochastic ∧ (exHMM ℝ).alphabet.Nodup := by
  refine ⟨⟨?_, ?_, ?_, ?_, ?_, ?_⟩, by simp [exHMM]⟩
  · intro s; fin_cases s <;> simp [exHMM]
  · simp [exHMM, Fin.sum_univ_succ]
  · intro s s'; fin_cases s <;> fin_cases s' <;> simp [exHMM] <;> norm_num
  · intro s; fin_cases s <;> simp [exHMM, Fin.sum_univ_succ] <;> norm_num
  · intro s i; fin_cases s <;> fin_cases i <;> simp [exHMM] <;> norm_num
  · intro s
    have : ∀ f : Fin (exHMM ℝ).alphabet.length → ℝ, ∑ i, f i = f ⟨0, by simp [exHMM]⟩ + f ⟨1, by simp [exHMM]⟩ := by
      intro f
      exact Fin.sum_univ_two f
    rw [this]
    fin_cases s <;> simp [exHMM] <;> norm_num

example : ∀ᵐ d ∂drawsLaw, ∃ S : ℕ → TSet ℕ,
    (∀ N, generateSet (fun _ => .str) (fun j k => (exHMM ℝ).run k (fun i => d (j * 7 + i))) N false none (.int 3) (fun _ => 0) = .ok (S N) ∧
      (S N).Countable ∧ (S N).times.sum = N ∧ ∀ w ∈ (S N).sequences, w.length = 3) ∧
    ∀ w : List ℕ, w.length = 3 → ∃ p, (exHMM ℝ).iface.seqProb w = .ok p ∧ Tendsto (fun N : ℕ => ((S N).mult w : ℝ) / N) atTop (𝓝 p) :=
  (exHMM ℝ).generateSet_frequencies exHMM_stochastic_real.2 exHMM_stochastic_real.1 _ 3 (by norm_num) _

/-- With `distribution='geo'`, parameter 1/2 and `min_size=1`, the trace 2, 0, 1 is the only trace of a set of size 1 with
probability 1/4: the length is drawn with probability 1/2. -/
theorem exMC_geo : ∃ p, (exMC ℝ).iface.seqProb [2, 0, 1] = .ok p ∧ ∀ N m : ℕ,
    callsLaw (geoDrawsLaw ⟨1 / 2, by norm_num, by norm_num⟩)
      {D | ∃ S, generateSet (fun _ => .str) (fun j k => (exMC ℝ).run k (D j).2) N true (some 1) .other (fun j => (D j).1 + 1) = .ok S ∧
        S.mult [2, 0, 1] = m}
    = ENNReal.ofReal (N.choose m * (((1 - 1 / 2) ^ 0 * (1 / 2) * p) ^ m * (1 - (1 - 1 / 2) ^ 0 * (1 / 2) * p) ^ (N - m))) :=
  (exMC ℝ).generateSet_geo_binomial exMC_stochastic_real _ ⟨1 / 2, by norm_num, by norm_num⟩
    (fun h => by have := congrArg Subtype.val h; norm_num at this) 1 .other 0 [2, 0, 1] rfl

example (N m : ℕ) : callsLaw drawsLaw {D | ∃ tr S, (exMDP ℝ).Collects (uniformScheduler [10, 11]) 2 () D N tr ∧
    generateSetMDP (fun _ => .str) (fun j _ => .ok (tr j)) N false none (.int 2) (fun _ => 0) = .ok S ∧ S.mult [2, 10, 0, 11, 1] = m}
    = ENNReal.ofReal (N.choose m * ((exMDP ℝ).runProb (uniformPolicy [10, 11]) [2, 10, 0, 11, 1] ^ m *
        (1 - (exMDP ℝ).runProb (uniformPolicy [10, 11]) [2, 10, 0, 11, 1]) ^ (N - m))) := by
  refine (exMDP ℝ).generateSet_uniform_binomial (by simp [exMDP]) MDP.exMDP_stochastic_real.1 [10, 11] (by simp) ?_ _ 2 _ _ rfl N m
  obtain ⟨h1, h2, h3, h4, h5⟩ := MDP.exMDP_allowed
  intro s
  refine ⟨10, by simp, ?_⟩
  fin_cases s
  · exact h5
  · exact h3
  · exact h2

example (N m : ℕ) : callsLaw drawsLaw {D | ∃ tr S, (exMDP ℝ).Collects (exFM ℝ).sched 2 1 D N tr ∧
    generateSetMDP (fun _ => .str) (fun j _ => .ok (tr j)) N false none (.int 2) (fun _ => 0) = .ok S ∧ S.mult [2, 10, 0, 10, 1] = m}
    = ENNReal.ofReal (N.choose m * ((exMDP ℝ).runProb (fmPolicy (exFM ℝ)) [2, 10, 0, 10, 1] ^ m *
        (1 - (exMDP ℝ).runProb (fmPolicy (exFM ℝ)) [2, 10, 0, 10, 1]) ^ (N - m))) := by
  refine (exMDP ℝ).generateSet_fm_binomial (by simp [exMDP]) MDP.exMDP_stochastic_real.1 (exFM ℝ) 2 MDP.exFM_valid ?_ _ 2 _ 1 _ rfl N m
  obtain ⟨h1, h2, h3, h4, h5⟩ := MDP.exMDP_allowed
  intro s m hm
  refine ⟨10, ?_, ?_⟩
  · fin_cases s
    · exact h5
    · exact h3
    · exact h2
  · interval_cases m <;> simp [fmPolicy, exFM, Fin.sum_univ_succ]

/-- The same set, one sequence of numbers for all the calls; the proposal `11` is refused in the state `1` of `exMDP`, so the calls
read different numbers of draws. -/
example (N m : ℕ) : drawsLaw {d | ∃ tr S, (exMDP ℝ).CollectsOne (uniformScheduler [10, 11]) 2 () d N tr ∧
    generateSetMDP (fun _ => .str) (fun j _ => .ok (tr j)) N false none (.int 2) (fun _ => 0) = .ok S ∧ S.mult [2, 10, 0, 11, 1] = m}
    = ENNReal.ofReal (N.choose m * ((exMDP ℝ).runProb (uniformPolicy [10, 11]) [2, 10, 0, 11, 1] ^ m *
        (1 - (exMDP ℝ).runProb (uniformPolicy [10, 11]) [2, 10, 0, 11, 1]) ^ (N - m))) := by
  refine (exMDP ℝ).generateSet_one_uniform_binomial (by simp [exMDP]) MDP.exMDP_stochastic_real.1 [10, 11] (by simp) ?_ _ 2 _ _ rfl N m
  obtain ⟨h1, h2, h3, h4, h5⟩ := MDP.exMDP_allowed
  intro s
  refine ⟨10, by simp, ?_⟩
  fin_cases s
  · exact h5
  · exact h3
  · exact h2

example (N m : ℕ) : drawsLaw {d | ∃ tr S, (exMDP ℝ).CollectsOne (exFM ℝ).sched 2 1 d N tr ∧
    generateSetMDP (fun _ => .str) (fun j _ => .ok (tr j)) N false none (.int 2) (fun _ => 0) = .ok S ∧ S.mult [2, 10, 0, 10, 1] = m}
    = ENNReal.ofReal (N.choose m * ((exMDP ℝ).runProb (fmPolicy (exFM ℝ)) [2, 10, 0, 10, 1] ^ m *
        (1 - (exMDP ℝ).runProb (fmPolicy (exFM ℝ)) [2, 10, 0, 10, 1]) ^ (N - m))) := by
  refine (exMDP ℝ).generateSet_one_fm_binomial (by simp [exMDP]) MDP.exMDP_stochastic_real.1 (exFM ℝ) 2 MDP.exFM_valid ?_ _ 2 _ 1 _ rfl N m
  obtain ⟨h1, h2, h3, h4, h5⟩ := MDP.exMDP_allowed
  intro s m hm
  refine ⟨10, ?_, ?_⟩
  · fin_cases s
    · exact h5
    · exact h3
    · exact h2
  · interval_cases m <;> simp [fmPolicy, exFM, Fin.sum_univ_succ]

example : ∀ᵐ D ∂callsLaw (simLaw 2), ∃ S : ℕ → TSet ℕ,
    (∀ N, generateSet (fun _ => .str) (fun j k => CTMC.fullCTMC.run k (D j).1 (D j).2) N false none (.int 3) (fun _ => 0) = .ok (S N)) ∧
    ∀ w : List ℕ, w.length = 4 → ∃ p, CTMC.fullCTMC.iface.seqProb w = .ok p ∧
      Tendsto (fun N : ℕ => ((S N).mult w : ℝ) / N) atTop (𝓝 p) := by
  refine CTMC.fullCTMC.generateSet_likelihood_partial ⟨?_, ?_⟩ ?_ ?_ _ 3 (by norm_num) _
  · intro s; fin_cases s <;> simp [CTMC.fullCTMC]
  · intro s s'; fin_cases s <;> fin_cases s' <;> simp [CTMC.fullCTMC]
  · simp [CTMC.fullCTMC, Fin.sum_univ_succ]; norm_num
  · intro s s'; fin_cases s <;> fin_cases s' <;> simp [CTMC.fullCTMC]

end Jajapy
