import Verif.Lemmas.GenerateOne

/-!
Property C84: the law of the sets returned by `MDP.generateSet`, whose calls of `run` read one sequence of random numbers, a random
number of them each (`run` asks the scheduler again as long as it proposes an action that is not possible).
-/

set_option linter.unusedSectionVars false

namespace Jajapy

open MeasureTheory ProbabilityTheory Spec Filter Topology Tools

namespace MDP
variable {σ L : Type} [DecidableEq L] {n : ℕ} {sch : Sched ℝ L σ} {P : Policy σ L} {dom : σ → Prop}

theorem generatedOne_iff (M : MDP ℝ L n) (hB : Behaves sch P dom) (kind : L → Kind) (steps : ℕ) (geom : ℕ → ℕ) (st0 : σ)
    (d : ℕ → ℝ) (hd : ∀ j, ∃ w, M.outcome sch steps st0 (laterN (M.reads sch steps st0) j d) = .ok w) (N : ℕ) (S : TSet L) :
    (∃ tr, M.CollectsOne sch steps st0 d N tr ∧ generateSetMDP kind (fun j _ => .ok (tr j)) N false none (.int steps) geom = .ok S) ↔
      generateSetMDP kind (fun j _ => M.outcome sch steps st0 (laterN (M.reads sch steps st0) j d)) N false none (.int steps) geom
        = .ok S := by
  constructor
  · rintro ⟨tr, h1, h2⟩
    rw [M.collectsOne_iff hB] at h1
    rw [← h2]
    apply generateSetMDP_congr
    intro j hj
    funext _
    exact (M.outcome_ok steps st0 _ _).2 (h1 j hj)
  · intro h
    choose tr htr using hd
    refine ⟨tr, (M.collectsOne_iff hB steps st0 d N tr).2 (fun j _ => (M.outcome_ok steps st0 _ _).1 (htr j)), ?_⟩
    rw [← h]
    apply generateSetMDP_congr
    intro j hj
    funext _
    exact (htr j).symm

theorem generateSet_one_binomial_of_behaves (M : MDP ℝ L n) (hn : M.actions.Nodup) (hS : M.Stochastic) (hB : Behaves sch P dom)
    (kind : L → Kind) (steps : ℕ) (geom : ℕ → ℕ) (st0 : σ) (ht : drawsLaw {d | ∃ w, M.Returns sch steps st0 w d} = 1)
    (w : List L) (hw : w.length = 2 * steps + 1) (N m : ℕ) :
    drawsLaw {d | ∃ tr S, M.CollectsOne sch steps st0 d N tr ∧
        generateSetMDP kind (fun j _ => .ok (tr j)) N false none (.int steps) geom = .ok S ∧ S.mult w = m}
      = ENNReal.ofReal (N.choose m * (M.runProb P w ^ m * (1 - M.runProb P w) ^ (N - m))) := by
  have hs := M.simulates hn hS hB steps st0 ht
  have hk := M.stops hn hS hB steps st0
  have hl := M.run_law_of_behaves hB hn hS steps st0 w hw
  have h := hk.binomial (genMDP_counts kind steps geom _) hs w (M.runProb P w) (M.runProb_nonneg hS hB w (by omega))
    (by simp only [outcome_ok]; exact hl) N m
  rw [← h]
  refine measure_congr ?_
  filter_upwards [hk.all_ok hs] with d hd
  refine propext ?_
  constructor
  · rintro ⟨tr, S, h1, h2, h3⟩
    exact ⟨S, (M.generatedOne_iff hB kind steps geom st0 d hd N S).1 ⟨tr, h1, h2⟩, h3⟩
  · rintro ⟨S, h1, h3⟩
    obtain ⟨tr, h4, h5⟩ := (M.generatedOne_iff hB kind steps geom st0 d hd N S).2 h1
    exact ⟨tr, S, h4, h5, h3⟩

theorem generateSet_one_frequencies_of_behaves (M : MDP ℝ L n) (hn : M.actions.Nodup) (hS : M.Stochastic) (hB : Behaves sch P dom)
    (kind : L → Kind) (steps : ℕ) (geom : ℕ → ℕ) (st0 : σ) (ht : drawsLaw {d | ∃ w, M.Returns sch steps st0 w d} = 1) :
    ∀ᵐ d ∂drawsLaw, ∃ S : ℕ → TSet L,
      (∀ N, ∃ tr, M.CollectsOne sch steps st0 d N tr ∧
        generateSetMDP kind (fun j _ => .ok (tr j)) N false none (.int steps) geom = .ok (S N) ∧ (S N).Countable ∧
        (S N).times.sum = N ∧ ∀ w ∈ (S N).sequences, w.length = 2 * steps + 1) ∧
      ∀ w : List L, w.length = 2 * steps + 1 →
        Tendsto (fun N : ℕ => ((S N).mult w : ℝ) / N) atTop (𝓝 (M.runProb P w)) := by
  have hs := M.simulates hn hS hB steps st0 ht
  have hk := M.stops hn hS hB steps st0
  have h := hk.frequencies (genMDP_counts kind steps geom _) hs
  filter_upwards [h, hk.all_ok hs] with d hd hok
  obtain ⟨S, h1, h2⟩ := hd
  refine ⟨S, fun N => ?_, fun w hw => ?_⟩
  · obtain ⟨tr, h4, h5⟩ := (M.generatedOne_iff hB kind steps geom st0 d hok N (S N)).2 (h1 N).1
    exact ⟨tr, h4, h5, (h1 N).2.1, (h1 N).2.2.1, fun w hw => ((h1 N).2.2.2 w hw).1⟩
  · have h3 := h2 w
    simp only [outcome_ok] at h3
    rwa [M.run_law_of_behaves hB hn hS steps st0 w hw, ENNReal.toReal_ofReal (M.runProb_nonneg hS hB w (by omega))] at h3

/-- C84, MDP with a uniform scheduler, one sequence of random numbers for the whole call of `generateSet`: the number of copies of a
trace in the set has the binomial law of parameters `set_size` and the probability of the trace under the scheduler. -/
theorem generateSet_one_uniform_binomial (M : MDP ℝ L n) (hn : M.actions.Nodup) (hS : M.Stochastic) (acts : List L)
    (hne : acts ≠ []) (ha : ∀ s, ∃ x ∈ acts, M.Allowed s x) (kind : L → Kind) (steps : ℕ) (geom : ℕ → ℕ)
    (w : List L) (hw : w.length = 2 * steps + 1) (N m : ℕ) :
    drawsLaw {d | ∃ tr S, M.CollectsOne (uniformScheduler acts) steps () d N tr ∧
        generateSetMDP kind (fun j _ => .ok (tr j)) N false none (.int steps) geom = .ok S ∧ S.mult w = m}
      = ENNReal.ofReal (N.choose m * (M.runProb (uniformPolicy acts) w ^ m * (1 - M.runProb (uniformPolicy acts) w) ^ (N - m))) :=
  M.generateSet_one_binomial_of_behaves hn hS (uniformScheduler_behaves acts hne) kind steps geom ()
    (M.run_uniform_returns hn hS acts ha steps) w hw N m

/-- C84, MDP with a uniform scheduler, one sequence of random numbers: the proportion of every trace tends to its probability under
the scheduler, almost surely. -/
theorem generateSet_one_uniform_frequencies (M : MDP ℝ L n) (hn : M.actions.Nodup) (hS : M.Stochastic) (acts : List L)
    (hne : acts ≠ []) (ha : ∀ s, ∃ x ∈ acts, M.Allowed s x) (kind : L → Kind) (steps : ℕ) (geom : ℕ → ℕ) :
    ∀ᵐ d ∂drawsLaw, ∃ S : ℕ → TSet L,
      (∀ N, ∃ tr, M.CollectsOne (uniformScheduler acts) steps () d N tr ∧
        generateSetMDP kind (fun j _ => .ok (tr j)) N false none (.int steps) geom = .ok (S N) ∧ (S N).Countable ∧
        (S N).times.sum = N ∧ ∀ w ∈ (S N).sequences, w.length = 2 * steps + 1) ∧
      ∀ w : List L, w.length = 2 * steps + 1 →
        Tendsto (fun N : ℕ => ((S N).mult w : ℝ) / N) atTop (𝓝 (M.runProb (uniformPolicy acts) w)) :=
  M.generateSet_one_frequencies_of_behaves hn hS (uniformScheduler_behaves acts hne) kind steps geom ()
    (M.run_uniform_returns hn hS acts ha steps)

/-- C84, MDP with a finite-memory scheduler, in any state at the start, one sequence of random numbers. -/
theorem generateSet_one_fm_binomial (M : MDP ℝ L n) (hn : M.actions.Nodup) (hS : M.Stochastic) (F : FMScheduler ℝ L) (k : ℕ)
    (hF : FMValid F k) (ha : ∀ s, ∀ m < k, ∃ x, M.Allowed s x ∧ 0 < (fmPolicy F).propose m x) (kind : L → Kind) (steps : ℕ)
    (geom : ℕ → ℕ) (st0 : ℕ) (w : List L) (hw : w.length = 2 * steps + 1) (N m : ℕ) :
    drawsLaw {d | ∃ tr S, M.CollectsOne F.sched steps st0 d N tr ∧
        generateSetMDP kind (fun j _ => .ok (tr j)) N false none (.int steps) geom = .ok S ∧ S.mult w = m}
      = ENNReal.ofReal (N.choose m * (M.runProb (fmPolicy F) w ^ m * (1 - M.runProb (fmPolicy F) w) ^ (N - m))) :=
  M.generateSet_one_binomial_of_behaves hn hS (fmScheduler_behaves F k hF) kind steps geom st0
    (M.run_fm_returns hn hS F k hF ha steps st0) w hw N m

/-- C84, MDP with a finite-memory scheduler, one sequence of random numbers: the proportions. -/
theorem generateSet_one_fm_frequencies (M : MDP ℝ L n) (hn : M.actions.Nodup) (hS : M.Stochastic) (F : FMScheduler ℝ L) (k : ℕ)
    (hF : FMValid F k) (ha : ∀ s, ∀ m < k, ∃ x, M.Allowed s x ∧ 0 < (fmPolicy F).propose m x) (kind : L → Kind) (steps : ℕ)
    (geom : ℕ → ℕ) (st0 : ℕ) :
    ∀ᵐ d ∂drawsLaw, ∃ S : ℕ → TSet L,
      (∀ N, ∃ tr, M.CollectsOne F.sched steps st0 d N tr ∧
        generateSetMDP kind (fun j _ => .ok (tr j)) N false none (.int steps) geom = .ok (S N) ∧ (S N).Countable ∧
        (S N).times.sum = N ∧ ∀ w ∈ (S N).sequences, w.length = 2 * steps + 1) ∧
      ∀ w : List L, w.length = 2 * steps + 1 →
        Tendsto (fun N : ℕ => ((S N).mult w : ℝ) / N) atTop (𝓝 (M.runProb (fmPolicy F) w)) :=
  M.generateSet_one_frequencies_of_behaves hn hS (fmScheduler_behaves F k hF) kind steps geom st0
    (M.run_fm_returns hn hS F k hF ha steps st0)

end MDP
end Jajapy
