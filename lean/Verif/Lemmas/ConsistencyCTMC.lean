import Verif.Spec.ConsistencyCTMC
import Verif.Lemmas.Averages
import Verif.Lemmas.ObservableSteps
import Verif.Props.CTMCSim

set_option linter.unusedSectionVars false

/-!
Helper lemmas for C92: sums along the simulated path and their expectations.
-/

namespace Jajapy

open MeasureTheory ProbabilityTheory Spec Filter Topology Tools BW

theorem infinitePi_ae {X : Type} [MeasurableSpace X] (μ : Measure X) [IsProbabilityMeasure μ] (P : X → Prop) (h : ∀ᵐ x ∂μ, P x) :
    ∀ᵐ D ∂Measure.infinitePi (fun _ : ℕ => μ), ∀ j, P (D j) := by
  rw [ae_all_iff]
  intro j
  have hp : MeasurePreserving (fun D : ℕ → X => D j) (Measure.infinitePi (fun _ : ℕ => μ)) μ :=
    ⟨measurable_pi_apply j, Measure.infinitePi_map_eval (μ := fun _ : ℕ => μ) j⟩
  exact hp.quasiMeasurePreserving.ae h

theorem calls_ae {Ω : Type} [MeasurableSpace Ω] (μ : Measure Ω) [IsProbabilityMeasure μ] (P : Ω → Prop) (h : ∀ᵐ x ∂μ, P x) :
    ∀ᵐ D ∂callsLaw μ, ∀ j, P (D j) := infinitePi_ae μ P h

namespace CTMC
variable {L : Type} {n : ℕ} [DecidableEq L]

/-- The state after the step. -/
noncomputable def nextState (M : CTMC ℝ L n) (s : Fin n) (d : Fin n → ℝ) : Fin n :=
  match M.next s d with
  | .ok (_, i, _) => i
  | .error _ => s

theorem next_eq (M : CTMC ℝ L n) (s : Fin n) (d : Fin n → ℝ) : M.next s d = .ok (M.labelling s, M.nextState s d, M.timeSpent s d) := by
  obtain ⟨j, t, h, -⟩ := M.next_spec s d
  unfold nextState timeSpent
  rw [h]

theorem nextState_iff (M : CTMC ℝ L n) (s i : Fin n) (d : Fin n → ℝ) : M.nextState s d = i ↔ d ∈ M.stepSet s i Set.univ := by
  rw [← next_set]
  simp only [Set.mem_univ, true_and, Set.mem_ofPred_eq, next_eq]
  constructor
  · intro h; exact ⟨_, by rw [h]⟩
  · rintro ⟨t, h⟩
    injection h with h
    injection h with h1 h2
    injection h2

theorem measurable_nextState (M : CTMC ℝ L n) (s : Fin n) : Measurable (M.nextState s) := by
  refine measurable_to_countable' (fun i => ?_)
  have : M.nextState s ⁻¹' {i} = M.stepSet s i Set.univ := by
    ext d; simp only [Set.mem_preimage, Set.mem_singleton_iff, nextState_iff]
  rw [this]
  exact M.measurable_stepSet s i MeasurableSet.univ

/-- The states and times of the simulation. -/
noncomputable def pathFrom (M : CTMC ℝ L n) : ℕ → (ℕ → Fin n → ℝ) → Fin n → List (Fin n × ℝ)
  | 0, _, _ => []
  | k + 1, d, c => (c, M.timeSpent c (d 0)) :: pathFrom M k (fun j => d (j+1)) (M.nextState c (d 0))

/-- Its last state. -/
noncomputable def lastFrom (M : CTMC ℝ L n) : ℕ → (ℕ → Fin n → ℝ) → Fin n → Fin n
  | 0, _, c => c
  | k + 1, d, c => lastFrom M k (fun j => d (j+1)) (M.nextState c (d 0))

theorem pathFrom_length (M : CTMC ℝ L n) (k : ℕ) (d : ℕ → Fin n → ℝ) (c : Fin n) : (M.pathFrom k d c).length = k := by
  induction k generalizing d c with
  | zero => rfl
  | succ k ih => simp [pathFrom, ih]

theorem firstOf_path (M : CTMC ℝ L n) (k : ℕ) (d : ℕ → Fin n → ℝ) (c : Fin n) : firstOf (M.pathFrom k d c) (M.lastFrom k d c) = c := by
  cases k <;> rfl

theorem runTimedLoop_path (M : CTMC ℝ L n) (k : ℕ) (d : ℕ → Fin n → ℝ) (c : Fin n) :
    M.runTimedLoop k d c = .ok (timed ((M.pathFrom k d c).map (showStep M.labelling)) (M.labelling (M.lastFrom k d c))) := by
  induction k generalizing d c with
  | zero => rfl
  | succ k ih =>
    simp only [runTimedLoop, next_eq, Bind.bind, Except.bind, ih, pathFrom, lastFrom, List.map_cons, timed]
    rfl

/-- The sum of `g state next time` along the simulation. -/
noncomputable def total (M : CTMC ℝ L n) (g : Fin n → Fin n → ℝ → ENNReal) (k : ℕ) (d : ℕ → Fin n → ℝ) (c : Fin n) : ENNReal :=
  ((movesOf (M.pathFrom k d c) (M.lastFrom k d c)).map (fun m => g m.1.1 m.2 m.1.2)).sum

theorem total_succ (M : CTMC ℝ L n) (g : Fin n → Fin n → ℝ → ENNReal) (k : ℕ) (d : ℕ → Fin n → ℝ) (c : Fin n) :
    M.total g (k+1) d c = g c (M.nextState c (d 0)) (M.timeSpent c (d 0)) + M.total g k (fun j => d (j+1)) (M.nextState c (d 0)) := by
  simp only [total, pathFrom, lastFrom, movesOf, List.map_cons, List.sum_cons, firstOf_path]

theorem measurable_reward (M : CTMC ℝ L n) (g : Fin n → Fin n → ℝ → ENNReal) (hg : ∀ c i, Measurable (g c i)) (c : Fin n) :
    Measurable (fun x => g c (M.nextState c x) (M.timeSpent c x)) := by
  have h : Measurable (fun q : Fin n × ℝ => g c q.1 q.2) := measurable_from_prod_countable_right (hg c)
  exact h.comp ((M.measurable_nextState c).prodMk (M.measurable_timeSpent c))

theorem measurable_shift : Measurable (fun (d : ℕ → Fin n → ℝ) (k : ℕ) => d (k+1)) := measurable_pi_iff.2 (fun k => measurable_pi_apply (k+1))

theorem measurable_total (M : CTMC ℝ L n) (g : Fin n → Fin n → ℝ → ENNReal) (hg : ∀ c i, Measurable (g c i)) (k : ℕ) (c : Fin n) :
    Measurable (fun d => M.total g k d c) := by
  induction k generalizing c with
  | zero => exact measurable_const
  | succ k ih =>
    simp only [total_succ]
    have h : Measurable (fun q : Fin n × (ℕ → Fin n → ℝ) => M.total g k q.2 q.1) := measurable_from_prod_countable_right (fun i => ih i)
    exact ((M.measurable_reward g hg c).comp (measurable_pi_apply 0)).add
      (h.comp (((M.measurable_nextState c).comp (measurable_pi_apply 0)).prodMk measurable_shift))

/-- The expectation of the sum. -/
noncomputable def meanTotal (M : CTMC ℝ L n) (g : Fin n → Fin n → ℝ → ENNReal) (k : ℕ) (c : Fin n) : ENNReal := ∫⁻ d, M.total g k d c ∂clocksLaw n

/-- The expectation of the value of one step. -/
noncomputable def meanStep (M : CTMC ℝ L n) (g : Fin n → Fin n → ℝ → ENNReal) (c : Fin n) : ENNReal :=
  ∫⁻ x, g c (M.nextState c x) (M.timeSpent c x) ∂stepLaw n

theorem meanTotal_zero (M : CTMC ℝ L n) (g : Fin n → Fin n → ℝ → ENNReal) (c : Fin n) : M.meanTotal g 0 c = 0 := by
  unfold meanTotal
  simp [total, pathFrom, movesOf]

theorem meanTotal_succ (M : CTMC ℝ L n) (g : Fin n → Fin n → ℝ → ENNReal) (hg : ∀ c i, Measurable (g c i)) (k : ℕ) (c : Fin n) :
    M.meanTotal g (k+1) c = M.meanStep g c + ∫⁻ x, M.meanTotal g k (M.nextState c x) ∂stepLaw n := by
  have hq : Measurable (fun q : Fin n × (ℕ → Fin n → ℝ) => M.total g k q.2 q.1) :=
    measurable_from_prod_countable_right (fun i => M.measurable_total g hg k i)
  have hm : Measurable (fun p : (Fin n → ℝ) × (ℕ → Fin n → ℝ) => g c (M.nextState c p.1) (M.timeSpent c p.1) + M.total g k p.2 (M.nextState c p.1)) :=
    ((M.measurable_reward g hg c).comp measurable_fst).add (hq.comp (((M.measurable_nextState c).comp measurable_fst).prodMk measurable_snd))
  have e : M.meanTotal g (k+1) c
      = ∫⁻ p, (g c (M.nextState c p.1) (M.timeSpent c p.1) + M.total g k p.2 (M.nextState c p.1)) ∂((stepLaw n).prod (clocksLaw n)) := by
    unfold meanTotal clocksLaw
    conv_lhs => rw [← map_consStep]
    rw [lintegral_map_equiv]
    refine lintegral_congr (fun p => ?_)
    rw [total_succ]
    rfl
  rw [e, lintegral_prod _ hm.aemeasurable]
  simp only
  have e2 : ∀ x, ∫⁻ d, (g c (M.nextState c x) (M.timeSpent c x) + M.total g k d (M.nextState c x)) ∂clocksLaw n
      = g c (M.nextState c x) (M.timeSpent c x) + M.meanTotal g k (M.nextState c x) := by
    intro x
    rw [lintegral_add_left measurable_const, lintegral_const, measure_univ, mul_one]
    rfl
  simp only [e2]
  rw [lintegral_add_left (M.measurable_reward g hg c)]
  rfl

theorem measurable_meanTotal (M : CTMC ℝ L n) (g : Fin n → Fin n → ℝ → ENNReal) (k : ℕ) (c : Fin n) :
    Measurable (fun x => M.meanTotal g k (M.nextState c x)) :=
  (measurable_of_countable (fun i : Fin n => M.meanTotal g k i)).comp (M.measurable_nextState c)

theorem meanTotal_ratio (M : CTMC ℝ L n) (g h : Fin n → Fin n → ℝ → ENNReal) (hg : ∀ c i, Measurable (g c i)) (hh : ∀ c i, Measurable (h c i))
    (a : ENNReal) (hgh : ∀ c, M.meanStep g c = a * M.meanStep h c) (k : ℕ) (c : Fin n) : M.meanTotal g k c = a * M.meanTotal h k c := by
  induction k generalizing c with
  | zero => simp [meanTotal_zero]
  | succ k ih =>
    rw [M.meanTotal_succ g hg, M.meanTotal_succ h hh, hgh, mul_add]
    simp only [ih]
    rw [lintegral_const_mul _ (M.measurable_meanTotal h k c)]

theorem meanTotal_ne_top (M : CTMC ℝ L n) (g : Fin n → Fin n → ℝ → ENNReal) (hg : ∀ c i, Measurable (g c i)) (hf : ∀ c, M.meanStep g c ≠ ⊤)
    (k : ℕ) (c : Fin n) : M.meanTotal g k c ≠ ⊤ := by
  induction k generalizing c with
  | zero => simp [meanTotal_zero]
  | succ k ih =>
    rw [M.meanTotal_succ g hg]
    refine ENNReal.add_ne_top.2 ⟨hf c, ?_⟩
    refine ne_top_of_le_ne_top ?_ (lintegral_mono (g := fun _ => ∑ i, M.meanTotal g k i) (fun x => ?_))
    · rw [lintegral_const, measure_univ, mul_one]
      exact ENNReal.sum_ne_top.2 (fun i _ => ih i)
    · exact Finset.single_le_sum (f := fun i => M.meanTotal g k i) (fun i _ => zero_le) (Finset.mem_univ _)

theorem stepLaw_nextState (M : CTMC ℝ L n) (h0 : ∀ s s', 0 ≤ M.matrix s s') (s i : Fin n) :
    stepLaw n {x | M.nextState s x = i} = ENNReal.ofReal (M.simProb s i) := by
  rw [← M.stepSet_univ h0]
  congr 1
  ext x
  exact M.nextState_iff s i x

theorem simProb_pos (M : CTMC ℝ L n) (h0 : ∀ s s', 0 ≤ M.matrix s s') (s i : Fin n) (h : 0 < M.matrix s i) : 0 < M.simProb s i := by
  have hR := M.exitRate_pos h0 s i h
  unfold simProb
  rw [if_pos h]
  refine mul_pos (div_pos h hR) (sub_pos.2 ?_)
  unfold lateProb
  split_ifs
  · rw [Real.exp_lt_one_iff]; nlinarith
  · norm_num

theorem meanTotal_pos (M : CTMC ℝ L n) (h0 : ∀ s s', 0 ≤ M.matrix s s') (g : Fin n → Fin n → ℝ → ENNReal) (hg : ∀ c i, Measurable (g c i))
    (s : Fin n) (hs : 0 < M.meanStep g s) (j k : ℕ) (hjk : j < k) (c : Fin n) (hw : M.Walk j c s) : 0 < M.meanTotal g k c := by
  induction j generalizing k c with
  | zero =>
    cases k with
    | zero => omega
    | succ k =>
      have : c = s := hw
      subst this
      rw [M.meanTotal_succ g hg]
      exact lt_of_lt_of_le hs le_self_add
  | succ j ih =>
    cases k with
    | zero => omega
    | succ k =>
      obtain ⟨c', h1, h2⟩ := hw
      have h3 := ih k (by omega) c' h2
      rw [M.meanTotal_succ g hg]
      refine lt_of_lt_of_le ?_ le_add_self
      have h4 : stepLaw n {x | M.nextState c x = c'} * M.meanTotal g k c' ≤ ∫⁻ x, M.meanTotal g k (M.nextState c x) ∂stepLaw n := by
        have hm : MeasurableSet {x | M.nextState c x = c'} := (M.measurable_nextState c) (measurableSet_singleton c')
        rw [mul_comm, ← lintegral_indicator_const hm]
        refine lintegral_mono (fun x => ?_)
        by_cases hx : M.nextState c x = c'
        · rw [Set.indicator_of_mem (by exact hx), hx]
        · rw [Set.indicator_of_notMem (by exact hx)]; exact zero_le
      refine lt_of_lt_of_le ?_ h4
      rw [M.stepLaw_nextState h0]
      exact ENNReal.mul_pos (ENNReal.ofReal_pos.2 (M.simProb_pos h0 c c' h1)).ne' h3.ne'

/-! ### The whole simulation -/

/-- The sum along the simulation, the initial state included. -/
noncomputable def simTotal (M : CTMC ℝ L n) (g : Fin n → Fin n → ℝ → ENNReal) (k : ℕ) (p : ℝ × (ℕ → Fin n → ℝ)) : ENNReal :=
  ∑ i, Set.indicator {r | pick M.initialState r = .ok i} (fun _ => 1) p.1 * M.total g k p.2 i

theorem simTotal_eq (M : CTMC ℝ L n) (g : Fin n → Fin n → ℝ → ENNReal) (k : ℕ) (p : ℝ × (ℕ → Fin n → ℝ)) (c : Fin n)
    (h : pick M.initialState p.1 = .ok c) : M.simTotal g k p = M.total g k p.2 c := by
  unfold simTotal
  rw [Finset.sum_eq_single c]
  · rw [Set.indicator_of_mem (by exact h), one_mul]
  · intro b _ hb
    rw [Set.indicator_of_notMem, zero_mul]
    intro h'
    have : pick M.initialState p.1 = .ok b := h'
    rw [h] at this
    injection this with this
    exact hb this.symm
  · simp

theorem measurable_simTotal (M : CTMC ℝ L n) (g : Fin n → Fin n → ℝ → ENNReal) (hg : ∀ c i, Measurable (g c i)) (k : ℕ) :
    Measurable (M.simTotal g k) :=
  Finset.measurable_sum _ (fun i _ => ((measurable_const.indicator (measurable_pick _ i)).comp measurable_fst).mul
    ((M.measurable_total g hg k i).comp measurable_snd))

theorem lintegral_simTotal (M : CTMC ℝ L n) (hM : M.Valid) (hi : ∑ s, M.initialState s = 1) (g : Fin n → Fin n → ℝ → ENNReal)
    (hg : ∀ c i, Measurable (g c i)) (k : ℕ) :
    ∫⁻ p, M.simTotal g k p ∂simLaw n = ∑ i, ENNReal.ofReal (M.initialState i) * M.meanTotal g k i := by
  unfold simTotal
  have hmi : ∀ i, Measurable (fun p : ℝ × (ℕ → Fin n → ℝ) => Set.indicator {r | pick M.initialState r = .ok i} (fun _ => (1:ENNReal)) p.1 * M.total g k p.2 i) :=
    fun i => ((measurable_const.indicator (measurable_pick _ i)).comp measurable_fst).mul ((M.measurable_total g hg k i).comp measurable_snd)
  rw [lintegral_finsetSum _ (fun i _ => hmi i)]
  refine Finset.sum_congr rfl (fun i _ => ?_)
  have h := lintegral_prod_mul (μ := uniform) (ν := clocksLaw n)
    (measurable_const.indicator (measurable_pick M.initialState i) : Measurable (Set.indicator {r | pick M.initialState r = .ok i} (fun _ => (1:ENNReal)))).aemeasurable
    (M.measurable_total g hg k i).aemeasurable
  unfold simLaw
  refine h.trans ?_
  rw [lintegral_indicator_const (measurable_pick _ i), one_mul, pick_law _ hM.1 hi.le]
  rfl

/-- Almost surely the initial state is possible, every move is, and the times are not negative. -/
theorem good_draws (M : CTMC ℝ L n) (hM : M.Valid) (hi : ∑ s, M.initialState s = 1) :
    ∀ᵐ p ∂simLaw n, (∃ c, pick M.initialState p.1 = .ok c ∧ 0 < M.initialState c) ∧
      ∀ k c, 0 < M.simProb c (M.nextState c (p.2 k)) ∧ 0 ≤ M.timeSpent c (p.2 k) := by
  have h1 : ∀ᵐ r ∂uniform, ∃ c, pick M.initialState r = .ok c ∧ 0 < M.initialState c := by
    have : ∀ᵐ r ∂uniform, r ∈ Set.Ico (0:ℝ) 1 := ae_restrict_mem measurableSet_Ico
    filter_upwards [this] with r hr
    exact pick_total _ hM.1 hi r hr.1 hr.2
  have h2 : ∀ᵐ x ∂stepLaw n, ∀ c, 0 < M.simProb c (M.nextState c x) ∧ 0 ≤ M.timeSpent c x := by
    rw [ae_all_iff]
    intro c
    have a1 : ∀ᵐ x ∂stepLaw n, ∀ i, M.nextState c x = i → 0 < M.simProb c i := by
      rw [ae_all_iff]
      intro i
      by_cases h : 0 < M.simProb c i
      · exact Eventually.of_forall (fun _ _ => h)
      · rw [ae_iff]
        have : {x | ¬ (M.nextState c x = i → 0 < M.simProb c i)} = {x | M.nextState c x = i} := by
          ext x; simp [h]
        rw [this, M.stepLaw_nextState hM.2, ENNReal.ofReal_eq_zero]
        exact not_lt.1 h
    have a2 : ∀ᵐ x ∂stepLaw n, 0 < M.timeSpent c x := by
      refine (mem_ae_iff_prob_eq_one ((M.measurable_timeSpent c) measurableSet_Ioi)).2 ?_
      have := M.time_law_partial hM.2 c 0 le_rfl (Or.inl (by norm_num))
      rw [mul_zero, Real.exp_zero, ENNReal.ofReal_one] at this
      exact this
    filter_upwards [a1, a2] with x b1 b2
    exact ⟨b1 _ rfl, b2.le⟩
  have h3 : ∀ᵐ d ∂clocksLaw n, ∀ k c, 0 < M.simProb c (M.nextState c (d k)) ∧ 0 ≤ M.timeSpent c (d k) := infinitePi_ae (stepLaw n) _ h2
  have q1 : Measure.QuasiMeasurePreserving Prod.fst (simLaw n) uniform := Measure.quasiMeasurePreserving_fst
  have q2 : Measure.QuasiMeasurePreserving Prod.snd (simLaw n) (clocksLaw n) := Measure.quasiMeasurePreserving_snd
  filter_upwards [q1.ae h1, q2.ae h3] with p b1 b2
  exact ⟨b1, b2⟩

/-- The moves of a path drawn with good draws. -/
theorem moves_good (M : CTMC ℝ L n) (k : ℕ) (d : ℕ → Fin n → ℝ) (c : Fin n)
    (h : ∀ k c, 0 < M.simProb c (M.nextState c (d k)) ∧ 0 ≤ M.timeSpent c (d k)) :
    ∀ m ∈ movesOf (M.pathFrom k d c) (M.lastFrom k d c), 0 < M.simProb m.1.1 m.2 ∧ 0 ≤ m.1.2 := by
  induction k generalizing d c with
  | zero => simp [pathFrom, movesOf]
  | succ k ih =>
    intro m hm
    simp only [pathFrom, lastFrom, movesOf, List.mem_cons, firstOf_path] at hm
    rcases hm with rfl | hm
    · exact h 0 c
    · exact ih _ _ (fun j c => h (j+1) c) m hm

end CTMC
end Jajapy
