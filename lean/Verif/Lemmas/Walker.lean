import Verif.Props.ConsistencyCTMC

set_option linter.unusedSectionVars false

/-!
Helper lemmas: sums along a simulated path and their averages, for any simulator whose steps are independent.
-/

namespace Jajapy

open MeasureTheory ProbabilityTheory Spec Filter Topology Tools BW CTMC

/-- A simulator: the next state and the time spent, from the draws of the step; `rate` is such that a jump from `s` to `i` has the probability
`rate s i` times the mean time spent in `s`. -/
structure Walker (n : ℕ) where
  nx : Fin n → (Fin n → ℝ) → Fin n
  tm : Fin n → (Fin n → ℝ) → ℝ
  init : Fin n → ℝ
  rate : Fin n → Fin n → ℝ
  mnx : ∀ s, Measurable (nx s)
  mtm : ∀ s, Measurable (tm s)
  init_nonneg : ∀ s, 0 ≤ init s
  init_sum : ∑ s, init s = 1
  rate_nonneg : ∀ s s', 0 ≤ rate s s'
  good : ∀ᵐ x ∂stepLaw n, ∀ c, 0 < rate c (nx c x) ∧ 0 ≤ tm c x
  law : ∀ s i, stepLaw n {x | nx s x = i} = ENNReal.ofReal (rate s i) * ∫⁻ x, ENNReal.ofReal (tm s x) ∂stepLaw n
  time_fin : ∀ s, ∫⁻ x, ENNReal.ofReal (tm s x) ∂stepLaw n ≠ ⊤
  time_pos : ∀ s, 0 < ∫⁻ x, ENNReal.ofReal (tm s x) ∂stepLaw n

namespace Walker
variable {n : ℕ}

/-- `k` transitions of positive rate lead from `c` to `s`. -/
def Path (W : Walker n) : ℕ → Fin n → Fin n → Prop
  | 0, c, s => c = s
  | k + 1, c, s => ∃ c', 0 < W.rate c c' ∧ Path W k c' s

theorem reach (W : Walker n) (c c' : Fin n) (h : 0 < W.rate c c') : 0 < stepLaw n {x | W.nx c x = c'} := by
  rw [W.law]
  exact ENNReal.mul_pos (ENNReal.ofReal_pos.2 h).ne' (W.time_pos c).ne'

/-- The states and times of the simulation. -/
noncomputable def pathFrom (W : Walker n) : ℕ → (ℕ → Fin n → ℝ) → Fin n → List (Fin n × ℝ)
  | 0, _, _ => []
  | k + 1, d, c => (c, W.tm c (d 0)) :: pathFrom W k (fun j => d (j+1)) (W.nx c (d 0))

/-- Its last state. -/
noncomputable def lastFrom (W : Walker n) : ℕ → (ℕ → Fin n → ℝ) → Fin n → Fin n
  | 0, _, c => c
  | k + 1, d, c => lastFrom W k (fun j => d (j+1)) (W.nx c (d 0))

theorem pathFrom_length (W : Walker n) (k : ℕ) (d : ℕ → Fin n → ℝ) (c : Fin n) : (W.pathFrom k d c).length = k := by
  induction k generalizing d c with
  | zero => rfl
  | succ k ih => simp [pathFrom, ih]

theorem firstOf_path (W : Walker n) (k : ℕ) (d : ℕ → Fin n → ℝ) (c : Fin n) : firstOf (W.pathFrom k d c) (W.lastFrom k d c) = c := by
  cases k <;> rfl

/-- The sum of `g state next time` along the simulation. -/
noncomputable def total (W : Walker n) (g : Fin n → Fin n → ℝ → ENNReal) (k : ℕ) (d : ℕ → Fin n → ℝ) (c : Fin n) : ENNReal :=
  ((movesOf (W.pathFrom k d c) (W.lastFrom k d c)).map (fun m => g m.1.1 m.2 m.1.2)).sum

theorem total_succ (W : Walker n) (g : Fin n → Fin n → ℝ → ENNReal) (k : ℕ) (d : ℕ → Fin n → ℝ) (c : Fin n) :
    W.total g (k+1) d c = g c (W.nx c (d 0)) (W.tm c (d 0)) + W.total g k (fun j => d (j+1)) (W.nx c (d 0)) := by
  simp only [total, pathFrom, lastFrom, movesOf, List.map_cons, List.sum_cons, firstOf_path]

theorem measurable_reward (W : Walker n) (g : Fin n → Fin n → ℝ → ENNReal) (hg : ∀ c i, Measurable (g c i)) (c : Fin n) :
    Measurable (fun x => g c (W.nx c x) (W.tm c x)) := by
  have h : Measurable (fun q : Fin n × ℝ => g c q.1 q.2) := measurable_from_prod_countable_right (hg c)
  exact h.comp ((W.mnx c).prodMk (W.mtm c))

theorem measurable_shift : Measurable (fun (d : ℕ → Fin n → ℝ) (k : ℕ) => d (k+1)) := measurable_pi_iff.2 (fun k => measurable_pi_apply (k+1))

theorem measurable_total (W : Walker n) (g : Fin n → Fin n → ℝ → ENNReal) (hg : ∀ c i, Measurable (g c i)) (k : ℕ) (c : Fin n) :
    Measurable (fun d => W.total g k d c) := by
  induction k generalizing c with
  | zero => exact measurable_const
  | succ k ih =>
    simp only [total_succ]
    have h : Measurable (fun q : Fin n × (ℕ → Fin n → ℝ) => W.total g k q.2 q.1) := measurable_from_prod_countable_right (fun i => ih i)
    exact ((W.measurable_reward g hg c).comp (measurable_pi_apply 0)).add
      (h.comp (((W.mnx c).comp (measurable_pi_apply 0)).prodMk measurable_shift))

/-- The expectation of the sum. -/
noncomputable def meanTotal (W : Walker n) (g : Fin n → Fin n → ℝ → ENNReal) (k : ℕ) (c : Fin n) : ENNReal := ∫⁻ d, W.total g k d c ∂clocksLaw n

/-- The expectation of the value of one step. -/
noncomputable def meanStep (W : Walker n) (g : Fin n → Fin n → ℝ → ENNReal) (c : Fin n) : ENNReal :=
  ∫⁻ x, g c (W.nx c x) (W.tm c x) ∂stepLaw n

theorem meanTotal_zero (W : Walker n) (g : Fin n → Fin n → ℝ → ENNReal) (c : Fin n) : W.meanTotal g 0 c = 0 := by
  unfold meanTotal
  simp [total, pathFrom, movesOf]

theorem meanTotal_succ (W : Walker n) (g : Fin n → Fin n → ℝ → ENNReal) (hg : ∀ c i, Measurable (g c i)) (k : ℕ) (c : Fin n) :
    W.meanTotal g (k+1) c = W.meanStep g c + ∫⁻ x, W.meanTotal g k (W.nx c x) ∂stepLaw n := by
  have hq : Measurable (fun q : Fin n × (ℕ → Fin n → ℝ) => W.total g k q.2 q.1) :=
    measurable_from_prod_countable_right (fun i => W.measurable_total g hg k i)
  have hm : Measurable (fun p : (Fin n → ℝ) × (ℕ → Fin n → ℝ) => g c (W.nx c p.1) (W.tm c p.1) + W.total g k p.2 (W.nx c p.1)) :=
    ((W.measurable_reward g hg c).comp measurable_fst).add (hq.comp (((W.mnx c).comp measurable_fst).prodMk measurable_snd))
  have e : W.meanTotal g (k+1) c
      = ∫⁻ p, (g c (W.nx c p.1) (W.tm c p.1) + W.total g k p.2 (W.nx c p.1)) ∂((stepLaw n).prod (clocksLaw n)) := by
    unfold meanTotal clocksLaw
    conv_lhs => rw [← map_consStep]
    rw [lintegral_map_equiv]
    refine lintegral_congr (fun p => ?_)
    rw [total_succ]
    rfl
  rw [e, lintegral_prod _ hm.aemeasurable]
  simp only
  have e2 : ∀ x, ∫⁻ d, (g c (W.nx c x) (W.tm c x) + W.total g k d (W.nx c x)) ∂clocksLaw n
      = g c (W.nx c x) (W.tm c x) + W.meanTotal g k (W.nx c x) := by
    intro x
    rw [lintegral_add_left measurable_const, lintegral_const, measure_univ, mul_one]
    rfl
  simp only [e2]
  rw [lintegral_add_left (W.measurable_reward g hg c)]
  rfl

theorem measurable_meanTotal (W : Walker n) (g : Fin n → Fin n → ℝ → ENNReal) (k : ℕ) (c : Fin n) :
    Measurable (fun x => W.meanTotal g k (W.nx c x)) :=
  (measurable_of_countable (fun i : Fin n => W.meanTotal g k i)).comp (W.mnx c)

theorem meanTotal_ratio (W : Walker n) (g h : Fin n → Fin n → ℝ → ENNReal) (hg : ∀ c i, Measurable (g c i)) (hh : ∀ c i, Measurable (h c i))
    (a : ENNReal) (hgh : ∀ c, W.meanStep g c = a * W.meanStep h c) (k : ℕ) (c : Fin n) : W.meanTotal g k c = a * W.meanTotal h k c := by
  induction k generalizing c with
  | zero => simp [meanTotal_zero]
  | succ k ih =>
    rw [W.meanTotal_succ g hg, W.meanTotal_succ h hh, hgh, mul_add]
    simp only [ih]
    rw [lintegral_const_mul _ (W.measurable_meanTotal h k c)]

theorem meanTotal_ne_top (W : Walker n) (g : Fin n → Fin n → ℝ → ENNReal) (hg : ∀ c i, Measurable (g c i)) (hf : ∀ c, W.meanStep g c ≠ ⊤)
    (k : ℕ) (c : Fin n) : W.meanTotal g k c ≠ ⊤ := by
  induction k generalizing c with
  | zero => simp [meanTotal_zero]
  | succ k ih =>
    rw [W.meanTotal_succ g hg]
    refine ENNReal.add_ne_top.2 ⟨hf c, ?_⟩
    refine ne_top_of_le_ne_top ?_ (lintegral_mono (g := fun _ => ∑ i, W.meanTotal g k i) (fun x => ?_))
    · rw [lintegral_const, measure_univ, mul_one]
      exact ENNReal.sum_ne_top.2 (fun i _ => ih i)
    · exact Finset.single_le_sum (f := fun i => W.meanTotal g k i) (fun i _ => zero_le) (Finset.mem_univ _)

theorem meanTotal_pos (W : Walker n) (g : Fin n → Fin n → ℝ → ENNReal) (hg : ∀ c i, Measurable (g c i))
    (s : Fin n) (hs : 0 < W.meanStep g s) (j k : ℕ) (hjk : j < k) (c : Fin n) (hw : W.Path j c s) : 0 < W.meanTotal g k c := by
  induction j generalizing k c with
  | zero =>
    cases k with
    | zero => omega
    | succ k =>
      have : c = s := hw
      subst this
      rw [W.meanTotal_succ g hg]
      exact lt_of_lt_of_le hs le_self_add
  | succ j ih =>
    cases k with
    | zero => omega
    | succ k =>
      obtain ⟨c', h1, h2⟩ := hw
      have h3 := ih k (by omega) c' h2
      rw [W.meanTotal_succ g hg]
      refine lt_of_lt_of_le ?_ le_add_self
      have h4 : stepLaw n {x | W.nx c x = c'} * W.meanTotal g k c' ≤ ∫⁻ x, W.meanTotal g k (W.nx c x) ∂stepLaw n := by
        have hm : MeasurableSet {x | W.nx c x = c'} := (W.mnx c) (measurableSet_singleton c')
        rw [mul_comm, ← lintegral_indicator_const hm]
        refine lintegral_mono (fun x => ?_)
        by_cases hx : W.nx c x = c'
        · rw [Set.indicator_of_mem (by exact hx), hx]
        · rw [Set.indicator_of_notMem (by exact hx)]; exact zero_le
      refine lt_of_lt_of_le ?_ h4
      exact ENNReal.mul_pos (W.reach c c' h1).ne' h3.ne'

/-! ### The whole simulation -/

/-- The sum along the simulation, the initial state included. -/
noncomputable def simTotal (W : Walker n) (g : Fin n → Fin n → ℝ → ENNReal) (k : ℕ) (p : ℝ × (ℕ → Fin n → ℝ)) : ENNReal :=
  ∑ i, Set.indicator {r | pick W.init r = .ok i} (fun _ => 1) p.1 * W.total g k p.2 i

theorem simTotal_eq (W : Walker n) (g : Fin n → Fin n → ℝ → ENNReal) (k : ℕ) (p : ℝ × (ℕ → Fin n → ℝ)) (c : Fin n)
    (h : pick W.init p.1 = .ok c) : W.simTotal g k p = W.total g k p.2 c := by
  unfold simTotal
  rw [Finset.sum_eq_single c]
  · rw [Set.indicator_of_mem (by exact h), one_mul]
  · intro b _ hb
    rw [Set.indicator_of_notMem, zero_mul]
    intro h'
    have : pick W.init p.1 = .ok b := h'
    rw [h] at this
    injection this with this
    exact hb this.symm
  · simp

theorem measurable_simTotal (W : Walker n) (g : Fin n → Fin n → ℝ → ENNReal) (hg : ∀ c i, Measurable (g c i)) (k : ℕ) :
    Measurable (W.simTotal g k) :=
  Finset.measurable_sum _ (fun i _ => ((measurable_const.indicator (measurable_pick _ i)).comp measurable_fst).mul
    ((W.measurable_total g hg k i).comp measurable_snd))

theorem lintegral_simTotal (W : Walker n) (g : Fin n → Fin n → ℝ → ENNReal)
    (hg : ∀ c i, Measurable (g c i)) (k : ℕ) :
    ∫⁻ p, W.simTotal g k p ∂simLaw n = ∑ i, ENNReal.ofReal (W.init i) * W.meanTotal g k i := by
  unfold simTotal
  have hmi : ∀ i, Measurable (fun p : ℝ × (ℕ → Fin n → ℝ) => Set.indicator {r | pick W.init r = .ok i} (fun _ => (1:ENNReal)) p.1 * W.total g k p.2 i) :=
    fun i => ((measurable_const.indicator (measurable_pick _ i)).comp measurable_fst).mul ((W.measurable_total g hg k i).comp measurable_snd)
  rw [lintegral_finsetSum _ (fun i _ => hmi i)]
  refine Finset.sum_congr rfl (fun i _ => ?_)
  have h := lintegral_prod_mul (μ := uniform) (ν := clocksLaw n)
    (measurable_const.indicator (measurable_pick W.init i) : Measurable (Set.indicator {r | pick W.init r = .ok i} (fun _ => (1:ENNReal)))).aemeasurable
    (W.measurable_total g hg k i).aemeasurable
  unfold simLaw
  refine h.trans ?_
  rw [lintegral_indicator_const (measurable_pick _ i), one_mul, pick_law _ W.init_nonneg W.init_sum.le]
  rfl

/-- Almost surely the initial state is possible, every move is, and the times are not negative. -/
theorem good_draws (W : Walker n) :
    ∀ᵐ p ∂simLaw n, (∃ c, pick W.init p.1 = .ok c ∧ 0 < W.init c) ∧
      ∀ k c, 0 < W.rate c (W.nx c (p.2 k)) ∧ 0 ≤ W.tm c (p.2 k) := by
  have h1 : ∀ᵐ r ∂uniform, ∃ c, pick W.init r = .ok c ∧ 0 < W.init c := by
    have : ∀ᵐ r ∂uniform, r ∈ Set.Ico (0:ℝ) 1 := ae_restrict_mem measurableSet_Ico
    filter_upwards [this] with r hr
    exact pick_total _ W.init_nonneg W.init_sum r hr.1 hr.2
  have h3 : ∀ᵐ d ∂clocksLaw n, ∀ k c, 0 < W.rate c (W.nx c (d k)) ∧ 0 ≤ W.tm c (d k) := infinitePi_ae (stepLaw n) _ W.good
  have q1 : Measure.QuasiMeasurePreserving Prod.fst (simLaw n) uniform := Measure.quasiMeasurePreserving_fst
  have q2 : Measure.QuasiMeasurePreserving Prod.snd (simLaw n) (clocksLaw n) := Measure.quasiMeasurePreserving_snd
  filter_upwards [q1.ae h1, q2.ae h3] with p b1 b2
  exact ⟨b1, b2⟩

/-- The moves of a path drawn with good draws. -/
theorem moves_good (W : Walker n) (k : ℕ) (d : ℕ → Fin n → ℝ) (c : Fin n)
    (h : ∀ k c, 0 < W.rate c (W.nx c (d k)) ∧ 0 ≤ W.tm c (d k)) :
    ∀ m ∈ movesOf (W.pathFrom k d c) (W.lastFrom k d c), 0 < W.rate m.1.1 m.2 ∧ 0 ≤ m.1.2 := by
  induction k generalizing d c with
  | zero => simp [pathFrom, movesOf]
  | succ k ih =>
    intro m hm
    simp only [pathFrom, lastFrom, movesOf, List.mem_cons, firstOf_path] at hm
    rcases hm with rfl | hm
    · exact h 0 c
    · exact ih _ _ (fun j c => h (j+1) c) m hm

/-! ### The averages -/

/-- The mean time spent in the state `s` by one simulation. -/
noncomputable def meanTime (W : Walker n) (steps : ℕ) (s : Fin n) : ℝ := (∫⁻ p, W.simTotal (timeReward s) steps p ∂simLaw n).toReal

theorem meanStep_jump (W : Walker n) (s s' c : Fin n) :
    W.meanStep (jumpReward s s') c = ENNReal.ofReal (W.rate s s') * W.meanStep (timeReward s) c := by
  unfold meanStep jumpReward timeReward
  by_cases h : c = s
  · subst h
    simp only [true_and, if_true]
    rw [← W.law c s']
    have hm : MeasurableSet {x | W.nx c x = s'} := (W.mnx c) (measurableSet_singleton s')
    rw [← one_mul (stepLaw n _), ← lintegral_indicator_const hm]
    refine lintegral_congr (fun x => ?_)
    by_cases hx : W.nx c x = s'
    · rw [if_pos hx, Set.indicator_of_mem (by exact hx)]
    · rw [if_neg hx, Set.indicator_of_notMem (by exact hx)]
  · simp [h]

theorem meanStep_time_ne_top (W : Walker n) (s c : Fin n) : W.meanStep (timeReward s) c ≠ ⊤ := by
  unfold meanStep timeReward
  by_cases h : c = s
  · simp only [h, if_true]; exact W.time_fin s
  · simp [h]

theorem meanStep_time_pos (W : Walker n) (s : Fin n) : 0 < W.meanStep (timeReward s) s := by
  unfold meanStep timeReward
  simp only [if_true]
  exact W.time_pos s

theorem lintegral_jump (W : Walker n) (steps : ℕ) (s s' : Fin n) : ∫⁻ p, W.simTotal (jumpReward s s') steps p ∂simLaw n
    = ENNReal.ofReal (W.rate s s') * ∫⁻ p, W.simTotal (timeReward s) steps p ∂simLaw n := by
  rw [W.lintegral_simTotal _ (measurable_jumpReward s s'), W.lintegral_simTotal _ (measurable_timeReward s), Finset.mul_sum]
  refine Finset.sum_congr rfl (fun i _ => ?_)
  rw [W.meanTotal_ratio _ _ (measurable_jumpReward s s') (measurable_timeReward s) (ENNReal.ofReal (W.rate s s')) (fun c => W.meanStep_jump s s' c) steps i]
  ring

theorem lintegral_time_ne_top (W : Walker n) (steps : ℕ) (s : Fin n) : ∫⁻ p, W.simTotal (timeReward s) steps p ∂simLaw n ≠ ⊤ := by
  rw [W.lintegral_simTotal _ (measurable_timeReward s)]
  exact ENNReal.sum_ne_top.2 (fun i _ => ENNReal.mul_ne_top ENNReal.ofReal_ne_top
    (W.meanTotal_ne_top _ (measurable_timeReward s) (fun c => W.meanStep_time_ne_top s c) steps i))

theorem meanTime_pos (W : Walker n) (steps : ℕ) (s : Fin n) (h : ∃ c, 0 < W.init c ∧ ∃ j < steps, W.Path j c s) : 0 < W.meanTime steps s := by
  refine ENNReal.toReal_pos ?_ (W.lintegral_time_ne_top steps s)
  obtain ⟨c, hc, j, hj, hw⟩ := h
  rw [W.lintegral_simTotal _ (measurable_timeReward s)]
  refine (lt_of_lt_of_le ?_ (Finset.single_le_sum (f := fun i => ENNReal.ofReal (W.init i) * W.meanTotal (timeReward s) steps i)
    (fun i _ => zero_le) (Finset.mem_univ c))).ne'
  exact ENNReal.mul_pos (ENNReal.ofReal_pos.2 hc).ne' (W.meanTotal_pos _ (measurable_timeReward s) s (W.meanStep_time_pos s) j steps hj c hw).ne'

/-- The averages of many independent simulations. -/
theorem averages (W : Walker n) (steps : ℕ) :
    ∀ᵐ D ∂callsLaw (simLaw n), ∀ s, Tendsto (fun N : ℕ => (∑ j ∈ Finset.range N, (W.simTotal (timeReward s) steps (D j)).toReal) / N) atTop (𝓝 (W.meanTime steps s)) ∧
      ∀ s', Tendsto (fun N : ℕ => (∑ j ∈ Finset.range N, (W.simTotal (jumpReward s s') steps (D j)).toReal) / N) atTop (𝓝 (W.rate s s' * W.meanTime steps s)) := by
  rw [ae_all_iff]
  intro s
  refine Filter.Eventually.and ?_ ?_
  · have mT : Measurable (W.simTotal (timeReward s) steps) := W.measurable_simTotal _ (measurable_timeReward s) steps
    have fT := W.lintegral_time_ne_top steps s
    have := calls_average (simLaw n) _ mT.ennreal_toReal (integrable_toReal_of_lintegral_ne_top mT.aemeasurable fT)
    rw [integral_toReal mT.aemeasurable (ae_lt_top mT fT)] at this
    exact this
  · rw [ae_all_iff]
    intro s'
    have mJ : Measurable (W.simTotal (jumpReward s s') steps) := W.measurable_simTotal _ (measurable_jumpReward s s') steps
    have fJ : ∫⁻ p, W.simTotal (jumpReward s s') steps p ∂simLaw n ≠ ⊤ := by
      rw [W.lintegral_jump]
      exact ENNReal.mul_ne_top ENNReal.ofReal_ne_top (W.lintegral_time_ne_top steps s)
    have := calls_average (simLaw n) _ mJ.ennreal_toReal (integrable_toReal_of_lintegral_ne_top mJ.aemeasurable fJ)
    rw [integral_toReal mJ.aemeasurable (ae_lt_top mJ fJ), W.lintegral_jump, ENNReal.toReal_mul, ENNReal.toReal_ofReal (W.rate_nonneg s s')] at this
    exact this

/-! ### The counts of a simulated trace -/

variable {L : Type} [DecidableEq L]

theorem total_jump (W : Walker n) (lab : Fin n → L) (hinj : Function.Injective lab) (s s' : Fin n) (k : ℕ) (d : ℕ → Fin n → ℝ) (c : Fin n) :
    (W.total (jumpReward s s') k d c).toReal =
      (((observations (timed ((W.pathFrom k d c).map (showStep lab)) (lab (W.lastFrom k d c)))).zip
        (observations (timed ((W.pathFrom k d c).map (showStep lab)) (lab (W.lastFrom k d c)))).tail).count (lab s, lab s') : ℕ) := by
  have e : observations (timed ((W.pathFrom k d c).map (showStep lab)) (lab (W.lastFrom k d c)))
      = ((W.pathFrom k d c).map Prod.fst ++ [W.lastFrom k d c]).map lab := by
    rw [observations_timed, List.map_append, List.map_map, List.map_map]
    rfl
  rw [e, CTMC.count_jumps _ hinj]
  unfold total jumpReward
  rw [CTMC.toReal_sum _ _ (fun m _ => by split_ifs <;> simp)]
  congr 1
  refine List.map_congr_left (fun m _ => ?_)
  split_ifs <;> simp

theorem total_time (W : Walker n) (lab : Fin n → L) (hinj : Function.Injective lab) (s : Fin n) (k : ℕ) (d : ℕ → Fin n → ℝ) (c : Fin n)
    (hd : ∀ m ∈ movesOf (W.pathFrom k d c) (W.lastFrom k d c), 0 ≤ m.1.2) :
    (W.total (timeReward s) k d c).toReal =
      ((timedSteps (timed ((W.pathFrom k d c).map (showStep lab)) (lab (W.lastFrom k d c)))).map
        (fun q => if q.1 = lab s then q.2 else 0)).sum := by
  rw [timedSteps_timed, List.map_map]
  unfold total timeReward
  rw [CTMC.toReal_sum _ _ (fun m _ => by split_ifs <;> simp), ← CTMC.sum_moves _ (W.lastFrom k d c)]
  congr 1
  refine List.map_congr_left (fun m hm => ?_)
  show _ = if lab m.1.1 = lab s then m.1.2 else 0
  by_cases h : m.1.1 = s
  · rw [if_pos h, if_pos (by rw [h]), ENNReal.toReal_ofReal (hd m hm)]
  · rw [if_neg h, if_neg (fun h' => h (hinj h'))]; simp

end Walker
end Jajapy
