import Verif.Lemmas.ClocksStep
import Verif.Props.Simulation

set_option linter.unusedSectionVars false

/-!
C82: the law of the simulator of CTMCs, over the random numbers of `Spec/Clocks.lean`.
-/

namespace Jajapy

open MeasureTheory ProbabilityTheory Spec Finset Tools BW

namespace CTMC
variable {L : Type} {n : ℕ}

/-! ### One step -/

theorem next_set (M : CTMC ℝ L n) (s i : Fin n) (A : Set ℝ) :
    {d | ∃ t ∈ A, M.next s d = .ok (M.labelling s, i, t)} = M.stepSet s i A := by
  ext d
  simp only [Set.mem_ofPred_eq, next_iff, true_and]
  constructor
  · rintro ⟨t, ht, h⟩
    exact ⟨by rw [show ringTimes (M.matrix s) d i = t from h.1]; exact ht, h.2⟩
  · intro h
    exact ⟨_, h.1, rfl, h.2⟩

/-- C82, one step: the state reached and the time spent have the joint density `rate(s,i) * exp(-exit(s) * t)`, on the times
smaller than 1024, and on all the times if all the rates out of `s` are positive. -/
theorem next_law_partial (M : CTMC ℝ L n) (h0 : ∀ s s', 0 ≤ M.matrix s s') (s i : Fin n) (A : Set ℝ) (hA : MeasurableSet A)
    (h : A ⊆ Set.Iio 1024 ∨ ∀ j, 0 < M.matrix s j) :
    stepLaw n {d | ∃ t ∈ A, M.next s d = .ok (M.labelling s, i, t)}
      = ∫⁻ t in A ∩ Set.Ici 0, ENNReal.ofReal (M.matrix s i * Real.exp (-(M.e s) * t)) := by
  rw [next_set, M.stepLaw_stepSet s i hA, race_law _ (h0 s) i A hA h]
  rfl

/-- C82, one step, intervals: the probability of going to `i` after a time between `a` and `b`. -/
theorem next_interval_partial (M : CTMC ℝ L n) (h0 : ∀ s s', 0 ≤ M.matrix s s') (s i : Fin n) (a b : ℝ) (ha : 0 ≤ a) (hab : a ≤ b)
    (hb : b ≤ 1024) (he : 0 < M.e s) :
    stepLaw n {d | ∃ t ∈ Set.Ico a b, M.next s d = .ok (M.labelling s, i, t)}
      = ENNReal.ofReal (M.matrix s i / M.e s * (Real.exp (-(M.e s) * a) - Real.exp (-(M.e s) * b))) := by
  rw [M.next_law_partial h0 s i _ measurableSet_Ico (Or.inl (fun t ht => lt_of_lt_of_le ht.2 hb))]
  have e : Set.Ico a b ∩ Set.Ici 0 = Set.Ico a b := Set.inter_eq_left.2 (fun t (ht : t ∈ Set.Ico a b) => Set.mem_Ici.2 (ha.trans ht.1))
  rw [e, integral_race (h0 s i) he hab]

/-- C82, one step, whatever the time: the next state is `i` with the probability `simProb`. -/
theorem next_state_law (M : CTMC ℝ L n) (h0 : ∀ s s', 0 ≤ M.matrix s s') (s i : Fin n) :
    stepLaw n {d | ∃ t, M.next s d = .ok (M.labelling s, i, t)} = ENNReal.ofReal (M.simProb s i) := by
  have : {d | ∃ t, M.next s d = .ok (M.labelling s, i, t)} = {d | ∃ t ∈ Set.univ, M.next s d = .ok (M.labelling s, i, t)} := by
    ext d; simp
  rw [this, next_set, M.stepSet_univ h0 s i]

/-- C82 fails: towards the first state for which the rate is 0, the simulator goes with a positive probability. -/
theorem next_rate_zero (M : CTMC ℝ L n) (h0 : ∀ s s', 0 ≤ M.matrix s s') (s i : Fin n) (hi : M.matrix s i = 0)
    (hf : ∀ j < i, M.matrix s j ≠ 0) :
    stepLaw n {d | ∃ t, M.next s d = .ok (M.labelling s, i, t)} = ENNReal.ofReal (Real.exp (-(M.e s) * 1024)) ∧
    0 < stepLaw n {d | ∃ t, M.next s d = .ok (M.labelling s, i, t)} := by
  have h : stepLaw n {d | ∃ t, M.next s d = .ok (M.labelling s, i, t)} = ENNReal.ofReal (Real.exp (-(M.e s) * 1024)) := by
    rw [M.next_state_law h0 s i]
    unfold simProb lateProb
    rw [if_neg (by rw [hi]; exact lt_irrefl _), if_pos (fun j hj => lt_of_le_of_ne (h0 s j) (hf j hj).symm), if_pos ⟨i, hi⟩]
    rfl
  refine ⟨h, ?_⟩
  rw [h, ENNReal.ofReal_pos]
  exact Real.exp_pos _

/-- The time spent in the state during the step. -/
noncomputable def timeSpent (M : CTMC ℝ L n) (s : Fin n) (d : Fin n → ℝ) : ℝ :=
  match M.next s d with
  | .ok (_, _, t) => t
  | .error _ => 0

theorem timeSpent_gt (M : CTMC ℝ L n) (s : Fin n) (d : Fin n → ℝ) (t : ℝ) :
    t < M.timeSpent s d ↔ ∀ j, t < ringTimes (M.matrix s) d j := by
  obtain ⟨j, u, h1, h2, h3, -⟩ := M.next_spec s d
  have e : M.timeSpent s d = u := by unfold timeSpent; rw [h1]
  rw [e]
  constructor
  · exact fun h k => lt_of_lt_of_le h (h3 k)
  · intro h
    rw [h2]
    exact h j

/-- C82: the time spent in a state is exponential, of parameter the exit rate, up to time 1024. -/
theorem time_law_partial (M : CTMC ℝ L n) (h0 : ∀ s s', 0 ≤ M.matrix s s') (s : Fin n) (t : ℝ) (ht : 0 ≤ t)
    (h : t < 1024 ∨ ∀ j, 0 < M.matrix s j) :
    stepLaw n {d | t < M.timeSpent s d} = ENNReal.ofReal (Real.exp (-(M.e s) * t)) := by
  simp only [timeSpent_gt]
  exact M.stepLaw_after h0 s t ht h

/-- C82 fails: in a state with a transition of rate 0, no time larger than 1024 is ever spent. -/
theorem time_bounded (M : CTMC ℝ L n) (s : Fin n) (hz : ∃ j, M.matrix s j = 0) (d : Fin n → ℝ) : M.timeSpent s d ≤ 1024 := by
  obtain ⟨j, hj⟩ := hz
  by_contra h
  have := (M.timeSpent_gt s d 1024).1 (not_le.1 h) j
  unfold ringTimes at this
  rw [if_pos hj.le] at this
  exact lt_irrefl _ this

theorem measurable_timeSpent (M : CTMC ℝ L n) (s : Fin n) : Measurable (M.timeSpent s) := by
  refine measurable_of_Ioi (fun t => ?_)
  have : M.timeSpent s ⁻¹' Set.Ioi t = ringTimes (M.matrix s) ⁻¹' (Set.pi Set.univ (fun _ => Set.Ioi t)) := by
    ext d
    simp only [Set.mem_preimage, Set.mem_Ioi, Set.mem_pi, Set.mem_univ, true_implies]
    exact M.timeSpent_gt s d t
  rw [this]
  exact measurable_ringTimes _ (MeasurableSet.univ_pi (fun _ => measurableSet_Ioi))

/-- C82: the mean time spent in a state that can be left is `expected_time` times the probability that the step is not late. -/
theorem time_mean (M : CTMC ℝ L n) (h0 : ∀ s s', 0 ≤ M.matrix s s') (s : Fin n) (he : 0 < M.e s) :
    ∫⁻ d, ENNReal.ofReal (M.timeSpent s d) ∂(stepLaw n) = ENNReal.ofReal (M.expectedTime s * (1 - M.lateProb s)) := by
  have hnn : 0 ≤ᵐ[stepLaw n] M.timeSpent s := by
    have h1 : stepLaw n {d | 0 < M.timeSpent s d} = 1 := by
      rw [M.time_law_partial h0 s 0 le_rfl (Or.inl (by norm_num))]
      simp
    have h2 : ∀ᵐ d ∂(stepLaw n), 0 < M.timeSpent s d := by
      rw [← mem_ae_iff_prob_eq_one] at h1
      · exact h1
      · exact (M.measurable_timeSpent s) measurableSet_Ioi
    filter_upwards [h2] with d hd using hd.le
  rw [lintegral_eq_lintegral_meas_lt _ hnn (M.measurable_timeSpent s).aemeasurable]
  unfold expectedTime lateProb
  by_cases hz : ∃ j, M.matrix s j = 0
  · rw [if_pos hz]
    have e : Set.Ioi (0:ℝ) = Set.Ioo 0 1024 ∪ Set.Ici 1024 := (Set.Ioo_union_Ici_eq_Ioi (by norm_num)).symm
    rw [e, lintegral_union measurableSet_Ici (Set.disjoint_left.2 (fun x hx hy => absurd hx.2 (not_lt.2 hy)))]
    have e1 : ∫⁻ t in Set.Ici 1024, stepLaw n {d | t < M.timeSpent s d} = 0 := by
      rw [setLIntegral_congr_fun (g := fun _ => 0) measurableSet_Ici, lintegral_zero]
      intro t ht
      have : {d | t < M.timeSpent s d} = ∅ := by
        ext d
        simp only [Set.mem_ofPred_eq, Set.mem_empty_iff_false, iff_false, not_lt]
        exact (M.time_bounded s hz d).trans ht
      simp only [this, measure_empty]
    have e2 : ∫⁻ t in Set.Ioo 0 1024, stepLaw n {d | t < M.timeSpent s d}
        = ∫⁻ t in Set.Ioo 0 1024, ENNReal.ofReal (1 * Real.exp (-(M.e s) * t)) := by
      refine setLIntegral_congr_fun measurableSet_Ioo (fun t ht => ?_)
      simp only [one_mul]
      exact M.time_law_partial h0 s t ht.1.le (Or.inl ht.2)
    rw [e1, e2, add_zero, setLIntegral_congr Ioo_ae_eq_Ico, integral_race zero_le_one he (by norm_num)]
    simp [CTMC.e]
  · rw [if_neg hz]
    have e2 : ∫⁻ t in Set.Ioi 0, stepLaw n {d | t < M.timeSpent s d}
        = ∫⁻ t in Set.Ioi 0, ENNReal.ofReal (1 * Real.exp (-(M.e s) * t)) := by
      refine setLIntegral_congr_fun measurableSet_Ioi (fun t ht => ?_)
      simp only [one_mul]
      exact M.time_law_partial h0 s t (le_of_lt ht) (Or.inr (fun j => lt_of_le_of_ne (h0 s j) (fun h => hz ⟨j, h.symm⟩)))
    rw [e2, setLIntegral_congr Ioi_ae_eq_Ici, integral_race_top zero_le_one he]
    simp

/-! ### Untimed runs -/

variable [DecidableEq L]

theorem runLoop_succ_iff (M : CTMC ℝ L n) (steps : ℕ) (d : ℕ → Fin n → ℝ) (s : Fin n) (o : L) (w : List L) :
    M.runLoop (steps+1) d s = .ok (o :: w) ↔
      M.labelling s = o ∧ ∃ i, d 0 ∈ M.stepSet s i Set.univ ∧ M.runLoop steps (fun k => d (k+1)) i = .ok w := by
  simp only [runLoop]
  constructor
  · intro h
    rw [Except.bind_eq_ok] at h
    obtain ⟨⟨l, c, t⟩, h1, h2⟩ := h
    rw [Except.bind_eq_ok] at h2
    obtain ⟨rest, h2, h3⟩ := h2
    injection h3 with h3
    injection h3 with h3 h4
    subst h3 h4
    obtain ⟨h5, h6⟩ := (M.next_iff s _ _ _ _).1 h1
    exact ⟨h5, c, ⟨trivial, h6.2⟩, h2⟩
  · rintro ⟨rfl, i, h1, h2⟩
    have h3 : d 0 ∈ M.stepSet s i {ringTimes (M.matrix s) (d 0) i} := ⟨rfl, h1.2⟩
    rw [(M.next_iff s _ (M.labelling s) i _).2 ⟨rfl, h3⟩]
    simp only [bind, Except.bind, pure, Except.pure, h2]

theorem runLoop_length (M : CTMC ℝ L n) (steps : ℕ) (d : ℕ → Fin n → ℝ) (s : Fin n) (w : List L) (h : M.runLoop steps d s = .ok w) :
    w.length = steps + 1 := by
  induction steps generalizing d s w with
  | zero =>
    injection h with h
    subst h
    rfl
  | succ steps ih =>
    cases w with
    | nil =>
      simp only [runLoop] at h
      rw [Except.bind_eq_ok] at h
      obtain ⟨_, _, h⟩ := h
      rw [Except.bind_eq_ok] at h
      obtain ⟨_, _, h⟩ := h
      injection h with h
      exact absurd h (by simp)
    | cons o w =>
      obtain ⟨_, i, _, h⟩ := (M.runLoop_succ_iff steps d s o w).1 h
      simp [ih _ _ _ h]

theorem measurable_runLoop (M : CTMC ℝ L n) (steps : ℕ) (s : Fin n) (w : List L) :
    MeasurableSet {d | M.runLoop steps d s = .ok w} := by
  induction steps generalizing s w with
  | zero => simp only [runLoop]; exact MeasurableSet.const _
  | succ steps ih =>
    cases w with
    | nil =>
      convert MeasurableSet.empty
      ext d
      simp only [Set.mem_ofPred_eq, Set.mem_empty_iff_false, iff_false]
      intro h
      have := M.runLoop_length _ _ _ _ h
      simp at this
    | cons o w =>
      simp only [runLoop_succ_iff]
      refine MeasurableSet.inter (MeasurableSet.const _) ?_
      exact measurable_clocks_bind (fun i => M.stepSet s i Set.univ) (fun i => M.measurable_stepSet s i MeasurableSet.univ)
        (fun i => {d | M.runLoop steps d i = .ok w}) (fun i => ih i w)

/-- 1 if the state carries the label. -/
def shows (M : CTMC ℝ L n) (s : Fin n) (o : L) : ℝ := if M.labelling s = o then 1 else 0

theorem shows_nonneg (M : CTMC ℝ L n) (s : Fin n) (o : L) : 0 ≤ M.shows s o := by unfold shows; split_ifs <;> norm_num

theorem runLoop_law (M : CTMC ℝ L n) (h0 : ∀ s s', 0 ≤ M.matrix s s') (steps : ℕ) (s : Fin n) (w : List L)
    (hw : w.length = steps + 1) :
    clocksLaw n {d | M.runLoop steps d s = .ok w} = ENNReal.ofReal (sufProb M.simProb M.shows s w) := by
  induction steps generalizing s w with
  | zero =>
    obtain ⟨o, rfl⟩ := List.length_eq_one_iff.1 hw
    by_cases h : M.labelling s = o
    · have : {d : ℕ → Fin n → ℝ | M.runLoop 0 d s = .ok [o]} = Set.univ := by
        ext d; simp [runLoop, h]
      rw [this, measure_univ]
      simp [sufProb, shows, h]
    · have : {d : ℕ → Fin n → ℝ | M.runLoop 0 d s = .ok [o]} = ∅ := by
        ext d; simp [runLoop, h]
      rw [this, measure_empty]
      simp [sufProb, shows, h]
  | succ steps ih =>
    cases w with
    | nil => simp at hw
    | cons o w =>
      cases w with
      | nil => simp at hw
      | cons o' w =>
        simp only [runLoop_succ_iff]
        simp only [sufProb]
        by_cases h : M.labelling s = o
        · simp only [shows, h, true_and, if_true, one_mul]
          have := clocks_bind (fun i => M.stepSet s i Set.univ) (fun i => M.measurable_stepSet s i MeasurableSet.univ)
            (M.stepSet_disjoint s Set.univ) (fun i => {d | M.runLoop steps d i = .ok (o' :: w)}) (fun i => M.measurable_runLoop steps i _)
          refine this.trans ?_
          rw [ENNReal.ofReal_sum_of_nonneg]
          · apply Finset.sum_congr rfl
            intro i _
            rw [ih i (o' :: w) (by simpa using hw), ENNReal.ofReal_mul (M.simProb_nonneg h0 _ _), M.stepSet_univ h0]
          · intro i _
            exact mul_nonneg (M.simProb_nonneg h0 _ _) (sufProb_nonneg _ _ (M.simProb_nonneg h0) M.shows_nonneg _ _)
        · simp [shows, h]

/-- C82: the probability that `run(number_steps)` returns a given trace is the likelihood of that trace in the Markov chain whose
transition probabilities are `simProb`. -/
theorem run_law (M : CTMC ℝ L n) (hM : M.Valid) (hi : ∑ s, M.initialState s = 1) (steps : ℕ) (w : List L)
    (hw : w.length = steps + 1) :
    simLaw n {p | M.run steps p.1 p.2 = .ok w}
      = ENNReal.ofReal (listProb M.initialState M.simProb (fun s o => if M.labelling s = o then 1 else 0) w) := by
  cases w with
  | nil => simp at hw
  | cons o os =>
    have e : {p : ℝ × (ℕ → Fin n → ℝ) | M.run steps p.1 p.2 = .ok (o :: os)}
        = {p | ∃ i, pick M.initialState p.1 = .ok i ∧ p.2 ∈ {d | M.runLoop steps d i = .ok (o :: os)}} := by
      ext p
      simp only [Set.mem_ofPred_eq, run]
      rw [Except.bind_eq_ok]
    rw [e, sim_bind _ hM.1 hi.le _ (fun i => M.measurable_runLoop steps i _), listProb_eq_sufProb, ENNReal.ofReal_sum_of_nonneg]
    · apply Finset.sum_congr rfl
      intro i _
      rw [M.runLoop_law hM.2 steps i _ hw, ENNReal.ofReal_mul (hM.1 _)]
      rfl
    · intro i _
      exact mul_nonneg (hM.1 _) (sufProb_nonneg _ _ (M.simProb_nonneg hM.2) M.shows_nonneg _ _)

theorem seqProb_embedded (M : CTMC ℝ L n) (w : List L) (hw : w ≠ []) :
    M.iface.seqProb w = .ok (listProb M.initialState (fun s s' => M.matrix s s' / M.e s)
      (fun s o => if M.labelling s = o then 1 else 0) w) := by
  refine Iface.seqProb_eq M.iface (fun s s' => M.matrix s s' / M.e s) (fun s s' o => ?_) w hw
  show M.tau s s' o = M.matrix s s' / M.e s * M.b s o
  unfold tau l b
  by_cases h : M.labelling s = o
  · rw [if_neg (not_not.2 h), if_pos h, mul_one]
  · rw [if_pos h, if_neg h, zero_div, mul_zero]

/-- C82: if all the rates are positive, the probability that `run(number_steps)` returns a given trace is its likelihood. -/
theorem run_law_partial (M : CTMC ℝ L n) (hM : M.Valid) (hi : ∑ s, M.initialState s = 1) (hpos : ∀ s s', 0 < M.matrix s s')
    (steps : ℕ) (w : List L) (hw : w.length = steps + 1) :
    ∃ p, M.iface.seqProb w = .ok p ∧ simLaw n {p | M.run steps p.1 p.2 = .ok w} = ENNReal.ofReal p := by
  refine ⟨_, M.seqProb_embedded w (by rintro rfl; simp at hw), ?_⟩
  rw [M.run_law hM hi steps w hw]
  have : M.simProb = fun s s' => M.matrix s s' / M.e s := by
    funext s s'
    unfold simProb lateProb
    rw [if_pos (hpos s s'), if_neg (by rintro ⟨j, hj⟩; exact (hpos s j).ne' hj), sub_zero, mul_one]
    rfl
  rw [this]

/-- `simProb` is the embedded chain, where the first state of rate 0 has taken a part of the probability. -/
theorem simProb_eq (M : CTMC ℝ L n) (h0 : ∀ s s', 0 ≤ M.matrix s s') (s : Fin n) :
    ∃ i0, ∀ f : Fin n → ℝ, ∑ i, M.simProb s i * f i
      = (1 - M.lateProb s) * (∑ i, M.matrix s i / M.e s * f i) + M.lateProb s * f i0 := by
  by_cases hz : ∃ j, M.matrix s j = 0
  · have hne : (Finset.univ.filter (fun j => M.matrix s j = 0)).Nonempty := by
      obtain ⟨j, hj⟩ := hz
      exact ⟨j, by simp [hj]⟩
    set i0 := (Finset.univ.filter (fun j => M.matrix s j = 0)).min' hne with hi0
    have h1 : M.matrix s i0 = 0 := (Finset.mem_filter.1 (Finset.min'_mem _ hne)).2
    have h2 : ∀ j < i0, 0 < M.matrix s j := by
      intro j hj
      refine lt_of_le_of_ne (h0 s j) (fun h => ?_)
      exact absurd (Finset.min'_le _ j (Finset.mem_filter.2 ⟨Finset.mem_univ _, h.symm⟩)) (not_le.2 hj)
    refine ⟨i0, fun f => ?_⟩
    have : ∀ i, M.simProb s i = (1 - M.lateProb s) * (M.matrix s i / M.e s) + (if i = i0 then M.lateProb s else 0) := by
      intro i
      unfold simProb
      by_cases hi : 0 < M.matrix s i
      · rw [if_pos hi, if_neg (fun h => by rw [h, h1] at hi; exact lt_irrefl _ hi), add_zero]
        unfold CTMC.e
        ring
      · have hi' : M.matrix s i = 0 := le_antisymm (not_lt.1 hi) (h0 s i)
        rw [if_neg hi, hi', zero_div, mul_zero, zero_add]
        by_cases h : i = i0
        · rw [if_pos (h ▸ h2), if_pos h]
        · rw [if_neg h, if_neg]
          intro hc
          rcases lt_trichotomy i i0 with g | g | g
          · exact absurd (h2 i g) hi
          · exact h g
          · have := hc i0 g
            rw [h1] at this
            exact lt_irrefl _ this
    simp only [this, add_mul, Finset.sum_add_distrib, ite_mul, zero_mul, Finset.sum_ite_eq', Finset.mem_univ, if_true, Finset.mul_sum,
      mul_assoc]
  · refine ⟨s, fun f => ?_⟩
    have hl : M.lateProb s = 0 := by unfold lateProb; rw [if_neg hz]
    rw [hl, sub_zero, one_mul, zero_mul, add_zero]
    refine Finset.sum_congr rfl (fun i _ => ?_)
    unfold simProb
    rw [if_pos (lt_of_le_of_ne (h0 s i) (fun h => hz ⟨i, h.symm⟩)), hl, sub_zero, mul_one]
    rfl

theorem sufProb_bounds (M : CTMC ℝ L n) (h0 : ∀ s s', 0 ≤ M.matrix s s') (he : ∀ s, 0 < M.e s) (s : Fin n) (w : List L) :
    0 ≤ sufProb (fun s s' => M.matrix s s' / M.e s) M.shows s w ∧ sufProb (fun s s' => M.matrix s s' / M.e s) M.shows s w ≤ 1 := by
  refine ⟨sufProb_nonneg _ _ (fun s s' => div_nonneg (h0 s s') (he s).le) M.shows_nonneg _ _, ?_⟩
  induction w generalizing s with
  | nil => simp [sufProb]
  | cons o w ih =>
    have hs : M.shows s o ≤ 1 := by unfold shows; split_ifs <;> norm_num
    cases w with
    | nil => exact hs
    | cons o' w =>
      simp only [sufProb]
      have : ∑ s', M.matrix s s' / M.e s * sufProb (fun s s' => M.matrix s s' / M.e s) M.shows s' (o' :: w) ≤ 1 := by
        calc _ ≤ ∑ s', M.matrix s s' / M.e s := Finset.sum_le_sum (fun s' _ =>
              mul_le_of_le_one_right (div_nonneg (h0 s s') (he s).le) (ih s'))
          _ = 1 := by rw [← Finset.sum_div]; exact div_self (he s).ne'
      exact mul_le_one₀ hs (Finset.sum_nonneg (fun s' _ => mul_nonneg (div_nonneg (h0 s s') (he s).le)
        (sufProb_nonneg _ _ (fun s s' => div_nonneg (h0 s s') (he s).le) M.shows_nonneg _ _))) this

theorem sufProb_close (M : CTMC ℝ L n) (h0 : ∀ s s', 0 ≤ M.matrix s s') (he : ∀ s, 0 < M.e s) (ε : ℝ)
    (hε : ∀ s, M.lateProb s ≤ ε) (steps : ℕ) (s : Fin n) (w : List L) (hw : w.length = steps + 1) :
    |sufProb M.simProb M.shows s w - sufProb (fun s s' => M.matrix s s' / M.e s) M.shows s w| ≤ steps * ε := by
  induction steps generalizing s w with
  | zero =>
    obtain ⟨o, rfl⟩ := List.length_eq_one_iff.1 hw
    simp [sufProb]
  | succ steps ih =>
    cases w with
    | nil => simp at hw
    | cons o w =>
      cases w with
      | nil => simp at hw
      | cons o' w =>
        simp only [sufProb]
        rw [← mul_sub, abs_mul, abs_of_nonneg (M.shows_nonneg s o)]
        have hs : M.shows s o ≤ 1 := by unfold shows; split_ifs <;> norm_num
        refine (mul_le_of_le_one_left (abs_nonneg _) hs).trans ?_
        obtain ⟨i0, hsum⟩ := M.simProb_eq h0 s
        set u' : Fin n → ℝ := fun i => sufProb M.simProb M.shows i (o' :: w) with hu'
        set u : Fin n → ℝ := fun i => sufProb (fun s s' => M.matrix s s' / M.e s) M.shows i (o' :: w) with hu
        have hclose : ∀ i, |u' i - u i| ≤ steps * ε := fun i => ih i (o' :: w) (by simpa using hw)
        have hb : ∀ i, 0 ≤ u i ∧ u i ≤ 1 := fun i => M.sufProb_bounds h0 he i (o' :: w)
        have ha : ∀ i, 0 ≤ M.matrix s i / M.e s := fun i => div_nonneg (h0 s i) (he s).le
        have hsum1 : ∑ i, M.matrix s i / M.e s = 1 := by rw [← Finset.sum_div]; exact div_self (he s).ne'
        have hd0 := M.lateProb_nonneg s
        have hd1 := M.lateProb_le_one h0 s
        show |∑ i, M.simProb s i * u' i - ∑ i, M.matrix s i / M.e s * u i| ≤ _
        have e : ∑ i, M.simProb s i * u' i - ∑ i, M.matrix s i / M.e s * u i
            = (1 - M.lateProb s) * (∑ i, M.matrix s i / M.e s * (u' i - u i)) + M.lateProb s * (u' i0 - u i0)
              + M.lateProb s * (u i0 - ∑ i, M.matrix s i / M.e s * u i) := by
          rw [hsum u']
          simp only [mul_sub, Finset.sum_sub_distrib]
          ring
        rw [e]
        have h1 : |∑ i, M.matrix s i / M.e s * (u' i - u i)| ≤ steps * ε := by
          refine (Finset.abs_sum_le_sum_abs _ _).trans ?_
          calc _ ≤ ∑ i, M.matrix s i / M.e s * (steps * ε) := Finset.sum_le_sum (fun i _ => by
                rw [abs_mul, abs_of_nonneg (ha i)]
                exact mul_le_mul_of_nonneg_left (hclose i) (ha i))
            _ = steps * ε := by rw [← Finset.sum_mul, hsum1, one_mul]
        have h2 : |u i0 - ∑ i, M.matrix s i / M.e s * u i| ≤ 1 := by
          have l1 : 0 ≤ ∑ i, M.matrix s i / M.e s * u i := Finset.sum_nonneg (fun i _ => mul_nonneg (ha i) (hb i).1)
          have l2 : ∑ i, M.matrix s i / M.e s * u i ≤ 1 := by
            calc _ ≤ ∑ i, M.matrix s i / M.e s := Finset.sum_le_sum (fun i _ => mul_le_of_le_one_right (ha i) (hb i).2)
              _ = 1 := hsum1
          rw [abs_le]
          constructor <;> linarith [(hb i0).1, (hb i0).2]
        rw [abs_le] at h1 h2 ⊢
        have h3 := abs_le.1 (hclose i0)
        have := hε s
        push_cast
        constructor <;> nlinarith [mul_le_mul_of_nonneg_left h1.1 (sub_nonneg.2 hd1), mul_le_mul_of_nonneg_left h1.2 (sub_nonneg.2 hd1),
          mul_le_mul_of_nonneg_left h2.1 hd0, mul_le_mul_of_nonneg_left h2.2 hd0, mul_le_mul_of_nonneg_left h3.1 hd0,
          mul_le_mul_of_nonneg_left h3.2 hd0]

/-- C82: when every exit rate is at least `ρ > 0`, the probability that `run(number_steps)` returns a given trace differs from its
likelihood by at most `number_steps * exp(-1024 * ρ)`. -/
theorem run_law_close_partial (M : CTMC ℝ L n) (hM : M.Valid) (hi : ∑ s, M.initialState s = 1) (ρ : ℝ) (hρ : 0 < ρ)
    (he : ∀ s, ρ ≤ M.e s) (steps : ℕ) (w : List L) (hw : w.length = steps + 1) :
    ∃ p, M.iface.seqProb w = .ok p ∧
      |(simLaw n {p | M.run steps p.1 p.2 = .ok w}).toReal - p| ≤ steps * Real.exp (-1024 * ρ) := by
  refine ⟨_, M.seqProb_embedded w (by rintro rfl; simp at hw), ?_⟩
  rw [M.run_law hM hi steps w hw]
  cases w with
  | nil => simp at hw
  | cons o os =>
    rw [listProb_eq_sufProb, listProb_eq_sufProb, ENNReal.toReal_ofReal]
    · rw [← Finset.sum_sub_distrib]
      refine (Finset.abs_sum_le_sum_abs _ _).trans ?_
      calc _ ≤ ∑ s, M.initialState s * (steps * Real.exp (-1024 * ρ)) := Finset.sum_le_sum (fun s _ => by
            rw [← mul_sub, abs_mul, abs_of_nonneg (hM.1 s)]
            refine mul_le_mul_of_nonneg_left ?_ (hM.1 s)
            refine M.sufProb_close hM.2 (fun s => lt_of_lt_of_le hρ (he s)) _ (fun s => ?_) steps s (o :: os) hw
            unfold lateProb
            split_ifs
            · rw [Real.exp_le_exp]
              have := he s
              unfold CTMC.e at this
              nlinarith
            · exact (Real.exp_pos _).le)
        _ = steps * Real.exp (-1024 * ρ) := by rw [← Finset.sum_mul, hi, one_mul]
    · exact Finset.sum_nonneg (fun s _ => mul_nonneg (hM.1 s) (sufProb_nonneg _ _ (M.simProb_nonneg hM.2) M.shows_nonneg _ _))

end CTMC
end Jajapy
