import Verif.Lemmas.Averages

set_option linter.unusedSectionVars false

/-!
Random traces made of observations from a finite set and of real times.
-/

namespace Jajapy

open MeasureTheory ProbabilityTheory Spec Filter Topology

variable {Ω T L : Type} [MeasurableSpace Ω] {k : ℕ}

/-- The draws with which the trace has the observations `o` and its times in the sets `A`. -/
def boxSet (run : Ω → Py T) (mk : (Fin k → L) → (Fin k → ℝ) → L → T) (o : (Fin k → L) × L) (A : Fin k → Set ℝ) : Set Ω :=
  {p | ∃ ts, (∀ i, ts i ∈ A i) ∧ run p = .ok (mk o.1 ts o.2)}

/-- The value of a function on the returned trace. -/
def onTrace (f : T → ℝ) : Py T → ℝ
  | .ok w => f w
  | .error _ => 0

/-- A random timed trace: almost surely its observations are in the finite set `F`. -/
structure TimedRun (μ : Measure Ω) (run : Ω → Py T) (mk : (Fin k → L) → (Fin k → ℝ) → L → T) (F : Finset ((Fin k → L) × L)) : Prop where
  inj : ∀ (o o' : (Fin k → L) × L) (ts ts' : Fin k → ℝ), mk o.1 ts o.2 = mk o'.1 ts' o'.2 → o = o' ∧ ts = ts'
  meas : ∀ o (A : Fin k → Set ℝ), (∀ i, MeasurableSet (A i)) → MeasurableSet (boxSet run mk o A)
  total : ∀ᵐ p ∂μ, ∃ o ∈ F, ∃ ts, (∀ i, 0 ≤ ts i) ∧ run p = .ok (mk o.1 ts o.2)

namespace TimedRun
variable {μ : Measure Ω} {run : Ω → Py T} {mk : (Fin k → L) → (Fin k → ℝ) → L → T} {F : Finset ((Fin k → L) × L)}

open Classical in
/-- The times of the trace. -/
noncomputable def times (run : Ω → Py T) (mk : (Fin k → L) → (Fin k → ℝ) → L → T) (F : Finset ((Fin k → L) × L)) (p : Ω) : Fin k → ℝ :=
  if h : ∃ ts, ∃ o ∈ F, run p = .ok (mk o.1 ts o.2) then h.choose else 0

theorem times_eq (R : TimedRun μ run mk F) (p : Ω) (o : (Fin k → L) × L) (ho : o ∈ F) (ts : Fin k → ℝ) (h : run p = .ok (mk o.1 ts o.2)) :
    times run mk F p = ts := by
  have h' : ∃ ts, ∃ o ∈ F, run p = .ok (mk o.1 ts o.2) := ⟨ts, o, ho, h⟩
  unfold times
  rw [dif_pos h']
  obtain ⟨o', -, h2⟩ := h'.choose_spec
  have := h.symm.trans h2
  injection this with this
  exact (R.inj _ _ _ _ this).2.symm

/-- The draws that give the observations `o`. -/
def event (run : Ω → Py T) (mk : (Fin k → L) → (Fin k → ℝ) → L → T) (o : (Fin k → L) × L) : Set Ω := boxSet run mk o (fun _ => Set.univ)

theorem measurable_event (R : TimedRun μ run mk F) (o : (Fin k → L) × L) : MeasurableSet (event run mk o) :=
  R.meas o _ (fun _ => MeasurableSet.univ)

theorem boxSet_eq (R : TimedRun μ run mk F) (o : (Fin k → L) × L) (ho : o ∈ F) (A : Fin k → Set ℝ) :
    boxSet run mk o A = event run mk o ∩ times run mk F ⁻¹' (Set.pi Set.univ A) := by
  ext p
  simp only [event, boxSet, Set.mem_inter_iff, Set.mem_ofPred_eq, Set.mem_preimage, Set.mem_pi, Set.mem_univ, true_implies, implies_true, true_and]
  constructor
  · rintro ⟨ts, h1, h2⟩
    exact ⟨⟨ts, h2⟩, by rw [R.times_eq p o ho ts h2]; exact h1⟩
  · rintro ⟨⟨ts, h2⟩, h1⟩
    rw [R.times_eq p o ho ts h2] at h1
    exact ⟨ts, h1, h2⟩

theorem measurable_times (R : TimedRun μ run mk F) : Measurable (times run mk F) := by
  classical
  refine measurable_pi_iff.2 (fun i => ?_)
  intro B hB
  set A : Fin k → Set ℝ := fun j => if j = i then B else Set.univ with hA
  have mA : ∀ j, MeasurableSet (A j) := by
    intro j
    simp only [hA]
    split_ifs
    · exact hB
    · exact MeasurableSet.univ
  have e : (fun p => times run mk F p i) ⁻¹' B
      = (⋃ o ∈ F, boxSet run mk o A) ∪ ((⋃ o ∈ F, event run mk o)ᶜ ∩ {_p | (0:ℝ) ∈ B}) := by
    ext p
    by_cases h : ∃ ts, ∃ o ∈ F, run p = .ok (mk o.1 ts o.2)
    · obtain ⟨ts, o, ho, hr⟩ := h
      have hu : p ∈ ⋃ o ∈ F, event run mk o := Set.mem_iUnion₂.2 ⟨o, ho, ts, fun _ => Set.mem_univ _, hr⟩
      simp only [Set.mem_preimage, R.times_eq p o ho ts hr, Set.mem_union, Set.mem_inter_iff, Set.mem_compl_iff, hu, not_true_eq_false,
        false_and, or_false, Set.mem_iUnion]
      constructor
      · intro h
        refine ⟨o, ho, ts, fun j => ?_, hr⟩
        simp only [hA]
        split_ifs with hj
        · exact hj ▸ h
        · exact Set.mem_univ _
      · rintro ⟨o', ho', ts', h1, h2⟩
        have := hr.symm.trans h2
        injection this with this
        rw [(R.inj _ _ _ _ this).2]
        have := h1 i
        simpa [hA] using this
    · have hu : p ∉ ⋃ o ∈ F, event run mk o := by
        intro hc
        obtain ⟨o, ho, ts, -, hr⟩ := Set.mem_iUnion₂.1 hc
        exact h ⟨ts, o, ho, hr⟩
      have hb : p ∉ ⋃ o ∈ F, boxSet run mk o A := by
        intro hc
        obtain ⟨o, ho, ts, -, hr⟩ := Set.mem_iUnion₂.1 hc
        exact h ⟨ts, o, ho, hr⟩
      have e0 : times run mk F p = 0 := by unfold times; rw [dif_neg h]
      simp only [Set.mem_preimage, e0, Pi.zero_apply, Set.mem_union, hb, false_or, Set.mem_inter_iff, Set.mem_compl_iff, hu,
        not_false_eq_true, true_and, Set.mem_ofPred_eq]
  rw [e]
  exact (Finset.measurableSet_biUnion F (fun o _ => R.meas o A mA)).union
    ((Finset.measurableSet_biUnion F (fun o _ => R.measurable_event o)).compl.inter (MeasurableSet.const _))

/-- The value of `f` on the trace, as a measurable function. -/
noncomputable def value (run : Ω → Py T) (mk : (Fin k → L) → (Fin k → ℝ) → L → T) (F : Finset ((Fin k → L) × L)) (f : T → ℝ) (p : Ω) : ℝ :=
  ∑ o ∈ F, (event run mk o).indicator (fun p => f (mk o.1 (times run mk F p) o.2)) p

theorem value_eq (R : TimedRun μ run mk F) (f : T → ℝ) (p : Ω) (o : (Fin k → L) × L) (ho : o ∈ F) (ts : Fin k → ℝ)
    (h : run p = .ok (mk o.1 ts o.2)) : value run mk F f p = f (mk o.1 ts o.2) := by
  unfold value
  rw [Finset.sum_eq_single o]
  · rw [Set.indicator_of_mem (show p ∈ event run mk o from ⟨ts, fun _ => Set.mem_univ _, h⟩), R.times_eq p o ho ts h]
  · intro o' _ hne
    refine Set.indicator_of_notMem ?_ _
    rintro ⟨ts', -, h'⟩
    have := h.symm.trans h'
    injection this with this
    exact hne (R.inj _ _ _ _ this).1.symm
  · intro h; exact absurd ho h

theorem measurable_value (R : TimedRun μ run mk F) (f : T → ℝ) (hf : ∀ o ∈ F, Measurable (fun ts => f (mk o.1 ts o.2))) :
    Measurable (value run mk F f) :=
  Finset.measurable_sum _ (fun o ho => ((hf o ho).comp R.measurable_times).indicator (R.measurable_event o))

theorem value_ae (R : TimedRun μ run mk F) (f : T → ℝ) : ∀ᵐ p ∂μ, onTrace f (run p) = value run mk F f p := by
  filter_upwards [R.total] with p hp
  obtain ⟨o, ho, ts, -, h⟩ := hp
  rw [R.value_eq f p o ho ts h, h]
  rfl

/-- The law of the times, on the event that the observations are `o`. -/
theorem map_times [IsFiniteMeasure μ] (R : TimedRun μ run mk F) (dens : (Fin k → ℝ) → ℝ) (o : (Fin k → L) × L) (ho : o ∈ F)
    (law : ∀ A : Fin k → Set ℝ, (∀ i, MeasurableSet (A i)) → (∀ i, A i ⊆ Set.Ici 0) →
      μ (boxSet run mk o A) = ∫⁻ ts in Set.pi Set.univ A, ENNReal.ofReal (dens ts)) :
    (μ.restrict (event run mk o)).map (times run mk F)
      = (volume.restrict (Set.pi Set.univ (fun _ : Fin k => Set.Ici (0:ℝ)))).withDensity (fun ts => ENNReal.ofReal (dens ts)) := by
  have hbox : ∀ A : Fin k → Set ℝ, (∀ i, MeasurableSet (A i)) → (μ.restrict (event run mk o)).map (times run mk F) (Set.pi Set.univ A)
      = (volume.restrict (Set.pi Set.univ (fun _ : Fin k => Set.Ici (0:ℝ)))).withDensity (fun ts => ENNReal.ofReal (dens ts)) (Set.pi Set.univ A) := by
    intro A hA
    have mA := MeasurableSet.univ_pi hA
    rw [Measure.map_apply R.measurable_times mA, Measure.restrict_apply (R.measurable_times mA), Set.inter_comm, ← R.boxSet_eq o ho A,
      withDensity_apply _ mA, Measure.restrict_restrict mA, ← Set.pi_inter_distrib,
      ← law (fun i => A i ∩ Set.Ici 0) (fun i => (hA i).inter measurableSet_Ici) (fun i => Set.inter_subset_right)]
    refine measure_congr ?_
    filter_upwards [R.total] with p hp
    obtain ⟨o', -, ts, h0, h⟩ := hp
    refine propext ⟨?_, ?_⟩
    · rintro ⟨ts', h1, h2⟩
      have := h.symm.trans h2
      injection this with this
      obtain ⟨-, rfl⟩ := R.inj _ _ _ _ this
      exact ⟨_, fun i => ⟨h1 i, h0 i⟩, h2⟩
    · rintro ⟨ts', h1, h2⟩
      exact ⟨ts', fun i => (h1 i).1, h2⟩
  refine ext_of_generate_finite _ generateFrom_pi.symm isPiSystem_pi ?_ ?_
  · rintro s ⟨A, hA, rfl⟩
    exact hbox A (fun i => hA i (Set.mem_univ i))
  · have := hbox (fun _ => Set.univ) (fun _ => MeasurableSet.univ)
    rwa [Set.pi_univ] at this

/-- The expected value of a function of the trace. -/
theorem integral_value [IsFiniteMeasure μ] (R : TimedRun μ run mk F) (dens : (Fin k → L) × L → (Fin k → ℝ) → ℝ) (hd : ∀ o ∈ F, Measurable (dens o))
    (hd0 : ∀ o ∈ F, ∀ ts, 0 ≤ dens o ts)
    (law : ∀ o ∈ F, ∀ A : Fin k → Set ℝ, (∀ i, MeasurableSet (A i)) → (∀ i, A i ⊆ Set.Ici 0) →
      μ (boxSet run mk o A) = ∫⁻ ts in Set.pi Set.univ A, ENNReal.ofReal (dens o ts))
    (f : T → ℝ) (hf : ∀ o ∈ F, Measurable (fun ts => f (mk o.1 ts o.2)))
    (hi : ∀ o ∈ F, IntegrableOn (fun ts => dens o ts * f (mk o.1 ts o.2)) (Set.pi Set.univ (fun _ : Fin k => Set.Ici (0:ℝ)))) :
    Integrable (value run mk F f) μ ∧ ∫ p, onTrace f (run p) ∂μ
      = ∑ o ∈ F, ∫ ts in Set.pi Set.univ (fun _ : Fin k => Set.Ici (0:ℝ)), dens o ts * f (mk o.1 ts o.2) := by
  have key : ∀ o ∈ F, Integrable ((event run mk o).indicator (fun p => f (mk o.1 (times run mk F p) o.2))) μ ∧
      ∫ p, (event run mk o).indicator (fun p => f (mk o.1 (times run mk F p) o.2)) p ∂μ
        = ∫ ts in Set.pi Set.univ (fun _ : Fin k => Set.Ici (0:ℝ)), dens o ts * f (mk o.1 ts o.2) := by
    intro o ho
    have hm := R.map_times (dens o) o ho (law o ho)
    have hdm : Measurable (fun ts => ENNReal.ofReal (dens o ts)) := (hd o ho).ennreal_ofReal
    have h1 : Integrable (fun ts => f (mk o.1 ts o.2)) ((μ.restrict (event run mk o)).map (times run mk F)) := by
      rw [hm, integrable_withDensity_iff_integrable_smul' hdm (Eventually.of_forall (fun _ => ENNReal.ofReal_lt_top))]
      refine (hi o ho).congr (Eventually.of_forall (fun ts => ?_))
      simp only [smul_eq_mul]
      rw [ENNReal.toReal_ofReal (hd0 o ho ts)]
    refine ⟨(integrable_indicator_iff (R.measurable_event o)).2 (h1.comp_measurable R.measurable_times), ?_⟩
    rw [integral_indicator (R.measurable_event o), ← integral_map (f := fun ts => f (mk o.1 ts o.2)) R.measurable_times.aemeasurable (hf o ho).aestronglyMeasurable, hm,
      integral_withDensity_eq_integral_toReal_smul hdm (Eventually.of_forall (fun _ => ENNReal.ofReal_lt_top))]
    refine integral_congr_ae (Eventually.of_forall (fun ts => ?_))
    simp only [smul_eq_mul]
    rw [ENNReal.toReal_ofReal (hd0 o ho ts)]
  refine ⟨integrable_finsetSum _ (fun o ho => (key o ho).1), ?_⟩
  rw [integral_congr_ae (R.value_ae f)]
  unfold value
  rw [integral_finsetSum _ (fun o ho => (key o ho).1)]
  exact Finset.sum_congr rfl (fun o ho => (key o ho).2)

end TimedRun
end Jajapy
