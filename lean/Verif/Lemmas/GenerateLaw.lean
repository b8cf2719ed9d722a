import Verif.Props.Generate
import Verif.Lemmas.Streams

set_option linter.unusedSectionVars false

namespace Jajapy

open MeasureTheory ProbabilityTheory Spec Filter Topology

variable {Ω : Type} [MeasurableSpace Ω] (μ : Measure Ω) [IsProbabilityMeasure μ] {O : Type} [DecidableEq O]

/-- What is used of a simulator called with `k` steps: the traces belong to a countable set, the events are measurable and there
is a trace almost surely. -/
structure Simulates (sim : Ω → Py (List O)) (W : Set (List O)) : Prop where
  countable : W.Countable
  mem : ∀ ω w, sim ω = .ok w → w ∈ W
  meas : ∀ w, MeasurableSet {ω | sim ω = .ok w}
  total : μ {ω | ∃ w, sim ω = .ok w} = 1

variable {μ} {sim : Ω → Py (List O)} {W : Set (List O)}

theorem Simulates.meas_ok (h : Simulates μ sim W) : MeasurableSet {ω | ∃ w, sim ω = .ok w} := by
  have : {ω | ∃ w, sim ω = .ok w} = ⋃ w ∈ W, {ω | sim ω = .ok w} := by
    ext ω
    simp only [Set.mem_ofPred_eq, Set.mem_iUnion, exists_prop]
    exact ⟨fun ⟨w, hw⟩ => ⟨w, h.mem ω w hw, hw⟩, fun ⟨w, _, hw⟩ => ⟨w, hw⟩⟩
  rw [this]
  exact MeasurableSet.biUnion h.countable (fun w _ => h.meas w)

theorem Simulates.all_ok (h : Simulates μ sim W) : ∀ᵐ D ∂callsLaw μ, ∀ j : ℕ, ∃ w, sim (D j) = .ok w :=
  calls_all μ _ h.meas_ok h.total

/-- The number of times a trace is returned. -/
theorem count_eq_occ (tr : ℕ → List O) (N : ℕ) (w : List O) (D : ℕ → Ω) (htr : ∀ j, sim (D j) = .ok (tr j)) :
    ((List.range N).map tr).count w = occ D {ω | sim ω = .ok w} N := by
  classical
  unfold occ
  rw [List.count_eq_countP, List.countP_map, Finset.card_filter, Finset.sum_range, ← List.sum_ofFn]
  induction N with
  | zero => simp
  | succ N ih =>
    rw [List.range_succ, List.countP_append, ih, List.ofFn_succ', List.concat_eq_append, List.sum_append]
    congr 1
    simp only [Set.mem_ofPred_eq, htr, Function.comp, Fin.val_last, List.countP_cons, List.countP_nil, beq_iff_eq,
      List.sum_cons, List.sum_nil, zero_add, add_zero, Except.ok.injEq]

/-- What is used of `generateSet`: the set returned counts the traces (C23). -/
def CountsTraces (gen : (ℕ → Py (List O)) → ℕ → Py (TSet O)) (W : Set (List O)) : Prop :=
  ∀ (s : ℕ → Py (List O)) (tr : ℕ → List O) (N : ℕ), (∀ j, s j = .ok (tr j)) → (∀ j, tr j ∈ W) →
    ∃ S, gen s N = .ok S ∧ S.Countable ∧ S.times.sum = N ∧ (∀ w, w ∈ S.sequences ↔ ∃ j < N, tr j = w) ∧
      ∀ w, S.mult w = ((List.range N).map tr).count w

/-- The returned sets, with the numbers of occurrences. -/
theorem Simulates.sets {gen : (ℕ → Py (List O)) → ℕ → Py (TSet O)} (hgen : CountsTraces gen W)
    (h : Simulates μ sim W) (D : ℕ → Ω) (hD : ∀ j : ℕ, ∃ w, sim (D j) = .ok w) (N : ℕ) :
    ∃ S, gen (fun i => sim (D i)) N = .ok S ∧ S.Countable ∧ S.times.sum = N ∧ (∀ w ∈ S.sequences, w ∈ W) ∧
      ∀ w, S.mult w = occ D {ω | sim ω = .ok w} N := by
  choose tr htr using hD
  obtain ⟨S, h1, h2, h3, h5, h4⟩ := hgen (fun i => sim (D i)) tr N htr (fun j => h.mem _ _ (htr j))
  refine ⟨S, h1, h2, h3, fun w hw => ?_, fun w => ?_⟩
  · obtain ⟨j, _, rfl⟩ := (h5 w).1 hw
    exact h.mem _ _ (htr j)
  · rw [h4, count_eq_occ tr N w D htr]

theorem Simulates.measurable_occ (h : Simulates μ sim W) (w : List O) (N m : ℕ) :
    MeasurableSet {D : ℕ → Ω | occ D {ω | sim ω = .ok w} N = m} := by
  have hm : Measurable (fun D : ℕ → Ω => occ D {ω | sim ω = .ok w} N) := by
    classical
    unfold occ
    simp only [Finset.card_filter]
    refine Finset.measurable_sum _ (fun j _ => ?_)
    exact Measurable.ite ((measurable_pi_apply j) (h.meas w)) measurable_const measurable_const
  exact hm (measurableSet_singleton m)

theorem Simulates.ae_mult {gen : (ℕ → Py (List O)) → ℕ → Py (TSet O)} (hgen : CountsTraces gen W)
    (h : Simulates μ sim W) (w : List O) (N m : ℕ) :
    {D | ∃ S, gen (fun i => sim (D i)) N = .ok S ∧ S.mult w = m} =ᵐ[callsLaw μ] {D | occ D {ω | sim ω = .ok w} N = m} := by
  filter_upwards [h.all_ok] with D hD
  obtain ⟨S, h1, -, -, -, h4⟩ := h.sets hgen D hD N
  refine propext ?_
  constructor
  · rintro ⟨S', h5, h6⟩
    rw [h1] at h5
    injection h5 with h5
    subst h5
    exact (h4 w).symm.trans h6
  · intro h5
    exact ⟨S, h1, (h4 w).trans h5⟩

theorem Simulates.binomial {gen : (ℕ → Py (List O)) → ℕ → Py (TSet O)} (hgen : CountsTraces gen W)
    (h : Simulates μ sim W) (w : List O) (p : ℝ) (hp0 : 0 ≤ p) (hp : μ {ω | sim ω = .ok w} = ENNReal.ofReal p) (N m : ℕ) :
    callsLaw μ {D | ∃ S, gen (fun i => sim (D i)) N = .ok S ∧ S.mult w = m}
      = ENNReal.ofReal (N.choose m * (p ^ m * (1 - p) ^ (N - m))) := by
  have hp1 : p ≤ 1 := by
    have : μ {ω | sim ω = .ok w} ≤ 1 := prob_le_one
    rw [hp, ← ENNReal.ofReal_one, ENNReal.ofReal_le_ofReal_iff zero_le_one] at this
    exact this
  rw [measure_congr (h.ae_mult hgen w N m), calls_binomial μ _ (h.meas w), prob_compl_eq_one_sub (h.meas w), hp, ← ENNReal.ofReal_one, ← ENNReal.ofReal_sub _ hp0,
    ENNReal.ofReal_mul (by positivity), ENNReal.ofReal_mul (by positivity), ENNReal.ofReal_pow hp0,
    ENNReal.ofReal_pow (by linarith), ENNReal.ofReal_natCast]

theorem Simulates.frequencies {gen : (ℕ → Py (List O)) → ℕ → Py (TSet O)} (hgen : CountsTraces gen W)
    (h : Simulates μ sim W) :
    ∀ᵐ D ∂callsLaw μ, ∃ S : ℕ → TSet O, (∀ N, gen (fun i => sim (D i)) N = .ok (S N) ∧ (S N).Countable ∧ (S N).times.sum = N ∧
        ∀ w ∈ (S N).sequences, w ∈ W) ∧
      ∀ w, Tendsto (fun N : ℕ => ((S N).mult w : ℝ) / N) atTop (𝓝 (μ {ω | sim ω = .ok w}).toReal) := by
  have hfreq : ∀ᵐ D ∂callsLaw μ, ∀ w ∈ W, Tendsto (fun N : ℕ => (occ D {ω | sim ω = .ok w} N : ℝ) / N)
      atTop (𝓝 (μ {ω | sim ω = .ok w}).toReal) := by
    rw [ae_ball_iff h.countable]
    intro w _
    exact calls_freq μ _ (h.meas w)
  filter_upwards [h.all_ok, hfreq] with D hD hF
  have hs := h.sets hgen D hD
  choose S hS using hs
  refine ⟨S, fun N => ⟨(hS N).1, (hS N).2.1, (hS N).2.2.1, (hS N).2.2.2.1⟩, fun w => ?_⟩
  have e : (fun N : ℕ => ((S N).mult w : ℝ) / N) = fun N : ℕ => (occ D {ω | sim ω = .ok w} N : ℝ) / N := by
    funext N
    rw [(hS N).2.2.2.2 w]
  rw [e]
  by_cases hw : w ∈ W
  · exact hF w hw
  · have he : {ω | sim ω = .ok w} = ∅ := by
      ext ω
      simp only [Set.mem_ofPred_eq, Set.mem_empty_iff_false, iff_false]
      exact fun hc => hw (h.mem ω w hc)
    rw [he]
    simp [occ]

end Jajapy
