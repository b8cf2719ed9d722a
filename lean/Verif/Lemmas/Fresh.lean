import Verif.Lemmas.LearnPrecision

/-!
What is computed from the first traces is independent of the following traces (C120).
-/

set_option autoImplicit false
set_option linter.unusedSectionVars false

namespace Jajapy

open MeasureTheory ProbabilityTheory Spec Tools

section
variable {Ω : Type} [MeasurableSpace Ω] {μ : Measure Ω} [IsProbabilityMeasure μ]

/-- The calls after the first `N`. -/
def dropCalls (N : ℕ) (D : ℕ → Ω) : ℕ → Ω := fun i => D (N + i)

theorem dropCalls_law (N : ℕ) : MeasurePreserving (dropCalls N) (callsLaw μ) (callsLaw μ) := by
  have hm : Measurable (dropCalls (Ω := Ω) N) := measurable_pi_iff.2 (fun i => measurable_pi_apply (N + i))
  refine ⟨hm, ?_⟩
  have hind : iIndepFun (fun (i : ℕ) (D : ℕ → Ω) => D i) (callsLaw μ) :=
    iIndepFun_infinitePi (P := fun _ : ℕ => μ) (X := fun _ ω => ω) (fun _ => measurable_id)
  have h2 := hind.precomp (g := fun i : ℕ => N + i) (fun a b h => by simpa using h)
  have h3 := h2.map_fun_eq_infinitePi_map (fun i => measurable_pi_apply (N + i))
  have h4 : ∀ i, (callsLaw μ).map (fun D : ℕ → Ω => D (N + i)) = μ := fun i => (measurePreserving_eval_infinitePi (fun _ : ℕ => μ) (N + i)).map_eq
  simp only [h4] at h3
  exact h3

theorem dropCalls_indep (N : ℕ) (t : ℕ → Set Ω) (ht : ∀ j, MeasurableSet (t j)) (B : Set (ℕ → Ω)) (hB : MeasurableSet B) :
    callsLaw μ ({D | ∀ j < N, D j ∈ t j} ∩ {D | dropCalls N D ∈ B}) = callsLaw μ {D | ∀ j < N, D j ∈ t j} * callsLaw μ B := by
  have hind : iIndepFun (fun (i : ℕ) (D : ℕ → Ω) => D i) (callsLaw μ) :=
    iIndepFun_infinitePi (P := fun _ : ℕ => μ) (X := fun _ ω => ω) (fun _ => measurable_id)
  have h1 := indep_iSup_of_disjoint (fun i => (measurable_pi_apply i).comap_le) hind (S := {i | i < N}) (T := {i | N ≤ i})
    (Set.disjoint_left.2 (fun i h1 h2 => by simp only [Set.mem_ofPred_eq] at h1 h2; omega))
  rw [Indep_iff] at h1
  rw [h1 _ _ ?_ ?_]
  · congr 1
    exact (dropCalls_law N).measure_preimage hB.nullMeasurableSet
  · have e : {D : ℕ → Ω | ∀ j < N, D j ∈ t j} = ⋂ j, ⋂ (_ : j < N), (fun D : ℕ → Ω => D j) ⁻¹' t j := by
      ext D
      simp
    rw [e]
    refine MeasurableSet.iInter (fun j => MeasurableSet.iInter (fun hj => ?_))
    have hle : MeasurableSpace.comap (fun D : ℕ → Ω => D j) inferInstance ≤ ⨆ i ∈ {i | i < N}, MeasurableSpace.comap (fun D : ℕ → Ω => D i) inferInstance :=
      le_iSup₂_of_le j hj le_rfl
    exact hle _ ⟨t j, ht j, rfl⟩
  · have hm : @Measurable _ _ (⨆ i ∈ {i | N ≤ i}, MeasurableSpace.comap (fun D : ℕ → Ω => D i) inferInstance) _ (dropCalls (Ω := Ω) N) := by
      refine @measurable_pi_iff _ _ _ (_) _ _ |>.2 (fun i => ?_)
      have hle : MeasurableSpace.comap (fun D : ℕ → Ω => D (N + i)) inferInstance ≤ ⨆ i ∈ {i | N ≤ i}, MeasurableSpace.comap (fun D : ℕ → Ω => D i) inferInstance :=
        le_iSup₂_of_le (N + i) (by simp) le_rfl
      exact fun s hs => hle _ ⟨s, hs, rfl⟩
    exact hm hB

variable {O : Type} [DecidableEq O] {sim : Ω → Py (List O)} {W : Set (List O)} {F : Finset (List O)} {P : List O → ℝ}

/-- A failure that is unlikely whatever the first traces are. -/
theorem Draws.fresh (h : Draws μ sim W F P) (N : ℕ) (B : (Fin N → List O) → Set (ℕ → Ω)) (c : ENNReal) (hB : ∀ a, callsLaw μ (B a) ≤ c) :
    callsLaw μ {D | ∃ a : Fin N → List O, (∀ j : Fin N, sim (D j) = .ok (a j)) ∧ dropCalls N D ∈ B a} ≤ c := by
  classical
  set C : (Fin N → List O) → Set (ℕ → Ω) := fun a => {D | ∀ j (hj : j < N), sim (D j) = .ok (a ⟨j, hj⟩)} with hC
  have hCt : ∀ a, C a = {D | ∀ j < N, D j ∈ (fun j => if hj : j < N then {ω | sim ω = .ok (a ⟨j, hj⟩)} else Set.univ) j} := by
    intro a
    ext D
    simp only [hC, Set.mem_ofPred_eq]
    refine forall_congr' (fun j => forall_congr' (fun hj => ?_))
    simp [hj]
  have htm : ∀ a : Fin N → List O, ∀ j, MeasurableSet ((fun j => if hj : j < N then {ω | sim ω = .ok (a ⟨j, hj⟩)} else Set.univ) j) := by
    intro a j
    by_cases hj : j < N
    · simp only [hj, dif_pos]
      exact h.simulates.meas _
    · simp only [hj, dif_neg, not_false_eq_true]
      exact MeasurableSet.univ
  have hCm : ∀ a, MeasurableSet (C a) := by
    intro a
    have e : C a = ⋂ j, ⋂ (hj : j < N), (fun D : ℕ → Ω => D j) ⁻¹' {ω | sim ω = .ok (a ⟨j, hj⟩)} := by
      ext D
      simp [hC]
    rw [e]
    exact MeasurableSet.iInter (fun j => MeasurableSet.iInter (fun hj => (measurable_pi_apply j) (h.simulates.meas _)))
  set A : Finset (Fin N → List O) := Fintype.piFinset (fun _ => F) with hA
  have hsub : {D | ∃ a : Fin N → List O, (∀ j : Fin N, sim (D j) = .ok (a j)) ∧ dropCalls N D ∈ B a}
      ⊆ ⋃ a ∈ A, C a ∩ {D | dropCalls N D ∈ toMeasurable (callsLaw μ) (B a)} := by
    rintro D ⟨a, h1, h2⟩
    simp only [Set.mem_iUnion]
    exact ⟨a, Fintype.mem_piFinset.2 (fun j => h.mem _ (h.simulates.mem _ _ (h1 j))), fun j hj => h1 ⟨j, hj⟩, subset_toMeasurable _ _ h2⟩
  refine (measure_mono hsub).trans ((measure_biUnion_finset_le _ _).trans ?_)
  calc ∑ a ∈ A, callsLaw μ (C a ∩ {D | dropCalls N D ∈ toMeasurable (callsLaw μ) (B a)})
      ≤ ∑ a ∈ A, callsLaw μ (C a) * c := by
        refine Finset.sum_le_sum (fun a _ => ?_)
        rw [hCt a, dropCalls_indep N _ (htm a) _ (measurableSet_toMeasurable _ _), measure_toMeasurable]
        exact mul_le_mul_right (hB a) _
    _ = callsLaw μ (⋃ a ∈ A, C a) * c := by
        rw [← Finset.sum_mul, measure_biUnion_finset ?_ (fun a _ => hCm a)]
        intro a _ b _ hab
        rw [Function.onFun, Set.disjoint_left]
        intro D h1 h2
        apply hab
        funext j
        have := (h1 j j.2).symm.trans (h2 j j.2)
        injection this
    _ ≤ 1 * c := mul_le_mul_left prob_le_one _
    _ = c := one_mul c

/-- The set only depends on the calls that are made. -/
def Local (gen : (ℕ → Py (List O)) → ℕ → Py (TSet O)) : Prop := ∀ s s' N, (∀ j < N, s j = s' j) → gen s N = gen s' N

/-- A failure that is unlikely for every training set is unlikely for the training set that is generated before. -/
theorem Draws.fresh_sets (h : Draws μ sim W F P) {gen : (ℕ → Py (List O)) → ℕ → Py (TSet O)} (hl : Local gen) (N N' : ℕ) (Bad : TSet O → TSet O → Prop) (c : ℝ) (hc : 0 ≤ c)
    (hB : ∀ S, (callsLaw μ).real {D | ∃ S', gen (fun i => sim (D i)) N' = .ok S' ∧ Bad S S'} ≤ c) :
    (callsLaw μ).real {D | ∃ S S', gen (fun i => sim (D i)) N = .ok S ∧ gen (fun i => sim (dropCalls N D i)) N' = .ok S' ∧ Bad S S'} ≤ c := by
  have key := h.fresh N (fun a => {D | ∃ S S', gen (fun j => if hj : j < N then .ok (a ⟨j, hj⟩) else .ok []) N = .ok S ∧
    gen (fun i => sim (D i)) N' = .ok S' ∧ Bad S S'}) (ENNReal.ofReal c) (fun a => by
      rcases hg : gen (fun j => if hj : j < N then .ok (a ⟨j, hj⟩) else .ok []) N with e | S
      · simp
      · have := hB S
        rw [← ENNReal.ofReal_toReal (measure_ne_top (callsLaw μ) _)]
        refine ENNReal.ofReal_le_ofReal (le_trans ?_ this)
        refine measureReal_mono ?_ (measure_ne_top _ _)
        rintro D ⟨S0, S', h1, h2, h3⟩
        injection h1 with h1
        exact ⟨S', h2, h1 ▸ h3⟩)
  unfold Measure.real
  refine ENNReal.toReal_le_of_le_ofReal hc (le_trans (measure_mono_ae ?_) key)
  filter_upwards [h.simulates.all_ok] with D hD hbad
  obtain ⟨S, S', h1, h2, h3⟩ := hbad
  choose tr htr using hD
  refine ⟨fun j => tr j, fun j => htr j, S, S', ?_, h2, h3⟩
  rw [← h1]
  exact hl _ _ _ (fun j hj => by simp [hj, htr])

end
end Jajapy
