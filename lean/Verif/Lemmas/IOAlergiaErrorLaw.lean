import Verif.Lemmas.IOAlergiaError
import Verif.Props.GenerateOne
import Verif.Props.Prefix
import Verif.Lemmas.Product
import Verif.Lemmas.ConsistencyMDP

/-!
C116: the probability of a wrong answer of IOAlergia's test.
-/

set_option autoImplicit false
set_option linter.unusedSectionVars false

namespace Jajapy

open MeasureTheory ProbabilityTheory Spec IOAlergia Spec.IOAlergia

/-! ### A simulator -/

section sim
variable {Ω : Type} [MeasurableSpace Ω] {μ : Measure Ω} [IsProbabilityMeasure μ] {sim : Ω → Py (List String)} {W : Set (List String)}

/-- Two frequencies with the same conditional probability. -/
theorem common_ratio {x1 y1 x2 y2 : ℝ} (h1 : 0 ≤ x1) (h2 : 0 ≤ x2) (hl1 : x1 ≤ y1) (hl2 : x2 ≤ y2) (h : x1 * y2 = x2 * y1) :
    ∃ p, 0 ≤ p ∧ p ≤ 1 ∧ x1 = p * y1 ∧ x2 = p * y2 := by
  by_cases hz : y1 = 0
  · have z1 : x1 = 0 := le_antisymm (hz ▸ hl1) h1
    by_cases hz2 : y2 = 0
    · have z2 : x2 = 0 := le_antisymm (hz2 ▸ hl2) h2
      exact ⟨0, le_rfl, zero_le_one, by rw [z1, zero_mul], by rw [z2, zero_mul]⟩
    · exact ⟨x2 / y2, div_nonneg h2 (h2.trans hl2), div_le_one_of_le₀ hl2 (h2.trans hl2), by rw [z1, hz, mul_zero], by rw [div_mul_cancel₀ _ hz2]⟩
  · refine ⟨x1 / y1, div_nonneg h1 (h1.trans hl1), div_le_one_of_le₀ hl1 (h1.trans hl1), by rw [div_mul_cancel₀ _ hz], ?_⟩
    rw [div_mul_eq_mul_div, h, mul_div_assoc, div_self hz, mul_one]

theorem letters_length (w : List (String × String)) : (letters w).length = 2 * w.length := by
  induction w with
  | nil => rfl
  | cons k w ih =>
    have : letters (k :: w) = k.1 :: k.2 :: letters w := by simp [letters]
    rw [this, List.length_cons, List.length_cons, ih, List.length_cons]
    omega

theorem letters_in {Λa Λo : Finset String} {t : List String}
    (ht : ∀ i : ℕ, (∀ a, t[2 * i + 1]? = some a → a ∈ Λa) ∧ ∀ o, t[2 * i]? = some o → o ∈ Λo) (w : List (String × String)) :
    ∀ u : List String, u.length % 2 = 1 → u ++ letters w <+: t → ∀ p ∈ w, p ∈ Λa ×ˢ Λo := by
  induction w with
  | nil => simp
  | cons k w ih =>
    intro u hu hp p hpm
    have e : u ++ letters (k :: w) = (u ++ [k.1, k.2]) ++ letters w := by simp [letters]
    rw [e] at hp
    rcases List.mem_cons.1 hpm with rfl | hpm
    · obtain ⟨r, rfl⟩ := hp
      obtain ⟨i, hi⟩ : ∃ i, u.length = 2 * i + 1 := ⟨u.length / 2, by omega⟩
      refine Finset.mem_product.2 ⟨(ht i).1 _ ?_, (ht (i + 1)).2 _ ?_⟩
      · rw [← hi]; simp
      · rw [show 2 * (i + 1) = u.length + 1 by omega]; simp
    · exact ih (u ++ [k.1, k.2]) (by simp; omega) hp p hpm

theorem pcount_occ (D : ℕ → Ω) (hD : ∀ j : ℕ, ∃ w, sim (D j) = .ok w) (N : ℕ) (S : TSet String)
    (hm : ∀ w, S.mult w = occ D {ω | sim ω = .ok w} N) (u : List String) :
    prefixCount (S.sequences.zip S.times) u = occ D (prefEvent sim u) N := Jajapy.prefixCount_eq_occ D hD N S hm u

/-- A generated set is a training set. -/
theorem generated_training (h : Simulates μ sim W) (hodd : ∀ w ∈ W, w.length % 2 = 1) (D : ℕ → Ω) (N : ℕ) (S : TSet String) (hS : S.Countable)
    (hm : ∀ w, S.mult w = occ D {ω | sim ω = .ok w} N) {bound : ℕ → ℕ → ℕ → ℕ → Py Bool} {u v : List String} {b : Bool}
    (ha : IOAlergia.Answers bound S u v b) : Training S := by
  refine training_of hS (fun t ht => ?_) ?_
  · obtain ⟨i, hi, rfl⟩ := List.getElem_of_mem ht
    have hi' : i < S.times.length := by rw [hS.1.1]; exact hi
    have hz : (S.sequences[i], S.times[i]) ∈ S.sequences.zip S.times := by
      have hl : i < (S.sequences.zip S.times).length := by rw [List.length_zip, hS.1.1, Nat.min_self]; exact hi
      have := List.getElem_mem hl
      rwa [List.getElem_zip] at this
    have hocc : 1 ≤ Spec.Alergia.traceCount (S.sequences.zip S.times) S.sequences[i] := by
      unfold Spec.Alergia.traceCount
      refine (hS.2.1 _ (List.getElem_mem hi')).trans (List.single_le_sum (fun _ _ => Nat.zero_le _) _
        (List.mem_map.2 ⟨_, List.mem_filter.2 ⟨hz, by simp⟩, rfl⟩))
    rw [show Spec.Alergia.traceCount (S.sequences.zip S.times) S.sequences[i] = S.mult S.sequences[i] from rfl, hm] at hocc
    obtain ⟨j, _, hj⟩ := occ_pos_iff.1 hocc
    exact hodd _ (h.mem _ _ hj)
  · intro hne
    obtain ⟨A, x, y, ⟨acts, obs, e, rfl⟩, hx, -⟩ := ha
    rw [build_size, hne] at hx
    obtain ⟨-, t, ht, -⟩ := mem_labels.1 (List.getElem_mem hx)
    simp at ht

/-- When the states reached by `u` and `v` are declared incompatible, the test has rejected the frequencies of an observation. -/
theorem io_rejected_test (h : Simulates μ sim W) {steps : ℕ} (hlen : ∀ w ∈ W, w.length = 2 * steps + 1) (Λa Λo : Finset String)
    (hΛ : ∀ t ∈ W, ∀ i : ℕ, (∀ a, t[2 * i + 1]? = some a → a ∈ Λa) ∧ ∀ o, t[2 * i]? = some o → o ∈ Λo)
    (ε : ℝ) (h0 : 0 < ε) (h2 : ε ≤ 2) (u v : List String) (hlast : u.getLast? = v.getLast?)
    (D : ℕ → Ω) (hD : ∀ j : ℕ, ∃ w, sim (D j) = .ok w) (N : ℕ) (S : TSet String) (hS : S.Countable)
    (hm : ∀ w, S.mult w = occ D {ω | sim ω = .ok w} N) (ha : IOAlergia.Answers (epsilonTest ε) S u v false) :
    ∃ w a o, (∀ p ∈ w ++ [(a, o)], p ∈ Λa ×ˢ Λo) ∧ u.length + 2 * (w.length + 1) ≤ 2 * steps + 1 ∧ v.length + 2 * (w.length + 1) ≤ 2 * steps + 1 ∧
      0 < occ D (prefEvent sim (u ++ letters w ++ [a, o])) N ∧ 0 < occ D (prefEvent sim (v ++ letters w ++ [a, o])) N ∧
      Tools.hoeffdingBound (occ D (prefEvent sim (u ++ letters w ++ [a, o])) N) (occ D (prefEvent sim (u ++ letters w ++ [a])) N)
        (occ D (prefEvent sim (v ++ letters w ++ [a, o])) N) (occ D (prefEvent sim (v ++ letters w ++ [a])) N) ε = .ok false := by
  have hT := generated_training h (fun w hw => by rw [hlen w hw]; omega) D N S hS hm ha
  obtain ⟨ou, ov, hiff⟩ := answers_iff (epsilonTest_total h0 h2) hT hlast ha
  simp only [pcount_occ D hD N S hm, Bool.false_eq_true, false_iff] at hiff
  push Not at hiff
  obtain ⟨w, a, o, p1, p2, ht⟩ := hiff
  obtain ⟨t1, m1, q1⟩ := occ_pref_pos h p1
  obtain ⟨t2, m2, q2⟩ := occ_pref_pos h p2
  have e : ∀ u : List String, u ++ letters w ++ [a, o] = u ++ letters (w ++ [(a, o)]) := by
    intro u
    simp [letters]
  refine ⟨w, a, o, letters_in (hΛ t1 m1) _ u ou (by rw [← e]; exact q1), ?_, ?_, p1, p2, ?_⟩
  · have := q1.length_le
    rw [hlen t1 m1] at this
    simp only [List.length_append, letters_length, List.length_cons, List.length_nil] at this
    omega
  · have := q2.length_le
    rw [hlen t2 m2] at this
    simp only [List.length_append, letters_length, List.length_cons, List.length_nil] at this
    omega
  · obtain ⟨b, hb⟩ := epsilonTest_total h0 h2 (occ D (prefEvent sim (u ++ letters w ++ [a, o])) N) (occ D (prefEvent sim (u ++ letters w ++ [a])) N)
        (occ D (prefEvent sim (v ++ letters w ++ [a, o])) N) (occ D (prefEvent sim (v ++ letters w ++ [a])) N)
    cases b with
    | true => exact absurd hb ht
    | false => rw [← epsilonTest_eq]; exact hb

/-- A wrong rejection. -/
theorem io_rejects_law (h : Simulates μ sim W) {gen : (ℕ → Py (List String)) → ℕ → Py (TSet String)} (hgen : CountsTraces gen W)
    {steps : ℕ} (hlen : ∀ w ∈ W, w.length = 2 * steps + 1) (Λa Λo : Finset String)
    (hΛ : ∀ t ∈ W, ∀ i : ℕ, (∀ a, t[2 * i + 1]? = some a → a ∈ Λa) ∧ ∀ o, t[2 * i]? = some o → o ∈ Λo)
    (ε : ℝ) (h0 : 0 < ε) (h2 : ε ≤ 2) (u v : List String) (hlast : u.getLast? = v.getLast?)
    (hfut : ∀ (w : List (String × String)) (a o : String), u.length + 2 * (w.length + 1) ≤ 2 * steps + 1 →
      v.length + 2 * (w.length + 1) ≤ 2 * steps + 1 →
      μ.real (prefEvent sim (u ++ letters w ++ [a, o])) * μ.real (prefEvent sim (v ++ letters w ++ [a])) =
        μ.real (prefEvent sim (v ++ letters w ++ [a, o])) * μ.real (prefEvent sim (u ++ letters w ++ [a]))) (N : ℕ) :
    (callsLaw μ).real {D | ∃ S, gen (fun i => sim (D i)) N = .ok S ∧ IOAlergia.Answers (epsilonTest ε) S u v false}
      ≤ 2 * ε * ∑ k ∈ Finset.Icc 1 ((2 * steps + 1 - max u.length v.length) / 2), ((Λa.card : ℝ) * Λo.card) ^ k := by
  classical
  let bad : List (String × String) → Set (ℕ → Ω) := fun w' => {D | u.length + 2 * w'.length ≤ 2 * steps + 1 ∧
    v.length + 2 * w'.length ≤ 2 * steps + 1 ∧ ∃ w a o, w' = w ++ [(a, o)] ∧
    Tools.hoeffdingBound (occ D (prefEvent sim (u ++ letters w ++ [a, o])) N) (occ D (prefEvent sim (u ++ letters w ++ [a])) N)
        (occ D (prefEvent sim (v ++ letters w ++ [a, o])) N) (occ D (prefEvent sim (v ++ letters w ++ [a])) N) ε = .ok false}
  have hsub : ∀ (p : List String) (a o : String), prefEvent sim (p ++ [a, o]) ⊆ prefEvent sim (p ++ [a]) := by
    intro p a o
    rw [show p ++ [a, o] = (p ++ [a]) ++ [o] by simp]
    exact prefEvent_sub sim _ _
  have hbad : ∀ w', (callsLaw μ).real (bad w') ≤ 2 * ε := by
    intro w'
    by_cases hl : u.length + 2 * w'.length ≤ 2 * steps + 1 ∧ v.length + 2 * w'.length ≤ 2 * steps + 1
    · rcases List.eq_nil_or_concat w' with rfl | ⟨w, ⟨a, o⟩, rfl⟩
      · have : bad [] = ∅ := by
          ext D
          simp [bad]
        rw [this, measureReal_empty]
        linarith
      · rw [List.concat_eq_append] at hl ⊢
        have hl' := hl
        simp only [List.length_append, List.length_singleton] at hl'
        obtain ⟨p, p0, p1, e1, e2⟩ := common_ratio measureReal_nonneg measureReal_nonneg (measureReal_mono (hsub _ _ _))
          (measureReal_mono (hsub _ _ _)) (hfut w a o hl'.1 hl'.2)
        refine (measureReal_mono ?_ (measure_ne_top _ _)).trans (test_rejects (μ := μ) (h.meas_pref _) (h.meas_pref _)
          (hsub (u ++ letters w) a o) (h.meas_pref _) (h.meas_pref _) (hsub (v ++ letters w) a o) p p0 p1 e1 e2 ε h0 h2 N)
        rintro D ⟨-, -, w1, a1, o1, e, ht⟩
        obtain ⟨rfl, e'⟩ := List.append_inj' e rfl
        injection e' with e' _
        injection e' with e1 e2
        subst e1 e2
        exact ht
    · have : bad w' = ∅ := by
        ext D
        simp only [bad, Set.mem_ofPred_eq, Set.mem_empty_iff_false, iff_false]
        rintro ⟨a, b, -⟩
        exact hl ⟨a, b⟩
      rw [this, measureReal_empty]
      linarith
  let words : ℕ → Finset (List (String × String)) := fun k => (Fintype.piFinset (fun _ : Fin k => Λa ×ˢ Λo)).image List.ofFn
  have hwords : ∀ k, ((words k).card : ℝ) ≤ ((Λa.card : ℝ) * Λo.card) ^ k := by
    intro k
    have : (words k).card ≤ (Λa.card * Λo.card) ^ k := by
      refine Finset.card_image_le.trans (le_of_eq ?_)
      rw [Fintype.card_piFinset_const, Finset.card_product]
    exact_mod_cast this
  refine (ae_bound h hgen N _ (⋃ k ∈ Finset.Icc 1 ((2 * steps + 1 - max u.length v.length) / 2), ⋃ w' ∈ words k, bad w') ?_).trans ?_
  · intro D hD S hS hm hQ
    obtain ⟨w, a, o, a1, a2, a3, -, -, a4⟩ := io_rejected_test h hlen Λa Λo hΛ ε h0 h2 u v hlast D hD N S hS hm hQ
    simp only [Set.mem_iUnion, exists_prop, Finset.mem_Icc]
    refine ⟨(w ++ [(a, o)]).length, ⟨by simp, ?_⟩, w ++ [(a, o)], ?_, ?_⟩
    · rw [List.length_append, List.length_singleton]
      rcases le_total u.length v.length with hle | hle
      · rw [max_eq_right hle]; omega
      · rw [max_eq_left hle]; omega
    · refine Finset.mem_image.2 ⟨(w ++ [(a, o)]).get, ?_, List.ofFn_get _⟩
      rw [Fintype.mem_piFinset]
      exact fun i => a1 _ (List.get_mem _ _)
    · refine ⟨by simp; omega, by simp; omega, w, a, o, rfl, a4⟩
  · refine (measureReal_biUnion_finset_le _ _).trans ?_
    rw [Finset.mul_sum]
    refine Finset.sum_le_sum (fun k _ => ?_)
    refine (measureReal_biUnion_finset_le _ _).trans ((Finset.sum_le_sum (fun w' _ => hbad w')).trans ?_)
    rw [Finset.sum_const, nsmul_eq_mul, mul_comm]
    exact mul_le_mul_of_nonneg_left (hwords k) (by linarith)

/-- Two words that have no common continuation are never separated. -/
theorem io_never_law (h : Simulates μ sim W) {gen : (ℕ → Py (List String)) → ℕ → Py (TSet String)} (hgen : CountsTraces gen W)
    {steps : ℕ} (hlen : ∀ w ∈ W, w.length = 2 * steps + 1) (Λa Λo : Finset String)
    (hΛ : ∀ t ∈ W, ∀ i : ℕ, (∀ a, t[2 * i + 1]? = some a → a ∈ Λa) ∧ ∀ o, t[2 * i]? = some o → o ∈ Λo)
    (ε : ℝ) (h0 : 0 < ε) (h2 : ε ≤ 2) (u v : List String) (hlast : u.getLast? = v.getLast?)
    (hdis : ∀ a o : String, u.length + 2 ≤ 2 * steps + 1 → v.length + 2 ≤ 2 * steps + 1 →
      μ.real (prefEvent sim (u ++ [a, o])) = 0 ∨ μ.real (prefEvent sim (v ++ [a, o])) = 0) (N : ℕ) :
    (callsLaw μ).real {D | ∃ S, gen (fun i => sim (D i)) N = .ok S ∧ IOAlergia.Answers (epsilonTest ε) S u v false} = 0 := by
  classical
  refine le_antisymm ?_ measureReal_nonneg
  have hnull : ∀ B : Set Ω, MeasurableSet B → μ.real B = 0 → (callsLaw μ).real {D | 0 < occ D B N} = 0 := by
    intro B hB h0
    have e : {D : ℕ → Ω | 0 < occ D B N} = ⋃ j ∈ Finset.range N, {D | D j ∈ B} := by
      ext D
      simp only [Set.mem_ofPred_eq, occ_pos_iff, Set.mem_iUnion, Finset.mem_range, exists_prop]
    rw [e]
    refine le_antisymm ((measureReal_biUnion_finset_le _ _).trans (le_of_eq ?_)) measureReal_nonneg
    refine Finset.sum_eq_zero (fun j _ => ?_)
    have hmp : MeasurePreserving (Function.eval j) (callsLaw μ) μ := by
      unfold callsLaw
      exact measurePreserving_eval_infinitePi _ j
    rw [show {D : ℕ → Ω | D j ∈ B} = Function.eval j ⁻¹' B from rfl]
    unfold Measure.real at h0 ⊢
    rw [hmp.measure_preimage hB.nullMeasurableSet]
    exact h0
  let bad : String × String → Set (ℕ → Ω) := fun k => {D | u.length + 2 ≤ 2 * steps + 1 ∧ v.length + 2 ≤ 2 * steps + 1 ∧
    0 < occ D (prefEvent sim (u ++ [k.1, k.2])) N ∧ 0 < occ D (prefEvent sim (v ++ [k.1, k.2])) N}
  have hbad : ∀ k, (callsLaw μ).real (bad k) = 0 := by
    intro k
    by_cases hl : u.length + 2 ≤ 2 * steps + 1 ∧ v.length + 2 ≤ 2 * steps + 1
    · rcases hdis k.1 k.2 hl.1 hl.2 with hz | hz
      · exact le_antisymm ((measureReal_mono (fun D hD => hD.2.2.1) (measure_ne_top _ _)).trans (le_of_eq (hnull _ (h.meas_pref _) hz))) measureReal_nonneg
      · exact le_antisymm ((measureReal_mono (fun D hD => hD.2.2.2) (measure_ne_top _ _)).trans (le_of_eq (hnull _ (h.meas_pref _) hz))) measureReal_nonneg
    · have : bad k = ∅ := by
        ext D
        simp only [bad, Set.mem_ofPred_eq, Set.mem_empty_iff_false, iff_false]
        rintro ⟨a, b, -⟩
        exact hl ⟨a, b⟩
      rw [this, measureReal_empty]
  refine (ae_bound h hgen N _ (⋃ k ∈ Λa ×ˢ Λo, bad k) ?_).trans ?_
  · intro D hD S hS hm hQ
    obtain ⟨w, a, o, a1, a2, a3, p1, p2, -⟩ := io_rejected_test h hlen Λa Λo hΛ ε h0 h2 u v hlast D hD N S hS hm hQ
    simp only [Set.mem_iUnion, exists_prop]
    have key : ∀ p q : List String, 0 < occ D (prefEvent sim (p ++ q)) N → 0 < occ D (prefEvent sim p) N := by
      intro p q hpos
      obtain ⟨j, hj, hjm⟩ := occ_pos_iff.1 hpos
      exact occ_pos_iff.2 ⟨j, hj, prefEvent_sub sim _ _ hjm⟩
    cases w with
    | nil =>
      simp only [letters, List.flatMap_nil, List.append_nil] at p1 p2
      exact ⟨(a, o), a1 _ (by simp), by omega, by omega, p1, p2⟩
    | cons k w =>
      have e : ∀ u : List String, u ++ letters (k :: w) ++ [a, o] = (u ++ [k.1, k.2]) ++ (letters w ++ [a, o]) := by
        intro u; simp [letters]
      rw [e] at p1 p2
      exact ⟨k, a1 _ (by simp), by omega, by omega, key _ _ p1, key _ _ p2⟩
  · refine (measureReal_biUnion_finset_le _ _).trans (le_of_eq ?_)
    exact Finset.sum_eq_zero (fun k _ => hbad k)

/-- A wrong acceptance, when the observation has been made after both words. -/
theorem io_accepts_law (h : Simulates μ sim W) {gen : (ℕ → Py (List String)) → ℕ → Py (TSet String)} (hgen : CountsTraces gen W)
    (hodd : ∀ w ∈ W, w.length % 2 = 1) (ε : ℝ) (h0 : 0 < ε) (h2 : ε ≤ 2) (u v : List String) (hlast : u.getLast? = v.getLast?)
    (a o : String) (p q : ℝ) (hp0 : 0 ≤ p) (hp1 : p ≤ 1) (hq0 : 0 ≤ q) (hq1 : q ≤ 1)
    (hp : μ.real (prefEvent sim (u ++ [a, o])) = p * μ.real (prefEvent sim (u ++ [a])))
    (hq : μ.real (prefEvent sim (v ++ [a, o])) = q * μ.real (prefEvent sim (v ++ [a]))) (N : ℕ) :
    (callsLaw μ).real {D | ∃ S, gen (fun i => sim (D i)) N = .ok S ∧ IOAlergia.Answers (epsilonTest ε) S u v true ∧
        0 < prefixCount (S.sequences.zip S.times) (u ++ [a, o]) ∧ 0 < prefixCount (S.sequences.zip S.times) (v ++ [a, o]) ∧
        2 * ((Real.sqrt (1 / prefixCount (S.sequences.zip S.times) (u ++ [a])) + Real.sqrt (1 / prefixCount (S.sequences.zip S.times) (v ++ [a]))) *
          Real.sqrt (1/2 * Real.log (2 / ε))) ≤ |p - q|} ≤ 2 * ε := by
  have hsub : ∀ (p : List String) (a o : String), prefEvent sim (p ++ [a, o]) ⊆ prefEvent sim (p ++ [a]) := by
    intro p a o
    rw [show p ++ [a, o] = (p ++ [a]) ++ [o] by simp]
    exact prefEvent_sub sim _ _
  refine (ae_bound h hgen N _ _ ?_).trans (test_accepts (μ := μ) (h.meas_pref (u ++ [a])) (h.meas_pref (u ++ [a, o])) (hsub u a o)
    (h.meas_pref (v ++ [a])) (h.meas_pref (v ++ [a, o])) (hsub v a o) p q hp0 hp1 hq0 hq1 hp hq ε h0 h2 N)
  rintro D hD S hS hm ⟨ha, c1, c2, hgap⟩
  have hT := generated_training h hodd D N S hS hm ha
  obtain ⟨ou, ov, hiff⟩ := answers_iff (epsilonTest_total h0 h2) hT hlast ha
  have ht := hiff.1 rfl [] a o (by simpa [letters] using c1) (by simpa [letters] using c2)
  simp only [letters, List.flatMap_nil, List.append_nil, pcount_occ D hD N S hm] at ht
  rw [pcount_occ D hD N S hm] at c1 c2 hgap
  rw [pcount_occ D hD N S hm] at hgap
  have key : ∀ p : List String, 0 < occ D (prefEvent sim (p ++ [a, o])) N → 0 < occ D (prefEvent sim (p ++ [a])) N := by
    intro p hpos
    obtain ⟨j, hj, hjm⟩ := occ_pos_iff.1 hpos
    exact occ_pos_iff.2 ⟨j, hj, hsub _ _ _ hjm⟩
  exact ⟨by rw [← epsilonTest_eq]; exact ht, key _ c1, key _ c2, hgap⟩

/-- The probability of an action is the sum of the probabilities of the action and an observation. -/
theorem pref_action (h : Simulates μ sim W) (hodd : ∀ w ∈ W, w.length % 2 = 1) (Λo : Finset String) {p : List String} (hp : p.length % 2 = 1)
    (hΛ : ∀ t ∈ W, ∀ i : ℕ, ∀ o, t[2 * i]? = some o → o ∈ Λo) (a : String) :
    μ.real (prefEvent sim (p ++ [a])) = ∑ o ∈ Λo, μ.real (prefEvent sim (p ++ [a, o])) := by
  have e : prefEvent sim (p ++ [a]) = ⋃ o ∈ Λo, prefEvent sim (p ++ [a, o]) := by
    ext ω
    simp only [Set.mem_iUnion, exists_prop]
    constructor
    · rintro ⟨t, ht, hpre⟩
      obtain ⟨o, -, ho⟩ := prefix_next hp (hodd t (h.mem _ _ ht)) hpre
      refine ⟨o, ?_, t, ht, ho⟩
      obtain ⟨r, rfl⟩ := ho
      refine hΛ _ (h.mem _ _ ht) ((p.length + 1) / 2) o ?_
      rw [show 2 * ((p.length + 1) / 2) = p.length + 1 by omega]
      simp
    · rintro ⟨o, -, t, ht, ho⟩
      exact ⟨t, ht, List.IsPrefix.trans ⟨[o], by simp⟩ ho⟩
  rw [e, measureReal_biUnion_finset]
  · intro o _ o' _ hne
    rw [Function.onFun, Set.disjoint_left]
    rintro ω ⟨t, ht, hp1⟩ ⟨t', ht', hp2⟩
    rw [ht] at ht'
    injection ht' with ht'
    subst ht'
    exact hne (prefix_unique hp1 hp2)
  · intro o _
    exact h.meas_pref _

end sim

/-! ### The traces of an MDP -/

namespace MDP
variable {σ : Type} {n : ℕ} {sch : Sched ℝ String σ} {P : Policy σ String} {dom : σ → Prop}

/-- The traces of `k` steps: the observations are labels of the model, the actions are actions of the model. -/
def Traces (M : MDP ℝ String n) (k : ℕ) : Set (List String) := {w | w.length = 2 * k + 1 ∧
  ∀ i : ℕ, (∀ a, w[2 * i + 1]? = some a → a ∈ M.actions.toFinset) ∧ ∀ o, w[2 * i]? = some o → o ∈ Finset.univ.image M.labelling}

theorem runLoop_traces (M : MDP ℝ String n) (sch : Sched ℝ String σ) (steps : ℕ) (draws : List ℝ) (s : Fin n) (st : σ) (w : List String) (st' : σ)
    (h : M.runLoop sch steps draws s st = some (.ok (w, st'))) : w ∈ M.Traces steps := by
  induction steps generalizing draws s st w st' with
  | zero =>
    simp only [runLoop, Option.some.injEq, Except.ok.injEq, Prod.mk.injEq] at h
    rw [← h.1]
    refine ⟨rfl, fun i => ⟨by simp, fun o ho => ?_⟩⟩
    cases i with
    | zero =>
      simp only [Nat.mul_zero, List.length_cons, List.length_nil, zero_add, Nat.lt_one_iff, List.getElem?_cons_zero, Option.some.injEq] at ho
      rw [← ho]
      exact Finset.mem_image_of_mem _ (Finset.mem_univ _)
    | succ i => simp [Nat.mul_succ] at ho
  | succ steps ih =>
    rw [runLoop] at h
    split at h
    · cases h
    · cases h
    · cases h
    · rename_i x st1 r rs hc
      have hx := M.chooseAction_possible sch s draws st x st1 _ hc
      split at h
      · cases h
      · rename_i hnx
        split at h
        · cases h
        · split at h
          · cases h
          · cases h
          · rename_i hr
            simp only [Option.some.injEq, Except.ok.injEq, Prod.mk.injEq] at h
            obtain ⟨h1, h2⟩ := ih _ _ _ _ _ hr
            rw [← h.1]
            refine ⟨by simp [h1]; omega, fun i => ?_⟩
            cases i with
            | zero =>
              refine ⟨fun a ha => ?_, fun o ho => ?_⟩
              · simp only [Nat.mul_zero, zero_add, List.getElem?_cons_succ, List.getElem?_cons_zero, Option.some.injEq] at ha
                rw [← ha]
                obtain ⟨i, _, hi⟩ := List.mem_map.1 hx
                rw [← hi]
                exact List.mem_toFinset.2 (List.getElem_mem _)
              · simp only [Nat.mul_zero, List.getElem?_cons_zero, Option.some.injEq] at ho
                rw [← ho]
                have := M.next_label _ _ _ hnx
                dsimp only at this
                rw [this]
                exact Finset.mem_image_of_mem _ (Finset.mem_univ _)
            | succ i =>
              refine ⟨fun a ha => (h2 i).1 a ?_, fun o ho => (h2 i).2 o ?_⟩
              · rw [show 2 * (i + 1) + 1 = 2 * i + 1 + 1 + 1 by ring, List.getElem?_cons_succ, List.getElem?_cons_succ] at ha
                exact ha
              · rw [show 2 * (i + 1) = 2 * i + 1 + 1 by ring, List.getElem?_cons_succ, List.getElem?_cons_succ] at ho
                exact ho

theorem returns_traces (M : MDP ℝ String n) (steps : ℕ) (st : σ) (w : List String) (d : ℕ → ℝ)
    (h : M.Returns sch steps st w d) : w ∈ M.Traces steps := by
  obtain ⟨K, st', h⟩ := h
  unfold run at h
  split at h
  · cases h
  · split at h
    · cases h
    · exact M.runLoop_traces sch _ _ _ _ _ _ h

theorem simulates_traces (M : MDP ℝ String n) (hn : M.actions.Nodup) (hS : M.Stochastic) (hB : Behaves sch P dom)
    (steps : ℕ) (st : σ) (ht : drawsLaw {d | ∃ w, M.Returns sch steps st w d} = 1) :
    Simulates drawsLaw (M.outcome sch steps st) (M.Traces steps) where
  countable := by
    refine (countable_lists ((Set.countable_range M.labelling).union (List.finite_toSet M.actions).countable)).mono ?_
    intro w hw o ho
    obtain ⟨i, hi⟩ := List.mem_iff_getElem?.1 ho
    rcases Nat.even_or_odd' i with ⟨k, rfl | rfl⟩
    · left
      obtain ⟨s, -, hs⟩ := Finset.mem_image.1 ((hw.2 k).2 o hi)
      exact ⟨s, hs⟩
    · right
      exact List.mem_toFinset.1 ((hw.2 k).1 o hi)
  mem := fun d w h => M.returns_traces steps st w d ((M.outcome_ok steps st d w).1 h)
  meas := (M.simulates hn hS hB steps st ht).meas
  total := (M.simulates hn hS hB steps st ht).total

/-- The probability that a trace starts with a word. -/
theorem prefix_law (M : MDP ℝ String n) (hn : M.actions.Nodup) (hS : M.Stochastic) (hB : Behaves sch P dom)
    (steps : ℕ) (st : σ) (ht : drawsLaw {d | ∃ w, M.Returns sch steps st w d} = 1) (u : List String) (k : ℕ) (hu : u.length = 2 * k + 1)
    (hk : k ≤ steps) : drawsLaw.real (prefEvent (M.outcome sch steps st) u) = M.runProb P u := by
  have hs := M.simulates hn hS hB steps st ht
  have hok : ∀ᵐ d ∂drawsLaw, ∃ w, M.Returns sch steps st w d := by
    have h1 := hs.meas_ok
    have h2 := (prob_compl_eq_zero_iff h1).2 hs.total
    have : ∀ᵐ d ∂drawsLaw, d ∈ {d | ∃ w, M.outcome sch steps st d = .ok w} := h2
    filter_upwards [this] with d hd
    obtain ⟨w, hw⟩ := hd
    exact ⟨w, (M.outcome_ok steps st d w).1 hw⟩
  have e : prefEvent (M.outcome sch steps st) u =ᵐ[drawsLaw] {d | M.Returns sch k st u d} := by
    filter_upwards [hok] with d hd
    obtain ⟨w, K, st', hw⟩ := hd
    have hw' : M.Returns sch steps st w d := ⟨K, st', hw⟩
    obtain ⟨st'', h2⟩ := (M.run_continues sch k steps hk _ st).1 w st' hw
    have h3 : M.Returns sch k st (w.take (2 * k + 1)) d := ⟨K, st'', h2⟩
    refine propext ?_
    constructor
    · rintro ⟨w', hw1, hpre⟩
      have := M.returns_unique steps st _ _ d ((M.outcome_ok steps st d w').1 hw1) hw'
      subst this
      show M.Returns sch k st u d
      rw [List.prefix_iff_eq_take.1 hpre, hu]
      exact h3
    · intro h
      have := M.returns_unique k st _ _ d h h3
      exact ⟨w, (M.outcome_ok steps st d w).2 hw', this ▸ List.take_prefix _ _⟩
  unfold Measure.real
  rw [measure_congr e, M.run_law_of_behaves hB hn hS k st u hu, ENNReal.toReal_ofReal (M.runProb_nonneg hS hB u (by omega))]

/-- From the calls of `generateSet` on one sequence of random numbers to independent calls. -/
theorem one_stream_le (M : MDP ℝ String n) (hn : M.actions.Nodup) (hS : M.Stochastic) (hB : Behaves sch P dom) (kind : String → Kind)
    (steps : ℕ) (geom : ℕ → ℕ) (st : σ) {W : Set (List String)} (h : Simulates drawsLaw (M.outcome sch steps st) W) (N : ℕ)
    (Q : TSet String → Prop) (c : ℝ) :
    letI := simSpace (M.outcome sch steps st)
    (callsLaw (resultLaw (M.outcome sch steps st))).real
      {Y | ∃ S, generateSetMDP kind (fun j _ => keepIn W (Y j)) N false none (.int steps) geom = .ok S ∧ Q S} ≤ c →
    drawsLaw.real {d | ∃ tr S, M.CollectsOne sch steps st d N tr ∧
      generateSetMDP kind (fun j _ => .ok (tr j)) N false none (.int steps) geom = .ok S ∧ Q S} ≤ c := by
  letI := simSpace (M.outcome sch steps st)
  intro hc
  refine le_trans ?_ hc
  have hk := M.stops hn hS hB steps st
  have hm := hk.law h
  unfold Measure.real
  refine ENNReal.toReal_mono (measure_ne_top _ _) ?_
  have := Measure.le_map_apply (μ := drawsLaw) hm.measurable.aemeasurable
    {Y : ℕ → Py (List String) | ∃ S, generateSetMDP kind (fun j _ => keepIn W (Y j)) N false none (.int steps) geom = .ok S ∧ Q S}
  rw [hm.map_eq] at this
  refine le_trans (measure_mono_ae ?_) this
  filter_upwards [hk.all_ok h] with d hd
  rintro ⟨tr, S, h1, h2, h3⟩
  have h4 := (M.generatedOne_iff hB kind steps geom st d hd N S).1 ⟨tr, h1, h2⟩
  refine ⟨S, ?_, h3⟩
  simp only [fun j => keep_eq h (laterN (M.reads sch steps st) j d) (hd j)]
  exact h4

theorem result_pref {sim : (ℕ → ℝ) → Py (List String)} {W : Set (List String)} (h : Simulates drawsLaw sim W) (u : List String) :
    letI := simSpace sim
    (resultLaw sim).real (prefEvent (keepIn W) u) = drawsLaw.real (prefEvent sim u) := by
  letI := simSpace sim
  unfold Measure.real
  rw [resultLaw, Measure.map_apply measurable_sim (h.results.meas_pref u)]
  congr 2
  ext d
  simp only [prefEvent, Set.mem_preimage, Set.mem_ofPred_eq, h.keep_ok]

end MDP
end Jajapy
