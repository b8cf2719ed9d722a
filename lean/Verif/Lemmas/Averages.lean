import Verif.Lemmas.Streams
import Verif.Lemmas.Likelihood
import Verif.Lemmas.GenerateLaw
import Verif.Spec.GoHMMEval

set_option linter.unusedSectionVars false

namespace Jajapy

open MeasureTheory ProbabilityTheory Spec Filter Topology

section calls
variable {Ω : Type} [MeasurableSpace Ω] (μ : Measure Ω) [IsProbabilityMeasure μ]

/-- The strong law for an integrable function of the numbers of a call. -/
theorem calls_average (f : Ω → ℝ) (hf : Measurable f) (hi : Integrable f μ) :
    ∀ᵐ D ∂callsLaw μ, Tendsto (fun N : ℕ => (∑ j ∈ Finset.range N, f (D j)) / N) atTop (𝓝 (∫ x, f x ∂μ)) := by
  have hind : iIndepFun (fun (i : ℕ) (D : ℕ → Ω) => f (D i)) (callsLaw μ) :=
    iIndepFun_infinitePi (P := fun _ : ℕ => μ) (X := fun _ => f) (fun _ => hf)
  have h1 : ∀ i : ℕ, IdentDistrib (fun D : ℕ → Ω => D i) (fun x : Ω => x) (callsLaw μ) μ := by
    intro i
    refine ⟨(measurable_pi_apply i).aemeasurable, aemeasurable_id, ?_⟩
    unfold callsLaw
    rw [Measure.infinitePi_map_eval (μ := fun _ : ℕ => μ) i]
    exact Measure.map_id'.symm
  have hid : ∀ i : ℕ, IdentDistrib (fun D : ℕ → Ω => f (D i)) f (callsLaw μ) μ := fun i => (h1 i).comp hf
  have h := strong_law_ae_real (μ := callsLaw μ) (fun (i : ℕ) (D : ℕ → Ω) => f (D i)) ((hid 0).integrable_iff.2 hi)
    (fun i j hij => hind.indepFun hij) (fun i => (hid i).trans (hid 0).symm)
  rw [(hid 0).integral_eq] at h
  exact h

end calls

section sets
variable {O : Type} [DecidableEq O]

/-- A sum over the traces of a set that counts the given traces. -/
theorem TSet.sum_traces (S : TSet O) (tr : ℕ → List O) (N : ℕ) (hlen : S.times.length = S.sequences.length)
    (hmem : ∀ w, w ∈ S.sequences ↔ ∃ j < N, tr j = w) (hm : ∀ w, S.mult w = ((List.range N).map tr).count w) (g : List O → ℝ) :
    ∑ w ∈ S.sequences.toFinset, (S.mult w : ℝ) * g w = ∑ j ∈ Finset.range N, g (tr j) := by
  have e : S.sequences.toFinset = ((List.range N).map tr).toFinset := by
    ext w
    simp only [List.mem_toFinset, List.mem_map, List.mem_range]
    exact hmem w
  rw [e]
  have h := Finset.sum_list_map_count ((List.range N).map tr) g
  rw [List.map_map] at h
  simp only [hm, ← nsmul_eq_mul]
  refine Eq.trans (by convert h.symm) ?_
  exact (Multiset.sum_coe _).symm

theorem TSet.avg_traces (S : TSet O) (tr : ℕ → List O) (N : ℕ) (hlen : S.times.length = S.sequences.length)
    (hmem : ∀ w, w ∈ S.sequences ↔ ∃ j < N, tr j = w) (hm : ∀ w, S.mult w = ((List.range N).map tr).count w) (P : List O → ℝ)
    (hP : ∀ j < N, 0 < P (tr j)) : avgLogLik P S = (∑ j ∈ Finset.range N, Real.log (P (tr j))) / N := by
  rw [avgLogLik_eq P S hlen S.sequences.toFinset (fun w hw => List.mem_toFinset.2 hw), S.sum_traces tr N hlen hmem hm]
  have h1 := S.sum_traces tr N hlen hmem hm (fun _ => 1)
  simp only [mul_one, Finset.sum_const, Finset.card_range, nsmul_eq_mul] at h1
  rw [h1]
  congr 1
  exact Finset.sum_congr rfl (fun j hj => if_pos (hP j (Finset.mem_range.1 hj)))

theorem TSet.numberIn_traces (S : TSet O) (tr : ℕ → List O) (N : ℕ) (hlen : S.times.length = S.sequences.length)
    (hmem : ∀ w, w ∈ S.sequences ↔ ∃ j < N, tr j = w) (hm : ∀ w, S.mult w = ((List.range N).map tr).count w) (B : Set (List O)) :
    S.numberIn B = occ tr B N := by
  classical
  have h1 := S.sum_traces tr N hlen hmem hm (fun w => if w ∈ B then 1 else 0)
  have h2 : ((S.numberIn B : ℕ) : ℝ) = ∑ w ∈ S.sequences.toFinset, (S.mult w : ℝ) * (if w ∈ B then 1 else 0) := by
    rw [← sum_zip_eq S hlen _ _ (fun w hw => List.mem_toFinset.2 hw)]
    unfold numberIn
    induction S.sequences.zip S.times with
    | nil => simp
    | cons q l ih =>
      rw [List.filter_cons, List.map_cons, List.sum_cons, ← ih]
      by_cases h : q.1 ∈ B <;> simp [h]
  have h3 : ((occ tr B N : ℕ) : ℝ) = ∑ j ∈ Finset.range N, if tr j ∈ B then 1 else 0 := by
    unfold occ
    rw [Finset.card_filter]
    push_cast
    rfl
  exact_mod_cast h2.trans (h1.trans h3.symm)

end sets
end Jajapy
