import Verif.Lemmas.IOAlergiaErrorLaw
import Verif.Lemmas.AlergiaLimit

/-!
C117: IOAlergia's test of compatibility on large training sets.
-/

set_option autoImplicit false
set_option linter.unusedSectionVars false

namespace Jajapy

namespace IOAlergia
open Spec.IOAlergia

/-- The test answers for two prefixes of training traces. -/
theorem io_answered {bound : ℕ → ℕ → ℕ → ℕ → Py Bool} (hb : ∀ a b c d, ∃ v, bound a b c d = .ok v) {S : TSet String} (hS : Training S)
    {u v : List String} (hu : u.length % 2 = 1) (hv : v.length % 2 = 1) (h1 : ∃ t ∈ S.sequences, u <+: t) (h2 : ∃ t ∈ S.sequences, v <+: t) :
    ∃ b, Answers bound S u v b := by
  obtain ⟨acts, obs, e, -⟩ := TSet.getActionsObservations_spec S hS.odd
  obtain ⟨G, -, -⟩ := training_good hS e
  have node : ∀ z : List String, z.length % 2 = 1 → (∃ t ∈ S.sequences, z <+: t) →
      ∃ x < (labels (S.sequences.zip S.times)).length, lab (S.sequences.zip S.times) x = z := by
    rintro z hz ⟨t, ht, hp⟩
    obtain ⟨i, hi, rfl⟩ := List.getElem_of_mem ht
    refine exists_lab (mem_labels.2 ⟨hz, (S.sequences[i], S.times[i]'(by rw [hS.times]; exact hi)), ?_, hp⟩)
    have hl : i < (S.sequences.zip S.times).length := by rw [List.length_zip, hS.times, Nat.min_self]; exact hi
    have := List.getElem_mem hl
    rwa [List.getElem_zip] at this
  obtain ⟨x, hx, ex⟩ := node u hu h1
  obtain ⟨y, hy, ey⟩ := node v hv h2
  obtain ⟨b, hc, -⟩ := tree_compat hb G (x := x) hy
  refine ⟨b, _, x, y, ⟨acts, obs, e, rfl⟩, by rw [build_size]; exact hx, by rw [build_size]; exact hy, ?_, ?_, hc⟩
  · rw [(build_label _ _ _ hx).1, ex]
  · rw [(build_label _ _ _ hy).1, ey]

end IOAlergia

open MeasureTheory ProbabilityTheory Filter Spec IOAlergia Spec.IOAlergia Topology

section sim
variable {Ω : Type} [MeasurableSpace Ω] {μ : Measure Ω} [IsProbabilityMeasure μ] {sim : Ω → Py (List String)} {W : Set (List String)}

/-- A rejected test after a continuation that occurs after both words. -/
theorem io_separated (h : Simulates μ sim W) (hodd : ∀ w ∈ W, w.length % 2 = 1) (ε : ℝ) (h0 : 0 < ε) (h2 : ε ≤ 2) (u v : List String)
    (hu : u.length % 2 = 1) (hv : v.length % 2 = 1) (hlast : u.getLast? = v.getLast?)
    (D : ℕ → Ω) (hD : ∀ j : ℕ, ∃ w, sim (D j) = .ok w) (N : ℕ) (S : TSet String) (hS : S.Countable) (hW : ∀ t ∈ S.sequences, t ∈ W)
    (hm : ∀ w, S.mult w = occ D {ω | sim ω = .ok w} N) (w : List (String × String)) (a o : String)
    (h1 : 0 < occ D (prefEvent sim (u ++ letters w ++ [a, o])) N) (h3 : 0 < occ D (prefEvent sim (v ++ letters w ++ [a, o])) N)
    (ht : Tools.hoeffdingBound (occ D (prefEvent sim (u ++ letters w ++ [a, o])) N) (occ D (prefEvent sim (u ++ letters w ++ [a])) N)
        (occ D (prefEvent sim (v ++ letters w ++ [a, o])) N) (occ D (prefEvent sim (v ++ letters w ++ [a])) N) ε = .ok false) :
    IOAlergia.Answers (epsilonTest ε) S u v false := by
  have tr : ∀ z, 0 < occ D (prefEvent sim z) N → ∃ t ∈ S.sequences, z <+: t := by
    intro z hz
    rw [← pcount_occ D hD N S hm] at hz
    by_contra hno
    push Not at hno
    rw [prefixCount_zero (fun t ht => hno t.1 (List.of_mem_zip ht).1)] at hz
    exact lt_irrefl _ hz
  obtain ⟨t1, m1, q1⟩ := tr _ h1
  obtain ⟨t2, m2, q2⟩ := tr _ h3
  have hT : Training S := training_of hS (fun t ht => hodd t (hW t ht)) (List.ne_nil_of_mem m1)
  have hpre : ∀ z : List String, z <+: z ++ letters w ++ [a, o] := fun z => ⟨letters w ++ [a, o], by simp⟩
  obtain ⟨b, hb⟩ := io_answered (epsilonTest_total h0 h2) hT hu hv ⟨t1, m1, (hpre u).trans q1⟩ ⟨t2, m2, (hpre v).trans q2⟩
  obtain ⟨-, -, hiff⟩ := answers_iff (epsilonTest_total h0 h2) hT hlast hb
  cases b with
  | false => exact hb
  | true =>
    exfalso
    have := hiff.1 rfl w a o (by rw [pcount_occ D hD N S hm]; exact h1) (by rw [pcount_occ D hD N S hm]; exact h3)
    simp only [pcount_occ D hD N S hm] at this
    rw [epsilonTest_eq, ht] at this
    injection this with this
    cases this

/-- The test separates two words after which an observation has different probabilities, both positive. -/
theorem io_separates_law (h : Simulates μ sim W) {gen : (ℕ → Py (List String)) → ℕ → Py (TSet String)} (hgen : CountsTraces gen W)
    (hodd : ∀ w ∈ W, w.length % 2 = 1) (ε : ℝ) (h0 : 0 < ε) (h2 : ε ≤ 2) (u v : List String)
    (hu : u.length % 2 = 1) (hv : v.length % 2 = 1) (hlast : u.getLast? = v.getLast?) (w : List (String × String)) (a o : String)
    (p1 : 0 < μ.real (prefEvent sim (u ++ letters w ++ [a, o]))) (p2 : 0 < μ.real (prefEvent sim (v ++ letters w ++ [a, o])))
    (hne : μ.real (prefEvent sim (u ++ letters w ++ [a, o])) / μ.real (prefEvent sim (u ++ letters w ++ [a])) ≠
      μ.real (prefEvent sim (v ++ letters w ++ [a, o])) / μ.real (prefEvent sim (v ++ letters w ++ [a]))) :
    ∀ᵐ D ∂callsLaw μ, ∀ᶠ N in atTop, ∃ S, gen (fun i => sim (D i)) N = .ok S ∧ IOAlergia.Answers (epsilonTest ε) S u v false := by
  have hsub : ∀ (p : List String) (a o : String), prefEvent sim (p ++ [a, o]) ⊆ prefEvent sim (p ++ [a]) := by
    intro p a o
    rw [show p ++ [a, o] = (p ++ [a]) ++ [o] by simp]
    exact prefEvent_sub sim _ _
  have fr : ∀ z : List String, ∀ᵐ D ∂callsLaw μ, Tendsto (fun N : ℕ => (occ D (prefEvent sim z) N : ℝ) / N) atTop (𝓝 (μ.real (prefEvent sim z))) :=
    fun z => calls_freq (μ := μ) (prefEvent sim z) (h.meas_pref z)
  filter_upwards [h.all_ok, fr (u ++ letters w ++ [a, o]), fr (u ++ letters w ++ [a]), fr (v ++ letters w ++ [a, o]), fr (v ++ letters w ++ [a])]
    with D hD f1 f2 f3 f4
  filter_upwards [occ_pos_limit p1 f1, occ_pos_limit p2 f3,
    test_limit (p1.trans_le (measureReal_mono (hsub _ a o))) (p2.trans_le (measureReal_mono (hsub _ a o))) f2 f1 f4 f3 hne ε h0 h2] with N a1 a2 a3
  obtain ⟨S, s1, s2, -, s4, s5⟩ := h.sets hgen D hD N
  exact ⟨S, s1, io_separated h hodd ε h0 h2 u v hu hv hlast D hD N S s2 s4 s5 w a o a1 a2 a3⟩

end sim

namespace MDP
variable {σ : Type} {n : ℕ} {sch : Sched ℝ String σ} {P : Policy σ String} {dom : σ → Prop}

/-- From the calls of `generateSet` on one sequence of random numbers to independent calls, for what happens almost surely. -/
theorem one_stream_ae (M : MDP ℝ String n) (hn : M.actions.Nodup) (hS : M.Stochastic) (hB : Behaves sch P dom) (kind : String → Kind)
    (steps : ℕ) (geom : ℕ → ℕ) (st : σ) {W : Set (List String)} (h : Simulates drawsLaw (M.outcome sch steps st) W) (Q : TSet String → Prop) :
    letI := simSpace (M.outcome sch steps st)
    (∀ᵐ Y ∂callsLaw (resultLaw (M.outcome sch steps st)), ∀ᶠ N in atTop,
      ∃ S, generateSetMDP kind (fun j _ => keepIn W (Y j)) N false none (.int steps) geom = .ok S ∧ Q S) →
    ∀ᵐ d ∂drawsLaw, ∀ᶠ N in atTop, ∃ tr S, M.CollectsOne sch steps st d N tr ∧
      generateSetMDP kind (fun j _ => .ok (tr j)) N false none (.int steps) geom = .ok S ∧ Q S := by
  letI := simSpace (M.outcome sch steps st)
  intro hc
  have hk := M.stops hn hS hB steps st
  have hm := hk.law h
  have h1 := hm.quasiMeasurePreserving.ae hc
  filter_upwards [hk.all_ok h, h1] with d hd h2
  filter_upwards [h2] with N hN
  obtain ⟨S, e, hQ⟩ := hN
  simp only [fun j => keep_eq h (laterN (M.reads sch steps st) j d) (hd j)] at e
  obtain ⟨tr, e1, e2⟩ := (M.generatedOne_iff hB kind steps geom st d hd N S).2 e
  exact ⟨tr, S, e1, e2, hQ⟩

end MDP
end Jajapy
