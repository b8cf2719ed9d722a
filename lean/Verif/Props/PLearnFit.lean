import Verif.Props.PLearn
import Verif.Props.FitParameters

/-!
Property theorems C97: `fit_parameters` and `fit_nonInstantiatedParameters` on models whose labels are pairwise different.
-/

set_option linter.unusedSectionVars false

namespace Jajapy.PCTMC

open Spec BW Finset

variable {M R : PCTMC ℝ}

/-- The numbers of uses depend on the rates and the labels only. -/
theorem uses_congr (hlen : R.matrix.length = M.matrix.length)
    (hrate : ∀ s < M.matrix.length, ∀ ss < M.matrix.length, R.rateExpr s ss = M.rateExpr s ss)
    (hlab : R.labelling = M.labelling) (hv : R.values = M.values) (S : TSet (Sym String)) (p : String) :
    (∀ x, R.expectedUses S p x = M.expectedUses S p x) ∧ R.observedUses S p = M.observedUses S p := by
  have hone : ∀ i < M.matrix.length, ∀ j < M.matrix.length, R.rateAtOne p i j = M.rateAtOne p i j := fun i hi j hj => by
    unfold rateAtOne; rw [hrate i hi j hj, hv]
  refine ⟨fun x => ?_, ?_⟩
  · have e : ∀ N : PCTMC ℝ, N.expectedUses S p x = ∑ i ∈ range N.matrix.length, ∑ j ∈ range N.matrix.length,
        (N.rateExpr i j).degree p * (totalTime S (N.labelling.getD i "") * (N.rateAtOne p i j * x ^ (N.rateExpr i j).degree p)) := fun N => by
      unfold expectedUses
      rw [← Fin.sum_univ_eq_sum_range]
      refine Finset.sum_congr rfl (fun i _ => ?_)
      rw [← Fin.sum_univ_eq_sum_range]
    rw [e, e, hlen, hlab]
    refine Finset.sum_congr rfl (fun i hi => Finset.sum_congr rfl (fun j hj => ?_))
    rw [hrate i (mem_range.1 hi) j (mem_range.1 hj), hone i (mem_range.1 hi) j (mem_range.1 hj)]
  · have e : ∀ N : PCTMC ℝ, N.observedUses S p = ∑ i ∈ range N.matrix.length, ∑ j ∈ range N.matrix.length,
        (N.rateExpr i j).degree p * (jumpCount S (N.labelling.getD i "") (N.labelling.getD j "") : ℝ) := fun N => by
      unfold observedUses
      rw [← Fin.sum_univ_eq_sum_range]
      refine Finset.sum_congr rfl (fun i _ => ?_)
      rw [← Fin.sum_univ_eq_sum_range]
    rw [e, e, hlen, hlab]
    refine Finset.sum_congr rfl (fun i hi => Finset.sum_congr rfl (fun j hj => ?_))
    rw [hrate i (mem_range.1 hi) j (mem_range.1 hj)]

theorem Alone.congr {toUpdate : List String} {p : String} (ha : M.Alone toUpdate p) (hlen : R.matrix.length = M.matrix.length)
    (hrate : ∀ s < M.matrix.length, ∀ ss < M.matrix.length, R.rateExpr s ss = M.rateExpr s ss) : R.Alone toUpdate p := by
  intro i j hi hj ho q hq hoq
  rw [hlen] at hi hj
  rw [hrate i hi j hj] at ho hoq
  exact ha i j hi hj ho q hq hoq

/-- C97, for `fit_parameters`: if the labels of the states are pairwise different, all of them are observed, the label 'init' is
one of them, no random values are asked for and all the training traces are possible, the value returned for a parameter which
does not share a transition with another estimated parameter is the one for which the expected number of uses of the parameter
in the observed times is the observed number of uses (the initial value if no time is spent before a transition with it). -/
theorem fitParameters_observed (processes : ℕ) (S : TSet (Sym String)) (hT : S.type = some 4) (M : PCTMC ℝ) (hI : M.IndexesInRange)
    (toUpdate : List String) (h : M.Estimable (M.names.filter (fun p => p ∉ toUpdate))) (epsilon : ℝ) (maxIt : ℕ) (hmax : 1 ≤ maxIt)
    (rounds : List (List ℝ)) (hall : ∀ a ∈ M.labelling, Shows (.timed S) a) (hinit : "init" ∈ M.labelling)
    (hl : M.labelling.Nodup) (hS : CTMC.TimedSet S) (hw : WaitsNonneg S) (hlen : S.times.length = S.sequences.length)
    (ht : ∀ t ∈ S.times, 1 ≤ t) (hpos : ∀ w ∈ S.sequences, M.density w ≠ 0)
    (d : List (String × Option ℝ)) (M' : PCTMC ℝ)
    (hf : M.fitParameters processes (.timed S) toUpdate epsilon maxIt none none rounds = .ok (some (d, M')))
    (p : String) (hn : p ∈ M.names) (hp : p ∈ toUpdate) (ha : M.Alone toUpdate p) (x0 : ℝ) (hx0 : M.values.lookup p = some x0) (h0 : 0 < x0) :
    ∃ x, (p, some x) ∈ d ∧ M'.values.lookup p = some x ∧ 0 ≤ x ∧ (M.expectedUses S p 1 = 0 → x = x0) ∧
      (M.expectedUses S p 1 ≠ 0 → M.expectedUses S p x = M.observedUses S p) := by
  obtain ⟨hu, A, S', M1, hA, hS', hM1, he⟩ := fitParameters_inv hf
  obtain ⟨A', hA', hmem⟩ := labelsOf_spec (.timed S) hT
  rw [hA] at hA'
  injection hA' with hA'
  subst hA'
  rw [prepare_spec (.timed S) hT (hall _ hinit)] at hS'
  injection hS' with hS'
  subst hS'
  have : M.reduceForTraces A = M1 := by
    unfold start at hM1
    rw [if_pos ⟨rfl, rfl⟩] at hM1
    simpa using hM1
  subst this
  obtain ⟨keep, hR, hk, _⟩ := M.reduceForTraces_spec h.wf hI A
  have hE := h.reduce hI A
  have hnm : (M.reduceForTraces A).names = M.names := hR.names
  rw [← hnm] at hE
  obtain ⟨hlen', hrate, hlab, hin⟩ := restricts_all h.wf hR (fun k hk' => (hk k hk').2 ((hmem _).2 (hall _ (by
      rw [List.getD_eq_getElem?_getD, List.getElem?_eq_getElem (by rw [h.wf.labels]; exact hk')]
      exact List.getElem_mem _))))
  obtain ⟨u1, u2⟩ := uses_congr hlen' hrate hlab hR.values S p
  obtain ⟨x, a1, a2, a3, a4, a5⟩ := estimate_observed processes S _ toUpdate hE epsilon maxIt hmax (by rw [hlab]; exact hl) hS hw hlen ht
    (fun w hw' => by rw [(reduce_same h.wf hI A (fun a ha => (hmem a).2 (hall a ha))).1]; exact hpos w hw')
    d M' he p (by rw [hnm]; exact hn) hp (ha.congr hlen' hrate) x0 (by rw [hR.values]; exact hx0) h0
  rw [u1] at a4
  rw [u1, u1, u2] at a5
  exact ⟨x, a1, a2, a3, a4, a5⟩

end Jajapy.PCTMC
