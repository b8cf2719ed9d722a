import Verif.Props.Fresh

/-!
Property C120, data of Markov decision processes; and concrete cases.
-/

set_option autoImplicit false
set_option linter.unusedSectionVars false

namespace Jajapy

open MeasureTheory ProbabilityTheory Spec Tools BW

variable {L : Type} [DecidableEq L] {n : ℕ}

namespace MDP
variable {σ : Type} {sch : Sched ℝ L σ} {P : Policy σ L} {dom : σ → Prop}

theorem holdout_of_behaves (G : MDP ℝ L n) (hn : G.actions.Nodup) (hG : G.Stochastic) (hB : Behaves sch P dom)
    (kind : L → Kind) (steps : ℕ) (geom : ℕ → ℕ) (st0 : σ) (hr : drawsLaw {d | ∃ w, G.Returns sch steps st0 w d} = 1) (cpus : ℕ) (hc : 2 ≤ cpus)
    {k : ℕ} (learn : Fin k → TSet L → Py (Σ m, MDP ℝ L m)) (N N' : ℕ) (hN' : 1 ≤ N') (t : ℝ) (ht : 0 ≤ t)
    (hlearn : ∀ i S M', S.Countable → S.times.sum = N → (∀ w ∈ S.sequences, 0 < G.runProb P w ∧ w.length = 2 * steps + 1) → learn i S = .ok M' →
      M'.2.actions.Nodup ∧ M'.2.Stochastic) :
    1 - 2 * k * Real.exp (-(2 * N' * t ^ 2)) ≤ drawsLaw.real {d | ∃ tr S S', G.CollectsOne sch steps st0 d (N + N') tr ∧
      generateSetMDP kind (fun j _ => .ok (tr j)) N false none (.int steps) geom = .ok S ∧
      generateSetMDP kind (fun j _ => .ok (tr (N + j))) N' false none (.int steps) geom = .ok S' ∧
      (S.Countable ∧ S.times.sum = N ∧ ∀ w ∈ S.sequences, 0 < G.runProb P w ∧ w.length = 2 * steps + 1) ∧
      ∀ i M', learn i S = .ok M' → ∃ l, M'.2.logLikelihoodMultiproc cpus S' = .ok l ∧
        |l - expectedLogLik (tracesOver (Finset.univ.image G.labelling ∪ G.actions.toFinset) (2 * steps + 1)) (G.runProb P) M'.2.lik|
          < t * margin (tracesOver (Finset.univ.image G.labelling ∪ G.actions.toFinset) (2 * steps + 1)) M'.2.lik} := by
  have hD := G.draws hn hG hB steps st0 hr
  let sim := G.outcome sch steps st0
  letI := simSpace (G.outcome sch steps st0)
  have hgen := genMDP_counts kind steps geom {w : List L | w.length = 2 * steps + 1 ∧ ∀ o ∈ w, o ∈ Set.range G.labelling ∪ {a | a ∈ G.actions}}
  have hval : ∀ i S M', (S.Countable ∧ S.times.sum = N ∧ ∀ w ∈ S.sequences, 0 < G.runProb P w ∧ w.length = 2 * steps + 1) → learn i S = .ok M' →
      ∀ S' : TSet L, S'.Countable → S'.times.sum = N' → (∀ w ∈ S'.sequences, w ∈ {w : List L | w.length = 2 * steps + 1 ∧ ∀ o ∈ w, o ∈ Set.range G.labelling ∪ {a | a ∈ G.actions}}) →
      M'.2.logLikelihoodMultiproc cpus S' = .ok (avgLogLik M'.2.lik S') := by
    rintro i S ⟨m, M'⟩ ⟨g1, g2, g3⟩ hl S' - h2 h3
    obtain ⟨hn', hS'⟩ := hlearn i S _ g1 g2 g3 hl
    exact M'.logLikelihood_spec hn' hS'.1 hS'.2.2.1 cpus hc S' (by omega) (fun w hw => by have := (h3 w hw).1; omega)
  have key := hD.results.holdout (gen := fun s N => generateSetMDP kind (fun j _ => s j) N false none (.int steps) geom) hgen (genMDP_local kind steps geom)
    learn (fun M' S' => M'.2.logLikelihoodMultiproc cpus S') (fun M' => M'.2.lik) N N' hN' t ht
    (fun S => S.Countable ∧ S.times.sum = N ∧ ∀ w ∈ S.sequences, 0 < G.runProb P w ∧ w.length = 2 * steps + 1) hval
    (by
      rintro i S ⟨m, M'⟩ ⟨g1, g2, g3⟩ hl w _
      obtain ⟨hn', hS'⟩ := hlearn i S _ g1 g2 g3 hl
      exact M'.lik_mem_unit hn' hS' w)
  have hk := G.stops hn hG hB steps st0
  have hm := hk.law hD.simulates
  have hs1 := hm.quasiMeasurePreserving.ae (hD.results.sure (gen := fun s N => generateSetMDP kind (fun j _ => s j) N false none (.int steps) geom) hgen N)
  have hs2 := hm.quasiMeasurePreserving.ae ((dropCalls_law (μ := resultLaw (G.outcome sch steps st0)) N).quasiMeasurePreserving.ae
    (hD.results.simulates.all_ok))
  have hbad : drawsLaw.real {d | (fun j => G.outcome sch steps st0 (laterN (G.reads sch steps st0) j d)) ∈ {Y : ℕ → Py (List L) | ∃ S S',
      generateSetMDP kind (fun j _ => keepIn {w : List L | w.length = 2 * steps + 1 ∧ ∀ o ∈ w, o ∈ Set.range G.labelling ∪ {a | a ∈ G.actions}} (Y j)) N false none (.int steps) geom = .ok S ∧
      generateSetMDP kind (fun j _ => keepIn {w : List L | w.length = 2 * steps + 1 ∧ ∀ o ∈ w, o ∈ Set.range G.labelling ∪ {a | a ∈ G.actions}} (dropCalls N Y j)) N' false none (.int steps) geom = .ok S' ∧
      (S.Countable ∧ S.times.sum = N ∧ ∀ w ∈ S.sequences, 0 < G.runProb P w ∧ w.length = 2 * steps + 1) ∧
      ∃ i M', learn i S = .ok M' ∧ ∃ l, M'.2.logLikelihoodMultiproc cpus S' = .ok l ∧
        t * margin (tracesOver (Finset.univ.image G.labelling ∪ G.actions.toFinset) (2 * steps + 1)) M'.2.lik ≤
        |l - expectedLogLik (tracesOver (Finset.univ.image G.labelling ∪ G.actions.toFinset) (2 * steps + 1)) (G.runProb P) M'.2.lik|}} ≤
      2 * k * Real.exp (-(2 * N' * t ^ 2)) := by
    refine le_trans ?_ key
    unfold Measure.real
    refine ENNReal.toReal_mono (measure_ne_top _ _) ?_
    have := Measure.le_map_apply (μ := drawsLaw) hm.measurable.aemeasurable {Y : ℕ → Py (List L) | ∃ S S',
      generateSetMDP kind (fun j _ => keepIn {w : List L | w.length = 2 * steps + 1 ∧ ∀ o ∈ w, o ∈ Set.range G.labelling ∪ {a | a ∈ G.actions}} (Y j)) N false none (.int steps) geom = .ok S ∧
      generateSetMDP kind (fun j _ => keepIn {w : List L | w.length = 2 * steps + 1 ∧ ∀ o ∈ w, o ∈ Set.range G.labelling ∪ {a | a ∈ G.actions}} (dropCalls N Y j)) N' false none (.int steps) geom = .ok S' ∧
      (S.Countable ∧ S.times.sum = N ∧ ∀ w ∈ S.sequences, 0 < G.runProb P w ∧ w.length = 2 * steps + 1) ∧
      ∃ i M', learn i S = .ok M' ∧ ∃ l, M'.2.logLikelihoodMultiproc cpus S' = .ok l ∧
        t * margin (tracesOver (Finset.univ.image G.labelling ∪ G.actions.toFinset) (2 * steps + 1)) M'.2.lik ≤
        |l - expectedLogLik (tracesOver (Finset.univ.image G.labelling ∪ G.actions.toFinset) (2 * steps + 1)) (G.runProb P) M'.2.lik|}
    rw [hm.map_eq] at this
    exact this
  refine success_ge hbad ?_
  filter_upwards [hk.all_ok hD.simulates, hs1, hs2] with d hd h1 h2
  obtain ⟨S, e1, e2, e3, e4⟩ := h1
  obtain ⟨S', f1, f2, f3, f4, -⟩ := hD.results.simulates.sets (gen := fun s N => generateSetMDP kind (fun j _ => s j) N false none (.int steps) geom) hgen _ h2 N'
  have hgood : S.Countable ∧ S.times.sum = N ∧ ∀ w ∈ S.sequences, 0 < G.runProb P w ∧ w.length = 2 * steps + 1 :=
    ⟨e2, e3, fun w hw => ⟨(e4 w hw).1, ((mem_tracesOver _ _ _).1 (e4 w hw).2).1⟩⟩
  by_cases hb : ∃ i M', learn i S = .ok M' ∧ ∃ l, M'.2.logLikelihoodMultiproc cpus S' = .ok l ∧
        t * margin (tracesOver (Finset.univ.image G.labelling ∪ G.actions.toFinset) (2 * steps + 1)) M'.2.lik ≤
        |l - expectedLogLik (tracesOver (Finset.univ.image G.labelling ∪ G.actions.toFinset) (2 * steps + 1)) (G.runProb P) M'.2.lik|
  · exact Or.inl ⟨S, S', e1, f1, hgood, hb⟩
  · right
    have hd' := hd
    choose tr htr using hd'
    dsimp only [dropCalls] at f1
    simp only [fun j => keep_eq hD.simulates (laterN (G.reads sch steps st0) j d) (hd j)] at e1 f1
    simp only [htr] at e1 f1
    refine ⟨tr, S, S', (G.collectsOne_iff hB steps st0 d (N + N') tr).2 (fun j _ => (G.outcome_ok steps st0 _ _).1 (htr j)), e1, f1, hgood, fun i M' hM' => ?_⟩
    have hv := hval i S M' hgood hM' S' f2 f3 f4
    refine ⟨_, hv, ?_⟩
    push Not at hb
    exact hb i M' hM' _ hv

theorem holdout_fit_of_behaves (G : MDP ℝ L n) (hn : G.actions.Nodup) (hG : G.Stochastic) (hB : Behaves sch P dom)
    (kind : L → Kind) (steps : ℕ) (geom : ℕ → ℕ) (st0 : σ) (hr : drawsLaw {d | ∃ w, G.Returns sch steps st0 w d} = 1) (cpus : ℕ) (hc : 2 ≤ cpus)
    {k : ℕ} {m : Fin k → ℕ} (M0 : (i : Fin k) → MDP ℝ L (m i)) (hM0 : ∀ i, (M0 i).actions.Nodup ∧ (M0 i).Stochastic) (processes : ℕ) (epsilon : ℝ) (maxIt : ℕ)
    (N N' : ℕ) (hN' : 1 ≤ N') (t : ℝ) (ht : 0 ≤ t) :
    1 - 2 * k * Real.exp (-(2 * N' * t ^ 2)) ≤ drawsLaw.real {d | ∃ tr S S', G.CollectsOne sch steps st0 d (N + N') tr ∧
      generateSetMDP kind (fun j _ => .ok (tr j)) N false none (.int steps) geom = .ok S ∧
      generateSetMDP kind (fun j _ => .ok (tr (N + j))) N' false none (.int steps) geom = .ok S' ∧
      (∀ i, 1 < processes → 1 ≤ N → (∀ w : List L, w.length = 2 * steps + 1 → 0 < G.runProb P w → (M0 i).lik w ≠ 0) →
        ∃ st, fit (stepMDP processes S) epsilon maxIt (M0 i) = .ok st) ∧
      ∀ i st, fit (stepMDP processes S) epsilon maxIt (M0 i) = .ok st → ∃ l, st.h.logLikelihoodMultiproc cpus S' = .ok l ∧
        |l - expectedLogLik (tracesOver (Finset.univ.image G.labelling ∪ G.actions.toFinset) (2 * steps + 1)) (G.runProb P) st.h.lik|
          < t * margin (tracesOver (Finset.univ.image G.labelling ∪ G.actions.toFinset) (2 * steps + 1)) st.h.lik} := by
  refine (G.holdout_of_behaves hn hG hB kind steps geom st0 hr cpus hc (fun i S => (fit (stepMDP processes S) epsilon maxIt (M0 i)).map (fun st => (⟨m i, st.h⟩ : Σ m, MDP ℝ L m)))
    N N' hN' t ht ?_).trans (measureReal_mono ?_ (measure_ne_top _ _))
  · intro i S M' hS _ hw hl
    rcases hf : fit (stepMDP processes S) epsilon maxIt (M0 i) with e | st
    · rw [hf] at hl; cases hl
    · rw [hf] at hl
      injection hl with hl
      subst hl
      have ho : ∀ w ∈ S.sequences, w.length % 2 = 1 := fun w h => by have := (hw w h).2; omega
      exact ⟨by rw [(fit_structure processes S epsilon maxIt (M0 i) (hM0 i).1 ho st hf).1]; exact (hM0 i).1,
        (fit_stochastic processes S epsilon maxIt (M0 i) (hM0 i).1 (hM0 i).2 ho st hf).1⟩
  · rintro d ⟨tr, S, S', h0, h1, h2, ⟨g1, g2, g3⟩, h3⟩
    refine ⟨tr, S, S', h0, h1, h2, fun i hp hN hposs => ?_, fun i st hst => ?_⟩
    · have hlen : S.times.length = S.sequences.length := g1.1.1
      obtain ⟨w, hw⟩ : ∃ w, w ∈ S.sequences := by
        refine List.exists_mem_of_ne_nil _ (fun e => ?_)
        rw [e, List.length_nil, List.length_eq_zero_iff] at hlen
        rw [hlen, List.sum_nil] at g2
        omega
      exact fit_total processes hp S epsilon maxIt (M0 i) (hM0 i).1 (hM0 i).2 (fun w hw => by have := (g3 w hw).2; omega) hlen g1.2.1 w hw
        (hposs w (g3 w hw).2 (g3 w hw).1)
    · exact h3 i ⟨m i, st.h⟩ (by rw [hst]; rfl)

theorem selection_fit_of_behaves (G : MDP ℝ L n) (hn : G.actions.Nodup) (hG : G.Stochastic) (hB : Behaves sch P dom)
    (kind : L → Kind) (steps : ℕ) (geom : ℕ → ℕ) (st0 : σ) (hr : drawsLaw {d | ∃ w, G.Returns sch steps st0 w d} = 1) (cpus : ℕ) (hc : 2 ≤ cpus)
    {k : ℕ} {m : Fin k → ℕ} (M0 : (i : Fin k) → MDP ℝ L (m i)) (hM0 : ∀ i, (M0 i).actions.Nodup ∧ (M0 i).Stochastic) (processes : ℕ) (epsilon : ℝ) (maxIt : ℕ)
    (N N' : ℕ) (hN' : 1 ≤ N') (t : ℝ) (ht : 0 ≤ t) :
    1 - 2 * k * Real.exp (-(2 * N' * t ^ 2)) ≤ drawsLaw.real {d | ∃ tr S S', G.CollectsOne sch steps st0 d (N + N') tr ∧
      generateSetMDP kind (fun j _ => .ok (tr j)) N false none (.int steps) geom = .ok S ∧
      generateSetMDP kind (fun j _ => .ok (tr (N + j))) N' false none (.int steps) geom = .ok S' ∧
      ∀ i j sti stj li lj, fit (stepMDP processes S) epsilon maxIt (M0 i) = .ok sti → fit (stepMDP processes S) epsilon maxIt (M0 j) = .ok stj →
        sti.h.logLikelihoodMultiproc cpus S' = .ok li → stj.h.logLikelihoodMultiproc cpus S' = .ok lj → lj ≤ li →
        expectedLogLik (tracesOver (Finset.univ.image G.labelling ∪ G.actions.toFinset) (2 * steps + 1)) (G.runProb P) stj.h.lik
          - t * (margin (tracesOver (Finset.univ.image G.labelling ∪ G.actions.toFinset) (2 * steps + 1)) sti.h.lik + margin (tracesOver (Finset.univ.image G.labelling ∪ G.actions.toFinset) (2 * steps + 1)) stj.h.lik)
          < expectedLogLik (tracesOver (Finset.univ.image G.labelling ∪ G.actions.toFinset) (2 * steps + 1)) (G.runProb P) sti.h.lik} := by
  refine (G.holdout_fit_of_behaves hn hG hB kind steps geom st0 hr cpus hc M0 hM0 processes epsilon maxIt N N' hN' t ht).trans (measureReal_mono ?_ (measure_ne_top _ _))
  rintro d ⟨tr, S, S', h0, h1, h2, -, h3⟩
  refine ⟨tr, S, S', h0, h1, h2, fun i j sti stj li lj fi fj ei ej hle => ?_⟩
  obtain ⟨l1, a1, a2⟩ := h3 i sti fi
  obtain ⟨l2, b1, b2⟩ := h3 j stj fj
  rw [a1] at ei
  rw [b1] at ej
  injection ei with ei
  injection ej with ej
  subst ei ej
  have c1 := (abs_lt.1 a2).2
  have c2 := (abs_lt.1 b2).1
  linarith

/-- C120, data of an MDP under the uniform scheduler: `k` initial MDPs, each improved by `BW().fit` on a set of `N` generated traces: their log-likelihoods on the next `N'` traces are precise. -/
theorem holdout_fit_uniform (G : MDP ℝ L n) (hn : G.actions.Nodup) (hG : G.Stochastic) (acts : List L) (hne : acts ≠ []) (ha : ∀ s, ∃ x ∈ acts, G.Allowed s x)
    (kind : L → Kind) (steps : ℕ) (geom : ℕ → ℕ) (cpus : ℕ) (hc : 2 ≤ cpus)
    {k : ℕ} {m : Fin k → ℕ} (M0 : (i : Fin k) → MDP ℝ L (m i)) (hM0 : ∀ i, (M0 i).actions.Nodup ∧ (M0 i).Stochastic) (processes : ℕ) (epsilon : ℝ) (maxIt : ℕ)
    (N N' : ℕ) (hN' : 1 ≤ N') (t : ℝ) (ht : 0 ≤ t) :
    1 - 2 * k * Real.exp (-(2 * N' * t ^ 2)) ≤ drawsLaw.real {d | ∃ tr S S', G.CollectsOne (uniformScheduler acts) steps () d (N + N') tr ∧
      generateSetMDP kind (fun j _ => .ok (tr j)) N false none (.int steps) geom = .ok S ∧
      generateSetMDP kind (fun j _ => .ok (tr (N + j))) N' false none (.int steps) geom = .ok S' ∧
      (∀ i, 1 < processes → 1 ≤ N → (∀ w : List L, w.length = 2 * steps + 1 → 0 < G.runProb (uniformPolicy acts) w → (M0 i).lik w ≠ 0) →
        ∃ st, fit (stepMDP processes S) epsilon maxIt (M0 i) = .ok st) ∧
      ∀ i st, fit (stepMDP processes S) epsilon maxIt (M0 i) = .ok st → ∃ l, st.h.logLikelihoodMultiproc cpus S' = .ok l ∧
        |l - expectedLogLik (tracesOver (Finset.univ.image G.labelling ∪ G.actions.toFinset) (2 * steps + 1)) (G.runProb (uniformPolicy acts)) st.h.lik|
          < t * margin (tracesOver (Finset.univ.image G.labelling ∪ G.actions.toFinset) (2 * steps + 1)) st.h.lik} :=
  G.holdout_fit_of_behaves hn hG (uniformScheduler_behaves acts hne) kind steps geom () (G.run_uniform_returns hn hG acts ha steps) cpus hc M0 hM0 processes epsilon maxIt N N' hN' t ht

/-- C120, data of an MDP under a finite-memory scheduler: `k` initial MDPs, each improved by `BW().fit` on a set of `N` generated traces: their log-likelihoods on the next `N'` traces are precise. -/
theorem holdout_fit_fm (G : MDP ℝ L n) (hn : G.actions.Nodup) (hG : G.Stochastic) (F : FMScheduler ℝ L) (q : ℕ) (hF : FMValid F q) (ha : ∀ s, ∀ m < q, ∃ x, G.Allowed s x ∧ 0 < (fmPolicy F).propose m x)
    (kind : L → Kind) (steps : ℕ) (geom : ℕ → ℕ) (st0 : ℕ) (cpus : ℕ) (hc : 2 ≤ cpus)
    {k : ℕ} {m : Fin k → ℕ} (M0 : (i : Fin k) → MDP ℝ L (m i)) (hM0 : ∀ i, (M0 i).actions.Nodup ∧ (M0 i).Stochastic) (processes : ℕ) (epsilon : ℝ) (maxIt : ℕ)
    (N N' : ℕ) (hN' : 1 ≤ N') (t : ℝ) (ht : 0 ≤ t) :
    1 - 2 * k * Real.exp (-(2 * N' * t ^ 2)) ≤ drawsLaw.real {d | ∃ tr S S', G.CollectsOne F.sched steps st0 d (N + N') tr ∧
      generateSetMDP kind (fun j _ => .ok (tr j)) N false none (.int steps) geom = .ok S ∧
      generateSetMDP kind (fun j _ => .ok (tr (N + j))) N' false none (.int steps) geom = .ok S' ∧
      (∀ i, 1 < processes → 1 ≤ N → (∀ w : List L, w.length = 2 * steps + 1 → 0 < G.runProb (fmPolicy F) w → (M0 i).lik w ≠ 0) →
        ∃ st, fit (stepMDP processes S) epsilon maxIt (M0 i) = .ok st) ∧
      ∀ i st, fit (stepMDP processes S) epsilon maxIt (M0 i) = .ok st → ∃ l, st.h.logLikelihoodMultiproc cpus S' = .ok l ∧
        |l - expectedLogLik (tracesOver (Finset.univ.image G.labelling ∪ G.actions.toFinset) (2 * steps + 1)) (G.runProb (fmPolicy F)) st.h.lik|
          < t * margin (tracesOver (Finset.univ.image G.labelling ∪ G.actions.toFinset) (2 * steps + 1)) st.h.lik} :=
  G.holdout_fit_of_behaves hn hG (fmScheduler_behaves F q hF) kind steps geom st0 (G.run_fm_returns hn hG F q hF ha steps st0) cpus hc M0 hM0 processes epsilon maxIt N N' hN' t ht

/-- C120, data of an MDP under the uniform scheduler: the choice, on the next `N'` traces, between `k` MDPs learned from the first `N` traces. -/
theorem selection_fit_uniform (G : MDP ℝ L n) (hn : G.actions.Nodup) (hG : G.Stochastic) (acts : List L) (hne : acts ≠ []) (ha : ∀ s, ∃ x ∈ acts, G.Allowed s x)
    (kind : L → Kind) (steps : ℕ) (geom : ℕ → ℕ) (cpus : ℕ) (hc : 2 ≤ cpus)
    {k : ℕ} {m : Fin k → ℕ} (M0 : (i : Fin k) → MDP ℝ L (m i)) (hM0 : ∀ i, (M0 i).actions.Nodup ∧ (M0 i).Stochastic) (processes : ℕ) (epsilon : ℝ) (maxIt : ℕ)
    (N N' : ℕ) (hN' : 1 ≤ N') (t : ℝ) (ht : 0 ≤ t) :
    1 - 2 * k * Real.exp (-(2 * N' * t ^ 2)) ≤ drawsLaw.real {d | ∃ tr S S', G.CollectsOne (uniformScheduler acts) steps () d (N + N') tr ∧
      generateSetMDP kind (fun j _ => .ok (tr j)) N false none (.int steps) geom = .ok S ∧
      generateSetMDP kind (fun j _ => .ok (tr (N + j))) N' false none (.int steps) geom = .ok S' ∧
      ∀ i j sti stj li lj, fit (stepMDP processes S) epsilon maxIt (M0 i) = .ok sti → fit (stepMDP processes S) epsilon maxIt (M0 j) = .ok stj →
        sti.h.logLikelihoodMultiproc cpus S' = .ok li → stj.h.logLikelihoodMultiproc cpus S' = .ok lj → lj ≤ li →
        expectedLogLik (tracesOver (Finset.univ.image G.labelling ∪ G.actions.toFinset) (2 * steps + 1)) (G.runProb (uniformPolicy acts)) stj.h.lik
          - t * (margin (tracesOver (Finset.univ.image G.labelling ∪ G.actions.toFinset) (2 * steps + 1)) sti.h.lik + margin (tracesOver (Finset.univ.image G.labelling ∪ G.actions.toFinset) (2 * steps + 1)) stj.h.lik)
          < expectedLogLik (tracesOver (Finset.univ.image G.labelling ∪ G.actions.toFinset) (2 * steps + 1)) (G.runProb (uniformPolicy acts)) sti.h.lik} :=
  G.selection_fit_of_behaves hn hG (uniformScheduler_behaves acts hne) kind steps geom () (G.run_uniform_returns hn hG acts ha steps) cpus hc M0 hM0 processes epsilon maxIt N N' hN' t ht

/-- C120, data of an MDP under a finite-memory scheduler: the choice, on the next `N'` traces, between `k` MDPs learned from the first `N` traces. -/
theorem selection_fit_fm (G : MDP ℝ L n) (hn : G.actions.Nodup) (hG : G.Stochastic) (F : FMScheduler ℝ L) (q : ℕ) (hF : FMValid F q) (ha : ∀ s, ∀ m < q, ∃ x, G.Allowed s x ∧ 0 < (fmPolicy F).propose m x)
    (kind : L → Kind) (steps : ℕ) (geom : ℕ → ℕ) (st0 : ℕ) (cpus : ℕ) (hc : 2 ≤ cpus)
    {k : ℕ} {m : Fin k → ℕ} (M0 : (i : Fin k) → MDP ℝ L (m i)) (hM0 : ∀ i, (M0 i).actions.Nodup ∧ (M0 i).Stochastic) (processes : ℕ) (epsilon : ℝ) (maxIt : ℕ)
    (N N' : ℕ) (hN' : 1 ≤ N') (t : ℝ) (ht : 0 ≤ t) :
    1 - 2 * k * Real.exp (-(2 * N' * t ^ 2)) ≤ drawsLaw.real {d | ∃ tr S S', G.CollectsOne F.sched steps st0 d (N + N') tr ∧
      generateSetMDP kind (fun j _ => .ok (tr j)) N false none (.int steps) geom = .ok S ∧
      generateSetMDP kind (fun j _ => .ok (tr (N + j))) N' false none (.int steps) geom = .ok S' ∧
      ∀ i j sti stj li lj, fit (stepMDP processes S) epsilon maxIt (M0 i) = .ok sti → fit (stepMDP processes S) epsilon maxIt (M0 j) = .ok stj →
        sti.h.logLikelihoodMultiproc cpus S' = .ok li → stj.h.logLikelihoodMultiproc cpus S' = .ok lj → lj ≤ li →
        expectedLogLik (tracesOver (Finset.univ.image G.labelling ∪ G.actions.toFinset) (2 * steps + 1)) (G.runProb (fmPolicy F)) stj.h.lik
          - t * (margin (tracesOver (Finset.univ.image G.labelling ∪ G.actions.toFinset) (2 * steps + 1)) sti.h.lik + margin (tracesOver (Finset.univ.image G.labelling ∪ G.actions.toFinset) (2 * steps + 1)) stj.h.lik)
          < expectedLogLik (tracesOver (Finset.univ.image G.labelling ∪ G.actions.toFinset) (2 * steps + 1)) (G.runProb (fmPolicy F)) sti.h.lik} :=
  G.selection_fit_of_behaves hn hG (fmScheduler_behaves F q hF) kind steps geom st0 (G.run_fm_returns hn hG F q hF ha steps st0) cpus hc M0 hM0 processes epsilon maxIt N N' hN' t ht

end MDP

/-! ### Concrete cases -/

/-- The two initial chains `exMC'` and `exMC`, improved on 100 traces of `exMC` and evaluated on the next 2000. -/
theorem exMC_holdout_sample (maxIt : ℕ) : (99/100 : ℝ) ≤ drawsLaw.real {d | ∃ S S' st₁ st₂ l₁ l₂,
      generateSet (fun _ => .str) (fun j k => (exMC ℝ).run k (fun i => d (j * (2 + 1) + i))) 100 false none (.int 2) (fun _ => 0) = .ok S ∧
      generateSet (fun _ => .str) (fun j k => (exMC ℝ).run k (fun i => d ((100 + j) * (2 + 1) + i))) 2000 false none (.int 2) (fun _ => 0) = .ok S' ∧
      fit (stepMC 4 S) 0 maxIt exMC' = .ok st₁ ∧ fit (stepMC 4 S) 0 maxIt (exMC ℝ) = .ok st₂ ∧
      st₁.h.iface.logLikelihoodMultiproc 4 S' = .ok l₁ ∧ st₂.h.iface.logLikelihoodMultiproc 4 S' = .ok l₂ ∧
      |l₁ - expectedLogLik (tracesOver (Finset.univ.image (exMC ℝ).labelling) (2 + 1)) (exMC ℝ).lik st₁.h.lik|
        < 1 / 20 * margin (tracesOver (Finset.univ.image (exMC ℝ).labelling) (2 + 1)) st₁.h.lik ∧
      |l₂ - expectedLogLik (tracesOver (Finset.univ.image (exMC ℝ).labelling) (2 + 1)) (exMC ℝ).lik st₂.h.lik|
        < 1 / 20 * margin (tracesOver (Finset.univ.image (exMC ℝ).labelling) (2 + 1)) st₂.h.lik} := by
  have h := (exMC ℝ).holdout_fit exMC_stochastic_real (fun _ => .str) 2 (by norm_num) (fun _ => 0) 4 (by norm_num) (k := 2) (m := fun _ => 3) ![exMC', exMC ℝ]
    (by intro i; fin_cases i; exacts [exMC'_stochastic, exMC_stochastic_real]) 4 0 maxIt 100 2000 (by norm_num) (1/20) (by norm_num)
  have h1 := exp_neg_ten (x := 2 * ((2000:ℕ):ℝ) * (1 / 20) ^ 2) (by norm_num)
  refine le_trans (le_trans ?_ h) (measureReal_mono ?_ (measure_ne_top _ _))
  · push_cast at h1 ⊢
    linarith
  · rintro d ⟨S, S', a1, a2, a3, a4⟩
    obtain ⟨st₁, b1⟩ := a3 0 (by norm_num) (by norm_num) (fun w _ hp => (MC.possible_of_support (exMC ℝ) exMC' exMC_stochastic_real exMC'_stochastic rfl
      (fun _ h => h) (by intro s s'; fin_cases s <;> fin_cases s' <;> simp [exMC, exMC']) w hp).ne')
    obtain ⟨st₂, b2⟩ := a3 1 (by norm_num) (by norm_num) (fun w _ hp => hp.ne')
    obtain ⟨l₁, c1, c2⟩ := a4 0 st₁ b1
    obtain ⟨l₂, c3, c4⟩ := a4 1 st₂ b2
    exact ⟨S, S', st₁, st₂, l₁, l₂, a1, a2, b1, b2, c1, c3, c2, c4⟩

/-- The hypotheses of the theorem on hidden Markov models are met, and `fit` returns. -/
example (maxIt : ℕ) : (99/100 : ℝ) ≤ drawsLaw.real {d | ∃ S S' st l,
      generateSet (fun _ => .str) (fun j k => (exHMM ℝ).run k (fun i => d (j * (2 * 3 + 1) + i))) 100 false none (.int 3) (fun _ => 0) = .ok S ∧
      generateSet (fun _ => .str) (fun j k => (exHMM ℝ).run k (fun i => d ((100 + j) * (2 * 3 + 1) + i))) 2000 false none (.int 3) (fun _ => 0) = .ok S' ∧
      fit (stepHMM 4 S) 0 maxIt (exHMM ℝ) = .ok st ∧ st.h.iface.logLikelihoodMultiproc 4 S' = .ok l ∧
      |l - expectedLogLik (tracesOver (exHMM ℝ).alphabet.toFinset 3) (exHMM ℝ).lik st.h.lik| < 1 / 20 * margin (tracesOver (exHMM ℝ).alphabet.toFinset 3) st.h.lik} := by
  have h := (exHMM ℝ).holdout_fit exHMM_stochastic_real.2 exHMM_stochastic_real.1 (fun _ => .str) 3 (by norm_num) (fun _ => 0) 4 (by norm_num) (k := 1) (fun _ => exHMM ℝ)
    (fun _ => ⟨exHMM_stochastic_real.2, exHMM_stochastic_real.1⟩) 4 0 maxIt 100 2000 (by norm_num) (1/20) (by norm_num)
  have h1 := exp_neg_ten (x := 2 * ((2000:ℕ):ℝ) * (1 / 20) ^ 2) (by norm_num)
  refine le_trans (le_trans ?_ h) (measureReal_mono ?_ (measure_ne_top _ _))
  · push_cast at h1 ⊢
    linarith
  · rintro d ⟨S, S', a1, a2, a3, a4⟩
    obtain ⟨st, b1⟩ := a3 0 (by norm_num) (by norm_num) (fun w _ hp => hp.ne')
    obtain ⟨l, c1, c2⟩ := a4 0 st b1
    exact ⟨S, S', st, l, a1, a2, b1, c1, c2⟩

/-- And those of the theorem on MDPs. -/
example (maxIt : ℕ) : (99/100 : ℝ) ≤ drawsLaw.real {d | ∃ tr S S', MDP.unlikeMDP.CollectsOne (uniformScheduler ["a"]) 2 () d (100 + 2000) tr ∧
      generateSetMDP (fun _ => .str) (fun j _ => .ok (tr j)) 100 false none (.int 2) (fun _ => 0) = .ok S ∧
      generateSetMDP (fun _ => .str) (fun j _ => .ok (tr (100 + j))) 2000 false none (.int 2) (fun _ => 0) = .ok S' ∧
      ∀ st, fit (stepMDP 4 S) 0 maxIt MDP.unlikeMDP = .ok st → ∃ l, st.h.logLikelihoodMultiproc 4 S' = .ok l ∧
        |l - expectedLogLik (tracesOver (Finset.univ.image MDP.unlikeMDP.labelling ∪ MDP.unlikeMDP.actions.toFinset) (2 * 2 + 1))
          (MDP.unlikeMDP.runProb (uniformPolicy ["a"])) st.h.lik|
          < 1 / 20 * margin (tracesOver (Finset.univ.image MDP.unlikeMDP.labelling ∪ MDP.unlikeMDP.actions.toFinset) (2 * 2 + 1)) st.h.lik} := by
  have h := MDP.unlikeMDP.holdout_fit_uniform (by simp [MDP.unlikeMDP]) MDP.unlikeMDP_stochastic ["a"] (by simp) (fun s => ⟨"a", by simp, MDP.unlikeMDP_allowed s⟩)
    (fun _ => .str) 2 (fun _ => 0) 4 (by norm_num) (k := 1) (fun _ => MDP.unlikeMDP) (fun _ => ⟨by simp [MDP.unlikeMDP], MDP.unlikeMDP_stochastic⟩) 4 0 maxIt 100 2000 (by norm_num)
    (1/20) (by norm_num)
  have h1 := exp_neg_ten (x := 2 * ((2000:ℕ):ℝ) * (1 / 20) ^ 2) (by norm_num)
  refine le_trans (le_trans ?_ h) (measureReal_mono ?_ (measure_ne_top _ _))
  · push_cast at h1 ⊢
    linarith
  · rintro d ⟨tr, S, S', a0, a1, a2, -, a4⟩
    exact ⟨tr, S, S', a0, a1, a2, fun st hst => a4 0 st hst⟩

end Jajapy
