import Verif.Lemmas.Fresh
import Verif.Props.BWLearnHMM
import Verif.Props.LearnPrecision

/-!
Property C120: models learned from a training set and compared on a test set that is generated afterwards.
-/

set_option autoImplicit false
set_option linter.unusedSectionVars false

namespace Jajapy

open MeasureTheory ProbabilityTheory Spec Tools BW

theorem generateLoop_local {O : Type} [DecidableEq O] (size : ℕ → Py ℕ) (record : List (List O) × List ℕ → List O → List (List O) × List ℕ) (s s' : ℕ → Py (List O)) (k i : ℕ)
    (acc : List (List O) × List ℕ) (h : ∀ j < i + k, s j = s' j) :
    generateLoop (fun j _ => s j) size record k i acc = generateLoop (fun j _ => s' j) size record k i acc := by
  induction k generalizing i acc with
  | zero => rfl
  | succ k ih =>
    simp only [generateLoop]
    rw [h i (by omega)]
    congr 1
    funext sz
    congr 1
    funext tr
    exact ih (i + 1) _ (fun j hj => h j (by omega))

theorem gen_local {O : Type} [DecidableEq O] (kind : O → Kind) : Local (gen kind) := by
  intro s s' N h
  unfold gen generateSet
  rw [generateLoop_local _ _ s s' N 0 _ (fun j hj => h j (by omega))]

theorem genMDP_local {O : Type} [DecidableEq O] (kind : O → Kind) (k : ℕ) (geom : ℕ → ℕ) :
    Local (fun s N => generateSetMDP kind (fun j (_ : ℕ) => (s j : Py (List O))) N false none (.int k) geom) := by
  intro s s' N h
  dsimp only
  unfold generateSetMDP
  rw [generateLoop_local _ _ s s' N 0 _ (fun j hj => h j (by omega))]

/-- Minus the logarithm of the smallest likelihood other than 0, and at least 1. -/
noncomputable def margin {O : Type} (F : Finset (List O)) (Q : List O → ℝ) : ℝ := max 1 (⨆ w : F, -Real.log (Q w))

theorem margin_pos {O : Type} (F : Finset (List O)) (Q : List O → ℝ) : 0 < margin F Q := lt_of_lt_of_le zero_lt_one (le_max_left _ _)

theorem margin_spec {O : Type} (F : Finset (List O)) (Q : List O → ℝ) (w : List O) (hw : w ∈ F) (h0 : 0 ≤ Q w) : Q w = 0 ∨ Real.exp (-margin F Q) ≤ Q w := by
  rcases h0.eq_or_lt with h | h
  · exact Or.inl h.symm
  · right
    rw [← Real.le_log_iff_exp_le h]
    have : -Real.log (Q w) ≤ ⨆ w : F, -Real.log (Q w) := le_ciSup (f := fun w : F => -Real.log (Q w)) (Set.finite_range _).bddAbove ⟨w, hw⟩
    have h2 := le_max_right 1 (⨆ w : F, -Real.log (Q w))
    unfold margin
    linarith

section
variable {O : Type} [DecidableEq O] {W : Set (List O)} {F : Finset (List O)} {P : List O → ℝ} {gen : (ℕ → Py (List O)) → ℕ → Py (TSet O)}

/-- Candidates that are computed from the training set, evaluated on the test set: the probability that one of the evaluations is not precise. -/
theorem Draws.holdout {Ω : Type} [MeasurableSpace Ω] {μ : Measure Ω} [IsProbabilityMeasure μ] {sim : Ω → Py (List O)} (h : Draws μ sim W F P) (hgen : CountsTraces gen W)
    (hl : Local gen) {κ : Type} {k : ℕ} (learn : Fin k → TSet O → Py κ) (val : κ → TSet O → Py ℝ) (Q : κ → List O → ℝ) (N N' : ℕ) (hN' : 1 ≤ N') (t : ℝ) (ht : 0 ≤ t)
    (Good : TSet O → Prop)
    (hval : ∀ i S M', Good S → learn i S = .ok M' → ∀ S', S'.Countable → S'.times.sum = N' → (∀ w ∈ S'.sequences, w ∈ W) → val M' S' = .ok (avgLogLik (Q M') S'))
    (hQ : ∀ i S M', Good S → learn i S = .ok M' → ∀ w ∈ F, 0 ≤ Q M' w ∧ Q M' w ≤ 1) :
    (callsLaw μ).real {D | ∃ S S', gen (fun i => sim (D i)) N = .ok S ∧ gen (fun i => sim (dropCalls N D i)) N' = .ok S' ∧
      Good S ∧ ∃ i M', learn i S = .ok M' ∧ ∃ l, val M' S' = .ok l ∧ t * margin F (Q M') ≤ |l - expectedLogLik F P (Q M')|} ≤ 2 * k * Real.exp (-(2 * N' * t ^ 2)) := by
  refine h.fresh_sets hl N N' (fun S S' => Good S ∧ ∃ i M', learn i S = .ok M' ∧ ∃ l, val M' S' = .ok l ∧ t * margin F (Q M') ≤ |l - expectedLogLik F P (Q M')|) _
    (by positivity) (fun S => ?_)
  by_cases hS : Good S
  swap
  · simp only [hS, false_and, and_false, exists_false]
    rw [show {D : ℕ → Ω | False} = ∅ from rfl, measureReal_empty]
    positivity
  have hone : ∀ i : Fin k, (callsLaw μ).real {D | ∃ S', gen (fun i => sim (D i)) N' = .ok S' ∧ ∃ M', learn i S = .ok M' ∧
      ∃ l, val M' S' = .ok l ∧ t * margin F (Q M') ≤ |l - expectedLogLik F P (Q M')|} ≤ 2 * Real.exp (-(2 * N' * t ^ 2)) := by
    intro i
    rcases hM : learn i S with e | M'
    · simp only [reduceCtorEq, false_and, exists_false, and_false]
      rw [show {D : ℕ → Ω | False} = ∅ from rfl, measureReal_empty]
      positivity
    · have b0 := margin_pos F (Q M')
      have := h.precision hgen (Q M') (margin F (Q M')) b0.le (fun w hw _ => ⟨(hQ i S M' hS hM w hw).2, margin_spec F _ w hw (hQ i S M' hS hM w hw).1⟩)
        (t * margin F (Q M')) (mul_nonneg ht b0.le) N' hN' (fun S' l => val M' S' = .ok l) (fun S' l h1 h2 h3 h4 => by
          rw [hval i S M' hS hM S' h1 h2 h3] at h4
          injection h4 with h4
          exact h4.symm)
      rw [show 2 * (N' : ℝ) * (t * margin F (Q M')) ^ 2 / margin F (Q M') ^ 2 = 2 * N' * t ^ 2 by field_simp] at this
      refine le_trans (measureReal_mono ?_ (measure_ne_top _ _)) this
      rintro D ⟨S', h1, M'', h2, h3⟩
      injection h2 with h2
      subst h2
      exact ⟨S', h1, h3⟩
  calc _ ≤ (callsLaw μ).real (⋃ i ∈ (Finset.univ : Finset (Fin k)), {D | ∃ S', gen (fun i => sim (D i)) N' = .ok S' ∧ ∃ M', learn i S = .ok M' ∧
      ∃ l, val M' S' = .ok l ∧ t * margin F (Q M') ≤ |l - expectedLogLik F P (Q M')|}) := by
        refine measureReal_mono ?_ (measure_ne_top _ _)
        rintro D ⟨S', h1, -, i, M', h2, h3⟩
        simp only [Set.mem_iUnion]
        exact ⟨i, Finset.mem_univ i, S', h1, M', h2, h3⟩
    _ ≤ ∑ i : Fin k, 2 * Real.exp (-(2 * N' * t ^ 2)) := (measureReal_biUnion_finset_le _ _).trans (Finset.sum_le_sum (fun i _ => hone i))
    _ = _ := by rw [Finset.sum_const, Finset.card_univ, Fintype.card_fin, nsmul_eq_mul]; ring

theorem Draws.stream_holdout {sim : (ℕ → ℝ) → Py (List O)} {c : ℕ} (h : Draws drawsLaw sim W F P) (hgen : CountsTraces gen W) (hl : Local gen) (hc : 0 < c) (hr : Reads sim c)
    {κ : Type} {k : ℕ} (learn : Fin k → TSet O → Py κ) (val : κ → TSet O → Py ℝ) (Q : κ → List O → ℝ) (N N' : ℕ) (hN' : 1 ≤ N') (t : ℝ) (ht : 0 ≤ t)
    (hval : ∀ i S M', (S.Countable ∧ S.times.sum = N ∧ ∀ w ∈ S.sequences, 0 < P w ∧ w ∈ F) → learn i S = .ok M' →
      ∀ S', S'.Countable → S'.times.sum = N' → (∀ w ∈ S'.sequences, w ∈ W) → val M' S' = .ok (avgLogLik (Q M') S'))
    (hQ : ∀ i S M', (S.Countable ∧ S.times.sum = N ∧ ∀ w ∈ S.sequences, 0 < P w ∧ w ∈ F) → learn i S = .ok M' → ∀ w ∈ F, 0 ≤ Q M' w ∧ Q M' w ≤ 1) :
    1 - 2 * k * Real.exp (-(2 * N' * t ^ 2)) ≤ drawsLaw.real {d | ∃ S S', gen (fun j => sim (fun i => d (j * c + i))) N = .ok S ∧
      gen (fun j => sim (fun i => d ((N + j) * c + i))) N' = .ok S' ∧ (S.Countable ∧ S.times.sum = N ∧ ∀ w ∈ S.sequences, 0 < P w ∧ w ∈ F) ∧
      ∀ i M', learn i S = .ok M' → ∃ l, val M' S' = .ok l ∧ |l - expectedLogLik F P (Q M')| < t * margin F (Q M')} := by
  have hb := h.block hc hr
  have key := hb.holdout hgen hl learn val Q N N' hN' t ht _ hval hQ
  have hm := blocks_law c hc
  have hle : drawsLaw.real {d | ∃ S S', gen (fun j => sim (fun i => d (j * c + i))) N = .ok S ∧ gen (fun j => sim (fun i => d ((N + j) * c + i))) N' = .ok S' ∧
      (S.Countable ∧ S.times.sum = N ∧ ∀ w ∈ S.sequences, 0 < P w ∧ w ∈ F) ∧ ∃ i M', learn i S = .ok M' ∧ ∃ l, val M' S' = .ok l ∧
        t * margin F (Q M') ≤ |l - expectedLogLik F P (Q M')|} ≤ 2 * k * Real.exp (-(2 * N' * t ^ 2)) := by
    refine le_trans ?_ key
    unfold Measure.real
    refine ENNReal.toReal_mono (measure_ne_top _ _) ?_
    have := Measure.le_map_apply (μ := drawsLaw) hm.measurable.aemeasurable {D : ℕ → Fin c → ℝ | ∃ S S', gen (fun i => sim (padZero c (D i))) N = .ok S ∧
      gen (fun i => sim (padZero c (dropCalls N D i))) N' = .ok S' ∧
      (S.Countable ∧ S.times.sum = N ∧ ∀ w ∈ S.sequences, 0 < P w ∧ w ∈ F) ∧ ∃ i M', learn i S = .ok M' ∧ ∃ l, val M' S' = .ok l ∧
        t * margin F (Q M') ≤ |l - expectedLogLik F P (Q M')|}
    rw [hm.map_eq] at this
    refine le_trans (le_of_eq ?_) this
    congr 1
    ext d
    simp only [Set.mem_preimage, Set.mem_ofPred_eq, dropCalls, hr.block]
  refine success_ge hle ?_
  have hs1 := hm.quasiMeasurePreserving.ae (hb.sure hgen N)
  have hs2 := hm.quasiMeasurePreserving.ae ((dropCalls_law (μ := blockLaw c) N).quasiMeasurePreserving.ae (hb.sure hgen N'))
  simp only [dropCalls, hr.block] at hs1 hs2
  filter_upwards [hs1, hs2, hm.quasiMeasurePreserving.ae ((dropCalls_law (μ := blockLaw c) N).quasiMeasurePreserving.ae hb.simulates.all_ok)] with d h1 h2 h3
  obtain ⟨S, e1, e2⟩ := h1
  obtain ⟨S', f1, f2, f3, f4⟩ := h2
  have hW : ∀ w ∈ S'.sequences, w ∈ W := by
    obtain ⟨S'', g1, -, -, g4, -⟩ := hb.simulates.sets hgen _ h3 N'
    simp only [dropCalls, hr.block] at g1
    rw [f1] at g1
    injection g1 with g1
    rw [g1]
    exact g4
  by_cases hbad : ∃ i M', learn i S = .ok M' ∧ ∃ l, val M' S' = .ok l ∧ t * margin F (Q M') ≤ |l - expectedLogLik F P (Q M')|
  · exact Or.inl ⟨S, S', e1, f1, e2, hbad⟩
  · right
    push Not at hbad
    exact ⟨S, S', e1, f1, e2, fun i M' hM' => ⟨_, hval i S M' e2 hM' S' f2 f3 hW, hbad i M' hM' _ (hval i S M' e2 hM' S' f2 f3 hW)⟩⟩

end

variable {L : Type} [DecidableEq L] {n : ℕ}

theorem HMM.fit_nodup (processes : ℕ) (S : TSet L) (epsilon : ℝ) (maxIt : ℕ) (M : HMM ℝ L n) (hnd : M.alphabet.Nodup)
    (st : LoopState (HMM ℝ L n)) (h : fit (stepHMM processes S) epsilon maxIt M = .ok st) : st.h.alphabet.Nodup :=
  loop_invariant _ _ (fun M' => M'.alphabet.Nodup) (fun _ _ _ hi hs => by rw [HMM.bw_step_alphabet _ _ _ _ _ hs]; exact hi) _ _ _ hnd h

namespace MC

/-- C120, data of a Markov chain: `k` Markov chains are learned, by any means, from a set of `N` generated traces. The log-likelihoods of all of them on a second set, of `N'` traces
generated afterwards, are precise with a probability of at least `1 - 2 k exp(-2 N' t²)`. -/
theorem holdout (G : MC ℝ L n) (hG : G.Stochastic) (kind : L → Kind) (steps : ℕ) (hs : 1 ≤ steps) (geom : ℕ → ℕ) (cpus : ℕ) (hc : 2 ≤ cpus)
    {k : ℕ} (learn : Fin k → TSet L → Py (Σ m, MC ℝ L m)) (N N' : ℕ) (hN' : 1 ≤ N') (t : ℝ) (ht : 0 ≤ t)
    (hlearn : ∀ i S M', S.Countable → S.times.sum = N → (∀ w ∈ S.sequences, 0 < G.lik w) → learn i S = .ok M' →
      ∀ w : List L, w.length = steps + 1 → 0 ≤ M'.2.lik w ∧ M'.2.lik w ≤ 1) :
    1 - 2 * k * Real.exp (-(2 * N' * t ^ 2)) ≤ drawsLaw.real {d | ∃ S S', generateSet kind (fun j k => G.run k (fun i => d (j * (steps + 1) + i))) N false none (.int steps) geom = .ok S ∧
      generateSet kind (fun j k => G.run k (fun i => d ((N + j) * (steps + 1) + i))) N' false none (.int steps) geom = .ok S' ∧
      (S.Countable ∧ S.times.sum = N ∧ ∀ w ∈ S.sequences, 0 < G.lik w ∧ w ∈ tracesOver (Finset.univ.image G.labelling) (steps + 1)) ∧
      ∀ i M', learn i S = .ok M' → ∃ l, M'.2.iface.logLikelihoodMultiproc cpus S' = .ok l ∧
        |l - expectedLogLik (tracesOver (Finset.univ.image G.labelling) (steps + 1)) G.lik M'.2.lik| < t * margin (tracesOver (Finset.univ.image G.labelling) (steps + 1)) M'.2.lik} := by
  simp only [gen_eq kind _ N false none (.int steps) geom (fun _ => steps) (fun _ => rfl), gen_eq kind _ N' false none (.int steps) geom (fun _ => steps) (fun _ => rfl)]
  refine Draws.stream_holdout (G.draws hG steps) (gen_counts kind _ (fun w hw => by have := hw.1; omega)) (gen_local kind) (Nat.succ_pos _) (G.run_reads steps)
    learn (fun M' S' => M'.2.iface.logLikelihoodMultiproc cpus S') (fun M' => M'.2.lik) N N' hN' t ht ?_ ?_
  · rintro i S ⟨m, M'⟩ ⟨h1, h2, h3⟩ hl S' - - hW
    refine M'.iface.multiproc_eq M'.lik cpus hc S' (fun w hw => ?_)
    have hne : w ≠ [] := fun e => by have := (hW w hw).1; simp [e] at this
    exact M'.seqProb_eq_paths w hne
  · rintro i S ⟨m, M'⟩ ⟨h1, h2, h3⟩ hl w hw
    have hM' := hlearn i S ⟨m, M'⟩ h1 h2 (fun w hw => (h3 w hw).1) hl
    exact hM' w ((mem_tracesOver _ _ _).1 hw).1

/-- C120, the case of `BW().fit`: `k` initial Markov chains (several random ones, several numbers of states), each improved by `BW().fit` on the first set. -/
theorem holdout_fit (G : MC ℝ L n) (hG : G.Stochastic) (kind : L → Kind) (steps : ℕ) (hs : 1 ≤ steps) (geom : ℕ → ℕ) (cpus : ℕ) (hc : 2 ≤ cpus)
    {k : ℕ} {m : Fin k → ℕ} (M0 : (i : Fin k) → MC ℝ L (m i)) (hM0 : ∀ i, (M0 i).Stochastic) (processes : ℕ) (epsilon : ℝ) (maxIt : ℕ)
    (N N' : ℕ) (hN' : 1 ≤ N') (t : ℝ) (ht : 0 ≤ t) :
    1 - 2 * k * Real.exp (-(2 * N' * t ^ 2)) ≤ drawsLaw.real {d | ∃ S S', generateSet kind (fun j k => G.run k (fun i => d (j * (steps + 1) + i))) N false none (.int steps) geom = .ok S ∧
      generateSet kind (fun j k => G.run k (fun i => d ((N + j) * (steps + 1) + i))) N' false none (.int steps) geom = .ok S' ∧
      (∀ i, 1 < processes → 1 ≤ N → (∀ w : List L, w.length = steps + 1 → 0 < G.lik w → (M0 i).lik w ≠ 0) →
        ∃ st, fit (stepMC processes S) epsilon maxIt (M0 i) = .ok st) ∧
      ∀ i st, fit (stepMC processes S) epsilon maxIt (M0 i) = .ok st → ∃ l, st.h.iface.logLikelihoodMultiproc cpus S' = .ok l ∧
        |l - expectedLogLik (tracesOver (Finset.univ.image G.labelling) (steps + 1)) G.lik st.h.lik| < t * margin (tracesOver (Finset.univ.image G.labelling) (steps + 1)) st.h.lik} := by
  refine (holdout G hG kind steps hs geom cpus hc (fun i S => (fit (stepMC processes S) epsilon maxIt (M0 i)).map (fun st => (⟨m i, st.h⟩ : Σ m, MC ℝ L m))) N N' hN' t ht
    ?_).trans (measureReal_mono ?_ (measure_ne_top _ _))
  · intro i S M' hS _ _ hl
    rcases hf : fit (stepMC processes S) epsilon maxIt (M0 i) with e | st
    · rw [hf] at hl; cases hl
    · rw [hf] at hl
      injection hl with hl
      subst hl
      have hT := st.h.traceDist (fit_stochastic processes S epsilon maxIt (M0 i) (hM0 i) st hf) steps
      exact fun w hw => ⟨hT.nonneg w hw, hT.le_one hw⟩
  · rintro d ⟨S, S', h1, h2, ⟨g1, g2, g3⟩, h3⟩
    refine ⟨S, S', h1, h2, fun i hp hN hposs => ?_, fun i st hst => ?_⟩
    · have hlen : S.times.length = S.sequences.length := g1.1.1
      obtain ⟨w, hw⟩ : ∃ w, w ∈ S.sequences := by
        refine List.exists_mem_of_ne_nil _ (fun e => ?_)
        rw [e, List.length_nil, List.length_eq_zero_iff] at hlen
        rw [hlen, List.sum_nil] at g2
        omega
      have hl := fun w hw => ((mem_tracesOver _ _ w).1 (g3 w hw).2).1
      refine fit_total processes hp S epsilon maxIt (M0 i) (hM0 i) (fun w hw e => ?_) hlen g1.2.1 w hw (hposs w (hl w hw) (g3 w hw).1)
      have := hl w hw
      rw [e, List.length_nil] at this
      omega
    exact h3 i ⟨m i, st.h⟩ (by rw [hst]; rfl)

/-- C120, the choice of a model: with the same probability, whichever of the learned models has the larger log-likelihood on the second set, none of the others would be much better
on unlimited data. -/
theorem selection_fit (G : MC ℝ L n) (hG : G.Stochastic) (kind : L → Kind) (steps : ℕ) (hs : 1 ≤ steps) (geom : ℕ → ℕ) (cpus : ℕ) (hc : 2 ≤ cpus)
    {k : ℕ} {m : Fin k → ℕ} (M0 : (i : Fin k) → MC ℝ L (m i)) (hM0 : ∀ i, (M0 i).Stochastic) (processes : ℕ) (epsilon : ℝ) (maxIt : ℕ)
    (N N' : ℕ) (hN' : 1 ≤ N') (t : ℝ) (ht : 0 ≤ t) :
    1 - 2 * k * Real.exp (-(2 * N' * t ^ 2)) ≤ drawsLaw.real {d | ∃ S S', generateSet kind (fun j k => G.run k (fun i => d (j * (steps + 1) + i))) N false none (.int steps) geom = .ok S ∧
      generateSet kind (fun j k => G.run k (fun i => d ((N + j) * (steps + 1) + i))) N' false none (.int steps) geom = .ok S' ∧
      ∀ i j sti stj li lj, fit (stepMC processes S) epsilon maxIt (M0 i) = .ok sti → fit (stepMC processes S) epsilon maxIt (M0 j) = .ok stj →
        sti.h.iface.logLikelihoodMultiproc cpus S' = .ok li → stj.h.iface.logLikelihoodMultiproc cpus S' = .ok lj → lj ≤ li →
        expectedLogLik (tracesOver (Finset.univ.image G.labelling) (steps + 1)) G.lik stj.h.lik - t * (margin (tracesOver (Finset.univ.image G.labelling) (steps + 1)) sti.h.lik + margin (tracesOver (Finset.univ.image G.labelling) (steps + 1)) stj.h.lik)
          < expectedLogLik (tracesOver (Finset.univ.image G.labelling) (steps + 1)) G.lik sti.h.lik} := by
  refine (holdout_fit G hG kind steps hs geom cpus hc M0 hM0 processes epsilon maxIt N N' hN' t ht).trans (measureReal_mono ?_ (measure_ne_top _ _))
  rintro d ⟨S, S', h1, h2, -, h3⟩
  refine ⟨S, S', h1, h2, fun i j sti stj li lj fi fj ei ej hle => ?_⟩
  obtain ⟨l1, a1, a2⟩ := h3 i sti fi
  obtain ⟨l2, b1, b2⟩ := h3 j stj fj
  rw [a1] at ei
  rw [b1] at ej
  injection ei with ei
  injection ej with ej
  subst ei ej
  have c1 := (abs_lt.1 a2).2
  have c2 := (abs_lt.1 b2).1
  linarith

end MC

namespace HMM

/-- C120, data of a hidden Markov model: `k` hidden Markov models are learned, by any means, from a set of `N` generated traces. The log-likelihoods of all of them on a second set, of `N'` traces
generated afterwards, are precise with a probability of at least `1 - 2 k exp(-2 N' t²)`. -/
theorem holdout (G : HMM ℝ L n) (hn : G.alphabet.Nodup) (hG : G.Stochastic) (kind : L → Kind) (steps : ℕ) (hs : 2 ≤ steps) (geom : ℕ → ℕ) (cpus : ℕ) (hc : 2 ≤ cpus)
    {k : ℕ} (learn : Fin k → TSet L → Py (Σ m, HMM ℝ L m)) (N N' : ℕ) (hN' : 1 ≤ N') (t : ℝ) (ht : 0 ≤ t)
    (hlearn : ∀ i S M', S.Countable → S.times.sum = N → (∀ w ∈ S.sequences, 0 < G.lik w) → learn i S = .ok M' → M'.2.alphabet.Nodup ∧ M'.2.Stochastic) :
    1 - 2 * k * Real.exp (-(2 * N' * t ^ 2)) ≤ drawsLaw.real {d | ∃ S S', generateSet kind (fun j k => G.run k (fun i => d (j * (2 * steps + 1) + i))) N false none (.int steps) geom = .ok S ∧
      generateSet kind (fun j k => G.run k (fun i => d ((N + j) * (2 * steps + 1) + i))) N' false none (.int steps) geom = .ok S' ∧
      (S.Countable ∧ S.times.sum = N ∧ ∀ w ∈ S.sequences, 0 < G.lik w ∧ w ∈ tracesOver G.alphabet.toFinset steps) ∧
      ∀ i M', learn i S = .ok M' → ∃ l, M'.2.iface.logLikelihoodMultiproc cpus S' = .ok l ∧
        |l - expectedLogLik (tracesOver G.alphabet.toFinset steps) G.lik M'.2.lik| < t * margin (tracesOver G.alphabet.toFinset steps) M'.2.lik} := by
  simp only [gen_eq kind _ N false none (.int steps) geom (fun _ => steps) (fun _ => rfl), gen_eq kind _ N' false none (.int steps) geom (fun _ => steps) (fun _ => rfl)]
  obtain ⟨k', rfl⟩ : ∃ k', steps = k' + 1 := ⟨steps - 1, by omega⟩
  refine Draws.stream_holdout (G.draws hn hG (k' + 1) (by omega)) (gen_counts kind _ (fun w hw => by have := hw.1; omega)) (gen_local kind) (Nat.succ_pos _) (G.run_reads (k' + 1))
    learn (fun M' S' => M'.2.iface.logLikelihoodMultiproc cpus S') (fun M' => M'.2.lik) N N' hN' t ht ?_ ?_
  · rintro i S ⟨m, M'⟩ ⟨h1, h2, h3⟩ hl S' - - hW
    have hM' := hlearn i S ⟨m, M'⟩ h1 h2 (fun w hw => (h3 w hw).1) hl
    refine M'.iface.multiproc_eq M'.lik cpus hc S' (fun w hw => ?_)
    have hne : w ≠ [] := fun e => by have := (hW w hw).1; simp [e] at this
    exact M'.seqProb_lik hM'.1 w hne
  · rintro i S ⟨m, M'⟩ ⟨h1, h2, h3⟩ hl w hw
    have hM' := hlearn i S ⟨m, M'⟩ h1 h2 (fun w hw => (h3 w hw).1) hl
    have hlen := ((mem_tracesOver _ _ _).1 hw).1
    have hT := M'.traceDist hM'.1 hM'.2 (k' + 1) (by omega)
    exact ⟨hT.nonneg w hlen, hT.le_one hlen⟩

/-- C120, the case of `BW().fit`: `k` initial hidden Markov models (several random ones, several numbers of states), each improved by `BW().fit` on the first set. -/
theorem holdout_fit (G : HMM ℝ L n) (hn : G.alphabet.Nodup) (hG : G.Stochastic) (kind : L → Kind) (steps : ℕ) (hs : 2 ≤ steps) (geom : ℕ → ℕ) (cpus : ℕ) (hc : 2 ≤ cpus)
    {k : ℕ} {m : Fin k → ℕ} (M0 : (i : Fin k) → HMM ℝ L (m i)) (hM0 : ∀ i, (M0 i).alphabet.Nodup ∧ (M0 i).Stochastic) (processes : ℕ) (epsilon : ℝ) (maxIt : ℕ)
    (N N' : ℕ) (hN' : 1 ≤ N') (t : ℝ) (ht : 0 ≤ t) :
    1 - 2 * k * Real.exp (-(2 * N' * t ^ 2)) ≤ drawsLaw.real {d | ∃ S S', generateSet kind (fun j k => G.run k (fun i => d (j * (2 * steps + 1) + i))) N false none (.int steps) geom = .ok S ∧
      generateSet kind (fun j k => G.run k (fun i => d ((N + j) * (2 * steps + 1) + i))) N' false none (.int steps) geom = .ok S' ∧
      (∀ i, 1 < processes → 1 ≤ N → (∀ w : List L, w.length = steps → 0 < G.lik w → (M0 i).lik w ≠ 0) →
        ∃ st, fit (stepHMM processes S) epsilon maxIt (M0 i) = .ok st) ∧
      ∀ i st, fit (stepHMM processes S) epsilon maxIt (M0 i) = .ok st → ∃ l, st.h.iface.logLikelihoodMultiproc cpus S' = .ok l ∧
        |l - expectedLogLik (tracesOver G.alphabet.toFinset steps) G.lik st.h.lik| < t * margin (tracesOver G.alphabet.toFinset steps) st.h.lik} := by
  refine (holdout G hn hG kind steps hs geom cpus hc (fun i S => (fit (stepHMM processes S) epsilon maxIt (M0 i)).map (fun st => (⟨m i, st.h⟩ : Σ m, HMM ℝ L m))) N N' hN' t ht
    ?_).trans (measureReal_mono ?_ (measure_ne_top _ _))
  · intro i S M' hS _ _ hl
    rcases hf : fit (stepHMM processes S) epsilon maxIt (M0 i) with e | st
    · rw [hf] at hl; cases hl
    · rw [hf] at hl
      injection hl with hl
      subst hl
      exact ⟨fit_nodup processes S epsilon maxIt (M0 i) (hM0 i).1 st hf, fit_stochastic processes S epsilon maxIt (M0 i) (hM0 i).1 (hM0 i).2 hS.2.1 st hf⟩
  · rintro d ⟨S, S', h1, h2, ⟨g1, g2, g3⟩, h3⟩
    refine ⟨S, S', h1, h2, fun i hp hN hposs => ?_, fun i st hst => ?_⟩
    · have hlen : S.times.length = S.sequences.length := g1.1.1
      obtain ⟨w, hw⟩ : ∃ w, w ∈ S.sequences := by
        refine List.exists_mem_of_ne_nil _ (fun e => ?_)
        rw [e, List.length_nil, List.length_eq_zero_iff] at hlen
        rw [hlen, List.sum_nil] at g2
        omega
      have hl := fun w hw => ((mem_tracesOver _ _ w).1 (g3 w hw).2).1
      refine fit_total processes hp S epsilon maxIt (M0 i) (hM0 i).1 (hM0 i).2 (fun w hw e => ?_) hlen g1.2.1 w hw (hposs w (hl w hw) (g3 w hw).1)
      have := hl w hw
      rw [e, List.length_nil] at this
      omega
    exact h3 i ⟨m i, st.h⟩ (by rw [hst]; rfl)

/-- C120, the choice of a model: with the same probability, whichever of the learned models has the larger log-likelihood on the second set, none of the others would be much better
on unlimited data. -/
theorem selection_fit (G : HMM ℝ L n) (hn : G.alphabet.Nodup) (hG : G.Stochastic) (kind : L → Kind) (steps : ℕ) (hs : 2 ≤ steps) (geom : ℕ → ℕ) (cpus : ℕ) (hc : 2 ≤ cpus)
    {k : ℕ} {m : Fin k → ℕ} (M0 : (i : Fin k) → HMM ℝ L (m i)) (hM0 : ∀ i, (M0 i).alphabet.Nodup ∧ (M0 i).Stochastic) (processes : ℕ) (epsilon : ℝ) (maxIt : ℕ)
    (N N' : ℕ) (hN' : 1 ≤ N') (t : ℝ) (ht : 0 ≤ t) :
    1 - 2 * k * Real.exp (-(2 * N' * t ^ 2)) ≤ drawsLaw.real {d | ∃ S S', generateSet kind (fun j k => G.run k (fun i => d (j * (2 * steps + 1) + i))) N false none (.int steps) geom = .ok S ∧
      generateSet kind (fun j k => G.run k (fun i => d ((N + j) * (2 * steps + 1) + i))) N' false none (.int steps) geom = .ok S' ∧
      ∀ i j sti stj li lj, fit (stepHMM processes S) epsilon maxIt (M0 i) = .ok sti → fit (stepHMM processes S) epsilon maxIt (M0 j) = .ok stj →
        sti.h.iface.logLikelihoodMultiproc cpus S' = .ok li → stj.h.iface.logLikelihoodMultiproc cpus S' = .ok lj → lj ≤ li →
        expectedLogLik (tracesOver G.alphabet.toFinset steps) G.lik stj.h.lik - t * (margin (tracesOver G.alphabet.toFinset steps) sti.h.lik + margin (tracesOver G.alphabet.toFinset steps) stj.h.lik)
          < expectedLogLik (tracesOver G.alphabet.toFinset steps) G.lik sti.h.lik} := by
  refine (holdout_fit G hn hG kind steps hs geom cpus hc M0 hM0 processes epsilon maxIt N N' hN' t ht).trans (measureReal_mono ?_ (measure_ne_top _ _))
  rintro d ⟨S, S', h1, h2, -, h3⟩
  refine ⟨S, S', h1, h2, fun i j sti stj li lj fi fj ei ej hle => ?_⟩
  obtain ⟨l1, a1, a2⟩ := h3 i sti fi
  obtain ⟨l2, b1, b2⟩ := h3 j stj fj
  rw [a1] at ei
  rw [b1] at ej
  injection ei with ei
  injection ej with ej
  subst ei ej
  have c1 := (abs_lt.1 a2).2
  have c2 := (abs_lt.1 b2).1
  linarith

end HMM

end Jajapy
