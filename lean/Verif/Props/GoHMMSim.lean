import Verif.Lemmas.GoHMMSim
import Verif.Props.GoHMM

set_option linter.unusedSectionVars false

/-!
Property C90: the law of the simulator of GoHMMs.
-/

namespace Jajapy

open MeasureTheory ProbabilityTheory Spec Finset Tools BW

namespace GoHMM
variable {n d : ℕ}

/-- The draws with which the simulation from `s` has its observations in the given sets. -/
def goSet (M : GoHMM n d) {k : ℕ} (A : Fin k → Set (Fin d → ℝ)) (s : Fin n) : Set ((ℕ → ℝ) × (ℕ → Fin d → ℝ)) :=
  {p | ∃ w : Fin k → Fin d → ℝ, (∀ i, w i ∈ A i) ∧ M.runLoop k p.1 p.2 s = .ok (List.ofFn w)}

theorem goSet_zero (M : GoHMM n d) (A : Fin 0 → Set (Fin d → ℝ)) (s : Fin n) : M.goSet A s = Set.univ :=
  Set.eq_univ_of_forall (fun _ => ⟨fun i => i.elim0, fun i => i.elim0, rfl⟩)

theorem goSet_succ (M : GoHMM n d) {k : ℕ} (A : Fin (k+1) → Set (Fin d → ℝ)) (s : Fin n) :
    M.goSet A s = {p | ∃ i, pick (M.matrix s) (p.1 0) = .ok i ∧ p.2 0 ∈ M.nextObs s ⁻¹' A 0 ∧
      (fun k => p.1 (k+1), fun k => p.2 (k+1)) ∈ M.goSet (fun i => A i.succ) i} := by
  ext p
  simp only [goSet, Set.mem_ofPred_eq, runLoop, next, Set.mem_preimage]
  constructor
  · rintro ⟨w, hw, h⟩
    rw [Except.bind_eq_ok] at h
    obtain ⟨x, h1, h2⟩ := h
    rw [Except.bind_eq_ok] at h1 h2
    obtain ⟨i, h1, h3⟩ := h1
    obtain ⟨rest, h2, h4⟩ := h2
    cases h3
    rw [List.ofFn_succ] at h4
    injection h4 with h4
    injection h4 with h4 h5
    refine ⟨i, h1, ?_, fun i => w i.succ, fun i => hw i.succ, ?_⟩
    · have h4' : M.nextObs s (p.2 0) = w 0 := h4
      rw [h4']; exact hw 0
    · rw [← h5]; exact h2
  · rintro ⟨i, h1, h2, w, hw, h3⟩
    refine ⟨Fin.cons (M.nextObs s (p.2 0)) w, fun j => Fin.cases h2 hw j, ?_⟩
    rw [h1]
    simp only [bind, Except.bind, pure, Except.pure, h3, List.ofFn_succ, Fin.cons_zero, Fin.cons_succ]

theorem measurable_goSet (M : GoHMM n d) {k : ℕ} (A : Fin k → Set (Fin d → ℝ)) (hA : ∀ i, MeasurableSet (A i)) (s : Fin n) :
    MeasurableSet (M.goSet A s) := by
  induction k generalizing s with
  | zero => rw [goSet_zero]; exact MeasurableSet.univ
  | succ k ih =>
    rw [goSet_succ]
    exact measurable_goBind _ (M.measurable_nextObs s (hA 0)) _ (fun i => ih _ (fun j => hA j.succ) i)

theorem sufProb_cons {O : Type} (a : Fin n → Fin n → ℝ) (h1 : ∀ s, ∑ s', a s s' = 1) (b : Fin n → O → ℝ) (s : Fin n) (o : O) (os : List O) :
    sufProb a b s (o :: os) = b s o * ∑ s', a s s' * sufProb a b s' os := by
  cases os with
  | nil => simp [sufProb, h1]
  | cons o' os => rfl

theorem sufProb_nonneg {O : Type} (a : Fin n → Fin n → ℝ) (h0 : ∀ s s', 0 ≤ a s s') (b : Fin n → O → ℝ) (hb : ∀ s o, 0 ≤ b s o) :
    ∀ (os : List O) (s : Fin n), 0 ≤ sufProb a b s os
  | [], _ => zero_le_one
  | [o], s => hb s o
  | o :: o' :: os, s => mul_nonneg (hb s o) (Finset.sum_nonneg (fun s' _ => mul_nonneg (h0 s s') (sufProb_nonneg a h0 b hb (o' :: os) s')))

theorem goLoop_law (M : GoHMM n d) (hM : M.Valid) {k : ℕ} (A : Fin k → Set (Fin d → ℝ)) (hA : ∀ i, MeasurableSet (A i)) (s : Fin n) :
    goLaw d (M.goSet A s) = ENNReal.ofReal (sufProb M.matrix (fun s B => (M.obsLaw s).real B) s (List.ofFn A)) := by
  induction k generalizing s with
  | zero => rw [goSet_zero]; simp [sufProb]
  | succ k ih =>
    obtain ⟨-, -, h0, h1, -⟩ := hM
    rw [goSet_succ, goLaw_bind (M.matrix s) (h0 s) (h1 s).le (M.measurable_nextObs s (hA 0)) _
      (fun i => M.measurable_goSet _ (fun j => hA j.succ) i), List.ofFn_succ, sufProb_cons _ h1]
    have hn : ∀ i l, 0 ≤ M.matrix s i * sufProb M.matrix (fun s B => (M.obsLaw s).real B) i l := fun i l =>
      mul_nonneg (h0 s i) (sufProb_nonneg _ h0 _ (fun _ _ => measureReal_nonneg) _ _)
    rw [ENNReal.ofReal_mul measureReal_nonneg, ENNReal.ofReal_sum_of_nonneg (fun i _ => hn i _), Finset.mul_sum, ofReal_measureReal]
    refine Finset.sum_congr rfl (fun i _ => ?_)
    rw [ih _ (fun j => hA j.succ), ENNReal.ofReal_mul (h0 s i), ← M.map_nextObs s, Measure.map_apply (M.measurable_nextObs s) (hA 0)]
    ring

theorem run_iff (M : GoHMM n d) (k : ℕ) (p : (ℕ → ℝ) × (ℕ → Fin d → ℝ)) (w : Fin k → Fin d → ℝ) :
    M.run k p.1 p.2 = .ok (List.ofFn w) ↔ ∃ i, pick M.initialState (p.1 0) = .ok i ∧
      M.runLoop k (fun k => p.1 (k+1)) p.2 i = .ok (List.ofFn w) := by
  unfold run
  rw [Except.bind_eq_ok]

theorem runSet_eq (M : GoHMM n d) {k : ℕ} (A : Fin k → Set (Fin d → ℝ)) :
    {p : (ℕ → ℝ) × (ℕ → Fin d → ℝ) | ∃ w : Fin k → Fin d → ℝ, (∀ i, w i ∈ A i) ∧ M.run k p.1 p.2 = .ok (List.ofFn w)}
      = {p | ∃ i, pick M.initialState (p.1 0) = .ok i ∧ (fun k => p.1 (k+1), p.2) ∈ M.goSet A i} := by
  ext p
  simp only [Set.mem_ofPred_eq, run_iff, goSet]
  constructor
  · rintro ⟨w, hw, i, h1, h2⟩
    exact ⟨i, h1, w, hw, h2⟩
  · rintro ⟨i, h1, w, hw, h2⟩
    exact ⟨w, hw, i, h1, h2⟩

/-- C90: the probability that the observations of `run(k+1)` are in the given sets is the sum over the paths of hidden states of the probability of the path
times the probabilities of these sets under the normal laws of its states. -/
theorem run_law (M : GoHMM n d) (hM : M.Valid) {k : ℕ} (A : Fin (k+1) → Set (Fin d → ℝ)) (hA : ∀ i, MeasurableSet (A i)) :
    goLaw d {p | ∃ w : Fin (k+1) → Fin d → ℝ, (∀ i, w i ∈ A i) ∧ M.run (k+1) p.1 p.2 = .ok (List.ofFn w)}
      = ENNReal.ofReal (traceProb M.initialState M.matrix (fun s B => (M.obsLaw s).real B) A) := by
  rw [runSet_eq, goLaw_init M.initialState hM.1 hM.2.1.le _ (fun i => M.measurable_goSet A hA i)]
  have e : traceProb M.initialState M.matrix (fun s B => (M.obsLaw s).real B) A
      = ∑ s, M.initialState s * sufProb M.matrix (fun s B => (M.obsLaw s).real B) s (List.ofFn A) := by
    rw [List.ofFn_succ, ← listProb_eq_sufProb, ← List.ofFn_succ, Iface.listProb_ofFn]
  rw [e, ENNReal.ofReal_sum_of_nonneg (fun i _ => mul_nonneg (hM.1 i) (sufProb_nonneg _ hM.2.2.1 _ (fun _ _ => measureReal_nonneg) _ _))]
  exact Finset.sum_congr rfl (fun i _ => by rw [M.goLoop_law hM A hA i, ENNReal.ofReal_mul (hM.1 i)])

/-- The draws with which `run` returns a trace of the set. -/
def runSet (M : GoHMM n d) {k : ℕ} (B : Set (Fin k → Fin d → ℝ)) : Set ((ℕ → ℝ) × (ℕ → Fin d → ℝ)) :=
  {p | ∃ w ∈ B, M.run k p.1 p.2 = .ok (List.ofFn w)}

theorem measurable_runSet_box (M : GoHMM n d) {k : ℕ} (A : Fin k → Set (Fin d → ℝ)) (hA : ∀ i, MeasurableSet (A i)) :
    MeasurableSet (M.runSet (Set.pi Set.univ A)) := by
  have e : M.runSet (Set.pi Set.univ A) = ⋃ i, {p | p.1 0 ∈ {r | pick M.initialState r = .ok i} ∧ (fun k => p.1 (k+1), p.2) ∈ M.goSet A i} := by
    have : M.runSet (Set.pi Set.univ A)
        = {p : (ℕ → ℝ) × (ℕ → Fin d → ℝ) | ∃ w : Fin k → Fin d → ℝ, (∀ i, w i ∈ A i) ∧ M.run k p.1 p.2 = .ok (List.ofFn w)} := by
      ext p; simp [runSet]
    rw [this, runSet_eq]
    ext p; simp
  rw [e]
  have h1 : Measurable (fun p : (ℕ → ℝ) × (ℕ → Fin d → ℝ) => p.1 0) := (measurable_pi_apply 0).comp measurable_fst
  have h3 : Measurable (fun p : (ℕ → ℝ) × (ℕ → Fin d → ℝ) => ((fun k => p.1 (k+1), p.2) : (ℕ → ℝ) × (ℕ → Fin d → ℝ))) :=
    Measurable.prodMk (measurable_pi_iff.2 (fun k => (measurable_pi_apply (k+1)).comp measurable_fst)) measurable_snd
  exact MeasurableSet.iUnion (fun i => (h1 (measurable_pick _ i)).inter (h3 (M.measurable_goSet A hA i)))

theorem measurable_lik (M : GoHMM n d) (k : ℕ) : Measurable (fun w : Fin (k+1) → Fin d → ℝ => M.lik (List.ofFn w)) := by
  unfold lik
  simp only [Iface.listProb_ofFn]
  unfold traceProb
  refine Finset.measurable_sum _ (fun p _ => Measurable.const_mul ?_ _)
  exact Finset.measurable_prod _ (fun i _ => (M.measurable_emit _).comp (measurable_pi_apply i))

theorem box_density (M : GoHMM n d) (hM : M.Valid) (hs : ∀ s i, 0 < M.sigma s i) {k : ℕ} (A : Fin (k+1) → Set (Fin d → ℝ))
    (hA : ∀ i, MeasurableSet (A i)) :
    ENNReal.ofReal (traceProb M.initialState M.matrix (fun s B => (M.obsLaw s).real B) A)
      = ∫⁻ w in Set.pi Set.univ A, ENNReal.ofReal (M.lik (List.ofFn w)) := by
  have hc : ∀ p : Fin (k+1) → Fin n, 0 ≤ M.initialState (p 0) * ∏ k : Fin k, M.matrix (p k.castSucc) (p k.succ) := fun p =>
    mul_nonneg (hM.1 _) (Finset.prod_nonneg (fun _ _ => hM.2.2.1 _ _))
  have e : ∀ w : Fin (k+1) → Fin d → ℝ, ENNReal.ofReal (M.lik (List.ofFn w)) = ∑ p : Fin (k+1) → Fin n,
      ENNReal.ofReal (M.initialState (p 0) * ∏ k : Fin k, M.matrix (p k.castSucc) (p k.succ)) * ∏ i, ENNReal.ofReal (M.emit (p i) (w i)) := by
    intro w
    unfold lik
    rw [Iface.listProb_ofFn, traceProb, ENNReal.ofReal_sum_of_nonneg]
    · refine Finset.sum_congr rfl (fun p _ => ?_)
      rw [ENNReal.ofReal_mul (hc p), ENNReal.ofReal_prod_of_nonneg (fun i _ => M.emit_nonneg' _ _)]
    · exact fun p _ => mul_nonneg (hc p) (Finset.prod_nonneg (fun i _ => M.emit_nonneg' _ _))
  have hm : ∀ p : Fin (k+1) → Fin n, Measurable (fun w : Fin (k+1) → Fin d → ℝ => ∏ i, ENNReal.ofReal (M.emit (p i) (w i))) := fun p =>
    Finset.measurable_prod _ (fun i _ => ((M.measurable_emit _).comp (measurable_pi_apply i)).ennreal_ofReal)
  simp only [e]
  rw [lintegral_finsetSum _ (fun p _ => (hm p).const_mul _), traceProb, ENNReal.ofReal_sum_of_nonneg]
  · refine Finset.sum_congr rfl (fun p _ => ?_)
    rw [lintegral_const_mul _ (hm p), ENNReal.ofReal_mul (hc p), ENNReal.ofReal_prod_of_nonneg (fun _ _ => measureReal_nonneg)]
    congr 1
    rw [volume_pi, Measure.restrict_pi_pi, lintegral_fin_prod (fun i => volume.restrict (A i)) (fun i o => ENNReal.ofReal (M.emit (p i) o))
      (fun i => (M.measurable_emit _).ennreal_ofReal)]
    refine Finset.prod_congr rfl (fun i _ => ?_)
    rw [ofReal_measureReal, M.obsLaw_density _ (hs _), withDensity_apply _ (hA i)]
  · exact fun p _ => mul_nonneg (hc p) (Finset.prod_nonneg (fun i _ => measureReal_nonneg))

theorem run_density_aux (M : GoHMM n d) (hM : M.Valid) (hs : ∀ s i, 0 < M.sigma s i) {k : ℕ} (B : Set (Fin (k+1) → Fin d → ℝ))
    (hB : MeasurableSet B) :
    MeasurableSet (M.runSet B) ∧ goLaw d (M.runSet B) = ∫⁻ w in B, ENNReal.ofReal (M.lik (List.ofFn w)) := by
  have box : ∀ A : Fin (k+1) → Set (Fin d → ℝ), (∀ i, MeasurableSet (A i)) → MeasurableSet (M.runSet (Set.pi Set.univ A)) ∧
      goLaw d (M.runSet (Set.pi Set.univ A)) = ∫⁻ w in Set.pi Set.univ A, ENNReal.ofReal (M.lik (List.ofFn w)) := by
    intro A hA
    refine ⟨M.measurable_runSet_box A hA, ?_⟩
    rw [← M.box_density hM hs A hA, ← M.run_law hM A hA]
    congr 1
    ext p; simp [runSet]
  have huniv := box (fun _ => Set.univ) (fun _ => MeasurableSet.univ)
  rw [Set.pi_univ] at huniv
  induction B, hB using MeasurableSpace.induction_on_inter (generateFrom_pi (α := fun _ : Fin (k+1) => Fin d → ℝ)).symm isPiSystem_pi with
  | empty =>
    have : M.runSet (∅ : Set (Fin (k+1) → Fin d → ℝ)) = ∅ := by ext; simp [runSet]
    rw [this]; simp
  | basic B hB =>
    obtain ⟨A, hA, rfl⟩ := hB
    exact box A (fun i => hA i (Set.mem_univ i))
  | compl B hB ih =>
    have e : M.runSet Bᶜ = M.runSet (Set.univ : Set (Fin (k+1) → Fin d → ℝ)) \ M.runSet B := by
      ext p
      constructor
      · rintro ⟨w, hw, h⟩
        refine ⟨⟨w, Set.mem_univ _, h⟩, ?_⟩
        rintro ⟨w', hw', h'⟩
        rw [h] at h'
        injection h' with h'
        exact hw (List.ofFn_injective h' ▸ hw')
      · rintro ⟨⟨w, -, h⟩, h'⟩
        exact ⟨w, fun hw => h' ⟨w, hw, h⟩, h⟩
    have hsub : M.runSet B ⊆ M.runSet (Set.univ : Set (Fin (k+1) → Fin d → ℝ)) := fun p ⟨w, _, h⟩ => ⟨w, Set.mem_univ _, h⟩
    rw [e]
    refine ⟨huniv.1.diff ih.1, ?_⟩
    rw [measure_diff hsub ih.1.nullMeasurableSet (measure_ne_top _ _), huniv.2, ih.2, Measure.restrict_univ,
      ← lintegral_add_compl _ hB, ENNReal.add_sub_cancel_left]
    rw [← ih.2]
    exact measure_ne_top _ _
  | iUnion f hd hf ih =>
    have e : M.runSet (⋃ i, f i) = ⋃ i, M.runSet (f i) := by
      ext p
      simp only [runSet, Set.mem_ofPred_eq, Set.mem_iUnion]
      constructor
      · rintro ⟨w, ⟨i, hi⟩, h⟩; exact ⟨i, w, hi, h⟩
      · rintro ⟨i, w, hi, h⟩; exact ⟨w, ⟨i, hi⟩, h⟩
    rw [e]
    refine ⟨MeasurableSet.iUnion (fun i => (ih i).1), ?_⟩
    rw [measure_iUnion _ (fun i => (ih i).1), lintegral_iUnion hf hd]
    · exact tsum_congr (fun i => (ih i).2)
    · intro i j hij
      rw [Function.onFun, Set.disjoint_left]
      rintro p ⟨w, hw, h⟩ ⟨w', hw', h'⟩
      rw [h] at h'
      injection h' with h'
      exact Set.disjoint_left.1 (hd hij) hw (List.ofFn_injective h' ▸ hw')

/-- C90: if the standard deviations are positive, the probability that `run(k+1)` returns a trace of a (measurable) set of traces is the integral over this set
of the likelihood that `logLikelihood` computes. -/
theorem run_density (M : GoHMM n d) (hM : M.Valid) (hs : ∀ s i, 0 < M.sigma s i) {k : ℕ} (B : Set (Fin (k+1) → Fin d → ℝ)) (hB : MeasurableSet B) :
    goLaw d {p | ∃ w ∈ B, M.run (k+1) p.1 p.2 = .ok (List.ofFn w)} = ∫⁻ w in B, ENNReal.ofReal (M.lik (List.ofFn w)) :=
  (M.run_density_aux hM hs B hB).2

/-- C90: almost surely `run(k+1)` returns, and the trace has `k+1` observations. -/
theorem run_almostSurely (M : GoHMM n d) (hM : M.Valid) (k : ℕ) :
    ∀ᵐ p ∂goLaw d, ∃ w : Fin (k+1) → Fin d → ℝ, M.run (k+1) p.1 p.2 = .ok (List.ofFn w) := by
  have h := M.run_law hM (k := k) (fun _ => Set.univ) (fun _ => MeasurableSet.univ)
  have h1 : traceProb M.initialState M.matrix (fun s (B : Set (Fin d → ℝ)) => (M.obsLaw s).real B) (fun _ : Fin (k+1) => Set.univ) = 1 := by
    have hp : ∀ l : ℕ, ∀ s, sufProb M.matrix (fun s (B : Set (Fin d → ℝ)) => (M.obsLaw s).real B) s (List.replicate l Set.univ) = 1 := by
      intro l
      induction l with
      | zero => intro s; rfl
      | succ l ih => intro s; rw [List.replicate_succ, sufProb_cons _ hM.2.2.2.1]; simp [ih, hM.2.2.2.1]
    rw [← Iface.listProb_ofFn, List.ofFn_succ, listProb_eq_sufProb, List.ofFn_const, ← List.replicate_succ]
    simp only [hp, mul_one, hM.2.1]
  rw [h1, ENNReal.ofReal_one] at h
  have hm := M.measurable_runSet_box (k := k+1) (fun _ => Set.univ) (fun _ => MeasurableSet.univ)
  have e : M.runSet (Set.pi Set.univ (fun _ : Fin (k+1) => (Set.univ : Set (Fin d → ℝ))))
      = {p | ∃ w : Fin (k+1) → Fin d → ℝ, M.run (k+1) p.1 p.2 = .ok (List.ofFn w)} := by
    ext p; simp [runSet]
  rw [e] at hm
  simp only [Set.mem_univ, implies_true, true_and] at h
  exact (prob_compl_eq_zero_iff hm).2 h

/-- C90: the likelihoods of the traces of a length integrate to 1. -/
theorem lik_integral (M : GoHMM n d) (hM : M.Valid) (hs : ∀ s i, 0 < M.sigma s i) (k : ℕ) :
    ∫⁻ w : Fin (k+1) → Fin d → ℝ, ENNReal.ofReal (M.lik (List.ofFn w)) = 1 := by
  have h := M.run_density hM hs (k := k) Set.univ MeasurableSet.univ
  rw [Measure.restrict_univ] at h
  rw [← h]
  have := M.run_almostSurely hM k
  rw [← measure_univ (μ := goLaw d)]
  refine measure_congr ?_
  filter_upwards [this] with p hp
  simp only [Set.mem_univ, true_and]
  exact propext ⟨fun _ => trivial, fun _ => hp⟩

/-! ### The hypotheses can be met -/

/-- `exGo` has positive standard deviations: the probability that its second observation is larger than its first one is an integral of its likelihood. -/
example : goLaw 1 {p | ∃ w ∈ {w : Fin 2 → Fin 1 → ℝ | w 0 0 < w 1 0}, exGo.run 2 p.1 p.2 = .ok (List.ofFn w)}
    = ∫⁻ w in {w : Fin 2 → Fin 1 → ℝ | w 0 0 < w 1 0}, ENNReal.ofReal (exGo.lik (List.ofFn w)) :=
  exGo.run_density exGo_valid exGo_sigma _ (measurableSet_lt (by fun_prop) (by fun_prop))

/-- A model with standard deviation 0: its first observation is surely its mean, although its traces have no density. -/
example (M : GoHMM 1 1) (hM : M.Valid) (h : M.sigma 0 0 = 0) :
    goLaw 1 {p | ∃ w : Fin 1 → Fin 1 → ℝ, (∀ i, w i ∈ ({M.mu 0} : Set (Fin 1 → ℝ))) ∧ M.run 1 p.1 p.2 = .ok (List.ofFn w)} = 1 := by
  have hi : M.initialState 0 = 1 := by simpa using hM.2.1
  rw [M.run_law hM (k := 0) (fun _ => {M.mu 0}) (fun _ => measurableSet_singleton _)]
  have e : ({M.mu 0} : Set (Fin 1 → ℝ)) = Set.pi Set.univ (fun i => {M.mu 0 i}) := by
    ext x; simp [funext_iff]
  have : M.obsLaw 0 {M.mu 0} = 1 := by
    rw [e, obsLaw, Measure.pi_pi]
    simp [h]
  rw [traceProb_zero]
  simp [hi, Measure.real, this]

end GoHMM
end Jajapy
