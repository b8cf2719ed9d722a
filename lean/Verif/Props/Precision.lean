import Verif.Lemmas.Precision
import Verif.Props.Evaluation
import Verif.Props.EvaluationEx
import Verif.Props.IOAlergiaLimit
import Mathlib.Analysis.Complex.ExponentialBounds

/-!
Property C118: how precise an evaluation on `N` generated traces is. The limits of C84 and C85 say what happens when the set grows; the theorems of this file hold for
every size of the set.
-/

set_option autoImplicit false
set_option linter.unusedSectionVars false

namespace Jajapy

open MeasureTheory ProbabilityTheory Spec Tools

/-- From the probability of the failures to the probability of the successes, when a result is certain. -/
theorem success_ge {A B : (ℕ → ℝ) → Prop} {c : ℝ} (hA : drawsLaw.real {d | A d} ≤ c) (h : ∀ᵐ d ∂drawsLaw, A d ∨ B d) : 1 - c ≤ drawsLaw.real {d | B d} := by
  have h1 : drawsLaw.real ({d | A d} ∪ {d | B d}) = 1 := by
    unfold Measure.real
    have : drawsLaw ({d | A d} ∪ {d | B d}) = drawsLaw Set.univ := by
      refine measure_congr ?_
      filter_upwards [h] with d hd
      exact propext ⟨fun _ => trivial, fun _ => hd⟩
    rw [this, measure_univ, ENNReal.toReal_one]
  have h2 := measureReal_union_le (μ := drawsLaw) {d | A d} {d | B d}
  linarith

section
variable {O : Type} [DecidableEq O] {W : Set (List O)} {sim : (ℕ → ℝ) → Py (List O)} {F : Finset (List O)} {P : List O → ℝ}
  {gen : (ℕ → Py (List O)) → ℕ → Py (TSet O)} {c : ℕ}

theorem Draws.stream_precision (h : Draws drawsLaw sim W F P) (hgen : CountsTraces gen W) (hc : 0 < c) (hr : Reads sim c)
    {m : ℕ} (I : Iface ℝ O m) (Q : List O → ℝ) (hI : ∀ w ∈ F, I.seqProb w = .ok (Q w)) (cpus : ℕ) (hcp : 2 ≤ cpus) (B : ℝ) (hB : 0 ≤ B)
    (hQ : ∀ w ∈ F, 0 < P w → Q w ≤ 1 ∧ (Q w = 0 ∨ Real.exp (-B) ≤ Q w)) (t : ℝ) (ht : 0 ≤ t) (N : ℕ) (hN : 1 ≤ N) :
    1 - 2 * Real.exp (-(2 * N * t ^ 2 / B ^ 2)) ≤ drawsLaw.real {d | ∃ S l, gen (fun j => sim (fun i => d (j * c + i))) N = .ok S ∧
      I.logLikelihoodMultiproc cpus S = .ok l ∧ |l - expectedLogLik F P Q| < t} := by
  have hval : ∀ S, (∀ w ∈ S.sequences, w ∈ W) → I.logLikelihoodMultiproc cpus S = .ok (avgLogLik Q S) :=
    fun S hS => I.multiproc_eq Q cpus hcp S (fun w hw => hI w (h.mem w (hS w hw)))
  refine success_ge ((stream_real_le hc hr gen N (fun S => ∃ l, I.logLikelihoodMultiproc cpus S = .ok l ∧ t ≤ |l - expectedLogLik F P Q|)).trans
    ((h.block hc hr).precision hgen Q B hB hQ t ht N hN (fun S l => I.logLikelihoodMultiproc cpus S = .ok l) (fun S l _ _ h3 h4 => ?_))) ?_
  · rw [hval S h3] at h4
    injection h4 with h4
    exact h4.symm
  · filter_upwards [h.simulates.frequencies_stream hgen hc hr] with d hd
    obtain ⟨S, h1, -⟩ := hd
    obtain ⟨e1, -, -, e4⟩ := h1 N
    by_cases hlt : |avgLogLik Q (S N) - expectedLogLik F P Q| < t
    · exact Or.inr ⟨S N, _, e1, hval _ e4, hlt⟩
    · exact Or.inl ⟨S N, e1, _, hval _ e4, not_lt.1 hlt⟩

theorem Draws.stream_winner (h : Draws drawsLaw sim W F P) (hgen : CountsTraces gen W) (hc : 0 < c) (hr : Reads sim c)
    {m₁ m₂ : ℕ} (I₁ : Iface ℝ O m₁) (I₂ : Iface ℝ O m₂) (Q₁ Q₂ : List O → ℝ) (hI₁ : ∀ w ∈ F, I₁.seqProb w = .ok (Q₁ w))
    (hI₂ : ∀ w ∈ F, I₂.seqProb w = .ok (Q₂ w)) (cpus : ℕ) (hcp : 2 ≤ cpus) (B₁ B₂ : ℝ) (hB₁ : 0 ≤ B₁) (hB₂ : 0 ≤ B₂)
    (hQ₁ : ∀ w ∈ F, 0 < P w → Q₁ w ≤ 1 ∧ (Q₁ w = 0 ∨ Real.exp (-B₁) ≤ Q₁ w))
    (hQ₂ : ∀ w ∈ F, 0 < P w → Q₂ w ≤ 1 ∧ (Q₂ w = 0 ∨ Real.exp (-B₂) ≤ Q₂ w))
    (hgap : expectedLogLik F P Q₂ ≤ expectedLogLik F P Q₁) (N : ℕ) (hN : 1 ≤ N) :
    1 - Real.exp (-(2 * N * (expectedLogLik F P Q₁ - expectedLogLik F P Q₂) ^ 2 / (B₁ + B₂) ^ 2)) ≤
      drawsLaw.real {d | ∃ S l₁ l₂, gen (fun j => sim (fun i => d (j * c + i))) N = .ok S ∧
        I₁.logLikelihoodMultiproc cpus S = .ok l₁ ∧ I₂.logLikelihoodMultiproc cpus S = .ok l₂ ∧ l₂ < l₁} := by
  have hval₁ : ∀ S, (∀ w ∈ S.sequences, w ∈ W) → I₁.logLikelihoodMultiproc cpus S = .ok (avgLogLik Q₁ S) :=
    fun S hS => I₁.multiproc_eq Q₁ cpus hcp S (fun w hw => hI₁ w (h.mem w (hS w hw)))
  have hval₂ : ∀ S, (∀ w ∈ S.sequences, w ∈ W) → I₂.logLikelihoodMultiproc cpus S = .ok (avgLogLik Q₂ S) :=
    fun S hS => I₂.multiproc_eq Q₂ cpus hcp S (fun w hw => hI₂ w (h.mem w (hS w hw)))
  refine success_ge ((stream_real_le hc hr gen N (fun S => ∃ l₁ l₂, I₁.logLikelihoodMultiproc cpus S = .ok l₁ ∧
    I₂.logLikelihoodMultiproc cpus S = .ok l₂ ∧ l₁ ≤ l₂)).trans
    ((h.block hc hr).winner hgen Q₁ Q₂ B₁ B₂ hB₁ hB₂ hQ₁ hQ₂ hgap N hN (fun S l => I₁.logLikelihoodMultiproc cpus S = .ok l)
      (fun S l => I₂.logLikelihoodMultiproc cpus S = .ok l) (fun S l _ _ h3 h4 => ?_) (fun S l _ _ h3 h4 => ?_))) ?_
  · rw [hval₁ S h3] at h4
    injection h4 with h4
    exact h4.symm
  · rw [hval₂ S h3] at h4
    injection h4 with h4
    exact h4.symm
  · filter_upwards [h.simulates.frequencies_stream hgen hc hr] with d hd
    obtain ⟨S, h1, -⟩ := hd
    obtain ⟨e1, -, -, e4⟩ := h1 N
    rcases le_or_gt (avgLogLik Q₁ (S N)) (avgLogLik Q₂ (S N)) with hlt | hlt
    · exact Or.inl ⟨S N, e1, _, _, hval₁ _ e4, hval₂ _ e4, hlt⟩
    · exact Or.inr ⟨S N, _, _, e1, hval₁ _ e4, hval₂ _ e4, hlt⟩

theorem Draws.stream_frequency (h : Draws drawsLaw sim W F P) (hgen : CountsTraces gen W) (hc : 0 < c) (hr : Reads sim c)
    (w : List O) (hw : w ∈ F) (t : ℝ) (ht : 0 ≤ t) (N : ℕ) (hN : 1 ≤ N) :
    1 - 2 * Real.exp (-(2 * N * t ^ 2)) ≤ drawsLaw.real {d | ∃ S, gen (fun j => sim (fun i => d (j * c + i))) N = .ok S ∧
      |(S.mult w : ℝ) / N - P w| < t} := by
  refine success_ge ((stream_real_le hc hr gen N (fun S => t ≤ |(S.mult w : ℝ) / N - P w|)).trans
    ((h.block hc hr).frequency hgen w hw t ht N hN)) ?_
  filter_upwards [h.simulates.frequencies_stream hgen hc hr] with d hd
  obtain ⟨S, h1, -⟩ := hd
  by_cases hlt : |((S N).mult w : ℝ) / N - P w| < t
  · exact Or.inr ⟨S N, (h1 N).1, hlt⟩
  · exact Or.inl ⟨S N, (h1 N).1, not_lt.1 hlt⟩
end

theorem TraceDist.le_one {O : Type} {Q : List O → ℝ} {k : ℕ} (h : TraceDist Q k) {w : List O} (hw : w.length = k) : Q w ≤ 1 := by
  simpa using h.sum_le {w} (by simpa using hw)

/-- The size of a set that is enough for a given precision `t` and a given probability `1 - δ`. -/
theorem sample_size {B t δ : ℝ} (hB : 0 < B) (ht : 0 < t) (h0 : 0 < δ) {N : ℕ} (hN : B ^ 2 * Real.log (2 / δ) / (2 * t ^ 2) ≤ N) :
    2 * Real.exp (-(2 * N * t ^ 2 / B ^ 2)) ≤ δ := by
  have h1 : Real.log (2 / δ) ≤ 2 * N * t ^ 2 / B ^ 2 := by
    rw [div_le_iff₀ (by positivity)] at hN
    rw [le_div_iff₀ (by positivity)]
    linarith
  have h2 : Real.exp (-(2 * N * t ^ 2 / B ^ 2)) ≤ Real.exp (-Real.log (2 / δ)) := Real.exp_le_exp.2 (by linarith)
  rw [Real.exp_neg (Real.log _), Real.exp_log (by positivity), inv_div] at h2
  linarith

variable {L : Type} [DecidableEq L] {n : ℕ}

namespace MC

theorem draws (M : MC ℝ L n) (hM : M.Stochastic) (steps : ℕ) :
    Draws drawsLaw (M.run steps) {w | w.length = steps + 1 ∧ ∀ o ∈ w, o ∈ Set.range M.labelling} (tracesOver (Finset.univ.image M.labelling) (steps + 1)) M.lik where
  simulates := M.simulates hM steps
  mem := by
    rintro w ⟨a, b⟩
    exact (mem_tracesOver _ _ _).2 ⟨a, fun o ho => by simpa using b o ho⟩
  prob := by
    intro w hw
    obtain ⟨e, h0⟩ := M.run_lik hM steps w ((mem_tracesOver _ _ _).1 hw).1
    unfold Measure.real
    rw [e, ENNReal.toReal_ofReal h0]

/-- C118, a Markov chain: the proportion of a trace in a set of `N` generated traces is within `t` of its likelihood, with a probability of at least `1 - 2 exp(-2 N t²)`. -/
theorem frequency_precision (M : MC ℝ L n) (hM : M.Stochastic) (kind : L → Kind) (steps : ℕ) (hs : 1 ≤ steps) (geom : ℕ → ℕ)
    (w : List L) (hw : w ∈ tracesOver (Finset.univ.image M.labelling) (steps + 1)) (t : ℝ) (ht : 0 ≤ t) (N : ℕ) (hN : 1 ≤ N) :
    1 - 2 * Real.exp (-(2 * N * t ^ 2)) ≤ drawsLaw.real {d | ∃ S,
      generateSet kind (fun j k => M.run k (fun i => d (j * (steps + 1) + i))) N false none (.int steps) geom = .ok S ∧
      |(S.mult w : ℝ) / N - M.lik w| < t} := by
  have key := (M.draws hM steps).stream_frequency (gen_counts kind _ (fun w hw => by have := hw.1; omega)) (Nat.succ_pos _) (M.run_reads steps) w hw t ht N hN
  simp only [gen_eq kind _ N false none (.int steps) geom (fun _ => steps) (fun _ => rfl)]
  exact key

/-- C118, data of a Markov chain: on a set of `N` generated traces, the log-likelihood of a model is within `t` of the limit of C85, with a probability of at least
`1 - 2 exp(-2 N t² / B²)`, where `exp(-B)` is a lower bound of the likelihoods that the model gives to the traces it does not declare impossible. -/
theorem evaluation_precision (M : MC ℝ L n) (hM : M.Stochastic) (kind : L → Kind) (steps : ℕ) (hs : 1 ≤ steps) (geom : ℕ → ℕ)
    (cpus : ℕ) (hc : 2 ≤ cpus) (t : ℝ) (ht : 0 ≤ t) (N : ℕ) (hN : 1 ≤ N) (B : ℝ) (hB : 0 ≤ B) :
    (∀ (m : ℕ) (M' : MC ℝ L m), M'.Stochastic → (∀ w : List L, w.length = steps + 1 → 0 < M.lik w → M'.lik w = 0 ∨ Real.exp (-B) ≤ M'.lik w) →
      1 - 2 * Real.exp (-(2 * N * t ^ 2 / B ^ 2)) ≤ drawsLaw.real {d | ∃ S ll,
        generateSet kind (fun j k => M.run k (fun i => d (j * (steps + 1) + i))) N false none (.int steps) geom = .ok S ∧
        M'.iface.logLikelihoodMultiproc cpus S = .ok ll ∧
        |ll - expectedLogLik (tracesOver (Finset.univ.image M.labelling) (steps + 1)) M.lik M'.lik| < t}) ∧
    (∀ (m : ℕ) (M' : HMM ℝ L m), M'.alphabet.Nodup → M'.Stochastic → (∀ w : List L, w.length = steps + 1 → 0 < M.lik w → M'.lik w = 0 ∨ Real.exp (-B) ≤ M'.lik w) →
      1 - 2 * Real.exp (-(2 * N * t ^ 2 / B ^ 2)) ≤ drawsLaw.real {d | ∃ S ll,
        generateSet kind (fun j k => M.run k (fun i => d (j * (steps + 1) + i))) N false none (.int steps) geom = .ok S ∧
        M'.iface.logLikelihoodMultiproc cpus S = .ok ll ∧
        |ll - expectedLogLik (tracesOver (Finset.univ.image M.labelling) (steps + 1)) M.lik M'.lik| < t}) := by
  simp only [gen_eq kind _ N false none (.int steps) geom (fun _ => steps) (fun _ => rfl)]
  have hD := M.draws hM steps
  constructor
  · intro m M' hM' hb
    exact hD.stream_precision (gen_counts kind _ (fun w hw => by have := hw.1; omega)) (Nat.succ_pos _) (M.run_reads steps) M'.iface M'.lik
      (fun w hw => M'.seqProb_eq_paths w (ne_nil_of_mem hw)) cpus hc B hB
      (fun w hw h0 => ⟨(M'.traceDist hM' steps).le_one ((mem_tracesOver _ _ _).1 hw).1, hb w ((mem_tracesOver _ _ _).1 hw).1 h0⟩) t ht N hN
  · intro m M' hn' hM' hb
    exact hD.stream_precision (gen_counts kind _ (fun w hw => by have := hw.1; omega)) (Nat.succ_pos _) (M.run_reads steps) M'.iface M'.lik
      (fun w hw => M'.seqProb_lik hn' w (ne_nil_of_mem hw)) cpus hc B hB
      (fun w hw h0 => ⟨(M'.traceDist hn' hM' (steps + 1) (by omega)).le_one ((mem_tracesOver _ _ _).1 hw).1, hb w ((mem_tracesOver _ _ _).1 hw).1 h0⟩) t ht N hN

/-- C118, data of a Markov chain: the probability that the generating model has a larger log-likelihood on `N` traces than another model, for which its traces are possible.
It tends to 1 exponentially fast: the gap between the limits is positive. -/
theorem evaluation_winner (M : MC ℝ L n) (hM : M.Stochastic) (kind : L → Kind) (steps : ℕ) (hs : 1 ≤ steps) (geom : ℕ → ℕ)
    (cpus : ℕ) (hc : 2 ≤ cpus) (N : ℕ) (hN : 1 ≤ N) (B B' : ℝ) (hB : 0 ≤ B) (hB' : 0 ≤ B')
    (hM0 : ∀ w : List L, w.length = steps + 1 → 0 < M.lik w → Real.exp (-B) ≤ M.lik w) :
    (∀ (m : ℕ) (M' : MC ℝ L m), M'.Stochastic → (∀ w : List L, w.length = steps + 1 → 0 < M.lik w → Real.exp (-B') ≤ M'.lik w) →
      (∃ w : List L, w.length = steps + 1 ∧ M'.lik w ≠ M.lik w) → ∃ gap : ℝ, 0 < gap ∧
      gap = expectedLogLik (tracesOver (Finset.univ.image M.labelling) (steps + 1)) M.lik M.lik - expectedLogLik (tracesOver (Finset.univ.image M.labelling) (steps + 1)) M.lik M'.lik ∧
      1 - Real.exp (-(2 * N * gap ^ 2 / (B + B') ^ 2)) ≤ drawsLaw.real {d | ∃ S ll ll',
        generateSet kind (fun j k => M.run k (fun i => d (j * (steps + 1) + i))) N false none (.int steps) geom = .ok S ∧
        M.iface.logLikelihoodMultiproc cpus S = .ok ll ∧ M'.iface.logLikelihoodMultiproc cpus S = .ok ll' ∧ ll' < ll}) ∧
    (∀ (m : ℕ) (M' : HMM ℝ L m), M'.alphabet.Nodup → M'.Stochastic → (∀ w : List L, w.length = steps + 1 → 0 < M.lik w → Real.exp (-B') ≤ M'.lik w) →
      (∃ w : List L, w.length = steps + 1 ∧ M'.lik w ≠ M.lik w) → ∃ gap : ℝ, 0 < gap ∧
      gap = expectedLogLik (tracesOver (Finset.univ.image M.labelling) (steps + 1)) M.lik M.lik - expectedLogLik (tracesOver (Finset.univ.image M.labelling) (steps + 1)) M.lik M'.lik ∧
      1 - Real.exp (-(2 * N * gap ^ 2 / (B + B') ^ 2)) ≤ drawsLaw.real {d | ∃ S ll ll',
        generateSet kind (fun j k => M.run k (fun i => d (j * (steps + 1) + i))) N false none (.int steps) geom = .ok S ∧
        M.iface.logLikelihoodMultiproc cpus S = .ok ll ∧ M'.iface.logLikelihoodMultiproc cpus S = .ok ll' ∧ ll' < ll}) := by
  simp only [gen_eq kind _ N false none (.int steps) geom (fun _ => steps) (fun _ => rfl)]
  have hD := M.draws hM steps
  have hT := M.traceDist hM steps
  have hlen : ∀ w ∈ tracesOver (Finset.univ.image M.labelling) (steps + 1), w.length = steps + 1 := fun w hw => ((mem_tracesOver _ _ _).1 hw).1
  constructor
  · intro m M' hM' hb ⟨w, hw, hne⟩
    have hg := hT.compare (M'.traceDist hM' steps) _ hlen (M.sum_lik hM steps) (fun w hw h0 => lt_of_lt_of_le (Real.exp_pos _) (hb w hw h0)) w hw hne
    exact ⟨_, sub_pos.2 hg, rfl, hD.stream_winner (gen_counts kind _ (fun w hw => by have := hw.1; omega)) (Nat.succ_pos _) (M.run_reads steps) M.iface M'.iface M.lik M'.lik
      (fun w hw => M.seqProb_eq_paths w (ne_nil_of_mem hw)) (fun w hw => M'.seqProb_eq_paths w (ne_nil_of_mem hw)) cpus hc B B' hB hB'
      (fun w hw h0 => ⟨hT.le_one (hlen w hw), Or.inr (hM0 w (hlen w hw) h0)⟩)
      (fun w hw h0 => ⟨(M'.traceDist hM' steps).le_one (hlen w hw), Or.inr (hb w (hlen w hw) h0)⟩) hg.le N hN⟩
  · intro m M' hn' hM' hb ⟨w, hw, hne⟩
    have hg := hT.compare (M'.traceDist hn' hM' (steps + 1) (by omega)) _ hlen (M.sum_lik hM steps) (fun w hw h0 => lt_of_lt_of_le (Real.exp_pos _) (hb w hw h0)) w hw hne
    exact ⟨_, sub_pos.2 hg, rfl, hD.stream_winner (gen_counts kind _ (fun w hw => by have := hw.1; omega)) (Nat.succ_pos _) (M.run_reads steps) M.iface M'.iface M.lik M'.lik
      (fun w hw => M.seqProb_eq_paths w (ne_nil_of_mem hw)) (fun w hw => M'.seqProb_lik hn' w (ne_nil_of_mem hw)) cpus hc B B' hB hB'
      (fun w hw h0 => ⟨hT.le_one (hlen w hw), Or.inr (hM0 w (hlen w hw) h0)⟩)
      (fun w hw h0 => ⟨(M'.traceDist hn' hM' (steps + 1) (by omega)).le_one (hlen w hw), Or.inr (hb w (hlen w hw) h0)⟩) hg.le N hN⟩

end MC

namespace HMM

theorem draws (M : HMM ℝ L n) (hn : M.alphabet.Nodup) (hM : M.Stochastic) (steps : ℕ) (hs : 1 ≤ steps) :
    Draws drawsLaw (M.run steps) {w | w.length = steps ∧ ∀ o ∈ w, o ∈ {o | o ∈ M.alphabet}} (tracesOver M.alphabet.toFinset steps) M.lik where
  simulates := M.simulates hn hM steps
  mem := by
    rintro w ⟨a, b⟩
    exact (mem_tracesOver _ _ _).2 ⟨a, fun o ho => by simpa using b o ho⟩
  prob := by
    intro w hw
    obtain ⟨e, h0⟩ := M.run_lik hn hM steps hs w ((mem_tracesOver _ _ _).1 hw).1
    unfold Measure.real
    rw [e, ENNReal.toReal_ofReal h0]

/-- C118, a hidden Markov model: the proportion of a trace in a set of `N` generated traces is within `t` of its likelihood, with a probability of at least `1 - 2 exp(-2 N t²)`. -/
theorem frequency_precision (M : HMM ℝ L n) (hn : M.alphabet.Nodup) (hM : M.Stochastic) (kind : L → Kind) (steps : ℕ) (hs : 2 ≤ steps) (geom : ℕ → ℕ)
    (w : List L) (hw : w ∈ tracesOver M.alphabet.toFinset steps) (t : ℝ) (ht : 0 ≤ t) (N : ℕ) (hN : 1 ≤ N) :
    1 - 2 * Real.exp (-(2 * N * t ^ 2)) ≤ drawsLaw.real {d | ∃ S,
      generateSet kind (fun j k => M.run k (fun i => d (j * (2 * steps + 1) + i))) N false none (.int steps) geom = .ok S ∧
      |(S.mult w : ℝ) / N - M.lik w| < t} := by
  have key := (M.draws hn hM steps (by omega)).stream_frequency (gen_counts kind _ (fun w hw => by have := hw.1; omega)) (Nat.succ_pos _) (M.run_reads steps) w hw t ht N hN
  simp only [gen_eq kind _ N false none (.int steps) geom (fun _ => steps) (fun _ => rfl)]
  exact key

/-- C118, data of a hidden Markov model: on a set of `N` generated traces, the log-likelihood of a model is within `t` of the limit of C85, with a probability of at least
`1 - 2 exp(-2 N t² / B²)`, where `exp(-B)` is a lower bound of the likelihoods that the model gives to the traces it does not declare impossible. -/
theorem evaluation_precision (M : HMM ℝ L n) (hn : M.alphabet.Nodup) (hM : M.Stochastic) (kind : L → Kind) (steps : ℕ) (hs : 2 ≤ steps) (geom : ℕ → ℕ)
    (cpus : ℕ) (hc : 2 ≤ cpus) (t : ℝ) (ht : 0 ≤ t) (N : ℕ) (hN : 1 ≤ N) (B : ℝ) (hB : 0 ≤ B) :
    (∀ (m : ℕ) (M' : MC ℝ L m), M'.Stochastic → (∀ w : List L, w.length = steps → 0 < M.lik w → M'.lik w = 0 ∨ Real.exp (-B) ≤ M'.lik w) →
      1 - 2 * Real.exp (-(2 * N * t ^ 2 / B ^ 2)) ≤ drawsLaw.real {d | ∃ S ll,
        generateSet kind (fun j k => M.run k (fun i => d (j * (2 * steps + 1) + i))) N false none (.int steps) geom = .ok S ∧
        M'.iface.logLikelihoodMultiproc cpus S = .ok ll ∧
        |ll - expectedLogLik (tracesOver M.alphabet.toFinset steps) M.lik M'.lik| < t}) ∧
    (∀ (m : ℕ) (M' : HMM ℝ L m), M'.alphabet.Nodup → M'.Stochastic → (∀ w : List L, w.length = steps → 0 < M.lik w → M'.lik w = 0 ∨ Real.exp (-B) ≤ M'.lik w) →
      1 - 2 * Real.exp (-(2 * N * t ^ 2 / B ^ 2)) ≤ drawsLaw.real {d | ∃ S ll,
        generateSet kind (fun j k => M.run k (fun i => d (j * (2 * steps + 1) + i))) N false none (.int steps) geom = .ok S ∧
        M'.iface.logLikelihoodMultiproc cpus S = .ok ll ∧
        |ll - expectedLogLik (tracesOver M.alphabet.toFinset steps) M.lik M'.lik| < t}) := by
  simp only [gen_eq kind _ N false none (.int steps) geom (fun _ => steps) (fun _ => rfl)]
  obtain ⟨k, rfl⟩ : ∃ k, steps = k + 1 := ⟨steps - 1, by omega⟩
  have hD := M.draws hn hM (k + 1) (by omega)
  constructor
  · intro m M' hM' hb
    exact hD.stream_precision (gen_counts kind _ (fun w hw => by have := hw.1; omega)) (Nat.succ_pos _) (M.run_reads (k + 1)) M'.iface M'.lik
      (fun w hw => M'.seqProb_eq_paths w (ne_nil_of_mem hw)) cpus hc B hB
      (fun w hw h0 => ⟨(M'.traceDist hM' k).le_one ((mem_tracesOver _ _ _).1 hw).1, hb w ((mem_tracesOver _ _ _).1 hw).1 h0⟩) t ht N hN
  · intro m M' hn' hM' hb
    exact hD.stream_precision (gen_counts kind _ (fun w hw => by have := hw.1; omega)) (Nat.succ_pos _) (M.run_reads (k + 1)) M'.iface M'.lik
      (fun w hw => M'.seqProb_lik hn' w (ne_nil_of_mem hw)) cpus hc B hB
      (fun w hw h0 => ⟨(M'.traceDist hn' hM' (k + 1) (by omega)).le_one ((mem_tracesOver _ _ _).1 hw).1, hb w ((mem_tracesOver _ _ _).1 hw).1 h0⟩) t ht N hN

/-- C118, data of a hidden Markov model: the probability that the generating model has a larger log-likelihood on `N` traces than another model, for which its traces are possible.
It tends to 1 exponentially fast: the gap between the limits is positive. -/
theorem evaluation_winner (M : HMM ℝ L n) (hn : M.alphabet.Nodup) (hM : M.Stochastic) (kind : L → Kind) (steps : ℕ) (hs : 2 ≤ steps) (geom : ℕ → ℕ)
    (cpus : ℕ) (hc : 2 ≤ cpus) (N : ℕ) (hN : 1 ≤ N) (B B' : ℝ) (hB : 0 ≤ B) (hB' : 0 ≤ B')
    (hM0 : ∀ w : List L, w.length = steps → 0 < M.lik w → Real.exp (-B) ≤ M.lik w) :
    (∀ (m : ℕ) (M' : MC ℝ L m), M'.Stochastic → (∀ w : List L, w.length = steps → 0 < M.lik w → Real.exp (-B') ≤ M'.lik w) →
      (∃ w : List L, w.length = steps ∧ M'.lik w ≠ M.lik w) → ∃ gap : ℝ, 0 < gap ∧
      gap = expectedLogLik (tracesOver M.alphabet.toFinset steps) M.lik M.lik - expectedLogLik (tracesOver M.alphabet.toFinset steps) M.lik M'.lik ∧
      1 - Real.exp (-(2 * N * gap ^ 2 / (B + B') ^ 2)) ≤ drawsLaw.real {d | ∃ S ll ll',
        generateSet kind (fun j k => M.run k (fun i => d (j * (2 * steps + 1) + i))) N false none (.int steps) geom = .ok S ∧
        M.iface.logLikelihoodMultiproc cpus S = .ok ll ∧ M'.iface.logLikelihoodMultiproc cpus S = .ok ll' ∧ ll' < ll}) ∧
    (∀ (m : ℕ) (M' : HMM ℝ L m), M'.alphabet.Nodup → M'.Stochastic → (∀ w : List L, w.length = steps → 0 < M.lik w → Real.exp (-B') ≤ M'.lik w) →
      (∃ w : List L, w.length = steps ∧ M'.lik w ≠ M.lik w) → ∃ gap : ℝ, 0 < gap ∧
      gap = expectedLogLik (tracesOver M.alphabet.toFinset steps) M.lik M.lik - expectedLogLik (tracesOver M.alphabet.toFinset steps) M.lik M'.lik ∧
      1 - Real.exp (-(2 * N * gap ^ 2 / (B + B') ^ 2)) ≤ drawsLaw.real {d | ∃ S ll ll',
        generateSet kind (fun j k => M.run k (fun i => d (j * (2 * steps + 1) + i))) N false none (.int steps) geom = .ok S ∧
        M.iface.logLikelihoodMultiproc cpus S = .ok ll ∧ M'.iface.logLikelihoodMultiproc cpus S = .ok ll' ∧ ll' < ll}) := by
  simp only [gen_eq kind _ N false none (.int steps) geom (fun _ => steps) (fun _ => rfl)]
  obtain ⟨k, rfl⟩ : ∃ k, steps = k + 1 := ⟨steps - 1, by omega⟩
  have hD := M.draws hn hM (k + 1) (by omega)
  have hT := M.traceDist hn hM (k + 1) (by omega)
  have hlen : ∀ w ∈ tracesOver M.alphabet.toFinset (k + 1), w.length = k + 1 := fun w hw => ((mem_tracesOver _ _ _).1 hw).1
  constructor
  · intro m M' hM' hb ⟨w, hw, hne⟩
    have hg := hT.compare (M'.traceDist hM' k) _ hlen (M.sum_lik hn hM (k + 1) (by omega)) (fun w hw h0 => lt_of_lt_of_le (Real.exp_pos _) (hb w hw h0)) w hw hne
    exact ⟨_, sub_pos.2 hg, rfl, hD.stream_winner (gen_counts kind _ (fun w hw => by have := hw.1; omega)) (Nat.succ_pos _) (M.run_reads (k + 1)) M.iface M'.iface M.lik M'.lik
      (fun w hw => M.seqProb_lik hn w (ne_nil_of_mem hw)) (fun w hw => M'.seqProb_eq_paths w (ne_nil_of_mem hw)) cpus hc B B' hB hB'
      (fun w hw h0 => ⟨hT.le_one (hlen w hw), Or.inr (hM0 w (hlen w hw) h0)⟩)
      (fun w hw h0 => ⟨(M'.traceDist hM' k).le_one (hlen w hw), Or.inr (hb w (hlen w hw) h0)⟩) hg.le N hN⟩
  · intro m M' hn' hM' hb ⟨w, hw, hne⟩
    have hg := hT.compare (M'.traceDist hn' hM' (k + 1) (by omega)) _ hlen (M.sum_lik hn hM (k + 1) (by omega)) (fun w hw h0 => lt_of_lt_of_le (Real.exp_pos _) (hb w hw h0)) w hw hne
    exact ⟨_, sub_pos.2 hg, rfl, hD.stream_winner (gen_counts kind _ (fun w hw => by have := hw.1; omega)) (Nat.succ_pos _) (M.run_reads (k + 1)) M.iface M'.iface M.lik M'.lik
      (fun w hw => M.seqProb_lik hn w (ne_nil_of_mem hw)) (fun w hw => M'.seqProb_lik hn' w (ne_nil_of_mem hw)) cpus hc B B' hB hB'
      (fun w hw h0 => ⟨hT.le_one (hlen w hw), Or.inr (hM0 w (hlen w hw) h0)⟩)
      (fun w hw h0 => ⟨(M'.traceDist hn' hM' (k + 1) (by omega)).le_one (hlen w hw), Or.inr (hb w (hlen w hw) h0)⟩) hg.le N hN⟩

end HMM

namespace MDP
variable {σ : Type} {sch : Sched ℝ L σ} {P : Policy σ L} {dom : σ → Prop}

theorem draws (M : MDP ℝ L n) (hn : M.actions.Nodup) (hS : M.Stochastic) (hB : Behaves sch P dom) (steps : ℕ) (st0 : σ)
    (ht : drawsLaw {d | ∃ w, M.Returns sch steps st0 w d} = 1) :
    Draws drawsLaw (M.outcome sch steps st0) {w | w.length = 2 * steps + 1 ∧ ∀ o ∈ w, o ∈ Set.range M.labelling ∪ {a | a ∈ M.actions}}
      (tracesOver (Finset.univ.image M.labelling ∪ M.actions.toFinset) (2 * steps + 1)) (M.runProb P) where
  simulates := M.simulates hn hS hB steps st0 ht
  mem := by
    rintro w ⟨a, b⟩
    exact (mem_tracesOver _ _ _).2 ⟨a, fun o ho => by simpa using b o ho⟩
  prob := by
    intro w hw
    have hw' := ((mem_tracesOver _ _ _).1 hw).1
    have hl := M.run_law_of_behaves hB hn hS steps st0 w hw'
    unfold Measure.real
    simp only [outcome_ok]
    rw [hl, ENNReal.toReal_ofReal (M.runProb_nonneg hS hB w (by omega))]

theorem frequency_precision_of_behaves (M : MDP ℝ L n) (hn : M.actions.Nodup) (hS : M.Stochastic) (hB : Behaves sch P dom)
    (kind : L → Kind) (steps : ℕ) (geom : ℕ → ℕ) (st0 : σ) (hr : drawsLaw {d | ∃ w, M.Returns sch steps st0 w d} = 1)
    (w : List L) (hw : w ∈ tracesOver (Finset.univ.image M.labelling ∪ M.actions.toFinset) (2 * steps + 1)) (t : ℝ) (ht : 0 ≤ t) (N : ℕ) (hN : 1 ≤ N) :
    1 - 2 * Real.exp (-(2 * N * t ^ 2)) ≤ drawsLaw.real {d | ∃ tr S, M.CollectsOne sch steps st0 d N tr ∧
      generateSetMDP kind (fun j _ => .ok (tr j)) N false none (.int steps) geom = .ok S ∧ |(S.mult w : ℝ) / N - M.runProb P w| < t} := by
  have hD := M.draws hn hS hB steps st0 hr
  letI := simSpace (M.outcome sch steps st0)
  refine success_ge (M.one_stream_real_le hn hS hB kind steps geom st0 hD.simulates N (fun S => t ≤ |(S.mult w : ℝ) / N - M.runProb P w|) _
    (hD.results.frequency (gen := fun s N => generateSetMDP kind (fun j _ => s j) N false none (.int steps) geom)
      (genMDP_counts kind steps geom _) w hw t ht N hN)) ?_
  filter_upwards [M.generateSet_one_frequencies_of_behaves hn hS hB kind steps geom st0 hr] with d hd
  obtain ⟨S, h1, -⟩ := hd
  obtain ⟨tr, e1, e2, -⟩ := h1 N
  by_cases hlt : |((S N).mult w : ℝ) / N - M.runProb P w| < t
  · exact Or.inr ⟨tr, S N, e1, e2, hlt⟩
  · exact Or.inl ⟨tr, S N, e1, e2, not_lt.1 hlt⟩

theorem evaluation_precision_of_behaves (M : MDP ℝ L n) (hn : M.actions.Nodup) (hS : M.Stochastic) (hB : Behaves sch P dom)
    (kind : L → Kind) (steps : ℕ) (geom : ℕ → ℕ) (st0 : σ) (hr : drawsLaw {d | ∃ w, M.Returns sch steps st0 w d} = 1)
    (cpus : ℕ) (hc : 2 ≤ cpus) (t : ℝ) (ht : 0 ≤ t) (N : ℕ) (hN : 1 ≤ N) (B : ℝ) (hB0 : 0 ≤ B) {m : ℕ} (M' : MDP ℝ L m) (hn' : M'.actions.Nodup)
    (hS' : M'.Stochastic) (hb : ∀ w : List L, w.length = 2 * steps + 1 → 0 < M.runProb P w → M'.lik w = 0 ∨ Real.exp (-B) ≤ M'.lik w) :
    1 - 2 * Real.exp (-(2 * N * t ^ 2 / B ^ 2)) ≤ drawsLaw.real {d | ∃ tr S ll, M.CollectsOne sch steps st0 d N tr ∧
      generateSetMDP kind (fun j _ => .ok (tr j)) N false none (.int steps) geom = .ok S ∧ M'.logLikelihoodMultiproc cpus S = .ok ll ∧
      |ll - expectedLogLik (tracesOver (Finset.univ.image M.labelling ∪ M.actions.toFinset) (2 * steps + 1)) (M.runProb P) M'.lik| < t} := by
  have hD := M.draws hn hS hB steps st0 hr
  have hval : ∀ S : TSet L, S.times.sum = N → (∀ w ∈ S.sequences, w.length = 2 * steps + 1) → M'.logLikelihoodMultiproc cpus S = .ok (avgLogLik M'.lik S) :=
    fun S h1 h2 => M'.logLikelihood_spec hn' hS'.1 hS'.2.2.1 cpus hc S (by omega) (fun w hw => by have := h2 w hw; omega)
  letI := simSpace (M.outcome sch steps st0)
  refine success_ge (M.one_stream_real_le hn hS hB kind steps geom st0 hD.simulates N (fun S => ∃ ll, M'.logLikelihoodMultiproc cpus S = .ok ll ∧
      t ≤ |ll - expectedLogLik (tracesOver (Finset.univ.image M.labelling ∪ M.actions.toFinset) (2 * steps + 1)) (M.runProb P) M'.lik|) _
    (hD.results.precision (gen := fun s N => generateSetMDP kind (fun j _ => s j) N false none (.int steps) geom)
      (genMDP_counts kind steps geom _) M'.lik B hB0
      (fun w hw h0 => ⟨(M'.lik_mem_unit hn' hS' w).2, hb w ((mem_tracesOver _ _ _).1 hw).1 h0⟩) t ht N hN
      (fun S ll => M'.logLikelihoodMultiproc cpus S = .ok ll) (fun S l _ h2 h3 h4 => ?_))) ?_
  · rw [hval S h2 (fun w hw => (h3 w hw).1)] at h4
    injection h4 with h4
    exact h4.symm
  · filter_upwards [M.generateSet_one_frequencies_of_behaves hn hS hB kind steps geom st0 hr] with d hd
    obtain ⟨S, h1, -⟩ := hd
    obtain ⟨tr, e1, e2, -, e4, e5⟩ := h1 N
    by_cases hlt : |avgLogLik M'.lik (S N) - expectedLogLik (tracesOver (Finset.univ.image M.labelling ∪ M.actions.toFinset) (2 * steps + 1)) (M.runProb P) M'.lik| < t
    · exact Or.inr ⟨tr, S N, _, e1, e2, hval _ e4 e5, hlt⟩
    · exact Or.inl ⟨tr, S N, e1, e2, _, hval _ e4 e5, not_lt.1 hlt⟩

theorem evaluation_winner_of_behaves (M : MDP ℝ L n) (hn : M.actions.Nodup) (hS : M.Stochastic) (hB : Behaves sch P dom)
    (kind : L → Kind) (steps : ℕ) (geom : ℕ → ℕ) (st0 : σ) (hr : drawsLaw {d | ∃ w, M.Returns sch steps st0 w d} = 1)
    (cpus : ℕ) (hc : 2 ≤ cpus) (N : ℕ) (hN : 1 ≤ N) (B₁ B₂ : ℝ) (hB₁ : 0 ≤ B₁) (hB₂ : 0 ≤ B₂) {m₁ m₂ : ℕ} (M₁ : MDP ℝ L m₁) (M₂ : MDP ℝ L m₂)
    (hn₁ : M₁.actions.Nodup) (hn₂ : M₂.actions.Nodup) (hS₁ : M₁.Stochastic) (hS₂ : M₂.Stochastic)
    (hb₁ : ∀ w : List L, w.length = 2 * steps + 1 → 0 < M.runProb P w → M₁.lik w = 0 ∨ Real.exp (-B₁) ≤ M₁.lik w)
    (hb₂ : ∀ w : List L, w.length = 2 * steps + 1 → 0 < M.runProb P w → M₂.lik w = 0 ∨ Real.exp (-B₂) ≤ M₂.lik w) (gap : ℝ) (h0 : 0 ≤ gap)
    (hgap : gap = expectedLogLik (tracesOver (Finset.univ.image M.labelling ∪ M.actions.toFinset) (2 * steps + 1)) (M.runProb P) M₁.lik
      - expectedLogLik (tracesOver (Finset.univ.image M.labelling ∪ M.actions.toFinset) (2 * steps + 1)) (M.runProb P) M₂.lik) :
    1 - Real.exp (-(2 * N * gap ^ 2 / (B₁ + B₂) ^ 2)) ≤ drawsLaw.real {d | ∃ tr S l₁ l₂, M.CollectsOne sch steps st0 d N tr ∧
      generateSetMDP kind (fun j _ => .ok (tr j)) N false none (.int steps) geom = .ok S ∧
      M₁.logLikelihoodMultiproc cpus S = .ok l₁ ∧ M₂.logLikelihoodMultiproc cpus S = .ok l₂ ∧ l₂ < l₁} := by
  subst hgap
  have hD := M.draws hn hS hB steps st0 hr
  have hval : ∀ {m : ℕ} (M' : MDP ℝ L m), M'.actions.Nodup → M'.Stochastic → ∀ S : TSet L, S.times.sum = N →
      (∀ w ∈ S.sequences, w.length = 2 * steps + 1) → M'.logLikelihoodMultiproc cpus S = .ok (avgLogLik M'.lik S) :=
    fun M' hn' hS' S h1 h2 => M'.logLikelihood_spec hn' hS'.1 hS'.2.2.1 cpus hc S (by omega) (fun w hw => by have := h2 w hw; omega)
  letI := simSpace (M.outcome sch steps st0)
  refine success_ge (M.one_stream_real_le hn hS hB kind steps geom st0 hD.simulates N (fun S => ∃ l₁ l₂, M₁.logLikelihoodMultiproc cpus S = .ok l₁ ∧
      M₂.logLikelihoodMultiproc cpus S = .ok l₂ ∧ l₁ ≤ l₂) _
    (hD.results.winner (gen := fun s N => generateSetMDP kind (fun j _ => s j) N false none (.int steps) geom)
      (genMDP_counts kind steps geom _) M₁.lik M₂.lik B₁ B₂ hB₁ hB₂
      (fun w hw h0 => ⟨(M₁.lik_mem_unit hn₁ hS₁ w).2, hb₁ w ((mem_tracesOver _ _ _).1 hw).1 h0⟩)
      (fun w hw h0 => ⟨(M₂.lik_mem_unit hn₂ hS₂ w).2, hb₂ w ((mem_tracesOver _ _ _).1 hw).1 h0⟩) (by linarith) N hN
      (fun S ll => M₁.logLikelihoodMultiproc cpus S = .ok ll) (fun S ll => M₂.logLikelihoodMultiproc cpus S = .ok ll)
      (fun S l _ h2 h3 h4 => ?_) (fun S l _ h2 h3 h4 => ?_))) ?_
  · rw [hval M₁ hn₁ hS₁ S h2 (fun w hw => (h3 w hw).1)] at h4
    injection h4 with h4
    exact h4.symm
  · rw [hval M₂ hn₂ hS₂ S h2 (fun w hw => (h3 w hw).1)] at h4
    injection h4 with h4
    exact h4.symm
  · filter_upwards [M.generateSet_one_frequencies_of_behaves hn hS hB kind steps geom st0 hr] with d hd
    obtain ⟨S, h1, -⟩ := hd
    obtain ⟨tr, e1, e2, -, e4, e5⟩ := h1 N
    rcases le_or_gt (avgLogLik M₁.lik (S N)) (avgLogLik M₂.lik (S N)) with hlt | hlt
    · exact Or.inl ⟨tr, S N, e1, e2, _, _, hval M₁ hn₁ hS₁ _ e4 e5, hval M₂ hn₂ hS₂ _ e4 e5, hlt⟩
    · exact Or.inr ⟨tr, S N, _, _, e1, e2, hval M₁ hn₁ hS₁ _ e4 e5, hval M₂ hn₂ hS₂ _ e4 e5, hlt⟩

/-- C118, an MDP under the uniform scheduler: the proportion of a trace. -/
theorem frequency_precision_uniform (M : MDP ℝ L n) (hn : M.actions.Nodup) (hS : M.Stochastic) (acts : List L) (hne : acts ≠ []) (ha : ∀ s, ∃ x ∈ acts, M.Allowed s x)
    (kind : L → Kind) (steps : ℕ) (geom : ℕ → ℕ) (w : List L)
    (hw : w ∈ tracesOver (Finset.univ.image M.labelling ∪ M.actions.toFinset) (2 * steps + 1)) (t : ℝ) (ht : 0 ≤ t) (N : ℕ) (hN : 1 ≤ N) :
    1 - 2 * Real.exp (-(2 * N * t ^ 2)) ≤ drawsLaw.real {d | ∃ tr S, M.CollectsOne (uniformScheduler acts) steps () d N tr ∧
      generateSetMDP kind (fun j _ => .ok (tr j)) N false none (.int steps) geom = .ok S ∧ |(S.mult w : ℝ) / N - M.runProb (uniformPolicy acts) w| < t} :=
  M.frequency_precision_of_behaves hn hS (uniformScheduler_behaves acts hne) kind steps geom () (M.run_uniform_returns hn hS acts ha steps) w hw t ht N hN

/-- C118, data of an MDP under the uniform scheduler: the precision of the log-likelihood of an MDP. -/
theorem evaluation_precision_uniform (M : MDP ℝ L n) (hn : M.actions.Nodup) (hS : M.Stochastic) (acts : List L) (hne : acts ≠ []) (ha : ∀ s, ∃ x ∈ acts, M.Allowed s x)
    (kind : L → Kind) (steps : ℕ) (geom : ℕ → ℕ)
    (cpus : ℕ) (hc : 2 ≤ cpus) (t : ℝ) (ht : 0 ≤ t) (N : ℕ) (hN : 1 ≤ N) (B : ℝ) (hB : 0 ≤ B) {m : ℕ} (M' : MDP ℝ L m) (hn' : M'.actions.Nodup)
    (hS' : M'.Stochastic) (hb : ∀ w : List L, w.length = 2 * steps + 1 → 0 < M.runProb (uniformPolicy acts) w → M'.lik w = 0 ∨ Real.exp (-B) ≤ M'.lik w) :
    1 - 2 * Real.exp (-(2 * N * t ^ 2 / B ^ 2)) ≤ drawsLaw.real {d | ∃ tr S ll, M.CollectsOne (uniformScheduler acts) steps () d N tr ∧
      generateSetMDP kind (fun j _ => .ok (tr j)) N false none (.int steps) geom = .ok S ∧ M'.logLikelihoodMultiproc cpus S = .ok ll ∧
      |ll - expectedLogLik (tracesOver (Finset.univ.image M.labelling ∪ M.actions.toFinset) (2 * steps + 1)) (M.runProb (uniformPolicy acts)) M'.lik| < t} :=
  M.evaluation_precision_of_behaves hn hS (uniformScheduler_behaves acts hne) kind steps geom () (M.run_uniform_returns hn hS acts ha steps) cpus hc t ht N hN B hB M' hn' hS' hb

/-- C118, data of an MDP under the uniform scheduler: the probability that, of two MDPs, the one with the larger limit has the larger log-likelihood on `N` traces. -/
theorem evaluation_winner_uniform (M : MDP ℝ L n) (hn : M.actions.Nodup) (hS : M.Stochastic) (acts : List L) (hne : acts ≠ []) (ha : ∀ s, ∃ x ∈ acts, M.Allowed s x)
    (kind : L → Kind) (steps : ℕ) (geom : ℕ → ℕ)
    (cpus : ℕ) (hc : 2 ≤ cpus) (N : ℕ) (hN : 1 ≤ N) (B₁ B₂ : ℝ) (hB₁ : 0 ≤ B₁) (hB₂ : 0 ≤ B₂) {m₁ m₂ : ℕ} (M₁ : MDP ℝ L m₁) (M₂ : MDP ℝ L m₂)
    (hn₁ : M₁.actions.Nodup) (hn₂ : M₂.actions.Nodup) (hS₁ : M₁.Stochastic) (hS₂ : M₂.Stochastic)
    (hb₁ : ∀ w : List L, w.length = 2 * steps + 1 → 0 < M.runProb (uniformPolicy acts) w → M₁.lik w = 0 ∨ Real.exp (-B₁) ≤ M₁.lik w)
    (hb₂ : ∀ w : List L, w.length = 2 * steps + 1 → 0 < M.runProb (uniformPolicy acts) w → M₂.lik w = 0 ∨ Real.exp (-B₂) ≤ M₂.lik w) (gap : ℝ) (h0 : 0 ≤ gap)
    (hgap : gap = expectedLogLik (tracesOver (Finset.univ.image M.labelling ∪ M.actions.toFinset) (2 * steps + 1)) (M.runProb (uniformPolicy acts)) M₁.lik
      - expectedLogLik (tracesOver (Finset.univ.image M.labelling ∪ M.actions.toFinset) (2 * steps + 1)) (M.runProb (uniformPolicy acts)) M₂.lik) :
    1 - Real.exp (-(2 * N * gap ^ 2 / (B₁ + B₂) ^ 2)) ≤ drawsLaw.real {d | ∃ tr S l₁ l₂, M.CollectsOne (uniformScheduler acts) steps () d N tr ∧
      generateSetMDP kind (fun j _ => .ok (tr j)) N false none (.int steps) geom = .ok S ∧
      M₁.logLikelihoodMultiproc cpus S = .ok l₁ ∧ M₂.logLikelihoodMultiproc cpus S = .ok l₂ ∧ l₂ < l₁} :=
  M.evaluation_winner_of_behaves hn hS (uniformScheduler_behaves acts hne) kind steps geom () (M.run_uniform_returns hn hS acts ha steps) cpus hc N hN B₁ B₂ hB₁ hB₂ M₁ M₂ hn₁ hn₂ hS₁ hS₂
    hb₁ hb₂ gap h0 hgap

/-- C118, an MDP under a finite-memory scheduler: the proportion of a trace. -/
theorem frequency_precision_fm (M : MDP ℝ L n) (hn : M.actions.Nodup) (hS : M.Stochastic) (F : FMScheduler ℝ L) (k : ℕ) (hF : FMValid F k) (ha : ∀ s, ∀ m < k, ∃ x, M.Allowed s x ∧ 0 < (fmPolicy F).propose m x)
    (kind : L → Kind) (steps : ℕ) (geom : ℕ → ℕ) (st0 : ℕ) (w : List L)
    (hw : w ∈ tracesOver (Finset.univ.image M.labelling ∪ M.actions.toFinset) (2 * steps + 1)) (t : ℝ) (ht : 0 ≤ t) (N : ℕ) (hN : 1 ≤ N) :
    1 - 2 * Real.exp (-(2 * N * t ^ 2)) ≤ drawsLaw.real {d | ∃ tr S, M.CollectsOne F.sched steps st0 d N tr ∧
      generateSetMDP kind (fun j _ => .ok (tr j)) N false none (.int steps) geom = .ok S ∧ |(S.mult w : ℝ) / N - M.runProb (fmPolicy F) w| < t} :=
  M.frequency_precision_of_behaves hn hS (fmScheduler_behaves F k hF) kind steps geom st0 (M.run_fm_returns hn hS F k hF ha steps st0) w hw t ht N hN

/-- C118, data of an MDP under a finite-memory scheduler: the precision of the log-likelihood of an MDP. -/
theorem evaluation_precision_fm (M : MDP ℝ L n) (hn : M.actions.Nodup) (hS : M.Stochastic) (F : FMScheduler ℝ L) (k : ℕ) (hF : FMValid F k) (ha : ∀ s, ∀ m < k, ∃ x, M.Allowed s x ∧ 0 < (fmPolicy F).propose m x)
    (kind : L → Kind) (steps : ℕ) (geom : ℕ → ℕ) (st0 : ℕ)
    (cpus : ℕ) (hc : 2 ≤ cpus) (t : ℝ) (ht : 0 ≤ t) (N : ℕ) (hN : 1 ≤ N) (B : ℝ) (hB : 0 ≤ B) {m : ℕ} (M' : MDP ℝ L m) (hn' : M'.actions.Nodup)
    (hS' : M'.Stochastic) (hb : ∀ w : List L, w.length = 2 * steps + 1 → 0 < M.runProb (fmPolicy F) w → M'.lik w = 0 ∨ Real.exp (-B) ≤ M'.lik w) :
    1 - 2 * Real.exp (-(2 * N * t ^ 2 / B ^ 2)) ≤ drawsLaw.real {d | ∃ tr S ll, M.CollectsOne F.sched steps st0 d N tr ∧
      generateSetMDP kind (fun j _ => .ok (tr j)) N false none (.int steps) geom = .ok S ∧ M'.logLikelihoodMultiproc cpus S = .ok ll ∧
      |ll - expectedLogLik (tracesOver (Finset.univ.image M.labelling ∪ M.actions.toFinset) (2 * steps + 1)) (M.runProb (fmPolicy F)) M'.lik| < t} :=
  M.evaluation_precision_of_behaves hn hS (fmScheduler_behaves F k hF) kind steps geom st0 (M.run_fm_returns hn hS F k hF ha steps st0) cpus hc t ht N hN B hB M' hn' hS' hb

/-- C118, data of an MDP under a finite-memory scheduler: the probability that, of two MDPs, the one with the larger limit has the larger log-likelihood on `N` traces. -/
theorem evaluation_winner_fm (M : MDP ℝ L n) (hn : M.actions.Nodup) (hS : M.Stochastic) (F : FMScheduler ℝ L) (k : ℕ) (hF : FMValid F k) (ha : ∀ s, ∀ m < k, ∃ x, M.Allowed s x ∧ 0 < (fmPolicy F).propose m x)
    (kind : L → Kind) (steps : ℕ) (geom : ℕ → ℕ) (st0 : ℕ)
    (cpus : ℕ) (hc : 2 ≤ cpus) (N : ℕ) (hN : 1 ≤ N) (B₁ B₂ : ℝ) (hB₁ : 0 ≤ B₁) (hB₂ : 0 ≤ B₂) {m₁ m₂ : ℕ} (M₁ : MDP ℝ L m₁) (M₂ : MDP ℝ L m₂)
    (hn₁ : M₁.actions.Nodup) (hn₂ : M₂.actions.Nodup) (hS₁ : M₁.Stochastic) (hS₂ : M₂.Stochastic)
    (hb₁ : ∀ w : List L, w.length = 2 * steps + 1 → 0 < M.runProb (fmPolicy F) w → M₁.lik w = 0 ∨ Real.exp (-B₁) ≤ M₁.lik w)
    (hb₂ : ∀ w : List L, w.length = 2 * steps + 1 → 0 < M.runProb (fmPolicy F) w → M₂.lik w = 0 ∨ Real.exp (-B₂) ≤ M₂.lik w) (gap : ℝ) (h0 : 0 ≤ gap)
    (hgap : gap = expectedLogLik (tracesOver (Finset.univ.image M.labelling ∪ M.actions.toFinset) (2 * steps + 1)) (M.runProb (fmPolicy F)) M₁.lik
      - expectedLogLik (tracesOver (Finset.univ.image M.labelling ∪ M.actions.toFinset) (2 * steps + 1)) (M.runProb (fmPolicy F)) M₂.lik) :
    1 - Real.exp (-(2 * N * gap ^ 2 / (B₁ + B₂) ^ 2)) ≤ drawsLaw.real {d | ∃ tr S l₁ l₂, M.CollectsOne F.sched steps st0 d N tr ∧
      generateSetMDP kind (fun j _ => .ok (tr j)) N false none (.int steps) geom = .ok S ∧
      M₁.logLikelihoodMultiproc cpus S = .ok l₁ ∧ M₂.logLikelihoodMultiproc cpus S = .ok l₂ ∧ l₂ < l₁} :=
  M.evaluation_winner_of_behaves hn hS (fmScheduler_behaves F k hF) kind steps geom st0 (M.run_fm_returns hn hS F k hF ha steps st0) cpus hc N hN B₁ B₂ hB₁ hB₂ M₁ M₂ hn₁ hn₂ hS₁ hS₂
    hb₁ hb₂ gap h0 hgap

end MDP

/-! ### A bound read from the entries of the model -/

theorem prod_ge_pow {ι : Type} (s : Finset ι) (f : ι → ℝ) {p : ℝ} (h0 : 0 ≤ p) (h : ∀ i ∈ s, p ≤ f i) : p ^ s.card ≤ ∏ i ∈ s, f i := by
  rw [← Finset.prod_const]
  exact Finset.prod_le_prod (fun _ _ => h0) h

/-- If the entries are 0 or at least `p`, and the probabilities of the letters 0 or at least `q`, then the probability of a trace is 0 or at least `(p q)` to the
power of its length. -/
theorem listProb_ge (init : Fin n → ℝ) (a : Fin n → Fin n → ℝ) (b : Fin n → L → ℝ) (hi0 : ∀ s, 0 ≤ init s) (ha0 : ∀ s s', 0 ≤ a s s') (hb0 : ∀ s o, 0 ≤ b s o)
    (p q : ℝ) (hp : 0 < p) (hq : 0 < q) (hi : ∀ s, init s = 0 ∨ p ≤ init s) (ha : ∀ s s', a s s' = 0 ∨ p ≤ a s s') (hb : ∀ s o, b s o = 0 ∨ q ≤ b s o)
    (w : List L) : listProb init a b w = 0 ∨ (p * q) ^ w.length ≤ listProb init a b w := by
  cases w with
  | nil => exact Or.inl rfl
  | cons o os =>
    unfold listProb
    dsimp only
    unfold traceProb
    set g : (Fin (os.length + 1) → Fin n) → ℝ := fun r => init (r 0) * (∏ k : Fin os.length, a (r k.castSucc) (r k.succ)) *
        ∏ k : Fin (os.length + 1), b (r k) ((o :: os).get k) with hg
    have hnn : ∀ r, 0 ≤ g r := fun r =>
      mul_nonneg (mul_nonneg (hi0 _) (Finset.prod_nonneg (fun _ _ => ha0 _ _))) (Finset.prod_nonneg (fun _ _ => hb0 _ _))
    by_cases hz : ∀ r, g r = 0
    · exact Or.inl (Finset.sum_eq_zero (fun r _ => hz r))
    · right
      push Not at hz
      obtain ⟨r, hr⟩ := hz
      refine le_trans ?_ (Finset.single_le_sum (f := g) (fun r _ => hnn r) (Finset.mem_univ r))
      have h1 := left_ne_zero_of_mul hr
      have h2 := right_ne_zero_of_mul hr
      have h3 := left_ne_zero_of_mul h1
      have h4 := right_ne_zero_of_mul h1
      have e1 : p ≤ init (r 0) := (hi _).resolve_left h3
      have e2 : p ^ os.length ≤ ∏ k : Fin os.length, a (r k.castSucc) (r k.succ) := by
        have := prod_ge_pow Finset.univ (fun k : Fin os.length => a (r k.castSucc) (r k.succ)) hp.le
          (fun k hk => (ha _ _).resolve_left (Finset.prod_ne_zero_iff.1 h4 k hk))
        simpa using this
      have e3 : q ^ (os.length + 1) ≤ ∏ k : Fin (os.length + 1), b (r k) ((o :: os).get k) := by
        have := prod_ge_pow Finset.univ (fun k : Fin (os.length + 1) => b (r k) ((o :: os).get k)) hq.le
          (fun k hk => (hb _ _).resolve_left (Finset.prod_ne_zero_iff.1 h2 k hk))
        simpa using this
      show _ ≤ g r
      rw [hg]
      dsimp only
      rw [List.length_cons, mul_pow, pow_succ p, mul_comm (p ^ os.length)]
      exact mul_le_mul (mul_le_mul e1 e2 (by positivity) (hi0 _)) e3 (by positivity) (mul_nonneg (hi0 _) (Finset.prod_nonneg (fun _ _ => ha0 _ _)))

/-- On a finite set of traces there always is a bound. -/
theorem exists_bound {O : Type} (F : Finset (List O)) (Q : List O → ℝ) (h : ∀ w ∈ F, 0 ≤ Q w) : ∃ B : ℝ, 0 ≤ B ∧ ∀ w ∈ F, Q w = 0 ∨ Real.exp (-B) ≤ Q w := by
  classical
  induction F using Finset.induction_on with
  | empty => exact ⟨0, le_rfl, by simp⟩
  | insert w F _ ih =>
    obtain ⟨B, hB, hb⟩ := ih (fun w hw => h w (Finset.mem_insert_of_mem hw))
    refine ⟨max B (-Real.log (Q w)), le_max_of_le_left hB, fun v hv => ?_⟩
    rcases Finset.mem_insert.1 hv with rfl | hv
    · rcases (h v hv).eq_or_lt with h0 | h0
      · exact Or.inl h0.symm
      · right
        rw [← Real.le_log_iff_exp_le h0]
        linarith [le_max_right B (-Real.log (Q v))]
    · rcases hb v hv with h0 | h0
      · exact Or.inl h0
      · exact Or.inr ((Real.exp_le_exp.2 (neg_le_neg (le_max_left _ _))).trans h0)

/-- A trace with a positive probability is one of the finite set. -/
theorem mem_of_possible {O : Type} [DecidableEq O] {sim : (ℕ → ℝ) → Py (List O)} {W : Set (List O)} {F : Finset (List O)} {P : List O → ℝ} (h : Draws drawsLaw sim W F P)
    {w : List O} (hw : drawsLaw {d | sim d = .ok w} = ENNReal.ofReal (P w)) (h0 : 0 < P w) : w ∈ F := by
  have hne : drawsLaw {d | sim d = .ok w} ≠ 0 := by
    rw [hw]
    exact (ENNReal.ofReal_pos.2 h0).ne'
  obtain ⟨d, hd⟩ := nonempty_of_measure_ne_zero hne
  exact h.mem w (h.simulates.mem d w hd)

namespace HMM

/-- C118, hidden Markov models: a bound read from the entries of the model. -/
theorem lik_ge (M : HMM ℝ L n) (hn : M.alphabet.Nodup) (hM : M.Stochastic) (p : ℝ) (h0 : 0 < p) (hi : ∀ s, M.initialState s = 0 ∨ p ≤ M.initialState s)
    (ha : ∀ s s', M.matrix s s' = 0 ∨ p ≤ M.matrix s s') (hb : ∀ s o, M.b s o = 0 ∨ p ≤ M.b s o) (w : List L) :
    M.lik w = 0 ∨ (p ^ 2) ^ w.length ≤ M.lik w := by
  rw [M.lik_eq_listProb hn, sq]
  exact listProb_ge _ _ _ hM.1 hM.2.2.1 (fun s o => b_nonneg M hM.2.2.2.2.1 s o) p p h0 h0 hi ha hb w

/-- C118, data of a hidden Markov model: for every model there is a constant `B` with which the precision holds, for all the sizes and all the `t`. -/
theorem evaluation_exponential (M : HMM ℝ L n) (hn : M.alphabet.Nodup) (hM : M.Stochastic) (kind : L → Kind) (steps : ℕ) (hs : 2 ≤ steps) (geom : ℕ → ℕ)
    (cpus : ℕ) (hc : 2 ≤ cpus) {m : ℕ} (M' : HMM ℝ L m) (hn' : M'.alphabet.Nodup) (hM' : M'.Stochastic) : ∃ B : ℝ, 0 ≤ B ∧ ∀ t : ℝ, 0 ≤ t → ∀ N : ℕ, 1 ≤ N →
      1 - 2 * Real.exp (-(2 * N * t ^ 2 / B ^ 2)) ≤ drawsLaw.real {d | ∃ S ll,
        generateSet kind (fun j k => M.run k (fun i => d (j * (2 * steps + 1) + i))) N false none (.int steps) geom = .ok S ∧
        M'.iface.logLikelihoodMultiproc cpus S = .ok ll ∧ |ll - expectedLogLik (tracesOver M.alphabet.toFinset steps) M.lik M'.lik| < t} := by
  obtain ⟨B, hB, hb⟩ := exists_bound (tracesOver M.alphabet.toFinset steps) M'.lik
    (fun w hw => (M'.traceDist hn' hM' steps (by omega)).nonneg w ((mem_tracesOver _ _ _).1 hw).1)
  refine ⟨B, hB, fun t ht N hN => (M.evaluation_precision hn hM kind steps hs geom cpus hc t ht N hN B hB).2 m M' hn' hM' (fun w hw h0 => hb w ?_)⟩
  exact mem_of_possible (M.draws hn hM steps (by omega)) (M.run_lik hn hM steps (by omega) w hw).1 h0

end HMM

namespace MDP

/-- C118, data of an MDP under the uniform scheduler: for every MDP there is a constant `B` with which the precision holds, for all the sizes and all the `t`. -/
theorem evaluation_exponential_uniform (M : MDP ℝ L n) (hn : M.actions.Nodup) (hS : M.Stochastic) (acts : List L) (hne : acts ≠ [])
    (ha : ∀ s, ∃ x ∈ acts, M.Allowed s x) (kind : L → Kind) (steps : ℕ) (geom : ℕ → ℕ) (cpus : ℕ) (hc : 2 ≤ cpus) {m : ℕ} (M' : MDP ℝ L m)
    (hn' : M'.actions.Nodup) (hS' : M'.Stochastic) : ∃ B : ℝ, 0 ≤ B ∧ ∀ t : ℝ, 0 ≤ t → ∀ N : ℕ, 1 ≤ N →
    1 - 2 * Real.exp (-(2 * N * t ^ 2 / B ^ 2)) ≤ drawsLaw.real {d | ∃ tr S ll, M.CollectsOne (uniformScheduler acts) steps () d N tr ∧
      generateSetMDP kind (fun j _ => .ok (tr j)) N false none (.int steps) geom = .ok S ∧ M'.logLikelihoodMultiproc cpus S = .ok ll ∧
      |ll - expectedLogLik (tracesOver (Finset.univ.image M.labelling ∪ M.actions.toFinset) (2 * steps + 1)) (M.runProb (uniformPolicy acts)) M'.lik| < t} := by
  obtain ⟨B, hB, hb⟩ := exists_bound (tracesOver (Finset.univ.image M.labelling ∪ M.actions.toFinset) (2 * steps + 1)) M'.lik
    (fun w _ => (M'.lik_mem_unit hn' hS' w).1)
  have hD := M.draws hn hS (uniformScheduler_behaves acts hne) steps () (M.run_uniform_returns hn hS acts ha steps)
  refine ⟨B, hB, fun t ht N hN => M.evaluation_precision_uniform hn hS acts hne ha kind steps geom cpus hc t ht N hN B hB M' hn' hS' (fun w hw h0 => hb w ?_)⟩
  refine mem_of_possible hD ?_ h0
  simp only [outcome_ok]
  exact M.run_law_of_behaves (uniformScheduler_behaves acts hne) hn hS steps () w hw

end MDP

namespace MC

/-- If the entries of the chain are 0 or at least `p`, then the likelihood of a trace is 0 or at least `p` to the power of its length. -/
theorem lik_ge (M : MC ℝ L n) (hM : M.Stochastic) (p : ℝ) (h0 : 0 < p) (hi : ∀ s, M.initialState s = 0 ∨ p ≤ M.initialState s)
    (ha : ∀ s s', M.matrix s s' = 0 ∨ p ≤ M.matrix s s') (w : List L) : M.lik w = 0 ∨ p ^ w.length ≤ M.lik w := by
  have := listProb_ge M.initialState M.matrix (fun s o => if M.labelling s = o then (1:ℝ) else 0) hM.1 hM.2.2.1 (fun s o => by split_ifs <;> norm_num)
    p 1 h0 one_pos hi ha (fun s o => by split_ifs <;> simp) w
  rw [mul_one] at this
  exact this

/-- C118, data of a Markov chain: for every model there is a constant `B` with which the precision holds, for all the sizes and all the `t`. -/
theorem evaluation_exponential (M : MC ℝ L n) (hM : M.Stochastic) (kind : L → Kind) (steps : ℕ) (hs : 1 ≤ steps) (geom : ℕ → ℕ)
    (cpus : ℕ) (hc : 2 ≤ cpus) {m : ℕ} (M' : MC ℝ L m) (hM' : M'.Stochastic) : ∃ B : ℝ, 0 ≤ B ∧ ∀ t : ℝ, 0 ≤ t → ∀ N : ℕ, 1 ≤ N →
      1 - 2 * Real.exp (-(2 * N * t ^ 2 / B ^ 2)) ≤ drawsLaw.real {d | ∃ S ll,
        generateSet kind (fun j k => M.run k (fun i => d (j * (steps + 1) + i))) N false none (.int steps) geom = .ok S ∧
        M'.iface.logLikelihoodMultiproc cpus S = .ok ll ∧
        |ll - expectedLogLik (tracesOver (Finset.univ.image M.labelling) (steps + 1)) M.lik M'.lik| < t} := by
  obtain ⟨B, hB, hb⟩ := exists_bound (tracesOver (Finset.univ.image M.labelling) (steps + 1)) M'.lik
    (fun w hw => (M'.traceDist hM' steps).nonneg w ((mem_tracesOver _ _ _).1 hw).1)
  refine ⟨B, hB, fun t ht N hN => (M.evaluation_precision hM kind steps hs geom cpus hc t ht N hN B hB).1 m M' hM' (fun w hw h0 => hb w ?_)⟩
  exact mem_of_possible (M.draws hM steps) (M.run_lik hM steps w hw).1 h0

theorem exp_log_pow {p : ℝ} (h0 : 0 < p) (k : ℕ) : Real.exp (-(k * Real.log (1 / p))) = p ^ k := by
  rw [one_div, Real.log_inv, mul_neg, neg_neg, Real.exp_nat_mul, Real.exp_log h0]

/-- C118, a size that is enough: let `M` generate the traces and let the entries of `M'` be 0 or at least `p`. With
`N ≥ ((steps + 1) log(1/p))² log(2/δ) / (2 t²)` traces, the log-likelihood of `M'` is within `t` of its limit, with a probability of at least `1 - δ`. -/
theorem evaluation_sample_size (M : MC ℝ L n) (hM : M.Stochastic) (kind : L → Kind) (steps : ℕ) (hs : 1 ≤ steps) (geom : ℕ → ℕ) (cpus : ℕ) (hc : 2 ≤ cpus)
    {m : ℕ} (M' : MC ℝ L m) (hM' : M'.Stochastic) (p : ℝ) (h0 : 0 < p) (h1 : p < 1) (hi : ∀ s, M'.initialState s = 0 ∨ p ≤ M'.initialState s)
    (ha : ∀ s s', M'.matrix s s' = 0 ∨ p ≤ M'.matrix s s') (t δ : ℝ) (ht : 0 < t) (hδ : 0 < δ) (N : ℕ) (hN : 1 ≤ N)
    (hsize : ((steps + 1) * Real.log (1 / p)) ^ 2 * Real.log (2 / δ) / (2 * t ^ 2) ≤ N) :
    1 - δ ≤ drawsLaw.real {d | ∃ S ll,
      generateSet kind (fun j k => M.run k (fun i => d (j * (steps + 1) + i))) N false none (.int steps) geom = .ok S ∧
      M'.iface.logLikelihoodMultiproc cpus S = .ok ll ∧
      |ll - expectedLogLik (tracesOver (Finset.univ.image M.labelling) (steps + 1)) M.lik M'.lik| < t} := by
  have hl : 0 < Real.log (1 / p) := Real.log_pos ((one_lt_div h0).2 h1)
  have key := (M.evaluation_precision hM kind steps hs geom cpus hc t ht.le N hN ((steps + 1) * Real.log (1 / p)) (by positivity)).1 m M' hM' (fun w hw _ => by
    have e := exp_log_pow h0 (steps + 1)
    push_cast at e
    rw [e, ← hw]
    exact M'.lik_ge hM' p h0 hi ha w)
  have := sample_size (B := (steps + 1) * Real.log (1 / p)) (by positivity) ht hδ hsize
  linarith

end MC

/-! ### Concrete cases -/

theorem exMC'_entries : (∀ s, exMC'.initialState s = 0 ∨ (1/4 : ℝ) ≤ exMC'.initialState s) ∧ ∀ s s', exMC'.matrix s s' = 0 ∨ (1/4 : ℝ) ≤ exMC'.matrix s s' := by
  constructor
  · intro s; fin_cases s <;> simp [exMC'] <;> norm_num
  · intro s s'; fin_cases s <;> fin_cases s' <;> simp [exMC'] <;> norm_num

theorem exMC_entries : (∀ s, (exMC ℝ).initialState s = 0 ∨ (1/2 : ℝ) ≤ (exMC ℝ).initialState s) ∧ ∀ s s', (exMC ℝ).matrix s s' = 0 ∨ (1/2 : ℝ) ≤ (exMC ℝ).matrix s s' := by
  constructor
  · intro s; fin_cases s <;> simp [exMC] <;> norm_num
  · intro s s'; fin_cases s <;> fin_cases s' <;> simp [exMC] <;> norm_num

/-- 4000 traces of the chain `exMC` are enough to know the limit of the log-likelihood of `exMC'` up to 1/10, with a probability of 95%. -/
theorem exMC_sample : 1 - (1/20 : ℝ) ≤ drawsLaw.real {d | ∃ S ll,
      generateSet (fun _ => .str) (fun j k => (exMC ℝ).run k (fun i => d (j * (2 + 1) + i))) 4000 false none (.int 2) (fun _ => 0) = .ok S ∧
      exMC'.iface.logLikelihoodMultiproc 4 S = .ok ll ∧
      |ll - expectedLogLik (tracesOver (Finset.univ.image (exMC ℝ).labelling) (2 + 1)) (exMC ℝ).lik exMC'.lik| < 1/10} := by
  refine (exMC ℝ).evaluation_sample_size exMC_stochastic_real (fun _ => .str) 2 (by norm_num) (fun _ => 0) 4 (by norm_num) exMC' exMC'_stochastic (1/4) (by norm_num)
    (by norm_num) exMC'_entries.1 exMC'_entries.2 (1/10) (1/20) (by norm_num) (by norm_num) 4000 (by norm_num) ?_
  have h2 := Real.log_two_lt_d9
  have h2' := Real.log_two_gt_d9
  have e4 : Real.log (1 / (1/4)) = 2 * Real.log 2 := by
    rw [show (1:ℝ) / (1/4) = 2 ^ 2 by norm_num, Real.log_pow]; norm_num
  have e40 : Real.log (2 / (1/20)) ≤ 5 * Real.log 2 + 1/4 := by
    rw [show (2:ℝ) / (1/20) = 2 ^ 5 * (5/4) by norm_num, Real.log_mul (by norm_num) (by norm_num), Real.log_pow]
    have := Real.log_le_sub_one_of_pos (show (0:ℝ) < 5/4 by norm_num)
    push_cast
    linarith
  have e0 : 0 ≤ Real.log (2 / (1/20)) := Real.log_nonneg (by norm_num)
  rw [e4]
  have a1 : ((((2:ℕ):ℝ) + 1) * (2 * Real.log 2)) ^ 2 ≤ 17.4 := by
    push_cast
    nlinarith
  have a2 : Real.log (2 / (1/20)) ≤ 3.72 := by linarith
  have a3 := mul_le_mul a1 a2 e0 (by norm_num)
  rw [div_le_iff₀ (by norm_num)]
  push_cast at a3 ⊢
  linarith

/-- On `N` traces of `exMC`, the chain `exMC` has a larger log-likelihood than `exMC'` with a probability that tends to 1 exponentially fast. -/
example (N : ℕ) (hN : 1 ≤ N) : ∃ gap : ℝ, 0 < gap ∧
    gap = expectedLogLik (tracesOver (Finset.univ.image (exMC ℝ).labelling) (2 + 1)) (exMC ℝ).lik (exMC ℝ).lik
      - expectedLogLik (tracesOver (Finset.univ.image (exMC ℝ).labelling) (2 + 1)) (exMC ℝ).lik exMC'.lik ∧
    1 - Real.exp (-(2 * N * gap ^ 2 / (((3:ℕ):ℝ) * Real.log (1 / (1/2)) + ((3:ℕ):ℝ) * Real.log (1 / (1/4))) ^ 2)) ≤ drawsLaw.real {d | ∃ S ll ll',
      generateSet (fun _ => .str) (fun j k => (exMC ℝ).run k (fun i => d (j * (2 + 1) + i))) N false none (.int 2) (fun _ => 0) = .ok S ∧
      (exMC ℝ).iface.logLikelihoodMultiproc 4 S = .ok ll ∧ exMC'.iface.logLikelihoodMultiproc 4 S = .ok ll' ∧ ll' < ll} := by
  refine ((exMC ℝ).evaluation_winner exMC_stochastic_real (fun _ => .str) 2 (by norm_num) (fun _ => 0) 4 (by norm_num) N hN _ _
    (mul_nonneg (by norm_num) (Real.log_nonneg (by norm_num))) (mul_nonneg (by norm_num) (Real.log_nonneg (by norm_num))) (fun w hw h0 => ?_)).1 3 exMC' exMC'_stochastic
    (fun w hw h0 => ?_) ⟨[2, 0, 1], rfl, ?_⟩
  · rw [MC.exp_log_pow (by norm_num)]
    have := (exMC ℝ).lik_ge exMC_stochastic_real (1/2) (by norm_num) exMC_entries.1 exMC_entries.2 w
    rw [hw] at this
    exact this.resolve_left h0.ne'
  · rw [MC.exp_log_pow (by norm_num)]
    have := exMC'.lik_ge exMC'_stochastic (1/4) (by norm_num) exMC'_entries.1 exMC'_entries.2 w
    rw [hw] at this
    refine this.resolve_left (ne_of_gt ?_)
    refine MC.possible_of_support (exMC ℝ) exMC' exMC_stochastic_real exMC'_stochastic rfl ?_ ?_ w h0
    · intro s; fin_cases s <;> simp [exMC, exMC']
    · intro s s'; fin_cases s <;> fin_cases s' <;> simp [exMC, exMC']
  · rw [exMC'_lik]
    have h1 := (exMC ℝ).seqProb_eq_paths [2, 0, 1] (by simp)
    rw [exMC_seqProb] at h1
    injection h1 with h1
    have h1' : (exMC ℝ).lik [2, 0, 1] = 1 / 2 := h1.symm
    rw [h1']
    norm_num

/-- The hypotheses of the theorems on hidden Markov models are met. -/
example : ∃ B : ℝ, 0 ≤ B ∧ ∀ t : ℝ, 0 ≤ t → ∀ N : ℕ, 1 ≤ N →
      1 - 2 * Real.exp (-(2 * N * t ^ 2 / B ^ 2)) ≤ drawsLaw.real {d | ∃ S ll,
        generateSet (fun _ => .str) (fun j k => (exHMM ℝ).run k (fun i => d (j * (2 * 3 + 1) + i))) N false none (.int 3) (fun _ => 0) = .ok S ∧
        (exHMM ℝ).iface.logLikelihoodMultiproc 4 S = .ok ll ∧
        |ll - expectedLogLik (tracesOver (exHMM ℝ).alphabet.toFinset 3) (exHMM ℝ).lik (exHMM ℝ).lik| < t} :=
  (exHMM ℝ).evaluation_exponential exHMM_stochastic_real.2 exHMM_stochastic_real.1 _ 3 (by norm_num) _ 4 (by norm_num) (exHMM ℝ) exHMM_stochastic_real.2
    exHMM_stochastic_real.1

/-- And those of the theorems on MDPs. -/
example (N : ℕ) (hN : 1 ≤ N) (t : ℝ) (ht : 0 ≤ t) : ∃ B : ℝ, 0 ≤ B ∧
    1 - 2 * Real.exp (-(2 * N * t ^ 2 / B ^ 2)) ≤ drawsLaw.real {d | ∃ tr S ll, MDP.unlikeMDP.CollectsOne (uniformScheduler ["a"]) 2 () d N tr ∧
      generateSetMDP (fun _ => .str) (fun j _ => .ok (tr j)) N false none (.int 2) (fun _ => 0) = .ok S ∧ MDP.unlikeMDP.logLikelihoodMultiproc 4 S = .ok ll ∧
      |ll - expectedLogLik (tracesOver (Finset.univ.image MDP.unlikeMDP.labelling ∪ MDP.unlikeMDP.actions.toFinset) (2 * 2 + 1))
        (MDP.unlikeMDP.runProb (uniformPolicy ["a"])) MDP.unlikeMDP.lik| < t} := by
  obtain ⟨B, hB, h⟩ := MDP.unlikeMDP.evaluation_exponential_uniform (by simp [MDP.unlikeMDP]) MDP.unlikeMDP_stochastic ["a"] (by simp)
    (fun s => ⟨"a", by simp, MDP.unlikeMDP_allowed s⟩) (fun _ => .str) 2 (fun _ => 0) 4 (by norm_num) MDP.unlikeMDP (by simp [MDP.unlikeMDP]) MDP.unlikeMDP_stochastic
  exact ⟨B, hB, h t ht N hN⟩


end Jajapy
