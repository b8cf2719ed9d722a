import Verif.Lemmas.Evaluation
import Verif.Props.GenerateMDP
import Verif.Props.GenerateEx

/-!
Property C85: comparing models by their log-likelihood on a generated set.
-/

set_option linter.unusedSectionVars false

namespace Jajapy

open MeasureTheory ProbabilityTheory Spec Filter Topology Tools

variable {L : Type} [DecidableEq L] {n : ℕ}

theorem Iface.limit {m : ℕ} (I : Iface ℝ L m) (S : ℕ → TSet L) (F : Finset (List L)) (P Q : List L → ℝ) (cpus : ℕ) (hc : 2 ≤ cpus)
    (hC : ∀ N, (S N).Countable) (hF : ∀ N, ∀ w ∈ (S N).sequences, w ∈ F) (hsum : ∀ N, (S N).times.sum = N)
    (hlim : ∀ w ∈ F, Tendsto (fun N : ℕ => ((S N).mult w : ℝ) / N) atTop (𝓝 (P w))) (hQ : ∀ w ∈ F, I.seqProb w = .ok (Q w)) :
    ∃ ll : ℕ → ℝ, (∀ N, I.logLikelihoodMultiproc cpus (S N) = .ok (ll N)) ∧ Tendsto ll atTop (𝓝 (expectedLogLik F P Q)) :=
  ⟨fun N => avgLogLik Q (S N), fun N => I.multiproc_eq Q cpus hc (S N) (fun w hw => hQ w (hF N w hw)),
    avg_limit S F P Q hC hF hsum hlim⟩

theorem HMM.seqProb_lik {m : ℕ} (M : HMM ℝ L m) (hn : M.alphabet.Nodup) (w : List L) (hw : w ≠ []) :
    M.iface.seqProb w = .ok (M.lik w) := by
  rw [M.lik_eq_listProb hn]
  exact M.seqProb_eq_paths w hw

/-- The traces of `k` letters that a model can generate: over its labels. -/
theorem ne_nil_of_mem {A : Finset L} {k : ℕ} {w : List L} (h : w ∈ tracesOver A (k + 1)) : w ≠ [] := by
  rintro rfl
  have := ((mem_tracesOver _ _ _).1 h).1
  simp at this

namespace MC

theorem generated (M : MC ℝ L n) (hM : M.Stochastic) (kind : L → Kind) (steps : ℕ) (hs : 1 ≤ steps) (geom : ℕ → ℕ) :
    ∀ᵐ d ∂drawsLaw, ∃ S : ℕ → TSet L,
      (∀ N, generateSet kind (fun j k => M.run k (fun i => d (j * (steps + 1) + i))) N false none (.int steps) geom = .ok (S N)) ∧
      (∀ N, (S N).Countable) ∧ (∀ N, (S N).times.sum = N) ∧
      (∀ N, ∀ w ∈ (S N).sequences, w ∈ tracesOver (Finset.univ.image M.labelling) (steps + 1)) ∧
      ∀ w ∈ tracesOver (Finset.univ.image M.labelling) (steps + 1), Tendsto (fun N : ℕ => ((S N).mult w : ℝ) / N) atTop (𝓝 (M.lik w)) := by
  have h := (M.simulates hM steps).frequencies_stream (gen_counts kind _ (fun w hw => by have := hw.1; omega)) (Nat.succ_pos _)
    (M.run_reads steps)
  filter_upwards [h] with d hd
  obtain ⟨S, h1, h2⟩ := hd
  refine ⟨S, fun N => ?_, fun N => (h1 N).2.1, fun N => (h1 N).2.2.1, fun N w hw => ?_, fun w hw => ?_⟩
  · rw [gen_eq kind _ N false none (.int steps) geom (fun _ => steps) (fun _ => rfl)]
    exact (h1 N).1
  · obtain ⟨a, b⟩ := (h1 N).2.2.2 w hw
    exact (mem_tracesOver _ _ _).2 ⟨a, fun o ho => by simpa using b o ho⟩
  · have := h2 w
    obtain ⟨e, h0⟩ := M.run_lik hM steps w ((mem_tracesOver _ _ _).1 hw).1
    rwa [e, ENNReal.toReal_ofReal h0] at this

theorem sum_lik (M : MC ℝ L n) (hM : M.Stochastic) (steps : ℕ) :
    ∑ w ∈ tracesOver (Finset.univ.image M.labelling) (steps + 1), M.lik w = 1 := by
  refine TraceDist.sum_eq (M.simulates hM steps) _ _ (M.traceDist hM steps) (fun w hw => (M.run_lik hM steps w hw).1) _ ?_
    (fun w hw => ((mem_tracesOver _ _ _).1 hw).1)
  rintro w ⟨a, b⟩
  exact (mem_tracesOver _ _ _).2 ⟨a, fun o ho => by simpa using b o ho⟩

/-- C85, data of a Markov chain: as the generated set grows, the log-likelihood of every Markov chain and of every hidden Markov model
on it tends to the expected logarithm of the likelihood of a trace, in which the traces impossible for that model count for 0. -/
theorem evaluation_limit (M : MC ℝ L n) (hM : M.Stochastic) (kind : L → Kind) (steps : ℕ) (hs : 1 ≤ steps) (geom : ℕ → ℕ)
    (cpus : ℕ) (hc : 2 ≤ cpus) :
    ∀ᵐ d ∂drawsLaw, ∃ S : ℕ → TSet L,
      (∀ N, generateSet kind (fun j k => M.run k (fun i => d (j * (steps + 1) + i))) N false none (.int steps) geom = .ok (S N)) ∧
      (∀ (m : ℕ) (M' : MC ℝ L m), ∃ ll : ℕ → ℝ, (∀ N, M'.iface.logLikelihoodMultiproc cpus (S N) = .ok (ll N)) ∧
        Tendsto ll atTop (𝓝 (expectedLogLik (tracesOver (Finset.univ.image M.labelling) (steps + 1)) M.lik M'.lik))) ∧
      (∀ (m : ℕ) (M' : HMM ℝ L m), M'.alphabet.Nodup → ∃ ll : ℕ → ℝ, (∀ N, M'.iface.logLikelihoodMultiproc cpus (S N) = .ok (ll N)) ∧
        Tendsto ll atTop (𝓝 (expectedLogLik (tracesOver (Finset.univ.image M.labelling) (steps + 1)) M.lik M'.lik))) := by
  filter_upwards [M.generated hM kind steps hs geom] with d hd
  obtain ⟨S, h1, h2, h3, h4, h5⟩ := hd
  exact ⟨S, h1, fun m M' => Iface.limit _ S _ _ _ cpus hc h2 h4 h3 h5 (fun w hw => M'.seqProb_eq_paths w (ne_nil_of_mem hw)),
    fun m M' hn => Iface.limit _ S _ _ _ cpus hc h2 h4 h3 h5 (fun w hw => M'.seqProb_lik hn w (ne_nil_of_mem hw))⟩

/-- C85, data of a Markov chain `M`: on a large enough set generated by `M`, every stochastic model (Markov chain or hidden Markov model,
with any number of states) for which all the traces of `M` are possible, and which differs from `M` by the likelihood of at least
one trace of that length, has a strictly smaller log-likelihood than `M`. -/
theorem evaluation_ranks (M : MC ℝ L n) (hM : M.Stochastic) (kind : L → Kind) (steps : ℕ) (hs : 1 ≤ steps) (geom : ℕ → ℕ)
    (cpus : ℕ) (hc : 2 ≤ cpus) :
    ∀ᵐ d ∂drawsLaw, ∃ (S : ℕ → TSet L) (ll : ℕ → ℝ),
      (∀ N, generateSet kind (fun j k => M.run k (fun i => d (j * (steps + 1) + i))) N false none (.int steps) geom = .ok (S N)) ∧
      (∀ N, M.iface.logLikelihoodMultiproc cpus (S N) = .ok (ll N)) ∧
      (∀ (m : ℕ) (M' : MC ℝ L m), M'.Stochastic → (∀ w : List L, w.length = steps + 1 → 0 < M.lik w → 0 < M'.lik w) →
        (∃ w : List L, w.length = steps + 1 ∧ M'.lik w ≠ M.lik w) →
        ∃ ll' : ℕ → ℝ, (∀ N, M'.iface.logLikelihoodMultiproc cpus (S N) = .ok (ll' N)) ∧ ∀ᶠ N in atTop, ll' N < ll N) ∧
      (∀ (m : ℕ) (M' : HMM ℝ L m), M'.alphabet.Nodup → M'.Stochastic →
        (∀ w : List L, w.length = steps + 1 → 0 < M.lik w → 0 < M'.lik w) →
        (∃ w : List L, w.length = steps + 1 ∧ M'.lik w ≠ M.lik w) →
        ∃ ll' : ℕ → ℝ, (∀ N, M'.iface.logLikelihoodMultiproc cpus (S N) = .ok (ll' N)) ∧ ∀ᶠ N in atTop, ll' N < ll N) := by
  filter_upwards [M.evaluation_limit hM kind steps hs geom cpus hc] with d hd
  obtain ⟨S, h1, h2, h3⟩ := hd
  obtain ⟨ll, e, hl⟩ := h2 n M
  refine ⟨S, ll, h1, e, fun m M' hM' habs ⟨w, hw, hne⟩ => ?_, fun m M' hn hM' habs ⟨w, hw, hne⟩ => ?_⟩
  · obtain ⟨ll', e', hl'⟩ := h2 m M'
    exact ⟨ll', e', hl'.eventually_lt hl ((M.traceDist hM steps).compare (M'.traceDist hM' steps) _
      (fun w hw => ((mem_tracesOver _ _ _).1 hw).1) (M.sum_lik hM steps) habs w hw hne)⟩
  · obtain ⟨ll', e', hl'⟩ := h3 m M' hn
    exact ⟨ll', e', hl'.eventually_lt hl ((M.traceDist hM steps).compare (M'.traceDist hn hM' (steps + 1) (by omega)) _
      (fun w hw => ((mem_tracesOver _ _ _).1 hw).1) (M.sum_lik hM steps) habs w hw hne)⟩

/-- A sufficient condition for the hypothesis of `evaluation_ranks`: the same labels, and every transition of `M` is possible in `M'`. -/
theorem possible_of_support (M M' : MC ℝ L n) (hM : M.Stochastic) (hM' : M'.Stochastic) (hl : M'.labelling = M.labelling)
    (hi : ∀ s, 0 < M.initialState s → 0 < M'.initialState s) (ha : ∀ s s', 0 < M.matrix s s' → 0 < M'.matrix s s') (w : List L)
    (h : 0 < M.lik w) : 0 < M'.lik w := by
  cases w with
  | nil => exact absurd h (lt_irrefl _)
  | cons o os =>
    unfold lik listProb at h ⊢
    dsimp only at h ⊢
    unfold traceProb at h ⊢
    have key : ∀ p : Fin (os.length + 1) → Fin n, 0 < M.initialState (p 0) * (∏ k : Fin os.length, M.matrix (p k.castSucc) (p k.succ)) *
        ∏ k : Fin (os.length + 1), (if M.labelling (p k) = (o :: os).get k then (1:ℝ) else 0) →
        0 < M'.initialState (p 0) * (∏ k : Fin os.length, M'.matrix (p k.castSucc) (p k.succ)) *
        ∏ k : Fin (os.length + 1), (if M'.labelling (p k) = (o :: os).get k then (1:ℝ) else 0) := by
      intro p hp
      have h1 := left_ne_zero_of_mul hp.ne'
      have h2 := right_ne_zero_of_mul hp.ne'
      have h3 := left_ne_zero_of_mul h1
      have h4 := right_ne_zero_of_mul h1
      rw [hl]
      refine mul_pos (mul_pos (hi _ (lt_of_le_of_ne (hM.1 _) h3.symm)) (Finset.prod_pos (fun k _ => ha _ _ ?_))) (Finset.prod_pos (fun k _ => ?_))
      · exact lt_of_le_of_ne (hM.2.2.1 _ _) (Finset.prod_ne_zero_iff.1 h4 k (Finset.mem_univ _)).symm
      · have := Finset.prod_ne_zero_iff.1 h2 k (Finset.mem_univ _)
        split_ifs with hc
        · norm_num
        · rw [if_neg hc] at this
          exact absurd rfl this
    have hex : ∃ p : Fin (os.length + 1) → Fin n, 0 < M.initialState (p 0) * (∏ k : Fin os.length, M.matrix (p k.castSucc) (p k.succ)) *
        ∏ k : Fin (os.length + 1), (if M.labelling (p k) = (o :: os).get k then (1:ℝ) else 0) := by
      by_contra hn
      push Not at hn
      exact absurd (Finset.sum_nonpos (fun p _ => hn p)) (not_le.2 h)
    obtain ⟨p, hp⟩ := hex
    refine Finset.sum_pos' (fun q _ => ?_) ⟨p, Finset.mem_univ _, key p hp⟩
    refine mul_nonneg (mul_nonneg (hM'.1 _) (Finset.prod_nonneg (fun _ _ => hM'.2.2.1 _ _))) (Finset.prod_nonneg (fun _ _ => ?_))
    dsimp only
    split_ifs <;> norm_num

/-- The chain with one state, of label `l`. -/
def single (l : L) : MC ℝ L 1 := ⟨fun _ _ => 1, fun _ => l, fun _ => 1⟩

theorem single_lik (l : L) (w : List L) : (single l).lik w = 0 ∨ (single l).lik w = 1 := by
  cases w with
  | nil => exact Or.inl rfl
  | cons o os =>
    unfold lik listProb
    dsimp only
    unfold traceProb
    rw [Fintype.sum_unique]
    by_cases h : ∀ k : Fin (os.length + 1), l = (o :: os).get k
    · right
      simp only [single, Finset.prod_const_one, one_mul]
      exact Finset.prod_eq_one (fun k _ => if_pos (h k))
    · left
      push Not at h
      obtain ⟨k, hk⟩ := h
      rw [Finset.prod_eq_zero (i := k) (Finset.mem_univ _), mul_zero]
      exact if_neg hk

/-- C85 fails without the hypothesis that the traces of `M` are possible: on a large enough set generated by any chain `M` that
is not deterministic, the chain with one state and an arbitrary label (even one that never occurs in the data) has a strictly larger log-likelihood
than `M`, because `logLikelihood` skips the impossible traces. -/
theorem evaluation_prefers_impossible (M : MC ℝ L n) (hM : M.Stochastic) (kind : L → Kind) (steps : ℕ) (hs : 1 ≤ steps)
    (geom : ℕ → ℕ) (cpus : ℕ) (hc : 2 ≤ cpus) (w : List L) (hw : w.length = steps + 1) (h0 : 0 < M.lik w) (h1 : M.lik w < 1) :
    ∀ᵐ d ∂drawsLaw, ∃ (S : ℕ → TSet L) (ll : ℕ → ℝ),
      (∀ N, generateSet kind (fun j k => M.run k (fun i => d (j * (steps + 1) + i))) N false none (.int steps) geom = .ok (S N)) ∧
      (∀ N, M.iface.logLikelihoodMultiproc cpus (S N) = .ok (ll N)) ∧
      ∀ l : L, ∃ ll' : ℕ → ℝ, (∀ N, (single l).iface.logLikelihoodMultiproc cpus (S N) = .ok (ll' N)) ∧ ∀ᶠ N in atTop, ll N < ll' N := by
  filter_upwards [M.evaluation_limit hM kind steps hs geom cpus hc] with d hd
  obtain ⟨S, g1, h2, -⟩ := hd
  obtain ⟨ll, e, hl⟩ := h2 n M
  refine ⟨S, ll, g1, e, fun l => ?_⟩
  obtain ⟨ll', e', hl'⟩ := h2 1 (single l)
  refine ⟨ll', e', hl.eventually_lt hl' ?_⟩
  have z : expectedLogLik (tracesOver (Finset.univ.image M.labelling) (steps + 1)) M.lik (single l).lik = 0 := by
    rw [expectedLogLik_eq]
    refine Finset.sum_eq_zero (fun v _ => ?_)
    rcases single_lik l v with h | h <;> simp [h]
  have hD := M.traceDist hM steps
  have hle : ∀ v ∈ tracesOver (Finset.univ.image M.labelling) (steps + 1), M.lik v * (if 0 < M.lik v then Real.log (M.lik v) else 0) ≤ 0 := by
    intro v hv
    have hv' := ((mem_tracesOver _ _ _).1 hv).1
    have p0 := hD.nonneg v hv'
    have p1 : M.lik v ≤ 1 := by simpa using hD.sum_le {v} (by simpa using hv')
    split_ifs
    · exact mul_nonpos_of_nonneg_of_nonpos p0 (Real.log_nonpos p0 p1)
    · simp
  have hmem : w ∈ tracesOver (Finset.univ.image M.labelling) (steps + 1) := by
    by_contra hn
    have := hD.sum_le (insert w (tracesOver (Finset.univ.image M.labelling) (steps + 1))) (by
      intro v hv
      rcases Finset.mem_insert.1 hv with rfl | hv
      · exact hw
      · exact ((mem_tracesOver _ _ _).1 hv).1)
    rw [Finset.sum_insert hn, M.sum_lik hM steps] at this
    linarith
  rw [z, expectedLogLik_eq]
  refine Finset.sum_neg' hle ⟨w, hmem, ?_⟩
  rw [if_pos h0]
  exact mul_neg_of_pos_of_neg h0 (Real.log_neg h0 h1)

end MC

namespace HMM

theorem generated (M : HMM ℝ L n) (hn : M.alphabet.Nodup) (hM : M.Stochastic) (kind : L → Kind) (steps : ℕ) (hs : 2 ≤ steps)
    (geom : ℕ → ℕ) :
    ∀ᵐ d ∂drawsLaw, ∃ S : ℕ → TSet L,
      (∀ N, generateSet kind (fun j k => M.run k (fun i => d (j * (2 * steps + 1) + i))) N false none (.int steps) geom = .ok (S N)) ∧
      (∀ N, (S N).Countable) ∧ (∀ N, (S N).times.sum = N) ∧
      (∀ N, ∀ w ∈ (S N).sequences, w ∈ tracesOver M.alphabet.toFinset steps) ∧
      ∀ w ∈ tracesOver M.alphabet.toFinset steps, Tendsto (fun N : ℕ => ((S N).mult w : ℝ) / N) atTop (𝓝 (M.lik w)) := by
  have h := (M.simulates hn hM steps).frequencies_stream (gen_counts kind _ (fun w hw => by have := hw.1; omega)) (Nat.succ_pos _)
    (M.run_reads steps)
  filter_upwards [h] with d hd
  obtain ⟨S, h1, h2⟩ := hd
  refine ⟨S, fun N => ?_, fun N => (h1 N).2.1, fun N => (h1 N).2.2.1, fun N w hw => ?_, fun w hw => ?_⟩
  · rw [gen_eq kind _ N false none (.int steps) geom (fun _ => steps) (fun _ => rfl)]
    exact (h1 N).1
  · obtain ⟨a, b⟩ := (h1 N).2.2.2 w hw
    exact (mem_tracesOver _ _ _).2 ⟨a, fun o ho => by simpa using b o ho⟩
  · have := h2 w
    obtain ⟨e, h0⟩ := M.run_lik hn hM steps (by omega) w ((mem_tracesOver _ _ _).1 hw).1
    rwa [e, ENNReal.toReal_ofReal h0] at this

theorem sum_lik (M : HMM ℝ L n) (hn : M.alphabet.Nodup) (hM : M.Stochastic) (steps : ℕ) (hs : 1 ≤ steps) :
    ∑ w ∈ tracesOver M.alphabet.toFinset steps, M.lik w = 1 := by
  refine TraceDist.sum_eq (M.simulates hn hM steps) _ _ (M.traceDist hn hM steps hs) (fun w hw => (M.run_lik hn hM steps hs w hw).1) _ ?_
    (fun w hw => ((mem_tracesOver _ _ _).1 hw).1)
  rintro w ⟨a, b⟩
  exact (mem_tracesOver _ _ _).2 ⟨a, fun o ho => by simpa using b o ho⟩

/-- C85, data of a hidden Markov model: the limit of the log-likelihoods. -/
theorem evaluation_limit (M : HMM ℝ L n) (hn : M.alphabet.Nodup) (hM : M.Stochastic) (kind : L → Kind) (steps : ℕ) (hs : 2 ≤ steps)
    (geom : ℕ → ℕ) (cpus : ℕ) (hc : 2 ≤ cpus) :
    ∀ᵐ d ∂drawsLaw, ∃ S : ℕ → TSet L,
      (∀ N, generateSet kind (fun j k => M.run k (fun i => d (j * (2 * steps + 1) + i))) N false none (.int steps) geom = .ok (S N)) ∧
      (∀ (m : ℕ) (M' : MC ℝ L m), ∃ ll : ℕ → ℝ, (∀ N, M'.iface.logLikelihoodMultiproc cpus (S N) = .ok (ll N)) ∧
        Tendsto ll atTop (𝓝 (expectedLogLik (tracesOver M.alphabet.toFinset steps) M.lik M'.lik))) ∧
      (∀ (m : ℕ) (M' : HMM ℝ L m), M'.alphabet.Nodup → ∃ ll : ℕ → ℝ, (∀ N, M'.iface.logLikelihoodMultiproc cpus (S N) = .ok (ll N)) ∧
        Tendsto ll atTop (𝓝 (expectedLogLik (tracesOver M.alphabet.toFinset steps) M.lik M'.lik))) := by
  obtain ⟨k, rfl⟩ : ∃ k, steps = k + 1 := ⟨steps - 1, by omega⟩
  filter_upwards [M.generated hn hM kind (k + 1) hs geom] with d hd
  obtain ⟨S, h1, h2, h3, h4, h5⟩ := hd
  exact ⟨S, h1, fun m M' => Iface.limit _ S _ _ _ cpus hc h2 h4 h3 h5 (fun w hw => M'.seqProb_eq_paths w (ne_nil_of_mem hw)),
    fun m M' hn => Iface.limit _ S _ _ _ cpus hc h2 h4 h3 h5 (fun w hw => M'.seqProb_lik hn w (ne_nil_of_mem hw))⟩

/-- C85, data of a hidden Markov model: on a large enough set, the generating model has the largest log-likelihood among the stochastic models
for which its traces are possible. -/
theorem evaluation_ranks (M : HMM ℝ L n) (hn : M.alphabet.Nodup) (hM : M.Stochastic) (kind : L → Kind) (steps : ℕ) (hs : 2 ≤ steps)
    (geom : ℕ → ℕ) (cpus : ℕ) (hc : 2 ≤ cpus) :
    ∀ᵐ d ∂drawsLaw, ∃ (S : ℕ → TSet L) (ll : ℕ → ℝ),
      (∀ N, generateSet kind (fun j k => M.run k (fun i => d (j * (2 * steps + 1) + i))) N false none (.int steps) geom = .ok (S N)) ∧
      (∀ N, M.iface.logLikelihoodMultiproc cpus (S N) = .ok (ll N)) ∧
      (∀ (m : ℕ) (M' : MC ℝ L m), M'.Stochastic → (∀ w : List L, w.length = steps → 0 < M.lik w → 0 < M'.lik w) →
        (∃ w : List L, w.length = steps ∧ M'.lik w ≠ M.lik w) →
        ∃ ll' : ℕ → ℝ, (∀ N, M'.iface.logLikelihoodMultiproc cpus (S N) = .ok (ll' N)) ∧ ∀ᶠ N in atTop, ll' N < ll N) ∧
      (∀ (m : ℕ) (M' : HMM ℝ L m), M'.alphabet.Nodup → M'.Stochastic →
        (∀ w : List L, w.length = steps → 0 < M.lik w → 0 < M'.lik w) →
        (∃ w : List L, w.length = steps ∧ M'.lik w ≠ M.lik w) →
        ∃ ll' : ℕ → ℝ, (∀ N, M'.iface.logLikelihoodMultiproc cpus (S N) = .ok (ll' N)) ∧ ∀ᶠ N in atTop, ll' N < ll N) := by
  obtain ⟨k, rfl⟩ : ∃ k, steps = k + 1 := ⟨steps - 1, by omega⟩
  filter_upwards [M.evaluation_limit hn hM kind (k + 1) hs geom cpus hc] with d hd
  obtain ⟨S, h1, h2, h3⟩ := hd
  obtain ⟨ll, e, hl⟩ := h3 n M hn
  refine ⟨S, ll, h1, e, fun m M' hM' habs ⟨w, hw, hne⟩ => ?_, fun m M' hn' hM' habs ⟨w, hw, hne⟩ => ?_⟩
  · obtain ⟨ll', e', hl'⟩ := h2 m M'
    exact ⟨ll', e', hl'.eventually_lt hl ((M.traceDist hn hM (k + 1) (by omega)).compare (M'.traceDist hM' k) _
      (fun w hw => ((mem_tracesOver _ _ _).1 hw).1) (M.sum_lik hn hM (k + 1) (by omega)) habs w hw hne)⟩
  · obtain ⟨ll', e', hl'⟩ := h3 m M' hn'
    exact ⟨ll', e', hl'.eventually_lt hl ((M.traceDist hn hM (k + 1) (by omega)).compare (M'.traceDist hn' hM' (k + 1) (by omega)) _
      (fun w hw => ((mem_tracesOver _ _ _).1 hw).1) (M.sum_lik hn hM (k + 1) (by omega)) habs w hw hne)⟩

end HMM

namespace MDP
variable {σ : Type} {sch : Sched ℝ L σ} {P : Policy σ L} {dom : σ → Prop}

theorem evaluation_limit_of_behaves (M : MDP ℝ L n) (hn : M.actions.Nodup) (hS : M.Stochastic) (hB : Behaves sch P dom)
    (kind : L → Kind) (steps : ℕ) (geom : ℕ → ℕ) (st0 : σ) (ht : drawsLaw {d | ∃ w, M.Returns sch steps st0 w d} = 1)
    (cpus : ℕ) (hc : 2 ≤ cpus) :
    ∀ᵐ D ∂callsLaw drawsLaw, ∃ S : ℕ → TSet L,
      (∀ N, ∃ tr, M.Collects sch steps st0 D N tr ∧ generateSetMDP kind (fun j _ => .ok (tr j)) N false none (.int steps) geom = .ok (S N)) ∧
      ∀ (m : ℕ) (M' : MDP ℝ L m), M'.actions.Nodup → M'.Stochastic → ∃ ll : ℕ → ℝ,
        (∀ N, 1 ≤ N → M'.logLikelihoodMultiproc cpus (S N) = .ok (ll N)) ∧
        Tendsto ll atTop (𝓝 (expectedLogLik (tracesOver (Finset.univ.image M.labelling ∪ M.actions.toFinset) (2 * steps + 1))
          (M.runProb P) M'.lik)) := by
  have hs := M.simulates hn hS hB steps st0 ht
  filter_upwards [hs.frequencies (genMDP_counts kind steps geom _), hs.all_ok] with D hD hok
  obtain ⟨S, h1, h2⟩ := hD
  have hF : ∀ N, ∀ w ∈ (S N).sequences, w ∈ tracesOver (Finset.univ.image M.labelling ∪ M.actions.toFinset) (2 * steps + 1) := by
    intro N w hw
    obtain ⟨a, b⟩ := (h1 N).2.2.2 w hw
    exact (mem_tracesOver _ _ _).2 ⟨a, fun o ho => by simpa using b o ho⟩
  refine ⟨S, fun N => ?_, fun m M' hn' hM' => ⟨fun N => avgLogLik M'.lik (S N), fun N hN => ?_, ?_⟩⟩
  · obtain ⟨tr, e1, e2⟩ := (M.generated_iff hB kind steps geom st0 D hok N (S N)).2 (h1 N).1
    exact ⟨tr, e1, e2⟩
  · exact M'.logLikelihood_spec hn' hM'.1 hM'.2.2.1 cpus hc (S N) (by rw [(h1 N).2.2.1]; omega) (fun w hw => by
      have := ((h1 N).2.2.2 w hw).1; omega)
  · refine avg_limit S _ _ _ (fun N => (h1 N).2.1) hF (fun N => (h1 N).2.2.1) (fun w hw => ?_)
    have hw' := ((mem_tracesOver _ _ _).1 hw).1
    have h3 := h2 w
    have hl := M.run_law_of_behaves hB hn hS steps st0 w hw'
    simp only [outcome_ok] at h3
    rwa [hl, ENNReal.toReal_ofReal (M.runProb_nonneg hS hB w (by omega))] at h3

/-- C85, data of an MDP under the uniform scheduler: the limit of the log-likelihood of every MDP. -/
theorem evaluation_limit_uniform (M : MDP ℝ L n) (hn : M.actions.Nodup) (hS : M.Stochastic) (acts : List L)
    (hne : acts ≠ []) (ha : ∀ s, ∃ x ∈ acts, M.Allowed s x) (kind : L → Kind) (steps : ℕ) (geom : ℕ → ℕ) (cpus : ℕ) (hc : 2 ≤ cpus) :
    ∀ᵐ D ∂callsLaw drawsLaw, ∃ S : ℕ → TSet L,
      (∀ N, ∃ tr, M.Collects (uniformScheduler acts) steps () D N tr ∧
        generateSetMDP kind (fun j _ => .ok (tr j)) N false none (.int steps) geom = .ok (S N)) ∧
      ∀ (m : ℕ) (M' : MDP ℝ L m), M'.actions.Nodup → M'.Stochastic → ∃ ll : ℕ → ℝ,
        (∀ N, 1 ≤ N → M'.logLikelihoodMultiproc cpus (S N) = .ok (ll N)) ∧
        Tendsto ll atTop (𝓝 (expectedLogLik (tracesOver (Finset.univ.image M.labelling ∪ M.actions.toFinset) (2 * steps + 1))
          (M.runProb (uniformPolicy acts)) M'.lik)) :=
  M.evaluation_limit_of_behaves hn hS (uniformScheduler_behaves acts hne) kind steps geom () (M.run_uniform_returns hn hS acts ha steps) cpus hc

/-- C85, data of an MDP under a finite-memory scheduler. -/
theorem evaluation_limit_fm (M : MDP ℝ L n) (hn : M.actions.Nodup) (hS : M.Stochastic) (F : FMScheduler ℝ L) (k : ℕ)
    (hF : FMValid F k) (ha : ∀ s, ∀ m < k, ∃ x, M.Allowed s x ∧ 0 < (fmPolicy F).propose m x) (kind : L → Kind) (steps : ℕ)
    (geom : ℕ → ℕ) (st0 : ℕ) (cpus : ℕ) (hc : 2 ≤ cpus) :
    ∀ᵐ D ∂callsLaw drawsLaw, ∃ S : ℕ → TSet L,
      (∀ N, ∃ tr, M.Collects F.sched steps st0 D N tr ∧
        generateSetMDP kind (fun j _ => .ok (tr j)) N false none (.int steps) geom = .ok (S N)) ∧
      ∀ (m : ℕ) (M' : MDP ℝ L m), M'.actions.Nodup → M'.Stochastic → ∃ ll : ℕ → ℝ,
        (∀ N, 1 ≤ N → M'.logLikelihoodMultiproc cpus (S N) = .ok (ll N)) ∧
        Tendsto ll atTop (𝓝 (expectedLogLik (tracesOver (Finset.univ.image M.labelling ∪ M.actions.toFinset) (2 * steps + 1))
          (M.runProb (fmPolicy F)) M'.lik)) :=
  M.evaluation_limit_of_behaves hn hS (fmScheduler_behaves F k hF) kind steps geom st0 (M.run_fm_returns hn hS F k hF ha steps st0) cpus hc

end MDP
end Jajapy
