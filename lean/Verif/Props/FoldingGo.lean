import Verif.Props.Folding
import Verif.Props.RenamingGo

/-!
Property C109, Gaussian-observation hidden Markov models.
-/

set_option linter.unusedSectionVars false
set_option autoImplicit false

namespace Jajapy

open Spec BW

namespace GoHMM
variable {m n d : ℕ} {f : Fin m → Fin n} {M : GoHMM m d} {M' : GoHMM n d}

theorem Folds.bEq (h : Folds f M M') (s : Fin m) (o : Fin d → ℝ) : M'.b (f s) o = M.b s o := by
  unfold GoHMM.b bn
  rw [h.mu, h.sigma]

theorem Folds.tau (h : Folds f M M') (s : Fin m) (t : Fin n) (o : Fin d → ℝ) : M'.tau (f s) t o = gather f (fun s' => M.tau s s' o) t := by
  unfold GoHMM.tau
  rw [h.bEq, h.matrix]
  unfold gather
  rw [Finset.sum_mul]

/-- C109, GoHMM: the likelihood of every trace and of every set. -/
theorem likelihood_folded (h : Folds f M M') : (∀ w, M'.iface.seqProb w = M.iface.seqProb w) ∧
    ∀ (S : TSet (Fin d → ℝ)) (cpus : ℕ), M'.iface.logLikelihoodMultiproc cpus S = M.iface.logLikelihoodMultiproc cpus S :=
  ⟨Iface.seqProb_fold h.tau h.bEq h.initial, fun S cpus => Iface.multiproc_fold h.tau h.bEq h.initial cpus S⟩

/-- The results of the workers agree. -/
structure WorkPart (f : Fin m → Fin n) (w : WorkGoHMM m d) (w' : WorkGoHMM n d) : Prop where
  den : ∀ s, w'.den (f s) = w.den s
  outside : ∀ t, (∀ s, f s ≠ t) → w'.den t = 0
  numA : ∀ s t, w'.numA (f s) t = gather f (w.numA s) t
  numMu : ∀ s i, w'.numMu (f s) i = w.numMu s i
  numVa : ∀ s i, w'.numVa (f s) i = w.numVa s i
  numInit : ∀ t, w'.numInit t = gather f w.numInit t
  proba : w'.proba = w.proba
  times : w'.times = w.times

/-- The parameters of the states outside (the standard deviations are replaced by their square roots at every iteration, see C34). -/
def Outside (f : Fin m → Fin n) (M0 M' : GoHMM n d) : Prop :=
  ∀ t, (∀ s, f s ≠ t) → M'.matrix t = M0.matrix t ∧ M'.mu t = M0.mu t

theorem work_part (hf : Function.Injective f) (processes : ℕ) (S : TSet (Fin d → ℝ)) (h : Folds f M M') :
    SameOutcome (List.Forall₂ (WorkPart f)) (workGoHMM processes S M) (workGoHMM processes S M') := by
  have ht := h.tau
  unfold workGoHMM
  refine collect_same _ _ ?_
  rw [List.forall₂_map_left_iff, List.forall₂_map_right_iff]
  refine (zip_same S).imp ?_
  rintro q p rfl
  unfold processWorkGoHMM
  dsimp only
  rw [lastSum_part hf ht p.1 M.initialState M'.initialState h.initial]
  by_cases h0 : lastSum (alphas M.tau M.initialState p.1) = 0
  · rw [if_pos h0, if_pos h0]
    exact Option.Rel.none
  · rw [if_neg h0, if_neg h0]
    refine Option.Rel.some ⟨fun s => ?_, fun t h1 => ?_, fun s t => ?_, fun s i => ?_, fun s i => ?_, fun t => ?_, rfl, rfl⟩
    · dsimp only
      exact visits_part hf ht (fun _ => 1) _ (fun _ => 1) (fun _ => 1) (fun _ => rfl) p.1 s _ _ h.initial
    · dsimp only
      exact visits_outside ht (fun _ => 1) _ (fun _ => 1) p.1 t h1 _ _ h.initial
    · dsimp only
      exact uses_part hf ht (fun _ => 1) _ (fun _ => 1) (fun _ => 1) (fun _ => rfl) p.1 s t _ _ h.initial
    · dsimp only
      exact visits_part hf ht (fun o => o i) _ (fun _ => 1) (fun _ => 1) (fun _ => rfl) p.1 s _ _ h.initial
    · dsimp only
      rw [h.mu]
      exact visits_part hf ht (fun o => (o i - M.mu s i) ^ 2) _ (fun _ => 1) (fun _ => 1) (fun _ => rfl) p.1 s _ _ h.initial
    · dsimp only
      by_cases h1 : ∀ s, f s ≠ t
      · rw [gather_outside _ t h1, alphas_headD, h.initial, gather_outside _ t h1]
        simp
      · push Not at h1
        obtain ⟨s, rfl⟩ := h1
        rw [gather_injective hf, alphas_headD, alphas_headD, betas_headD, betas_headD, h.initial, gather_injective hf,
          beta0_part hf ht p.1 (fun _ => 1) (fun _ => 1) (fun _ => rfl)]

theorem step_part (hf : Function.Injective f) (processes : ℕ) (S : TSet (Fin d → ℝ)) (M : GoHMM m d) (M0 M' : GoHMM n d)
    (h : Folds f M M' ∧ Outside f M0 M') :
    SameOutcome (fun x y => (Folds f x.1 y.1 ∧ Outside f M0 y.1) ∧ y.2 = x.2 + 0) (stepGoHMM processes S M) (stepGoHMM processes S M') := by
  obtain ⟨h, h0⟩ := h
  unfold stepGoHMM
  refine SameOutcome.bind (work_part hf processes S h) (fun l l' hl => ?_)
  have hden : ∀ s, (l'.map (fun w => w.den (f s))).sum = (l.map (fun w => w.den s)).sum := fun s => sum_same' hl (fun a b hab => hab.den s)
  have hden0 : ∀ t, (∀ s, f s ≠ t) → (l'.map (fun w => w.den t)).sum = 0 := by
    intro t ht0
    rw [sum_same' hl (g := fun _ => 0) (fun a b hab => hab.outside t ht0)]
    simp
  have hinit : ∀ s, (l'.map (fun w => w.numInit (f s))).sum = (l.map (fun w => w.numInit s)).sum :=
    fun s => sum_same' hl (fun a b hab => by rw [hab.numInit, gather_injective hf])
  have hinit0 : ∀ t, (∀ s, f s ≠ t) → (l'.map (fun w => w.numInit t)).sum = 0 := by
    intro t ht0
    rw [sum_same' hl (g := fun _ => 0) (fun a b hab => by rw [hab.numInit, gather_outside _ t ht0])]
    simp
  refine ⟨⟨⟨fun s => ?_, fun s => ?_, fun s t => ?_, fun t => ?_⟩, fun t ht0 => ?_⟩, ?_⟩
  · funext i
    simp only [updateGoHMM]
    rw [hden, sum_same' hl (g := fun w => w.numMu s i) (fun a b hab => hab.numMu s i), h.mu]
  · funext i
    simp only [updateGoHMM]
    rw [hden, sum_same' hl (g := fun w => w.numVa s i) (fun a b hab => hab.numVa s i), h.sigma]
  · simp only [updateGoHMM]
    rw [hden]
    split_ifs with hd
    · exact h.matrix s t
    · rw [gather_div]
      congr 1
      by_cases h1 : ∀ s, f s ≠ t
      · rw [gather_outside _ t h1, sum_same' hl (g := fun _ => 0) (fun a b hab => by rw [hab.numA s t, gather_outside _ t h1])]
        simp
      · push Not at h1
        obtain ⟨s', rfl⟩ := h1
        rw [gather_injective hf]
        exact sum_same' hl (fun a b hab => by rw [hab.numA s, gather_injective hf])
  · simp only [updateGoHMM]
    rw [gather_div]
    have hs : ∑ t, (l'.map (fun w => w.numInit t)).sum = ∑ s, (l.map (fun w => w.numInit s)).sum := sum_part hf _ _ hinit hinit0
    rw [hs]
    congr 1
    by_cases h1 : ∀ s, f s ≠ t
    · rw [gather_outside _ t h1, hinit0 t h1]
    · push Not at h1
      obtain ⟨s', rfl⟩ := h1
      rw [gather_injective hf, hinit]
  · obtain ⟨e1, e2⟩ := h0 t ht0
    refine ⟨?_, ?_⟩
    · funext t'
      simp only [updateGoHMM]
      rw [hden0 t ht0, if_pos rfl, e1]
    · funext i
      simp only [updateGoHMM]
      rw [hden0 t ht0, if_pos rfl, e2]
  · simp only [logLik, List.map_map, add_zero]
    exact sum_same' hl (fun a b hab => by simp [hab.proba, hab.times])

/-- C109, GoHMM: learning. -/
theorem fit_part (hf : Function.Injective f) (h : Folds f M M') (processes : ℕ) (S : TSet (Fin d → ℝ)) (epsilon : ℝ) (maxIt : ℕ) :
    SameOutcome (fun st st' => (Folds f st.h st'.h ∧ ∀ t, (∀ s, f s ≠ t) → st'.h.matrix t = M'.matrix t ∧ st'.h.mu t = M'.mu t) ∧
        st'.counter = st.counter ∧ st'.ll = st.ll)
      (fit (stepGoHMM processes S) epsilon maxIt M) (fit (stepGoHMM processes S) epsilon maxIt M') :=
  (fit_same (R := fun a b => Folds f a b ∧ Outside f M' b) (c := 0) (fun a b hab => step_part hf processes S a M' b hab)
    epsilon maxIt ⟨h, fun _ _ => ⟨rfl, rfl⟩⟩).mono (fun _ _ hl => ⟨hl.h, hl.counter, by rw [hl.ll]; simp⟩)

end GoHMM
end Jajapy
