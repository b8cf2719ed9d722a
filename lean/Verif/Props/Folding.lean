import Verif.Lemmas.Folding
import Verif.Props.Renaming

/-!
Property C109: states that behave the same count as one state, and states that cannot be reached do not matter.
-/

set_option linter.unusedSectionVars false
set_option autoImplicit false

namespace Jajapy

open Spec BW

/-! ### The abstract class -/

namespace Iface
variable {O : Type} {m n : ℕ} {f : Fin m → Fin n} {M : Iface ℝ O m} {M' : Iface ℝ O n}
  (ht : ∀ s t o, M'.tau (f s) t o = gather f (fun s' => M.tau s s' o) t) (hb : ∀ s o, M'.b (f s) o = M.b s o) (hi : ∀ t, M'.init t = gather f M.init t)

include ht hb in
theorem seqLoop_fold (os : List O) : ∀ (o : O) (v : Fin m → ℝ) (v' : Fin n → ℝ), (∀ t, v' t = gather f v t) → ∀ t,
    M'.seqLoop v' o os t = gather f (M.seqLoop v o os) t := by
  induction os with
  | nil =>
    intro o v v' hv t
    simp only [seqLoop, hv]
    rw [← gather_mul f v (fun t => M'.b t o)]
    simp only [hb]
  | cons o' os ih =>
    intro o v v' hv t
    rw [seqLoop, seqLoop]
    exact ih o' _ _ (fun t => fwd_fold ht v v' hv o t) t

include ht hb hi in
theorem seqProb_fold (w : List O) : M'.seqProb w = M.seqProb w := by
  cases w with
  | nil => rfl
  | cons o os =>
    rw [seqProb, seqProb]
    congr 1
    rw [← sum_gather f (M.seqLoop M.init o os)]
    exact Finset.sum_congr rfl (fun t _ => seqLoop_fold ht hb os o _ _ hi t)

include ht hb hi in
theorem multiproc_fold (cpus : ℕ) (S : TSet O) : M'.logLikelihoodMultiproc cpus S = M.logLikelihoodMultiproc cpus S := by
  have : (fun p : List O × ℕ => M'.computeAlphas p.1 p.2) = fun p => M.computeAlphas p.1 p.2 := by
    funext p
    unfold computeAlphas
    rw [seqProb_fold ht hb hi]
  unfold logLikelihoodMultiproc
  rw [this]

include ht hi in
theorem oneproc_fold [LinearOrder O] (S : TSet O) (hlen : S.times.length = S.sequences.length) :
    M'.logLikelihoodOneproc S = M.logLikelihoodOneproc S := by
  by_cases h0 : S.sequences = []
  · have e1 : ∀ {n : ℕ} (M : Iface ℝ O n), M.logLikelihoodOneproc S = .error .indexError := by
      intro n M
      have : S.sort.sequences = [] := by
        unfold TSet.sort
        simp [h0]
      unfold logLikelihoodOneproc
      dsimp only
      rw [this]
    rw [e1, e1]
  · rw [M.oneproc_eq (fun w => ∑ s, w.foldl M.fwdStep M.init s) S h0 hlen (fun _ _ => rfl),
      M'.oneproc_eq (fun w => ∑ s, w.foldl M'.fwdStep M'.init s) S h0 hlen (fun _ _ => rfl)]
    congr 1
    have : (fun w : List O => ∑ s, w.foldl M'.fwdStep M'.init s) = fun w => ∑ s, w.foldl M.fwdStep M.init s := by
      funext w
      rw [← sum_gather f (w.foldl M.fwdStep M.init)]
      exact Finset.sum_congr rfl (fun t _ => foldl_fold ht w _ _ hi t)
    rw [this]

end Iface

theorem zip_same {O : Type} (S : TSet O) : List.Forall₂ (fun p q : List O × ℕ => q = p) (S.sequences.zip S.times) (S.sequences.zip S.times) :=
  List.forall₂_same.2 (fun _ _ => rfl)

/-! ### Markov chains -/

namespace MC
variable {L : Type} [DecidableEq L] {m n : ℕ} {f : Fin m → Fin n} {M : MC ℝ L m} {M' : MC ℝ L n}

theorem Folds.tau (h : Folds f M M') (s : Fin m) (t : Fin n) (o : L) : M'.tau (f s) t o = gather f (fun s' => M.tau s s' o) t := by
  unfold MC.tau
  rw [h.labelling]
  by_cases ho : o = M.labelling s
  · simp only [ho, ne_eq, not_true_eq_false, if_false]
    exact h.matrix s t
  · simp only [ne_eq, ho, not_false_eq_true, if_true]
    rw [gather_zero]

/-- C109, Markov chain: the likelihood of every trace and of every set. -/
theorem likelihood_folded (h : Folds f M M') : (∀ w, M'.iface.seqProb w = M.iface.seqProb w) ∧
    ∀ (S : TSet L) (cpus : ℕ), M'.iface.logLikelihoodMultiproc cpus S = M.iface.logLikelihoodMultiproc cpus S := by
  have hb : ∀ s o, M'.iface.b (f s) o = M.iface.b s o := by
    intro s o
    simp only [iface, MC.b, h.labelling]
  exact ⟨Iface.seqProb_fold h.tau hb h.initial, fun S cpus => Iface.multiproc_fold h.tau hb h.initial cpus S⟩

theorem oneproc_folded {L : Type} [LinearOrder L] {M : MC ℝ L m} {M' : MC ℝ L n} (h : Folds f M M') (S : TSet L) (hlen : S.times.length = S.sequences.length) :
    M'.iface.logLikelihoodOneproc S = M.iface.logLikelihoodOneproc S :=
  Iface.oneproc_fold h.tau h.initial S hlen

theorem step_part (hf : Function.Injective f) (processes : ℕ) (S : TSet L) (M : MC ℝ L m) (M0 M' : MC ℝ L n)
    (h : Folds f M M' ∧ ∀ t, (∀ s, f s ≠ t) → M'.matrix t = M0.matrix t) :
    SameOutcome (fun a b => (Folds f a.1 b.1 ∧ ∀ t, (∀ s, f s ≠ t) → b.1.matrix t = M0.matrix t) ∧ b.2 = a.2 + 0) (stepMC processes S M) (stepMC processes S M') := by
  obtain ⟨h, h0⟩ := h
  have ht := h.tau
  unfold stepMC workMC
  refine SameOutcome.bind (R := List.Forall₂ (fun (w : WorkMC ℝ m) (w' : WorkMC ℝ n) => (∀ s, w'.den (f s) = w.den s) ∧
    (∀ s t, w'.num (f s) t = gather f (w.num s) t) ∧ (∀ t, (∀ s, f s ≠ t) → w'.den t = 0) ∧ w'.proba = w.proba ∧ w'.times = w.times)) (collect_same _ _ ?_) ?_
  · rw [List.forall₂_map_left_iff, List.forall₂_map_right_iff]
    refine (zip_same S).imp ?_
    rintro q p rfl
    unfold processWorkMC
    dsimp only
    rw [lastSum_part hf ht p.1 M.initialState M'.initialState h.initial]
    split_ifs
    · exact Option.Rel.none
    · refine Option.Rel.some ⟨fun s => ?_, fun s t => ?_, fun t h0 => ?_, rfl, rfl⟩
      · dsimp only
        exact visits_part hf ht (fun _ => 1) _ (fun _ => 1) (fun _ => 1) (fun _ => rfl) p.1 s _ _ h.initial
      · dsimp only
        exact uses_part hf ht (fun _ => 1) _ (fun _ => 1) (fun _ => 1) (fun _ => rfl) p.1 s t _ _ h.initial
      · dsimp only
        exact visits_outside ht (fun _ => 1) _ (fun _ => 1) p.1 t h0 _ _ h.initial
  · intro l l' hl
    have hden : ∀ s, (l'.map (fun w => w.den (f s))).sum = (l.map (fun w => w.den s)).sum := fun s => sum_same' hl (fun a b hab => hab.1 s)
    refine ⟨⟨⟨h.labelling, fun s t => ?_, h.initial⟩, fun t ht0 => ?_⟩, ?_⟩
    · simp only [updateMC]
      rw [hden]
      split_ifs with hd
      · exact h.matrix s t
      · rw [gather_div]
        congr 1
        by_cases h1 : ∀ s, f s ≠ t
        · rw [gather_outside _ t h1, sum_same' hl (g := fun _ => 0) (fun a b hab => by rw [hab.2.1 s t, gather_outside _ t h1])]
          simp
        · push Not at h1
          obtain ⟨s', rfl⟩ := h1
          rw [gather_injective hf]
          exact sum_same' hl (fun a b hab => by rw [hab.2.1 s, gather_injective hf])
    · funext t'
      simp only [updateMC]
      rw [sum_same' hl (g := fun _ => 0) (fun a b hab => hab.2.2.1 t ht0)]
      simp only [List.map_const', List.sum_replicate, smul_zero, if_true]
      exact congrFun (h0 t ht0) t'
    · simp only [logLik, List.map_map, add_zero]
      exact sum_same' hl (fun a b hab => by simp [hab.2.2.2.1, hab.2.2.2.2])

/-- C109, Markov chain: learning. The states that cannot be reached do not change what is learnt for the others; their rows are not changed. -/
theorem fit_part (hf : Function.Injective f) (h : Folds f M M') (processes : ℕ) (S : TSet L) (epsilon : ℝ) (maxIt : ℕ) :
    SameOutcome (fun st st' => (Folds f st.h st'.h ∧ ∀ t, (∀ s, f s ≠ t) → st'.h.matrix t = M'.matrix t) ∧ st'.counter = st.counter ∧ st'.ll = st.ll)
      (fit (stepMC processes S) epsilon maxIt M) (fit (stepMC processes S) epsilon maxIt M') :=
  (fit_same (R := fun a b => Folds f a b ∧ ∀ t, (∀ s, f s ≠ t) → b.matrix t = M'.matrix t) (c := 0)
    (fun a b hab => step_part hf processes S a M' b hab) epsilon maxIt ⟨h, fun _ _ => rfl⟩).mono (fun _ _ hl => ⟨hl.h, hl.counter, by rw [hl.ll]; simp⟩)

end MC

/-! ### Hidden Markov models -/

namespace HMM
variable {L : Type} [DecidableEq L] {m n : ℕ} {f : Fin m → Fin n} {M : HMM ℝ L m} {M' : HMM ℝ L n}

theorem Folds.b (h : Folds f M M') (hn : M.alphabet.Nodup) (s : Fin m) (o : L) : M'.b (f s) o = M.b s o := by
  rw [M.b_eq_emit hn, M'.b_eq_emit (h.alphabet.nodup_iff.2 hn), h.emit]

theorem Folds.tau (h : Folds f M M') (hn : M.alphabet.Nodup) (s : Fin m) (t : Fin n) (o : L) : M'.tau (f s) t o = gather f (fun s' => M.tau s s' o) t := by
  unfold HMM.tau
  rw [h.b hn, h.matrix]
  unfold gather
  rw [Finset.sum_mul]

/-- C109, hidden Markov model: the likelihood of every trace and of every set. -/
theorem likelihood_folded (h : Folds f M M') (hn : M.alphabet.Nodup) : (∀ w, M'.iface.seqProb w = M.iface.seqProb w) ∧
    ∀ (S : TSet L) (cpus : ℕ), M'.iface.logLikelihoodMultiproc cpus S = M.iface.logLikelihoodMultiproc cpus S :=
  ⟨Iface.seqProb_fold (h.tau hn) (h.b hn) h.initial, fun S cpus => Iface.multiproc_fold (h.tau hn) (h.b hn) h.initial cpus S⟩

theorem oneproc_folded {L : Type} [LinearOrder L] {M : HMM ℝ L m} {M' : HMM ℝ L n} (h : Folds f M M') (hn : M.alphabet.Nodup) (S : TSet L)
    (hlen : S.times.length = S.sequences.length) : M'.iface.logLikelihoodOneproc S = M.iface.logLikelihoodOneproc S :=
  Iface.oneproc_fold (h.tau hn) h.initial S hlen

/-- The results of the workers agree. -/
def WorkPart (f : Fin m → Fin n) (A A' : List L) (w : WorkHMM ℝ m A.length) (w' : WorkHMM ℝ n A'.length) : Prop :=
  (∀ s, w'.den (f s) = w.den s) ∧ (∀ s t, w'.numA (f s) t = gather f (w.numA s) t) ∧ w'.proba = w.proba ∧ w'.times = w.times ∧
  (∀ t, w'.numInit t = gather f w.numInit t) ∧ (∀ s (i : Fin A.length) (i' : Fin A'.length), A'[i'] = A[i] → w'.numB (f s) i' = w.numB s i) ∧
  ∀ t, (∀ s, f s ≠ t) → w'.den t = 0

theorem step_part (hf : Function.Injective f) (processes : ℕ) (S : TSet L) (M : HMM ℝ L m) (M0 M' : HMM ℝ L n)
    (h : Folds f M M' ∧ M.alphabet.Nodup ∧ ∀ t, (∀ s, f s ≠ t) → M'.matrix t = M0.matrix t ∧ ∀ o, M'.emit t o = M0.emit t o) :
    SameOutcome (fun a b => (Folds f a.1 b.1 ∧ a.1.alphabet.Nodup ∧ ∀ t, (∀ s, f s ≠ t) → b.1.matrix t = M0.matrix t ∧ ∀ o, b.1.emit t o = M0.emit t o) ∧
      b.2 = a.2 + 0) (stepHMM processes S M) (stepHMM processes S M') := by
  obtain ⟨h, hn, h0⟩ := h
  have hn' : M'.alphabet.Nodup := h.alphabet.nodup_iff.2 hn
  have ht := h.tau hn
  unfold stepHMM workHMM
  refine SameOutcome.bind (R := List.Forall₂ (WorkPart f M.alphabet M'.alphabet)) (collect_same _ _ ?_) ?_
  · rw [List.forall₂_map_left_iff, List.forall₂_map_right_iff]
    refine (zip_same S).imp ?_
    rintro q p rfl
    unfold processWorkHMM
    dsimp only
    rw [lastSum_part hf ht p.1 M.initialState M'.initialState h.initial]
    split_ifs
    · exact Option.Rel.none
    · refine Option.Rel.some ⟨fun s => ?_, fun s t => ?_, rfl, rfl, fun t => ?_, fun s i i' hi => ?_, fun t h0 => ?_⟩
      · dsimp only
        exact visits_part hf ht (fun _ => 1) _ (fun _ => 1) (fun _ => 1) (fun _ => rfl) p.1 s _ _ h.initial
      · dsimp only
        exact uses_part hf ht (fun _ => 1) _ (fun _ => 1) (fun _ => 1) (fun _ => rfl) p.1 s t _ _ h.initial
      · dsimp only
        by_cases h1 : ∀ s, f s ≠ t
        · rw [gather_outside _ t h1, alphas_headD, h.initial, gather_outside _ t h1]
          simp
        · push Not at h1
          obtain ⟨s, rfl⟩ := h1
          rw [gather_injective hf, alphas_headD, alphas_headD, betas_headD, betas_headD, h.initial, gather_injective hf,
            beta0_part hf ht p.1 (fun _ => 1) (fun _ => 1) (fun _ => rfl)]
      · dsimp only
        rw [hi]
        exact visits_part hf ht _ _ (fun _ => 1) (fun _ => 1) (fun _ => rfl) p.1 s _ _ h.initial
      · dsimp only
        exact visits_outside ht (fun _ => 1) _ (fun _ => 1) p.1 t h0 _ _ h.initial
  · intro l l' hl
    have hden : ∀ s, (l'.map (fun w => w.den (f s))).sum = (l.map (fun w => w.den s)).sum := fun s => sum_same' hl (fun a b hab => hab.1 s)
    have hden0 : ∀ t, (∀ s, f s ≠ t) → (l'.map (fun w => w.den t)).sum = 0 := by
      intro t ht0
      rw [sum_same' hl (g := fun _ => 0) (fun a b hab => hab.2.2.2.2.2.2 t ht0)]
      simp
    have hinit : ∀ s, (l'.map (fun w => w.numInit (f s))).sum = (l.map (fun w => w.numInit s)).sum :=
      fun s => sum_same' hl (fun a b hab => by rw [hab.2.2.2.2.1, gather_injective hf])
    have hinit0 : ∀ t, (∀ s, f s ≠ t) → (l'.map (fun w => w.numInit t)).sum = 0 := by
      intro t ht0
      rw [sum_same' hl (g := fun _ => 0) (fun a b hab => by rw [hab.2.2.2.2.1, gather_outside _ t ht0])]
      simp
    refine ⟨⟨⟨h.alphabet, fun s o => ?_, fun s t => ?_, fun t => ?_⟩, hn, fun t ht0 => ⟨?_, fun o => ?_⟩⟩, ?_⟩
    · have e1 : (updateHMM M' l').emit (f s) o = (updateHMM M' l').b (f s) o := ((updateHMM M' l').b_eq_emit hn' _ _).symm
      have e2 : (updateHMM M l).emit s o = (updateHMM M l).b s o := ((updateHMM M l).b_eq_emit hn _ _).symm
      rw [e1, e2]
      have hb := h.b hn s o
      unfold HMM.b at hb ⊢
      simp only [updateHMM]
      by_cases ho : o ∈ M.alphabet
      · have ho' : o ∈ M'.alphabet := h.alphabet.mem_iff.2 ho
        rw [dif_pos ho, dif_pos ho'] at hb ⊢
        have hB := sum_same' hl (g := fun w => w.numB s ⟨M.alphabet.idxOf o, List.idxOf_lt_length_of_mem ho⟩)
          (g' := fun w => w.numB (f s) ⟨M'.alphabet.idxOf o, List.idxOf_lt_length_of_mem ho'⟩)
          (fun a b hab => hab.2.2.2.2.2.1 s _ _ (by simp))
        simp only [hden]
        split_ifs
        · exact hb
        · exact congrArg (· / _) hB
      · have ho' : o ∉ M'.alphabet := fun hc => ho (h.alphabet.mem_iff.1 hc)
        rw [dif_neg ho, dif_neg ho']
    · simp only [updateHMM]
      rw [hden]
      split_ifs with hd
      · exact h.matrix s t
      · rw [gather_div]
        congr 1
        by_cases h1 : ∀ s, f s ≠ t
        · rw [gather_outside _ t h1, sum_same' hl (g := fun _ => 0) (fun a b hab => by rw [hab.2.1 s t, gather_outside _ t h1])]
          simp
        · push Not at h1
          obtain ⟨s', rfl⟩ := h1
          rw [gather_injective hf]
          exact sum_same' hl (fun a b hab => by rw [hab.2.1 s, gather_injective hf])
    · simp only [updateHMM]
      rw [gather_div]
      have hs : ∑ t, (l'.map (fun w => w.numInit t)).sum = ∑ s, (l.map (fun w => w.numInit s)).sum := sum_part hf _ _ hinit hinit0
      rw [hs]
      congr 1
      by_cases h1 : ∀ s, f s ≠ t
      · rw [gather_outside _ t h1, hinit0 t h1]
      · push Not at h1
        obtain ⟨s', rfl⟩ := h1
        rw [gather_injective hf, hinit]
    · funext t'
      simp only [updateHMM]
      rw [hden0 t ht0, if_pos rfl]
      exact congrFun (h0 t ht0).1 t'
    · rw [← (h0 t ht0).2 o, ← M'.b_eq_emit hn']
      have e1 : (updateHMM M' l').emit t o = (updateHMM M' l').b t o := ((updateHMM M' l').b_eq_emit hn' _ _).symm
      rw [e1]
      unfold HMM.b
      simp only [updateHMM, hden0 t ht0, if_true]
    · simp only [logLik, List.map_map, add_zero]
      exact sum_same' hl (fun a b hab => by simp [hab.2.2.1, hab.2.2.2.1])

/-- C109, hidden Markov model: learning. -/
theorem fit_part (hf : Function.Injective f) (h : Folds f M M') (hn : M.alphabet.Nodup) (processes : ℕ) (S : TSet L) (epsilon : ℝ) (maxIt : ℕ) :
    SameOutcome (fun st st' => (Folds f st.h st'.h ∧ ∀ t, (∀ s, f s ≠ t) → st'.h.matrix t = M'.matrix t ∧ ∀ o, st'.h.emit t o = M'.emit t o) ∧
        st'.counter = st.counter ∧ st'.ll = st.ll)
      (fit (stepHMM processes S) epsilon maxIt M) (fit (stepHMM processes S) epsilon maxIt M') :=
  (fit_same (R := fun a b => Folds f a b ∧ a.alphabet.Nodup ∧ ∀ t, (∀ s, f s ≠ t) → b.matrix t = M'.matrix t ∧ ∀ o, b.emit t o = M'.emit t o) (c := 0)
    (fun a b hab => step_part hf processes S a M' b hab) epsilon maxIt ⟨h, hn, fun _ _ => ⟨rfl, fun _ => rfl⟩⟩).mono
    (fun _ _ hl => ⟨⟨hl.h.1, hl.h.2.2⟩, hl.counter, by rw [hl.ll]; simp⟩)

end HMM
end Jajapy
