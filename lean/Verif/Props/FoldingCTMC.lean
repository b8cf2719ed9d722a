import Verif.Props.Folding
import Verif.Props.RenamingCTMC

/-!
Property C109, continuous-time Markov chains.
-/

set_option linter.unusedSectionVars false
set_option autoImplicit false

namespace Jajapy

open Spec BW

namespace CTMC
variable {L : Type} [DecidableEq L] {m n : ℕ} {f : Fin m → Fin n} {M : CTMC ℝ L m} {M' : CTMC ℝ L n}

theorem Folds.e (h : Folds f M M') (s : Fin m) : M'.e (f s) = M.e s := by
  unfold CTMC.e
  simp only [h.matrix]
  exact sum_gather f (M.matrix s)

theorem Folds.b (h : Folds f M M') (s : Fin m) (o : L) : M'.b (f s) o = M.b s o := by
  unfold CTMC.b
  simp only [h.labelling]

theorem Folds.tau (h : Folds f M M') (s : Fin m) (t : Fin n) (o : L) : M'.tau (f s) t o = gather f (fun s' => M.tau s s' o) t := by
  unfold CTMC.tau CTMC.l
  rw [h.labelling, h.e, gather_div]
  congr 1
  split_ifs
  · rw [gather_zero]
  · exact h.matrix s t

theorem Folds.tauTimed (h : Folds f M M') (s : Fin m) (t : Fin n) (p : Sym L × ℝ) :
    M'.tauTimed (f s) t p = gather f (fun s' => M.tauTimed s s' p) t := by
  unfold CTMC.tauTimed
  rw [h.labelling, h.e, h.matrix]
  split_ifs
  · rw [zero_mul, gather_zero]
  · unfold gather
    rw [Finset.sum_mul]

theorem Folds.maskTimed (h : Folds f M M') (o : Sym L) (s : Fin m) : M'.maskTimed o (f s) = M.maskTimed o s := by
  unfold CTMC.maskTimed
  rw [h.labelling]

/-- C109: the time spent in a state. -/
theorem waiting_folded (h : Folds f M M') (s : Fin m) : M'.expectedTime (f s) = M.expectedTime s ∧ ∀ t, M'.lkl (f s) t = M.lkl s t := by
  refine ⟨?_, fun t => ?_⟩
  · unfold expectedTime
    rw [h.e]
  · unfold lkl
    rw [h.e]

/-- C109, CTMC: the likelihood of untimed traces. -/
theorem likelihood_folded (h : Folds f M M') : (∀ w, M'.iface.seqProb w = M.iface.seqProb w) ∧
    ∀ (S : TSet L) (cpus : ℕ), M'.iface.logLikelihoodMultiproc cpus S = M.iface.logLikelihoodMultiproc cpus S :=
  ⟨Iface.seqProb_fold h.tau h.b h.initial, fun S cpus => Iface.multiproc_fold h.tau h.b h.initial cpus S⟩

theorem oneproc_folded {L : Type} [LinearOrder L] {M : CTMC ℝ L m} {M' : CTMC ℝ L n} (h : Folds f M M') (S : TSet L)
    (hlen : S.times.length = S.sequences.length) : M'.iface.logLikelihoodOneproc S = M.iface.logLikelihoodOneproc S :=
  Iface.oneproc_fold h.tau h.initial S hlen

/-- C109, CTMC: the density of timed traces. -/
theorem timedSum_folded (h : Folds f M M') (w : List (Sym L)) : M'.timedSum w = M.timedSum w := by
  unfold timedSum
  cases splitTimed w with
  | error e => rfl
  | ok r =>
    simp only [bind, Except.bind, pure, Except.pure]
    congr 1
    have e : ∀ t, (List.foldl (fun v p s => ∑ ss, v ss * M'.tauTimed ss s p) M'.initialState r.1) t
        = gather f (List.foldl (fun v p s => ∑ ss, v ss * M.tauTimed ss s p) M.initialState r.1) t :=
      foldl_fold h.tauTimed r.1 M.initialState M'.initialState h.initial
    refine (Finset.sum_congr rfl (fun t _ => congrArg (· * M'.maskTimed r.2 t) (e t))).trans ?_
    refine (sum_gather_mul f _ (fun t => M'.maskTimed r.2 t)).trans ?_
    exact Finset.sum_congr rfl (fun s _ => by rw [h.maskTimed])

theorem timedLikelihood_folded (h : Folds f M M') (cpus : ℕ) (S : TSet (Sym L)) : M'.logLikelihoodTimed cpus S = M.logLikelihoodTimed cpus S := by
  have : (fun p : List (Sym L) × ℕ => M'.computeAlphasTimed p.1 p.2) = fun p => M.computeAlphasTimed p.1 p.2 := by
    funext p
    unfold computeAlphasTimed
    rw [timedSum_folded h]
  unfold logLikelihoodTimed
  rw [this]

/-! ### Learning -/

/-- The results of the workers agree. -/
structure WorkPart (f : Fin m → Fin n) (w : WorkCTMC m) (w' : WorkCTMC n) : Prop where
  den : ∀ s, w'.den (f s) = w.den s
  num : ∀ s t, w'.num (f s) t = gather f (w.num s) t
  outside : ∀ t, (∀ s, f s ≠ t) → w'.den t = 0
  proba : w'.proba = w.proba
  times : w'.times = w.times

/-- The rows of the states outside, if none of their rates is fixed. -/
def Outside (f : Fin m → Fin n) (fixed' : Fin n → Fin n → Bool) (M0 M' : CTMC ℝ L n) : Prop :=
  ∀ t, (∀ s, f s ≠ t) → (∀ t', fixed' t t' = false) → M'.matrix t = M0.matrix t

theorem stepOf_part (hf : Function.Injective f) (M0 : CTMC ℝ L n) (h : Folds f M M') (processes : ℕ) (fixed : Fin m → Fin m → Bool)
    (fixed' : Fin n → Fin n → Bool) (hfx : ∀ s ss, fixed' (f s) (f ss) = fixed s ss) (h0 : Outside f fixed' M0 M') {res : Py (List (Option (WorkCTMC m)))}
    {res' : Py (List (Option (WorkCTMC n)))} (hr : SameOutcome (List.Forall₂ (Option.Rel (WorkPart f))) res res') :
    SameOutcome (fun x y => (Folds f x.1 y.1 ∧ Outside f fixed' M0 y.1) ∧ y.2 = x.2 + 0) (stepOf processes M fixed res) (stepOf processes M' fixed' res') := by
  unfold stepOf
  refine SameOutcome.bind hr (fun l l' hl => SameOutcome.bind (collect_same _ _ hl) (fun l l' hl => ?_))
  refine ⟨⟨⟨h.labelling, fun s t => ?_, h.initial⟩, fun t ht0 hfx0 => ?_⟩, ?_⟩
  · have hden : (l'.map (fun w => w.den (f s))).sum = (l.map (fun w => w.den s)).sum := sum_same' hl (fun a b hab => hab.den s)
    have hm := h.matrix s t
    by_cases h1 : ∀ s, f s ≠ t
    · rw [gather_outside _ t h1] at hm
      have hnum : (l'.map (fun w => w.num (f s) t)).sum = 0 := by
        rw [sum_same' hl (g := fun _ => 0) (fun a b hab => by rw [hab.num s t, gather_outside _ t h1])]
        simp
      rw [gather_outside _ t h1]
      simp only [updateCTMC]
      rw [hm, hnum]
      simp
    · push Not at h1
      obtain ⟨s', rfl⟩ := h1
      rw [gather_injective hf] at hm ⊢
      have hnum : (l'.map (fun w => w.num (f s) (f s'))).sum = (l.map (fun w => w.num s s')).sum :=
        sum_same' hl (fun a b hab => by rw [hab.num s, gather_injective hf])
      simp only [updateCTMC]
      rw [hden, hnum, hfx, hm]
  · funext t'
    rw [← h0 t ht0 hfx0]
    simp only [updateCTMC, hfx0]
    rw [sum_same' hl (g := fun _ => 0) (fun a b hab => hab.outside t ht0)]
    simp
  · simp only [logLik, List.map_map, add_zero]
    exact sum_same' hl (fun a b hab => by simp [hab.proba, hab.times])

theorem step_part (hf : Function.Injective f) (processes : ℕ) (fixed : Fin m → Fin m → Bool)
    (fixed' : Fin n → Fin n → Bool) (hfx : ∀ s ss, fixed' (f s) (f ss) = fixed s ss) (S : TSet (Sym L)) (M : CTMC ℝ L m) (M0 M' : CTMC ℝ L n)
    (h : Folds f M M' ∧ Outside f fixed' M0 M') :
    SameOutcome (fun x y => (Folds f x.1 y.1 ∧ Outside f fixed' M0 y.1) ∧ y.2 = x.2 + 0) (stepTimed processes fixed S M) (stepTimed processes fixed' S M') := by
  obtain ⟨h, h0⟩ := h
  unfold stepTimed
  refine stepOf_part hf M0 h processes fixed fixed' hfx h0 (mapM_same (zip_same S) ?_)
  rintro q p rfl
  unfold processWorkTimed
  dsimp only
  by_cases h2 : p.1.length < 2
  · rw [if_pos h2, if_pos h2]; rfl
  rw [if_neg h2, if_neg h2]
  cases splitTimed p.1 with
  | error e => rfl
  | ok r =>
    dsimp only
    by_cases h3 : p.1.length % 2 = 0
    · rw [if_pos h3, if_pos h3]; rfl
    rw [if_neg h3, if_neg h3, lastSum_mask_part hf h.tauTimed r.1 M.initialState M'.initialState h.initial (M.maskTimed r.2) (M'.maskTimed r.2) (h.maskTimed r.2)]
    by_cases hz : lastSum (maskLast (M.maskTimed r.2) (alphas M.tauTimed M.initialState r.1)) = 0
    · rw [if_pos hz, if_pos hz]
      exact Option.Rel.none
    · rw [if_neg hz, if_neg hz]
      refine Option.Rel.some ⟨fun s => ?_, fun s t => ?_, fun t ht0 => ?_, rfl, rfl⟩
      · dsimp only
        rw [visits_mask, visits_mask]
        exact visits_part hf h.tauTimed (fun x => x.2) _ (M.maskTimed r.2) (M'.maskTimed r.2) (h.maskTimed r.2) r.1 s _ _ h.initial
      · have key := uses_part hf h.tauTimed (fun _ => 1) (p.2 / lastSum (maskLast (M.maskTimed r.2) (alphas M.tauTimed M.initialState r.1)))
          (M.maskTimed r.2) (M'.maskTimed r.2) (h.maskTimed r.2) r.1 s t _ _ h.initial
        dsimp only
        by_cases h1 : ∀ s, f s ≠ t
        · rw [gather_outside _ t h1] at key ⊢
          rw [uses_mask, key, ite_self]
        · push Not at h1
          obtain ⟨s', rfl⟩ := h1
          rw [gather_injective hf] at key ⊢
          rw [uses_mask, uses_mask, key, hfx]
      · dsimp only
        rw [visits_mask]
        exact visits_outside h.tauTimed (fun x => x.2) _ (M'.maskTimed r.2) r.1 t ht0 _ _ h.initial

/-- C109, CTMC: learning from timed traces. -/
theorem fit_part (hf : Function.Injective f) (h : Folds f M M') (processes : ℕ) (fixed : Fin m → Fin m → Bool)
    (fixed' : Fin n → Fin n → Bool) (hfx : ∀ s ss, fixed' (f s) (f ss) = fixed s ss) (S : TSet (Sym L)) (epsilon : ℝ) (maxIt : ℕ) :
    SameOutcome (fun st st' => (Folds f st.h st'.h ∧ ∀ t, (∀ s, f s ≠ t) → (∀ t', fixed' t t' = false) → st'.h.matrix t = M'.matrix t) ∧
        st'.counter = st.counter ∧ st'.ll = st.ll)
      (fit (stepTimed processes fixed S) epsilon maxIt M) (fit (stepTimed processes fixed' S) epsilon maxIt M') :=
  (fit_same (R := fun a b => Folds f a b ∧ Outside f fixed' M' b) (c := 0) (fun a b hab => step_part hf processes fixed fixed' hfx S a M' b hab)
    epsilon maxIt ⟨h, fun _ _ _ => rfl⟩).mono (fun _ _ hl => ⟨hl.h, hl.counter, by rw [hl.ll]; simp⟩)

theorem step_part_untimed (hf : Function.Injective f) (processes : ℕ) (fixed : Fin m → Fin m → Bool)
    (fixed' : Fin n → Fin n → Bool) (hfx : ∀ s ss, fixed' (f s) (f ss) = fixed s ss) (S : TSet L) (M : CTMC ℝ L m) (M0 M' : CTMC ℝ L n)
    (h : Folds f M M' ∧ Outside f fixed' M0 M') :
    SameOutcome (fun x y => (Folds f x.1 y.1 ∧ Outside f fixed' M0 y.1) ∧ y.2 = x.2 + 0) (stepUntimed processes fixed S M)
      (stepUntimed processes fixed' S M') := by
  obtain ⟨h, h0⟩ := h
  unfold stepUntimed
  refine stepOf_part hf M0 h processes fixed fixed' hfx h0 (mapM_same (zip_same S) ?_)
  rintro q p rfl
  unfold processWorkUntimed
  dsimp only
  by_cases h2 : p.1.length < 2
  · rw [if_pos h2, if_pos h2]; rfl
  rw [if_neg h2, if_neg h2, lastSum_part hf h.tau p.1 M.initialState M'.initialState h.initial]
  by_cases hz : lastSum (alphas M.tau M.initialState p.1) = 0
  · rw [if_pos hz, if_pos hz]
    exact Option.Rel.none
  · rw [if_neg hz, if_neg hz]
    refine Option.Rel.some ⟨fun s => ?_, fun s t => ?_, fun t ht0 => ?_, rfl, rfl⟩
    · dsimp only
      exact visits_part hf h.tau (fun _ => 1) _ (fun _ => 1) (fun _ => 1) (fun _ => rfl) p.1 s _ _ h.initial
    · have key := uses_part hf h.tau (fun _ => 1) (p.2 / lastSum (alphas M.tau M.initialState p.1))
        (fun _ => 1) (fun _ => 1) (fun _ => rfl) p.1 s t _ _ h.initial
      dsimp only
      by_cases h1 : ∀ s, f s ≠ t
      · rw [gather_outside _ t h1] at key ⊢
        rw [key, ite_self]
      · push Not at h1
        obtain ⟨s', rfl⟩ := h1
        rw [gather_injective hf] at key ⊢
        rw [key, hfx]
    · dsimp only
      exact visits_outside h.tau (fun _ => 1) _ (fun _ => 1) p.1 t ht0 _ _ h.initial

/-- C109, CTMC: learning from untimed traces. -/
theorem fit_part_untimed (hf : Function.Injective f) (h : Folds f M M') (processes : ℕ) (fixed : Fin m → Fin m → Bool)
    (fixed' : Fin n → Fin n → Bool) (hfx : ∀ s ss, fixed' (f s) (f ss) = fixed s ss) (S : TSet L) (epsilon : ℝ) (maxIt : ℕ) :
    SameOutcome (fun st st' => (Folds f st.h st'.h ∧ ∀ t, (∀ s, f s ≠ t) → (∀ t', fixed' t t' = false) → st'.h.matrix t = M'.matrix t) ∧
        st'.counter = st.counter ∧ st'.ll = st.ll)
      (fit (stepUntimed processes fixed S) epsilon maxIt M) (fit (stepUntimed processes fixed' S) epsilon maxIt M') :=
  (fit_same (R := fun a b => Folds f a b ∧ Outside f fixed' M' b) (c := 0) (fun a b hab => step_part_untimed hf processes fixed fixed' hfx S a M' b hab)
    epsilon maxIt ⟨h, fun _ _ _ => rfl⟩).mono (fun _ _ hl => ⟨hl.h, hl.counter, by rw [hl.ll]; simp⟩)

end CTMC
end Jajapy
