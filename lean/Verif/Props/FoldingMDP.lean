import Verif.Props.Folding
import Verif.Props.RenamingMDP

/-!
Property C109, Markov decision processes.
-/

set_option linter.unusedSectionVars false
set_option autoImplicit false

namespace Jajapy

open Spec BW

namespace MDP
variable {L : Type} [DecidableEq L] {m n : ℕ} {f : Fin m → Fin n} {M : MDP ℝ L m} {M' : MDP ℝ L n}

theorem Folds.nodup (h : Folds f M M') (hn : M.actions.Nodup) : M'.actions.Nodup := h.actions.nodup_iff.2 hn

theorem Folds.tau (h : Folds f M M') (hn : M.actions.Nodup) (s : Fin m) (t : Fin n) (p : L × L) :
    M'.tauP (f s) t p = gather f (fun s' => M.tauP s s' p) t := by
  simp only [M.tauP_eq_step hn, M'.tauP_eq_step (h.nodup hn)]
  unfold MDP.step
  rw [h.labelling, h.prob]
  rw [gather_const_mul]

theorem Folds.mask (h : Folds f M M') (o : L) (s : Fin m) : M'.mask o (f s) = M.mask o s := by
  unfold MDP.mask
  simp only [h.labelling]

theorem seqProb_folded (h : Folds f M M') (hn : M.actions.Nodup) (w : List L) : M'.seqProb w = M.seqProb w := by
  unfold seqProb
  cases w.getLast? with
  | none => rfl
  | some last =>
    dsimp only
    congr 1
    have e : ∀ t, (List.foldl (fun v p s => ∑ ss, v ss * M'.tauP ss s p) M'.initialState (pairs w)) t
        = gather f (List.foldl (fun v p s => ∑ ss, v ss * M.tauP ss s p) M.initialState (pairs w)) t :=
      foldl_fold (h.tau hn) (pairs w) M.initialState M'.initialState h.initial
    refine (Finset.sum_congr rfl (fun t _ => congrArg (· * M'.mask last t) (e t))).trans ?_
    refine (sum_gather_mul f _ (fun t => M'.mask last t)).trans ?_
    exact Finset.sum_congr rfl (fun s _ => by rw [h.mask]; rfl)

theorem lik_folded (h : Folds f M M') (hn : M.actions.Nodup) (w : List L) : M'.lik w = M.lik w := by
  by_cases hw : w.length % 2 = 1
  · obtain ⟨ps, last, rfl⟩ := exists_alternate w hw
    have h1 := seqProb_folded h hn (alternate ps last)
    rw [M.seqProb_alternate hn, M'.seqProb_alternate (h.nodup hn)] at h1
    rw [lik_alternate, lik_alternate]
    exact Except.ok.inj h1
  · unfold lik
    rw [dif_neg hw, dif_neg hw]

/-- C109, MDP: the likelihood of every trace and of every set. -/
theorem likelihood_folded (h : Folds f M M') (hn : M.actions.Nodup) : (∀ w, M'.seqProb w = M.seqProb w) ∧
    ∀ (S : TSet L) (cpus : ℕ), M'.logLikelihoodMultiproc cpus S = M.logLikelihoodMultiproc cpus S := by
  refine ⟨seqProb_folded h hn, fun S cpus => ?_⟩
  have : (fun p : List L × ℕ => M'.computeAlphas p.1 p.2) = fun p => M.computeAlphas p.1 p.2 := by
    funext p
    unfold computeAlphas
    rw [seqProb_folded h hn]
  unfold logLikelihoodMultiproc
  rw [this]

theorem oneproc_folded {L : Type} [LinearOrder L] {M : MDP ℝ L m} {M' : MDP ℝ L n} (h : Folds f M M') (hn : M.actions.Nodup) (S : TSet L)
    (hne : S.sequences ≠ []) (hnd : S.sequences.Nodup) (hs : S.times.sum ≠ 0) (hlen : S.times.length = S.sequences.length)
    (ho : ∀ w ∈ S.sequences, w.length % 2 = 1) : M'.logLikelihoodOneproc S = M.logLikelihoodOneproc S := by
  rw [M.oneproc_eq hn S hne hnd hs hlen ho, M'.oneproc_eq (h.nodup hn) S hne hnd hs hlen ho]
  have : M'.lik = M.lik := funext (lik_folded h hn)
  rw [this]

/-- The results of the workers agree. -/
def WorkPart (f : Fin m → Fin n) (A A' : List L) (w : WorkMDP ℝ m A.length) (w' : WorkMDP ℝ n A'.length) : Prop :=
  w'.proba = w.proba ∧ w'.times = w.times ∧
  (∀ s (i : Fin A.length) (i' : Fin A'.length), A'[i'] = A[i] → w'.den (f s) i' = w.den s i ∧ ∀ t, w'.num (f s) i' t = gather f (w.num s i) t) ∧
  ∀ t i', (∀ s, f s ≠ t) → w'.den t i' = 0

theorem step_part (hf : Function.Injective f) (processes : ℕ) (S : TSet L) (M : MDP ℝ L m) (M0 M' : MDP ℝ L n)
    (h : Folds f M M' ∧ M.actions.Nodup ∧ ∀ t, (∀ s, f s ≠ t) → ∀ x t', M'.prob t x t' = M0.prob t x t') :
    SameOutcome (fun a b => (Folds f a.1 b.1 ∧ a.1.actions.Nodup ∧ ∀ t, (∀ s, f s ≠ t) → ∀ x t', b.1.prob t x t' = M0.prob t x t') ∧ b.2 = a.2 + 0)
      (stepMDP processes S M) (stepMDP processes S M') := by
  obtain ⟨h, hn, h0⟩ := h
  have hn' := h.nodup hn
  have ht := h.tau hn
  unfold stepMDP workMDP
  refine SameOutcome.bind (R := List.Forall₂ (WorkPart f M.actions M'.actions))
    (SameOutcome.bind (mapM_same (Q := Option.Rel (WorkPart f M.actions M'.actions)) (zip_same S) ?_) (fun a a' ha => collect_same _ _ ha)) ?_
  · rintro q p rfl
    unfold processWorkMDP
    dsimp only
    cases hl : p.1.getLast? with
    | none => rfl
    | some last =>
      simp only [SameOutcome]
      rw [lastSum_mask_part hf ht (pairs p.1) M.initialState M'.initialState h.initial (M.mask last) (M'.mask last) (h.mask last)]
      split_ifs with h0
      · exact Option.Rel.none
      · refine Option.Rel.some ⟨rfl, rfl, fun s i i' hi => ⟨?_, fun t => ?_⟩, fun t i' ht0 => ?_⟩
        · dsimp only
          rw [visits_mask, visits_mask, hi]
          exact visits_part hf ht _ _ (M.mask last) (M'.mask last) (h.mask last) (pairs p.1) s _ _ h.initial
        · dsimp only
          have e : (uses M.tauP (fun x => if x.2 = M.actions[i] then 1 else 0)
              (p.2 / lastSum (maskLast (M.mask last) (alphas M.tauP M.initialState (pairs p.1)))) (maskLast (M.mask last) (alphas M.tauP M.initialState (pairs p.1)))
              (betas M.tauP (M.mask last) (pairs p.1)) (pairs p.1) s) = _ := funext (fun t => uses_mask _ _ _ _ _ _ _ _)
          rw [uses_mask, e, hi]
          exact uses_part hf ht _ _ (M.mask last) (M'.mask last) (h.mask last) (pairs p.1) s t _ _ h.initial
        · dsimp only
          rw [visits_mask]
          exact visits_outside ht _ _ (M'.mask last) (pairs p.1) t ht0 _ _ h.initial
  · intro l l' hl
    refine ⟨⟨⟨h.actions, h.labelling, fun s x t => ?_, h.initial⟩, hn, fun t ht0 x t' => ?_⟩, ?_⟩
    · have hpr := h.prob s x t
      by_cases hx : x ∈ M.actions
      · have hx' : x ∈ M'.actions := h.actions.mem_iff.2 hx
        have e1 : M.prob s x = _ := funext (fun s' => M.prob_mem hn s x s' hx)
        have e2 : (updateMDP M l).prob s x = _ := funext (fun s' => (updateMDP M l).prob_mem hn s x s' hx)
        rw [e1, M'.prob_mem hn' _ _ _ hx'] at hpr
        rw [e2, (updateMDP M' l').prob_mem hn' _ _ _ hx']
        simp only [updateMDP]
        have hD := sum_same' hl (g := fun w => w.den s ⟨M.actions.idxOf x, List.idxOf_lt_length_iff.mpr hx⟩)
          (g' := fun w => w.den (f s) ⟨M'.actions.idxOf x, List.idxOf_lt_length_iff.mpr hx'⟩)
          (fun a b hab => (hab.2.2.1 s _ _ (by simp)).1)
        simp only [hD]
        split_ifs with hd
        · exact hpr
        · rw [gather_div]
          congr 1
          by_cases h1 : ∀ s, f s ≠ t
          · rw [gather_outside _ t h1, sum_same' hl (g := fun _ => 0) (fun a b hab => by
              rw [(hab.2.2.1 s ⟨M.actions.idxOf x, List.idxOf_lt_length_iff.mpr hx⟩ _ (by simp)).2 t, gather_outside _ t h1])]
            simp
          · push Not at h1
            obtain ⟨s', rfl⟩ := h1
            rw [gather_injective hf]
            exact sum_same' hl (fun a b hab => by
              rw [(hab.2.2.1 s ⟨M.actions.idxOf x, List.idxOf_lt_length_iff.mpr hx⟩ _ (by simp)).2, gather_injective hf])
      · have e2 : (updateMDP M l).prob s x = fun _ => 0 := funext (fun s' => (updateMDP M l).prob_not_mem _ _ _ hx)
        rw [e2, (updateMDP M' l').prob_not_mem _ _ _ (fun hc => hx (h.actions.mem_iff.1 hc)), gather_zero]
    · rw [← h0 t ht0 x t']
      by_cases hx' : x ∈ M'.actions
      · rw [M'.prob_mem hn' _ _ _ hx', (updateMDP M' l').prob_mem hn' _ _ _ hx']
        simp only [updateMDP]
        rw [if_pos]
        rw [sum_same' hl (g := fun _ => 0) (fun a b hab => hab.2.2.2 t _ ht0)]
        simp
      · rw [M'.prob_not_mem _ _ _ hx', (updateMDP M' l').prob_not_mem _ _ _ hx']
    · simp only [logLik, List.map_map, add_zero]
      exact sum_same' hl (fun a b hab => by simp [hab.1, hab.2.1])

/-- C109, MDP: learning. -/
theorem fit_part (hf : Function.Injective f) (h : Folds f M M') (hn : M.actions.Nodup) (processes : ℕ) (S : TSet L) (epsilon : ℝ) (maxIt : ℕ) :
    SameOutcome (fun st st' => (Folds f st.h st'.h ∧ ∀ t, (∀ s, f s ≠ t) → ∀ x t', st'.h.prob t x t' = M'.prob t x t') ∧
        st'.counter = st.counter ∧ st'.ll = st.ll)
      (fit (stepMDP processes S) epsilon maxIt M) (fit (stepMDP processes S) epsilon maxIt M') :=
  (fit_same (R := fun a b => Folds f a b ∧ a.actions.Nodup ∧ ∀ t, (∀ s, f s ≠ t) → ∀ x t', b.prob t x t' = M'.prob t x t') (c := 0)
    (fun a b hab => step_part hf processes S a M' b hab) epsilon maxIt ⟨h, hn, fun _ _ _ _ => rfl⟩).mono
    (fun _ _ hl => ⟨⟨hl.h.1, hl.h.2.2⟩, hl.counter, by rw [hl.ll]; simp⟩)

end MDP
end Jajapy
