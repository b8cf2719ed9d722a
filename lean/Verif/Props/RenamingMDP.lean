import Verif.Props.Renaming
import Verif.Props.MDP

/-!
Property C87, Markov decision processes.
-/

set_option linter.unusedSectionVars false

namespace Jajapy

open Spec BW

theorem pairs_map {L L' : Type} (f : L → L') (w : List L) : pairs (w.map f) = (pairs w).map (Prod.map f f) := by
  induction w using pairs.induct with
  | case1 o a rest ih => simp [pairs, ih]
  | case2 w hw =>
    match w, hw with
    | [], _ => rfl
    | [x], _ => rfl
    | o :: a :: rest, hw => exact absurd rfl (hw o a rest)

namespace MDP
variable {L L' : Type} [DecidableEq L] [DecidableEq L'] {n : ℕ} {σ : Equiv.Perm (Fin n)} {f : L → L'} {M : MDP ℝ L n} {M' : MDP ℝ L' n}

theorem Renamed.nodup (h : Renamed σ f M M') (hf : Function.Injective f) (hn : M.actions.Nodup) : M'.actions.Nodup :=
  h.actions.nodup_iff.2 (hn.map hf)

theorem Renamed.mem (h : Renamed σ f M M') (hf : Function.Injective f) (o : L) : f o ∈ M'.actions ↔ o ∈ M.actions := by
  rw [h.actions.mem_iff, List.mem_map_of_injective hf]

theorem Renamed.tau (h : Renamed σ f M M') (hf : Function.Injective f) (hn : M.actions.Nodup) (s ss : Fin n) (p : L × L) :
    M'.tauP s ss (Prod.map f f p) = M.tauP (σ s) (σ ss) p := by
  rw [M.tauP_eq_step hn, M'.tauP_eq_step (h.nodup hf hn)]
  unfold MDP.step
  simp only [Prod.map, h.labelling, h.prob, hf.eq_iff]

theorem Renamed.mask (h : Renamed σ f M M') (hf : Function.Injective f) (o : L) (s : Fin n) : M'.mask (f o) s = M.mask o (σ s) := by
  unfold MDP.mask
  simp only [h.labelling, hf.eq_iff]

theorem seqProb_renamed (h : Renamed σ f M M') (hf : Function.Injective f) (hn : M.actions.Nodup) (w : List L) :
    M'.seqProb (w.map f) = M.seqProb w := by
  unfold seqProb
  rw [List.getLast?_map]
  cases w.getLast? with
  | none => rfl
  | some last =>
    simp only [Option.map_some]
    congr 1
    refine ((Equiv.sum_comp σ _).symm.trans (Finset.sum_congr rfl (fun s _ => ?_))).symm
    rw [h.mask hf, pairs_map]
    have := foldl_ren (c := 1) (tau := M.tauP) (tau' := M'.tauP) (f := Prod.map f f) (σ := σ) (by simpa using h.tau hf hn) (pairs w) 1
      M.initialState M'.initialState (by simpa using h.initial) s
    rw [one_pow, one_mul, one_mul] at this
    exact congrArg (· * _) this.symm

theorem lik_renamed (h : Renamed σ f M M') (hf : Function.Injective f) (hn : M.actions.Nodup) (w : List L) : M'.lik (w.map f) = M.lik w := by
  by_cases hw : w.length % 2 = 1
  · obtain ⟨ps, last, rfl⟩ := exists_alternate w hw
    obtain ⟨ps', last', h'⟩ := exists_alternate ((alternate ps last).map f) (by rw [List.length_map]; exact hw)
    have h1 := seqProb_renamed h hf hn (alternate ps last)
    rw [M.seqProb_alternate hn, h', M'.seqProb_alternate (h.nodup hf hn)] at h1
    rw [h', lik_alternate, lik_alternate]
    exact Except.ok.inj h1
  · unfold lik
    rw [dif_neg hw, dif_neg (by rw [List.length_map]; exact hw)]

/-- C87, MDP: the likelihood of a trace and of a set. -/
theorem likelihood_renamed (h : Renamed σ f M M') (hf : Function.Injective f) (hn : M.actions.Nodup) :
    (∀ w, M'.seqProb (w.map f) = M.seqProb w) ∧
    ∀ S : TSet L, (∀ cpus, M'.logLikelihoodMultiproc cpus (renameSet f S) = M.logLikelihoodMultiproc cpus S) := by
  refine ⟨seqProb_renamed h hf hn, fun S cpus => ?_⟩
  unfold logLikelihoodMultiproc
  by_cases hc : cpus < 2
  · rw [if_pos hc, if_pos hc]
  · rw [if_neg hc, if_neg hc]
    have : ((renameSet f S).sequences.zip (renameSet f S).times).mapM (fun p => M'.computeAlphas p.1 p.2)
        = (S.sequences.zip S.times).mapM (fun p => M.computeAlphas p.1 p.2) := by
      refine SameOutcome.eq ((mapM_same (Q := fun a b => b = a) (zip_renamed f S) ?_).mono (fun a b h => ?_))
      · rintro p q rfl
        unfold computeAlphas
        dsimp only
        rw [seqProb_renamed h hf hn]
        cases M.seqProb p.1 with
        | error e => rfl
        | ok x =>
          simp only [bind, Except.bind]
          split_ifs <;> first | rfl | exact Eq.refl _
      · exact (List.forall₂_eq_eq_eq ▸ (List.Forall₂.imp (fun a b h => h.symm) h) : a = b).symm
    rw [this]
    rfl

theorem oneproc_renamed {L L' : Type} [LinearOrder L] [LinearOrder L'] {f : L → L'} {M : MDP ℝ L n} {M' : MDP ℝ L' n} (h : Renamed σ f M M')
    (hf : Function.Injective f) (hn : M.actions.Nodup) (S : TSet L) (hne : S.sequences ≠ []) (hnd : S.sequences.Nodup) (hs : S.times.sum ≠ 0)
    (hlen : S.times.length = S.sequences.length) (ho : ∀ w ∈ S.sequences, w.length % 2 = 1) :
    M'.logLikelihoodOneproc (renameSet f S) = M.logLikelihoodOneproc S := by
  rw [M.oneproc_eq hn S hne hnd hs hlen ho, M'.oneproc_eq (h.nodup hf hn) (renameSet f S) (by simpa [renameSet] using hne)
    (hnd.map hf.list_map) hs (by simpa [renameSet] using hlen) (by simpa [renameSet] using ho)]
  congr 1
  exact avgLogLik_renamed f _ _ S (fun w _ => lik_renamed h hf hn w)

/-- The results of the workers agree. -/
def WorkSame (σ : Equiv.Perm (Fin n)) (f : L → L') (A : List L) (A' : List L') (w : WorkMDP ℝ n A.length) (w' : WorkMDP ℝ n A'.length) : Prop :=
  w'.proba = w.proba ∧ w'.times = w.times ∧
  ∀ s (i : Fin A.length) (i' : Fin A'.length), A'[i'] = f A[i] → w'.den s i' = w.den (σ s) i ∧ ∀ ss, w'.num s i' ss = w.num (σ s) i (σ ss)

theorem prob_mem (M : MDP ℝ L n) (hn : M.actions.Nodup) (s : Fin n) (x : L) (s' : Fin n) (h : x ∈ M.actions) :
    M.prob s x s' = M.matrix s ⟨M.actions.idxOf x, List.idxOf_lt_length_iff.mpr h⟩ s' := by
  rw [← M.prob_getElem hn]
  simp

theorem step_renamed (hf : Function.Injective f) (processes : ℕ) (S : TSet L) (M : MDP ℝ L n) (M' : MDP ℝ L' n)
    (h : Renamed σ f M M' ∧ M.actions.Nodup) :
    SameOutcome (fun a b => (Renamed σ f a.1 b.1 ∧ a.1.actions.Nodup) ∧ b.2 = a.2 + 0) (stepMDP processes S M)
      (stepMDP processes (renameSet f S) M') := by
  obtain ⟨h, hn⟩ := h
  have ht : ∀ s ss o, M'.tauP s ss (Prod.map f f o) = 1 * M.tauP (σ s) (σ ss) o := by simpa using h.tau hf hn
  unfold stepMDP workMDP
  refine SameOutcome.bind (R := List.Forall₂ (WorkSame σ f M.actions M'.actions))
    (SameOutcome.bind (mapM_same (Q := Option.Rel (WorkSame σ f M.actions M'.actions)) (zip_renamed f S) ?_) (fun a a' ha => collect_same _ _ ha)) ?_
  · rintro p q rfl
    unfold processWorkMDP
    dsimp only
    rw [List.getLast?_map]
    cases hl : p.1.getLast? with
    | none => rfl
    | some last =>
      simp only [Option.map_some, SameOutcome]
      rw [pairs_map]
      have hp := lastSum_mask_ren ht (pairs p.1) M.initialState M'.initialState h.initial (M.mask last) (M'.mask (f last)) (h.mask hf last)
      rw [one_pow, one_mul] at hp
      rw [hp]
      split_ifs with h0
      · exact Option.Rel.none
      · refine Option.Rel.some ⟨rfl, rfl, fun s i i' hi => ⟨?_, fun ss => ?_⟩⟩
        · dsimp only
          rw [visits_mask, visits_mask]
          have := visits_ren ht (fun x => if x.2 = M.actions[i] then 1 else 0) (fun x => if x.2 = M'.actions[i'] then 1 else 0) 1 0
            (fun o => by rw [hi]; simp [hf.eq_iff]) (p.2 / lastSum (maskLast (M.mask last) (alphas M.tauP M.initialState (pairs p.1))))
            (p.2 / lastSum (maskLast (M.mask last) (alphas M.tauP M.initialState (pairs p.1)))) (M.mask last) (M'.mask (f last)) (h.mask hf last)
            (pairs p.1) s 1 M.initialState M'.initialState (by simpa using h.initial) (by simp)
          rw [this]
          ring
        · dsimp only
          rw [uses_mask, uses_mask]
          exact uses_ren ht _ _ (fun o => by rw [hi]; simp [hf.eq_iff]) _ _ (M.mask last) (M'.mask (f last)) (h.mask hf last)
            (pairs p.1) s ss 1 M.initialState M'.initialState (by simpa using h.initial) (by simp)
  · intro l l' hl
    refine ⟨⟨⟨h.actions, fun s x s' => ?_, h.labelling, h.initial⟩, hn⟩, ?_⟩
    · have hpr := h.prob s x s'
      by_cases hx : x ∈ M.actions
      · have hx' : f x ∈ M'.actions := (h.mem hf x).2 hx
        rw [M.prob_mem hn _ _ _ hx, M'.prob_mem (h.nodup hf hn) _ _ _ hx'] at hpr
        rw [(updateMDP M l).prob_mem hn _ _ _ hx, (updateMDP M' l').prob_mem (h.nodup hf hn) _ _ _ hx']
        simp only [updateMDP]
        have hD := sum_same' hl (g := fun w => w.den (σ s) ⟨M.actions.idxOf x, List.idxOf_lt_length_iff.mpr hx⟩)
          (g' := fun w => w.den s ⟨M'.actions.idxOf (f x), List.idxOf_lt_length_iff.mpr hx'⟩)
          (fun a b hab => (hab.2.2 s _ _ (by simp)).1)
        have hN := sum_same' hl (g := fun w => w.num (σ s) ⟨M.actions.idxOf x, List.idxOf_lt_length_iff.mpr hx⟩ (σ s'))
          (g' := fun w => w.num s ⟨M'.actions.idxOf (f x), List.idxOf_lt_length_iff.mpr hx'⟩ s')
          (fun a b hab => (hab.2.2 s _ _ (by simp)).2 s')
        simp only [hD]
        split_ifs
        · exact hpr
        · exact congrArg (· / _) hN
      · rw [(updateMDP M l).prob_not_mem _ _ _ hx, (updateMDP M' l').prob_not_mem _ _ _ (fun hc => hx ((h.mem hf x).1 hc))]
    · simp only [logLik, List.map_map, add_zero]
      exact sum_same' hl (fun a b hab => by simp [hab.1, hab.2.1])

/-- C87, MDP: learning. -/
theorem fit_renamed (hf : Function.Injective f) (h : Renamed σ f M M') (hn : M.actions.Nodup) (processes : ℕ) (S : TSet L) (epsilon : ℝ)
    (maxIt : ℕ) :
    SameOutcome (fun st st' => Renamed σ f st.h st'.h ∧ st'.counter = st.counter ∧ st'.ll = st.ll)
      (fit (stepMDP processes S) epsilon maxIt M) (fit (stepMDP processes (renameSet f S)) epsilon maxIt M') :=
  (fit_same (step_renamed hf processes S) epsilon maxIt ⟨h, hn⟩).mono (fun _ _ hl => ⟨hl.h.1, hl.counter, by rw [hl.ll]; simp⟩)

end MDP
end Jajapy
