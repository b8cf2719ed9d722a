import Verif.Lemmas.Renaming
import Verif.Lemmas.Likelihood
import Verif.Lemmas.MDP
import Verif.Props.Likelihood

/-!
Property C87: the numbers of the states and the names of the labels do not matter.
-/

set_option linter.unusedSectionVars false

namespace Jajapy

open Spec BW

/-! ### Lists -/

namespace Spec
variable {O O' : Type}

theorem zip_renamed (f : O → O') (S : TSet O) : List.Forall₂ (fun p q : _ × ℕ => q = (p.1.map f, p.2)) (S.sequences.zip S.times)
    ((renameSet f S).sequences.zip (renameSet f S).times) := by
  unfold renameSet
  dsimp only
  rw [List.zip_map_left, List.forall₂_map_right_iff]
  exact List.forall₂_same.2 (fun p _ => rfl)

theorem sum_same {A B : Type} {K : Type} [Semiring K] {R : A → B → Prop} {l : List A} {l' : List B} (k : K) {g : A → K} {g' : B → K}
    (h : List.Forall₂ R l l') (hg : ∀ a b, R a b → g' b = k * g a) : (l'.map g').sum = k * (l.map g).sum := by
  induction h with
  | nil => simp
  | cons hab _ ih => rw [List.map_cons, List.map_cons, List.sum_cons, List.sum_cons, ih, hg _ _ hab, mul_add]

theorem sum_same' {A B : Type} {K : Type} [Semiring K] {R : A → B → Prop} {l : List A} {l' : List B} {g : A → K} {g' : B → K}
    (h : List.Forall₂ R l l') (hg : ∀ a b, R a b → g' b = g a) : (l'.map g').sum = (l.map g).sum := by
  rw [sum_same 1 h (g := g) (fun a b hab => by rw [hg a b hab, one_mul]), one_mul]

theorem avgLogLik_renamed (f : O → O') (P : List O → ℝ) (P' : List O' → ℝ) (S : TSet O) (h : ∀ w ∈ S.sequences, P' (w.map f) = P w) :
    avgLogLik P' (renameSet f S) = avgLogLik P S := by
  unfold avgLogLik
  congr 1
  have h1 : ∀ p ∈ S.sequences.zip S.times, p.1 ∈ S.sequences := fun p hp => (List.of_mem_zip hp).1
  unfold renameSet
  dsimp only
  rw [List.zip_map_left, List.filter_map, List.map_map]
  have e : (S.sequences.zip S.times).filter ((fun p : List O' × ℕ => decide (0 < P' p.1)) ∘ Prod.map (List.map f) id)
      = (S.sequences.zip S.times).filter (fun p => decide (0 < P p.1)) :=
    List.filter_congr (fun p hp => by simp only [Function.comp, Prod.map, h _ (h1 p hp)])
  rw [e]
  congr 1
  refine List.map_congr_left (fun p hp => ?_)
  simp only [Function.comp, Prod.map]
  rw [h _ (h1 p (List.mem_of_mem_filter hp))]
  rfl

end Spec

/-! ### The abstract class -/

namespace Iface
variable {O O' : Type} {n : ℕ} {σ : Equiv.Perm (Fin n)} {f : O → O'} {M : Iface ℝ O n} {M' : Iface ℝ O' n}
  (ht : ∀ s ss o, M'.tau s ss (f o) = M.tau (σ s) (σ ss) o) (hb : ∀ s o, M'.b s (f o) = M.b (σ s) o)
  (hi : ∀ s, M'.init s = M.init (σ s))

include ht hb in
theorem seqLoop_ren (os : List O) : ∀ (o : O) (v v' : Fin n → ℝ), (∀ s, v' s = v (σ s)) → ∀ s,
    M'.seqLoop v' (f o) (os.map f) s = M.seqLoop v o os (σ s) := by
  induction os with
  | nil => intro o v v' hv s; simp [seqLoop, hv, hb]
  | cons o' os ih =>
    intro o v v' hv s
    rw [List.map_cons, seqLoop, seqLoop]
    refine ih o' _ _ (fun s => ?_) s
    have := fwd_ren (c := 1) (tau := M.tau) (tau' := M'.tau) (f := f) (σ := σ) (by simpa using ht) 1 v v' (by simpa using hv) o s
    rw [one_mul, one_mul] at this
    exact this

include ht hb hi in
theorem seqProb_ren (w : List O) : M'.seqProb (w.map f) = M.seqProb w := by
  cases w with
  | nil => rfl
  | cons o os =>
    rw [List.map_cons, seqProb, seqProb]
    congr 1
    rw [← Equiv.sum_comp σ (M.seqLoop M.init o os)]
    exact Finset.sum_congr rfl (fun s _ => seqLoop_ren ht hb os o _ _ hi s)

include ht hb hi in
theorem multiproc_ren (cpus : ℕ) (S : TSet O) : M'.logLikelihoodMultiproc cpus (renameSet f S) = M.logLikelihoodMultiproc cpus S := by
  unfold logLikelihoodMultiproc
  split_ifs
  · rfl
  · have : ((renameSet f S).sequences.zip (renameSet f S).times).mapM (fun p => M'.computeAlphas p.1 p.2)
        = (S.sequences.zip S.times).mapM (fun p => M.computeAlphas p.1 p.2) := by
      refine SameOutcome.eq ((mapM_same (Q := fun a b => b = a) (zip_renamed f S) ?_).mono (fun a b h => ?_))
      · rintro p q rfl
        unfold computeAlphas
        dsimp only
        rw [seqProb_ren ht hb hi]
        cases M.seqProb p.1
        · rfl
        · rfl
      · exact (List.forall₂_eq_eq_eq ▸ (List.Forall₂.imp (fun a b h => h.symm) h) : a = b).symm
    rw [this]
    rfl

include ht hi in
theorem oneproc_ren [LinearOrder O] [LinearOrder O'] (S : TSet O) (hlen : S.times.length = S.sequences.length) :
    M'.logLikelihoodOneproc (renameSet f S) = M.logLikelihoodOneproc S := by
  by_cases h0 : S.sequences = []
  · have e1 : ∀ {O : Type} [LinearOrder O] (M : Iface ℝ O n) (S : TSet O), S.sequences = [] → M.logLikelihoodOneproc S = .error .indexError := by
      intro O _ M S h
      have : S.sort.sequences = [] := by
        have hl := (TSet.sort_spec S).1
        unfold TSet.sort
        simp [h]
      unfold logLikelihoodOneproc
      dsimp only
      rw [this]
    rw [e1 _ _ h0, e1]
    simp [renameSet, h0]
  · rw [M.oneproc_eq (fun w => ∑ s, w.foldl M.fwdStep M.init s) S h0 hlen (fun _ _ => rfl),
      M'.oneproc_eq (fun w => ∑ s, w.foldl M'.fwdStep M'.init s) (renameSet f S) (by simpa [renameSet] using h0)
        (by simpa [renameSet] using hlen) (fun _ _ => rfl)]
    congr 1
    refine avgLogLik_renamed f _ _ S (fun w _ => ?_)
    rw [← Equiv.sum_comp σ (w.foldl M.fwdStep M.init)]
    refine Finset.sum_congr rfl (fun s _ => ?_)
    have := foldl_ren (c := 1) (tau := M.tau) (tau' := M'.tau) (f := f) (σ := σ) (by simpa using ht) w 1 M.init M'.init (by simpa using hi) s
    rw [one_pow, one_mul, one_mul] at this
    exact this

end Iface

/-! ### Markov chains -/

namespace MC
variable {L L' : Type} [DecidableEq L] [DecidableEq L'] {n : ℕ} {σ : Equiv.Perm (Fin n)} {f : L → L'} {M : MC ℝ L n} {M' : MC ℝ L' n}

theorem Renamed.tau (h : Renamed σ f M M') (hf : Function.Injective f) (s ss : Fin n) (o : L) : M'.tau s ss (f o) = M.tau (σ s) (σ ss) o := by
  unfold MC.tau
  rw [h.labelling, h.matrix]
  by_cases ho : o = M.labelling (σ s)
  · simp [ho]
  · rw [if_pos (fun hc => ho (hf hc)), if_pos ho]

/-- C87, Markov chain: the likelihood of a trace and both computations of the likelihood of a set. -/
theorem likelihood_renamed (h : Renamed σ f M M') (hf : Function.Injective f) :
    (∀ w, M'.iface.seqProb (w.map f) = M.iface.seqProb w) ∧
    ∀ S : TSet L, (∀ cpus, M'.iface.logLikelihoodMultiproc cpus (renameSet f S) = M.iface.logLikelihoodMultiproc cpus S) := by
  have hb : ∀ s o, M'.iface.b s (f o) = M.iface.b (σ s) o := by
    intro s o
    simp only [iface, MC.b, h.labelling]
    simp [hf.eq_iff]
  exact ⟨Iface.seqProb_ren (h.tau hf) hb h.initial, fun S cpus => Iface.multiproc_ren (h.tau hf) hb h.initial cpus S⟩

theorem oneproc_renamed {L L' : Type} [LinearOrder L] [LinearOrder L'] {f : L → L'} {M : MC ℝ L n} {M' : MC ℝ L' n} (h : Renamed σ f M M')
    (hf : Function.Injective f) (S : TSet L) (hlen : S.times.length = S.sequences.length) :
    M'.iface.logLikelihoodOneproc (renameSet f S) = M.iface.logLikelihoodOneproc S :=
  Iface.oneproc_ren (h.tau hf) h.initial S hlen

theorem step_renamed (hf : Function.Injective f) (processes : ℕ) (S : TSet L) (M : MC ℝ L n) (M' : MC ℝ L' n) (h : Renamed σ f M M') :
    SameOutcome (fun a b => Renamed σ f a.1 b.1 ∧ b.2 = a.2 + 0) (stepMC processes S M) (stepMC processes (renameSet f S) M') := by
  have ht : ∀ s ss o, M'.tau s ss (f o) = 1 * M.tau (σ s) (σ ss) o := by simpa using h.tau hf
  unfold stepMC workMC
  refine SameOutcome.bind (R := List.Forall₂ (fun w w' : WorkMC ℝ n => (∀ s, w'.den s = w.den (σ s)) ∧
    (∀ s ss, w'.num s ss = w.num (σ s) (σ ss)) ∧ w'.proba = w.proba ∧ w'.times = w.times)) (collect_same _ _ ?_) ?_
  · rw [List.forall₂_map_left_iff, List.forall₂_map_right_iff]
    refine (zip_renamed f S).imp ?_
    rintro p q rfl
    unfold processWorkMC
    dsimp only
    have hp := lastSum_ren ht p.1 M.initialState M'.initialState h.initial
    rw [one_pow, one_mul] at hp
    rw [hp]
    split_ifs with h0
    · exact Option.Rel.none
    · refine Option.Rel.some ⟨fun s => ?_, fun s ss => ?_, rfl, rfl⟩
      · dsimp only
        have := visits_ren ht (fun _ => 1) (fun _ => 1) 1 0 (by simp) (p.2 / lastSum (alphas M.tau M.initialState p.1))
          (p.2 / lastSum (alphas M.tau M.initialState p.1)) (fun _ => 1) (fun _ => 1) (fun _ => rfl) p.1 s 1 M.initialState M'.initialState
          (by simpa using h.initial) (by simp)
        simpa using this
      · dsimp only
        exact uses_ren ht (fun _ => 1) (fun _ => 1) (by simp) _ _ (fun _ => 1) (fun _ => 1) (fun _ => rfl) p.1 s ss 1 M.initialState M'.initialState
          (by simpa using h.initial) (by simp)
  · intro l l' hl
    refine ⟨⟨fun s s' => ?_, h.labelling, h.initial⟩, ?_⟩
    · simp only [updateMC]
      rw [sum_same' hl (g := fun w => w.den (σ s)) (fun a b hab => hab.1 s),
        sum_same' hl (g := fun w => w.num (σ s) (σ s')) (fun a b hab => hab.2.1 s s'), h.matrix]
    · simp only [logLik, List.map_map, add_zero]
      exact sum_same' hl (fun a b hab => by simp [hab.2.2.1, hab.2.2.2])

/-- C87, Markov chain: learning from the renamed data with the renamed initial model raises the same exception, or ends after the same number of
iterations with the same reported value and the renamed model. -/
theorem fit_renamed (hf : Function.Injective f) (h : Renamed σ f M M') (processes : ℕ) (S : TSet L) (epsilon : ℝ) (maxIt : ℕ) :
    SameOutcome (fun st st' => Renamed σ f st.h st'.h ∧ st'.counter = st.counter ∧ st'.ll = st.ll)
      (fit (stepMC processes S) epsilon maxIt M) (fit (stepMC processes (renameSet f S)) epsilon maxIt M') :=
  (fit_same (step_renamed hf processes S) epsilon maxIt h).mono (fun _ _ hl => ⟨hl.h, hl.counter, by rw [hl.ll]; simp⟩)

end MC

/-! ### Hidden Markov models -/

namespace HMM
variable {L L' : Type} [DecidableEq L] [DecidableEq L'] {n : ℕ} {σ : Equiv.Perm (Fin n)} {f : L → L'} {M : HMM ℝ L n} {M' : HMM ℝ L' n}

theorem Renamed.nodup (h : Renamed σ f M M') (hf : Function.Injective f) (hn : M.alphabet.Nodup) : M'.alphabet.Nodup :=
  h.alphabet.nodup_iff.2 (hn.map hf)

theorem Renamed.mem (h : Renamed σ f M M') (hf : Function.Injective f) (o : L) : f o ∈ M'.alphabet ↔ o ∈ M.alphabet := by
  rw [h.alphabet.mem_iff, List.mem_map_of_injective hf]

theorem Renamed.b (h : Renamed σ f M M') (hf : Function.Injective f) (hn : M.alphabet.Nodup) (s : Fin n) (o : L) :
    M'.b s (f o) = M.b (σ s) o := by
  rw [M.b_eq_emit hn, M'.b_eq_emit (h.nodup hf hn), h.emit]

theorem Renamed.tau (h : Renamed σ f M M') (hf : Function.Injective f) (hn : M.alphabet.Nodup) (s ss : Fin n) (o : L) :
    M'.tau s ss (f o) = M.tau (σ s) (σ ss) o := by
  unfold HMM.tau
  rw [h.b hf hn, h.matrix]

/-- C87, hidden Markov model: the likelihood of a trace and of a set. -/
theorem likelihood_renamed (h : Renamed σ f M M') (hf : Function.Injective f) (hn : M.alphabet.Nodup) :
    (∀ w, M'.iface.seqProb (w.map f) = M.iface.seqProb w) ∧
    ∀ S : TSet L, (∀ cpus, M'.iface.logLikelihoodMultiproc cpus (renameSet f S) = M.iface.logLikelihoodMultiproc cpus S) :=
  ⟨Iface.seqProb_ren (h.tau hf hn) (h.b hf hn) h.initial, fun S cpus => Iface.multiproc_ren (h.tau hf hn) (h.b hf hn) h.initial cpus S⟩

theorem oneproc_renamed {L L' : Type} [LinearOrder L] [LinearOrder L'] {f : L → L'} {M : HMM ℝ L n} {M' : HMM ℝ L' n} (h : Renamed σ f M M')
    (hf : Function.Injective f) (hn : M.alphabet.Nodup) (S : TSet L) (hlen : S.times.length = S.sequences.length) :
    M'.iface.logLikelihoodOneproc (renameSet f S) = M.iface.logLikelihoodOneproc S :=
  Iface.oneproc_ren (h.tau hf hn) h.initial S hlen

/-- The results of the workers agree. -/
def WorkSame (σ : Equiv.Perm (Fin n)) (f : L → L') (A : List L) (A' : List L') (w : WorkHMM ℝ n A.length) (w' : WorkHMM ℝ n A'.length) : Prop :=
  (∀ s, w'.den s = w.den (σ s)) ∧ (∀ s ss, w'.numA s ss = w.numA (σ s) (σ ss)) ∧ w'.proba = w.proba ∧ w'.times = w.times ∧
  (∀ s, w'.numInit s = w.numInit (σ s)) ∧ ∀ s (i : Fin A.length) (i' : Fin A'.length), A'[i'] = f A[i] → w'.numB s i' = w.numB (σ s) i

theorem step_renamed (hf : Function.Injective f) (processes : ℕ) (S : TSet L) (M : HMM ℝ L n) (M' : HMM ℝ L' n)
    (h : Renamed σ f M M' ∧ M.alphabet.Nodup) :
    SameOutcome (fun a b => (Renamed σ f a.1 b.1 ∧ a.1.alphabet.Nodup) ∧ b.2 = a.2 + 0) (stepHMM processes S M) (stepHMM processes (renameSet f S) M') := by
  obtain ⟨h, hn⟩ := h
  have ht : ∀ s ss o, M'.tau s ss (f o) = 1 * M.tau (σ s) (σ ss) o := by simpa using h.tau hf hn
  unfold stepHMM workHMM
  refine SameOutcome.bind (R := List.Forall₂ (WorkSame σ f M.alphabet M'.alphabet)) (collect_same _ _ ?_) ?_
  · rw [List.forall₂_map_left_iff, List.forall₂_map_right_iff]
    refine (zip_renamed f S).imp ?_
    rintro p q rfl
    unfold processWorkHMM
    dsimp only
    have hp := lastSum_ren ht p.1 M.initialState M'.initialState h.initial
    rw [one_pow, one_mul] at hp
    rw [hp]
    have hv : ∀ (φ : L → ℝ) (φ' : L' → ℝ), (∀ o, φ' (f o) = φ o) → ∀ (C : ℝ) s,
        visits φ' C (alphas M'.tau M'.initialState (p.1.map f)) (betas M'.tau (fun _ => 1) (p.1.map f)) (p.1.map f) s
          = visits φ C (alphas M.tau M.initialState p.1) (betas M.tau (fun _ => 1) p.1) p.1 (σ s) := by
      intro φ φ' hφ C s
      have := visits_ren ht φ φ' 1 0 (by simpa using hφ) C C (fun _ => 1) (fun _ => 1) (fun _ => rfl) p.1 s 1 M.initialState M'.initialState
          (by simpa using h.initial) (by simp)
      simpa using this
    split_ifs with h0
    · exact Option.Rel.none
    · refine Option.Rel.some ⟨fun s => hv (fun _ => 1) (fun _ => 1) (fun _ => rfl) _ s, fun s ss => ?_, rfl, rfl, fun s => ?_, fun s i i' hi => ?_⟩
      · dsimp only
        exact uses_ren ht (fun _ => 1) (fun _ => 1) (by simp) _ _ (fun _ => 1) (fun _ => 1) (fun _ => rfl) p.1 s ss 1 M.initialState M'.initialState
          (by simpa using h.initial) (by simp)
      · dsimp only
        rw [alphas_headD, alphas_headD, betas_headD, betas_headD, beta0_ren ht p.1 (fun _ => 1) (fun _ => 1) (fun _ => rfl), h.initial, one_pow, one_mul]
      · dsimp only
        refine hv _ _ (fun o => ?_) _ s
        rw [hi]
        simp [hf.eq_iff]
  · intro l l' hl
    have hden : ∀ s, (l'.map (fun w => w.den s)).sum = (l.map (fun w => w.den (σ s))).sum := fun s => sum_same' hl (fun a b hab => hab.1 s)
    have hinit : ∀ s, (l'.map (fun w => w.numInit s)).sum = (l.map (fun w => w.numInit (σ s))).sum :=
      fun s => sum_same' hl (fun a b hab => hab.2.2.2.2.1 s)
    refine ⟨⟨⟨fun s s' => ?_, h.alphabet, fun s o => ?_, fun s => ?_⟩, hn⟩, ?_⟩
    · simp only [updateHMM]
      rw [hden, sum_same' hl (g := fun w => w.numA (σ s) (σ s')) (fun a b hab => hab.2.1 s s'), h.matrix]
    · have e1 : (updateHMM M' l').emit s (f o) = (updateHMM M' l').b s (f o) := ((updateHMM M' l').b_eq_emit (h.nodup hf hn) _ _).symm
      have e2 : (updateHMM M l).emit (σ s) o = (updateHMM M l).b (σ s) o := ((updateHMM M l).b_eq_emit hn _ _).symm
      rw [e1, e2]
      have hb := h.b hf hn s o
      unfold HMM.b at hb ⊢
      simp only [updateHMM]
      by_cases ho : o ∈ M.alphabet
      · have ho' : f o ∈ M'.alphabet := (h.mem hf o).2 ho
        rw [dif_pos ho, dif_pos ho'] at hb ⊢
        have hB := sum_same' hl (g := fun w => w.numB (σ s) ⟨M.alphabet.idxOf o, List.idxOf_lt_length_of_mem ho⟩)
          (g' := fun w => w.numB s ⟨M'.alphabet.idxOf (f o), List.idxOf_lt_length_of_mem ho'⟩)
          (fun a b hab => hab.2.2.2.2.2 s _ _ (by simp))
        simp only [hden]
        split_ifs
        · exact hb
        · exact congrArg (· / _) hB
      · have ho' : f o ∉ M'.alphabet := fun hc => ho ((h.mem hf o).1 hc)
        rw [dif_neg ho, dif_neg ho']
    · simp only [updateHMM]
      rw [hinit]
      congr 1
      rw [← Equiv.sum_comp σ (fun s' => (l.map (fun w => w.numInit s')).sum)]
      exact Finset.sum_congr rfl (fun s _ => hinit s)
    · simp only [logLik, List.map_map, add_zero]
      exact sum_same' hl (fun a b hab => by simp [hab.2.2.1, hab.2.2.2.1])

/-- C87, hidden Markov model: learning. -/
theorem fit_renamed (hf : Function.Injective f) (h : Renamed σ f M M') (hn : M.alphabet.Nodup) (processes : ℕ) (S : TSet L) (epsilon : ℝ)
    (maxIt : ℕ) :
    SameOutcome (fun st st' => Renamed σ f st.h st'.h ∧ st'.counter = st.counter ∧ st'.ll = st.ll)
      (fit (stepHMM processes S) epsilon maxIt M) (fit (stepHMM processes (renameSet f S)) epsilon maxIt M') :=
  (fit_same (step_renamed hf processes S) epsilon maxIt ⟨h, hn⟩).mono (fun _ _ hl => ⟨hl.h.1, hl.counter, by rw [hl.ll]; simp⟩)

end HMM
end Jajapy
