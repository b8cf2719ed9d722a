import Verif.Props.GoOneEnds

/-!
C36 and C39, the case of one state: the learned model is a model of maximal likelihood.
-/

set_option linter.unusedSectionVars false
set_option autoImplicit false

namespace Jajapy

open BW Spec

variable {O : Type} {d : ℕ}

/-- C36, HMM with one state: no HMM with one state that can generate the traces has a bigger log-likelihood than the learned one. -/
theorem HMM.one_state_best [DecidableEq O] (processes : ℕ) (S : TSet O) (epsilon : ℝ) (he : 0 < epsilon) (maxIt : ℕ) (M : HMM ℝ O 1)
    (hnd : M.alphabet.Nodup) (hM : M.Stochastic) (ht : ∀ t ∈ S.times, 1 ≤ t) (hne : ∀ w ∈ S.sequences, w ≠ [])
    (hlen : S.times.length = S.sequences.length) (hz : S.sequences ≠ []) (hl : ∀ w ∈ S.sequences, M.lik w ≠ 0)
    (st : LoopState (HMM ℝ O 1)) (hst : fit (stepHMM processes S) epsilon maxIt M = .ok st) (hc : 1 ≤ st.counter)
    (N : HMM ℝ O 1) (hndN : N.alphabet.Nodup) (hN : N.Stochastic) (hlN : ∀ w ∈ S.sequences, N.lik w ≠ 0) :
    avgLogLik N.lik S ≤ avgLogLik st.h.lik S := by
  have hz' : S.sequences.zip S.times ≠ [] := by
    intro h
    rcases List.zip_eq_nil_iff.1 h with h | h
    · exact hz h
    · rw [h] at hlen; exact hz (List.length_eq_zero_iff.1 hlen.symm)
  obtain ⟨⟨N', ll⟩, hr⟩ := (N.bw_step_outcome 1 S hndN hN.2.2.2.1 hne hlen).1 (Or.inr ⟨le_rfl, hz, hlN⟩)
  obtain ⟨a1, a2, a3⟩ := N.one_state_step 1 S N' ll hndN hN ht hne hz' hlN hr
  have b1 := (HMM.one_state_ends processes S epsilon he maxIt M hnd hM ht hne hlen hz' hl st hst).2 hc
  have hS := HMM.fit_stochastic _ _ _ _ _ hnd hM ht _ hst
  have b2 : st.h.initialState 0 = 1 := by simpa using hS.2.1
  have b3 : st.h.matrix 0 0 = 1 := by simpa using hS.2.2.2.1 0
  have h1 : N'.emit = st.h.emit := by funext s o; rw [Subsingleton.elim s 0, a1, b1]
  have h2 : N'.initialState = st.h.initialState := by funext s; rw [Subsingleton.elim s 0, a2, b2]
  have h3 : N'.matrix = st.h.matrix := by funext s s'; rw [Subsingleton.elim s 0, Subsingleton.elim s' 0, a3, b3]
  have h4 : N'.lik = st.h.lik := by funext w; unfold HMM.lik; rw [h1, h2, h3]
  rw [← h4]
  exact (N.bw_step_monotone _ _ _ _ hndN hN hne hlen ht hr).1

/-- The hypotheses of `HMM.one_state_best`, compared with the initial model. -/
example (maxIt : ℕ) : ∃ st, fit (stepHMM 2 spellSet) (1/100) (maxIt + 1) exCoin = .ok st ∧ avgLogLik exCoin.lik spellSet ≤ avgLogLik st.h.lik spellSet := by
  have hn : exCoin.alphabet.Nodup := by decide
  obtain ⟨st, hst⟩ := HMM.fit_total 2 (by norm_num) spellSet (1/100) (maxIt + 1) exCoin hn exCoin_stochastic (by decide) (by decide) (by decide)
    ["x", "y", "y"] (by decide) (exCoin_lik _ (by decide))
  obtain ⟨k, _, _, _, _, _, b4, _, _, b7, _⟩ := fit_iterations _ _ _ _ _ hst
  have := b7 (by omega)
  exact ⟨st, hst, HMM.one_state_best 2 spellSet (1/100) (by norm_num) (maxIt + 1) exCoin hn exCoin_stochastic (by decide) (by decide) (by decide)
    (by decide) exCoin_lik st hst (by omega) exCoin hn exCoin_stochastic exCoin_lik⟩

theorem Spec.dataMean_sq_pos (S : TSet (Fin d → ℝ)) (ht : ∀ t ∈ S.times, 1 ≤ t) (hne : ∀ w ∈ S.sequences, w ≠ []) (hz : S.sequences.zip S.times ≠ []) (i : Fin d)
    (hvar : dataMean S (fun o => (o i - dataMean S (fun o => o i)) ^ 2) ≠ 0) (c : ℝ) : 0 < dataMean S (fun o => (o i - c) ^ 2) := by
  have h1 := lt_of_le_of_ne (Spec.dataMean_nonneg S _ (fun o => sq_nonneg (o i - dataMean S (fun o => o i)))) hvar.symm
  rw [Spec.dataMean_around S (Spec.dataSum_pos S ht hne hz) (fun o : Fin d → ℝ => o i) c]
  have := sq_nonneg (dataMean S (fun o : Fin d → ℝ => o i) - c)
  linarith

/-- C39, GoHMM with one state, for data that are not constant: no GoHMM with one state and positive standard deviations has a bigger log-likelihood than
the learned one, as soon as two iterations were made. -/
theorem GoHMM.one_state_best (processes : ℕ) (S : TSet (Fin d → ℝ)) (epsilon : ℝ) (he : 0 < epsilon) (maxIt : ℕ) (M : GoHMM 1 d) (hM : M.Valid)
    (hs : ∀ s i, 0 < M.sigma s i) (ht : ∀ t ∈ S.times, 1 ≤ t) (hne : ∀ w ∈ S.sequences, w ≠ [])
    (hlen : S.times.length = S.sequences.length) (hz : S.sequences ≠ [])
    (hvar : ∀ i, dataMean S (fun o => (o i - dataMean S (fun o => o i)) ^ 2) ≠ 0) (st : LoopState (GoHMM 1 d))
    (hst : fit (stepGoHMM processes S) epsilon maxIt M = .ok st) (hc : 2 ≤ st.counter)
    (N : GoHMM 1 d) (hN : N.Valid) (hsN : ∀ s i, 0 < N.sigma s i) :
    avgLogLik N.lik S ≤ avgLogLik st.h.lik S := by
  have hz' : S.sequences.zip S.times ≠ [] := by
    intro h
    rcases List.zip_eq_nil_iff.1 h with h | h
    · exact hz h
    · rw [h] at hlen; exact hz (List.length_eq_zero_iff.1 hlen.symm)
  have next : ∀ K : GoHMM 1 d, K.Valid → (∀ s i, 0 < K.sigma s i) → ∃ K' ll, stepGoHMM 1 S K = .ok (K', ll) ∧ K'.Valid ∧ (∀ s i, 0 < K'.sigma s i) ∧
      avgLogLik K.lik S ≤ avgLogLik K'.lik S := by
    intro K hK hsK
    obtain ⟨⟨K', ll⟩, hr⟩ := (K.bw_step_outcome 1 S hK.2.2.2.2 hK.2.2.2.1 hne hlen).1
      (Or.inr ⟨le_rfl, hz, fun w hw => (K.lik_pos hK hsK w (hne w hw)).ne'⟩)
    obtain ⟨_, b2, _, _⟩ := K.one_state_step 1 S K' ll hK hsK ht hne hz' hr
    have p : ∀ s i, 0 < K'.sigma s i := by
      intro s i
      rw [Subsingleton.elim s 0, b2]
      exact Real.sqrt_pos.2 (Spec.dataMean_sq_pos S ht hne hz' i (hvar i) _)
    exact ⟨K', ll, hr, K.bw_step_valid _ _ _ _ hK ht hr, p, (K.bw_step_monotone_partial _ _ _ _ hK hsK p hne ht hr).1⟩
  obtain ⟨N1, l1, r1, v1, p1, m1⟩ := next N hN hsN
  obtain ⟨N2, l2, r2, v2, p2, m2⟩ := next N1 v1 p1
  obtain ⟨a1, a2⟩ := N.one_state_two 1 S N1 N2 l1 l2 hN hsN ht hne hz' r1
    (fun i => (Spec.dataMean_sq_pos S ht hne hz' i (hvar i) _).ne') r2
  have b := (GoHMM.one_state_ends processes S epsilon he maxIt M hM hs ht hne hz' hvar st hst).2 hc
  have hV := GoHMM.fit_valid _ _ _ _ _ hM ht _ hst
  have hi : st.h.initialState 0 = 1 := by simpa using hV.2.1
  have hm : st.h.matrix 0 0 = 1 := by simpa using hV.2.2.2.1 0
  have hi2 : N2.initialState 0 = 1 := by simpa using v2.2.1
  have hm2 : N2.matrix 0 0 = 1 := by simpa using v2.2.2.2.1 0
  have e : N2 = st.h := by
    cases h3 : N2 with
    | mk x1 x2 x3 x4 =>
      cases h2 : st.h with
      | mk y1 y2 y3 y4 =>
        rw [h3] at a1 a2 hi2 hm2
        rw [h2] at b hi hm
        simp only [GoHMM.mk.injEq] at *
        refine ⟨?_, ?_, ?_, ?_⟩
        · funext i j; rw [Subsingleton.elim i 0, Subsingleton.elim j 0, hm2, hm]
        · funext i j; rw [Subsingleton.elim i 0, a1, (b j).1]
        · funext i j; rw [Subsingleton.elim i 0, a2, (b j).2]
        · funext i; rw [Subsingleton.elim i 0, hi2, hi]
  rw [← e]
  exact m1.trans m2

/-- The hypotheses of `GoHMM.one_state_best`, with the model of mean 5 as the other model. -/
example : ∃ st, fit (stepGoHMM 1 exSetPair) (1/100) 2 exGoPair = .ok st ∧
    avgLogLik (GoHMM.lik { exGoPair with mu := fun _ _ => 5 }) exSetPair ≤ avgLogLik st.h.lik exSetPair := by
  obtain ⟨ll, hr⟩ := exGoPair_step
  have h2 : fit (stepGoHMM 1 exSetPair) (1/100) 2 exGoPair = .ok ⟨exGoPair, 2, some ll⟩ := by
    simp [fit, loop, hr, bind, Except.bind, pure, Except.pure]
  exact ⟨_, h2, GoHMM.one_state_best 1 exSetPair (1/100) (by norm_num) 2 exGoPair exGoPair_valid (fun _ _ => by simp [exGoPair])
    (by simp [exSetPair]) (by simp [exSetPair]) rfl (by simp [exSetPair]) (fun i => by simp [dataMean, dataSum, exSetPair]) _ h2 le_rfl
    _ exGoPair_valid (fun _ _ => by simp [exGoPair])⟩

end Jajapy
