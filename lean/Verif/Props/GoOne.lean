import Verif.Props.ResumeHMM

/-!
C58, the case of one state: the learning computes the mean and the standard deviation of the data (GoHMM) or its relative frequencies (HMM).
-/

set_option linter.unusedSectionVars false
set_option autoImplicit false

namespace Jajapy

open BW Spec

/-- The sum of `g o` over the observations `o` of the training set, each trace being counted as often as its multiplicity. -/
noncomputable def Spec.dataSum {O : Type} (S : TSet O) (g : O → ℝ) : ℝ :=
  ((S.sequences.zip S.times).map (fun x => (x.2 : ℝ) * (x.1.map g).sum)).sum

/-- The mean of `g o` over the observations `o` of the training set. -/
noncomputable def Spec.dataMean {O : Type} (S : TSet O) (g : O → ℝ) : ℝ := dataSum S g / dataSum S (fun _ => 1)

variable {d : ℕ}

theorem GoHMM.total_one (M : GoHMM 1 d) (hM : M.Valid) (hs : ∀ s i, 0 < M.sigma s i) (S : TSet (Fin d → ℝ)) (hne : ∀ w ∈ S.sequences, w ≠ [])
    (φ : (Fin d → ℝ) → ℝ) : M.total S φ 0 = dataSum S φ := by
  have hl : ∀ x ∈ S.sequences.zip S.times, M.lik x.1 ≠ 0 := fun x hx => (M.lik_pos hM hs x.1 (hne _ (List.of_mem_zip hx).1)).ne'
  unfold GoHMM.total overSet dataSum
  rw [List.filter_eq_self.2 (fun x hx => by simpa using hl x hx)]
  congr 1
  refine List.map_congr_left (fun x hx => ?_)
  have h := hl x hx
  rw [M.lik_eq hM.2.2.2.1 _ (hne _ (List.of_mem_zip hx).1)] at h
  show (x.2 : ℝ) * expVisits M.initialState M.step (fun _ => 1) φ x.1 0 = _
  rw [expVisits_one _ _ _ _ _ h]
  congr 1
  simp [← Fin.sum_univ_fun_getElem]

theorem Spec.dataSum_pos {O : Type} (S : TSet O) (ht : ∀ t ∈ S.times, 1 ≤ t) (hne : ∀ w ∈ S.sequences, w ≠ []) (hz : S.sequences.zip S.times ≠ []) :
    0 < dataSum S (fun _ => 1) := by
  unfold dataSum
  refine List.sum_pos _ (fun y hy => ?_) (by simpa using hz)
  obtain ⟨x, hx, rfl⟩ := List.mem_map.1 hy
  have h1 : (0:ℝ) < x.2 := by exact_mod_cast ht _ (List.of_mem_zip hx).2
  have h2 : 0 < x.1.length := List.length_pos_of_ne_nil (hne _ (List.of_mem_zip hx).1)
  have h3 : (x.1.map (fun _ => (1:ℝ))).sum = x.1.length := by simp
  rw [h3]
  have : (0:ℝ) < x.1.length := by exact_mod_cast h2
  positivity

/-- C58, one state: after one iteration the mean is the mean of the data, and the variance is the mean square distance to the *former* mean. -/
theorem GoHMM.one_state_step (processes : ℕ) (S : TSet (Fin d → ℝ)) (M M' : GoHMM 1 d) (ll : ℝ) (hM : M.Valid) (hs : ∀ s i, 0 < M.sigma s i)
    (ht : ∀ t ∈ S.times, 1 ≤ t) (hne : ∀ w ∈ S.sequences, w ≠ []) (hz : S.sequences.zip S.times ≠ []) (h : stepGoHMM processes S M = .ok (M', ll)) :
    (∀ i, M'.mu 0 i = dataMean S (fun o => o i)) ∧
    (∀ i, M'.sigma 0 i = Real.sqrt (dataMean S (fun o => (o i - M.mu 0 i) ^ 2))) ∧
    M'.initialState 0 = 1 ∧ M'.matrix 0 0 = 1 := by
  obtain ⟨_, _, u3, u4, _⟩ := M.bw_update_spec _ _ _ _ hM.2.2.2.2 hM.2.2.2.1 hne h
  have hM' := M.bw_step_valid _ _ _ _ hM ht h
  have hv : M.visits S 0 = dataSum S (fun _ => 1) := M.total_one hM hs S hne _
  have hp := Spec.dataSum_pos S ht hne hz
  refine ⟨fun i => ?_, fun i => ?_, by simpa using hM'.2.1, by simpa using hM'.2.2.2.1 0⟩
  · rw [u3, hv, if_neg hp.ne', M.total_one hM hs S hne]; rfl
  · rw [u4, hv, if_neg hp.ne', M.total_one hM hs S hne]; rfl

/-- C58, one state: from the second iteration on, the model has the mean and the standard deviation of the data, whatever the initial model was. -/
theorem GoHMM.one_state_two (processes : ℕ) (S : TSet (Fin d → ℝ)) (M M1 M2 : GoHMM 1 d) (l1 l2 : ℝ) (hM : M.Valid) (hs : ∀ s i, 0 < M.sigma s i)
    (ht : ∀ t ∈ S.times, 1 ≤ t) (hne : ∀ w ∈ S.sequences, w ≠ []) (hz : S.sequences.zip S.times ≠ [])
    (h1 : stepGoHMM processes S M = .ok (M1, l1)) (hs1 : ∀ i, dataMean S (fun o => (o i - M.mu 0 i) ^ 2) ≠ 0)
    (h2 : stepGoHMM processes S M1 = .ok (M2, l2)) :
    (∀ i, M2.mu 0 i = dataMean S (fun o => o i)) ∧
    (∀ i, M2.sigma 0 i = Real.sqrt (dataMean S (fun o => (o i - dataMean S (fun o => o i)) ^ 2))) := by
  obtain ⟨a1, a2, _, _⟩ := M.one_state_step processes S M1 l1 hM hs ht hne hz h1
  have hM1 := M.bw_step_valid _ _ _ _ hM ht h1
  have hp := Spec.dataSum_pos S ht hne hz
  have hnn : ∀ i, 0 ≤ dataMean S (fun o => (o i - M.mu 0 i) ^ 2) := by
    intro i
    refine div_nonneg (List.sum_nonneg (fun y hy => ?_)) hp.le
    obtain ⟨x, _, rfl⟩ := List.mem_map.1 hy
    refine mul_nonneg (Nat.cast_nonneg _) (List.sum_nonneg (fun z hz => ?_))
    obtain ⟨o, _, rfl⟩ := List.mem_map.1 hz
    exact sq_nonneg _
  have hs' : ∀ s i, 0 < M1.sigma s i := by
    intro s i
    rw [Subsingleton.elim s 0, a2]
    exact Real.sqrt_pos.2 (lt_of_le_of_ne (hnn i) (hs1 i).symm)
  obtain ⟨b1, b2, _, _⟩ := M1.one_state_step processes S M2 l2 hM1 hs' ht hne hz h2
  refine ⟨b1, fun i => ?_⟩
  rw [b2]
  congr 2
  funext o
  rw [a1]

/-- The hypotheses of `GoHMM.one_state_two`, with a standard deviation that is not 0. -/
example : ∃ M1 M2 l1 l2, stepGoHMM 1 exSetPair exGoPair = .ok (M1, l1) ∧ stepGoHMM 1 exSetPair M1 = .ok (M2, l2) ∧
    M2.mu 0 0 = dataMean exSetPair (fun o => o 0) ∧ M2.sigma 0 0 = Real.sqrt (dataMean exSetPair (fun o => (o 0 - dataMean exSetPair (fun o => o 0)) ^ 2)) ∧
    M2.sigma 0 0 = 1 := by
  obtain ⟨ll, hr⟩ := exGoPair_step
  obtain ⟨a1, a2⟩ := GoHMM.one_state_two 1 exSetPair exGoPair exGoPair exGoPair ll ll exGoPair_valid (fun _ _ => by simp [exGoPair])
    (by simp [exSetPair]) (by simp [exSetPair]) (by simp [exSetPair]) hr (fun i => by simp [dataMean, dataSum, exSetPair, exGoPair]) hr
  exact ⟨_, _, _, _, hr, hr, a1 0, a2 0, rfl⟩

/-- One iteration is not enough for the standard deviation: from mean 5 it becomes √26 on data with standard deviation 1. -/
theorem GoHMM.one_state_first_sigma : ∃ M' ll, stepGoHMM 1 exSetPair { exGoPair with mu := fun _ _ => 5 } = .ok (M', ll) ∧
    M'.mu 0 0 = 0 ∧ M'.sigma 0 0 = Real.sqrt 26 := by
  have hv : GoHMM.Valid { exGoPair with mu := fun _ _ => 5 } := exGoPair_valid
  have hs : ∀ s i, 0 < GoHMM.sigma { exGoPair with mu := fun _ _ => 5 } s i := fun _ _ => by simp [exGoPair]
  have hne : ∀ w ∈ exSetPair.sequences, w ≠ [] := by simp [exSetPair]
  obtain ⟨⟨M', ll⟩, hr⟩ := (GoHMM.bw_step_outcome 1 exSetPair _ hv.2.2.2.2 hv.2.2.2.1 hne rfl).1
    (Or.inr ⟨le_refl _, by simp [exSetPair], fun w hw => (GoHMM.lik_pos _ hv hs w (hne w hw)).ne'⟩)
  obtain ⟨a1, a2, _, _⟩ := GoHMM.one_state_step 1 exSetPair _ M' ll hv hs (by simp [exSetPair]) hne (by simp [exSetPair]) hr
  refine ⟨M', ll, hr, ?_, ?_⟩
  · rw [a1]; simp [dataMean, dataSum, exSetPair]
  · rw [a2]; congr 1; simp [dataMean, dataSum, exSetPair]; norm_num

/-! ### HMMs with one state -/

section hmm
variable {O : Type} [DecidableEq O]

/-- The sums over the training set, for a model with one state and traces of probability not 0. -/
theorem overSet_one (S : TSet O) (P : List O → ℝ) (init : Fin 1 → ℝ) (tau : Fin 1 → Fin 1 → O → ℝ) (φ : O → ℝ)
    (hP : ∀ w ∈ S.sequences, P w ≠ 0 ∧ P w = totalWeight init tau (fun _ => 1) w) :
    overSet S P (fun w => expVisits init tau (fun _ => 1) φ w 0) = dataSum S φ := by
  unfold overSet dataSum
  rw [List.filter_eq_self.2 (fun x hx => by simpa using (hP x.1 (List.of_mem_zip hx).1).1)]
  congr 1
  refine List.map_congr_left (fun x hx => ?_)
  obtain ⟨h1, h2⟩ := hP x.1 (List.of_mem_zip hx).1
  show (x.2 : ℝ) * expVisits init tau (fun _ => 1) φ x.1 0 = _
  rw [expVisits_one _ _ _ _ _ (h2 ▸ h1)]
  congr 1
  simp [← Fin.sum_univ_fun_getElem]

/-- C58, HMM with one state: after one iteration the probability of every observation is its relative frequency in the data. -/
theorem HMM.one_state_step (processes : ℕ) (S : TSet O) (M M' : HMM ℝ O 1) (ll : ℝ) (hnd : M.alphabet.Nodup) (hM : M.Stochastic)
    (ht : ∀ t ∈ S.times, 1 ≤ t) (hne : ∀ w ∈ S.sequences, w ≠ []) (hz : S.sequences.zip S.times ≠ []) (hl : ∀ w ∈ S.sequences, M.lik w ≠ 0)
    (h : stepHMM processes S M = .ok (M', ll)) :
    (∀ o, M'.emit 0 o = dataMean S (fun o' => if o' = o then 1 else 0)) ∧ M'.initialState 0 = 1 ∧ M'.matrix 0 0 = 1 := by
  have hm := hM.2.2.2.1
  obtain ⟨_, _, _, u3, _⟩ := M.bw_update_spec _ _ _ _ hnd hm hne h
  have hM' := M.bw_step_stochastic _ _ _ _ hnd hM ht h
  have ht' : ∀ φ : O → ℝ, overSet S M.lik (fun w => expVisits M.initialState M.step (fun _ => 1) φ w 0) = dataSum S φ := fun φ =>
    overSet_one S M.lik _ _ φ (fun w hw => ⟨hl w hw, M.lik_eq hm w (hne w hw)⟩)
  have hv : M.visits S 0 = dataSum S (fun _ => 1) := ht' _
  refine ⟨fun o => ?_, by simpa using hM'.2.1, by simpa using hM'.2.2.2.1 0⟩
  rw [u3, hv, if_neg (Spec.dataSum_pos S ht hne hz).ne']
  exact congrArg (· / _) (ht' _)

end hmm

/-- A coin. -/
noncomputable def exCoin : HMM ℝ String 1 where
  matrix := fun _ _ => 1
  alphabet := ["x", "y"]
  output := fun _ _ => 1/2
  initialState := fun _ => 1

theorem exCoin_stochastic : exCoin.Stochastic := by
  refine ⟨fun _ => ?_, ?_, fun _ _ => ?_, fun _ => ?_, fun _ _ => ?_, fun _ => ?_⟩
  · simp [exCoin]
  · simp [exCoin]
  · simp [exCoin]
  · simp [exCoin]
  · simp [exCoin]
  · change ∑ i : Fin 2, _ = _
    simp only [exCoin, Fin.sum_univ_two]
    norm_num

theorem exCoin_lik : ∀ w ∈ spellSet.sequences, exCoin.lik w ≠ 0 := by
  intro w hw
  simp only [spellSet, List.mem_singleton] at hw
  subst hw
  have hx : exCoin.emit 0 "x" = 1/2 := exCoin.emit_getElem (by decide) 0 ⟨0, by decide⟩
  have hy : exCoin.emit 0 "y" = 1/2 := exCoin.emit_getElem (by decide) 0 ⟨1, by decide⟩
  unfold HMM.lik
  rw [listProb_eq_sufProb]
  simp only [sufProb, Fin.sum_univ_one, hx, hy]
  simp [exCoin]

/-- The hypotheses of `HMM.one_state_step`, on the trace x, y, y: the probability of y becomes 2/3. -/
example : ∃ M' ll, stepHMM 2 spellSet exCoin = .ok (M', ll) ∧ M'.emit 0 "y" = 2/3 := by
  have hn : exCoin.alphabet.Nodup := by decide
  have hl := exCoin_lik
  obtain ⟨⟨M', ll⟩, hr⟩ := (exCoin.bw_step_outcome 2 spellSet hn exCoin_stochastic.2.2.2.1 (by decide) (by decide)).1
    (Or.inl ⟨by norm_num, _, List.mem_cons_self .., hl _ (List.mem_cons_self ..)⟩)
  refine ⟨M', ll, hr, ?_⟩
  rw [(exCoin.one_state_step 2 spellSet M' ll hn exCoin_stochastic (by decide) (by decide) (by decide) hl hr).1 "y"]
  simp [dataMean, dataSum, spellSet]
  norm_num

end Jajapy
