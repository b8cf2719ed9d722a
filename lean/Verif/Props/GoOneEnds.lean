import Verif.Props.GoOne

/-!
C41 and C58, the case of one state: the learning of a GoHMM ends after at most 4 iterations, that of a HMM after at most 3.
-/

set_option linter.unusedSectionVars false
set_option autoImplicit false

namespace Jajapy

open BW Spec

variable {O : Type} {d : ℕ}

theorem Spec.dataSum_add (S : TSet O) (f g : O → ℝ) : dataSum S (fun o => f o + g o) = dataSum S f + dataSum S g := by
  unfold dataSum
  rw [← List.sum_map_add]
  congr 1
  refine List.map_congr_left (fun x _ => ?_)
  rw [List.sum_map_add, mul_add]

theorem Spec.dataSum_mul (S : TSet O) (c : ℝ) (f : O → ℝ) : dataSum S (fun o => c * f o) = c * dataSum S f := by
  unfold dataSum
  rw [← List.sum_map_mul_left]
  congr 1
  refine List.map_congr_left (fun x _ => ?_)
  rw [List.sum_map_mul_left]
  ring

/-- The mean square distance to `c` is the variance plus the square of the distance from `c` to the mean. -/
theorem Spec.dataMean_around (S : TSet O) (hp : 0 < dataSum S (fun _ => 1)) (f : O → ℝ) (c : ℝ) :
    dataMean S (fun o => (f o - c) ^ 2) = dataMean S (fun o => (f o - dataMean S f) ^ 2) + (dataMean S f - c) ^ 2 := by
  have key : ∀ c, dataSum S (fun o => (f o - c) ^ 2) = dataSum S (fun o => f o ^ 2) + (-2 * c) * dataSum S f + c ^ 2 * dataSum S (fun _ => 1) := by
    intro c
    rw [← dataSum_mul, ← dataSum_mul, ← dataSum_add, ← dataSum_add]
    congr 1
    funext o
    ring
  unfold dataMean
  rw [key c, key (dataSum S f / dataSum S (fun _ => 1))]
  field_simp
  ring

theorem Spec.dataMean_nonneg (S : TSet O) (f : O → ℝ) (hf : ∀ o, 0 ≤ f o) : 0 ≤ dataMean S f := by
  have h : ∀ g : O → ℝ, (∀ o, 0 ≤ g o) → 0 ≤ dataSum S g := by
    intro g hg
    refine List.sum_nonneg (fun y hy => ?_)
    obtain ⟨x, _, rfl⟩ := List.mem_map.1 hy
    refine mul_nonneg (Nat.cast_nonneg _) (List.sum_nonneg (fun z hz => ?_))
    obtain ⟨o, _, rfl⟩ := List.mem_map.1 hz
    exact hg o
  exact div_nonneg (h _ hf) (h _ (fun _ => zero_le_one))

/-- C41 and C58, GoHMM with one state, for data that are not constant: the learning ends after at most 4 iterations, for every `max_it` and every
positive `epsilon`, and from the second iteration on the model has the mean and the standard deviation of the data. -/
theorem GoHMM.one_state_ends (processes : ℕ) (S : TSet (Fin d → ℝ)) (epsilon : ℝ) (he : 0 < epsilon) (maxIt : ℕ) (M : GoHMM 1 d) (hM : M.Valid)
    (hs : ∀ s i, 0 < M.sigma s i) (ht : ∀ t ∈ S.times, 1 ≤ t) (hne : ∀ w ∈ S.sequences, w ≠ []) (hz : S.sequences.zip S.times ≠ [])
    (hvar : ∀ i, dataMean S (fun o => (o i - dataMean S (fun o => o i)) ^ 2) ≠ 0) (st : LoopState (GoHMM 1 d))
    (hst : fit (stepGoHMM processes S) epsilon maxIt M = .ok st) :
    st.counter ≤ 4 ∧ (2 ≤ st.counter → ∀ i, st.h.mu 0 i = dataMean S (fun o => o i) ∧
      st.h.sigma 0 i = Real.sqrt (dataMean S (fun o => (o i - dataMean S (fun o => o i)) ^ 2))) := by
  obtain ⟨k, hs', ls, a1, a2, a3, a4, _, _, _, a8, _⟩ := fit_iterations _ _ _ _ _ hst
  have hp := Spec.dataSum_pos S ht hne hz
  have hpos : ∀ (c : ℝ) i, 0 < dataMean S (fun o => (o i - c) ^ 2) := by
    intro c i
    have h1 := lt_of_le_of_ne (Spec.dataMean_nonneg S _ (fun o => sq_nonneg (o i - dataMean S (fun o => o i)))) (hvar i).symm
    have := Spec.dataMean_around S hp (fun o : Fin d → ℝ => o i) c
    rw [this]
    have := sq_nonneg (dataMean S (fun o : Fin d → ℝ => o i) - c)
    linarith
  have inv : ∀ j, j ≤ k → (hs' j).Valid ∧ ∀ s i, 0 < (hs' j).sigma s i := by
    intro j
    induction j with
    | zero => intro _; rw [a1]; exact ⟨hM, hs⟩
    | succ j ih =>
      intro hj
      obtain ⟨v, p⟩ := ih (by omega)
      obtain ⟨_, b2, _, _⟩ := (hs' j).one_state_step processes S _ _ v p ht hne hz (a2 j (by omega))
      refine ⟨(hs' j).bw_step_valid _ _ _ _ v ht (a2 j (by omega)), fun s i => ?_⟩
      rw [Subsingleton.elim s 0, b2]
      exact Real.sqrt_pos.2 (hpos _ _)
  have two : ∀ j, j + 2 ≤ k → ∀ i, (hs' (j+2)).mu 0 i = dataMean S (fun o => o i) ∧
      (hs' (j+2)).sigma 0 i = Real.sqrt (dataMean S (fun o => (o i - dataMean S (fun o => o i)) ^ 2)) := by
    intro j hj i
    obtain ⟨v, p⟩ := inv j (by omega)
    obtain ⟨c1, c2⟩ := (hs' j).one_state_two processes S _ _ _ _ v p ht hne hz (a2 j (by omega)) (fun i => (hpos _ i).ne') (a2 (j+1) (by omega))
    exact ⟨c1 i, c2 i⟩
  constructor
  · by_contra hk
    rw [a4] at hk
    have e : hs' 3 = hs' 2 := by
      obtain ⟨_, _, i3, m3⟩ := (hs' 2).one_state_step processes S _ _ (inv 2 (by omega)).1 (inv 2 (by omega)).2 ht hne hz (a2 2 (by omega))
      obtain ⟨_, _, i2, m2⟩ := (hs' 1).one_state_step processes S _ _ (inv 1 (by omega)).1 (inv 1 (by omega)).2 ht hne hz (a2 1 (by omega))
      have t3 := two 1 (by omega)
      have t2 := two 0 (by omega)
      simp only [Nat.reduceAdd] at *
      cases h3 : hs' 3 with
      | mk x1 x2 x3 x4 =>
        cases h2 : hs' 2 with
        | mk y1 y2 y3 y4 =>
          rw [h3] at i3 m3 t3
          rw [h2] at i2 m2 t2
          simp only [GoHMM.mk.injEq] at *
          refine ⟨?_, ?_, ?_, ?_⟩
          · funext i j; rw [Subsingleton.elim i 0, Subsingleton.elim j 0, m3, m2]
          · funext i j; rw [Subsingleton.elim i 0, (t3 j).1, (t2 j).1]
          · funext i j; rw [Subsingleton.elim i 0, (t3 j).2, (t2 j).2]
          · funext i; rw [Subsingleton.elim i 0, i3, i2]
    have q2 := a2 2 (by omega)
    have q3 := a2 3 (by omega)
    simp only [Nat.reduceAdd] at q2 q3
    rw [e] at q3
    rw [q2] at q3
    have hl : ls 2 = ls 3 := by injection q3 with q3; exact congrArg Prod.snd q3
    have := a8 2 (by omega)
    simp only [Nat.reduceAdd] at this
    linarith
  · intro h i
    obtain ⟨j, hj⟩ : ∃ j, k = j + 2 := ⟨k - 2, by omega⟩
    rw [a3, hj]
    exact two j (by omega) i

/-- The hypotheses of `GoHMM.one_state_ends`. -/
example (maxIt : ℕ) : ∃ st, fit (stepGoHMM 1 exSetPair) (1/100) maxIt exGoPair = .ok st ∧ st.counter ≤ 4 := by
  obtain ⟨ll, hr⟩ := exGoPair_step
  have hne : ∀ w ∈ exSetPair.sequences, w ≠ [] := by simp [exSetPair]
  have : ∀ m (c : ℕ) (l : Option ℝ), ∃ st, loop (stepGoHMM 1 exSetPair) (1/100) m ⟨exGoPair, c, l⟩ = .ok st := by
    intro m
    induction m with
    | zero => intro c l; exact ⟨_, rfl⟩
    | succ m ih =>
      intro c l
      cases l with
      | none => simpa [loop, hr, bind, Except.bind] using ih (c+1) (some ll)
      | some x =>
        by_cases hx : ll - x < 1/100
        · exact ⟨⟨exGoPair, c+1, some ll⟩, by simp only [loop, hr, bind, Except.bind]; rw [if_pos hx]; rfl⟩
        · obtain ⟨st, h⟩ := ih (c+1) (some ll)
          exact ⟨st, by simp only [loop, hr, bind, Except.bind]; rw [if_neg hx]; exact h⟩
  obtain ⟨st, hst⟩ := this maxIt 0 none
  exact ⟨st, hst, (GoHMM.one_state_ends 1 exSetPair (1/100) (by norm_num) maxIt exGoPair exGoPair_valid (fun _ _ => by simp [exGoPair])
    (by simp [exSetPair]) hne (by simp [exSetPair]) (fun i => by simp [dataMean, dataSum, exSetPair]) st hst).1⟩

/-- C41 and C58, HMM with one state: the learning ends after at most 3 iterations, for every `max_it` and every positive `epsilon`, and from the first
iteration on the probabilities of the observations are their relative frequencies in the data. -/
theorem HMM.one_state_ends [DecidableEq O] (processes : ℕ) (S : TSet O) (epsilon : ℝ) (he : 0 < epsilon) (maxIt : ℕ) (M : HMM ℝ O 1)
    (hnd : M.alphabet.Nodup) (hM : M.Stochastic) (ht : ∀ t ∈ S.times, 1 ≤ t) (hne : ∀ w ∈ S.sequences, w ≠ [])
    (hlen : S.times.length = S.sequences.length) (hz : S.sequences.zip S.times ≠ []) (hl : ∀ w ∈ S.sequences, M.lik w ≠ 0)
    (st : LoopState (HMM ℝ O 1)) (hst : fit (stepHMM processes S) epsilon maxIt M = .ok st) :
    st.counter ≤ 3 ∧ (1 ≤ st.counter → ∀ o, st.h.emit 0 o = dataMean S (fun o' => if o' = o then 1 else 0)) := by
  obtain ⟨k, hs, ls, a1, a2, a3, a4, _, _, _, a8, _⟩ := fit_iterations _ _ _ _ _ hst
  have inv : ∀ j, j ≤ k → (hs j).alphabet.Nodup ∧ (hs j).Stochastic ∧ ∀ w ∈ S.sequences, (hs j).lik w ≠ 0 := by
    intro j
    induction j with
    | zero => intro _; rw [a1]; exact ⟨hnd, hM, hl⟩
    | succ j ih =>
      intro hj
      obtain ⟨i1, i2, i3⟩ := ih (by omega)
      have q := a2 j (by omega)
      exact ⟨by rw [HMM.bw_step_alphabet _ _ _ _ _ q]; exact i1, (hs j).bw_step_stochastic _ _ _ _ i1 i2 ht q,
        fun w hw => (((hs j).bw_step_monotone _ _ _ _ i1 i2 hne hlen ht q).2.1 w hw).mp (i3 w hw)⟩
  have one : ∀ j, j + 1 ≤ k → (∀ o, (hs (j+1)).emit 0 o = dataMean S (fun o' => if o' = o then 1 else 0)) ∧
      (hs (j+1)).initialState 0 = 1 ∧ (hs (j+1)).matrix 0 0 = 1 := by
    intro j hj
    obtain ⟨i1, i2, i3⟩ := inv j (by omega)
    exact (hs j).one_state_step processes S _ _ i1 i2 ht hne hz i3 (a2 j (by omega))
  constructor
  · by_contra hk
    rw [a4] at hk
    obtain ⟨e1, e2, e3⟩ := one 0 (by omega)
    obtain ⟨f1, f2, f3⟩ := one 1 (by omega)
    simp only [Nat.reduceAdd] at e1 e2 e3 f1 f2 f3
    have h1 : (hs 2).emit = (hs 1).emit := by funext s o; rw [Subsingleton.elim s 0, e1, f1]
    have h2 : (hs 2).initialState = (hs 1).initialState := by funext s; rw [Subsingleton.elim s 0, e2, f2]
    have h3 : (hs 2).matrix = (hs 1).matrix := by funext s s'; rw [Subsingleton.elim s 0, Subsingleton.elim s' 0, e3, f3]
    have h4 : (hs 2).lik = (hs 1).lik := by funext w; unfold HMM.lik; rw [h1, h2, h3]
    obtain ⟨i1, i2, _⟩ := inv 1 (by omega)
    obtain ⟨j1, j2, _⟩ := inv 2 (by omega)
    have l1 := ((hs 1).bw_update_spec _ _ _ _ i1 i2.2.2.2.1 hne (a2 1 (by omega))).2.2.2.2
    have l2 := ((hs 2).bw_update_spec _ _ _ _ j1 j2.2.2.2.1 hne (a2 2 (by omega))).2.2.2.2
    rw [h4, ← l1] at l2
    have := a8 1 (by omega)
    simp only [Nat.reduceAdd] at this
    linarith
  · intro h o
    obtain ⟨j, hj⟩ : ∃ j, k = j + 1 := ⟨k - 1, by omega⟩
    rw [a3, hj]
    exact (one j (by omega)).1 o

/-- The hypotheses of `HMM.one_state_ends`: the coin learns the probability 2/3 of y. -/
example (maxIt : ℕ) : ∃ st, fit (stepHMM 2 spellSet) (1/100) (maxIt + 1) exCoin = .ok st ∧ st.counter ≤ 3 ∧ st.h.emit 0 "y" = 2/3 := by
  have hn : exCoin.alphabet.Nodup := by decide
  obtain ⟨st, hst⟩ := HMM.fit_total 2 (by norm_num) spellSet (1/100) (maxIt + 1) exCoin hn exCoin_stochastic (by decide) (by decide) (by decide)
    ["x", "y", "y"] (by decide) (exCoin_lik _ (by decide))
  obtain ⟨a1, a2⟩ := HMM.one_state_ends 2 spellSet (1/100) (by norm_num) (maxIt + 1) exCoin hn exCoin_stochastic (by decide) (by decide) (by decide)
    (by decide) exCoin_lik st hst
  obtain ⟨k, _, _, _, _, _, b4, _, _, b7, _⟩ := fit_iterations _ _ _ _ _ hst
  have := b7 (by omega)
  refine ⟨st, hst, a1, ?_⟩
  rw [a2 (by omega)]
  simp [dataMean, dataSum, spellSet]
  norm_num

end Jajapy
