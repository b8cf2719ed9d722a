import Verif.Props.AlergiaLimit
import Verif.Lemmas.Evaluation

/-!
C102 and C103 for training sets generated by a hidden Markov model.
-/

set_option linter.unusedSectionVars false

namespace Jajapy

open MeasureTheory ProbabilityTheory Filter Spec Spec.Alergia Alergia Tools Topology

namespace HMM
variable {n : ℕ}

theorem runLoop_take (M : HMM ℝ String n) (steps k : ℕ) (hk : k ≤ steps) (d : ℕ → ℝ) (s : Fin n) (w : List String) (h : M.runLoop steps d s = .ok w) :
    M.runLoop k d s = .ok (w.take k) := by
  induction k generalizing steps d s w with
  | zero => simp only [runLoop, List.take_zero]
  | succ k ih =>
    cases steps with
    | zero => omega
    | succ steps =>
      simp only [runLoop] at h ⊢
      obtain ⟨⟨c, l⟩, h1, h2⟩ := (Except.bind_eq_ok _ _ _).1 h
      obtain ⟨rest, h5, h3⟩ := (Except.bind_eq_ok _ _ _).1 h2
      cases h3
      rw [h1]
      simp only [Bind.bind, Except.bind]
      rw [ih steps (by omega) _ _ _ h5]
      rfl

theorem run_take (M : HMM ℝ String n) (steps k : ℕ) (hk : k ≤ steps) (d : ℕ → ℝ) (w : List String) (h : M.run steps d = .ok w) :
    M.run k d = .ok (w.take k) := by
  obtain ⟨c, h1, h2⟩ := (Except.bind_eq_ok _ _ _).1 h
  simp only [run, h1, Bind.bind, Except.bind]
  exact M.runLoop_take steps k hk _ c w h2

/-- The probability that a trace of `run` starts with `u` is the likelihood of `u`. -/
theorem prefix_law (M : HMM ℝ String n) (hn : M.alphabet.Nodup) (hM : M.Stochastic) (steps : ℕ) (u : List String) (hu : u ≠ []) (hl : u.length ≤ steps) :
    drawsLaw.real (prefEvent (M.run steps) u) = M.lik u := by
  obtain ⟨hlaw, hp0⟩ := M.run_lik hn hM u.length (List.length_pos_of_ne_nil hu) u rfl
  have e : prefEvent (M.run steps) u =ᵐ[drawsLaw] {d | M.run u.length d = .ok u} := by
    filter_upwards [draws_in_range] with d hd
    obtain ⟨w, hw⟩ := M.run_total hM.1 hM.2.1 hM.2.2.1 hM.2.2.2.1 hM.2.2.2.2.1 hM.2.2.2.2.2 steps d hd
    have ht := M.run_take steps u.length hl d w hw
    refine propext ?_
    constructor
    · rintro ⟨w', hw', hpre⟩
      rw [hw] at hw'
      injection hw' with hw'
      subst hw'
      show M.run u.length d = .ok u
      rw [ht, ← List.prefix_iff_eq_take.1 hpre]
    · intro h
      have h : M.run u.length d = .ok u := h
      rw [ht] at h
      injection h with h
      exact ⟨w, hw, h ▸ List.take_prefix _ _⟩
  unfold Measure.real
  rw [measure_congr e, hlaw, ENNReal.toReal_ofReal hp0]

theorem lik_nonneg_pref (M : HMM ℝ String n) (hn : M.alphabet.Nodup) (hM : M.Stochastic) (u : List String) (hu : u ≠ []) : 0 ≤ M.lik u := by
  rw [← M.prefix_law hn hM u.length u hu (by omega)]
  exact measureReal_nonneg

/-- C102, HMM: **wrong rejections**. The training set is generated by an HMM with `generateSet`. If after the words `u` and `v`, which end with the same
label, all the continuations have the same probability in the HMM, then the states of the prefix tree reached by `u` and `v` are declared
incompatible with a probability of at most `2*alpha` for each word over the letters of the HMM that is not longer than the rest of the traces. -/
theorem compatible_rejects (M : HMM ℝ String n) (hn : M.alphabet.Nodup) (hM : M.Stochastic) (kind : String → Kind) (steps : ℕ) (hs : 2 ≤ steps) (geom : ℕ → ℕ)
    (alpha : ℝ) (ha : 0 < alpha) (ha2 : alpha ≤ 2) (u v : List String) (hu : u ≠ []) (hv : v ≠ []) (hlast : u.getLast? = v.getLast?)
    (hfut : SameFutures M.lik u v) (N : ℕ) :
    drawsLaw.real {d | ∃ S, generateSet kind (fun j k => M.run k (fun i => d (j * (2 * steps + 1) + i))) N false none (.int steps) geom = .ok S ∧
        Answers (hoeffding alpha) S u v false}
      ≤ 2 * alpha * ∑ k ∈ Finset.Icc 1 (steps - max u.length v.length), (M.alphabet.toFinset.card : ℝ) ^ k := by
  simp only [gen_eq kind _ N false none (.int steps) geom (fun _ => steps) (fun _ => rfl)]
  have hsim := M.simulates hn hM steps
  refine (stream_le (Nat.succ_pos (2 * steps)) (M.run_reads steps) (gen kind) N _).trans ?_
  refine rejects_law (hsim.block (Nat.succ_pos (2 * steps)) (M.run_reads steps)) (gen_counts kind _ (fun w hw => by have := hw.1; omega))
    (fun w hw => hw.1) M.alphabet.toFinset (fun w hw o ho => ?_) alpha ha ha2 u v hu hv hlast (fun w h1 h2 => ?_) N
  · exact List.mem_toFinset.2 (hw.2 o ho)
  · rw [block_pref (Nat.succ_pos (2 * steps)) (M.run_reads steps) hsim, block_pref (Nat.succ_pos (2 * steps)) (M.run_reads steps) hsim,
      block_pref (Nat.succ_pos (2 * steps)) (M.run_reads steps) hsim, block_pref (Nat.succ_pos (2 * steps)) (M.run_reads steps) hsim,
      M.prefix_law hn hM steps (u ++ w) (by simp [hu]) (by rw [List.length_append]; omega),
      M.prefix_law hn hM steps (v ++ w) (by simp [hv]) (by rw [List.length_append]; omega),
      M.prefix_law hn hM steps u hu (by omega), M.prefix_law hn hM steps v hv (by omega)]
    exact hfut w

/-- C102, HMM: **wrong acceptances**. If in the HMM the probability of a label after `u` and its probability after `v` differ by at least
`2 (√(1/n_u) + √(1/n_v)) √(½ log(2/alpha))`, where `n_u` and `n_v` are the numbers of training traces that start with these words, then the
states reached by `u` and `v` are declared compatible with a probability of at most `2*alpha`. -/
theorem compatible_accepts (M : HMM ℝ String n) (hn : M.alphabet.Nodup) (hM : M.Stochastic) (kind : String → Kind) (steps : ℕ) (hs : 2 ≤ steps) (geom : ℕ → ℕ)
    (alpha : ℝ) (ha : 0 < alpha) (ha2 : alpha ≤ 2) (u v : List String) (hu : u ≠ []) (hv : v ≠ []) (hul : u.length < steps)
    (hvl : v.length < steps) (o : String) (N : ℕ) (hN : 1 ≤ N) :
    drawsLaw.real {d | ∃ S, generateSet kind (fun j k => M.run k (fun i => d (j * (2 * steps + 1) + i))) N false none (.int steps) geom = .ok S ∧
        Answers (hoeffding alpha) S u v true ∧
        2 * ((Real.sqrt (1 / prefixCount (S.sequences.zip S.times) u) + Real.sqrt (1 / prefixCount (S.sequences.zip S.times) v)) *
          Real.sqrt (1/2 * Real.log (2 / alpha))) ≤ |M.lik (u ++ [o]) / M.lik u - M.lik (v ++ [o]) / M.lik v|}
      ≤ 2 * alpha := by
  simp only [gen_eq kind _ N false none (.int steps) geom (fun _ => steps) (fun _ => rfl)]
  have hsim := M.simulates hn hM steps
  have hmono : ∀ u : List String, u ≠ [] → u.length < steps → M.lik (u ++ [o]) ≤ M.lik u := by
    intro u hu hl
    rw [← M.prefix_law hn hM steps u hu (by omega), ← M.prefix_law hn hM steps (u ++ [o]) (by simp) (by simp; omega)]
    exact measureReal_mono (prefEvent_sub _ _ _)
  have hq : ∀ u : List String, u ≠ [] → u.length < steps → 0 ≤ M.lik (u ++ [o]) / M.lik u ∧ M.lik (u ++ [o]) / M.lik u ≤ 1 ∧
      M.lik (u ++ [o]) = M.lik (u ++ [o]) / M.lik u * M.lik u := by
    intro u hu hl
    have h1 := M.lik_nonneg_pref hn hM u hu
    have h2 := M.lik_nonneg_pref hn hM (u ++ [o]) (by simp)
    refine ⟨div_nonneg h2 h1, div_le_one_of_le₀ (hmono u hu hl) h1, ?_⟩
    by_cases hz : M.lik u = 0
    · rw [hz, mul_zero]
      exact le_antisymm (hz ▸ hmono u hu hl) h2
    · rw [div_mul_cancel₀ _ hz]
  obtain ⟨p0, p1, pe⟩ := hq u hu hul
  obtain ⟨q0, q1, qe⟩ := hq v hv hvl
  refine (stream_le (Nat.succ_pos (2 * steps)) (M.run_reads steps) (gen kind) N _).trans ?_
  refine accepts_law (hsim.block (Nat.succ_pos (2 * steps)) (M.run_reads steps)) (gen_counts kind _ (fun w hw => by have := hw.1; omega))
    (fun w hw => hw.1) alpha ha ha2 u v (by omega) (by omega) o _ _ p0 p1 q0 q1 ?_ ?_ N (by omega)
  · rw [block_pref (Nat.succ_pos (2 * steps)) (M.run_reads steps) hsim, block_pref (Nat.succ_pos (2 * steps)) (M.run_reads steps) hsim,
      M.prefix_law hn hM steps _ (by simp) (by simp; omega), M.prefix_law hn hM steps _ hu (by omega)]
    exact pe
  · rw [block_pref (Nat.succ_pos (2 * steps)) (M.run_reads steps) hsim, block_pref (Nat.succ_pos (2 * steps)) (M.run_reads steps) hsim,
      M.prefix_law hn hM steps _ (by simp) (by simp; omega), M.prefix_law hn hM steps _ hv (by omega)]
    exact qe

/-- C103, HMM. The training set is generated by an HMM with `generateSet`. If in the HMM the probability of a label `o` after `u ++ w` is not its
probability after `v ++ w`, then almost surely, for all sufficiently large sets, the states of the prefix tree reached by `u` and `v` are
declared incompatible, for every `alpha`. Partial: the labels of `w` have to be noticed by the tree. -/
theorem compatible_separates_partial (M : HMM ℝ String n) (hn : M.alphabet.Nodup) (hM : M.Stochastic) (kind : String → Kind) (steps : ℕ) (hs : 2 ≤ steps) (geom : ℕ → ℕ)
    (alpha : ℝ) (ha : 0 < alpha) (ha2 : alpha ≤ 2) (u v : List String) (hu : u ≠ []) (hv : v ≠ []) (w : List String) (o : String)
    (hul : (u ++ w).length < steps) (hvl : (v ++ w).length < steps) (p1 : 0 < M.lik (u ++ w)) (p2 : 0 < M.lik (v ++ w))
    (hne : M.lik (u ++ w ++ [o]) / M.lik (u ++ w) ≠ M.lik (v ++ w ++ [o]) / M.lik (v ++ w)) (hw : ∀ l ∈ w, Noticed M.lik steps l) :
    ∀ᵐ d ∂drawsLaw, ∀ᶠ N in atTop,
      ∃ S, generateSet kind (fun j k => M.run k (fun i => d (j * (2 * steps + 1) + i))) N false none (.int steps) geom = .ok S ∧
        Answers (hoeffding alpha) S u v false := by
  have hsim := M.simulates hn hM steps
  have hpre : ∀ z : List String, z ≠ [] → z.length ≤ steps →
      (blockLaw (2 * steps + 1)).real (prefEvent (fun v => M.run steps (padZero (2 * steps + 1) v)) z) = M.lik z := by
    intro z hz hl
    rw [block_pref (Nat.succ_pos (2 * steps)) (M.run_reads steps) hsim, M.prefix_law hn hM steps z hz hl]
  have e1 := hpre (u ++ w) (by simp [hu]) (by omega)
  have e2 := hpre (v ++ w) (by simp [hv]) (by omega)
  have e3 := hpre (u ++ w ++ [o]) (by simp) (by rw [List.length_append, List.length_singleton]; omega)
  have e4 := hpre (v ++ w ++ [o]) (by simp) (by rw [List.length_append, List.length_singleton]; omega)
  have h := separates_law (hsim.block (Nat.succ_pos (2 * steps)) (M.run_reads steps)) (gen_counts kind _ (fun w hw => by have := hw.1; omega))
    (fun w hw => hw.1) alpha ha ha2 u v hu w o (by omega) (by omega) (by rw [e1]; exact p1) (by rw [e2]; exact p2)
    (by rw [e1, e2, e3, e4]; exact hne) (by
      intro l hl
      rcases hw l hl with ⟨a, b⟩ | ⟨z, x, y, a, b, c, q1, q2⟩
      · exact .inl ⟨a, lt_of_lt_of_eq b (hpre [l] (by simp) (by simp; omega)).symm⟩
      · exact .inr ⟨z, x, y, a, b, c, lt_of_lt_of_eq q1 (hpre _ (by simp) (by simpa using a)).symm,
          lt_of_lt_of_eq q2 (hpre _ (by simp) (by simpa using a)).symm⟩)
  have h1 := (blocks_law (2 * steps + 1) (Nat.succ_pos (2 * steps))).quasiMeasurePreserving.ae h
  filter_upwards [h1] with d hd
  filter_upwards [hd] with N hN
  obtain ⟨S, h2, h3⟩ := hN
  refine ⟨S, ?_, h3⟩
  rw [gen_eq kind _ N false none (.int steps) geom (fun _ => steps) (fun _ => rfl)]
  simp only [(M.run_reads steps).block] at h2
  exact h2

/-- C103, HMM: the next label is always looked at. -/
theorem compatible_separates_next (M : HMM ℝ String n) (hn : M.alphabet.Nodup) (hM : M.Stochastic) (kind : String → Kind) (steps : ℕ) (hs : 2 ≤ steps) (geom : ℕ → ℕ)
    (alpha : ℝ) (ha : 0 < alpha) (ha2 : alpha ≤ 2) (u v : List String) (hu : u ≠ []) (hv : v ≠ []) (o : String)
    (hul : u.length < steps) (hvl : v.length < steps) (p1 : 0 < M.lik u) (p2 : 0 < M.lik v)
    (hne : M.lik (u ++ [o]) / M.lik u ≠ M.lik (v ++ [o]) / M.lik v) :
    ∀ᵐ d ∂drawsLaw, ∀ᶠ N in atTop,
      ∃ S, generateSet kind (fun j k => M.run k (fun i => d (j * (2 * steps + 1) + i))) N false none (.int steps) geom = .ok S ∧
        Answers (hoeffding alpha) S u v false :=
  M.compatible_separates_partial hn hM kind steps hs geom alpha ha ha2 u v hu hv [] o (by simpa using hul) (by simpa using hvl)
    (by simpa using p1) (by simpa using p2) (by simpa using hne) (by simp)

/-- C103, HMM: a difference is found if the label is neither certain nor impossible after one of the two words. -/
theorem compatible_separates_branching (M : HMM ℝ String n) (hn : M.alphabet.Nodup) (hM : M.Stochastic) (kind : String → Kind) (steps : ℕ) (hs : 2 ≤ steps) (geom : ℕ → ℕ)
    (alpha : ℝ) (ha : 0 < alpha) (ha2 : alpha ≤ 2) (u v : List String) (hu : u ≠ []) (hv : v ≠ []) (w : List String) (o o' : String)
    (hul : (u ++ w).length < steps) (hvl : (v ++ w).length < steps) (p2 : 0 < M.lik (v ++ w))
    (hne : M.lik (u ++ w ++ [o]) / M.lik (u ++ w) ≠ M.lik (v ++ w ++ [o]) / M.lik (v ++ w)) (hoo : o ≠ o')
    (q1 : 0 < M.lik (u ++ w ++ [o])) (q2 : 0 < M.lik (u ++ w ++ [o'])) :
    ∀ᵐ d ∂drawsLaw, ∀ᶠ N in atTop,
      ∃ S, generateSet kind (fun j k => M.run k (fun i => d (j * (2 * steps + 1) + i))) N false none (.int steps) geom = .ok S ∧
        Answers (hoeffding alpha) S u v false := by
  have p1 : 0 < M.lik (u ++ w) := by
    refine lt_of_lt_of_le q1 ?_
    rw [← M.prefix_law hn hM steps (u ++ w) (by simp [hu]) (by omega),
      ← M.prefix_law hn hM steps (u ++ w ++ [o]) (by simp) (by rw [List.length_append, List.length_singleton]; omega)]
    exact measureReal_mono (prefEvent_sub _ _ _)
  refine M.compatible_separates_partial hn hM kind steps hs geom alpha ha ha2 u v hu hv w o hul hvl p1 p2 hne (fun l hl => .inr ?_)
  rcases lt_or_gt_of_ne hoo with h | h
  · exact ⟨u ++ w, o, o', by omega, h, by simp [hl], q1, q2⟩
  · exact ⟨u ++ w, o', o, by omega, h, by simp [hl], q2, q1⟩

end HMM

/-! ### Examples -/

/-- A fair coin. -/
noncomputable def coinHMM : HMM ℝ String 1 := ⟨fun _ _ => 1, ["h", "t"], fun _ _ => 1/2, fun _ => 1⟩

theorem coinHMM_stochastic : coinHMM.Stochastic := by
  refine ⟨by simp [coinHMM], by simp [coinHMM], by simp [coinHMM], by simp [coinHMM], ?_, ?_⟩
  · intro s i; simp only [coinHMM]; norm_num
  · intro s
    refine Eq.trans (Fin.sum_univ_two _) ?_
    simp only [coinHMM]
    norm_num

theorem coinHMM_suf (u w : List String) (s : Fin 1) (h : w ≠ []) :
    sufProb coinHMM.matrix coinHMM.emit s (u ++ w) = (u.map (coinHMM.emit 0)).prod * sufProb coinHMM.matrix coinHMM.emit 0 w := by
  induction u generalizing s with
  | nil => simp [Subsingleton.elim s 0]
  | cons o u ih =>
    cases hu : u ++ w with
    | nil => simp at hu; exact absurd hu.2 h
    | cons o' os =>
      rw [List.cons_append, hu]
      simp only [sufProb]
      rw [← hu]
      simp only [ih, Finset.univ_unique, Fin.default_eq_zero, Finset.sum_singleton, List.map_cons, List.prod_cons]
      rw [Subsingleton.elim s 0]
      simp [coinHMM]
      ring

theorem coinHMM_lik (w : List String) (h : w ≠ []) : coinHMM.lik w = sufProb coinHMM.matrix coinHMM.emit 0 w := by
  cases w with
  | nil => exact absurd rfl h
  | cons o os =>
    unfold HMM.lik
    rw [listProb_eq_sufProb]
    simp [coinHMM]

theorem coinHMM_same (u v : List String) (hu : u ≠ []) (hv : v ≠ []) : SameFutures coinHMM.lik u v := by
  intro w
  rcases List.eq_nil_or_concat w with rfl | ⟨w', x, rfl⟩
  · simp only [List.append_nil]; ring
  · rcases List.eq_nil_or_concat u with rfl | ⟨u', a, rfl⟩
    · exact absurd rfl hu
    rcases List.eq_nil_or_concat v with rfl | ⟨v', b, rfl⟩
    · exact absurd rfl hv
    simp only [List.concat_eq_append]
    rw [coinHMM_lik _ (by simp), coinHMM_lik _ (by simp), coinHMM_lik _ (by simp), coinHMM_lik _ (by simp),
      coinHMM_suf (u' ++ [a]) _ 0 (by simp), coinHMM_suf (v' ++ [b]) _ 0 (by simp), coinHMM_suf u' [a] 0 (by simp), coinHMM_suf v' [b] 0 (by simp)]
    simp only [sufProb, List.map_append, List.prod_append, List.map_cons, List.map_nil, List.prod_singleton]
    ring

/-- With `alpha = 0.01` and traces of 4 tosses, the states of `h` and `t h` are separated by mistake with a probability of at most 0.12. -/
example (N : ℕ) : drawsLaw.real {d | ∃ S, generateSet (fun _ => .str) (fun j k => coinHMM.run k (fun i => d (j * (2 * 4 + 1) + i))) N false none (.int 4)
      (fun _ => 0) = .ok S ∧ Answers (hoeffding (1/100)) S ["h"] ["t", "h"] false} ≤ 12/100 := by
  refine (coinHMM.compatible_rejects (by simp [coinHMM]) coinHMM_stochastic (fun _ => .str) 4 (by norm_num) (fun _ => 0) (1/100) (by norm_num)
    (by norm_num) ["h"] ["t", "h"] (by simp) (by simp) (by simp) (coinHMM_same _ _ (by simp) (by simp)) N).trans ?_
  have : coinHMM.alphabet.toFinset.card = 2 := by simp [coinHMM]
  rw [this]
  simp [Finset.sum_Icc_succ_top]
  norm_num

/-- The first symbol is 'x'; the hidden state 1 emits 'y' only. -/
noncomputable def changeHMM : HMM ℝ String 2 := ⟨!![1/2, 1/2; 0, 1], ["x", "y"], !![1, 0; 0, 1], fun s => if s = 0 then 1 else 0⟩

theorem changeHMM_stochastic : changeHMM.Stochastic := by
  refine ⟨fun s => ?_, by simp [changeHMM], fun s s' => ?_, fun s => ?_, fun s i => ?_, fun s => ?_⟩
  · simp only [changeHMM]; split_ifs <;> norm_num
  · fin_cases s <;> fin_cases s' <;> norm_num [changeHMM]
  · fin_cases s <;> norm_num [changeHMM, Fin.sum_univ_two]
  · simp only [changeHMM] at i ⊢
    fin_cases s <;> fin_cases i <;> norm_num
  · refine Eq.trans (Fin.sum_univ_two _) ?_
    fin_cases s <;> simp [changeHMM]

/-- 'y' has the probability 1/2 after `x` and 1 after `x y`. -/
example (alpha : ℝ) (ha : 0 < alpha) (ha2 : alpha ≤ 2) : ∀ᵐ d ∂drawsLaw, ∀ᶠ N in atTop,
    ∃ S, generateSet (fun _ => .str) (fun j k => changeHMM.run k (fun i => d (j * (2 * 4 + 1) + i))) N false none (.int 4) (fun _ => 0) = .ok S ∧
      Answers (hoeffding alpha) S ["x"] ["x", "y"] false := by
  have hl : ∀ o os, changeHMM.lik (o :: os) = sufProb changeHMM.matrix changeHMM.emit 0 (o :: os) := fun o os => by
    unfold HMM.lik
    rw [listProb_eq_sufProb]
    simp [changeHMM]
  have hx : ∀ s, changeHMM.emit s "x" = if s = 0 then 1 else 0 := by
    intro s
    refine Eq.trans (Fin.sum_univ_two _) ?_
    fin_cases s <;> simp [changeHMM]
  have hy : ∀ s, changeHMM.emit s "y" = if s = 1 then 1 else 0 := by
    intro s
    refine Eq.trans (Fin.sum_univ_two _) ?_
    fin_cases s <;> simp [changeHMM]
  have m : changeHMM.matrix = !![1/2, 1/2; 0, 1] := rfl
  have e1 : changeHMM.lik ["x"] = 1 := by rw [hl]; simp [sufProb, hx]
  have e2 : changeHMM.lik ["x", "y"] = 1/2 := by rw [hl]; simp [sufProb, hx, hy, m]
  have e3 : changeHMM.lik ["x", "y", "y"] = 1/2 := by rw [hl]; simp [sufProb, hx, hy, m]
  exact changeHMM.compatible_separates_next (by simp [changeHMM]) changeHMM_stochastic _ 4 (by norm_num) _ alpha ha ha2 ["x"] ["x", "y"] (by simp) (by simp) "y" (by simp)
    (by simp) (by rw [e1]; norm_num) (by rw [e2]; norm_num) (by simp only [List.cons_append, List.nil_append]; rw [e1, e2, e3]; norm_num)

end Jajapy
