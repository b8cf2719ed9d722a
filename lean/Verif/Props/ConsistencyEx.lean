import Verif.Props.ConsistencyMDP
import Verif.Props.EvaluationEx
import Verif.Props.MDPSimEx

/-!
Examples for property C86.
-/

namespace Jajapy

open MeasureTheory ProbabilityTheory Spec Filter Topology Tools BW

namespace MDP
variable {σ L : Type} [DecidableEq L] {n : ℕ}

theorem beta0_pos_of_runSuf (G M : MDP ℝ L n) (hM : M.Stochastic) (hl : M.labelling = G.labelling) (hG : G.Stochastic)
    (ha : ∀ s x s', 0 < G.prob s x s' → 0 < M.prob s x s') (P : Policy σ L) (ps : List (L × L)) (last : L) (m : σ) (s : Fin n)
    (h : G.runSuf P m s (alternate ps last) ≠ 0) : 0 < beta0 M.step (M.mask last) ps s := by
  have hb : ∀ ps s, 0 ≤ beta0 M.step (M.mask last) ps s := by
    intro ps
    induction ps with
    | nil => intro s; simp only [beta0_nil, mask]; split_ifs <;> norm_num
    | cons p ps ih =>
      intro s
      rw [beta0_cons, bwd]
      refine Finset.sum_nonneg (fun s' _ => mul_nonneg (ih s') ?_)
      exact mul_nonneg (by split_ifs <;> norm_num) (M.prob_nonneg hM.2.2.1 _ _ _)
  induction ps generalizing m s with
  | nil =>
    simp only [alternate, runSuf] at h
    simp only [beta0_nil, mask, hl]
    split_ifs at h ⊢
    · norm_num
    · exact absurd rfl h
  | cons p ps ih =>
    simp only [alternate, runSuf] at h
    obtain ⟨s', -, hs'⟩ := Finset.exists_ne_zero_of_sum_ne_zero h
    have h1 := ih _ _ (right_ne_zero_of_mul hs')
    have h2 := left_ne_zero_of_mul hs'
    have h3 := right_ne_zero_of_mul (right_ne_zero_of_mul h2)
    have h4 := left_ne_zero_of_mul h2
    have h5 : G.labelling s = p.1 := by
      by_contra hc
      rw [if_neg hc] at h4
      exact h4 rfl
    rw [beta0_cons, bwd]
    refine Finset.sum_pos' (fun t _ => mul_nonneg (hb _ _) ?_) ⟨s', Finset.mem_univ _, mul_pos h1 ?_⟩
    · exact mul_nonneg (by split_ifs <;> norm_num) (M.prob_nonneg hM.2.2.1 _ _ _)
    · rw [step, hl, if_pos h5, one_mul]
      exact ha _ _ _ (lt_of_le_of_ne (G.prob_nonneg hG.2.2.1 _ _ _) h3.symm)

/-- A model with the labels of `G` and at least its transitions can produce every trace that `G` produces under a scheduler. -/
theorem possible_of_support (G M : MDP ℝ L n) (hG : G.Stochastic) (hM : M.Stochastic) (hl : M.labelling = G.labelling)
    (hi : ∀ s, 0 < G.initialState s → 0 < M.initialState s) (ha : ∀ s x s', 0 < G.prob s x s' → 0 < M.prob s x s') (P : Policy σ L)
    (w : List L) (hw : w.length % 2 = 1) (h : 0 < G.runProb P w) : M.lik w ≠ 0 := by
  obtain ⟨ps, last, rfl⟩ := exists_alternate w hw
  rw [G.runProb_suf P _ hw] at h
  obtain ⟨s, -, hs⟩ := Finset.exists_ne_zero_of_sum_ne_zero h.ne'
  have h1 := beta0_pos_of_runSuf G M hM hl hG ha P ps last _ s (right_ne_zero_of_mul hs)
  have h2 := hi s (lt_of_le_of_ne (hG.1 s) (left_ne_zero_of_mul hs).symm)
  rw [lik_alternate, stepWeight, totalWeight_eq]
  refine (Finset.sum_pos' (fun t _ => mul_nonneg (hM.1 t) ?_) ⟨s, Finset.mem_univ _, mul_pos h2 h1⟩).ne'
  have hb : ∀ ps s, 0 ≤ beta0 M.step (M.mask last) ps s := by
    intro ps
    induction ps with
    | nil => intro s; simp only [beta0_nil, mask]; split_ifs <;> norm_num
    | cons p ps ih =>
      intro s
      rw [beta0_cons, bwd]
      refine Finset.sum_nonneg (fun s' _ => mul_nonneg (ih s') ?_)
      exact mul_nonneg (by split_ifs <;> norm_num) (M.prob_nonneg hM.2.2.1 _ _ _)
  exact hb _ _

end MDP

/-- The traces with two steps of the example chain are 2, 0, 0 and 2, 0, 1. -/
theorem exMC_expected (g : List ℕ → ℕ) : expected (tracesOver (Finset.univ.image (exMC ℝ).labelling) 3) (exMC ℝ).lik g
    = (g [2, 0, 0] + g [2, 0, 1]) / 2 := by
  have hA : Finset.univ.image (exMC ℝ).labelling = {0, 1, 2} := by
    have : (exMC ℝ).labelling = (![0, 1, 2] : Fin 3 → ℕ) := rfl
    rw [this]; decide
  have hl : ∀ a b c : ℕ, (exMC ℝ).lik [a, b, c] = if a = 2 ∧ b = 0 ∧ (c = 0 ∨ c = 1) then 1 / 2 else 0 := by
    intro a b c
    unfold MC.lik
    rw [listProb_eq_sufProb]
    simp only [sufProb, exMC, Fin.sum_univ_three]
    simp only [Matrix.cons_val, zero_mul, one_mul, zero_add, add_zero, mul_zero, mul_one]
    by_cases h1 : a = 2
    · subst h1
      by_cases h2 : b = 0
      · subst h2
        by_cases h3 : c = 0
        · subst h3; norm_num
        · by_cases h4 : c = 1
          · subst h4; norm_num
          · simp [h3, h4, Ne.symm h3, Ne.symm h4]
      · simp [h2, Ne.symm h2]
    · simp [h1, Ne.symm h1]
  unfold expected
  rw [hA, sum_tracesOver_succ]
  simp only [sum_tracesOver_succ, tracesOver_zero, Finset.sum_singleton, Finset.sum_insert, Finset.mem_insert, Finset.mem_singleton]
  norm_num [hl]
  ring

/-- A third of the visits of state 0 are at the end of a trace. -/
theorem exMC_endRate : (exMC ℝ).endRate 2 0 = 1 / 3 := by
  unfold MC.endRate
  rw [exMC_expected, exMC_expected]
  have : (exMC ℝ).labelling 0 = 0 := rfl
  simp only [this]
  norm_num

theorem exMC_inj : Function.Injective (exMC ℝ).labelling := by
  have : (exMC ℝ).labelling = (![0, 1, 2] : Fin 3 → ℕ) := rfl
  rw [this]
  decide

/-- C86 is violated for Markov chains with a fixed budget: starting from the probability 1/4, one iteration on the data of a
chain with probability 1/2 leads in the limit to 5/12, however much data is generated. -/
theorem exMC_learning_bias : ∀ᵐ d ∂drawsLaw, ∃ S : ℕ → TSet ℕ,
    (∀ N, generateSet (fun _ => .str) (fun j k => (exMC ℝ).run k (fun i => d (j * 3 + i))) N false none (.int 2) (fun _ => 0) = .ok (S N)) ∧
    ∃ st : ℕ → LoopState (MC ℝ ℕ 3), (∀ N, 1 ≤ N → fit (stepMC 2 (S N)) 0 1 exMC' = .ok (st N)) ∧
      (exMC ℝ).matrix 0 0 = 1 / 2 ∧ Tendsto (fun N => (st N).h.matrix 0 0) atTop (𝓝 (5 / 12)) := by
  filter_upwards [(exMC ℝ).learning_limit exMC' exMC_stochastic_real exMC'_stochastic exMC_inj rfl (fun _ => .str) 2 (by norm_num) (fun _ => 0)
    (fun w _ hp => MC.possible_of_support _ _ exMC_stochastic_real exMC'_stochastic rfl
      (fun _ h => h) (by intro s s'; fin_cases s <;> fin_cases s' <;> simp [exMC, exMC']) w hp)] with d hd
  obtain ⟨S, h1, h2, h3⟩ := hd
  have : ∀ N, ∃ st, 1 ≤ N → fit (stepMC 2 (S N)) 0 1 exMC' = .ok st := by
    intro N
    by_cases hN : 1 ≤ N
    · obtain ⟨st, h⟩ := h2 N hN 2 0 1 (by norm_num)
      exact ⟨st, fun _ => h⟩
    · exact ⟨⟨exMC', 0, none⟩, fun h => absurd h hN⟩
  choose st hst using this
  have hc : ∀ N, 1 ≤ N → (st N).counter = 1 := by
    intro N hN
    obtain ⟨k, hs, ls, -, -, -, h4, -, h5, h6, -⟩ := fit_iterations _ _ _ _ _ (hst N hN)
    have := h6 le_rfl
    omega
  refine ⟨S, h1, st, hst, by simp [exMC], ?_⟩
  have := ((h3 (fun _ => 2) (fun _ => 1) (fun _ => 0) st hst 0 ⟨[2, 0, 1], rfl, by rw [exMC_lik.1]; norm_num, by simp [exMC]⟩).2 0).2 1 hc
  rw [exMC_endRate] at this
  convert this using 2
  simp [exMC, exMC']
  norm_num

/-- The example MDP with other probabilities. -/
noncomputable def exMDP' : MDP ℝ ℕ 3 where
  actions := [10, 11]
  matrix := ![![![1/3, 2/3, 0], ![0, 1, 0]], ![![1/2, 1/2, 0], ![0, 0, 0]], ![![1, 0, 0], ![1/2, 1/2, 0]]]
  labelling := ![0, 1, 2]
  initialState := ![0, 0, 1]

theorem exMDP'_stochastic : exMDP'.Stochastic := by
  refine ⟨?_, ?_, ?_, ?_⟩
  · intro s; fin_cases s <;> simp [exMDP']
  · simp [exMDP', Fin.sum_univ_succ]
  · intro s i s'; fin_cases s <;> fin_cases i <;> fin_cases s' <;> simp [exMDP'] <;> norm_num
  · intro s i; fin_cases s <;> fin_cases i <;> simp [exMDP', Fin.sum_univ_succ] <;> norm_num

theorem exMDP_possible {σ : Type} (P : Policy σ ℕ) (w : List ℕ) (hw : w.length = 2 * 2 + 1) (h : 0 < (exMDP ℝ).runProb P w) :
    exMDP'.lik w ≠ 0 := by
  refine MDP.possible_of_support (exMDP ℝ) exMDP' MDP.exMDP_stochastic_real.1 exMDP'_stochastic rfl (fun _ h => h) ?_ P w (by omega) h
  intro s x s' hx
  by_cases hm : x ∈ (exMDP ℝ).actions
  · obtain ⟨i, hi, rfl⟩ := List.mem_iff_getElem.1 hm
    have e1 := (exMDP ℝ).prob_getElem MDP.exMDP_stochastic_real.2 s ⟨i, hi⟩ s'
    have e2 := exMDP'.prob_getElem (by simp [exMDP']) s ⟨i, hi⟩ s'
    have e3 : exMDP'.prob s (exMDP ℝ).actions[i] s' = exMDP'.matrix s ⟨i, hi⟩ s' := e2
    rw [e3]
    have hx' : 0 < (exMDP ℝ).matrix s ⟨i, hi⟩ s' := by rw [← e1]; exact hx
    have hi' : i < 2 := hi
    interval_cases i <;> fin_cases s <;> fin_cases s' <;> simp_all [exMDP, exMDP']
  · rw [(exMDP ℝ).prob_not_mem s x s' hm] at hx
    exact absurd hx (lt_irrefl _)

/-- The hypotheses of `MDP.learning_limit_uniform` are met by the example MDP, and the traces use action 11 in state 2: the
learned probability of the move from 2 to 1 for action 11, which is 1/2 in the initial model, tends to 2/3. -/
theorem exMDP_learning : ∀ᵐ D ∂callsLaw drawsLaw, ∃ (S : ℕ → TSet ℕ) (st : ℕ → LoopState (MDP ℝ ℕ 3)),
    (∀ N, ∃ tr, (exMDP ℝ).Collects (uniformScheduler [10, 11]) 2 () D N tr ∧
      generateSetMDP (fun _ => .str) (fun j _ => .ok (tr j)) N false none (.int 2) (fun _ => 0) = .ok (S N)) ∧
    (∀ N, 1 ≤ N → fit (stepMDP 2 (S N)) 0 1 exMDP' = .ok (st N)) ∧ exMDP'.prob 2 11 1 = 1 / 2 ∧
    Tendsto (fun N => (st N).h.prob 2 11 1) atTop (𝓝 (2 / 3)) := by
  have hinj : Function.Injective (exMDP ℝ).labelling := by
    have : (exMDP ℝ).labelling = (![0, 1, 2] : Fin 3 → ℕ) := rfl
    rw [this]
    decide
  have ha : ∀ s, ∃ x ∈ [10, 11], (exMDP ℝ).Allowed s x := by
    obtain ⟨h1, h2, h3, h4, h5⟩ := MDP.exMDP_allowed
    intro s
    refine ⟨10, by simp, ?_⟩
    fin_cases s
    · exact h5
    · exact h3
    · exact h2
  filter_upwards [(exMDP ℝ).learning_limit_uniform exMDP' MDP.exMDP_stochastic_real.2 MDP.exMDP_stochastic_real.1 exMDP'_stochastic hinj rfl rfl
    [10, 11] (by simp) ha (fun _ => .str) 2 (fun _ => 0) (exMDP_possible _)] with D hD
  obtain ⟨S, h1, h2, h3⟩ := hD
  have : ∀ N, ∃ st, 1 ≤ N → fit (stepMDP 2 (S N)) 0 1 exMDP' = .ok st := by
    intro N
    by_cases hN : 1 ≤ N
    · obtain ⟨st, h⟩ := h2 N hN 2 0 1 (by norm_num)
      exact ⟨st, fun _ => h⟩
    · exact ⟨⟨exMDP', 0, none⟩, fun h => absurd h hN⟩
  choose st hst using this
  refine ⟨S, st, h1, hst, ?_, ?_⟩
  · exact (exMDP'.prob_getElem (by simp [exMDP']) 2 (1 : Fin 2) 1).trans (by simp [exMDP'])
  · have := h3 (fun _ => 2) (fun _ => 1) (fun _ => 0) st (fun N hN => ⟨le_rfl, hst N hN⟩) 2 11
      ⟨[2, 11, 1, 10, 1], rfl, by rw [MDP.exMDP_runProb]; norm_num, 0, by norm_num, rfl, rfl⟩ 1
    rwa [MDP.exMDP_prob11, show (exMDP ℝ).matrix 2 (1 : Fin 2) 1 = 2 / 3 by simp [exMDP]] at this

/-- The hypotheses of `MDP.learning_limit_fm` are met by the example MDP and the example scheduler. -/
example := (exMDP ℝ).learning_limit_fm exMDP' MDP.exMDP_stochastic_real.2 MDP.exMDP_stochastic_real.1 exMDP'_stochastic (by
    have : (exMDP ℝ).labelling = (![0, 1, 2] : Fin 3 → ℕ) := rfl
    rw [this]
    decide) rfl rfl (exFM ℝ) 2 MDP.exFM_valid MDP.exFM_allowed (fun _ => .str) 2 (fun _ => 0) 1 (exMDP_possible _)

end Jajapy
