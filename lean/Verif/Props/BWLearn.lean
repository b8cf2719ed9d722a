import Verif.Props.BW

/-!
Properties C33-C36 and C42 of the Baum-Welch learner on Markov chains.
-/

set_option linter.unusedSectionVars false

namespace Jajapy

open Finset Spec BW

section mc
variable {L : Type} [DecidableEq L] {n : ℕ}

/-! ### C33: stochasticity -/

/-- C33, one iteration: all entries stay non-negative and a row of sum 1 keeps sum 1. -/
theorem MC.bw_step_stochastic (processes : ℕ) (S : TSet L) (M M' : MC ℝ L n) (ll : ℝ)
    (hi0 : ∀ s, 0 ≤ M.initialState s) (hm0 : ∀ s s', 0 ≤ M.matrix s s')
    (h : stepMC processes S M = .ok (M', ll)) :
    (∀ s s', 0 ≤ M'.matrix s s') ∧ ∀ s, ∑ s', M.matrix s s' = 1 → ∑ s', M'.matrix s s' = 1 := by
  obtain ⟨h1, _, _, _⟩ := stepMC_ok _ _ _ _ _ h
  subst h1
  have hn := numMC_nonneg M S hi0 hm0
  refine ⟨fun s s' => ?_, fun s hs => ?_⟩
  · simp only [newMC]
    split_ifs
    · exact hm0 _ _
    · exact div_nonneg (hn _ _) (by rw [← sum_numMC]; exact Finset.sum_nonneg (fun ss _ => hn s ss))
  · simp only [newMC]
    split_ifs with h0
    · exact hs
    · rw [← Finset.sum_div, sum_numMC, div_self h0]

theorem MC.bw_step_keeps_stochastic (processes : ℕ) (S : TSet L) (M M' : MC ℝ L n) (ll : ℝ) (hM : M.Stochastic)
    (h : stepMC processes S M = .ok (M', ll)) : M'.Stochastic := by
  obtain ⟨h1, h2, h3, h4⟩ := hM
  obtain ⟨a1, a2⟩ := M.bw_step_stochastic processes S M' ll h1 h3 h
  obtain ⟨b1, _, _, _⟩ := stepMC_ok _ _ _ _ _ h
  subst b1
  exact ⟨h1, h2, a1, fun s => a2 s (h4 s)⟩

/-- C33: after any number of iterations the learned chain is a Markov chain. -/
theorem MC.fit_stochastic (processes : ℕ) (S : TSet L) (epsilon : ℝ) (maxIt : ℕ) (M : MC ℝ L n) (hM : M.Stochastic)
    (st : LoopState (MC ℝ L n)) (h : fit (stepMC processes S) epsilon maxIt M = .ok st) : st.h.Stochastic :=
  loop_invariant _ _ MC.Stochastic (fun _ _ _ hi hs => MC.bw_step_keeps_stochastic _ _ _ _ _ hi hs) _ _ _ hM h

/-! ### C34: structure -/

/-- C34, one iteration: a transition of probability 0 keeps probability 0. -/
theorem MC.bw_step_zero (processes : ℕ) (S : TSet L) (M M' : MC ℝ L n) (ll : ℝ) (h : stepMC processes S M = .ok (M', ll))
    (s s' : Fin n) (h0 : M.matrix s s' = 0) : M'.matrix s s' = 0 := by
  obtain ⟨h1, _, _, _⟩ := stepMC_ok _ _ _ _ _ h
  subst h1
  simp only [newMC]
  split_ifs
  · exact h0
  · rw [numMC_zero M S s s' h0, zero_div]

/-- C34: after any number of iterations the labels and the initial distribution are the same, and no transition has
appeared. -/
theorem MC.fit_structure (processes : ℕ) (S : TSet L) (epsilon : ℝ) (maxIt : ℕ) (M : MC ℝ L n)
    (st : LoopState (MC ℝ L n)) (h : fit (stepMC processes S) epsilon maxIt M = .ok st) :
    st.h.labelling = M.labelling ∧ st.h.initialState = M.initialState ∧
    ∀ s s', M.matrix s s' = 0 → st.h.matrix s s' = 0 := by
  refine loop_invariant _ _ (fun M' => M'.labelling = M.labelling ∧ M'.initialState = M.initialState ∧
    ∀ s s', M.matrix s s' = 0 → M'.matrix s s' = 0) ?_ _ _ _ ⟨rfl, rfl, fun _ _ h => h⟩ h
  rintro M1 M2 ll ⟨i1, i2, i3⟩ hs
  obtain ⟨h1, _, _, _⟩ := stepMC_ok _ _ _ _ _ hs
  exact ⟨by rw [← i1, h1]; rfl, by rw [← i2, h1]; rfl, fun s s' h0 => M1.bw_step_zero _ _ _ _ hs s s' (i3 s s' h0)⟩

/-- A state is visited by the training set if some path of positive probability of some trace leaves it. -/
def MC.Visited (M : MC ℝ L n) (S : TSet L) (s : Fin n) : Prop :=
  ∃ w ∈ S.sequences, ∃ p : Fin (w.length + 1) → Fin n, 0 < pathWeight M.initialState M.step (fun _ => 1) w p ∧
    ∃ k : Fin w.length, p k.castSucc = s

/-- C34, one iteration: a state that the training set does not visit keeps its row. -/
theorem MC.bw_step_unvisited (processes : ℕ) (S : TSet L) (M M' : MC ℝ L n) (ll : ℝ)
    (hi0 : ∀ s, 0 ≤ M.initialState s) (hm0 : ∀ s s', 0 ≤ M.matrix s s') (h : stepMC processes S M = .ok (M', ll))
    (s : Fin n) (hv : ¬ M.Visited S s) : M'.matrix s = M.matrix s := by
  obtain ⟨h1, _, _, _⟩ := stepMC_ok _ _ _ _ _ h
  subst h1
  funext s'
  simp only [newMC]
  rw [if_pos]
  rw [denMC_eq]
  unfold overSet
  rw [List.sum_eq_zero]
  intro a ha
  obtain ⟨x, hx, rfl⟩ := List.mem_map.mp ha
  obtain ⟨hx1, _⟩ := List.mem_filter.mp hx
  have hw := (List.of_mem_zip hx1).1
  have : expVisits M.initialState M.step (fun _ => 1) (fun _ => (1:ℝ)) x.1 s = 0 := by
    unfold expVisits
    rw [Finset.sum_eq_zero, zero_div]
    intro p _
    by_cases hp : 0 < pathWeight M.initialState M.step (fun _ => 1) x.1 p
    · rw [Finset.sum_eq_zero, mul_zero]
      intro k _
      rw [if_neg]
      intro hk
      exact hv ⟨x.1, hw, p, hp, k, hk⟩
    · have h0 : 0 ≤ pathWeight M.initialState M.step (fun _ => 1) x.1 p :=
        mul_nonneg (mul_nonneg (hi0 _) (Finset.prod_nonneg (fun _ _ => M.step_nonneg hm0 _ _ _))) zero_le_one
      rw [le_antisymm (not_lt.mp hp) h0, zero_mul]
  beta_reduce
  rw [this, mul_zero]

/-! ### C35: the likelihood never decreases -/

theorem MC.lik_nonneg (M : MC ℝ L n) (hM : M.Stochastic) (w : List L) : 0 ≤ M.lik w := by
  by_cases hw : w = []
  · subst hw; exact le_refl _
  · rw [M.lik_eq hM.2.2.2 w hw]
    exact totalWeight_nonneg _ _ _ (M.step_nonneg hM.2.2.1) hM.1 (fun _ => zero_le_one) _

theorem MC.stepMC_poss (S : TSet L) (M : MC ℝ L n) (hM : M.Stochastic) (ht : ∀ t ∈ S.times, 1 ≤ t)
    (hne : ∀ w ∈ S.sequences, w ≠ []) (hs' : (newMC M S).Stochastic) (w : List L) (hw : w ∈ S.sequences)
    (hlen : S.times.length = S.sequences.length) : M.lik w ≠ 0 ↔ (newMC M S).lik w ≠ 0 := by
  rw [M.lik_eq hM.2.2.2 w (hne w hw), (newMC M S).lik_eq hs'.2.2.2 w (hne w hw)]
  constructor
  · intro h
    obtain ⟨i, hi, rfl⟩ := List.mem_iff_getElem.mp hw
    have hm : (S.sequences[i], S.times[i]'(by omega)) ∈ possMC M S := by
      rw [mem_possMC]
      refine ⟨?_, h⟩
      rw [List.mem_iff_getElem]
      exact ⟨i, by simp; omega, by simp⟩
    exact ((newMC_gain M S hM.1 hM.2.2.1 (fun s => (hM.2.2.2 s).le) ht).1 _ hm).ne'
  · intro h h0
    apply h
    refine totalWeight_zero M.step _ M.initialState _ _ (M.step_nonneg hM.2.2.1) hM.1 (fun _ => zero_le_one) ?_
      (fun s hs => hs) w h0
    intro s ss o hz
    unfold MC.step at hz ⊢
    have hl : (newMC M S).labelling = M.labelling := rfl
    rw [hl]
    split_ifs at hz ⊢ with hlab
    · rw [one_mul] at hz ⊢
      simp only [newMC]
      split_ifs
      · exact hz
      · rw [numMC_zero M S s ss hz, zero_div]
    · rw [zero_mul]

/-- C35, one iteration: the log-likelihood of the training set does not decrease, and exactly the same traces are
possible. The value reported by the iteration is the log-likelihood of the model before the iteration. -/
theorem MC.bw_step_monotone (processes : ℕ) (S : TSet L) (M M' : MC ℝ L n) (ll : ℝ) (hM : M.Stochastic)
    (hne : ∀ w ∈ S.sequences, w ≠ []) (hlen : S.times.length = S.sequences.length) (ht : ∀ t ∈ S.times, 1 ≤ t)
    (h : stepMC processes S M = .ok (M', ll)) :
    avgLogLik M.lik S ≤ avgLogLik M'.lik S ∧ (∀ w ∈ S.sequences, M.lik w ≠ 0 ↔ M'.lik w ≠ 0) ∧
    ll = S.times.sum * avgLogLik M.lik S := by
  have hM' := M.bw_step_keeps_stochastic processes S M' ll hM h
  obtain ⟨h1, h2, h3, _⟩ := stepMC_ok _ _ _ _ _ h
  subst h1
  have hposs := fun w hw => M.stepMC_poss S hM ht hne hM' w hw hlen
  have hg := (newMC_gain M S hM.1 hM.2.2.1 (fun s => (hM.2.2.2 s).le) ht).2
  have htot : 0 < (S.times.sum : ℕ) := by
    obtain ⟨x, hx⟩ := List.exists_mem_of_ne_nil _ h2
    have hx2 := (List.of_mem_zip ((mem_possMC M S x).mp hx).1).2
    exact List.sum_pos_iff_exists_pos_nat.mpr ⟨_, hx2, ht _ hx2⟩
  have e2 : overSet S (newMC M S).lik (fun w => Real.log ((newMC M S).lik w))
      = ((possMC M S).map (fun x => Real.log (totalWeight M.initialState (newMC M S).step (fun _ => 1) x.1) * x.2)).sum := by
    unfold overSet
    have e : (S.sequences.zip S.times).filter (fun x => (newMC M S).lik x.1 ≠ 0) = possMC M S := by
      unfold possMC
      refine List.filter_congr (fun x hx => ?_)
      have hw := (List.of_mem_zip hx).1
      rw [decide_eq_decide, ← hposs x.1 hw, M.lik_eq hM.2.2.2 _ (hne _ hw)]
    rw [e]
    congr 1
    refine List.map_congr_left (fun x hx => ?_)
    have hw := (List.of_mem_zip ((mem_possMC M S x).mp hx).1).1
    beta_reduce
    rw [(newMC M S).lik_eq hM'.2.2.2 _ (hne _ hw), mul_comm]
    rfl
  refine ⟨?_, hposs, ?_⟩
  · rw [avgLogLik_overSet _ (M.lik_nonneg hM), avgLogLik_overSet _ ((newMC M S).lik_nonneg hM'), e2,
      ← M.stepMC_ll S hM.2.2.2 hne]
    exact div_le_div_of_nonneg_right hg (Nat.cast_nonneg _)
  · rw [h3, M.stepMC_ll S hM.2.2.2 hne, avgLogLik_overSet _ (M.lik_nonneg hM)]
    have : ((S.times.sum : ℕ) : ℝ) ≠ 0 := by exact_mod_cast htot.ne'
    field_simp

/-- C35: whatever the number of iterations, the log-likelihood of the learned chain is at least the one of the initial
chain. -/
theorem MC.fit_monotone (processes : ℕ) (S : TSet L) (epsilon : ℝ) (maxIt : ℕ) (M : MC ℝ L n) (hM : M.Stochastic)
    (hne : ∀ w ∈ S.sequences, w ≠ []) (hlen : S.times.length = S.sequences.length) (ht : ∀ t ∈ S.times, 1 ≤ t)
    (st : LoopState (MC ℝ L n)) (h : fit (stepMC processes S) epsilon maxIt M = .ok st) :
    avgLogLik M.lik S ≤ avgLogLik st.h.lik S := by
  have := loop_invariant _ _ (fun M' => M'.Stochastic ∧ avgLogLik M.lik S ≤ avgLogLik M'.lik S) ?_ _ _ _
    ⟨hM, le_refl _⟩ h
  · exact this.2
  · rintro M1 M2 ll ⟨i1, i2⟩ hs
    exact ⟨M1.bw_step_keeps_stochastic _ _ _ _ i1 hs, le_trans i2 (M1.bw_step_monotone _ _ _ _ i1 hne hlen ht hs).1⟩

/-- The hypotheses are met by `exMC` and `exSet`, for which `fit` succeeds. -/
example : (exMC ℝ).Stochastic ∧ (∀ w ∈ exSet.sequences, w ≠ []) ∧ exSet.times.length = exSet.sequences.length ∧
    (∀ t ∈ exSet.times, 1 ≤ t) ∧ ∃ st, fit (stepMC 2 exSet) (1/100) 1 (exMC ℝ) = .ok st := by
  refine ⟨exMC_stochastic, by decide, by decide, by decide, ?_⟩
  obtain ⟨r, hr⟩ := ((exMC ℝ).bw_step_outcome 2 exSet exMC_stochastic.2.2.2 (by decide) (by decide)).1
    (Or.inl ⟨by norm_num, [2, 0, 1], by decide, by rw [exMC_lik.1]; norm_num⟩)
  unfold fit
  rw [loop_succ _ _ _ _ r.1 r.2 (by simpa using hr), if_neg (by simp), loop_zero]
  exact ⟨_, rfl⟩

/-- In every state that `fit` reaches the next iteration succeeds again, so `fit` never fails once the initial chain can
generate a trace of the set (with several processes). -/
theorem MC.fit_total (processes : ℕ) (hp : 1 < processes) (S : TSet L) (epsilon : ℝ) (maxIt : ℕ) (M : MC ℝ L n) (hM : M.Stochastic)
    (hne : ∀ w ∈ S.sequences, w ≠ []) (hlen : S.times.length = S.sequences.length) (ht : ∀ t ∈ S.times, 1 ≤ t)
    (w : List L) (hw : w ∈ S.sequences) (hl : M.lik w ≠ 0) :
    ∃ st, fit (stepMC processes S) epsilon maxIt M = .ok st := by
  unfold fit
  generalize (0:ℕ) = c
  generalize (none : Option ℝ) = l
  induction maxIt generalizing M c l with
  | zero => exact ⟨_, rfl⟩
  | succ fuel ih =>
    obtain ⟨⟨M', ll⟩, hr⟩ := (M.bw_step_outcome processes S hM.2.2.2 hne hlen).1 (Or.inl ⟨hp, w, hw, hl⟩)
    rw [loop_succ _ _ _ _ M' ll hr]
    split_ifs
    · exact ⟨_, rfl⟩
    · exact ih M' (M.bw_step_keeps_stochastic _ _ _ _ hM hr)
        (((M.bw_step_monotone _ _ _ _ hM hne hlen ht hr).2.1 w hw).mp hl) _ _

/-! ### C42: order and processes -/

/-- C42, order and multiplicities: two training sets in which every trace has the same multiplicity give the same
result, with the same number of processes. -/
theorem MC.bw_step_mult (processes : ℕ) (S1 S2 : TSet L) (M : MC ℝ L n) (hm : ∀ s, ∑ s', M.matrix s s' = 1)
    (hne1 : ∀ w ∈ S1.sequences, w ≠ []) (hne2 : ∀ w ∈ S2.sequences, w ≠ [])
    (hl1 : S1.times.length = S1.sequences.length) (hl2 : S2.times.length = S2.sequences.length)
    (ht1 : ∀ t ∈ S1.times, 1 ≤ t) (ht2 : ∀ t ∈ S2.times, 1 ≤ t) (hmult : ∀ w, S1.mult w = S2.mult w) :
    stepMC processes S1 M = stepMC processes S2 M := by
  have hmem : ∀ w, w ∈ S1.sequences ↔ w ∈ S2.sequences := by
    intro w
    rw [mult_pos_iff S1 hl1 ht1, mult_pos_iff S2 hl2 ht2, hmult]
  obtain ⟨a1, a2⟩ := M.bw_step_outcome processes S1 hm hne1 hl1
  obtain ⟨b1, b2⟩ := M.bw_step_outcome processes S2 hm hne2 hl2
  have hok : ∀ r1 r2, stepMC processes S1 M = .ok r1 → stepMC processes S2 M = .ok r2 → r1 = r2 := by
    rintro ⟨M1, l1⟩ ⟨M2, l2⟩ h1 h2
    obtain ⟨c1, c2, c3, c4⟩ := M.bw_update_spec _ _ _ _ hm hne1 h1
    obtain ⟨d1, d2, d3, d4⟩ := M.bw_update_spec _ _ _ _ hm hne2 h2
    have hv : ∀ s, M.visits S1 s = M.visits S2 s := fun s => overSet_mult S1 S2 hl1 hl2 hmult _ _
    have hu : ∀ s ss, M.uses S1 s ss = M.uses S2 s ss := fun s ss => overSet_mult S1 S2 hl1 hl2 hmult _ _
    have hM : M1 = M2 := by
      cases M1; cases M2
      simp only [MC.mk.injEq]
      refine ⟨?_, c1.trans d1.symm, c2.trans d2.symm⟩
      funext s ss
      simp only at c3 d3
      rw [c3, d3, hv, hu]
    rw [hM, c4, d4, overSet_mult S1 S2 hl1 hl2 hmult]
  by_cases hp : 1 < processes
  · by_cases hex : ∃ w ∈ S1.sequences, M.lik w ≠ 0
    · obtain ⟨r1, h1⟩ := a1 (Or.inl ⟨hp, hex⟩)
      obtain ⟨w, hw, hl⟩ := hex
      obtain ⟨r2, h2⟩ := b1 (Or.inl ⟨hp, w, (hmem w).mp hw, hl⟩)
      rw [h1, h2, hok _ _ h1 h2]
    · push Not at hex
      rw [a2 (Or.inl ⟨hp, hex⟩), b2 (Or.inl ⟨hp, fun w hw => hex w ((hmem w).mpr hw)⟩)]
  · have hp' : processes ≤ 1 := by omega
    by_cases hex : ∃ w ∈ S1.sequences, M.lik w = 0
    · rw [a2 (Or.inr ⟨hp', hex⟩)]
      obtain ⟨w, hw, hl⟩ := hex
      rw [b2 (Or.inr ⟨hp', w, (hmem w).mp hw, hl⟩)]
    · push Not at hex
      by_cases h0 : S1.sequences = []
      · have h0' : S2.sequences = [] := by
          rw [List.eq_nil_iff_forall_not_mem]
          intro w hw
          have := (hmem w).mpr hw
          rw [h0] at this
          simp at this
        unfold stepMC workMC
        rw [h0, h0']
        rfl
      · have h0' : S2.sequences ≠ [] := by
          obtain ⟨w, hw⟩ := List.exists_mem_of_ne_nil _ h0
          exact List.ne_nil_of_mem ((hmem w).mp hw)
        obtain ⟨r1, h1⟩ := a1 (Or.inr ⟨hp', h0, hex⟩)
        obtain ⟨r2, h2⟩ := b1 (Or.inr ⟨hp', h0', fun w hw => hex w ((hmem w).mpr hw)⟩)
        rw [h1, h2, hok _ _ h1 h2]

/-- Two different sets that satisfy the hypotheses: another order, and a trace stored twice. -/
example : ∃ S1 S2 : TSet ℕ, S1 ≠ S2 ∧ (∀ w, S1.mult w = S2.mult w) ∧ S1.sequences ≠ S2.sequences ∧
    S1.times.length = S1.sequences.length ∧ S2.times.length = S2.sequences.length := by
  refine ⟨{ sequences := [[2, 0], [2, 0, 1]], times := [2, 1], floatTimes := false, type := some 0 },
    { sequences := [[2, 0, 1], [2, 0], [2, 0]], times := [1, 1, 1], floatTimes := false, type := some 0 },
    by decide, fun w => ?_, by decide, by decide, by decide⟩
  unfold TSet.mult
  by_cases h1 : [2, 0] = w
  · subst h1; decide
  · by_cases h2 : [2, 0, 1] = w
    · subst h2; decide
    · simp [List.filter_cons, h1, h2]

/-- C42, number of processes: when every trace of the set is possible, the result is the same for all numbers of
processes. -/
theorem MC.bw_step_processes (p q : ℕ) (S : TSet L) (M : MC ℝ L n) (hm : ∀ s, ∑ s', M.matrix s s' = 1)
    (hne : ∀ w ∈ S.sequences, w ≠ []) (hl : S.times.length = S.sequences.length)
    (hposs : (∀ w ∈ S.sequences, M.lik w ≠ 0) ∨ (1 < p ∧ 1 < q)) : stepMC p S M = stepMC q S M := by
  rcases hposs with hposs | ⟨hp, hq⟩
  · by_cases h0 : S.sequences = []
    · have : ∀ p, stepMC p S M = .error .typeError := by
        intro p
        unfold stepMC workMC
        rw [h0]
        unfold collect
        split_ifs <;> first | rfl | simp_all
      rw [this, this]
    · have hok : ∀ p, ∃ r, stepMC p S M = .ok r := by
        intro p
        apply (M.bw_step_outcome p S hm hne hl).1
        by_cases hp : 1 < p
        · obtain ⟨w, hw⟩ := List.exists_mem_of_ne_nil _ h0
          exact Or.inl ⟨hp, w, hw, hposs w hw⟩
        · exact Or.inr ⟨by omega, h0, hposs⟩
      obtain ⟨⟨M1, l1⟩, h1⟩ := hok p
      obtain ⟨⟨M2, l2⟩, h2⟩ := hok q
      obtain ⟨a1, _, a3, _⟩ := stepMC_ok _ _ _ _ _ h1
      obtain ⟨b1, _, b3, _⟩ := stepMC_ok _ _ _ _ _ h2
      rw [h1, h2, a1, b1, a3, b3]
  · unfold stepMC workMC collect
    rw [if_pos hp, if_pos hq]

/-- C42 is violated when a trace is impossible: several processes ignore the trace, a single process raises
TypeError. -/
theorem MC.bw_step_processes_differ : (∃ r, stepMC 2 exSet (exMC ℝ) = .ok r) ∧
    stepMC 1 exSet (exMC ℝ) = .error .typeError := by
  refine ⟨((exMC ℝ).bw_step_outcome 2 exSet exMC_stochastic.2.2.2 (by decide) (by decide)).1
    (Or.inl ⟨by norm_num, [2, 0, 1], by decide, by rw [exMC_lik.1]; norm_num⟩), ?_⟩
  exact ((exMC ℝ).bw_step_outcome 1 exSet exMC_stochastic.2.2.2 (by decide) (by decide)).2
    (Or.inr ⟨le_refl _, [2, 1], by decide, exMC_lik.2.2⟩)

end mc
end Jajapy
