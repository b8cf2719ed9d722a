import Verif.Lemmas.BWMDP
import Verif.Props.MDP

/-!
Properties C32-C34, C37, C41, C42 and C58 of the Baum-Welch learner on Markov decision processes. The actions of the model
are assumed to be distinct, and the traces to have an odd length (observations and actions alternate, starting and ending
with an observation).
-/

set_option linter.unusedSectionVars false

namespace Jajapy

open Finset Spec BW

theorem pairs_eq_mdpSteps {L : Type} (w : List L) : pairs w = mdpSteps w := by
  induction w using pairs.induct with
  | case1 o a rest ih =>
    rw [pairs, ih]
    unfold mdpSteps
    have hl : (o :: a :: rest).length / 2 = rest.length / 2 + 1 := by simp only [List.length_cons]; omega
    rw [List.ofFn_congr hl, List.ofFn_succ]
    rfl
  | case2 w hw =>
    match w, hw with
    | [], _ => simp [pairs, mdpSteps]
    | [o], _ => simp [pairs, mdpSteps]
    | o :: a :: rest, hw => exact absurd rfl (hw o a rest)

theorem maskMDP_eq {K L : Type} [Field K] [DecidableEq L] {n : ℕ} (M : MDP K L n) (w : List L) (hw : w ≠ []) :
    maskMDP M w = mdpLast M.labelling w := by
  unfold maskMDP
  funext s
  unfold mdpLast
  cases h : w.getLast? with
  | none => exact absurd (List.getLast?_eq_none_iff.mp h) hw
  | some last => simp [MDP.mask, eq_comm]

namespace MDP

/-- C32, MDP: what a worker returns for a trace are the likelihood and the expected counts of the trace (for each action
the expected numbers of times that the state is left with this action), and nothing if the trace is impossible. -/
theorem processWork_spec {K L : Type} [Field K] [DecidableEq K] [DecidableEq L] {n : ℕ} (M : MDP K L n)
    (hn : M.actions.Nodup) (w : List L) (hw : w.length % 2 = 1) (t : ℕ) :
    processWorkMDP M w t = .ok (if M.lik w = 0 then none else some {
      den := fun s i => t * expVisits M.initialState M.step (mdpLast M.labelling w)
        (fun x => if x.2 = M.actions[i] then 1 else 0) (mdpSteps w) s
      num := fun s i ss => t * expUses M.initialState M.step (mdpLast M.labelling w)
        (fun x => if x.2 = M.actions[i] then 1 else 0) (mdpSteps w) s ss
      proba := M.lik w
      times := t }) := by
  have hne : w ≠ [] := by rintro rfl; simp at hw
  rw [processWorkMDP_eq M hn (w, t) hne]
  have e := weightMDP_eq M w hne
  rw [maskMDP_eq M w hne, pairs_eq_mdpSteps, totalWeight_eq] at e
  simp only [wkMDP, weightMDP_lik M w hw, pairs_eq_mdpSteps, maskMDP_eq M w hne] at e ⊢
  congr 3
  congr 1
  · funext s i; exact expVisits_eq _ _ _ _ _ _ _ e _
  · funext s i ss; exact expUses_eq _ _ _ _ _ _ _ _ e _

example : (exMDP ℚ).actions.Nodup ∧ (exMDP ℚ).lik [2, 11, 1, 10, 1] = 1/2 ∧
    (match processWorkMDP (exMDP ℚ) [2, 11, 1, 10, 1] 2 with
      | .ok (some r) => decide (r.den 1 (0 : Fin 2) = 2 ∧ r.den 1 (1 : Fin 2) = 0 ∧ r.num 2 (1 : Fin 2) 1 = 2)
      | _ => false) = true := by
  decide +kernel

section steps
variable {L : Type} [DecidableEq L] {n : ℕ}

/-! ### C58 -/

/-- The expected number of times the model leaves `s` with the action `x`, over the training set. -/
noncomputable def visits (M : MDP ℝ L n) (S : TSet L) (s : Fin n) (x : L) : ℝ :=
  overSet S M.lik (fun w => expVisits M.initialState M.step (mdpLast M.labelling w) (fun y => if y.2 = x then 1 else 0) (mdpSteps w) s)

/-- The expected number of transitions from `s` to `ss` with the action `x`, over the training set. -/
noncomputable def uses (M : MDP ℝ L n) (S : TSet L) (s : Fin n) (x : L) (ss : Fin n) : ℝ :=
  overSet S M.lik (fun w => expUses M.initialState M.step (mdpLast M.labelling w) (fun y => if y.2 = x then 1 else 0) (mdpSteps w) s ss)

theorem ne_nil_of_odd {w : List L} (h : w.length % 2 = 1) : w ≠ [] := by rintro rfl; simp at h

theorem visits_eq (M : MDP ℝ L n) (S : TSet L) (ho : ∀ w ∈ S.sequences, w.length % 2 = 1)
    (s : Fin n) (i : Fin M.actions.length) : M.visits S s M.actions[i] = denMDP M S s i := by
  unfold visits denMDP possMDP
  rw [overSet_congr S M.lik (weightMDP M) _ _ (fun w hw => (weightMDP_lik M w (ho w hw)).symm) (fun _ _ _ => rfl)]
  unfold overSet
  congr 1
  refine List.map_congr_left (fun x hx => ?_)
  have hw := ho _ (List.of_mem_zip (List.mem_filter.mp hx).1).1
  have hne := ne_nil_of_odd hw
  simp only [wkMDP]
  rw [← pairs_eq_mdpSteps, ← maskMDP_eq M _ hne]
  rw [expVisits_eq _ _ _ _ _ _ _ ((weightMDP_eq M _ hne).trans (totalWeight_eq _ _ _ _))]
  rfl

theorem uses_eq (M : MDP ℝ L n) (S : TSet L) (ho : ∀ w ∈ S.sequences, w.length % 2 = 1)
    (s : Fin n) (i : Fin M.actions.length) (ss : Fin n) : M.uses S s M.actions[i] ss = numMDP M S s i ss := by
  unfold uses numMDP possMDP
  rw [overSet_congr S M.lik (weightMDP M) _ _ (fun w hw => (weightMDP_lik M w (ho w hw)).symm) (fun _ _ _ => rfl)]
  unfold overSet
  congr 1
  refine List.map_congr_left (fun x hx => ?_)
  have hw := ho _ (List.of_mem_zip (List.mem_filter.mp hx).1).1
  have hne := ne_nil_of_odd hw
  simp only [wkMDP]
  rw [← pairs_eq_mdpSteps, ← maskMDP_eq M _ hne]
  rw [expUses_eq _ _ _ _ _ _ _ _ ((weightMDP_eq M _ hne).trans (totalWeight_eq _ _ _ _))]
  rfl

theorem visits_not_mem (M : MDP ℝ L n) (S : TSet L) (s : Fin n) (x : L) (hx : x ∉ M.actions) : M.visits S s x = 0 := by
  unfold visits
  apply overSet_zero
  intro w _
  unfold expVisits
  rw [Finset.sum_eq_zero, zero_div]
  intro p _
  rw [Finset.mul_sum]
  refine Finset.sum_eq_zero (fun k _ => ?_)
  beta_reduce
  split_ifs with h1 h2
  · have : pathWeight M.initialState M.step (mdpLast M.labelling w) (mdpSteps w) p = 0 := by
      unfold pathWeight
      rw [Finset.prod_eq_zero (Finset.mem_univ k), mul_zero, zero_mul]
      unfold step
      rw [h2, M.prob_not_mem _ _ _ hx, mul_zero]
    rw [this, zero_mul]
  · rw [mul_zero]
  · rw [mul_zero]

/-- C58, MDP: one iteration replaces every transition probability by the expected number of uses of the transition
(with the action) divided by the expected number of times its source is left with this action, keeps the rows that are
never used, and reports the log-likelihood of the training set. -/
theorem bw_update_spec (processes : ℕ) (S : TSet L) (M M' : MDP ℝ L n) (ll : ℝ) (hn : M.actions.Nodup)
    (ho : ∀ w ∈ S.sequences, w.length % 2 = 1) (h : stepMDP processes S M = .ok (M', ll)) :
    M'.actions = M.actions ∧ M'.labelling = M.labelling ∧ M'.initialState = M.initialState ∧
    (∀ s x ss, M'.prob s x ss = if M.visits S s x = 0 then M.prob s x ss else M.uses S s x ss / M.visits S s x) ∧
    ll = overSet S M.lik (fun w => Real.log (M.lik w)) := by
  obtain ⟨h1, _, h3, _⟩ := stepMDP_ok _ _ _ _ _ hn (fun w hw => ne_nil_of_odd (ho w hw)) h
  subst h1
  refine ⟨rfl, rfl, rfl, fun s x ss => ?_, ?_⟩
  · by_cases hx : x ∈ M.actions
    · obtain ⟨i, hi, rfl⟩ := List.mem_iff_getElem.mp hx
      have e1 := M.prob_getElem hn s ⟨i, hi⟩ ss
      have e2 := (newMDP M S).prob_getElem hn s ⟨i, hi⟩ ss
      have e3 := M.visits_eq S ho s ⟨i, hi⟩
      have e4 := M.uses_eq S ho s ⟨i, hi⟩ ss
      refine e2.trans ?_
      have e1' : M.prob s M.actions[i] ss = M.matrix s ⟨i, hi⟩ ss := e1
      have e3' : M.visits S s M.actions[i] = denMDP M S s ⟨i, hi⟩ := e3
      have e4' : M.uses S s M.actions[i] ss = numMDP M S s ⟨i, hi⟩ ss := e4
      rw [e1', e3', e4']
      rfl
    · rw [M.prob_not_mem _ _ _ hx, M.visits_not_mem S s x hx, (newMDP M S).prob_not_mem _ _ _ hx, if_pos rfl]
  · rw [h3]
    exact filter_sum_eq_overSet S _ _ _ _ (fun w hw => (weightMDP_lik M w (ho w hw)).symm)
      (fun w hw => (weightMDP_lik M w (ho w hw)).symm)

theorem bw_step_keeps (processes : ℕ) (S : TSet L) (M M' : MDP ℝ L n) (ll : ℝ)
    (h : stepMDP processes S M = .ok (M', ll)) :
    M'.actions = M.actions ∧ M'.labelling = M.labelling ∧ M'.initialState = M.initialState := by
  unfold stepMDP at h
  cases hw : workMDP processes S M with
  | error e => rw [hw] at h; cases h
  | ok temp =>
    rw [hw] at h
    injection h with h
    injection h with h1 h2
    rw [← h1]
    exact ⟨rfl, rfl, rfl⟩

/-- When an iteration succeeds, and what it raises otherwise: with several processes impossible traces are ignored, and
ValueError is raised when all of them are impossible; with one process an impossible trace raises TypeError. -/
theorem bw_step_outcome (processes : ℕ) (S : TSet L) (M : MDP ℝ L n) (hn : M.actions.Nodup)
    (ho : ∀ w ∈ S.sequences, w.length % 2 = 1) (hlen : S.times.length = S.sequences.length) :
    ((1 < processes ∧ ∃ w ∈ S.sequences, M.lik w ≠ 0) ∨ (processes ≤ 1 ∧ S.sequences ≠ [] ∧ ∀ w ∈ S.sequences, M.lik w ≠ 0) →
      ∃ r, stepMDP processes S M = .ok r) ∧
    (1 < processes ∧ (∀ w ∈ S.sequences, M.lik w = 0) → stepMDP processes S M = .error .valueError) ∧
    (processes ≤ 1 ∧ (∃ w ∈ S.sequences, M.lik w = 0) → stepMDP processes S M = .error .typeError) := by
  have hw := workMDP_eq processes S M hn (fun w hw => ne_nil_of_odd (ho w hw))
  obtain ⟨a1, a2, a3⟩ := collect_outcome .valueError processes S hlen M.lik
    (fun x => if weightMDP M x.1 = 0 then none else some (wkMDP M x)) (wkMDP M)
    (fun x hx => by rw [weightMDP_lik M _ (ho _ (List.of_mem_zip hx).1)])
  refine ⟨fun h => ?_, fun h => ?_, fun h => ?_⟩
  · obtain ⟨r, hr⟩ := a1 h
    unfold stepMDP
    rw [hw, hr]
    exact ⟨_, rfl⟩
  · unfold stepMDP; rw [hw, a2 h]; rfl
  · unfold stepMDP; rw [hw, a3 h]; rfl

/-- An empty trace makes an iteration raise IndexError. -/
theorem bw_step_empty_trace (processes : ℕ) (M : MDP ℝ L n) (t : ℕ) :
    stepMDP processes { sequences := [[]], times := [t], floatTimes := false, type := some 1 } M = .error .indexError := rfl

/-! ### C33: stochasticity -/

/-- C33, one iteration: a row of sum 1 keeps sum 1 and all entries stay non-negative; the rows of the actions that are
not available stay so. -/
theorem bw_step_stochastic (processes : ℕ) (S : TSet L) (M M' : MDP ℝ L n) (ll : ℝ) (hn : M.actions.Nodup) (hM : M.Stochastic)
    (ho : ∀ w ∈ S.sequences, w.length % 2 = 1) (h : stepMDP processes S M = .ok (M', ll)) :
    M'.Stochastic ∧ ∀ s x, ∑ ss, M'.prob s x ss = ∑ ss, M.prob s x ss := by
  obtain ⟨h1, _, _, _⟩ := stepMDP_ok _ _ _ _ _ hn (fun w hw => ne_nil_of_odd (ho w hw)) h
  subst h1
  obtain ⟨hi0, hi1, hm0, hm1⟩ := hM
  have hnn := numMDP_nonneg M S hi0 hm0
  have hsum : ∀ s (i : Fin M.actions.length), ∑ ss, (newMDP M S).matrix s i ss = ∑ ss, M.matrix s i ss := by
    intro s i
    simp only [newMDP]
    split_ifs with h0
    · rfl
    · rw [← Finset.sum_div, sum_numMDP, div_self h0]
      rcases hm1 s i with h | h
      · exact h.symm
      · exfalso
        apply h0
        rw [← sum_numMDP]
        refine Finset.sum_eq_zero (fun ss _ => numMDP_zero M hn S s i ss ?_)
        exact (Finset.sum_eq_zero_iff_of_nonneg (fun ss _ => hm0 s i ss)).mp h ss (Finset.mem_univ ss)
  refine ⟨⟨hi0, hi1, fun s i s' => ?_, fun s i => ?_⟩, fun s x => ?_⟩
  · simp only [newMDP]
    split_ifs
    · exact hm0 _ _ _
    · exact div_nonneg (hnn _ _ _) (le_of_le_of_eq (Finset.sum_nonneg (fun ss _ => hnn s i ss)) (sum_numMDP M S s i))
  · have := hsum s i
    rcases hm1 s i with h | h
    · left; rw [this, h]
    · right; rw [this, h]
  · by_cases hx : x ∈ M.actions
    · obtain ⟨i, hi, rfl⟩ := List.mem_iff_getElem.mp hx
      have e1 : ∑ ss, M.prob s M.actions[i] ss = ∑ ss, M.matrix s ⟨i, hi⟩ ss := M.sum_prob hn s ⟨i, hi⟩
      have e2 : ∑ ss, (newMDP M S).prob s M.actions[i] ss = ∑ ss, (newMDP M S).matrix s ⟨i, hi⟩ ss :=
        (newMDP M S).sum_prob hn s ⟨i, hi⟩
      rw [e1, e2]
      exact hsum s ⟨i, hi⟩
    · rw [Finset.sum_congr rfl (fun ss _ => M.prob_not_mem s x ss hx),
        Finset.sum_congr rfl (fun ss _ => (newMDP M S).prob_not_mem s x ss hx)]

/-- C33: after any number of iterations the learned model is an MDP. -/
theorem fit_stochastic (processes : ℕ) (S : TSet L) (epsilon : ℝ) (maxIt : ℕ) (M : MDP ℝ L n) (hn : M.actions.Nodup)
    (hM : M.Stochastic) (ho : ∀ w ∈ S.sequences, w.length % 2 = 1)
    (st : LoopState (MDP ℝ L n)) (h : fit (stepMDP processes S) epsilon maxIt M = .ok st) :
    st.h.Stochastic ∧ ∀ s x, ∑ ss, st.h.prob s x ss = ∑ ss, M.prob s x ss := by
  have := loop_invariant _ _ (fun M' : MDP ℝ L n => M'.actions.Nodup ∧ M'.Stochastic ∧
    ∀ s x, ∑ ss, M'.prob s x ss = ∑ ss, M.prob s x ss) ?_ _ _ _ ⟨hn, hM, fun _ _ => rfl⟩ h
  · exact this.2
  · rintro M1 M2 ll ⟨i1, i2, i3⟩ hs
    obtain ⟨j1, j2⟩ := M1.bw_step_stochastic _ _ _ _ i1 i2 ho hs
    exact ⟨by rw [(M1.bw_step_keeps _ _ _ _ hs).1]; exact i1, j1, fun s x => (j2 s x).trans (i3 s x)⟩

/-! ### C34: structure -/

theorem uses_zero (M : MDP ℝ L n) (hn : M.actions.Nodup) (S : TSet L) (ho : ∀ w ∈ S.sequences, w.length % 2 = 1) (s : Fin n)
    (x : L) (ss : Fin n) (h : M.prob s x ss = 0) (hx : x ∈ M.actions) : M.uses S s x ss = 0 := by
  obtain ⟨i, hi, rfl⟩ := List.mem_iff_getElem.mp hx
  have e1 : M.prob s M.actions[i] ss = M.matrix s ⟨i, hi⟩ ss := M.prob_getElem hn s ⟨i, hi⟩ ss
  have e2 : M.uses S s M.actions[i] ss = numMDP M S s ⟨i, hi⟩ ss := M.uses_eq S ho s ⟨i, hi⟩ ss
  rw [e2]
  exact numMDP_zero M hn S s ⟨i, hi⟩ ss (by rw [← e1, h])

/-- C34, one iteration: a transition of probability 0 keeps probability 0. -/
theorem bw_step_zero (processes : ℕ) (S : TSet L) (M M' : MDP ℝ L n) (ll : ℝ) (hn : M.actions.Nodup)
    (ho : ∀ w ∈ S.sequences, w.length % 2 = 1) (h : stepMDP processes S M = .ok (M', ll)) (s : Fin n) (x : L) (ss : Fin n)
    (h0 : M.prob s x ss = 0) : M'.prob s x ss = 0 := by
  rw [(M.bw_update_spec _ _ _ _ hn ho h).2.2.2.1]
  split_ifs with hv
  · exact h0
  · by_cases hx : x ∈ M.actions
    · rw [M.uses_zero hn S ho s x ss h0 hx, zero_div]
    · exact absurd (M.visits_not_mem S s x hx) hv

/-- C34: after any number of iterations the actions, the labels and the initial distribution are the same, and no
transition has appeared. -/
theorem fit_structure (processes : ℕ) (S : TSet L) (epsilon : ℝ) (maxIt : ℕ) (M : MDP ℝ L n) (hn : M.actions.Nodup)
    (ho : ∀ w ∈ S.sequences, w.length % 2 = 1)
    (st : LoopState (MDP ℝ L n)) (h : fit (stepMDP processes S) epsilon maxIt M = .ok st) :
    st.h.actions = M.actions ∧ st.h.labelling = M.labelling ∧ st.h.initialState = M.initialState ∧
    ∀ s x ss, M.prob s x ss = 0 → st.h.prob s x ss = 0 := by
  refine loop_invariant _ _ (fun M' : MDP ℝ L n => M'.actions = M.actions ∧ M'.labelling = M.labelling ∧
    M'.initialState = M.initialState ∧ ∀ s x ss, M.prob s x ss = 0 → M'.prob s x ss = 0) ?_ _ _ _
    ⟨rfl, rfl, rfl, fun _ _ _ h => h⟩ h
  rintro M1 M2 ll ⟨i1, i2, i3, i4⟩ hs
  obtain ⟨j1, j2, j3⟩ := M1.bw_step_keeps _ _ _ _ hs
  exact ⟨j1.trans i1, j2.trans i2, j3.trans i3, fun s x ss h0 =>
    M1.bw_step_zero _ _ _ _ (by rw [i1]; exact hn) ho hs s x ss (i4 s x ss h0)⟩

/-- The training set uses the action `x` in `s`: some path of positive probability of some trace leaves `s` with `x`. -/
def Visited (M : MDP ℝ L n) (S : TSet L) (s : Fin n) (x : L) : Prop :=
  ∃ w ∈ S.sequences, ∃ p : Fin ((mdpSteps w).length + 1) → Fin n,
    0 < pathWeight M.initialState M.step (mdpLast M.labelling w) (mdpSteps w) p ∧
    ∃ k : Fin (mdpSteps w).length, p k.castSucc = s ∧ ((mdpSteps w).get k).2 = x

/-- C34, one iteration: the row of a state and an action that the training set does not use is kept. -/
theorem bw_step_unvisited (processes : ℕ) (S : TSet L) (M M' : MDP ℝ L n) (ll : ℝ) (hn : M.actions.Nodup) (hM : M.Stochastic)
    (ho : ∀ w ∈ S.sequences, w.length % 2 = 1) (h : stepMDP processes S M = .ok (M', ll))
    (s : Fin n) (x : L) (hv : ¬ M.Visited S s x) (ss : Fin n) : M'.prob s x ss = M.prob s x ss := by
  rw [(M.bw_update_spec _ _ _ _ hn ho h).2.2.2.1, if_pos]
  apply overSet_zero
  intro w hw
  unfold expVisits
  rw [Finset.sum_eq_zero, zero_div]
  intro p _
  by_cases hp : 0 < pathWeight M.initialState M.step (mdpLast M.labelling w) (mdpSteps w) p
  · rw [Finset.sum_eq_zero, mul_zero]
    intro k _
    beta_reduce
    split_ifs with h1 h2
    · exact absurd ⟨w, hw, p, hp, k, h1, h2⟩ hv
    · rfl
    · rfl
  · have h0 : 0 ≤ pathWeight M.initialState M.step (mdpLast M.labelling w) (mdpSteps w) p :=
      mul_nonneg (mul_nonneg (hM.1 _) (Finset.prod_nonneg (fun _ _ => M.step_nonneg hM.2.2.1 _ _ _))) (by
        unfold mdpLast; split_ifs <;> norm_num)
    rw [le_antisymm (not_lt.mp hp) h0, zero_mul]

/-! ### C37: the likelihood never decreases -/

theorem Stochastic.row_le {M : MDP ℝ L n} (hM : M.Stochastic) (s : Fin n) (i : Fin M.actions.length) :
    ∑ s', M.matrix s i s' ≤ 1 := by
  rcases hM.2.2.2 s i with h | h <;> rw [h]
  exact zero_le_one

/-- C37, one iteration: the log-likelihood of the training set (given the actions) does not decrease, and exactly the same
traces are possible. The value reported by the iteration is the log-likelihood of the model before the iteration. -/
theorem bw_step_monotone (processes : ℕ) (S : TSet L) (M M' : MDP ℝ L n) (ll : ℝ) (hn : M.actions.Nodup) (hM : M.Stochastic)
    (ho : ∀ w ∈ S.sequences, w.length % 2 = 1) (hlen : S.times.length = S.sequences.length) (ht : ∀ t ∈ S.times, 1 ≤ t)
    (h : stepMDP processes S M = .ok (M', ll)) :
    avgLogLik M.lik S ≤ avgLogLik M'.lik S ∧ (∀ w ∈ S.sequences, M.lik w ≠ 0 ↔ M'.lik w ≠ 0) ∧
    ll = S.times.sum * avgLogLik M.lik S := by
  have hM' := (M.bw_step_stochastic processes S M' ll hn hM ho h).1
  have hz := M.bw_step_zero processes S M' ll hn ho h
  obtain ⟨h1, _, h3, _⟩ := stepMDP_ok _ _ _ _ _ hn (fun w hw => ne_nil_of_odd (ho w hw)) h
  subst h1
  have hl := M.lik_nonneg hM.1 hM.2.2.1
  have hl' := (newMDP M S).lik_nonneg hM'.1 hM'.2.2.1
  obtain ⟨hpos, hg⟩ := newMDP_gain M hn S hM.1 hM.2.2.1 hM.row_le ht
  have e1 := fun w hw => (weightMDP_lik M w (ho w hw)).symm
  have e2 := fun w hw => (weightMDP_lik (newMDP M S) w (ho w hw)).symm
  have hposs : ∀ w ∈ S.sequences, M.lik w ≠ 0 ↔ (newMDP M S).lik w ≠ 0 := by
    intro w hw
    rw [e1 w hw, e2 w hw]
    constructor
    · intro h0
      obtain ⟨t, htm⟩ := mem_zip_of_mem S hlen w hw
      exact (hpos (w, t) ((mem_possMDP M S _).mpr ⟨htm, h0⟩)).ne'
    · intro h0 hz0
      apply h0
      have hne := ne_nil_of_odd (ho w hw)
      rw [weightMDP_eq _ w hne] at hz0 ⊢
      refine totalWeight_zero M.step _ M.initialState _ _ (M.step_nonneg hM.2.2.1) hM.1 (maskMDP_nonneg M w) ?_
        (fun s hs => hs) _ hz0
      intro s ss o hso
      unfold step at hso ⊢
      rcases mul_eq_zero.mp hso with h | h
      · have hlab : (newMDP M S).labelling = M.labelling := rfl
        rw [hlab, h, zero_mul]
      · rw [hz s o.2 ss h, mul_zero]
  have k1 := filter_sum_eq_overSet S _ _ M.lik M.lik e1 e1
  have k2 := filter_sum_eq_overSet S _ _ M.lik (newMDP M S).lik e1 e2
  refine ⟨avgLogLik_mono S _ _ hl hl' hposs ?_, hposs, ?_⟩
  · rw [← k1, ← k2]; exact hg
  · rw [h3]
    exact k1.trans (overSet_eq_avgLogLik S _ hl ht)

/-- C37: whatever the number of iterations, the log-likelihood of the learned model is at least the one of the initial
model. -/
theorem fit_monotone (processes : ℕ) (S : TSet L) (epsilon : ℝ) (maxIt : ℕ) (M : MDP ℝ L n) (hn : M.actions.Nodup)
    (hM : M.Stochastic) (ho : ∀ w ∈ S.sequences, w.length % 2 = 1) (hlen : S.times.length = S.sequences.length)
    (ht : ∀ t ∈ S.times, 1 ≤ t)
    (st : LoopState (MDP ℝ L n)) (h : fit (stepMDP processes S) epsilon maxIt M = .ok st) :
    avgLogLik M.lik S ≤ avgLogLik st.h.lik S := by
  have h0 : M.actions.Nodup ∧ M.Stochastic ∧ avgLogLik M.lik S ≤ avgLogLik M.lik S := ⟨hn, hM, le_rfl⟩
  have := loop_invariant _ _ (fun M' : MDP ℝ L n => M'.actions.Nodup ∧ M'.Stochastic ∧ avgLogLik M.lik S ≤ avgLogLik M'.lik S) ?_ _ _ _
    h0 h
  · exact this.2.2
  · rintro M1 M2 ll ⟨i0, i1, i2⟩ hs
    exact ⟨by rw [(M1.bw_step_keeps _ _ _ _ hs).1]; exact i0, (M1.bw_step_stochastic _ _ _ _ i0 i1 ho hs).1,
      le_trans i2 (M1.bw_step_monotone _ _ _ _ i0 i1 ho hlen ht hs).1⟩

/-- `fit` never fails once the initial model can generate a trace of the set (with several processes). -/
theorem fit_total (processes : ℕ) (hp : 1 < processes) (S : TSet L) (epsilon : ℝ) (maxIt : ℕ) (M : MDP ℝ L n)
    (hn : M.actions.Nodup) (hM : M.Stochastic)
    (ho : ∀ w ∈ S.sequences, w.length % 2 = 1) (hlen : S.times.length = S.sequences.length) (ht : ∀ t ∈ S.times, 1 ≤ t)
    (w : List L) (hw : w ∈ S.sequences) (hl : M.lik w ≠ 0) :
    ∃ st, fit (stepMDP processes S) epsilon maxIt M = .ok st := by
  unfold fit
  generalize (0:ℕ) = c
  generalize (none : Option ℝ) = l
  induction maxIt generalizing M c l with
  | zero => exact ⟨_, rfl⟩
  | succ fuel ih =>
    obtain ⟨⟨M', ll⟩, hr⟩ := (M.bw_step_outcome processes S hn ho hlen).1 (Or.inl ⟨hp, w, hw, hl⟩)
    rw [loop_succ _ _ _ _ M' ll hr]
    split_ifs
    · exact ⟨_, rfl⟩
    · exact ih M' (by rw [(M.bw_step_keeps _ _ _ _ hr).1]; exact hn) (M.bw_step_stochastic _ _ _ _ hn hM ho hr).1
        (((M.bw_step_monotone _ _ _ _ hn hM ho hlen ht hr).2.1 w hw).mp hl) _ _

/-- C41, MDP: with `epsilon > 0` the learning ends even with an infinite budget, after at most
`-(initial log-likelihood)/epsilon + 2` iterations. -/
theorem fit_terminates (processes : ℕ) (hp : 1 < processes) (S : TSet L) (epsilon : ℝ) (he : 0 < epsilon) (M : MDP ℝ L n)
    (hn : M.actions.Nodup) (hM : M.Stochastic)
    (ho : ∀ w ∈ S.sequences, w.length % 2 = 1) (hlen : S.times.length = S.sequences.length) (ht : ∀ t ∈ S.times, 1 ≤ t)
    (w : List L) (hw : w ∈ S.sequences) (hl : M.lik w ≠ 0) :
    ∃ st N, (∀ maxIt, N ≤ maxIt → fit (stepMDP processes S) epsilon maxIt M = .ok st) ∧
      (st.counter : ℝ) ≤ -(S.times.sum * avgLogLik M.lik S) / epsilon + 2 := by
  obtain ⟨⟨M1, l0⟩, hr⟩ := (M.bw_step_outcome processes S hn ho hlen).1 (Or.inl ⟨hp, w, hw, hl⟩)
  have hl0 := (M.bw_step_monotone _ _ _ _ hn hM ho hlen ht hr).2.2
  have hbound : ∀ N st, fit (stepMDP processes S) epsilon N M = .ok st →
      (st.counter : ℝ) ≤ -(S.times.sum * avgLogLik M.lik S) / epsilon + 2 := by
    intro N st h
    have := fit_bound _ epsilon he N M (fun M' => M'.actions.Nodup ∧ M'.Stochastic) 0 ⟨hn, hM⟩ ?_ st h M1 l0 hr
    · rw [hl0, zero_sub] at this; exact this
    · intro h h' ll hi hs
      refine ⟨⟨by rw [(h.bw_step_keeps _ _ _ _ hs).1]; exact hi.1, (h.bw_step_stochastic _ _ _ _ hi.1 hi.2 ho hs).1⟩, ?_⟩
      rw [(h.bw_update_spec _ _ _ _ hi.1 ho hs).2.2.2.2]
      exact overSet_log_nonpos S _ (fun w => (h.lik_mem_unit hi.1 hi.2 w).1) (fun w _ => (h.lik_mem_unit hi.1 hi.2 w).2)
  obtain ⟨N, hN⟩ := exists_nat_gt (-(S.times.sum * avgLogLik M.lik S) / epsilon + 2)
  obtain ⟨st, hst⟩ := M.fit_total processes hp S epsilon N hn hM ho hlen ht w hw hl
  have hb := hbound N st hst
  refine ⟨st, N, fun maxIt hm => fit_stopped _ _ _ _ _ hst ?_ _ hm, hb⟩
  exact_mod_cast lt_of_le_of_lt hb hN

/-! ### C42: order and processes -/

/-- C42, order and multiplicities: two training sets in which every trace has the same multiplicity give the same
result. -/
theorem bw_step_mult (processes : ℕ) (S1 S2 : TSet L) (M : MDP ℝ L n) (hn : M.actions.Nodup)
    (ho1 : ∀ w ∈ S1.sequences, w.length % 2 = 1) (ho2 : ∀ w ∈ S2.sequences, w.length % 2 = 1)
    (hl1 : S1.times.length = S1.sequences.length) (hl2 : S2.times.length = S2.sequences.length)
    (ht1 : ∀ t ∈ S1.times, 1 ≤ t) (ht2 : ∀ t ∈ S2.times, 1 ≤ t) (hmult : ∀ w, S1.mult w = S2.mult w) :
    stepMDP processes S1 M = stepMDP processes S2 M := by
  have hmem := mem_iff_of_mult S1 S2 hl1 hl2 ht1 ht2 hmult
  have w1 := workMDP_eq processes S1 M hn (fun w hw => ne_nil_of_odd (ho1 w hw))
  have w2 := workMDP_eq processes S2 M hn (fun w hw => ne_nil_of_odd (ho2 w hw))
  have hc := collect_mult .valueError processes S1 S2 hl1 hl2 hmem (weightMDP M) _ (wkMDP M) _ (wkMDP M)
    (fun x hx => rfl) (fun x hx => rfl)
  rcases hc with ⟨r1, r2, k1, k2⟩ | ⟨e, k1, k2⟩
  · have h1 : ∃ r, stepMDP processes S1 M = .ok r := by unfold stepMDP; rw [w1, k1]; exact ⟨_, rfl⟩
    have h2 : ∃ r, stepMDP processes S2 M = .ok r := by unfold stepMDP; rw [w2, k2]; exact ⟨_, rfl⟩
    obtain ⟨⟨M1, l1⟩, h1⟩ := h1
    obtain ⟨⟨M2, l2⟩, h2⟩ := h2
    have c4 := (M.bw_update_spec _ _ _ _ hn ho1 h1).2.2.2.2
    have d4 := (M.bw_update_spec _ _ _ _ hn ho2 h2).2.2.2.2
    obtain ⟨c1, _, _, _⟩ := stepMDP_ok _ _ _ _ _ hn (fun w hw => ne_nil_of_odd (ho1 w hw)) h1
    obtain ⟨d1, _, _, _⟩ := stepMDP_ok _ _ _ _ _ hn (fun w hw => ne_nil_of_odd (ho2 w hw)) h2
    have f1 : denMDP M S1 = denMDP M S2 := by
      funext s i
      rw [← M.visits_eq S1 ho1, ← M.visits_eq S2 ho2]
      exact overSet_mult S1 S2 hl1 hl2 hmult _ _
    have f2 : numMDP M S1 = numMDP M S2 := by
      funext s i ss
      rw [← M.uses_eq S1 ho1, ← M.uses_eq S2 ho2]
      exact overSet_mult S1 S2 hl1 hl2 hmult _ _
    rw [h1, h2, c1, d1, c4, d4, overSet_mult S1 S2 hl1 hl2 hmult]
    unfold newMDP
    rw [f1, f2]
  · unfold stepMDP
    rw [w1, w2, k1, k2]

/-- C42, number of processes: when every trace of the set is possible, or when there are several processes in both runs,
the number of processes does not matter. -/
theorem bw_step_processes (p q : ℕ) (S : TSet L) (M : MDP ℝ L n) (hn : M.actions.Nodup)
    (ho : ∀ w ∈ S.sequences, w.length % 2 = 1)
    (hposs : (∀ w ∈ S.sequences, M.lik w ≠ 0) ∨ (1 < p ∧ 1 < q)) : stepMDP p S M = stepMDP q S M := by
  unfold stepMDP
  rw [workMDP_eq p S M hn (fun w hw => ne_nil_of_odd (ho w hw)), workMDP_eq q S M hn (fun w hw => ne_nil_of_odd (ho w hw)),
    collect_processes _ p q]
  rcases hposs with h | h
  · left
    intro x hx
    obtain ⟨y, hy, rfl⟩ := List.mem_map.mp hx
    have hw := (List.of_mem_zip hy).1
    rw [weightMDP_lik M _ (ho _ hw), if_neg (h _ hw)]
    simp
  · exact Or.inr h

end steps

/-! ### Non-vacuity -/

/-- A training set for `exMDP`: two possible traces and an impossible one. -/
def exSetMDP : TSet ℕ := { sequences := [[2, 11, 1, 10, 1], [2, 10, 0], [2, 11, 1, 11, 1]], times := [2, 1, 3], floatTimes := false, type := some 1 }

theorem exMDP_lik : (exMDP ℝ).lik [2, 10, 0] = 1 := by
  have h := (exMDP ℝ).lik_alternate [(2, 10)] 0
  have e : ∀ s, (exMDP ℝ).prob s 10 0 = (![1/2, 1/4, 1] : Fin 3 → ℝ) s := by
    intro s
    refine ((exMDP ℝ).prob_getElem exMDP_stochastic_real.2 s (0 : Fin 2) 0).trans ?_
    fin_cases s <;> simp [exMDP]
  refine h.trans ?_
  unfold stepWeight
  rw [totalWeight_eq]
  simp only [beta0, betas, bwd, List.headD, Fin.sum_univ_three, step, mask, e]
  simp [exMDP]

/-- The hypotheses of the theorems are met by `exMDP` and `exSetMDP`, for which `fit` succeeds with several processes,
whatever the budget; with one process the impossible trace makes it fail (C42). -/
example (epsilon : ℝ) (maxIt : ℕ) : (exMDP ℝ).actions.Nodup ∧ (exMDP ℝ).Stochastic ∧
    (∀ w ∈ exSetMDP.sequences, w.length % 2 = 1) ∧ exSetMDP.times.length = exSetMDP.sequences.length ∧
    (∀ t ∈ exSetMDP.times, 1 ≤ t) ∧ ∃ st, fit (stepMDP 2 exSetMDP) epsilon maxIt (exMDP ℝ) = .ok st := by
  refine ⟨exMDP_stochastic_real.2, exMDP_stochastic_real.1, by decide, by decide, by decide, ?_⟩
  exact (exMDP ℝ).fit_total 2 (by norm_num) exSetMDP epsilon maxIt exMDP_stochastic_real.2 exMDP_stochastic_real.1 (by decide)
    (by decide) (by decide) [2, 10, 0] (by decide) (by rw [exMDP_lik]; norm_num)

end MDP
end Jajapy
