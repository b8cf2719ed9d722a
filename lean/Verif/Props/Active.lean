import Verif.Spec.Active
import Verif.Lemmas.Draws
import Verif.Props.BWMDP
import Verif.Props.TSet
import Verif.Props.Prep
import Mathlib.Tactic.FieldSimp

/-!
Properties C53, C54, C63, C64 of the active learning (`Active_BW_MDP.py`).
-/

set_option linter.unusedSectionVars false

namespace Jajapy.Active

open Finset Tools Spec Spec.Active MeasureTheory

/-! ### C53: the exploration distribution -/

section weights
variable {K : Type} [Field K] [LinearOrder K] [IsStrictOrderedRing K] {m : ℕ}

theorem weights_distribution (row : Fin m → K) (hm : 2 ≤ m) (h0 : ∀ i, 0 ≤ row i) (ht : ∑ i, row i ≠ 0) :
    (∀ i, 0 ≤ weights row i) ∧ ∑ i, weights row i = 1 ∧ (∀ i j, row i ≤ row j → weights row j ≤ weights row i) ∧
      (∀ i j, row i < row j → weights row j < weights row i) := by
  have htp : 0 < ∑ i, row i := lt_of_le_of_ne (sum_nonneg (fun i _ => h0 i)) (Ne.symm ht)
  have hm1 : (0:K) < (m : K) - 1 := by
    have : (1:K) < m := by exact_mod_cast hm
    linarith
  have hd : 0 < (∑ i, row i) * ((m:K) - 1) := mul_pos htp hm1
  refine ⟨fun i => ?_, ?_, fun i j h => ?_, fun i j h => ?_⟩
  · unfold weights
    apply div_nonneg _ hd.le
    have := single_le_sum (f := row) (fun i _ => h0 i) (mem_univ i)
    linarith
  · unfold weights
    rw [← sum_div, sum_sub_distrib, sum_const, card_univ, Fintype.card_fin, nsmul_eq_mul]
    rw [div_eq_one_iff_eq hd.ne']
    ring
  · unfold weights
    apply div_le_div_of_nonneg_right _ hd.le
    linarith
  · unfold weights
    apply div_lt_div_of_pos_right _ hd
    linarith

theorem getActionState_eq (row : Fin m → K) (hm : 2 ≤ m) (ht : ∑ i, row i ≠ 0) (r : K) :
    getActionState row r = pick (weights row) r := by
  have hm1 : (0:K) < (m : K) - 1 := by
    have : (1:K) < m := by exact_mod_cast hm
    linarith
  unfold getActionState
  rw [dif_pos (by omega), if_neg (mul_ne_zero ht hm1.ne')]

/-- C53: whatever the draw, the scheduler proposes an action, and one of positive weight. -/
theorem getActionState_total (row : Fin m → K) (hm : 2 ≤ m) (h0 : ∀ i, 0 ≤ row i) (ht : ∑ i, row i ≠ 0) (r : K) (hr : 0 ≤ r)
    (hr1 : r < 1) : ∃ i, getActionState row r = .ok i ∧ row i < ∑ j, row j := by
  obtain ⟨w0, w1, -⟩ := weights_distribution row hm h0 ht
  obtain ⟨i, h1, h2⟩ := pick_total (weights row) w0 w1 r hr hr1
  refine ⟨i, by rw [getActionState_eq row hm ht, h1], ?_⟩
  by_contra hc
  have : (∑ j, row j) - row i ≤ 0 := by linarith
  have htp : 0 < ∑ i, row i := lt_of_le_of_ne (sum_nonneg (fun i _ => h0 i)) (Ne.symm ht)
  have hm1 : (0:K) < (m : K) - 1 := by
    have : (1:K) < m := by exact_mod_cast hm
    linarith
  exact absurd h2 (not_lt.2 (div_nonpos_of_nonpos_of_nonneg this (mul_pos htp hm1).le))

end weights

/-- C53: for at least two actions and a row of counts that are not all zero, there is a probability distribution `p` on the actions, which gives
at least as much weight (more weight) to an action with a smaller (strictly smaller) count, and over a uniform random draw the scheduler proposes the
action `i` with probability `p i`. -/
theorem getActionState_law {m : ℕ} (row : Fin m → ℝ) (hm : 2 ≤ m) (h0 : ∀ i, 0 ≤ row i) (ht : ∃ i, row i ≠ 0) :
    ∃ p : Fin m → ℝ, (∀ i, 0 ≤ p i) ∧ ∑ i, p i = 1 ∧ (∀ i j, row i ≤ row j → p j ≤ p i) ∧ (∀ i j, row i < row j → p j < p i) ∧
      ∀ i, uniform {r | getActionState row r = .ok i} = ENNReal.ofReal (p i) := by
  have ht' : ∑ i, row i ≠ 0 := by
    obtain ⟨i, hi⟩ := ht
    intro hc
    exact hi ((sum_eq_zero_iff_of_nonneg (fun i _ => h0 i)).1 hc i (mem_univ i))
  obtain ⟨w0, w1, w2, w3⟩ := weights_distribution row hm h0 ht'
  refine ⟨weights row, w0, w1, w2, w3, fun i => ?_⟩
  rw [← pick_law (weights row) w0 w1.le i]
  congr 1
  ext r
  simp only [Set.mem_ofPred_eq, getActionState_eq row hm ht']

example : (2 ≤ 3) ∧ (∀ i, 0 ≤ (![1, 0, 3] : Fin 3 → ℚ) i) ∧ ∑ i, (![1, 0, 3] : Fin 3 → ℚ) i ≠ 0 ∧
    weights (![1, 0, 3] : Fin 3 → ℚ) = ![3/8, 1/2, 1/8] ∧ getActionState (![1, 0, 3] : Fin 3 → ℚ) (1/2) = .ok 1 := by
  decide +kernel

/-- The exploration has a hole: in a state that was never visited (all the counts are 0) the scheduler proposes the first action,
for every draw. -/
theorem getActionState_unvisited {K : Type} [Field K] [LinearOrder K] {m : ℕ} (hm : 0 < m) (r : K) :
    getActionState (fun _ : Fin m => (0:K)) r = .ok ⟨0, hm⟩ := by
  unfold getActionState
  rw [dif_pos hm, if_pos (by simp)]

/-- With a single action the scheduler proposes it. -/
theorem getActionState_single {K : Type} [Field K] [LinearOrder K] (row : Fin 1 → K) (r : K) : getActionState row r = .ok 0 := by
  unfold getActionState
  rw [dif_pos one_pos, if_pos (by simp)]
  rfl

/-! ### C63: the belief -/

section belief
variable {K L : Type} [Field K] [DecidableEq L] {n : ℕ}

theorem reach_eq (M : MDP K L n) (hn : M.actions.Nodup) (ps : List (L × L)) (s : Fin n) :
    reach M ps s = ps.foldl M.fwdStep M.initialState s := by
  unfold reach
  rw [BW.totalWeight_eq, M.fwdStep_eq, M.tauP_eq_step hn, BW.sum_beta0_foldl]
  simp

variable [LinearOrder K] [IsStrictOrderedRing K]

theorem fwdStep_nonneg (M : MDP K L n) (hn : M.actions.Nodup) (h0 : ∀ s i s', 0 ≤ M.matrix s i s') (v : Fin n → K)
    (hv : ∀ s, 0 ≤ v s) (p : L × L) (s : Fin n) : 0 ≤ M.fwdStep v p s := by
  show 0 ≤ ∑ ss, v ss * M.tauP ss s p
  rw [M.tauP_eq_step hn]
  exact sum_nonneg (fun ss _ => mul_nonneg (hv ss) (M.step_nonneg h0 ss s p))

theorem fwdStep_zero (M : MDP K L n) (p : L × L) : M.fwdStep (fun _ => 0) p = fun _ => 0 := by
  funext s
  show ∑ ss, (0:K) * M.tauP ss s p = 0
  simp

/-- The scheduler's state after it has accepted an action. -/
theorem asks_spec (M : MDP K L n) (allowed : L → Prop) (st : ALState K n M.actions.length × (ℕ → K)) (x : L)
    (st' : ALState K n M.actions.length × (ℕ → K)) (h : Asks (sched M) allowed st x st') :
    st'.1.mat = st.1.mat ∧ st'.1.alpha = st.1.alpha ∧ ∃ i, st'.1.lastAct = some i ∧ M.actions[i] = x := by
  have key : ∀ (st : ALState K n M.actions.length × (ℕ → K)) r y st1, (sched M).getAction st r = .ok (y, st1) →
      st1.1.mat = st.1.mat ∧ st1.1.alpha = st.1.alpha ∧ ∃ i, st1.1.lastAct = some i ∧ M.actions[i] = y := by
    intro st r y st1 h
    simp only [sched] at h
    cases hg : getAction M st.1 (st.2 0) r with
    | error e => rw [hg] at h; cases h
    | ok q =>
      rw [hg] at h
      have h' : (q.1, (q.2, fun k => st.2 (k+1))) = (y, st1) := by injection h
      injection h' with h1 h2
      subst h1 h2
      unfold getAction at hg
      obtain ⟨s, -, hg⟩ := (Except.bind_eq_ok _ _ _).1 hg
      obtain ⟨i, -, hg⟩ := (Except.bind_eq_ok _ _ _).1 hg
      have : (M.actions[i], ({ st.1 with lastAct := some i } : ALState K n M.actions.length)) = q := by injection hg
      subst this
      exact ⟨rfl, rfl, i, rfl, rfl⟩
  induction h with
  | accept r _ _ h _ => exact key _ _ _ _ h
  | reject r _ _ h _ _ ih =>
    obtain ⟨a1, a2, -⟩ := key _ _ _ _ h
    exact ⟨ih.1.trans a1, ih.2.1.trans a2, ih.2.2⟩

theorem execution_belief_aux {n' : ℕ} (sul : MDP K L n') (M : MDP K L n) (hn : M.actions.Nodup) (h0 : ∀ s i s', 0 ≤ M.matrix s i s')
    (s0 : Fin n') (st : ALState K n M.actions.length × (ℕ → K)) (w : List L) (st' : ALState K n M.actions.length × (ℕ → K))
    (h : Execution sul (sched M) s0 st w st') (ha : ∀ s, 0 ≤ st.1.alpha s) :
    st'.1.alpha = (pairs w).foldl M.fwdStep st.1.alpha ∧
    ∀ s i, st'.1.mat s i = st.1.mat s i + ∑ k : Fin (pairs w).length, if ((pairs w).get k).2 = M.actions[i] then
      ((pairs w).take k).foldl M.fwdStep st.1.alpha s / ∑ s', ((pairs w).take k).foldl M.fwdStep st.1.alpha s' else 0 := by
  induction h with
  | stop s st => exact ⟨rfl, fun s i => (add_zero _).symm⟩
  | @step s st x st1 s' st2 w st3 hask _ hobs _ ih =>
    obtain ⟨a1, a2, i0, a3, a4⟩ := asks_spec M _ _ _ _ hask
    have h2 : st2.1.alpha = M.fwdStep st.1.alpha (sul.labelling s, x) ∧
        ∀ s i, st2.1.mat s i = st.1.mat s i + if x = M.actions[i] then st.1.alpha s / ∑ s', st.1.alpha s' else 0 := by
      simp only [sched] at hobs
      unfold addObservation at hobs
      rw [a1, a2, a3] at hobs
      by_cases hp : 0 < ∑ s, st.1.alpha s
      · rw [if_pos hp] at hobs
        have : st2 = (⟨fun s j => if j = i0 then st.1.mat s j + st.1.alpha s / (∑ s, st.1.alpha s) else st.1.mat s j, some i0,
          M.fwdStep st.1.alpha (sul.labelling s, M.actions[i0])⟩, st1.2) := by
          injection hobs with hobs
          exact hobs.symm
        subst this
        refine ⟨by rw [a4], fun s i => ?_⟩
        show (if i = i0 then _ else _) = _
        by_cases hi : i = i0
        · rw [if_pos hi, if_pos (by rw [hi, a4])]
        · rw [if_neg hi, if_neg, add_zero]
          intro hc
          rw [← a4] at hc
          exact hi ((List.nodup_iff_injective_get.1 hn hc).symm)
      · rw [if_neg hp] at hobs
        have : st2 = (st1.1, st1.2) := by
          injection hobs with hobs
          exact hobs.symm
        have hz : st.1.alpha = fun _ => 0 := by
          funext s
          have := (sum_eq_zero_iff_of_nonneg (fun i _ => ha i)).1 (le_antisymm (not_lt.1 hp) (sum_nonneg (fun i _ => ha i))) s (mem_univ s)
          exact this
        subst this
        refine ⟨?_, fun s i => ?_⟩
        · show st1.1.alpha = _
          rw [a2, hz, fwdStep_zero]
        · show st1.1.mat s i = _
          rw [a1, hz]
          simp
    obtain ⟨i1, i2⟩ := ih (fun s => by rw [h2.1]; exact fwdStep_nonneg M hn h0 _ ha _ s)
    refine ⟨?_, fun s i => ?_⟩
    · rw [i1, h2.1]; rfl
    · rw [i2, h2.2, add_assoc]
      congr 1
      show _ = ∑ k : Fin ((pairs w).length + 1), _
      rw [Fin.sum_univ_succ]
      congr 1
      rw [h2.1]
      rfl

/-- C63: while `MDP.run` generates a trace of the system under learning with the active scheduler, the vector of the scheduler is, at the end of the trace
`w` (hence, for every prefix, at every step), the probability under the hypothesis `M` of the labels seen and of being in each state; and
the count table has grown by the expected number of times each action was done in each state. -/
theorem run_belief {n' : ℕ} (sul : MDP K L n') (M : MDP K L n) (hn : M.actions.Nodup) (hi : ∀ s, 0 ≤ M.initialState s)
    (h0 : ∀ s i s', 0 ≤ M.matrix s i s') (hns : sul.actions.Nodup) (his : ∀ s, 0 ≤ sul.initialState s)
    (h0s : ∀ s i s', 0 ≤ sul.matrix s i s') (steps : ℕ) (draws : List K) (hd : ∀ r ∈ draws, 0 ≤ r ∧ r < 1)
    (st st' : ALState K n M.actions.length × (ℕ → K)) (w : List L) (h : sul.run (sched M) steps draws st = some (.ok (w, st'))) :
    (∀ s, st'.1.alpha s = reach M (mdpSteps w) s) ∧
    ∀ s i, st'.1.mat s i = st.1.mat s i + expected M (mdpSteps w) s M.actions[i] := by
  obtain ⟨-, ⟨s0, -, he⟩, -⟩ := sul.run_spec hns his h0s (sched M) steps draws hd st w st' h
  obtain ⟨h1, h2⟩ := execution_belief_aux sul M hn h0 s0 _ w st' he hi
  rw [← pairs_eq_mdpSteps]
  refine ⟨fun s => by rw [h1, reach_eq M hn]; rfl, fun s i => ?_⟩
  rw [h2]
  congr 1
  unfold expected posterior
  apply sum_congr rfl
  intro k _
  simp only [reach_eq M hn]
  rfl

/-- C63: the weights with which the scheduler draws the current state are the distribution of the state of the hypothesis given the
labels and actions so far; if the hypothesis excludes them, the states are equally likely. -/
theorem belief_spec (M : MDP K L n) (hn : M.actions.Nodup) (hi : ∀ s, 0 ≤ M.initialState s) (h0 : ∀ s i s', 0 ≤ M.matrix s i s')
    (ps : List (L × L)) (s : Fin n) :
    belief (fun s => reach M ps s) s = if ∑ s', reach M ps s' = 0 then 1 / (n : K) else posterior M ps s := by
  have hr : ∀ s, 0 ≤ reach M ps s := by
    intro s
    rw [reach_eq M hn]
    have : ∀ (ps : List (L × L)) (v : Fin n → K), (∀ s, 0 ≤ v s) → ∀ s, 0 ≤ ps.foldl M.fwdStep v s := by
      intro ps
      induction ps with
      | nil => intro v hv s; exact hv s
      | cons p ps ih => intro v hv s; exact ih _ (fun s => fwdStep_nonneg M hn h0 v hv p s) s
    exact this ps _ hi s
  have hs : 0 ≤ ∑ s', reach M ps s' := sum_nonneg (fun s _ => hr s)
  unfold belief posterior
  by_cases h : ∑ s', reach M ps s' = 0
  · rw [if_pos h, if_pos h.le]
  · rw [if_neg h, if_neg (fun hc => h (le_antisymm hc hs))]

end belief

/-- Non-vacuity for C63: a run of the example with the active scheduler on itself. -/
example : ((exMDP ℚ).run (sched (exMDP ℚ)) 2 [0, 1/2, 1/4, 3/4, 1/8, 1/2, 1/2]
      (⟨![![1, 3], ![1, 1], ![1, 2]], none, ![0, 0, 1]⟩, fun _ => 1/3)).map (fun r => r.map (fun q => (q.1, List.ofFn (fun s => List.ofFn (q.2.1.mat s)), List.ofFn q.2.1.alpha))) =
    some (.ok ([2, 10, 0, 10, 0], [[2, 3], [1, 1], [2, 2]], [1/2, 1/2, 0])) := by
  decide +kernel

theorem measurable_getActionState {m : ℕ} (row : Fin m → ℝ) (i : Fin m) : MeasurableSet {r | getActionState row r = .ok i} := by
  unfold getActionState
  by_cases hm : 0 < m
  · by_cases hz : (∑ j, row j) * ((m : ℝ) - 1) = 0
    · simp only [dif_pos hm, if_pos hz, measurableSet_setOf]
      exact measurable_const
    · simp only [dif_pos hm, if_neg hz]
      exact measurable_pick _ i
  · simp only [dif_neg hm, measurableSet_setOf]
    exact measurable_const

/-- C63: over two independent uniform draws, the probability that the scheduler proposes the action with the index `i` is the mean, over the distribution of the current state,
of the probability of this action in the state. -/
theorem getAction_law {L : Type} [DecidableEq L] {n : ℕ} (M : MDP ℝ L n) (st : ALState ℝ n M.actions.length) (hb0 : ∀ s, 0 ≤ belief st.alpha s)
    (hb1 : ∑ s, belief st.alpha s = 1) (i : Fin M.actions.length) :
    (uniform.prod uniform) {r : ℝ × ℝ | getAction M st r.1 r.2 = .ok (M.actions[i], { st with lastAct := some i })} =
      ∑ s, ENNReal.ofReal (belief st.alpha s) * uniform {r | getActionState (st.mat s) r = .ok i} := by
  have hset : {r : ℝ × ℝ | getAction M st r.1 r.2 = .ok (M.actions[i], { st with lastAct := some i })} =
      ⋃ s : Fin n, {r | pick (belief st.alpha) r = .ok s} ×ˢ {r | getActionState (st.mat s) r = .ok i} := by
    ext r
    simp only [Set.mem_ofPred_eq, Set.mem_iUnion, Set.mem_prod]
    constructor
    · intro h
      unfold getAction at h
      obtain ⟨s, h1, h⟩ := (Except.bind_eq_ok _ _ _).1 h
      obtain ⟨j, h2, h⟩ := (Except.bind_eq_ok _ _ _).1 h
      injection h with h
      injection h with h3 h4
      injection h4 with _ h5
      injection h5 with h5
      subst h5
      exact ⟨s, h1, h2⟩
    · rintro ⟨s, h1, h2⟩
      unfold getAction
      rw [h1]
      show (do let i ← getActionState (st.mat s) r.2; pure (M.actions[i], { st with lastAct := some i })) = _
      rw [h2]
      rfl
  rw [hset, measure_iUnion]
  · rw [tsum_fintype]
    apply sum_congr rfl
    intro s _
    rw [Measure.prod_prod, pick_law _ hb0 hb1.le]
  · intro a b hab
    refine Set.disjoint_left.2 ?_
    rintro r ⟨h1, -⟩ ⟨h2, -⟩
    have h1 : pick (belief st.alpha) r.1 = .ok a := h1
    have h2 : pick (belief st.alpha) r.1 = .ok b := h2
    rw [h1] at h2
    injection h2 with h2
    exact hab h2
  · intro s
    exact (measurable_pick _ s).prod (measurable_getActionState _ i)

/-- The hypothesis of `getAction_law` holds for every vector with entries that are not negative. -/
theorem belief_distribution {n : ℕ} (alpha : Fin n → ℝ) (hn : 0 < n) (h0 : ∀ s, 0 ≤ alpha s) :
    (∀ s, 0 ≤ belief alpha s) ∧ ∑ s, belief alpha s = 1 := by
  unfold belief
  have hs : 0 ≤ ∑ s, alpha s := sum_nonneg (fun s _ => h0 s)
  by_cases h : ∑ s, alpha s ≤ 0
  · simp only [if_pos h, sum_const, card_univ, Fintype.card_fin, nsmul_eq_mul]
    refine ⟨fun s => by positivity, ?_⟩
    have : (n:ℝ) ≠ 0 := by exact_mod_cast hn.ne'
    field_simp
  · simp only [if_neg h]
    refine ⟨fun s => div_nonneg (h0 s) hs, ?_⟩
    rw [← sum_div]
    exact div_self (ne_of_gt (not_le.1 h))

/-! ### The count table -/

section table
variable {K L : Type} [Field K] [LinearOrder K] [IsStrictOrderedRing K] [DecidableEq L] {n : ℕ}

theorem computeProbas_eq (M : MDP K L n) (hn : M.actions.Nodup) (hi : ∀ s, 0 ≤ M.initialState s) (h0 : ∀ s i s', 0 ≤ M.matrix s i s')
    (w : List L) (hw : w.length % 2 = 1) (t : ℕ) :
    computeProbas M w t = .ok (if M.lik w = 0 then none else some (fun s i => t * expVisits M.initialState M.step (mdpLast M.labelling w)
      (fun x => if x.2 = M.actions[i] then 1 else 0) (mdpSteps w) s)) := by
  have hp := MDP.processWork_spec M hn w hw t
  have hl : 0 ≤ M.lik w := M.lik_nonneg hi h0 w
  unfold BW.processWorkMDP at hp
  unfold computeProbas
  cases hg : w.getLast? with
  | none => rw [hg] at hp; cases hp
  | some last =>
    rw [hg] at hp
    simp only at hp ⊢
    have hne : w ≠ [] := by rintro rfl; simp at hw
    have hlast : BW.lastSum (BW.maskLast (M.mask last) (BW.alphas M.tauP M.initialState (pairs w))) = M.lik w := by
      rw [BW.lastSum_maskLast, M.tauP_eq_step hn, ← weightMDP_lik M w hw, weightMDP_eq M w hne]
      unfold maskMDP
      rw [hg]
    rw [hlast] at hp ⊢
    by_cases hz : M.lik w = 0
    · rw [if_pos hz.le, if_pos hz]
    · rw [if_neg hz, if_neg hz] at hp
      rw [if_neg hz, if_neg (fun hc => hz (le_antisymm hc hl))]
      injection hp with hp
      injection hp with hp
      injection hp with h1 h2 h3 h4
      rw [h1]

end table

section strategy
variable {L : Type} [DecidableEq L] {n : ℕ}

theorem filterMap_ite {A B : Type} (q : A → ℝ) (f : A → B) (l : List A) :
    l.filterMap (fun p => if q p = 0 then none else some (f p)) = (l.filter (fun p => q p ≠ 0)).map f := by
  induction l with
  | nil => rfl
  | cons p l ih =>
    rw [List.filterMap_cons, List.filter_cons]
    by_cases hz : q p = 0
    · simp [hz, ih]
    · simp [hz, ih]

theorem results_eq (S : TSet L) (M : MDP ℝ L n) (hn : M.actions.Nodup) (hi : ∀ s, 0 ≤ M.initialState s)
    (h0 : ∀ s i s', 0 ≤ M.matrix s i s') (ho : ∀ w ∈ S.sequences, w.length % 2 = 1) :
    (S.sequences.zip S.times).mapM (fun p => computeProbas M p.1 p.2) =
      .ok ((S.sequences.zip S.times).map (fun p => if M.lik p.1 = 0 then none else some (fun s (i : Fin M.actions.length) =>
        (p.2 : ℝ) * expVisits M.initialState M.step (mdpLast M.labelling p.1)
          (fun x => if x.2 = M.actions[i] then 1 else 0) (mdpSteps p.1) s))) :=
  List.mapM_ok _ _ _ (fun p hp => computeProbas_eq M hn hi h0 p.1 (ho p.1 (List.of_mem_zip hp).1) p.2)

/-- C64: with several processes, and at least one trace that is possible in the hypothesis, the count table with which the exploration starts holds the expected
number of times each action is done in each state over the training set. -/
theorem strategy_spec (processes : ℕ) (hp : 1 < processes) (S : TSet L) (M : MDP ℝ L n) (hn : M.actions.Nodup) (hi : ∀ s, 0 ≤ M.initialState s)
    (h0 : ∀ s i s', 0 ≤ M.matrix s i s') (ho : ∀ w ∈ S.sequences, w.length % 2 = 1)
    (hpos : ∃ p ∈ S.sequences.zip S.times, 0 < M.lik p.1) :
    strategy processes S M = .ok (some (fun s i => M.visits S s M.actions[i])) := by
  unfold strategy
  rw [results_eq S M hn hi h0 ho]
  show (if 1 < processes then _ else _) = _
  rw [if_pos hp, List.filterMap_map]
  simp only [Function.comp_def, id]
  rw [filterMap_ite (fun p : List L × ℕ => M.lik p.1)]
  obtain ⟨p, hp1, hp2⟩ := hpos
  have hmem : p ∈ (S.sequences.zip S.times).filter (fun p => M.lik p.1 ≠ 0) := List.mem_filter.2 ⟨hp1, by simpa using hp2.ne'⟩
  have hv : ∀ s (i : Fin M.actions.length), M.visits S s M.actions[i] = (((S.sequences.zip S.times).filter (fun p => M.lik p.1 ≠ 0)).map
    (fun p => (p.2 : ℝ) * expVisits M.initialState M.step (mdpLast M.labelling p.1)
          (fun x => if x.2 = M.actions[i] then 1 else 0) (mdpSteps p.1) s)).sum := by
    intro s i
    unfold MDP.visits overSet
    congr!
  generalize (S.sequences.zip S.times).filter (fun p => M.lik p.1 ≠ 0) = l at hmem hv
  cases l with
  | nil => cases hmem
  | cons q l =>
    show Except.ok (some _) = _
    congr 2
    funext s i
    rw [hv, List.map_map]
    rfl

/-- The training set whose traces are all impossible in the hypothesis: the count table is the number 0, and the first step with the active scheduler
raises a TypeError. -/
theorem strategy_impossible (processes : ℕ) (hp : 1 < processes) (S : TSet L) (M : MDP ℝ L n) (hn : M.actions.Nodup)
    (hi : ∀ s, 0 ≤ M.initialState s) (h0 : ∀ s i s', 0 ≤ M.matrix s i s') (ho : ∀ w ∈ S.sequences, w.length % 2 = 1)
    (hz : ∀ w ∈ S.sequences, M.lik w = 0) : strategy processes S M = .ok none := by
  unfold strategy
  rw [results_eq S M hn hi h0 ho]
  show (if 1 < processes then _ else _) = _
  rw [if_pos hp]
  have : (S.sequences.zip S.times).map (fun p => if M.lik p.1 = 0 then none else some (fun s (i : Fin M.actions.length) =>
        (p.2 : ℝ) * expVisits M.initialState M.step (mdpLast M.labelling p.1)
          (fun x => if x.2 = M.actions[i] then 1 else 0) (mdpSteps p.1) s)) = (S.sequences.zip S.times).map (fun _ => none) :=
    List.map_congr_left (fun p hp => if_pos (hz _ (List.of_mem_zip hp).1))
  rw [this, List.filterMap_map]
  have : (S.sequences.zip S.times).filterMap (id ∘ fun _ => (none : Option (Fin n → Fin M.actions.length → ℝ))) = [] :=
    List.filterMap_eq_nil_iff.2 (fun _ _ => rfl)
  rw [this]
  rfl

theorem dropFalse_error {K : Type} [Field K] [DecidableEq K] {n m : ℕ} (hnm : 2 ≤ n * m) (l : List (Option (Fin n → Fin m → K)))
    (h : ∃ A, some A ∈ l) : dropFalse l = .error .valueError := by
  induction l with
  | nil => simp at h
  | cons x l ih =>
    cases x with
    | some A =>
      simp only [dropFalse, differsFromFalse]
      rw [if_neg (by omega), if_neg (by omega)]
      rfl
    | none =>
      obtain ⟨A, hA⟩ := h
      have : dropFalse l = .error .valueError := ih ⟨A, by simpa using hA⟩
      simp only [dropFalse, differsFromFalse, this]
      rfl

/-- C64 fails with one process: the comparison of an array with `False` raises a ValueError, as soon as a trace of the training set is possible
in the hypothesis (and there are at least two pairs of a state and an action). -/
theorem strategy_single_process (processes : ℕ) (hp : ¬ 1 < processes) (S : TSet L) (M : MDP ℝ L n) (hn : M.actions.Nodup)
    (hi : ∀ s, 0 ≤ M.initialState s) (h0 : ∀ s i s', 0 ≤ M.matrix s i s') (ho : ∀ w ∈ S.sequences, w.length % 2 = 1)
    (hpos : ∃ p ∈ S.sequences.zip S.times, 0 < M.lik p.1) (hnm : 2 ≤ n * M.actions.length) :
    strategy processes S M = .error .valueError := by
  unfold strategy
  rw [results_eq S M hn hi h0 ho]
  show (if 1 < processes then _ else _) = _
  rw [if_neg hp, dropFalse_error hnm]
  · rfl
  · obtain ⟨p, hp1, hp2⟩ := hpos
    exact ⟨_, List.mem_map.2 ⟨p, hp1, if_neg hp2.ne'⟩⟩

/-- Non-vacuity: a set with one possible trace. -/
example : (∀ w ∈ ([[2, 10, 0]] : List (List ℕ)), w.length % 2 = 1) ∧ (∃ p ∈ ([[2, 10, 0]] : List (List ℕ)).zip [3], 0 < (exMDP ℝ).lik p.1) ∧
    2 ≤ 3 * (exMDP ℝ).actions.length := by
  refine ⟨by decide, ⟨([2, 10, 0], 3), by simp, ?_⟩, by simp [exMDP]⟩
  rw [MDP.exMDP_lik]
  exact one_pos

end strategy

/-! ### C64: the sample -/

section sample
variable {K L : Type} [Field K] [LinearOrder K] [IsStrictOrderedRing K] [DecidableEq L] {n n' : ℕ}

theorem sampleTraces_spec (sul : MDP K L n') (hns : sul.actions.Nodup) (his : ∀ s, 0 ≤ sul.initialState s)
    (h0s : ∀ s i s', 0 ≤ sul.matrix s i s') (h : MDP K L n) (exploit : Sched K L (ALState K n h.actions.length × (ℕ → K))) (steps : ℕ) (eps : K)
    (rounds : List (Round K)) (hd : ∀ c ∈ rounds, ∀ r ∈ c.draws, 0 ≤ r ∧ r < 1) (st : ALState K n h.actions.length × (ℕ → K)) (l : List (List L))
    (hl : sampleTraces sul h exploit steps eps rounds st = some (.ok l)) :
    l.length = rounds.length ∧ ∀ w ∈ l, w.length = 2 * steps + 1 ∧ ∃ p, sul.seqProb w = .ok p ∧ 0 < p := by
  induction rounds generalizing st l with
  | nil =>
    simp only [sampleTraces] at hl
    injection hl with hl
    injection hl with hl
    subst hl
    simp
  | cons c cs ih =>
    have key : ∀ (seq : List L) (st' : ALState K n h.actions.length × (ℕ → K)),
        (seq.length = 2 * steps + 1 ∧ ∃ p, sul.seqProb seq = .ok p ∧ 0 < p) →
        (match sampleTraces sul h exploit steps eps cs st' with
        | none => none
        | some (.error e) => some (.error e)
        | some (.ok l) => some (.ok (seq :: l)) : Option (Py (List (List L)))) = some (.ok l) →
        l.length = (c :: cs).length ∧ ∀ w ∈ l, w.length = 2 * steps + 1 ∧ ∃ p, sul.seqProb w = .ok p ∧ 0 < p := by
      intro seq st' hseq hm
      cases hr : sampleTraces sul h exploit steps eps cs st' with
      | none => rw [hr] at hm; cases hm
      | some q =>
        cases q with
        | error e => rw [hr] at hm; cases hm
        | ok l' =>
          rw [hr] at hm
          have : seq :: l' = l := by injection hm with hm; injection hm
          subst this
          obtain ⟨i1, i2⟩ := ih (fun c hc => hd c (List.mem_cons_of_mem _ hc)) st' l' hr
          refine ⟨by simp [i1], fun w hw => ?_⟩
          rcases List.mem_cons.1 hw with rfl | hw
          · exact hseq
          · exact i2 w hw
    simp only [sampleTraces] at hl
    by_cases hc : eps < c.coin
    · rw [if_pos hc] at hl
      cases hr : sul.run (uniformScheduler h.actions) steps c.draws () with
      | none => rw [hr] at hl; cases hl
      | some q =>
        cases q with
        | error e => rw [hr] at hl; cases hl
        | ok q =>
          rw [hr] at hl
          obtain ⟨r1, -, r3⟩ := sul.run_spec hns his h0s _ steps c.draws (hd c (by simp)) () q.1 q.2 hr
          exact key q.1 st ⟨r1, r3⟩ hl
    · rw [if_neg hc] at hl
      cases hr : sul.run exploit steps c.draws st with
      | none => rw [hr] at hl; cases hl
      | some q =>
        cases q with
        | error e => rw [hr] at hl; cases hl
        | ok q =>
          rw [hr] at hl
          obtain ⟨r1, -, r3⟩ := sul.run_spec hns his h0s _ steps c.draws (hd c (by simp)) st q.1 q.2 hr
          exact key q.1 q.2 ⟨r1, r3⟩ hl

/-- C64: the sample of one round of the active learning: as many traces as asked for (with their multiplicities), each of `2*steps+1` symbols and of
positive probability in the system under learning; no trace is stored twice. -/
theorem addTraces_spec (processes : ℕ) (sul : MDP K L n') (hns : sul.actions.Nodup) (his : ∀ s, 0 ≤ sul.initialState s)
    (h0s : ∀ s i s', 0 ≤ sul.matrix s i s') (h : MDP K L n) (S : TSet L) (steps : ℕ) (eps : K)
    (rounds : List (Round K)) (hd : ∀ c ∈ rounds, ∀ r ∈ c.draws, 0 ≤ r ∧ r < 1) (states : ℕ → K) (T : TSet L)
    (hT : addTraces processes sul h S steps eps rounds states = some (.ok T)) :
    T.Countable ∧ T.type = some 1 ∧ T.times.sum = rounds.length ∧
      ∀ w ∈ T.sequences, w.length = 2 * steps + 1 ∧ ∃ p, sul.seqProb w = .ok p ∧ 0 < p := by
  unfold addTraces at hT
  cases hs : strategy processes S h with
  | error e => rw [hs] at hT; cases hT
  | ok t =>
    rw [hs] at hT
    simp only at hT
    generalize exploitSched h t = exploit at hT
    cases hr : sampleTraces sul h exploit steps eps rounds (⟨t.getD (fun _ _ => 0), none, h.initialState⟩, states) with
    | none => rw [hr] at hT; cases hT
    | some q =>
      cases q with
      | error e => rw [hr] at hT; cases hT
      | ok l =>
        rw [hr] at hT
        have : (⟨(TSet.setFromList l).1, (TSet.setFromList l).2, false, some 1⟩ : TSet L) = T := by
          injection hT with hT
          injection hT
        subst this
        obtain ⟨s1, s2⟩ := sampleTraces_spec sul hns his h0s h exploit steps eps rounds hd _ l hr
        obtain ⟨i1, i2, i3, -⟩ := TSet.setFromList_inv l
        refine ⟨⟨⟨?_, i1⟩, ?_, rfl⟩, rfl, ?_, fun w hw => s2 w ((i3 w).1 hw)⟩
        · show (TSet.setFromList l).2.length = _
          rw [i2, List.length_map]
        · intro x hx
          have hx : x ∈ (TSet.setFromList l).2 := hx
          rw [i2] at hx
          obtain ⟨w, hw, rfl⟩ := List.mem_map.1 hx
          exact List.one_le_count_iff.2 ((i3 w).1 hw)
        · show (TSet.setFromList l).2.sum = _
          rw [i2, ← s1]
          exact TSet.sum_count_map l _ i1 i3

/-- C64: the traces are generated as described by `Spec.Active.Sampled`. -/
theorem sampleTraces_sampled (sul : MDP K L n') (hns : sul.actions.Nodup) (his : ∀ s, 0 ≤ sul.initialState s)
    (h0s : ∀ s i s', 0 ≤ sul.matrix s i s') (h : MDP K L n) (hn : h.actions.Nodup) (hi : ∀ s, 0 ≤ h.initialState s)
    (h0 : ∀ s i s', 0 ≤ h.matrix s i s') (steps : ℕ) (eps : K)
    (rounds : List (Round K)) (hd : ∀ c ∈ rounds, ∀ r ∈ c.draws, 0 ≤ r ∧ r < 1) (st : ALState K n h.actions.length × (ℕ → K)) (l : List (List L))
    (hl : sampleTraces sul h (sched h) steps eps rounds st = some (.ok l)) : Sampled sul h steps eps st.1.mat rounds l := by
  induction rounds generalizing st l with
  | nil =>
    simp only [sampleTraces] at hl
    injection hl with hl
    injection hl with hl
    subst hl
    exact .nil _
  | cons c cs ih =>
    have key : ∀ (seq : List L) (st' : ALState K n h.actions.length × (ℕ → K)),
        (match sampleTraces sul h (sched h) steps eps cs st' with
        | none => none
        | some (.error e) => some (.error e)
        | some (.ok l) => some (.ok (seq :: l)) : Option (Py (List (List L)))) = some (.ok l) →
        ∃ l', l = seq :: l' ∧ Sampled sul h steps eps st'.1.mat cs l' := by
      intro seq st' hm
      cases hr : sampleTraces sul h (sched h) steps eps cs st' with
      | none => rw [hr] at hm; cases hm
      | some q =>
        cases q with
        | error e => rw [hr] at hm; cases hm
        | ok l' =>
          rw [hr] at hm
          have : seq :: l' = l := by injection hm with hm; injection hm
          exact ⟨l', this.symm, ih (fun c hc => hd c (List.mem_cons_of_mem _ hc)) st' l' hr⟩
    simp only [sampleTraces] at hl
    by_cases hc : eps < c.coin
    · rw [if_pos hc] at hl
      cases hr : sul.run (uniformScheduler h.actions) steps c.draws () with
      | none => rw [hr] at hl; cases hl
      | some q =>
        cases q with
        | error e => rw [hr] at hl; cases hl
        | ok q =>
          rw [hr] at hl
          obtain ⟨l', rfl, hs⟩ := key q.1 st hl
          exact .explore _ hc hr hs
    · rw [if_neg hc] at hl
      cases hr : sul.run (sched h) steps c.draws st with
      | none => rw [hr] at hl; cases hl
      | some q =>
        cases q with
        | error e => rw [hr] at hl; cases hl
        | ok q =>
          rw [hr] at hl
          obtain ⟨l', rfl, hs⟩ := key q.1 q.2 hl
          obtain ⟨-, b2⟩ := run_belief sul h hn hi h0 hns his h0s steps c.draws (hd c (by simp)) st q.2 q.1 hr
          refine .exploit (st' := q.2) st.1.mat st.1.lastAct st.1.alpha st.2 (not_lt.1 hc) hr ?_
          have e : q.2.1.mat = fun s i => st.1.mat s i + expected h (mdpSteps q.1) s h.actions[i] := by
            funext s i
            exact b2 s i
          rw [← e]
          exact hs

end sample

/-- C64: if all the training traces are impossible in the hypothesis (or there are none), the first trace that is asked from the active scheduler raises a
TypeError. -/
theorem addTraces_impossible {L : Type} [DecidableEq L] {n n' : ℕ} (processes : ℕ) (hp : 1 < processes) (sul : MDP ℝ L n') (h : MDP ℝ L n)
    (hn : h.actions.Nodup) (hi : ∀ s, 0 ≤ h.initialState s) (h0 : ∀ s i s', 0 ≤ h.matrix s i s') (S : TSet L)
    (ho : ∀ w ∈ S.sequences, w.length % 2 = 1) (hz : ∀ w ∈ S.sequences, h.lik w = 0) (steps : ℕ) (eps coin r0 r1 : ℝ) (rs : List ℝ)
    (hc : coin ≤ eps) (s0 : Fin n') (h0' : pick sul.initialState r0 = .ok s0) (cs : List (Round ℝ)) (states : ℕ → ℝ) :
    addTraces processes sul h S (steps + 1) eps (⟨coin, r0 :: r1 :: rs⟩ :: cs) states = some (.error .typeError) := by
  unfold addTraces
  rw [strategy_impossible processes hp S h hn hi h0 ho hz]
  simp only [sampleTraces]
  rw [if_neg (not_lt.2 hc)]
  simp only [MDP.run, h0', MDP.runLoop, MDP.chooseAction, exploitSched, brokenSched]

/-- C64: with several processes and a training set that holds a trace possible in the hypothesis: the sample is a set of traces generated with the active scheduler whose
count table starts with the expected counts of the training set. -/
theorem addTraces_sampled {L : Type} [DecidableEq L] {n n' : ℕ} (processes : ℕ) (hp : 1 < processes) (sul : MDP ℝ L n') (hns : sul.actions.Nodup)
    (his : ∀ s, 0 ≤ sul.initialState s) (h0s : ∀ s i s', 0 ≤ sul.matrix s i s') (h : MDP ℝ L n) (hn : h.actions.Nodup)
    (hi : ∀ s, 0 ≤ h.initialState s) (h0 : ∀ s i s', 0 ≤ h.matrix s i s') (S : TSet L) (ho : ∀ w ∈ S.sequences, w.length % 2 = 1)
    (hpos : ∃ p ∈ S.sequences.zip S.times, 0 < h.lik p.1) (steps : ℕ) (eps : ℝ)
    (rounds : List (Round ℝ)) (hd : ∀ c ∈ rounds, ∀ r ∈ c.draws, 0 ≤ r ∧ r < 1) (states : ℕ → ℝ) (T : TSet L)
    (hT : addTraces processes sul h S steps eps rounds states = some (.ok T)) :
    ∃ l, Sampled sul h steps eps (fun s i => h.visits S s h.actions[i]) rounds l ∧ ∀ w, T.mult w = l.count w := by
  unfold addTraces at hT
  rw [strategy_spec processes hp S h hn hi h0 ho hpos] at hT
  simp only [exploitSched] at hT
  generalize hst : (({ mat := (some (fun s i => h.visits S s h.actions[i])).getD (fun _ _ => 0), lastAct := none, alpha := h.initialState } :
    ALState ℝ n h.actions.length), states) = st at hT
  cases hr : sampleTraces sul h (sched h) steps eps rounds st with
  | none => rw [hr] at hT; cases hT
  | some q =>
    cases q with
    | error e => rw [hr] at hT; cases hT
    | ok l =>
      rw [hr] at hT
      have : (⟨(TSet.setFromList l).1, (TSet.setFromList l).2, false, some 1⟩ : TSet L) = T := by
        injection hT with hT
        injection hT
      subst this
      have hs := sampleTraces_sampled sul hns his h0s h hn hi h0 steps eps rounds hd st l hr
      subst hst
      refine ⟨l, hs, fun w => ?_⟩
      obtain ⟨i1, i2, i3, -⟩ := TSet.setFromList_inv l
      rw [TSet.mult_eq]
      simp only
      conv_lhs => rw [i2]
      rw [TSet.multL_map _ i1]
      split_ifs with hc
      · rfl
      · exact (List.count_eq_zero.2 (fun hx => hc ((i3 w).2 hx))).symm

/-- C64: the coin: an exploring (uniform) scheduler is used with probability `1 - epsilon_greedy`. -/
theorem coin_law (eps : ℝ) (h0 : 0 ≤ eps) (h1 : eps ≤ 1) : uniform {c | eps < c} = ENNReal.ofReal (1 - eps) := by
  have hm : MeasurableSet {c : ℝ | eps < c} := measurableSet_Ioi
  unfold uniform
  rw [Measure.restrict_apply hm]
  have : {c : ℝ | eps < c} ∩ Set.Ico 0 1 = Set.Ioo eps 1 := by
    ext c
    simp only [Set.mem_inter_iff, Set.mem_ofPred_eq, Set.mem_Ico, Set.mem_Ioo]
    constructor
    · rintro ⟨a, b, c⟩; exact ⟨a, c⟩
    · rintro ⟨a, b⟩; exact ⟨a, by linarith, b⟩
  rw [this, Real.volume_Ioo]

/-! ### C54: the learning rate -/

section merge
variable {K L : Type} [Field K] [LinearOrder K] [IsStrictOrderedRing K] [DecidableEq L] {n : ℕ}

/-- C54, the mixing itself: for two different model objects with the same number of actions the result is the mixture of the matrices; if both are MDPs in which the same
actions are possible in the same states, and the rate is between 0 and 1, the result is an MDP. -/
theorem mergeModels_partial (lr : K) (h old : MDP K L n) (e : h.actions.length = old.actions.length) :
    ∃ R, mergeModels lr h old = .ok R ∧ R.labelling = h.labelling ∧ R.initialState = h.initialState ∧ ∃ e' : R.actions = h.actions,
      (∀ s i s', R.matrix s i s' = lr * h.matrix s (i.cast (by rw [e'])) s' + (1 - lr) * old.matrix s (i.cast (by rw [e', e])) s') ∧
      (h.Stochastic → old.Stochastic → 0 ≤ lr → lr ≤ 1 →
        (∀ s i, ∑ s', h.matrix s i s' = ∑ s', old.matrix s (i.cast e) s') → R.Stochastic) := by
  unfold mergeModels
  rw [dif_pos e]
  refine ⟨_, rfl, rfl, rfl, rfl, fun s i s' => rfl, ?_⟩
  rintro ⟨a1, a2, a3, a4⟩ ⟨b1, b2, b3, b4⟩ l0 l1 hrow
  refine ⟨a1, a2, fun s i s' => ?_, fun s i => ?_⟩
  · exact add_nonneg (mul_nonneg l0 (a3 _ _ _)) (mul_nonneg (by linarith) (b3 _ _ _))
  · have : ∑ s', (lr * h.matrix s i s' + (1 - lr) * old.matrix s (i.cast e) s') = ∑ s', h.matrix s i s' := by
      rw [sum_add_distrib, ← mul_sum, ← mul_sum, ← hrow s i]
      ring
    show ∑ s', (lr * h.matrix s i s' + (1 - lr) * old.matrix s (i.cast e) s') = 1 ∨ _ = 0
    rw [this]
    exact a4 s i

/-- A model merged with itself. -/
theorem mergeModels_self (lr : K) (M : MDP K L n) : mergeModels lr M M = .ok M := by
  unfold mergeModels
  rw [dif_pos rfl]
  congr 1
  have : (fun s (i : Fin M.actions.length) s' => lr * M.matrix s i s' + (1 - lr) * M.matrix s (i.cast rfl) s') = M.matrix := by
    funext s i s'
    show lr * M.matrix s i s' + (1 - lr) * M.matrix s i s' = _
    ring
  cases M
  simp only at this
  rw [this]

theorem mergeObjects_same (lr : K) (models : List (MDP K L n)) (h : ℕ) (hh : h < models.length) : mergeObjects lr models h h = .ok models := by
  unfold mergeObjects
  rw [List.getElem?_eq_getElem hh]
  simp only [mergeModels_self]
  show Except.ok (models.set h models[h]) = _
  rw [List.set_getElem_self]

/-- The outcome of one round, for a rate that is not 0: the model is the trained one. -/
def roundSpec (train : TSet L → MDP K L n → Py (MDP K L n)) (sample : MDP K L n → TSet L → Py (TSet L)) (W : Learning K L n) :
    Py (Learning K L n) :=
  match W.models[W.h]? with
  | none => .error .indexError
  | some M => do
    let traces ← sample M W.total
    let total ← W.total.addSet traces
    let M' ← train traces M
    return ⟨W.models.set W.h M', W.h, total⟩

theorem round_const (train : TSet L → MDP K L n → Py (MDP K L n)) (sample : MDP K L n → TSet L → Py (TSet L)) (x : K) (hx : x ≠ 0) (W : Learning K L n) :
    round train sample (.const x) W = roundSpec train sample W := by
  unfold round roundSpec superFit
  cases hM : W.models[W.h]? with
  | none => rfl
  | some M =>
    have hlt : W.h < W.models.length := (List.getElem?_eq_some_iff.1 hM).1
    cases h1 : sample M W.total with
    | error e => simp only [h1]; rfl
    | ok traces =>
      cases h2 : W.total.addSet traces with
      | error e => simp only [h1, h2, bind, Except.bind]
      | ok total =>
        cases h3 : train traces M with
        | error e => simp only [h1, h2, h3, bind, Except.bind, if_neg hx]
        | ok M' =>
          simp only [h1, h2, h3, bind, Except.bind, if_neg hx, pure, Except.pure]
          rw [mergeObjects_same _ _ _ (by simpa using hlt)]

theorem round_dynamic (train : TSet L → MDP K L n → Py (MDP K L n)) (sample : MDP K L n → TSet L → Py (TSet L)) (W : Learning K L n) :
    round train sample .dynamic W = roundSpec train sample W := by
  unfold round roundSpec superFit
  cases hM : W.models[W.h]? with
  | none => rfl
  | some M =>
    have hlt : W.h < W.models.length := (List.getElem?_eq_some_iff.1 hM).1
    cases h1 : sample M W.total with
    | error e => simp only [h1]; rfl
    | ok traces =>
      cases h2 : W.total.addSet traces with
      | error e => simp only [h1, h2, bind, Except.bind]
      | ok total =>
        cases h3 : train traces M with
        | error e => simp only [h1, h2, h3, bind, Except.bind]
        | ok M' =>
          simp only [h1, h2, h3, bind, Except.bind, pure, Except.pure]
          rw [mergeObjects_same _ _ _ (by simpa using hlt)]

/-- C54 fails: the old hypothesis and the trained one are the same object, so that every learning rate other than 0 has the same effect, whatever the
training, the samples and the number of rounds. -/
theorem rate_has_no_effect (train0 train : TSet L → MDP K L n → Py (MDP K L n)) (samples : List (MDP K L n → TSet L → Py (TSet L)))
    (x : K) (hx : x ≠ 0) (lr : Rate K) (hlr : ∀ y, lr = .const y → y ≠ 0) (W : Learning K L n) :
    fit train0 train (.const x) samples W = fit train0 train lr samples W := by
  have h1 : ∀ sample W, round train sample (.const x) W = round train sample lr W := by
    intro sample W
    rw [round_const train sample x hx]
    cases lr with
    | const y => rw [round_const train sample y (hlr y rfl)]
    | dynamic => rw [round_dynamic]
  have h2 : ∀ (samples : List (MDP K L n → TSet L → Py (TSet L))) W, rounds train (.const x) samples W = rounds train lr samples W := by
    intro samples
    induction samples with
    | nil => intro W; rfl
    | cons a l ih =>
      intro W
      simp only [rounds, h1]
      cases round train a lr W with
      | error e => rfl
      | ok W' => exact ih W'
  unfold fit
  congr 1
  funext q
  rw [h2]

/-- C54 fails: after one round with any rate other than 0 the hypothesis is the trained one, so it is not the mixture, unless the rate is 1 or the training changes nothing. -/
theorem round_not_mixture (train : TSet L → MDP K L n → Py (MDP K L n)) (sample : MDP K L n → TSet L → Py (TSet L)) (x : K) (hx : x ≠ 0)
    (hx1 : x ≠ 1) (W W' : Learning K L n) (h : round train sample (.const x) W = .ok W') :
    ∃ M M' T, W.models[W.h]? = some M ∧ sample M W.total = .ok T ∧ train T M = .ok M' ∧ W'.models[W'.h]? = some M' ∧
      (∀ e : M'.actions.length = M.actions.length, (∃ s i s', M'.matrix s i s' ≠ M.matrix s (i.cast e) s') →
        ∃ s i s', M'.matrix s i s' ≠ x * M'.matrix s i s' + (1 - x) * M.matrix s (i.cast e) s') := by
  rw [round_const train sample x hx] at h
  unfold roundSpec at h
  cases hM : W.models[W.h]? with
  | none => rw [hM] at h; cases h
  | some M =>
    rw [hM] at h
    obtain ⟨T, hT, h⟩ := (Except.bind_eq_ok _ _ _).1 h
    obtain ⟨total, -, h⟩ := (Except.bind_eq_ok _ _ _).1 h
    obtain ⟨M', hM', h⟩ := (Except.bind_eq_ok _ _ _).1 h
    have : (⟨W.models.set W.h M', W.h, total⟩ : Learning K L n) = W' := by injection h
    subst this
    refine ⟨M, M', T, rfl, hT, hM', ?_, ?_⟩
    · have hlt : W.h < W.models.length := (List.getElem?_eq_some_iff.1 hM).1
      show (W.models.set W.h M')[W.h]? = _
      simp [hlt]
    · rintro e ⟨s, i, s', hne⟩
      refine ⟨s, i, s', fun hc => ?_⟩
      have : (1 - x) * (M'.matrix s i s' - M.matrix s (i.cast e) s') = 0 := by linear_combination hc
      rcases mul_eq_zero.1 this with h0 | h0
      · exact hx1 (by linear_combination -h0)
      · exact hne (by linear_combination h0)

/-- An invariant of the model under every training on a good set is an invariant of the active learning; the total set stays good. -/
theorem rounds_invariant (train : TSet L → MDP K L n → Py (MDP K L n)) (lr : Rate K) (P : MDP K L n → Prop) (Q : List L → Prop)
    (htrain : ∀ S M M', (∀ w ∈ S.sequences, Q w) → P M → train S M = .ok M' → P M')
    (samples : List (MDP K L n → TSet L → Py (TSet L)))
    (hs : ∀ f ∈ samples, ∀ M S T, f M S = .ok T → ∀ w ∈ T.sequences, Q w) (W W' : Learning K L n)
    (hP : ∀ M ∈ W.models, P M) (hQ : ∀ w ∈ W.total.sequences, Q w) (h : rounds train lr samples W = .ok W') :
    (∀ M ∈ W'.models, P M) ∧ (∀ w ∈ W'.total.sequences, Q w) ∧ W'.h = W.h ∧ W'.models.length = W.models.length := by
  induction samples generalizing W with
  | nil =>
    have : W = W' := by simp only [rounds] at h; injection h
    subst this
    exact ⟨hP, hQ, rfl, rfl⟩
  | cons f l ih =>
    simp only [rounds] at h
    obtain ⟨W1, h1, h⟩ := (Except.bind_eq_ok _ _ _).1 h
    have hadd : ∀ T total, W.total.addSet T = .ok total → (∀ w ∈ T.sequences, Q w) → ∀ w ∈ total.sequences, Q w := by
      intro T total ht hT
      unfold TSet.addSet at ht
      by_cases hty : W.total.type ≠ T.type
      · rw [if_pos hty] at ht; cases ht
      · rw [if_neg hty] at ht
        have : (T.sequences.zip T.times).foldl (fun S p => TSet.addSetStep S T.floatTimes p) W.total = total := by injection ht
        subst this
        have key : ∀ (l : List (List L × ℕ)) (S : TSet L), (∀ p ∈ l, Q p.1) → (∀ w ∈ S.sequences, Q w) →
            ∀ w ∈ (l.foldl (fun S p => TSet.addSetStep S T.floatTimes p) S).sequences, Q w := by
          intro l
          induction l with
          | nil => intro S _ hS; exact hS
          | cons p l ih =>
            intro S hl hS
            refine ih _ (fun q hq => hl q (List.mem_cons_of_mem _ hq)) ?_
            intro w hw
            unfold TSet.addSetStep at hw
            simp only at hw
            by_cases hp : p.1 ∈ S.sequences
            · rw [if_pos hp] at hw; exact hS w hw
            · rw [if_neg hp] at hw
              rcases List.mem_append.1 hw with hw | hw
              · exact hS w hw
              · rw [List.mem_singleton.1 hw]; exact hl p (by simp)
        exact key _ _ (fun p hp => hT _ (List.of_mem_zip hp).1) hQ
    have hW1 : (∀ M ∈ W1.models, P M) ∧ (∀ w ∈ W1.total.sequences, Q w) ∧ W1.h = W.h ∧ W1.models.length = W.models.length := by
      have fin : ∀ S M M' total, P M → (∀ w ∈ S.sequences, Q w) → (∀ w ∈ total.sequences, Q w) → train S M = .ok M' →
          (⟨W.models.set W.h M', W.h, total⟩ : Learning K L n) = W1 →
          (∀ M ∈ W1.models, P M) ∧ (∀ w ∈ W1.total.sequences, Q w) ∧ W1.h = W.h ∧ W1.models.length = W.models.length := by
        intro S M M' total hPM hS htot htr heq
        subst heq
        refine ⟨fun N hN => ?_, htot, rfl, by simp⟩
        rcases List.mem_or_eq_of_mem_set hN with hN | rfl
        · exact hP N hN
        · exact htrain S M _ hS hPM htr
      have nonzero : roundSpec train f W = .ok W1 → (∀ M ∈ W1.models, P M) ∧ (∀ w ∈ W1.total.sequences, Q w) ∧ W1.h = W.h ∧ W1.models.length = W.models.length := by
        intro h1
        unfold roundSpec at h1
        cases hM : W.models[W.h]? with
        | none => rw [hM] at h1; cases h1
        | some M =>
          rw [hM] at h1
          obtain ⟨T, hT, h1⟩ := (Except.bind_eq_ok _ _ _).1 h1
          obtain ⟨total, ht, h1⟩ := (Except.bind_eq_ok _ _ _).1 h1
          obtain ⟨M', hM', h1⟩ := (Except.bind_eq_ok _ _ _).1 h1
          have hTQ := hs f (by simp) M W.total T hT
          exact fin T M M' total (hP M (List.mem_of_getElem? hM)) hTQ (hadd T total ht hTQ) hM' (by injection h1)
      cases lr with
      | dynamic => rw [round_dynamic] at h1; exact nonzero h1
      | const x =>
        by_cases hx : x = 0
        · subst hx
          unfold round at h1
          cases hM : W.models[W.h]? with
          | none => rw [hM] at h1; cases h1
          | some M =>
            rw [hM] at h1
            obtain ⟨T, hT, h1⟩ := (Except.bind_eq_ok _ _ _).1 h1
            obtain ⟨total, ht, h1⟩ := (Except.bind_eq_ok _ _ _).1 h1
            simp only [if_true] at h1
            obtain ⟨q, hq, h1⟩ := (Except.bind_eq_ok _ _ _).1 h1
            unfold superFit at hq
            rw [hM] at hq
            obtain ⟨M', hM', hq⟩ := (Except.bind_eq_ok _ _ _).1 hq
            have hq' : (W.models.set W.h M', W.h) = q := by injection hq
            subst hq'
            have hTQ := hs f (by simp) M W.total T hT
            exact fin total M M' total (hP M (List.mem_of_getElem? hM)) (hadd T total ht hTQ) (hadd T total ht hTQ) hM' (by injection h1)
        · rw [round_const train f x hx] at h1; exact nonzero h1
    obtain ⟨a1, a2, a3, a4⟩ := ih (fun g hg => hs g (List.mem_cons_of_mem _ hg)) W1 hW1.1 hW1.2.1 h
    exact ⟨a1, a2, a3.trans hW1.2.2.1, a4.trans hW1.2.2.2⟩

theorem superFit_eq {train : TSet L → MDP K L n → Py (MDP K L n)} {S : TSet L} {models : List (MDP K L n)} {h : ℕ} {q : List (MDP K L n) × ℕ}
    (hq : superFit train S models h = .ok q) : ∃ M M', models[h]? = some M ∧ train S M = .ok M' ∧ q = (models.set h M', h) := by
  unfold superFit at hq
  cases hM : models[h]? with
  | none => rw [hM] at hq; cases hq
  | some M =>
    rw [hM] at hq
    obtain ⟨M', hM', hq⟩ := (Except.bind_eq_ok _ _ _).1 hq
    exact ⟨M, M', rfl, hM', by injection hq with hq; exact hq.symm⟩

/-- The active learning changes the caller's set: at the end it holds its own traces and those of all the samples. -/
theorem fit_total (train0 train : TSet L → MDP K L n → Py (MDP K L n)) (lr : Rate K) (samples : List (MDP K L n → TSet L → Py (TSet L)))
    (W W' : Learning K L n) (h : fit train0 train lr samples W = .ok W') :
    ∃ Ts : List (TSet L), Ts.length = samples.length ∧ TSet.addSets W.total Ts = .ok W'.total ∧
      ∀ k (hk : k < Ts.length) (hk' : k < samples.length), ∃ M S, samples[k] M S = .ok Ts[k] := by
  unfold fit at h
  obtain ⟨q, hq, h0'⟩ := (Except.bind_eq_ok _ _ _).1 h
  clear h
  have h := h0'
  generalize hW0 : (⟨q.1, q.2, W.total⟩ : Learning K L n) = W0 at h
  have e : W.total = W0.total := by rw [← hW0]
  rw [e]
  clear hW0 e hq h0'
  induction samples generalizing W0 with
  | nil =>
    have : W0 = W' := by simp only [rounds] at h; injection h
    subst this
    exact ⟨[], rfl, rfl, fun k hk => absurd hk (by simp)⟩
  | cons f l ih =>
    simp only [rounds] at h
    obtain ⟨W1, h1, h⟩ := (Except.bind_eq_ok _ _ _).1 h
    have h1' : ∃ M T, f M W0.total = .ok T ∧ W0.total.addSet T = .ok W1.total := by
      unfold round at h1
      cases hM : W0.models[W0.h]? with
      | none => rw [hM] at h1; cases h1
      | some M =>
        rw [hM] at h1
        obtain ⟨T, hT, h1⟩ := (Except.bind_eq_ok _ _ _).1 h1
        obtain ⟨total, ht, h1⟩ := (Except.bind_eq_ok _ _ _).1 h1
        refine ⟨M, T, hT, ?_⟩
        rw [ht]
        congr 1
        cases lr with
        | dynamic =>
          simp only at h1
          obtain ⟨q, -, h1⟩ := (Except.bind_eq_ok _ _ _).1 h1
          obtain ⟨ms, -, h1⟩ := (Except.bind_eq_ok _ _ _).1 h1
          have : (⟨ms, q.2, total⟩ : Learning K L n) = W1 := by injection h1
          rw [← this]
        | const x =>
          simp only at h1
          by_cases hx : x = 0
          · rw [if_pos hx] at h1
            obtain ⟨q, -, h1⟩ := (Except.bind_eq_ok _ _ _).1 h1
            have : (⟨q.1, q.2, total⟩ : Learning K L n) = W1 := by injection h1
            rw [← this]
          · rw [if_neg hx] at h1
            obtain ⟨q, -, h1⟩ := (Except.bind_eq_ok _ _ _).1 h1
            obtain ⟨ms, -, h1⟩ := (Except.bind_eq_ok _ _ _).1 h1
            have : (⟨ms, q.2, total⟩ : Learning K L n) = W1 := by injection h1
            rw [← this]
    obtain ⟨M, T, hT, hadd⟩ := h1'
    obtain ⟨Ts, i1, i2, i3⟩ := ih W1 h
    refine ⟨T :: Ts, by simp [i1], ?_, ?_⟩
    · show (do let S ← W0.total.addSet T; TSet.addSets S Ts) = _
      rw [hadd]
      exact i2
    · intro k hk hk'
      cases k with
      | zero => exact ⟨M, W0.total, hT⟩
      | succ k => exact i3 k (by simpa using hk) (by simpa using hk')

end merge

/-- C54: whatever the rate, the result of the active learning with Baum-Welch is an MDP with the same actions, labels and initial distribution, in which the same actions
are possible in the same states. -/
theorem fit_stochastic {L : Type} [DecidableEq L] {n : ℕ} (processes : ℕ) (epsilon : ℝ) (maxIt0 maxIt : ℕ) (lr : Rate ℝ)
    (samples : List (MDP ℝ L n → TSet L → Py (TSet L)))
    (hs : ∀ f ∈ samples, ∀ M S T, f M S = .ok T → ∀ w ∈ T.sequences, w.length % 2 = 1)
    (M : MDP ℝ L n) (hn : M.actions.Nodup) (hM : M.Stochastic) (S : TSet L) (ho : ∀ w ∈ S.sequences, w.length % 2 = 1) (W' : Learning ℝ L n)
    (h : fit (fun S M => (BW.fit (BW.stepMDP processes S) epsilon maxIt0 M).map (·.h)) (fun S M => (BW.fit (BW.stepMDP processes S) epsilon maxIt M).map (·.h))
      lr samples ⟨[M], 0, S⟩ = .ok W') :
    ∃ M', W'.models = [M'] ∧ W'.h = 0 ∧ M'.Stochastic ∧ M'.actions = M.actions ∧ M'.labelling = M.labelling ∧ M'.initialState = M.initialState ∧
      ∀ s x, ∑ ss, M'.prob s x ss = ∑ ss, M.prob s x ss := by
  have htr : ∀ (maxIt : ℕ) (S : TSet L) (M1 M2 : MDP ℝ L n), (∀ w ∈ S.sequences, w.length % 2 = 1) →
      (M1.Stochastic ∧ M1.actions = M.actions ∧ M1.labelling = M.labelling ∧ M1.initialState = M.initialState ∧
        ∀ s x, ∑ ss, M1.prob s x ss = ∑ ss, M.prob s x ss) →
      (BW.fit (BW.stepMDP processes S) epsilon maxIt M1).map (·.h) = .ok M2 →
      (M2.Stochastic ∧ M2.actions = M.actions ∧ M2.labelling = M.labelling ∧ M2.initialState = M.initialState ∧
        ∀ s x, ∑ ss, M2.prob s x ss = ∑ ss, M.prob s x ss) := by
    rintro maxIt S M1 M2 hS ⟨a1, a2, a3, a4, a5⟩ hfit
    cases hf : BW.fit (BW.stepMDP processes S) epsilon maxIt M1 with
    | error e => rw [hf] at hfit; cases hfit
    | ok st =>
      rw [hf] at hfit
      have : st.h = M2 := by injection hfit
      subst this
      have hn1 : M1.actions.Nodup := by rw [a2]; exact hn
      obtain ⟨b1, b2⟩ := MDP.fit_stochastic processes S epsilon maxIt M1 hn1 a1 hS st hf
      obtain ⟨c1, c2, c3, -⟩ := MDP.fit_structure processes S epsilon maxIt M1 hn1 hS st hf
      exact ⟨b1, c1.trans a2, c2.trans a3, c3.trans a4, fun s x => (b2 s x).trans (a5 s x)⟩
  unfold fit at h
  obtain ⟨q, hq, h⟩ := (Except.bind_eq_ok _ _ _).1 h
  obtain ⟨M0, M1, hM0, hM1, rfl⟩ := superFit_eq hq
  have e0 : M = M0 := by simpa using hM0
  subst e0
  have p1 := htr maxIt0 S M M1 ho ⟨hM, rfl, rfl, rfl, fun _ _ => rfl⟩ hM1
  obtain ⟨a1, -, a3, a4⟩ := rounds_invariant _ lr (fun M1 => M1.Stochastic ∧ M1.actions = M.actions ∧ M1.labelling = M.labelling ∧
    M1.initialState = M.initialState ∧ ∀ s x, ∑ ss, M1.prob s x ss = ∑ ss, M.prob s x ss) (fun w => w.length % 2 = 1)
    (fun S M1 M2 hS h1 h2 => htr maxIt S M1 M2 hS h1 h2) samples hs _ W' (fun N hN => by
      have : N = M1 := by simpa using hN
      rw [this]
      exact p1) ho h
  have a4' : W'.models.length = 1 := by simpa using a4
  obtain ⟨M', hM'⟩ := List.length_eq_one_iff.1 a4'
  exact ⟨M', hM', a3, a1 M' (by rw [hM']; simp)⟩

/-! A concrete case: a hypothesis with two states and one action. -/

/-- The state 0 goes to 0 or to 1, with the action 9. -/
noncomputable def half : MDP ℝ ℕ 2 where
  actions := [9]
  matrix := ![![![1/2, 1/2]], ![![0, 1]]]
  labelling := ![0, 1]
  initialState := ![1, 0]

theorem half_tauP (s s' : Fin 2) : half.tauP s s' (0, 9) = ![![1/2, 1/2], ![0, 0]] s s' := by
  have h9 : half.actionIndex 9 = some (⟨0, Nat.one_pos⟩ : Fin 1) := by
    unfold MDP.actionIndex
    rw [dif_pos (by simp [half])]
    rfl
  unfold MDP.tauP MDP.tau
  simp only [h9]
  fin_cases s <;> fin_cases s' <;> simp [half]

/-- The index of the only action. -/
def act : Fin half.actions.length := ⟨0, Nat.one_pos⟩

theorem half_work : ∃ w, BW.processWorkMDP half [0, 9, 1] 1 = .ok (some w) ∧ w.den 0 act = 1 ∧ w.num 0 act 1 = 1 := by
  have hp : BW.lastSum (BW.maskLast (half.mask 1) (BW.alphas half.tauP half.initialState [(0, 9)])) = 1/2 := by
    simp [BW.lastSum, BW.maskLast, BW.alphas, BW.fwd, half_tauP, MDP.mask, Fin.sum_univ_two]
    simp [half]
  unfold BW.processWorkMDP
  simp only [List.getLast?_cons_cons, List.getLast?_singleton, pairs, hp]
  rw [if_neg (by norm_num)]
  refine ⟨_, rfl, ?_, ?_⟩
  · simp [BW.visits, BW.maskLast, BW.alphas, BW.betas, BW.fwd, BW.bwd, half_tauP, MDP.mask, Fin.sum_univ_two]
    simp [half, act]
  · simp [BW.uses, BW.maskLast, BW.alphas, BW.betas, BW.fwd, BW.bwd, half_tauP, MDP.mask, Fin.sum_univ_two]
    simp [half, act]

/-- C54 fails: a round with the rate 1/2. The sample is the trace `[0, 9, 1]`; the probability of 0 → 1 is 1/2 before the training and 1 after it, so the mixture has 3/4; the hypothesis
after the round has 1. -/
theorem half_rate : ∃ W' M', round (fun S M => (BW.fit (BW.stepMDP 2 S) 0 1 M).map (·.h)) (fun _ _ => .ok ⟨[[0, 9, 1]], [1], false, some 1⟩) (.const (1/2))
      ⟨[half], 0, ⟨[[0, 9, 1]], [1], false, some 1⟩⟩ = .ok W' ∧ W'.models = [M'] ∧ M'.prob 0 9 1 = 1 ∧ half.prob 0 9 1 = 1/2 := by
  obtain ⟨w, hw, hd, hn⟩ := half_work
  have hwork : BW.workMDP 2 ⟨[[0, 9, 1]], [1], false, some 1⟩ half = .ok [w] := by
    unfold BW.workMDP
    show (do let res ← [(([0, 9, 1] : List ℕ), 1)].mapM (fun p : List ℕ × ℕ => BW.processWorkMDP half p.1 p.2); BW.collect .valueError 2 res) = _
    simp only [List.mapM_cons, List.mapM_nil, hw]
    rfl
  have hfit : ∃ st, BW.fit (BW.stepMDP 2 ⟨[[0, 9, 1]], [1], false, some 1⟩) 0 1 half = .ok st ∧ st.h = BW.updateMDP half [w] := by
    unfold BW.fit BW.loop BW.stepMDP
    rw [hwork]
    exact ⟨_, rfl, rfl⟩
  obtain ⟨st, hst, hh⟩ := hfit
  refine ⟨⟨[st.h], 0, ⟨[[0, 9, 1]], [2], false, some 1⟩⟩, st.h, ?_, rfl, ?_, ?_⟩
  · rw [round_const _ _ _ (by norm_num)]
    unfold roundSpec
    have hadd : (⟨[[0, 9, 1]], [1], false, some 1⟩ : TSet ℕ).addSet ⟨[[0, 9, 1]], [1], false, some 1⟩ = .ok ⟨[[0, 9, 1]], [2], false, some 1⟩ := by decide
    simp only [List.getElem?_cons_zero, bind, Except.bind, hadd, hst]
    rfl
  · rw [hh]
    have hnd : (BW.updateMDP half [w]).actions.Nodup := by
      show ([9] : List ℕ).Nodup
      simp
    refine ((BW.updateMDP half [w]).prob_getElem hnd 0 act 1).trans ?_
    simp [BW.updateMDP, hd, hn]
  · have hnd : half.actions.Nodup := by
      show ([9] : List ℕ).Nodup
      simp
    refine (half.prob_getElem hnd 0 act 1).trans ?_
    simp [half, act]

/-! ### The beginning of `fit` -/

/-- Without Storm, the first call of `fit` on a learner raises an AttributeError unless `stormpy_output=False` is passed: the attribute `verbose` does not exist yet. -/
theorem start_first_call : start false true none = .error .attributeError ∧ start false false none = .ok false ∧
    ∀ v, start false true (some v) = .ok false :=
  ⟨rfl, rfl, fun _ => rfl⟩

end Jajapy.Active
