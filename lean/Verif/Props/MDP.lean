import Verif.Lemmas.MDP
import Verif.Lemmas.Draws
import Verif.Props.Generate
import Verif.Props.Loop

/-!
Properties C19-C21, C23-C29 and C55 for Markov decision processes and schedulers.
-/

set_option linter.unusedSectionVars false

namespace Jajapy

open Finset Spec Tools MeasureTheory BW

/-- A three-state MDP used as an example: labels 0, 1, 2 (the initial state is the last one); the actions are 10 and 11;
action 11 is not available in state 1. -/
def exMDP (K : Type) [Field K] : MDP K ℕ 3 where
  actions := [10, 11]
  matrix := ![![![1/2, 1/2, 0], ![0, 1, 0]], ![![1/4, 3/4, 0], ![0, 0, 0]], ![![1, 0, 0], ![1/3, 2/3, 0]]]
  labelling := ![0, 1, 2]
  initialState := ![0, 0, 1]

namespace MDP

/-! ### C19: transition functions -/

section c19
variable {K L : Type} {n : ℕ} [Field K] [DecidableEq L]

/-- C19, MDP: the transition probability with an action and an observation is the matrix entry of that action if the
source carries that label, and 0 for another label or an unknown action; `a` is the same without the label and raises
ValueError for an unknown action; over the successors and the labels it sums to the sum of the row. -/
theorem tau_spec (M : MDP K L n) (hn : M.actions.Nodup) (s : Fin n) :
    (∀ (i : Fin M.actions.length) s', M.tau s M.actions[i] s' (M.labelling s) = M.matrix s i s' ∧
      M.a s s' M.actions[i] = .ok (M.matrix s i s')) ∧
    (∀ x s' o, o ≠ M.labelling s → M.tau s x s' o = 0) ∧
    (∀ x s' o, x ∉ M.actions → M.tau s x s' o = 0 ∧ M.a s s' x = .error .valueError) ∧
    ∀ (A : Finset L) (i : Fin M.actions.length), M.labelling s ∈ A →
      ∑ s', ∑ o ∈ A, M.tau s M.actions[i] s' o = ∑ s', M.matrix s i s' := by
  have h1 : ∀ (i : Fin M.actions.length) s', M.tau s M.actions[i] s' (M.labelling s) = M.matrix s i s' := by
    intro i s'
    have e := (M.actionIndex_some hn M.actions[i] i).mpr rfl
    unfold tau
    rw [e]
    simp
  have h2 : ∀ x s' o, o ≠ M.labelling s → M.tau s x s' o = 0 := fun x s' o h => by simp [tau, h]
  refine ⟨fun i s' => ⟨h1 i s', ?_⟩, h2, fun x s' o hx => ⟨?_, ?_⟩, fun A i hA => ?_⟩
  · have e := (M.actionIndex_some hn M.actions[i] i).mpr rfl
    unfold a
    rw [e]
  · simp [tau, (M.actionIndex_none x).mpr hx]
  · simp [a, (M.actionIndex_none x).mpr hx]
  · apply Finset.sum_congr rfl
    intro s' _
    rw [Finset.sum_eq_single (M.labelling s) (fun o _ ho => h2 _ _ _ ho) (fun h => absurd hA h), h1]

/-- `getActions(s)` lists exactly the actions that are possible in `s`. -/
theorem mem_getActions [LinearOrder K] [IsStrictOrderedRing K] (M : MDP K L n) (hn : M.actions.Nodup)
    (h0 : ∀ s i s', 0 ≤ M.matrix s i s') (s : Fin n) (x : L) : x ∈ M.getActions s ↔ M.Allowed s x := by
  unfold getActions Allowed
  simp only [List.mem_map, List.mem_filter, List.mem_finRange, true_and, decide_eq_true_eq]
  constructor
  · rintro ⟨i, hi, rfl⟩
    obtain ⟨s', -, hs'⟩ := Finset.exists_lt_of_sum_lt (f := fun _ => (0:K)) (by simpa using hi)
    exact ⟨s', by rw [M.prob_getElem hn]; exact hs'⟩
  · rintro ⟨s', hs'⟩
    by_cases hx : x ∈ M.actions
    · obtain ⟨i, hi, rfl⟩ := List.getElem_of_mem hx
      refine ⟨⟨i, hi⟩, ?_, rfl⟩
      have := M.prob_getElem hn s ⟨i, hi⟩ s'
      rw [show M.actions[(⟨i, hi⟩ : Fin M.actions.length)] = M.actions[i] from rfl] at this
      rw [this] at hs'
      exact Finset.sum_pos' (fun _ _ => h0 _ _ _) ⟨s', Finset.mem_univ _, hs'⟩
    · rw [M.prob_not_mem _ _ _ hx] at hs'
      exact absurd hs' (lt_irrefl _)

example : (exMDP ℚ).actions.Nodup ∧ (exMDP ℚ).getActions 1 = [10] ∧ (exMDP ℚ).getActions 0 = [10, 11] := by decide +kernel

end c19

/-! ### C25-C29: likelihood -/

section c25
variable {L : Type} [DecidableEq L] {n : ℕ}

/-- C25, MDP: for every trace `[obs 0, act 0, obs 1, …, obs t]`, the number whose logarithm is reported is the sum over
the paths of states of their probability given the actions, for the paths whose labels are the observations. -/
theorem seqProb_eq_paths {K : Type} [Field K] (M : MDP K L n) (hn : M.actions.Nodup) {t : ℕ} (obs : Fin (t+1) → L) (act : Fin t → L) :
    M.seqProb (interleave obs act) = .ok (mdpProb M.initialState M.prob M.labelling obs act) := by
  rw [M.seqProb_eq hn _ (by rw [interleave_length]; omega), lik_interleave]

/-- Every list of odd length is such a trace. -/
theorem eq_interleave (w : List L) (t : ℕ) (h : w.length = 2 * t + 1) :
    w = interleave (fun k : Fin (t+1) => w[2 * k.1]'(by omega)) (fun k : Fin t => w[2 * k.1 + 1]'(by omega)) := by
  apply List.ext_getElem?
  intro i
  obtain ⟨h1, h2⟩ := interleave_get (fun k : Fin (t+1) => w[2 * k.1]'(by omega)) (fun k : Fin t => w[2 * k.1 + 1]'(by omega))
  rcases Nat.even_or_odd' i with ⟨k, rfl | rfl⟩
  · by_cases hk : k < t + 1
    · rw [h1 k hk, List.getElem?_eq_getElem (by omega)]
    · rw [List.getElem?_eq_none (by omega), List.getElem?_eq_none (by rw [interleave_length]; omega)]
  · by_cases hk : k < t
    · rw [h2 k hk, List.getElem?_eq_getElem (by omega)]
    · rw [List.getElem?_eq_none (by omega), List.getElem?_eq_none (by rw [interleave_length]; omega)]

/-- C25, MDP, whole sets: `logLikelihood` returns the average log-likelihood of the path sums, in both versions (C27). -/
theorem logLikelihood_spec (M : MDP ℝ L n) (hn : M.actions.Nodup) (hi : ∀ s, 0 ≤ M.initialState s)
    (h0 : ∀ s i s', 0 ≤ M.matrix s i s') (cpus : ℕ) (hc : 2 ≤ cpus) (S : TSet L) (hs : S.times.sum ≠ 0)
    (ho : ∀ w ∈ S.sequences, w.length % 2 = 1) :
    M.logLikelihoodMultiproc cpus S = .ok (avgLogLik M.lik S) :=
  M.multiproc_eq M.lik (M.lik_nonneg hi h0) cpus hc S hs (fun w hw => M.seqProb_eq hn w (ho w hw))

/-- C27, MDP: the single-process version (which sorts the traces and reuses the rows of the forward table for the common
prefix with the previous trace) gives the same value as the multi-process version, for every set stored without
duplicates. No condition on the sums of the rows is needed. -/
theorem oneproc_eq_multiproc {L : Type} [LinearOrder L] {n : ℕ} (M : MDP ℝ L n) (hn : M.actions.Nodup)
    (hi : ∀ s, 0 ≤ M.initialState s) (h0 : ∀ s i s', 0 ≤ M.matrix s i s') (cpus : ℕ) (hc : 2 ≤ cpus) (S : TSet L)
    (hne : S.sequences ≠ []) (hnd : S.sequences.Nodup) (hs : S.times.sum ≠ 0) (hlen : S.times.length = S.sequences.length)
    (ho : ∀ w ∈ S.sequences, w.length % 2 = 1) :
    M.logLikelihoodOneproc S = M.logLikelihoodMultiproc cpus S := by
  rw [M.oneproc_eq hn S hne hnd hs hlen ho, M.logLikelihood_spec hn hi h0 cpus hc S hs ho]

/-- C26, MDP: for each sequence of actions that are possible everywhere, the likelihoods of the traces with these actions
sum to 1. -/
theorem sum_seqProb {K : Type} [Field K] (M : MDP K L n) (hn : M.actions.Nodup) (A : Finset L) (hA : ∀ s, M.labelling s ∈ A)
    (hi : ∑ s, M.initialState s = 1) (t : ℕ) (act : Fin t → Fin M.actions.length)
    (hm : ∀ s k, ∑ s', M.matrix s (act k) s' = 1) :
    ∃ P : (Fin (t+1) → L) → K, (∀ obs, M.seqProb (interleave obs (fun k => M.actions[act k])) = .ok (P obs)) ∧
      ∑ obs ∈ Fintype.piFinset (fun _ : Fin (t+1) => A), P obs = 1 := by
  refine ⟨_, fun obs => M.seqProb_eq_paths hn obs _, ?_⟩
  rw [sum_mdpProb M.prob M.labelling A hA t _ (fun s k => by rw [M.sum_prob hn, hm]), hi]

/-- C26, MDP: every likelihood is between 0 and 1. -/
theorem lik_mem_unit (M : MDP ℝ L n) (hn : M.actions.Nodup) (hM : M.Stochastic) (w : List L) : 0 ≤ M.lik w ∧ M.lik w ≤ 1 := by
  obtain ⟨hi, hi1, h0, hm⟩ := hM
  refine ⟨M.lik_nonneg hi h0 w, ?_⟩
  by_cases hw : w.length % 2 = 1
  · obtain ⟨ps, last, rfl⟩ := exists_alternate w hw
    rw [lik_alternate]
    apply totalWeight_le_one _ _ _ hi hi1.le (M.step_nonneg h0)
    · intro s p
      obtain ⟨o, x⟩ := p
      simp only [step, ← Finset.mul_sum]
      have hx : ∑ s', M.prob s x s' ≤ 1 := by
        by_cases hx : x ∈ M.actions
        · obtain ⟨i, hi, rfl⟩ := List.getElem_of_mem hx
          have := M.sum_prob hn s ⟨i, hi⟩
          rw [show M.actions[(⟨i, hi⟩ : Fin M.actions.length)] = M.actions[i] from rfl] at this
          rw [this]
          rcases hm s ⟨i, hi⟩ with h | h <;> rw [h]
          exact zero_le_one
        · rw [Finset.sum_eq_zero (fun s' _ => M.prob_not_mem _ _ _ hx)]
          exact zero_le_one
      split_ifs
      · simpa using hx
      · simp
    · intro s
      unfold mask
      split_ifs <;> simp
  · unfold lik
    rw [dif_neg hw]
    exact zero_le_one

theorem exMDP_stochastic : (exMDP ℚ).Stochastic ∧ (exMDP ℚ).actions.Nodup := by
  unfold Stochastic
  decide +kernel

theorem exMDP_stochastic_real : (exMDP ℝ).Stochastic ∧ (exMDP ℝ).actions.Nodup := by
  refine ⟨⟨?_, ?_, ?_, ?_⟩, by simp [exMDP]⟩
  · intro s; fin_cases s <;> simp [exMDP]
  · simp [exMDP, Fin.sum_univ_succ]
  · intro s i s'; fin_cases s <;> fin_cases i <;> fin_cases s' <;> simp [exMDP] <;> norm_num
  · intro s i; fin_cases s <;> fin_cases i <;> simp [exMDP, Fin.sum_univ_succ] <;> norm_num

/-- Non-vacuity: a trace with two actions, one of them impossible in state 1. -/
example : (exMDP ℚ).seqProb [2, 11, 1, 10, 1] = .ok (1/2) ∧ (exMDP ℚ).seqProb [2, 11, 1, 11, 1] = .ok 0 := by decide +kernel

/-- For C26 the actions must be possible everywhere: action 10 is. -/
example : ∀ (s : Fin 3), ∑ s', (exMDP ℚ).matrix s (0 : Fin 2) s' = 1 := by decide +kernel

/-- C28, MDP: the log-likelihood depends on a set only through the multiplicities of its traces. -/
theorem logLikelihood_congr (M : MDP ℝ L n) (hn : M.actions.Nodup) (hi : ∀ s, 0 ≤ M.initialState s)
    (h0 : ∀ s i s', 0 ≤ M.matrix s i s') (cpus : ℕ) (hc : 2 ≤ cpus) (S1 S2 : TSet L)
    (hs1 : S1.times.sum ≠ 0) (hs2 : S2.times.sum ≠ 0)
    (h1 : S1.times.length = S1.sequences.length) (h2 : S2.times.length = S2.sequences.length)
    (ho1 : ∀ w ∈ S1.sequences, w.length % 2 = 1) (ho2 : ∀ w ∈ S2.sequences, w.length % 2 = 1)
    (hm : ∀ tr, S1.mult tr = S2.mult tr) :
    M.logLikelihoodMultiproc cpus S1 = M.logLikelihoodMultiproc cpus S2 := by
  rw [M.logLikelihood_spec hn hi h0 cpus hc S1 hs1 ho1, M.logLikelihood_spec hn hi h0 cpus hc S2 hs2 ho2]
  rw [TSet.avgLogLik_eq _ S1 h1 (S1.sequences.toFinset ∪ S2.sequences.toFinset) (fun w hw => by simp [hw]),
    TSet.avgLogLik_eq _ S2 h2 (S1.sequences.toFinset ∪ S2.sequences.toFinset) (fun w hw => by simp [hw])]
  simp only [hm]

/-- C28, MDP: the log-likelihood of two sets merged with `addSet` is the mean of the two log-likelihoods weighted by the
number of traces. -/
theorem logLikelihood_addSet (M : MDP ℝ L n) (hn : M.actions.Nodup) (hi : ∀ s, 0 ≤ M.initialState s)
    (h0 : ∀ s i s', 0 ≤ M.matrix s i s') (cpus : ℕ) (hc : 2 ≤ cpus) (S1 S2 : TSet L) (ht : S1.type = S2.type)
    (h1 : S1.times.length = S1.sequences.length) (h2 : S2.times.length = S2.sequences.length)
    (ho1 : ∀ w ∈ S1.sequences, w.length % 2 = 1) (ho2 : ∀ w ∈ S2.sequences, w.length % 2 = 1)
    (hp1 : 0 < S1.times.sum) (hp2 : 0 < S2.times.sum) :
    ∃ S l1 l2 l, S1.addSet S2 = .ok S ∧ M.logLikelihoodMultiproc cpus S1 = .ok l1 ∧
      M.logLikelihoodMultiproc cpus S2 = .ok l2 ∧ M.logLikelihoodMultiproc cpus S = .ok l ∧
      l = (S1.times.sum * l1 + S2.times.sum * l2) / (S1.times.sum + S2.times.sum) := by
  classical
  obtain ⟨S, hS, -, hl, -, -, hm⟩ := TSet.addSet_spec S1 S2 h1 ht
  have hmem := addSet_mem S1 S2 S h1 hS
  have ho : ∀ w ∈ S.sequences, w.length % 2 = 1 := fun w hw => (hmem w hw).elim (ho1 w) (ho2 w)
  set F := S1.sequences.toFinset ∪ S2.sequences.toFinset with hF
  have f1 : ∀ w ∈ S1.sequences, w ∈ F := fun w hw => by simp [hF, hw]
  have f2 : ∀ w ∈ S2.sequences, w ∈ F := fun w hw => by simp [hF, hw]
  have f : ∀ w ∈ S.sequences, w ∈ F := fun w hw => by simpa [hF] using hmem w hw
  have t1 := TSet.sum_times_eq S1 h1 F f1
  have t2 := TSet.sum_times_eq S2 h2 F f2
  have t3 := TSet.sum_times_eq S hl F f
  have p1 : (0:ℝ) < (S1.times.sum : ℕ) := by exact_mod_cast hp1
  have p2 : (0:ℝ) < (S2.times.sum : ℕ) := by exact_mod_cast hp2
  have hs : S.times.sum ≠ 0 := by
    intro h
    rw [h] at t3
    simp only [hm, Nat.cast_add, Finset.sum_add_distrib] at t3
    rw [← t1, ← t2] at t3
    simp only [Nat.cast_zero] at t3
    linarith
  refine ⟨S, _, _, _, hS, M.logLikelihood_spec hn hi h0 cpus hc S1 (by omega) ho1,
    M.logLikelihood_spec hn hi h0 cpus hc S2 (by omega) ho2, M.logLikelihood_spec hn hi h0 cpus hc S hs ho, ?_⟩
  generalize M.lik = P
  rw [TSet.avgLogLik_eq P S1 h1 F f1, TSet.avgLogLik_eq P S2 h2 F f2, TSet.avgLogLik_eq P S hl F f]
  simp only [hm, Nat.cast_add, add_mul, Finset.sum_add_distrib]
  rw [t1] at p1 ⊢
  rw [t2] at p2 ⊢
  rw [mul_div_cancel₀ _ (ne_of_gt p1), mul_div_cancel₀ _ (ne_of_gt p2)]

/-- C29 does not hold for MDPs either: a set of impossible traces gets the log-likelihood 0. -/
theorem impossible_scored_perfect (M : MDP ℝ L n) (hn : M.actions.Nodup) (cpus : ℕ) (hc : 2 ≤ cpus) (S : TSet L)
    (hs : S.times.sum ≠ 0) (ho : ∀ w ∈ S.sequences, w.length % 2 = 1) (h : ∀ w ∈ S.sequences, M.lik w = 0) :
    M.logLikelihoodMultiproc cpus S = .ok 0 := by
  rw [M.multiproc_eq (fun _ => 0) (fun _ => le_rfl) cpus hc S hs (fun w hw => by rw [M.seqProb_eq hn w (ho w hw), h w hw])]
  simp [avgLogLik]

/-- A concrete impossible set. -/
theorem impossible_witness : ∃ S : TSet ℕ, S.Countable ∧ S.sequences ≠ [] ∧
    (exMDP ℝ).logLikelihoodMultiproc 4 S = .ok 0 := by
  refine ⟨⟨[[2, 11, 1, 11, 1]], [5], false, some 1⟩, ⟨⟨rfl, by decide⟩, by decide, rfl⟩, by simp, ?_⟩
  apply impossible_scored_perfect _ exMDP_stochastic_real.2 _ (by norm_num) _ (by simp) (by simp)
  intro w hw
  simp only [List.mem_singleton] at hw
  subst hw
  have h := (exMDP ℝ).seqProb_eq exMDP_stochastic_real.2 [2, 11, 1, 11, 1] (by simp)
  have h2 : (exMDP ℝ).seqProb [2, 11, 1, 11, 1] = .ok 0 := by
    simp only [seqProb, pairs, List.getLast?, List.getLast, List.foldl]
    congr 1
    have hz : ∀ s, (exMDP ℝ).fwdStep ((exMDP ℝ).fwdStep (exMDP ℝ).initialState (2, 11)) (1, 11) s = 0 := by
      intro s
      simp only [fwdStep, tauP, tau]
      have e : (exMDP ℝ).actionIndex 11 = some (1 : Fin 2) :=
        ((exMDP ℝ).actionIndex_some exMDP_stochastic_real.2 11 (1 : Fin 2)).mpr rfl
      simp only [e]
      fin_cases s <;> simp [Fin.sum_univ_succ, exMDP]
    simp [hz]
  rw [h2] at h
  injection h with h
  exact h.symm

/-- The error branches of the multi-process version: one processor; no trace (or only multiplicities 0). -/
theorem logLikelihood_raises (M : MDP ℝ L n) (cpus : ℕ) (S : TSet L) :
    (cpus < 2 → M.logLikelihoodMultiproc cpus S = .error .valueError) ∧
    (2 ≤ cpus → S.sequences = [] → S.times = [] → M.logLikelihoodMultiproc cpus S = .error .zeroDivisionError) := by
  refine ⟨fun h => by simp [logLikelihoodMultiproc, h], fun h h1 h2 => ?_⟩
  simp only [logLikelihoodMultiproc, h1, h2, if_neg (show ¬ cpus < 2 by omega)]
  rfl

end c25

/-! ### C20, C21, C24: simulation under a scheduler -/

section c24
variable {K L σ : Type} {n : ℕ} [Field K] [LinearOrder K] [IsStrictOrderedRing K] [DecidableEq L]

theorem chooseAction_spec (M : MDP K L n) (hn : M.actions.Nodup) (h0 : ∀ s i s', 0 ≤ M.matrix s i s') (sch : Sched K L σ)
    (s : Fin n) (draws : List K) (hd : ∀ r ∈ draws, 0 ≤ r ∧ r < 1) (st : σ) (x : L) (st' : σ) (rest : List K)
    (h : M.chooseAction sch s draws st = some (.ok (x, st', rest))) :
    Asks sch (M.Allowed s) st x st' ∧ ∃ used, draws = used ++ rest := by
  induction draws generalizing st with
  | nil => simp [chooseAction] at h
  | cons r rs ih =>
    simp only [chooseAction] at h
    have hr := hd r (by simp)
    cases hg : sch.getAction st r with
    | error e => rw [hg] at h; simp at h
    | ok q =>
      obtain ⟨y, st1⟩ := q
      rw [hg] at h
      simp only at h
      split_ifs at h with hy
      · simp only [Option.some.injEq, Except.ok.injEq, Prod.mk.injEq] at h
        obtain ⟨rfl, rfl, rfl⟩ := h
        exact ⟨.accept r hr.1 hr.2 hg ((M.mem_getActions hn h0 s y).mp hy), [r], rfl⟩
      · obtain ⟨h1, used, h2⟩ := ih (fun r hr => hd r (by simp [hr])) st1 h
        exact ⟨.reject r hr.1 hr.2 hg (fun ha => hy ((M.mem_getActions hn h0 s y).mpr ha)) h1, r :: used, by simp [h2]⟩

theorem runLoop_spec (M : MDP K L n) (hn : M.actions.Nodup) (h0 : ∀ s i s', 0 ≤ M.matrix s i s') (sch : Sched K L σ)
    (steps : ℕ) (draws : List K) (hd : ∀ r ∈ draws, 0 ≤ r ∧ r < 1) (s : Fin n) (st : σ) (w : List L) (st' : σ)
    (h : M.runLoop sch steps draws s st = some (.ok (w, st'))) :
    w.length = 2 * steps + 1 ∧ Execution M sch s st w st' := by
  induction steps generalizing draws s st w with
  | zero =>
    simp only [runLoop, Option.some.injEq, Except.ok.injEq, Prod.mk.injEq] at h
    obtain ⟨rfl, rfl⟩ := h
    exact ⟨rfl, .stop s st⟩
  | succ steps ih =>
    simp only [runLoop] at h
    cases hc : M.chooseAction sch s draws st with
    | none => rw [hc] at h; simp at h
    | some q =>
      cases q with
      | error e => rw [hc] at h; simp at h
      | ok q =>
        obtain ⟨x, st1, rest⟩ := q
        rw [hc] at h
        cases rest with
        | nil => simp at h
        | cons r rs =>
          simp only at h
          obtain ⟨ha, used, hu⟩ := M.chooseAction_spec hn h0 sch s draws hd st x st1 (r :: rs) hc
          have hd' : ∀ r' ∈ r :: rs, 0 ≤ r' ∧ r' < 1 := fun r' hr' => hd r' (by rw [hu]; exact List.mem_append_right _ hr')
          cases hnx : M.next s x r with
          | error e => rw [hnx] at h; simp at h
          | ok q =>
            obtain ⟨s', o⟩ := q
            rw [hnx] at h
            simp only at h
            unfold next at hnx
            cases hi : M.actionIndex x with
            | none => rw [hi] at hnx; simp at hnx
            | some i =>
              rw [hi] at hnx
              simp only at hnx
              rw [Except.bind_eq_ok] at hnx
              obtain ⟨c, hc1, hc2⟩ := hnx
              injection hc2 with hc2
              injection hc2 with hc2 hc3
              subst hc2 hc3
              have hp := pick_pos _ (h0 s i) _ (hd' r (by simp)).1 _ hc1
              cases hao : sch.addObservation st1 (M.labelling s) with
              | error e => rw [hao] at h; simp at h
              | ok st2 =>
                rw [hao] at h
                simp only at h
                cases hl : M.runLoop sch steps rs c st2 with
                | none => rw [hl] at h; simp at h
                | some q =>
                  cases q with
                  | error e => rw [hl] at h; simp at h
                  | ok q =>
                    obtain ⟨w', st3⟩ := q
                    rw [hl] at h
                    simp only [Option.some.injEq, Except.ok.injEq, Prod.mk.injEq] at h
                    obtain ⟨rfl, rfl⟩ := h
                    obtain ⟨i1, i2⟩ := ih rs (fun r' hr' => hd' r' (by simp [hr'])) c st2 w' hl
                    refine ⟨by simp only [List.length_cons, i1]; omega, .step ha ?_ hao i2⟩
                    have := (M.actionIndex_some hn x i).mp hi
                    rw [← this, M.prob_getElem hn]
                    exact hp

theorem execution_pos (M : MDP K L n) (h0 : ∀ s i s', 0 ≤ M.matrix s i s') (sch : Sched K L σ) (s : Fin n) (st : σ)
    (w : List L) (st' : σ) (h : Execution M sch s st w st') :
    ∃ ps last, w = alternate ps last ∧ 0 < beta0 M.step (M.mask last) ps s := by
  induction h with
  | stop s st => exact ⟨[], M.labelling s, rfl, by simp [mask]⟩
  | @step s st x st1 s' st2 w st3 _ hp _ _ ih =>
    obtain ⟨ps, last, rfl, hb⟩ := ih
    refine ⟨(M.labelling s, x) :: ps, last, rfl, ?_⟩
    rw [beta0_cons]
    refine Finset.sum_pos' (fun ss _ => mul_nonneg (beta0_nonneg _ _ (M.step_nonneg h0) (M.mask_nonneg last) _ _) (M.step_nonneg h0 _ _ _))
      ⟨s', Finset.mem_univ _, mul_pos hb ?_⟩
    simpa [step] using hp

/-- C20, C21 and C24, MDP: for every scheduler and all draws in `[0,1)`, a trace returned by `run(number_steps, scheduler)` has
`2*number_steps+1` symbols; it is an execution from a state of positive initial probability and from the reset state of
the scheduler: every action is possible in the current state and is the last one proposed by the scheduler (the previous
proposals are not possible), each move has positive probability, the scheduler receives the observations in order; and
the trace has positive likelihood. -/
theorem run_spec (M : MDP K L n) (hn : M.actions.Nodup) (hi : ∀ s, 0 ≤ M.initialState s) (h0 : ∀ s i s', 0 ≤ M.matrix s i s')
    (sch : Sched K L σ) (steps : ℕ) (draws : List K) (hd : ∀ r ∈ draws, 0 ≤ r ∧ r < 1) (st : σ) (w : List L) (st' : σ)
    (h : M.run sch steps draws st = some (.ok (w, st'))) :
    w.length = 2 * steps + 1 ∧ (∃ s0, 0 < M.initialState s0 ∧ Execution M sch s0 (sch.reset st) w st') ∧
      ∃ p, M.seqProb w = .ok p ∧ 0 < p := by
  cases draws with
  | nil => simp [run] at h
  | cons r draws =>
    simp only [run] at h
    cases hp : pick M.initialState r with
    | error e => rw [hp] at h; simp at h
    | ok s0 =>
      rw [hp] at h
      simp only at h
      obtain ⟨h1, h2⟩ := M.runLoop_spec hn h0 sch steps draws (fun r hr => hd r (by simp [hr])) s0 _ w st' h
      have hpos := pick_pos _ hi _ (hd r (by simp)).1 _ hp
      refine ⟨h1, ⟨s0, hpos, h2⟩, ?_⟩
      obtain ⟨ps, last, rfl, hb⟩ := M.execution_pos h0 sch s0 _ w st' h2
      refine ⟨_, M.seqProb_alternate hn ps last, ?_⟩
      unfold stepWeight
      rw [totalWeight_eq]
      exact Finset.sum_pos' (fun s _ => mul_nonneg (hi s) (beta0_nonneg _ _ (M.step_nonneg h0) (M.mask_nonneg last) _ _))
        ⟨s0, Finset.mem_univ _, mul_pos hpos hb⟩

/-- The run can be refused an action: with this scheduler state and these draws, action 11 is proposed in state 1, refused,
and 10 is proposed. -/
example : (exMDP ℚ).run (uniformScheduler [10, 11]) 2 [1/2, 3/4, 3/4, 3/4, 1/4, 1/8] () = some (.ok ([2, 11, 1, 10, 0], ())) := by
  decide +kernel

/-- `run` never returns when it reaches a state in which no action is possible (for instance a final state with rows of
zeros, which the constructor accepts): whatever the scheduler and however many draws are made, the loop goes on, or the
scheduler raises. -/
theorem chooseAction_stuck (M : MDP K L n) (hn : M.actions.Nodup) (h0 : ∀ s i s', 0 ≤ M.matrix s i s') (sch : Sched K L σ)
    (s : Fin n) (hs : ∀ x, ¬ M.Allowed s x) (draws : List K) (st : σ) :
    ∀ q, M.chooseAction sch s draws st ≠ some (.ok q) := by
  induction draws generalizing st with
  | nil => intro q; simp [chooseAction]
  | cons r rs ih =>
    intro q
    simp only [chooseAction]
    cases hg : sch.getAction st r with
    | error e => simp
    | ok p =>
      obtain ⟨y, st1⟩ := p
      simp only
      rw [if_neg (fun hy => hs y ((M.mem_getActions hn h0 s y).mp hy))]
      exact ih st1 q

theorem runLoop_stuck (M : MDP K L n) (hn : M.actions.Nodup) (h0 : ∀ s i s', 0 ≤ M.matrix s i s') (sch : Sched K L σ)
    (s : Fin n) (hs : ∀ x, ¬ M.Allowed s x) (steps : ℕ) (draws : List K) (st : σ) :
    ∀ q, M.runLoop sch (steps+1) draws s st ≠ some (.ok q) := by
  intro q h
  simp only [runLoop] at h
  cases hc : M.chooseAction sch s draws st with
  | none => rw [hc] at h; simp at h
  | some p =>
    cases p with
    | error e => rw [hc] at h; simp at h
    | ok p => exact M.chooseAction_stuck hn h0 sch s hs draws st p hc

/-- The uniform scheduler proposes each of its actions, for every draw in `[0,1)`. -/
theorem uniformScheduler_total (actions : List L) (hne : actions ≠ []) (r : K) (hr0 : 0 ≤ r) (hr1 : r < 1) :
    ∃ x ∈ actions, (uniformScheduler actions : Sched K L Unit).getAction () r = .ok (x, ()) := by
  have hl : 0 < actions.length := List.length_pos_iff.mpr hne
  have hl' : (0:K) < actions.length := by exact_mod_cast hl
  obtain ⟨i, hi, h1, -⟩ := resolveRandom_total (List.replicate actions.length (1 / (actions.length : K)))
    (by intro x hx; rw [List.mem_replicate] at hx; rw [hx.2]; positivity)
    (by rw [List.sum_replicate, nsmul_eq_mul]; field_simp) r hr0 hr1
  rw [List.length_replicate] at hi
  refine ⟨actions[i], List.getElem_mem _, ?_⟩
  simp only [uniformScheduler, drawAction, h1]
  simp [bind, Except.bind, List.getElem?_eq_getElem hi, Except.map]

/-- C20, MDP: when every action is possible in every state and the scheduler never raises, `run` returns as soon as it has
made `2*number_steps+1` draws. -/
theorem run_total (M : MDP K L n) (hn : M.actions.Nodup) (hi : ∀ s, 0 ≤ M.initialState s) (hi1 : ∑ s, M.initialState s = 1)
    (h0 : ∀ s i s', 0 ≤ M.matrix s i s') (hm : ∀ s i, ∑ s', M.matrix s i s' = 1) (sch : Sched K L σ)
    (hg : ∀ st r, 0 ≤ r → r < 1 → ∃ x ∈ M.actions, ∃ st', sch.getAction st r = .ok (x, st'))
    (ha : ∀ st o, ∃ st', sch.addObservation st o = .ok st')
    (steps : ℕ) (draws : List K) (hd : ∀ r ∈ draws, 0 ≤ r ∧ r < 1) (hl : 2 * steps + 1 ≤ draws.length) (st : σ) :
    ∃ q, M.run sch steps draws st = some (.ok q) := by
  have key : ∀ (steps : ℕ) (draws : List K) (s : Fin n) (st : σ), (∀ r ∈ draws, 0 ≤ r ∧ r < 1) → 2 * steps ≤ draws.length →
      ∃ q, M.runLoop sch steps draws s st = some (.ok q) := by
    intro steps
    induction steps with
    | zero => intro draws s st _ _; exact ⟨_, rfl⟩
    | succ steps ih =>
      intro draws s st hd hl
      match draws, hl, hd with
      | r1 :: r2 :: rs, hl, hd =>
        have hr1 := hd r1 (by simp)
        have hr2 := hd r2 (by simp)
        obtain ⟨x, hx, st1, h1⟩ := hg st r1 hr1.1 hr1.2
        obtain ⟨i, hi, rfl⟩ := List.getElem_of_mem hx
        have hidx := (M.actionIndex_some hn M.actions[i] ⟨i, hi⟩).mpr rfl
        obtain ⟨c, hc, -⟩ := pick_total _ (h0 s ⟨i, hi⟩) (hm s ⟨i, hi⟩) r2 hr2.1 hr2.2
        obtain ⟨st2, h2⟩ := ha st1 (M.labelling s)
        obtain ⟨q, hq⟩ := ih rs c st2 (fun r hr => hd r (by simp [hr])) (by simp only [List.length_cons] at hl; omega)
        have hact : M.actions[i] ∈ M.getActions s := by
          simp only [getActions, List.mem_map, List.mem_filter, List.mem_finRange, true_and, decide_eq_true_eq]
          exact ⟨⟨i, hi⟩, by rw [hm]; exact zero_lt_one, rfl⟩
        refine ⟨(M.labelling s :: M.actions[i] :: q.1, q.2), ?_⟩
        simp only [runLoop, chooseAction, h1, if_pos hact, next, hidx, hc, bind, Except.bind, pure, Except.pure, h2, hq]
      | [], hl, _ => simp at hl
      | [_], hl, _ => simp at hl; omega
  match draws, hl, hd with
  | [], hl, _ => simp at hl
  | r :: rs, hl, hd =>
    obtain ⟨c, hc, -⟩ := pick_total _ hi hi1 r (hd r (by simp)).1 (hd r (by simp)).2
    obtain ⟨q, hq⟩ := key steps rs c (sch.reset st) (fun r hr => hd r (by simp [hr])) (by simp only [List.length_cons] at hl; omega)
    exact ⟨q, by simp only [run, hc, hq]⟩

/-- A stuck MDP: state 0 has no action. The constructor accepts it (rows of sum 0). -/
def stuckMDP : MDP ℚ ℕ 2 where
  actions := [10]
  matrix := ![![![0, 0]], ![![1, 0]]]
  labelling := ![0, 1]
  initialState := ![0, 1]

/-- On this MDP `run(2, UniformScheduler)` never returns, however many draws are made. -/
theorem stuckMDP_diverges (draws : List ℚ) (hd : ∀ r ∈ draws, 0 ≤ r ∧ r < 1) :
    stuckMDP.Stochastic ∧ ∀ q, stuckMDP.run (uniformScheduler [10]) 2 draws () ≠ some (.ok q) := by
  refine ⟨by unfold Stochastic; decide +kernel, ?_⟩
  have hn : stuckMDP.actions.Nodup := by decide
  have h0 : ∀ s i s', 0 ≤ stuckMDP.matrix s i s' := by decide +kernel
  have hs : ∀ x, ¬ stuckMDP.Allowed 0 x := by
    intro x
    rw [← stuckMDP.mem_getActions hn h0]
    have : stuckMDP.getActions 0 = [] := by decide +kernel
    rw [this]
    simp
  rintro ⟨w, st'⟩ h
  obtain ⟨hlen, ⟨s0, hs0, hex⟩, -⟩ := stuckMDP.run_spec hn (by decide +kernel) h0 _ 2 draws hd () w st' h
  have h1 : s0 = 1 := by
    fin_cases s0
    · exact absurd hs0 (by decide +kernel)
    · rfl
  subst h1
  cases hex with
  | stop => simp at hlen
  | @step _ _ x _ s' _ _ _ _ hp _ hex =>
    have h2 : s' = 0 := by
      fin_cases s'
      · rfl
      · exfalso
        unfold prob at hp
        have : ∀ i : Fin stuckMDP.actions.length, stuckMDP.matrix 1 i 1 = 0 := by decide +kernel
        simp [this] at hp
    subst h2
    cases hex with
    | stop => simp at hlen
    | step ha =>
      have key : ∀ st x st', Asks (uniformScheduler [10] : Sched ℚ ℕ Unit) (stuckMDP.Allowed 0) st x st' → stuckMDP.Allowed 0 x := by
        intro st x st' ha
        induction ha with
        | accept r _ _ _ h => exact h
        | reject r _ _ _ _ _ ih => exact ih
      exact hs _ (key _ _ _ ha)

end c24
end MDP

/-! ### C55: schedulers -/

section c55
variable {K L : Type} [Field K] [LinearOrder K] [DecidableEq L]

/-- C55: feeding observations to a finite-memory scheduler follows its transition table. -/
theorem FMScheduler.follows_iff (F : FMScheduler K L) (obs : List L) (s s' : ℕ) :
    obs.foldlM F.addObservation s = .ok s' ↔ Follows F s obs s' := by
  induction obs generalizing s with
  | nil =>
    simp only [List.foldlM_nil]
    constructor
    · intro h; injection h with h; subst h; exact .nil s
    · intro h; cases h; rfl
  | cons o obs ih =>
    rw [List.foldlM_cons, Except.bind_eq_ok]
    constructor
    · rintro ⟨s1, h1, h2⟩
      unfold addObservation at h1
      cases ht : F.transitionMatrix o with
      | none => rw [ht] at h1; injection h1 with h1; subst h1; exact .unknown ht ((ih _).mp h2)
      | some row =>
        rw [ht] at h1
        simp only at h1
        cases hr : row[s]? with
        | none => rw [hr] at h1; simp at h1
        | some t => rw [hr] at h1; injection h1 with h1; subst h1; exact .known ht hr ((ih _).mp h2)
    · intro h
      cases h with
      | known ht hr h => exact ⟨_, by simp [addObservation, ht, hr], (ih _).mpr h⟩
      | unknown ht h => exact ⟨_, by simp [addObservation, ht], (ih _).mpr h⟩

/-- C55 in a simulation: whatever was done before with the scheduler (its state `st` before the run), after a run the
scheduler is in the state obtained by reading from state 0 all the observations of the trace but the last; and the
`k`-th action of the trace is one of those that the action table gives to the state obtained after the `k` first observations,
with positive probability. -/
theorem FMScheduler.execution [IsStrictOrderedRing K] {n : ℕ} (M : MDP K L n) (F : FMScheduler K L)
    (hF : ∀ s probs acts, F.actionMatrix s = some (probs, acts) → ∀ p ∈ probs, 0 ≤ p)
    (s : Fin n) (st : ℕ) (w : List L) (st' : ℕ)
    (h : Execution M F.sched s st w st') :
    Follows F st ((pairs w).map Prod.fst) st' ∧
    ∀ (k : ℕ) (hk : k < (pairs w).length), ∃ (t : ℕ) (probs : List K) (acts : List L) (i : ℕ), Follows F st (((pairs w).take k).map Prod.fst) t ∧
      F.actionMatrix t = some (probs, acts) ∧ acts[i]? = some (pairs w)[k].2 ∧ ∃ p, probs[i]? = some p ∧ 0 < p := by
  induction h with
  | stop s st => exact ⟨by simpa [pairs] using Follows.nil st, fun k hk => by simp [pairs] at hk⟩
  | @step s st x st1 s' st2 w st3 ha hp hao _ ih =>
    obtain ⟨ih1, ih2⟩ := ih
    have hst : st1 = st ∧ ∃ (probs : List K) (acts : List L) (i : ℕ), F.actionMatrix st = some (probs, acts) ∧ acts[i]? = some x ∧ ∃ p, probs[i]? = some p ∧ 0 < p := by
      clear hao ih1 ih2 hp
      have hget : ∀ (st : ℕ) (r : K) y st1, 0 ≤ r → F.sched.getAction st r = .ok (y, st1) → st1 = st ∧
          ∃ (probs : List K) (acts : List L) (i : ℕ), F.actionMatrix st = some (probs, acts) ∧ acts[i]? = some y ∧ ∃ p, probs[i]? = some p ∧ 0 < p := by
        intro st r y st1 hr hg
        simp only [sched, getAction] at hg
        cases hm : F.actionMatrix st with
        | none => rw [hm] at hg; simp [Except.map] at hg
        | some q =>
          obtain ⟨probs, acts⟩ := q
          rw [hm] at hg
          simp only [drawAction] at hg
          cases hrr : resolveRandom probs r with
          | error e => rw [hrr] at hg; simp [bind, Except.bind, Except.map] at hg
          | ok i =>
            rw [hrr] at hg
            simp only [bind, Except.bind] at hg
            cases hai : acts[i]? with
            | none => rw [hai] at hg; simp [Except.map] at hg
            | some a =>
              rw [hai] at hg
              simp only [Except.map] at hg
              injection hg with hg
              injection hg with hg1 hg2
              subst hg1 hg2
              obtain ⟨hi, hpos, -⟩ := (resolveRandom_ok_iff probs (hF _ _ _ hm) r hr i).1 hrr
              exact ⟨rfl, probs, acts, i, rfl, hai, _, List.getElem?_eq_getElem hi, hpos⟩
      induction ha with
      | accept r hr0 _ hg _ => exact hget _ r _ _ hr0 hg
      | reject r hr0 _ hg _ _ ih =>
        obtain ⟨rfl, -⟩ := hget _ r _ _ hr0 hg
        exact ih
    obtain ⟨rfl, probs, acts, i, hm, hai, hpp⟩ := hst
    have hcons : ∀ obs t, Follows F st2 obs t → Follows F st1 (M.labelling s :: obs) t := by
      intro obs t hf
      simp only [sched, addObservation] at hao
      cases ht : F.transitionMatrix (M.labelling s) with
      | none => rw [ht] at hao; injection hao with hao; subst hao; exact .unknown ht hf
      | some row =>
        rw [ht] at hao
        simp only at hao
        cases hr : row[st1]? with
        | none => rw [hr] at hao; simp at hao
        | some t => rw [hr] at hao; injection hao with hao; subst hao; exact .known ht hr hf
    refine ⟨by simpa [pairs] using hcons _ _ ih1, ?_⟩
    intro k hk
    cases k with
    | zero => exact ⟨st1, probs, acts, i, by simpa using Follows.nil st1, hm, by simpa [pairs] using hai, hpp⟩
    | succ k =>
      obtain ⟨t, pr, ac, j, h1, h2, h3, h4⟩ := ih2 k (by simp [pairs] at hk; omega)
      exact ⟨t, pr, ac, j, by simpa [pairs] using hcons _ _ h1, h2, by simpa [pairs] using h3, h4⟩

/-- C55, complete: the same for `MDP.run`, from any previous state of the scheduler. -/
theorem FMScheduler.run_follows [IsStrictOrderedRing K] {n : ℕ} (M : MDP K L n) (hn : M.actions.Nodup)
    (hi : ∀ s, 0 ≤ M.initialState s) (h0 : ∀ s i s', 0 ≤ M.matrix s i s') (F : FMScheduler K L)
    (hF : ∀ s probs acts, F.actionMatrix s = some (probs, acts) → ∀ p ∈ probs, 0 ≤ p)
    (steps : ℕ) (draws : List K) (hd : ∀ r ∈ draws, 0 ≤ r ∧ r < 1) (st : ℕ) (w : List L) (st' : ℕ)
    (h : M.run F.sched steps draws st = some (.ok (w, st'))) :
    Follows F 0 ((pairs w).map Prod.fst) st' ∧
    ∀ (k : ℕ) (hk : k < (pairs w).length), ∃ (t : ℕ) (probs : List K) (acts : List L) (i : ℕ), Follows F 0 (((pairs w).take k).map Prod.fst) t ∧
      F.actionMatrix t = some (probs, acts) ∧ acts[i]? = some (pairs w)[k].2 ∧ ∃ p, probs[i]? = some p ∧ 0 < p := by
  obtain ⟨-, ⟨s0, -, hex⟩, -⟩ := M.run_spec hn hi h0 F.sched steps draws hd st w st' h
  exact F.execution M hF s0 0 w st' hex

/-- C55: `getProbability` is the probability, over a uniform draw, that `getAction` returns the action. -/
theorem FMScheduler.getProbability_law (F : FMScheduler ℝ L) (s : ℕ) (probs : List ℝ) (acts : List L)
    (hm : F.actionMatrix s = some (probs, acts)) (hlen : probs.length = acts.length) (hn : acts.Nodup)
    (h0 : ∀ p ∈ probs, 0 ≤ p) (hs : probs.sum ≤ 1) (x : L) :
    ∃ p, F.getProbability s x none = .ok p ∧ F.getProbability 0 x (some s) = .ok p ∧
      volume {r : ℝ | 0 ≤ r ∧ r < 1 ∧ F.getAction s r = .ok x} = ENNReal.ofReal p := by
  have hga : ∀ r, F.getAction s r = .ok x ↔ ∃ i, resolveRandom probs r = .ok i ∧ acts[i]? = some x := by
    intro r
    simp only [getAction, hm, drawAction]
    rw [Except.bind_eq_ok]
    constructor
    · rintro ⟨i, h1, h2⟩
      refine ⟨i, h1, ?_⟩
      cases h : acts[i]? with
      | none => rw [h] at h2; simp at h2
      | some a => rw [h] at h2; injection h2 with h2; rw [h2]
    · rintro ⟨i, h1, h2⟩
      exact ⟨i, h1, by simp [h2]⟩
  by_cases hx : x ∈ acts
  · have hi : acts.idxOf x < probs.length := by rw [hlen]; exact List.idxOf_lt_length_iff.mpr hx
    refine ⟨probs[acts.idxOf x], ?_, ?_, ?_⟩
    · simp [getProbability, hm, hx, List.getElem?_eq_getElem hi]
    · simp [getProbability, hm, hx, List.getElem?_eq_getElem hi]
    · rw [← resolveRandom_law probs h0 hs _ hi]
      congr 1
      ext r
      simp only [Set.mem_ofPred_eq, hga]
      constructor
      · rintro ⟨h1, h2, i, h3, h4⟩
        have : acts.idxOf x = i := by
          obtain ⟨hi', h4⟩ := List.getElem?_eq_some_iff.mp h4
          rw [← h4]
          exact hn.idxOf_getElem i hi'
        exact ⟨h1, h2, by rw [this]; exact h3⟩
      · rintro ⟨h1, h2, h3⟩
        exact ⟨h1, h2, _, h3, by rw [List.getElem?_eq_getElem (by omega)]; simp⟩
  · refine ⟨0, by simp [getProbability, hm, hx], by simp [getProbability, hm, hx], ?_⟩
    have : {r : ℝ | 0 ≤ r ∧ r < 1 ∧ F.getAction s r = .ok x} = ∅ := by
      ext r
      simp only [Set.mem_ofPred_eq, hga, Set.mem_empty_iff_false, iff_false]
      rintro ⟨-, -, i, -, h⟩
      exact hx (List.mem_of_getElem? h)
    rw [this]
    simp

/-- A two-state scheduler used as an example: it alternates when it sees label 1. -/
def exFM (K : Type) [Field K] : FMScheduler K ℕ where
  actionMatrix := fun s => if s = 0 then some ([1/2, 1/2], [10, 11]) else if s = 1 then some ([1], [10]) else none
  transitionMatrix := fun o => if o = 1 then some [1, 0] else none

example : (exMDP ℚ).run (exFM ℚ).sched 3 [1/2, 3/4, 3/4, 1/4, 1/2, 1/2, 1/8] 1 = some (.ok ([2, 11, 1, 10, 1, 10, 0], 0)) := by
  decide +kernel
example : Follows (exFM ℚ) 0 [2, 1, 1, 0, 1] 1 := by
  rw [← FMScheduler.follows_iff]; decide +kernel
example : ∀ s probs acts, (exFM ℝ).actionMatrix s = some (probs, acts) → ∀ p ∈ probs, 0 ≤ p := by
  intro s probs acts h
  simp only [exFM] at h
  split_ifs at h <;> simp only [Option.some.injEq, Prod.mk.injEq] at h <;> obtain ⟨rfl, rfl⟩ := h <;> simp
example : (exFM ℝ).actionMatrix 0 = some ([1/2, 1/2], [10, 11]) ∧ ([1/2, 1/2] : List ℝ).length = [10, 11].length ∧
    ([1/2, 1/2] : List ℝ).sum ≤ 1 := by
  refine ⟨rfl, rfl, ?_⟩
  norm_num

/-- C55 is violated by `getSequenceStates`, which always raises on a non-empty list of observations: it calls a method
that does not exist. -/
theorem FMScheduler.getSequenceStates_broken (F : FMScheduler K L) (obs : List L) :
    F.getSequenceStates obs = .error .attributeError ↔ obs ≠ [] := by
  cases obs <;> simp [getSequenceStates]

/-- `MemorylessScheduler` cannot be used with `MDP.run`: as soon as there is a step, the call raises TypeError. -/
theorem memorylessScheduler_breaks_run [IsStrictOrderedRing K] {n : ℕ} (M : MDP K L n) (hi : ∀ s, 0 ≤ M.initialState s)
    (hi1 : ∑ s, M.initialState s = 1) (steps : ℕ) (r1 r2 : K) (draws : List K) (h1 : 0 ≤ r1) (h2 : r1 < 1) :
    M.run memorylessScheduler (steps + 1) (r1 :: r2 :: draws) () = some (.error .typeError) := by
  obtain ⟨c, hc, -⟩ := pick_total _ hi hi1 r1 h1 h2
  simp [MDP.run, hc, MDP.runLoop, MDP.chooseAction, memorylessScheduler]

/-- The memoryless scheduler itself returns the action of the given state. -/
theorem memorylessAction_spec (actions : List L) (s : ℕ) :
    (∀ h : s < actions.length, memorylessAction actions s = .ok actions[s]) ∧
    (actions.length ≤ s → memorylessAction actions s = .error .indexError) := by
  constructor
  · intro h; simp [memorylessAction, List.getElem?_eq_getElem h]
  · intro h; simp [memorylessAction, List.getElem?_eq_none h]

end c55
end Jajapy
