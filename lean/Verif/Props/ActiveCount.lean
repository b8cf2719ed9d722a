import Verif.Model.ActiveCount
import Verif.Props.Active
import Verif.Props.Impossible
import Verif.Props.Likelihood
import Verif.Props.FitEnds

/-!
C123: the number of iterations of the active learning, and the end of the learning with the default (infinite) bound.
-/

set_option autoImplicit false
set_option linter.unusedSectionVars false

namespace Jajapy.Active

open Finset Spec BW

section General
variable {K L : Type} {n : ℕ} [Field K] [LinearOrder K] [DecidableEq L]

theorem superFitC_fst (train : TSet L → MDP K L n → Py (MDP K L n × ℕ)) (S : TSet L) (models : List (MDP K L n)) (h : ℕ) :
    superFit (fun S M => (train S M).map (·.1)) S models h = (superFitC train S models h).map (fun q => (q.1, q.2.1)) := by
  unfold superFit superFitC
  cases models[h]? with
  | none => rfl
  | some M =>
    dsimp only
    cases train S M with
    | error e => rfl
    | ok r => rfl

theorem roundC_fst [DecidableEq K] (train : TSet L → MDP K L n → Py (MDP K L n × ℕ)) (sample : MDP K L n → TSet L → Py (TSet L)) (lr : Rate K) (W : Learning K L n) (c : ℕ) :
    (roundC train sample lr W c).map (·.1) = round (fun S M => (train S M).map (·.1)) sample lr W := by
  unfold roundC round
  cases W.models[W.h]? with
  | none => rfl
  | some M =>
    dsimp only [bind, Except.bind]
    cases sample M W.total with
    | error e => rfl
    | ok T =>
      dsimp only
      cases W.total.addSet T with
      | error e => rfl
      | ok U =>
        dsimp only
        cases lr with
        | const x =>
          dsimp only
          split_ifs with hx
          · rw [superFitC_fst]
            cases superFitC train U W.models W.h with
            | error e => rfl
            | ok q => rfl
          · rw [superFitC_fst]
            cases superFitC train T W.models W.h with
            | error e => rfl
            | ok q =>
              dsimp only [Except.map]
              cases mergeObjects x q.1 q.2.1 W.h with
              | error e => rfl
              | ok m => rfl
        | dynamic =>
          dsimp only
          rw [superFitC_fst]
          cases superFitC train T W.models W.h with
          | error e => rfl
          | ok q =>
            dsimp only [Except.map]
            cases mergeObjects ((T.times.sum : K) / ((U.times.sum : K) - (T.times.sum : K))) q.1 q.2.1 W.h with
            | error e => rfl
            | ok m => rfl

theorem roundsC_fst [DecidableEq K] (train : TSet L → MDP K L n → Py (MDP K L n × ℕ)) (lr : Rate K) (samples : List (MDP K L n → TSet L → Py (TSet L))) (W : Learning K L n)
    (c : ℕ) : (roundsC train lr samples W c).map (·.1) = rounds (fun S M => (train S M).map (·.1)) lr samples W := by
  induction samples generalizing W c with
  | nil => rfl
  | cons f l ih =>
    unfold roundsC rounds
    rw [← roundC_fst train f lr W c]
    cases roundC train f lr W c with
    | error e => rfl
    | ok r => exact ih r.1 r.2

/-- Counting the iterations changes nothing in the learning (C54), exceptions included. -/
theorem fitC_fst [DecidableEq K] (train0 train : TSet L → MDP K L n → Py (MDP K L n × ℕ)) (lr : Rate K) (samples : List (MDP K L n → TSet L → Py (TSet L)))
    (W : Learning K L n) : (fitC train0 train lr samples W).map (·.1) =
      fit (fun S M => (train0 S M).map (·.1)) (fun S M => (train S M).map (·.1)) lr samples W := by
  unfold fitC fit
  rw [superFitC_fst]
  cases superFitC train0 W.total W.models W.h with
  | error e => rfl
  | ok q => exact roundsC_fst _ _ _ _ _

theorem superFitC_count (train : TSet L → MDP K L n → Py (MDP K L n × ℕ)) (S : TSet L) (models : List (MDP K L n)) (h : ℕ) (q : List (MDP K L n) × ℕ × ℕ)
    (hq : superFitC train S models h = .ok q) : ∃ M M', models[h]? = some M ∧ train S M = .ok (M', q.2.2) ∧ q = (models.set h M', h, q.2.2) := by
  unfold superFitC at hq
  cases hm : models[h]? with
  | none => rw [hm] at hq; simp at hq
  | some M =>
    rw [hm] at hq
    dsimp only at hq
    obtain ⟨r, hr, hq⟩ := (Except.bind_eq_ok _ _ _).1 hq
    injection hq with hq
    subst hq
    exact ⟨M, r.1, rfl, hr, rfl⟩

theorem roundC_count [DecidableEq K] (train : TSet L → MDP K L n → Py (MDP K L n × ℕ)) (sample : MDP K L n → TSet L → Py (TSet L)) (lr : Rate K) (W : Learning K L n) (c : ℕ)
    (r : Learning K L n × ℕ) (h : roundC train sample lr W c = .ok r) : ∃ M T U k M' V, sample M W.total = .ok T ∧ W.models[W.h]? = some M ∧ W.total.addSet T = .ok U ∧
      r.1.total = U ∧ train V M = .ok (M', k) ∧ r.2 = c + k ∧ (lr = .const 0 → V = U) ∧ (lr ≠ .const 0 → V = T) := by
  unfold roundC at h
  cases hm : W.models[W.h]? with
  | none => rw [hm] at h; simp at h
  | some M =>
    rw [hm] at h
    dsimp only at h
    obtain ⟨T, hT, h⟩ := (Except.bind_eq_ok _ _ _).1 h
    obtain ⟨U, hU, h⟩ := (Except.bind_eq_ok _ _ _).1 h
    cases lr with
    | const x =>
      dsimp only at h
      split_ifs at h with hx
      · obtain ⟨q, hq, h⟩ := (Except.bind_eq_ok _ _ _).1 h
        injection h with h
        subst h
        obtain ⟨M1, M', a1, a2, a3⟩ := superFitC_count _ _ _ _ _ hq
        rw [hm] at a1
        injection a1 with a1
        subst a1
        exact ⟨M, T, U, q.2.2, M', U, hT, rfl, hU, rfl, a2, rfl, fun _ => rfl, fun h => absurd (by rw [hx]) h⟩
      · obtain ⟨q, hq, h⟩ := (Except.bind_eq_ok _ _ _).1 h
        obtain ⟨m, hmm, h⟩ := (Except.bind_eq_ok _ _ _).1 h
        injection h with h
        subst h
        obtain ⟨M1, M', a1, a2, a3⟩ := superFitC_count _ _ _ _ _ hq
        rw [hm] at a1
        injection a1 with a1
        subst a1
        exact ⟨M, T, U, q.2.2, M', T, hT, rfl, hU, rfl, a2, rfl, fun h => absurd (by simpa using h) hx, fun _ => rfl⟩
    | dynamic =>
      dsimp only at h
      obtain ⟨q, hq, h⟩ := (Except.bind_eq_ok _ _ _).1 h
      obtain ⟨m, hmm, h⟩ := (Except.bind_eq_ok _ _ _).1 h
      injection h with h
      subst h
      obtain ⟨M1, M', a1, a2, a3⟩ := superFitC_count _ _ _ _ _ hq
      rw [hm] at a1
      injection a1 with a1
      subst a1
      exact ⟨M, T, U, q.2.2, M', T, hT, rfl, hU, rfl, a2, rfl, fun h => by simp at h, fun _ => rfl⟩

theorem roundsC_count [DecidableEq K] (train : TSet L → MDP K L n → Py (MDP K L n × ℕ)) (lr : Rate K) (samples : List (MDP K L n → TSet L → Py (TSet L))) (W W' : Learning K L n)
    (c c' : ℕ) (h : roundsC train lr samples W c = .ok (W', c')) : ∃ (ks : List ℕ) (Ts : List (TSet L)), c' = c + ks.sum ∧ ks.length = samples.length ∧
      Ts.length = samples.length ∧ ∀ i f k T, samples[i]? = some f → ks[i]? = some k → Ts[i]? = some T → ∃ M M' S V, f M S = .ok T ∧ train V M = .ok (M', k) ∧
        (lr = .const 0 → TSet.addSets W.total (Ts.take (i+1)) = .ok V) ∧ (lr ≠ .const 0 → V = T) := by
  induction samples generalizing W c with
  | nil =>
    unfold roundsC at h
    injection h with h
    injection h with h1 h2
    exact ⟨[], [], by simp [h2], rfl, rfl, fun i f k T hf => by simp at hf⟩
  | cons f l ih =>
    unfold roundsC at h
    obtain ⟨r, hr, h⟩ := (Except.bind_eq_ok _ _ _).1 h
    obtain ⟨M, T, U, k, M', V, a1, a2, a3, a4, a5, a6, a7, a8⟩ := roundC_count _ _ _ _ _ _ hr
    obtain ⟨ks, Ts, b1, b2, b3, b4⟩ := ih _ _ h
    refine ⟨k :: ks, T :: Ts, by rw [b1, a6, List.sum_cons]; omega, by simp [b2], by simp [b3], ?_⟩
    intro i g k' T' hg hk hT
    cases i with
    | zero =>
      simp only [List.getElem?_cons_zero, Option.some.injEq] at hg hk hT
      subst hg hk hT
      refine ⟨M, M', W.total, V, a1, a5, fun h0 => ?_, a8⟩
      rw [a7 h0]
      simp [TSet.addSets, a3]
    | succ i =>
      simp only [List.getElem?_cons_succ] at hg hk hT
      obtain ⟨M1, M2, S1, V1, c1, c2, c3, c4⟩ := b4 i g k' T' hg hk hT
      refine ⟨M1, M2, S1, V1, c1, c2, fun h0 => ?_, c4⟩
      rw [← c3 h0, a4]
      show (W.total.addSet T >>= fun S => TSet.addSets S (Ts.take (i+1))) = _
      rw [a3]
      rfl

/-- C123: the reported number of iterations is the sum of the numbers of iterations of the first training, which is on the given set, and of one training for each round.
With the rate 0 the training of a round is on the given set and all traces sampled so far; with another rate, on the traces sampled in this round. -/
theorem fitC_count [DecidableEq K] (train0 train : TSet L → MDP K L n → Py (MDP K L n × ℕ)) (lr : Rate K) (samples : List (MDP K L n → TSet L → Py (TSet L)))
    (W W' : Learning K L n) (c : ℕ) (h : fitC train0 train lr samples W = .ok (W', c)) :
    ∃ (k0 : ℕ) (ks : List ℕ) (Ts : List (TSet L)), c = k0 + ks.sum ∧ ks.length = samples.length ∧ Ts.length = samples.length ∧
      (∃ M M', W.models[W.h]? = some M ∧ train0 W.total M = .ok (M', k0)) ∧
      ∀ i f k T, samples[i]? = some f → ks[i]? = some k → Ts[i]? = some T → ∃ M M' S V, f M S = .ok T ∧ train V M = .ok (M', k) ∧
        (lr = .const 0 → TSet.addSets W.total (Ts.take (i+1)) = .ok V) ∧ (lr ≠ .const 0 → V = T) := by
  unfold fitC at h
  obtain ⟨q, hq, h⟩ := (Except.bind_eq_ok _ _ _).1 h
  obtain ⟨M, M', a1, a2, a3⟩ := superFitC_count _ _ _ _ _ hq
  obtain ⟨ks, Ts, b1, b2, b3, b4⟩ := roundsC_count _ _ _ _ _ _ _ h
  exact ⟨q.2.2, ks, Ts, by omega, b2, b3, ⟨M, M', a1, a2⟩, b4⟩

theorem mergeModels_same (x : K) (M : MDP K L n) : mergeModels x M M = .ok M := by
  unfold mergeModels
  rw [dif_pos rfl]
  congr 1
  cases M
  simp only [MDP.mk.injEq, heq_eq_eq, true_and, and_true]
  funext s i s'
  simp only [Fin.cast_refl, id]
  ring

/-- The set of the training of a round. -/
def trainingSet [DecidableEq K] (lr : Rate K) (T U : TSet L) : TSet L :=
  match lr with
  | .const x => if x = 0 then U else T
  | .dynamic => T

theorem roundC_eq [DecidableEq K] (train : TSet L → MDP K L n → Py (MDP K L n × ℕ)) (f : MDP K L n → TSet L → Py (TSet L)) (lr : Rate K) (W : Learning K L n) (c : ℕ)
    (M : MDP K L n) (hM : W.models[W.h]? = some M) : roundC train f lr W c = (do
      let T ← f M W.total
      let U ← W.total.addSet T
      let r ← train (trainingSet lr T U) M
      return (⟨W.models.set W.h r.1, W.h, U⟩, c + r.2)) := by
  have hlt : W.h < W.models.length := (List.getElem?_eq_some_iff.1 hM).1
  have hmerge : ∀ (x : K) (M' : MDP K L n), mergeObjects x (W.models.set W.h M') W.h W.h = .ok (W.models.set W.h M') := by
    intro x M'
    unfold mergeObjects
    rw [List.getElem?_set_self hlt]
    dsimp only
    rw [mergeModels_same]
    show Except.ok _ = _
    rw [List.set_set]
  unfold roundC superFitC
  rw [hM]
  dsimp only [bind, Except.bind]
  cases f M W.total with
  | error e => rfl
  | ok T =>
    dsimp only
    cases W.total.addSet T with
    | error e => rfl
    | ok U =>
      dsimp only
      cases lr with
      | const x =>
        dsimp only [trainingSet]
        split_ifs with hx
        · cases train U M with
          | error e => rfl
          | ok r => rfl
        · cases train T M with
          | error e => rfl
          | ok r =>
            simp only [pure, Except.pure, hmerge]
      | dynamic =>
        dsimp only [trainingSet]
        cases train T M with
        | error e => rfl
        | ok r => simp only [pure, Except.pure, hmerge]

end General

section BaumWelch
variable {L : Type} {n : ℕ} [DecidableEq L]

theorem trainC_ok (processes : ℕ) (epsilon : ℝ) (maxIt : ℕ) (S : TSet L) (M M' : MDP ℝ L n) (k : ℕ) (h : trainC processes epsilon maxIt S M = .ok (M', k)) :
    ∃ st, BW.fit (stepMDP processes S) epsilon maxIt M = .ok st ∧ st.h = M' ∧ st.counter = k ∧ 1 ≤ k ∧ k ≤ maxIt := by
  unfold trainC fitData at h
  obtain ⟨r, hr, h⟩ := (Except.bind_eq_ok _ _ _).1 h
  obtain ⟨st, hst, hr⟩ := (Except.bind_eq_ok _ _ _).1 hr
  obtain ⟨k', hs, ls, b1, b2, b3, b4, b5, b6, b7, b8⟩ := fit_iterations _ _ _ _ _ hst
  cases hl : st.ll with
  | none => rw [hl] at hr; simp at hr
  | some ll =>
    rw [hl] at hr
    injection hr with hr
    subst hr
    injection h with h
    injection h with h1 h2
    have h3 : st.counter = k := h2
    refine ⟨st, hst, h1, h3, ?_, by omega⟩
    have hm : maxIt ≠ 0 := by
      rintro rfl
      unfold BW.fit BW.loop at hst
      injection hst with hst
      rw [← hst] at hl
      simp at hl
    have := b7 (Nat.one_le_iff_ne_zero.2 hm)
    omega

theorem trainC_of (processes : ℕ) (epsilon : ℝ) (maxIt : ℕ) (hm : 0 < maxIt) (S : TSet L) (M : MDP ℝ L n) (st : LoopState (MDP ℝ L n))
    (h : BW.fit (stepMDP processes S) epsilon maxIt M = .ok st) : trainC processes epsilon maxIt S M = .ok (st.h, st.counter) := by
  obtain ⟨k', hs, ls, b1, b2, b3, b4, b5, b6, b7, b8⟩ := fit_iterations _ _ _ _ _ h
  obtain ⟨j, rfl⟩ : ∃ j, k' = j + 1 := ⟨k' - 1, by have := b7 hm; omega⟩
  unfold trainC fitData
  rw [h]
  show (do let r ← (match st.ll with | some ll => Except.ok (st.h, st.counter, ll) | none => .error .unboundLocalError : Py (MDP ℝ L n × ℕ × ℝ)); return (r.1, r.2.1)) = _
  rw [b5 j rfl]
  rfl

variable {processes : ℕ} {epsilon : ℝ} {maxIt0 maxIt : ℕ} {lr : Rate ℝ} {samples : List (MDP ℝ L n → TSet L → Py (TSet L))} {M : MDP ℝ L n} {S : TSet L}

theorem trainC_fst (hm : 0 < maxIt) (S : TSet L) (M : MDP ℝ L n) :
    (trainC processes epsilon maxIt S M).map (·.1) = (BW.fit (stepMDP processes S) epsilon maxIt M).map (·.h) := by
  cases h : BW.fit (stepMDP processes S) epsilon maxIt M with
  | error e =>
    unfold trainC fitData
    rw [h]
    rfl
  | ok st =>
    rw [trainC_of _ _ _ hm _ _ _ h]
    rfl

open Classical in
/-- The learned models and the training set are those of C54. -/
theorem fitRounds_fst (h0 : 0 < maxIt0) (h1 : 0 < maxIt) : (fitRounds processes epsilon maxIt0 maxIt lr samples M S).map (·.1) =
    fit (fun S M => (BW.fit (stepMDP processes S) epsilon maxIt0 M).map (·.h)) (fun S M => (BW.fit (stepMDP processes S) epsilon maxIt M).map (·.h)) lr samples
      ⟨[M], 0, S⟩ := by
  unfold fitRounds
  rw [fitC_fst]
  congr 1
  · funext S M; exact trainC_fst h0 S M
  · funext S M; exact trainC_fst h1 S M

/-- C123: every training has at least one iteration, the first one at most `max_it`; so the reported number is larger than the number of rounds. `maxIt` is the bound of the
trainings of the rounds. -/
theorem rounds_bounds_partial (W : Learning ℝ L n) (c : ℕ) (h : fitRounds processes epsilon maxIt0 maxIt lr samples M S = .ok (W, c)) :
    ∃ k0, 1 ≤ k0 ∧ k0 ≤ maxIt0 ∧ k0 + samples.length ≤ c ∧ c ≤ k0 + samples.length * maxIt := by
  obtain ⟨k0, ks, Ts, a1, a2, a3, ⟨M1, M2, _, a4⟩, a5⟩ := fitC_count _ _ _ _ _ _ _ h
  obtain ⟨st, _, _, _, b1, b2⟩ := trainC_ok _ _ _ _ _ _ _ a4
  have hks : ∀ k ∈ ks, 1 ≤ k ∧ k ≤ maxIt := by
    intro k hk
    obtain ⟨i, hi, rfl⟩ := List.mem_iff_getElem.1 hk
    obtain ⟨M, M', S, V, _, c2, _, _⟩ := a5 i _ _ _ (List.getElem?_eq_getElem (by omega)) (List.getElem?_eq_getElem hi) (List.getElem?_eq_getElem (by omega))
    obtain ⟨_, _, _, _, d1, d2⟩ := trainC_ok _ _ _ _ _ _ _ c2
    exact ⟨d1, d2⟩
  have h1 : ks.length * 1 ≤ ks.sum := by
    have := List.card_nsmul_le_sum ks 1 (fun k hk => (hks k hk).1)
    simpa using this
  have h2 : ks.sum ≤ ks.length * maxIt := by
    have := List.sum_le_card_nsmul ks maxIt (fun k hk => (hks k hk).2)
    simpa using this
  rw [a2] at h1 h2
  exact ⟨k0, b1, b2, by omega, by omega⟩

/-- C123, violation: "the algorithm will stop after `max_it` iterations" does not hold: if `max_it` is at most the number of rounds, there are more than `max_it` iterations. -/
theorem max_it_exceeded (W : Learning ℝ L n) (c : ℕ) (hm : maxIt0 ≤ samples.length) (h : fitRounds processes epsilon maxIt0 maxIt lr samples M S = .ok (W, c)) :
    maxIt0 < c := by
  obtain ⟨k0, a1, a2, a3, a4⟩ := rounds_bounds_partial W c h
  omega

/-- The sampled sets: counted traces with actions. -/
def Sampled (samples : List (MDP ℝ L n → TSet L → Py (TSet L))) : Prop :=
  ∀ f ∈ samples, ∀ M S T, f M S = .ok T → (∀ t ∈ T.times, 1 ≤ t) ∧ T.times.length = T.sequences.length ∧ ∀ w ∈ T.sequences, w.length % 2 = 1

/-- A training ends, whatever the model, the set and the number of processes: it returns a model or raises an exception. -/
theorem train_ends (he : 0 < epsilon) (S : TSet L) (M : MDP ℝ L n) (hn : M.actions.Nodup) (hM : M.Stochastic)
    (ho : ∀ w ∈ S.sequences, w.length % 2 = 1) :
    ∃ N r, (∀ maxIt, N ≤ maxIt → trainC processes epsilon maxIt S M = r) ∧ ∀ M' k, r = .ok (M', k) → M'.actions.Nodup ∧ M'.Stochastic := by
  obtain ⟨N, r, h⟩ := M.fit_ends processes S epsilon he hn hM ho
  refine ⟨N, trainC processes epsilon N S M, fun maxIt hm => ?_, fun M' k hr => ?_⟩
  · unfold trainC fitData
    rw [h _ hm, h N le_rfl]
  · obtain ⟨st, a1, a2, a3, a4, a5⟩ := trainC_ok _ _ _ _ _ _ _ hr
    exact ⟨by rw [← a2, (M.fit_structure _ _ _ _ hn ho _ a1).1]; exact hn, by rw [← a2]; exact (M.fit_stochastic _ _ _ _ hn hM ho _ a1).1⟩

/-- What holds before each round. -/
def Ready (W : Learning ℝ L n) : Prop :=
  (∃ M, W.models[W.h]? = some M ∧ M.actions.Nodup ∧ M.Stochastic) ∧ (∀ w ∈ W.total.sequences, w.length % 2 = 1) ∧
    W.total.times.length = W.total.sequences.length ∧ ∀ t ∈ W.total.times, 1 ≤ t

open Classical in
theorem round_ends (he : 0 < epsilon) (f : MDP ℝ L n → TSet L → Py (TSet L)) (hf : Sampled [f]) (W : Learning ℝ L n) (hW : Ready W) (c : ℕ) :
    ∃ N r, (∀ maxIt, N ≤ maxIt → roundC (trainC processes epsilon maxIt) f lr W c = r) ∧ ∀ W' c', r = .ok (W', c') → Ready W' := by
  obtain ⟨⟨M, hm, hn, hM⟩, ho, hlen, ht⟩ := hW
  have hlt : W.h < W.models.length := (List.getElem?_eq_some_iff.1 hm).1
  cases hT : f M W.total with
  | error e =>
    refine ⟨0, .error e, fun maxIt _ => ?_, fun _ _ h => by simp at h⟩
    rw [roundC_eq _ _ _ _ _ _ hm, hT]
    rfl
  | ok T =>
    cases hU : W.total.addSet T with
    | error e =>
      refine ⟨0, .error e, fun maxIt _ => ?_, fun _ _ h => by simp at h⟩
      rw [roundC_eq _ _ _ _ _ _ hm, hT]
      show (W.total.addSet T >>= _) = _
      rw [hU]
      rfl
    | ok U =>
      obtain ⟨t1, t2, t3⟩ := hf f (by simp) _ _ _ hT
      have hty : W.total.type = T.type := by
        by_contra hty
        unfold TSet.addSet at hU
        rw [if_pos (by simpa using hty)] at hU
        simp at hU
      obtain ⟨U', u0, u1, u2, u3, u4, u5⟩ := TSet.addSet_spec W.total T hlen hty
      rw [hU] at u0
      injection u0 with u0
      subst u0
      have hoU : ∀ w ∈ U.sequences, w.length % 2 = 1 := fun w hw => (addSet_mem _ _ _ hlen hU w hw).elim (ho w) (t3 w)
      have hV : trainingSet lr T U = T ∨ trainingSet lr T U = U := by
        unfold trainingSet
        cases lr with
        | const x => dsimp only; split_ifs <;> simp
        | dynamic => simp
      obtain ⟨N, r, h1, h2⟩ := train_ends (processes := processes) he (trainingSet lr T U) M hn hM
        (by rcases hV with h | h <;> rw [h]; exacts [t3, hoU])
      refine ⟨N, r >>= fun r => return (⟨W.models.set W.h r.1, W.h, U⟩, c + r.2), fun maxIt hN => ?_, fun W' c' h => ?_⟩
      · rw [roundC_eq _ _ _ _ _ _ hm, hT]
        show (W.total.addSet T >>= _) = _
        rw [hU]
        show (trainC processes epsilon maxIt (trainingSet lr T U) M >>= _) = _
        rw [h1 _ hN]
      · obtain ⟨q, hq, h⟩ := (Except.bind_eq_ok _ _ _).1 h
        injection h with h
        injection h with h _
        subst h
        obtain ⟨k1, k2⟩ := h2 q.1 q.2 hq
        exact ⟨⟨q.1, by rw [List.getElem?_set_self hlt], k1, k2⟩, hoU, u2, u4 ht t1⟩

open Classical in
theorem roundsC_ends (he : 0 < epsilon) (hs : Sampled samples) (W : Learning ℝ L n) (hW : Ready W) (c : ℕ) :
    ∃ N r, ∀ maxIt, N ≤ maxIt → roundsC (trainC processes epsilon maxIt) lr samples W c = r := by
  induction samples generalizing W c with
  | nil => exact ⟨0, .ok (W, c), fun _ _ => rfl⟩
  | cons f l ih =>
    obtain ⟨N, r, h1, h2⟩ := round_ends (processes := processes) (lr := lr) he f (fun g hg => hs g (by simp at hg; simp [hg])) W hW c
    cases r with
    | error e =>
      refine ⟨N, .error e, fun maxIt hN => ?_⟩
      unfold roundsC
      rw [h1 _ hN]
      rfl
    | ok q =>
      obtain ⟨N2, r2, h3⟩ := ih (fun g hg => hs g (by simp [hg])) q.1 (h2 q.1 q.2 rfl) q.2
      refine ⟨max N N2, r2, fun maxIt hN => ?_⟩
      unfold roundsC
      rw [h1 _ (le_trans (le_max_left _ _) hN)]
      exact h3 _ (le_trans (le_max_right _ _) hN)

/-- C123: with `epsilon > 0` the active learning ends although the trainings of the rounds have no bound: from some bound on, the outcome (the learned
model, the set, the number of iterations, or an exception) does not depend on the bound. This holds for every rate, all sampled sets, every `max_it` and every number of processes. -/
theorem learning_ends (he : 0 < epsilon) (hs : Sampled samples) (hn : M.actions.Nodup) (hM : M.Stochastic)
    (ho : ∀ w ∈ S.sequences, w.length % 2 = 1) (hlen : S.times.length = S.sequences.length) (ht : ∀ t ∈ S.times, 1 ≤ t) :
    ∃ N r, ∀ maxIt, N ≤ maxIt → fitRounds processes epsilon maxIt0 maxIt lr samples M S = r := by
  cases hq : trainC processes epsilon maxIt0 S M with
  | error e =>
    refine ⟨0, .error e, fun maxIt _ => ?_⟩
    show ((trainC processes epsilon maxIt0 S M >>= fun r => Except.ok ([M].set 0 r.1, 0, r.2)) >>= fun q : List (MDP ℝ L n) × ℕ × ℕ => _) = _
    rw [hq]
    rfl
  | ok q =>
    obtain ⟨st, a1, a2, a3, a4, a5⟩ := trainC_ok _ _ _ _ _ q.1 q.2 hq
    obtain ⟨N, r, h⟩ := roundsC_ends (processes := processes) (lr := lr) he hs (⟨[q.1], 0, S⟩ : Learning ℝ L n) ⟨⟨q.1, rfl, by rw [← a2, (M.fit_structure _ _ _ _ hn ho _ a1).1]; exact hn,
      by rw [← a2]; exact (M.fit_stochastic _ _ _ _ hn hM ho _ a1).1⟩, ho, hlen, ht⟩ (0 + q.2)
    refine ⟨N, r, fun maxIt hN => ?_⟩
    show ((trainC processes epsilon maxIt0 S M >>= fun r => Except.ok ([M].set 0 r.1, 0, r.2)) >>= fun q : List (MDP ℝ L n) × ℕ × ℕ => _) = _
    rw [hq]
    exact h _ hN

/-- What holds before each round with the rate 0 when the learning raises no exception: the hypothesis can generate `w`, which is in the set. -/
def Going (w : List L) (W : Learning ℝ L n) : Prop :=
  (∃ M, W.models[W.h]? = some M ∧ M.actions.Nodup ∧ M.Stochastic ∧ M.lik w ≠ 0) ∧ (∀ w ∈ W.total.sequences, w.length % 2 = 1) ∧ W.total.type = some 1 ∧
    W.total.WF ∧ (∀ t ∈ W.total.times, 1 ≤ t) ∧ w ∈ W.total.sequences

open Classical in
theorem round_returns (hp : 1 < processes) (hm1 : 0 < maxIt) (f : MDP ℝ L n → TSet L → Py (TSet L)) (hf : Sampled [f]) (hok : ∀ M S, ∃ T, f M S = .ok T ∧ T.type = some 1)
    (w : List L) (W : Learning ℝ L n) (hW : Going w W) (c : ℕ) :
    ∃ W' c', roundC (trainC processes epsilon maxIt) f (.const 0) W c = .ok (W', c') ∧ Going w W' := by
  obtain ⟨⟨M, hm, hn, hM, hl⟩, ho, hty, hwf, ht, hw⟩ := hW
  have hlt : W.h < W.models.length := (List.getElem?_eq_some_iff.1 hm).1
  obtain ⟨T, hT, hTy⟩ := hok M W.total
  obtain ⟨t1, t2, t3⟩ := hf f (by simp) _ _ _ hT
  obtain ⟨U, hU, u1, u2, u3, u4, u5⟩ := TSet.addSet_spec W.total T hwf.1 (hty.trans hTy.symm)
  have hoU : ∀ w ∈ U.sequences, w.length % 2 = 1 := fun w hw => (addSet_mem _ _ _ hwf.1 hU w hw).elim (ho w) (t3 w)
  have hwU : w ∈ U.sequences := by
    rw [TSet.mem_iff_mult_pos _ ⟨u2, u3 hwf.2⟩ (u4 ht t1), u5]
    have := (TSet.mem_iff_mult_pos _ hwf ht w).1 hw
    omega
  obtain ⟨st, hst⟩ := M.fit_total processes hp U epsilon maxIt hn hM hoU u2 (u4 ht t1) w hwU hl
  refine ⟨⟨W.models.set W.h st.h, W.h, U⟩, c + st.counter, ?_, ⟨st.h, by rw [List.getElem?_set_self hlt],
    by rw [(M.fit_structure _ _ _ _ hn hoU _ hst).1]; exact hn, (M.fit_stochastic _ _ _ _ hn hM hoU _ hst).1,
    (M.fit_possible _ _ _ _ hn hM hoU u2 (u4 ht t1) _ hst w hwU).1 hl⟩, hoU, u1.trans hty, ⟨u2, u3 hwf.2⟩, u4 ht t1, hwU⟩
  rw [roundC_eq _ _ _ _ _ _ hm, hT]
  show (W.total.addSet T >>= _) = _
  rw [hU]
  show (trainC processes epsilon maxIt (if (0:ℝ) = 0 then U else T) M >>= _) = _
  rw [if_pos rfl, trainC_of _ _ _ hm1 _ _ _ hst]
  rfl

open Classical in
theorem roundsC_returns (hp : 1 < processes) (hm1 : 0 < maxIt) (hs : Sampled samples) (hok : ∀ f ∈ samples, ∀ M S, ∃ T, f M S = .ok T ∧ T.type = some 1)
    (w : List L) (W : Learning ℝ L n) (hW : Going w W) (c : ℕ) :
    ∃ W' c', roundsC (trainC processes epsilon maxIt) (.const 0) samples W c = .ok (W', c') := by
  induction samples generalizing W c with
  | nil => exact ⟨W, c, rfl⟩
  | cons f l ih =>
    obtain ⟨W1, c1, h1, h2⟩ := round_returns (epsilon := epsilon) hp hm1 f (fun g hg => hs g (by simp at hg; simp [hg])) (hok f (by simp)) w W hW c
    obtain ⟨W2, c2, h3⟩ := ih (fun g hg => hs g (by simp [hg])) (fun g hg => hok g (by simp [hg])) W1 h2 c1
    refine ⟨W2, c2, ?_⟩
    unfold roundsC
    rw [h1]
    exact h3

/-- C123: with the rate 0 and several processes, if the initial model can generate one trace of the given set and the sampling succeeds, the learning returns a model; with
`epsilon > 0` also without bounds (`N`). -/
theorem learning_returns (hp : 1 < processes) (hs : Sampled samples) (hok : ∀ f ∈ samples, ∀ M S, ∃ T, f M S = .ok T ∧ T.type = some 1)
    (hn : M.actions.Nodup) (hM : M.Stochastic) (ho : ∀ w ∈ S.sequences, w.length % 2 = 1) (hS : S.Countable) (hty : S.type = some 1)
    (w : List L) (hw : w ∈ S.sequences) (hl : M.lik w ≠ 0) (h0 : 0 < maxIt0) :
    (0 < maxIt → ∃ W c, fitRounds processes epsilon maxIt0 maxIt (.const 0) samples M S = .ok (W, c)) ∧
    (0 < epsilon → ∃ N W c, ∀ maxIt, N ≤ maxIt → fitRounds processes epsilon maxIt0 maxIt (.const 0) samples M S = .ok (W, c)) := by
  have key : ∀ maxIt, 0 < maxIt → ∃ W c, fitRounds processes epsilon maxIt0 maxIt (.const 0) samples M S = .ok (W, c) := by
    intro maxIt hm
    obtain ⟨st, hst⟩ := M.fit_total processes hp S epsilon maxIt0 hn hM ho hS.1.1 hS.2.1 w hw hl
    obtain ⟨W, c, h⟩ := roundsC_returns (epsilon := epsilon) hp hm hs hok w (⟨[st.h], 0, S⟩ : Learning ℝ L n) ⟨⟨st.h, rfl,
      by rw [(M.fit_structure _ _ _ _ hn ho _ hst).1]; exact hn, (M.fit_stochastic _ _ _ _ hn hM ho _ hst).1,
      (M.fit_possible _ _ _ _ hn hM ho hS.1.1 hS.2.1 _ hst w hw).1 hl⟩, ho, hty, hS.1, hS.2.1, hw⟩ (0 + st.counter)
    refine ⟨W, c, ?_⟩
    show ((trainC processes epsilon maxIt0 S M >>= fun r => Except.ok ([M].set 0 r.1, 0, r.2)) >>= fun q : List (MDP ℝ L n) × ℕ × ℕ => _) = _
    rw [trainC_of _ _ _ h0 _ _ _ hst]
    exact h
  refine ⟨key maxIt, fun he => ?_⟩
  obtain ⟨N, r, h⟩ := learning_ends (processes := processes) (maxIt0 := maxIt0) (lr := .const 0) he hs hn hM ho hS.1.1 hS.2.1
  obtain ⟨W, c, h1⟩ := key (N + 1) (by omega)
  refine ⟨N, W, c, fun maxIt hN => ?_⟩
  rw [h _ hN, ← h (N + 1) (by omega), h1]

end BaumWelch

/-! ### An instance -/

theorem half_stochastic : half.Stochastic ∧ half.actions.Nodup := by
  refine ⟨⟨?_, ?_, ?_, ?_⟩, by simp [half]⟩
  · intro s; fin_cases s <;> simp [half]
  · simp [half, Fin.sum_univ_succ]
  · intro s i s'
    fin_cases s <;> fin_cases i <;> fin_cases s' <;> simp [half]
  · intro s i
    left
    fin_cases s <;> fin_cases i <;> simp [half, Fin.sum_univ_succ] <;> norm_num

theorem half_possible : half.lik [0, 9, 1] ≠ 0 := by
  obtain ⟨w, hw, _⟩ := half_work
  intro h0
  have := (half.bw_step_outcome 2 ⟨[[0, 9, 1]], [1], false, some 1⟩ half_stochastic.2 (by simp) rfl).2.1 ⟨by norm_num, by simpa using h0⟩
  unfold stepMDP workMDP at this
  have hmap : ([(([0, 9, 1] : List ℕ), 1)].mapM (fun p : List ℕ × ℕ => BW.processWorkMDP half p.1 p.2)) = .ok [some w] := by
    simp only [List.mapM_cons, List.mapM_nil, hw]
    rfl
  change (do let temp ← (do let res ← [(([0, 9, 1] : List ℕ), 1)].mapM (fun p : List ℕ × ℕ => BW.processWorkMDP half p.1 p.2); BW.collect .valueError 2 res); _) = _ at this
  rw [hmap] at this
  exact absurd this (by intro h; cases h)

/-- Non-vacuity, and the violation on an instance: `max_it = 1`, two rounds, each of which samples one trace. The learning returns, after at least 3 iterations, also without
bounds for the trainings of the rounds. -/
theorem half_rounds : ∃ N W c, 3 ≤ c ∧ ∀ maxIt, N ≤ maxIt →
    fitRounds 2 (1/100) 1 maxIt (.const 0) [fun _ _ => .ok ⟨[[0, 9, 0]], [1], false, some 1⟩, fun _ _ => .ok ⟨[[0, 9, 1]], [1], false, some 1⟩] half
      ⟨[[0, 9, 1]], [1], false, some 1⟩ = .ok (W, c) := by
  obtain ⟨h1, h2⟩ := half_stochastic
  obtain ⟨N, W, c, h⟩ := (learning_returns (processes := 2) (epsilon := 1/100) (maxIt0 := 1) (maxIt := 1) (M := half) (S := ⟨[[0, 9, 1]], [1], false, some 1⟩)
    (samples := [fun _ _ => .ok ⟨[[0, 9, 0]], [1], false, some 1⟩, fun _ _ => .ok ⟨[[0, 9, 1]], [1], false, some 1⟩]) (by norm_num)
    (by intro f hf M S T hT
        simp only [List.mem_cons, List.not_mem_nil, or_false] at hf
        rcases hf with rfl | rfl <;> (injection hT with hT; subst hT; simp))
    (by intro f hf M S
        simp only [List.mem_cons, List.not_mem_nil, or_false] at hf
        rcases hf with rfl | rfl <;> exact ⟨_, rfl, rfl⟩)
    h2 h1 (by simp) ⟨⟨rfl, by simp⟩, by simp, rfl⟩ rfl [0, 9, 1] (by simp) half_possible (by norm_num)).2 (by norm_num)
  refine ⟨N, W, c, ?_, h⟩
  obtain ⟨k0, a1, a2, a3, a4⟩ := rounds_bounds_partial W c (h N le_rfl)
  simp only [List.length_cons, List.length_nil] at a3
  omega

end Jajapy.Active
