import Verif.Props.Loop
import Verif.Model.MDP
import Verif.Model.CTMC
import Verif.Model.GoHMM

/-!
C104: multiplying all the multiplicities of a training set by the same number does not change what is learnt: the iterations give the same models, their
log-likelihoods are multiplied by that number, and so is the tolerance that gives the same number of iterations.
-/

set_option linter.unusedSectionVars false

namespace Jajapy

open Finset BW

/-- The set `T` is the set `S` with every multiplicity multiplied by `k`. -/
def TSet.Repeats {α : Type} (k : ℕ) (S T : TSet α) : Prop :=
  T.sequences = S.sequences ∧ T.times = S.times.map (fun t => k * t) ∧ T.type = S.type

theorem TSet.Repeats.zip {α : Type} {k : ℕ} {S T : TSet α} (h : TSet.Repeats k S T) :
    T.sequences.zip T.times = (S.sequences.zip S.times).map (fun p => (p.1, k * p.2)) := by
  rw [h.1, h.2.1, List.zip_map_right]
  rfl

/-- The multiplicities of the traces are multiplied. -/
theorem TSet.Repeats.mult {α : Type} [DecidableEq α] {k : ℕ} {S T : TSet α} (h : TSet.Repeats k S T) (w : List α) : T.mult w = k * S.mult w := by
  unfold TSet.mult
  rw [h.zip]
  induction S.sequences.zip S.times with
  | nil => simp
  | cons p l ih =>
    by_cases hp : p.1 = w
    · simp only [List.map_cons, List.filter_cons, hp, decide_true, if_true, List.sum_cons] at ih ⊢
      rw [ih, Nat.mul_add]
    · simp only [List.map_cons, List.filter_cons, hp, decide_false, Bool.false_eq_true, if_false] at ih ⊢
      exact ih

theorem TSet.Repeats.sum {α : Type} {k : ℕ} {S T : TSet α} (h : TSet.Repeats k S T) : T.times.sum = k * S.times.sum := by
  rw [h.2.1, List.sum_map_mul_left, List.map_id']

namespace BW

section
variable {K O : Type} {n : ℕ} [Field K]

theorem visits_mul (φ : O → K) (k c : K) (al be : List (Fin n → K)) (os : List O) (s : Fin n) :
    visits φ (k * c) al be os s = k * visits φ c al be os s := by
  unfold visits
  rw [← List.sum_map_mul_left]
  refine congrArg List.sum (List.map_congr_left (fun x _ => ?_))
  ring

theorem uses_mul (tau : Fin n → Fin n → O → K) (φ : O → K) (k c : K) (al be : List (Fin n → K)) (os : List O) (s ss : Fin n) :
    uses tau φ (k * c) al be os s ss = k * uses tau φ c al be os s ss := by
  unfold uses
  rw [← List.sum_map_mul_left]
  refine congrArg List.sum (List.map_congr_left (fun x _ => ?_))
  ring

theorem visits_mul' (φ : O → K) (k c : K) (al be : List (Fin n → K)) (os : List O) :
    visits φ (k * c) al be os = fun s => k * visits φ c al be os s := funext (fun s => visits_mul φ k c al be os s)

theorem uses_mul' (tau : Fin n → Fin n → O → K) (φ : O → K) (k c : K) (al be : List (Fin n → K)) (os : List O) :
    uses tau φ (k * c) al be os = fun s ss => k * uses tau φ c al be os s ss := funext (fun s => funext (fun ss => uses_mul tau φ k c al be os s ss))

end

theorem collect_map {R R' : Type} (f : R → R') (e : Err) (processes : ℕ) (l : List (Option R)) :
    collect e processes (l.map (Option.map f)) = (collect e processes l).map (List.map f) := by
  have h1 : (l.map (Option.map f)).filterMap id = (l.filterMap id).map f := by
    rw [List.filterMap_map, List.map_filterMap]
    rfl
  have h2 : (l.map (Option.map f)).any Option.isNone = l.any Option.isNone := by
    rw [List.any_map]
    refine congrArg (fun g => l.any g) (funext (fun x => ?_))
    cases x <;> rfl
  unfold collect
  rw [h1, h2]
  cases l.filterMap id <;> split_ifs <;> rfl

theorem mapM_map {A B C : Type} (F : A → Py B) (f : B → C) (l : List A) :
    l.mapM (fun x => (F x).map f) = (l.mapM F).map (List.map f) := by
  induction l with
  | nil => rfl
  | cons x l ih =>
    rw [List.mapM_cons, List.mapM_cons, ih]
    cases F x with
    | error e => rfl
    | ok y => cases l.mapM F <;> rfl

theorem logLik_mul {W : Type} (k : ℕ) (f : W → ℝ) (t : W → ℕ) (l : List W) :
    logLik (l.map (fun w => (f w, k * t w))) = k * logLik (l.map (fun w => (f w, t w))) := by
  unfold logLik
  rw [List.map_map, List.map_map, ← List.sum_map_mul_left]
  refine congrArg List.sum (List.map_congr_left (fun w _ => ?_))
  simp only [Function.comp_apply, Nat.cast_mul]
  ring

/-- The log-likelihood of the last iteration is multiplied by `k`. -/
noncomputable def LoopState.times {H : Type} (k : ℝ) (st : LoopState H) : LoopState H := { st with ll := st.ll.map (k * ·) }

/-- If one iteration gives the same model and `k` times the log-likelihood, so does the whole learning, with `k` times the tolerance. -/
theorem fit_mul {H : Type} (k : ℝ) (hk : 0 < k) (step step' : H → Py (H × ℝ)) (hs : ∀ h, step' h = (step h).map (fun r => (r.1, k * r.2)))
    (epsilon : ℝ) (maxIt : ℕ) (h : H) : BW.fit step' (k * epsilon) maxIt h = (BW.fit step epsilon maxIt h).map (LoopState.times k) := by
  have key : ∀ fuel (st : LoopState H), loop step' (k * epsilon) fuel (st.times k) = (loop step epsilon fuel st).map (LoopState.times k) := by
    intro fuel
    induction fuel with
    | zero => intro st; rfl
    | succ f ih =>
      intro st
      unfold loop
      show (step' st.h >>= _) = _
      rw [hs]
      cases e : step st.h with
      | error e => rfl
      | ok r =>
        obtain ⟨h', cur⟩ := r
        simp only [bind, Except.bind, Except.map]
        have hst := ih ⟨h', st.counter + 1, some cur⟩
        cases hl : st.ll with
        | none =>
          simp only [LoopState.times, hl, Option.map_none]
          exact hst
        | some prev =>
          simp only [LoopState.times, hl, Option.map_some]
          have hiff : k * cur - k * prev < k * epsilon ↔ cur - prev < epsilon := by
            rw [← mul_sub]
            exact mul_lt_mul_iff_right₀ hk
          by_cases hc : cur - prev < epsilon
          · rw [if_pos (hiff.2 hc), if_pos hc]
            rfl
          · rw [if_neg (fun h => hc (hiff.1 h)), if_neg hc]
            exact hst
  exact key maxIt ⟨h, 0, none⟩

end BW

/-! ### The log-likelihood of a set -/

theorem sum_times (k : ℝ) (l : List ℝ) : (l.map (k * ·)).sum = k * l.sum := by
  induction l with
  | nil => simp
  | cons x l ih => rw [List.map_cons, List.sum_cons, List.sum_cons, ih, mul_add]

theorem keepResult_mul (k : ℝ) (hk : k ≠ 0) (l : List (Option ℝ)) :
    (l.map (Option.map (k * ·))).filterMap Iface.keepResult = (l.filterMap Iface.keepResult).map (k * ·) := by
  induction l with
  | nil => rfl
  | cons x l ih =>
    cases x with
    | none =>
      rw [List.map_cons, List.filterMap_cons_none rfl, List.filterMap_cons_none rfl]
      exact ih
    | some y =>
      by_cases hy : y = 0
      · subst hy
        rw [List.map_cons, List.filterMap_cons_none (by simp [Iface.keepResult]), List.filterMap_cons_none (by simp [Iface.keepResult])]
        exact ih
      · rw [List.map_cons, List.filterMap_cons_some (b := k * y) (by simp [Iface.keepResult, hy, hk]),
          List.filterMap_cons_some (b := y) (by simp [Iface.keepResult, hy]), List.map_cons, ih]

/-- C104: `logLikelihood` of an MC, an HMM, a GoHMM or a CTMC on untimed traces is the same on the repeated set. -/
theorem Iface.logLikelihood_repeats {O : Type} {n : ℕ} (M : Iface ℝ O n) (cpus : ℕ) {k : ℕ} (hk : 0 < k) {S T : TSet O} (h : TSet.Repeats k S T) :
    M.logLikelihoodMultiproc cpus T = M.logLikelihoodMultiproc cpus S := by
  have hk' : (k : ℝ) ≠ 0 := Nat.cast_ne_zero.2 hk.ne'
  have hm : (T.sequences.zip T.times).mapM (fun p => M.computeAlphas p.1 p.2) =
      ((S.sequences.zip S.times).mapM (fun p => M.computeAlphas p.1 p.2)).map (List.map (Option.map ((k : ℝ) * ·))) := by
    rw [← mapM_map, h.zip, List.mapM_map]
    refine congrArg (fun F => List.mapM F _) (funext (fun p => ?_))
    simp only [Function.comp_apply, Iface.computeAlphas]
    cases M.seqProb p.1 with
    | error e => rfl
    | ok x =>
      simp only [bind, Except.bind, pure, Except.pure, Except.map]
      split_ifs
      · simp only [Option.map_some, Nat.cast_mul]
        congr 2
        ring
      · rfl
  unfold Iface.logLikelihoodMultiproc
  rw [hm, h.sum]
  split_ifs
  · rfl
  · cases (S.sequences.zip S.times).mapM (fun p => M.computeAlphas p.1 p.2) with
    | error e => rfl
    | ok res =>
      simp only [bind, Except.bind, Except.map, pure, Except.pure, keepResult_mul _ hk', sum_times, mul_eq_zero, hk', false_or,
        Nat.cast_mul, mul_div_mul_left _ _ hk']

/-- C104: `logLikelihood` of a CTMC on timed traces. -/
theorem CTMC.logLikelihoodTimed_repeats {L : Type} [DecidableEq L] {n : ℕ} (M : CTMC ℝ L n) (cpus : ℕ) {k : ℕ} (hk : 0 < k) {S T : TSet (Sym L)}
    (h : TSet.Repeats k S T) : M.logLikelihoodTimed cpus T = M.logLikelihoodTimed cpus S := by
  have hk' : (k : ℝ) ≠ 0 := Nat.cast_ne_zero.2 hk.ne'
  have hm : (T.sequences.zip T.times).mapM (fun p => M.computeAlphasTimed p.1 p.2) =
      ((S.sequences.zip S.times).mapM (fun p => M.computeAlphasTimed p.1 p.2)).map (List.map (Option.map ((k : ℝ) * ·))) := by
    rw [← mapM_map, h.zip, List.mapM_map]
    refine congrArg (fun F => List.mapM F _) (funext (fun p => ?_))
    simp only [Function.comp_apply, CTMC.computeAlphasTimed]
    cases M.timedSum p.1 with
    | error e => rfl
    | ok x =>
      simp only [bind, Except.bind, pure, Except.pure, Except.map]
      split_ifs
      · simp only [Option.map_some, Nat.cast_mul]
        congr 2
        ring
      · rfl
  unfold CTMC.logLikelihoodTimed
  rw [hm, h.sum]
  split_ifs
  · rfl
  · cases (S.sequences.zip S.times).mapM (fun p => M.computeAlphasTimed p.1 p.2) with
    | error e => rfl
    | ok res =>
      simp only [bind, Except.bind, Except.map, pure, Except.pure, keepResult_mul _ hk', sum_times, Nat.cast_mul,
        mul_div_mul_left _ _ hk', List.map_eq_nil_iff]

/-- C104: `logLikelihood` of an MDP. -/
theorem MDP.logLikelihood_repeats {L : Type} [DecidableEq L] {n : ℕ} (M : MDP ℝ L n) (cpus : ℕ) {k : ℕ} (hk : 0 < k) {S T : TSet L}
    (h : TSet.Repeats k S T) : M.logLikelihoodMultiproc cpus T = M.logLikelihoodMultiproc cpus S := by
  have hk' : (k : ℝ) ≠ 0 := Nat.cast_ne_zero.2 hk.ne'
  have hm : (T.sequences.zip T.times).mapM (fun p => M.computeAlphas p.1 p.2) =
      ((S.sequences.zip S.times).mapM (fun p => M.computeAlphas p.1 p.2)).map (List.map ((k : ℝ) * ·)) := by
    rw [← mapM_map, h.zip, List.mapM_map]
    refine congrArg (fun F => List.mapM F _) (funext (fun p => ?_))
    simp only [Function.comp_apply, MDP.computeAlphas]
    cases M.seqProb p.1 with
    | error e => rfl
    | ok x =>
      simp only [bind, Except.bind, pure, Except.pure]
      split_ifs
      · simp [Except.map]
      · rfl
      · simp only [Except.map, Nat.cast_mul]
        congr 1
        ring
  unfold MDP.logLikelihoodMultiproc
  rw [hm, h.sum]
  by_cases hc : cpus < 2
  · rw [if_pos hc, if_pos hc]
  · rw [if_neg hc, if_neg hc]
    cases (S.sequences.zip S.times).mapM (fun p => M.computeAlphas p.1 p.2) with
    | error e => rfl
    | ok res =>
      have hf : ∀ l : List ℝ, (l.map ((k : ℝ) * ·)).filter (fun x => decide (x ≠ 0)) = (l.filter (fun x => decide (x ≠ 0))).map ((k : ℝ) * ·) := by
        intro l
        induction l with
        | nil => rfl
        | cons x l ih =>
          rw [List.map_cons, List.filter_cons, List.filter_cons, ih]
          by_cases hx : x = 0 <;> simp [hx, hk']
      simp only [bind, Except.bind, Except.map, pure, Except.pure, hf, sum_times, Nat.cast_mul, mul_div_mul_left _ _ hk', mul_eq_zero, hk.ne', false_or]

/-! ### MC -/

namespace MC

variable {L : Type} [DecidableEq L] {n : ℕ}

theorem step_repeats (processes : ℕ) {k : ℕ} (hk : 0 < k) {S T : TSet L} (h : TSet.Repeats k S T) (M : MC ℝ L n) :
    stepMC processes T M = (stepMC processes S M).map (fun r => (r.1, (k : ℝ) * r.2)) := by
  have hk' : (k : ℝ) ≠ 0 := Nat.cast_ne_zero.2 hk.ne'
  have hw : workMC processes T M = (workMC processes S M).map
      (List.map (fun w => { w with den := fun s => (k : ℝ) * w.den s, num := fun s ss => (k : ℝ) * w.num s ss, times := k * w.times })) := by
    unfold workMC
    rw [← collect_map, h.zip, List.map_map, List.map_map]
    refine congrArg _ (List.map_congr_left (fun p _ => ?_))
    simp only [Function.comp_apply, processWorkMC]
    split_ifs with hp
    · rfl
    · simp only [Option.map_some, Nat.cast_mul, mul_div_assoc, visits_mul', uses_mul']
  unfold stepMC
  rw [hw]
  cases workMC processes S M with
  | error e => rfl
  | ok temp =>
    simp only [bind, Except.bind, Except.map, pure, Except.pure, List.map_map, Function.comp_def]
    rw [logLik_mul]
    refine congrArg (fun x => Except.ok (x, _)) ?_
    unfold updateMC
    simp only [List.map_map, Function.comp_def, List.sum_map_mul_left, mul_eq_zero, hk', false_or, mul_div_mul_left _ _ hk']

/-- C104, MC: the learning on the repeated set is the learning on the set. -/
theorem fit_repeats (processes : ℕ) {k : ℕ} (hk : 0 < k) {S T : TSet L} (h : TSet.Repeats k S T) (epsilon : ℝ) (maxIt : ℕ) (M : MC ℝ L n) :
    BW.fit (stepMC processes T) (k * epsilon) maxIt M = (BW.fit (stepMC processes S) epsilon maxIt M).map (LoopState.times k) :=
  fit_mul k (Nat.cast_pos.2 hk) _ _ (step_repeats processes hk h) epsilon maxIt M

end MC

/-! ### HMM -/

namespace HMM

variable {O : Type} [DecidableEq O] {n : ℕ}

theorem step_repeats (processes : ℕ) {k : ℕ} (hk : 0 < k) {S T : TSet O} (h : TSet.Repeats k S T) (M : HMM ℝ O n) :
    stepHMM processes T M = (stepHMM processes S M).map (fun r => (r.1, (k : ℝ) * r.2)) := by
  have hk' : (k : ℝ) ≠ 0 := Nat.cast_ne_zero.2 hk.ne'
  have hw : workHMM processes T M = (workHMM processes S M).map
      (List.map (fun w => { den := fun s => (k : ℝ) * w.den s, numA := fun s ss => (k : ℝ) * w.numA s ss, numB := fun s i => (k : ℝ) * w.numB s i,
                            proba := w.proba, times := k * w.times, numInit := fun s => (k : ℝ) * w.numInit s })) := by
    unfold workHMM
    rw [← collect_map, h.zip, List.map_map, List.map_map]
    refine congrArg _ (List.map_congr_left (fun p _ => ?_))
    simp only [Function.comp_apply, processWorkHMM]
    split_ifs with hp
    · rfl
    · simp only [Option.map_some, Nat.cast_mul, mul_div_assoc, visits_mul', uses_mul']
      congr 2
      funext s
      ring
  unfold stepHMM
  rw [hw]
  cases workHMM processes S M with
  | error e => rfl
  | ok temp =>
    simp only [bind, Except.bind, Except.map, pure, Except.pure, List.map_map, Function.comp_def]
    rw [logLik_mul]
    refine congrArg (fun x => Except.ok (x, _)) ?_
    unfold updateHMM
    simp only [List.map_map, Function.comp_def, List.sum_map_mul_left, mul_eq_zero, hk', false_or, mul_div_mul_left _ _ hk', ← Finset.mul_sum]

/-- C104, HMM. -/
theorem fit_repeats (processes : ℕ) {k : ℕ} (hk : 0 < k) {S T : TSet O} (h : TSet.Repeats k S T) (epsilon : ℝ) (maxIt : ℕ) (M : HMM ℝ O n) :
    BW.fit (stepHMM processes T) (k * epsilon) maxIt M = (BW.fit (stepHMM processes S) epsilon maxIt M).map (LoopState.times k) :=
  fit_mul k (Nat.cast_pos.2 hk) _ _ (step_repeats processes hk h) epsilon maxIt M

end HMM

/-! ### MDP -/

namespace MDP

variable {L : Type} [DecidableEq L] {n : ℕ}

theorem step_repeats (processes : ℕ) {k : ℕ} (hk : 0 < k) {S T : TSet L} (h : TSet.Repeats k S T) (M : MDP ℝ L n) :
    stepMDP processes T M = (stepMDP processes S M).map (fun r => (r.1, (k : ℝ) * r.2)) := by
  have hk' : (k : ℝ) ≠ 0 := Nat.cast_ne_zero.2 hk.ne'
  have hw : workMDP processes T M = (workMDP processes S M).map
      (List.map (fun w => { den := fun s i => (k : ℝ) * w.den s i, num := fun s i ss => (k : ℝ) * w.num s i ss, proba := w.proba, times := k * w.times })) := by
    have hm : (T.sequences.zip T.times).mapM (fun p => processWorkMDP M p.1 p.2) =
        ((S.sequences.zip S.times).mapM (fun p => processWorkMDP M p.1 p.2)).map (List.map (Option.map
          (fun w => { den := fun s i => (k : ℝ) * w.den s i, num := fun s i ss => (k : ℝ) * w.num s i ss, proba := w.proba, times := k * w.times }))) := by
      rw [← mapM_map, h.zip, List.mapM_map]
      refine congrArg (fun F => List.mapM F _) (funext (fun p => ?_))
      simp only [Function.comp_apply, processWorkMDP]
      cases p.1.getLast? with
      | none => rfl
      | some last =>
        simp only [Except.map]
        split_ifs with hp
        · rfl
        · simp only [Option.map_some, Nat.cast_mul, mul_div_assoc, visits_mul', uses_mul']
    unfold workMDP
    rw [hm]
    cases (S.sequences.zip S.times).mapM (fun p => processWorkMDP M p.1 p.2) with
    | error e => rfl
    | ok res => exact collect_map _ _ _ _
  unfold stepMDP
  rw [hw]
  cases workMDP processes S M with
  | error e => rfl
  | ok temp =>
    simp only [bind, Except.bind, Except.map, pure, Except.pure, List.map_map, Function.comp_def]
    rw [logLik_mul]
    refine congrArg (fun x => Except.ok (x, _)) ?_
    unfold updateMDP
    simp only [List.map_map, Function.comp_def, List.sum_map_mul_left, mul_eq_zero, hk', false_or, mul_div_mul_left _ _ hk']

/-- C104, MDP. -/
theorem fit_repeats (processes : ℕ) {k : ℕ} (hk : 0 < k) {S T : TSet L} (h : TSet.Repeats k S T) (epsilon : ℝ) (maxIt : ℕ) (M : MDP ℝ L n) :
    BW.fit (stepMDP processes T) (k * epsilon) maxIt M = (BW.fit (stepMDP processes S) epsilon maxIt M).map (LoopState.times k) :=
  fit_mul k (Nat.cast_pos.2 hk) _ _ (step_repeats processes hk h) epsilon maxIt M

end MDP

/-! ### CTMC -/

namespace CTMC

variable {L : Type} [DecidableEq L] {n : ℕ}

/-- A result of a worker for a trace with `k` times its multiplicity. -/
noncomputable def workTimes (k : ℕ) (w : WorkCTMC n) : WorkCTMC n :=
  { w with den := fun s => (k : ℝ) * w.den s, num := fun s ss => (k : ℝ) * w.num s ss, times := k * w.times }

theorem stepOf_repeats (processes : ℕ) {k : ℕ} (hk : 0 < k) (M : CTMC ℝ L n) (fixed : Fin n → Fin n → Bool) (r r' : Py (List (Option (WorkCTMC n))))
    (h : r' = r.map (List.map (Option.map (workTimes k)))) : stepOf processes M fixed r' = (stepOf processes M fixed r).map (fun r => (r.1, (k : ℝ) * r.2)) := by
  have hk' : (k : ℝ) ≠ 0 := Nat.cast_ne_zero.2 hk.ne'
  subst h
  cases r with
  | error e => rfl
  | ok res =>
    unfold stepOf
    simp only [bind, Except.bind, Except.map]
    rw [collect_map]
    cases collect .typeError processes res with
    | error e => rfl
    | ok temp =>
      simp only [Except.map, pure, Except.pure, List.map_map, Function.comp_def, workTimes]
      rw [logLik_mul]
      refine congrArg (fun x => Except.ok (x, _)) ?_
      unfold updateCTMC
      simp only [workTimes, List.map_map, Function.comp_def, List.sum_map_mul_left, mul_eq_zero, hk', false_or, mul_div_mul_left _ _ hk']

theorem processWorkTimed_mul (M : CTMC ℝ L n) (fixed : Fin n → Fin n → Bool) (seq : List (Sym L)) (k t : ℕ) :
    processWorkTimed M fixed seq (k * t) = (processWorkTimed M fixed seq t).map (Option.map (workTimes k)) := by
  unfold processWorkTimed
  split_ifs with h1 h2
  · rfl
  · cases splitTimed seq <;> rfl
  · cases splitTimed seq with
    | error e => rfl
    | ok x =>
      obtain ⟨steps, last⟩ := x
      dsimp only
      split_ifs with hp
      · rfl
      · simp only [Except.map, Option.map_some, Nat.cast_mul, mul_div_assoc, visits_mul', uses_mul', workTimes, mul_ite, mul_zero]

theorem processWorkUntimed_mul (M : CTMC ℝ L n) (fixed : Fin n → Fin n → Bool) (seq : List L) (k t : ℕ) :
    processWorkUntimed M fixed seq (k * t) = (processWorkUntimed M fixed seq t).map (Option.map (workTimes k)) := by
  unfold processWorkUntimed
  split_ifs with h1
  · rfl
  · dsimp only
    split_ifs with hp
    · rfl
    · simp only [Except.map, Option.map_some, Nat.cast_mul, mul_div_assoc, visits_mul', uses_mul', workTimes, mul_ite, mul_zero]

/-- C104, CTMC, timed traces. -/
theorem fit_repeats (processes : ℕ) {k : ℕ} (hk : 0 < k) (fixed : Fin n → Fin n → Bool) {S T : TSet (Sym L)} (h : TSet.Repeats k S T) (epsilon : ℝ)
    (maxIt : ℕ) (M : CTMC ℝ L n) :
    BW.fit (stepTimed processes fixed T) (k * epsilon) maxIt M = (BW.fit (stepTimed processes fixed S) epsilon maxIt M).map (LoopState.times k) := by
  refine fit_mul k (Nat.cast_pos.2 hk) _ _ (fun M => stepOf_repeats processes hk M fixed _ _ ?_) epsilon maxIt M
  rw [← mapM_map, h.zip, List.mapM_map]
  exact congrArg (fun F => List.mapM F _) (funext (fun p => processWorkTimed_mul M fixed p.1 k p.2))

/-- C104, CTMC, untimed traces. -/
theorem fit_repeats_untimed (processes : ℕ) {k : ℕ} (hk : 0 < k) (fixed : Fin n → Fin n → Bool) {S T : TSet L} (h : TSet.Repeats k S T) (epsilon : ℝ)
    (maxIt : ℕ) (M : CTMC ℝ L n) :
    BW.fit (stepUntimed processes fixed T) (k * epsilon) maxIt M = (BW.fit (stepUntimed processes fixed S) epsilon maxIt M).map (LoopState.times k) := by
  refine fit_mul k (Nat.cast_pos.2 hk) _ _ (fun M => stepOf_repeats processes hk M fixed _ _ ?_) epsilon maxIt M
  rw [← mapM_map, h.zip, List.mapM_map]
  exact congrArg (fun F => List.mapM F _) (funext (fun p => processWorkUntimed_mul M fixed p.1 k p.2))

end CTMC

/-! ### GoHMM -/

namespace GoHMM

variable {n d : ℕ}

theorem step_repeats (processes : ℕ) {k : ℕ} (hk : 0 < k) {S T : TSet (Fin d → ℝ)} (h : TSet.Repeats k S T) (M : GoHMM n d) :
    stepGoHMM processes T M = (stepGoHMM processes S M).map (fun r => (r.1, (k : ℝ) * r.2)) := by
  have hk' : (k : ℝ) ≠ 0 := Nat.cast_ne_zero.2 hk.ne'
  have hw : workGoHMM processes T M = (workGoHMM processes S M).map
      (List.map (fun w => { den := fun s => (k : ℝ) * w.den s, numA := fun s ss => (k : ℝ) * w.numA s ss, numMu := fun s i => (k : ℝ) * w.numMu s i,
                            numVa := fun s i => (k : ℝ) * w.numVa s i, proba := w.proba, times := k * w.times, numInit := fun s => (k : ℝ) * w.numInit s })) := by
    unfold workGoHMM
    rw [← collect_map, h.zip, List.map_map, List.map_map]
    refine congrArg _ (List.map_congr_left (fun p _ => ?_))
    simp only [Function.comp_apply, processWorkGoHMM]
    split_ifs with hp
    · rfl
    · simp only [Option.map_some, Nat.cast_mul, mul_div_assoc, visits_mul', uses_mul']
      congr 2
      funext s
      ring
  unfold stepGoHMM
  rw [hw]
  cases workGoHMM processes S M with
  | error e => rfl
  | ok temp =>
    simp only [bind, Except.bind, Except.map, pure, Except.pure, List.map_map, Function.comp_def]
    rw [logLik_mul]
    refine congrArg (fun x => Except.ok (x, _)) ?_
    unfold updateGoHMM
    simp only [List.map_map, Function.comp_def, List.sum_map_mul_left, mul_eq_zero, hk', false_or, mul_div_mul_left _ _ hk', ← Finset.mul_sum]

/-- C104, GoHMM. -/
theorem fit_repeats (processes : ℕ) {k : ℕ} (hk : 0 < k) {S T : TSet (Fin d → ℝ)} (h : TSet.Repeats k S T) (epsilon : ℝ) (maxIt : ℕ) (M : GoHMM n d) :
    BW.fit (stepGoHMM processes T) (k * epsilon) maxIt M = (BW.fit (stepGoHMM processes S) epsilon maxIt M).map (LoopState.times k) :=
  fit_mul k (Nat.cast_pos.2 hk) _ _ (step_repeats processes hk h) epsilon maxIt M

end GoHMM

end Jajapy
