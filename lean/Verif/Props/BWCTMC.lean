import Verif.Props.CTMC
import Verif.Props.Loop

/-!
Properties C32-C34, C38, C40, C42, C58 and C60 of the Baum-Welch learner on continuous-time Markov chains. Timed traces
alternate observations and times and have at least one transition; `fixed s ss` says that the caller asked the learner to keep the rate of the transition from `s` to `ss`.
-/

set_option linter.unusedSectionVars false

namespace Jajapy

open Finset Spec BW

namespace CTMC

section timed
variable {L : Type} [DecidableEq L] {n : ℕ}

/-- The traces of the set are timed traces with at least one transition. -/
def TimedSet (S : TSet (Sym L)) : Prop := ∀ w ∈ S.sequences, IsTimed w ∧ 2 ≤ w.length

theorem density_beta (M : CTMC ℝ L n) (w : List (Sym L)) :
    M.density w = ∑ s, M.initialState s * beta0 M.rateStep (M.lastMask w) (timedSteps w) s := by
  unfold density; rw [totalWeight_eq]

/-- C32, timed CTMC: what a worker returns for a trace are its density, the expected time spent in each state and the
expected number of uses of each transition (0 for those that are fixed), and nothing if the trace is impossible. -/
theorem processWork_spec (M : CTMC ℝ L n) (fixed : Fin n → Fin n → Bool) (w : List (Sym L)) (hw : IsTimed w)
    (hl : 2 ≤ w.length) (t : ℕ) :
    processWorkTimed M fixed w t = .ok (if M.density w = 0 then none else some {
      den := fun s => t * expVisits M.initialState M.rateStep (M.lastMask w) (fun p => p.2) (timedSteps w) s
      num := fun s ss => if fixed s ss then 0
        else t * expUses M.initialState M.rateStep (M.lastMask w) (fun _ => 1) (timedSteps w) s ss
      proba := M.density w
      times := t }) := by
  rw [processWorkTimed_eq M fixed (w, t) hw hl]
  simp only [wkCT]
  congr 3
  congr 1
  · funext s; exact expVisits_eq _ _ _ _ _ _ _ (M.density_beta w) _
  · funext s ss
    split_ifs
    · rfl
    · exact expUses_eq _ _ _ _ _ _ _ _ (M.density_beta w) _

/-- The expected time spent in `s`, over the training set. -/
noncomputable def timeIn (M : CTMC ℝ L n) (S : TSet (Sym L)) (s : Fin n) : ℝ :=
  overSet S M.density (fun w => expVisits M.initialState M.rateStep (M.lastMask w) (fun p => p.2) (timedSteps w) s)

/-- The expected number of transitions from `s` to `ss`, over the training set. -/
noncomputable def jumps (M : CTMC ℝ L n) (S : TSet (Sym L)) (s ss : Fin n) : ℝ :=
  overSet S M.density (fun w => expUses M.initialState M.rateStep (M.lastMask w) (fun _ => 1) (timedSteps w) s ss)

theorem timeIn_eq (M : CTMC ℝ L n) (S : TSet (Sym L)) (s : Fin n) : M.timeIn S s = denCT M S s := by
  unfold timeIn denCT possCT overSet
  congr 1
  refine List.map_congr_left (fun x hx => ?_)
  exact (expVisits_eq _ _ _ _ _ _ _ (M.density_beta _) _).symm

theorem jumps_eq (M : CTMC ℝ L n) (S : TSet (Sym L)) (s ss : Fin n) : M.jumps S s ss = numCT M S s ss := by
  unfold jumps numCT possCT overSet
  congr 1
  refine List.map_congr_left (fun x hx => ?_)
  exact (expUses_eq _ _ _ _ _ _ _ _ (M.density_beta _) _).symm

/-- C58, timed CTMC: one iteration replaces every rate that is not fixed by the expected number of uses of the transition
divided by the expected time spent in its source, and keeps the rates of the states in which no time is spent, and reports
the log-density of the training set. A fixed rate is kept if time is spent in its source; otherwise it is doubled (C40). -/
theorem bw_update_spec (processes : ℕ) (fixed : Fin n → Fin n → Bool) (S : TSet (Sym L)) (M M' : CTMC ℝ L n) (ll : ℝ)
    (hS : TimedSet S) (h : stepTimed processes fixed S M = .ok (M', ll)) :
    M'.labelling = M.labelling ∧ M'.initialState = M.initialState ∧
    (∀ s ss, fixed s ss = false →
      M'.matrix s ss = if M.timeIn S s = 0 then M.matrix s ss else M.jumps S s ss / M.timeIn S s) ∧
    (∀ s ss, fixed s ss = true →
      M'.matrix s ss = if M.timeIn S s = 0 then 2 * M.matrix s ss else M.matrix s ss) ∧
    ll = overSet S M.density (fun w => Real.log (M.density w)) := by
  obtain ⟨h1, _, h3⟩ := stepTimed_ok _ _ _ _ _ _ hS h
  subst h1
  refine ⟨rfl, rfl, fun s ss hf => ?_, fun s ss hf => ?_, ?_⟩
  · rw [M.timeIn_eq, M.jumps_eq]
    simp only [newCT, hf]
    rfl
  · rw [M.timeIn_eq]
    simp only [newCT, hf]
    rfl
  · rw [h3]
    exact filter_sum_eq_overSet S _ _ _ _ (fun w hw => rfl) (fun w hw => rfl)

/-- When an iteration succeeds, and what it raises otherwise. -/
theorem bw_step_outcome (processes : ℕ) (fixed : Fin n → Fin n → Bool) (S : TSet (Sym L)) (M : CTMC ℝ L n)
    (hS : TimedSet S) (hlen : S.times.length = S.sequences.length) :
    ((1 < processes ∧ ∃ w ∈ S.sequences, M.density w ≠ 0) ∨
      (processes ≤ 1 ∧ S.sequences ≠ [] ∧ ∀ w ∈ S.sequences, M.density w ≠ 0) →
      ∃ r, stepTimed processes fixed S M = .ok r) ∧
    (1 < processes ∧ (∀ w ∈ S.sequences, M.density w = 0) → stepTimed processes fixed S M = .error .typeError) ∧
    (processes ≤ 1 ∧ (∃ w ∈ S.sequences, M.density w = 0) → stepTimed processes fixed S M = .error .typeError) := by
  classical
  obtain ⟨a1, a2, a3⟩ := collect_outcome .typeError processes S hlen M.density
    (fun x => if M.density x.1 = 0 then none else some (wkCT M fixed x)) (wkCT M fixed) (fun x hx => rfl)
  have hw := stepTimed_eq processes fixed S M hS
  unfold stepOf at hw
  simp only [bind, Except.bind] at hw
  refine ⟨fun h => ?_, fun h => ?_, fun h => ?_⟩
  · obtain ⟨r, hr⟩ := a1 h
    rw [hr] at hw
    exact ⟨_, hw⟩
  · rw [a2 h] at hw; exact hw
  · rw [a3 h] at hw; exact hw

/-- A trace with a single observation makes an iteration raise IndexError. -/
theorem bw_step_single (processes : ℕ) (fixed : Fin n → Fin n → Bool) (M : CTMC ℝ L n) (o : L) (t : ℕ) :
    stepTimed processes fixed { sequences := [[.obs o]], times := [t], floatTimes := false, type := some 4 } M
      = .error .indexError := rfl

/-! ### C33, C34 -/

/-- C33, one iteration: no negative rate appears. -/
theorem bw_step_valid (processes : ℕ) (fixed : Fin n → Fin n → Bool) (S : TSet (Sym L)) (M M' : CTMC ℝ L n) (ll : ℝ)
    (hM : M.Valid) (hS : TimedSet S) (hw : WaitsNonneg S) (h : stepTimed processes fixed S M = .ok (M', ll)) : M'.Valid := by
  obtain ⟨h1, _, _⟩ := stepTimed_ok _ _ _ _ _ _ hS h
  subst h1
  exact newCT_valid M hM fixed S hw

/-- C33: after any number of iterations the learned model is a CTMC. -/
theorem fit_valid (processes : ℕ) (fixed : Fin n → Fin n → Bool) (S : TSet (Sym L)) (epsilon : ℝ) (maxIt : ℕ) (M : CTMC ℝ L n)
    (hM : M.Valid) (hS : TimedSet S) (hw : WaitsNonneg S)
    (st : LoopState (CTMC ℝ L n)) (h : fit (stepTimed processes fixed S) epsilon maxIt M = .ok st) : st.h.Valid :=
  loop_invariant _ _ (fun M' : CTMC ℝ L n => M'.Valid)
    (fun M1 M2 ll i1 hs => M1.bw_step_valid _ _ _ _ _ i1 hS hw hs) _ _ _ hM h

/-- C34, one iteration: a transition of rate 0 keeps rate 0, fixed or not. -/
theorem bw_step_zero (processes : ℕ) (fixed : Fin n → Fin n → Bool) (S : TSet (Sym L)) (M M' : CTMC ℝ L n) (ll : ℝ)
    (hS : TimedSet S) (h : stepTimed processes fixed S M = .ok (M', ll)) (s ss : Fin n) (h0 : M.matrix s ss = 0) :
    M'.matrix s ss = 0 := by
  obtain ⟨h1, _, _⟩ := stepTimed_ok _ _ _ _ _ _ hS h
  subst h1
  simp only [newCT, h0, numCT_zero M S s ss h0]
  split_ifs <;> simp

/-- C34: after any number of iterations the labels and the initial distribution are the same, and no transition has
appeared. -/
theorem fit_structure (processes : ℕ) (fixed : Fin n → Fin n → Bool) (S : TSet (Sym L)) (epsilon : ℝ) (maxIt : ℕ)
    (M : CTMC ℝ L n) (hS : TimedSet S)
    (st : LoopState (CTMC ℝ L n)) (h : fit (stepTimed processes fixed S) epsilon maxIt M = .ok st) :
    st.h.labelling = M.labelling ∧ st.h.initialState = M.initialState ∧ ∀ s ss, M.matrix s ss = 0 → st.h.matrix s ss = 0 := by
  refine loop_invariant _ _ (fun M' : CTMC ℝ L n => M'.labelling = M.labelling ∧ M'.initialState = M.initialState ∧
    ∀ s ss, M.matrix s ss = 0 → M'.matrix s ss = 0) ?_ _ _ _ ⟨rfl, rfl, fun _ _ h => h⟩ h
  rintro M1 M2 ll ⟨i1, i2, i3⟩ hs
  obtain ⟨j1, j2, _⟩ := M1.bw_update_spec _ _ _ _ _ hS hs
  exact ⟨j1.trans i1, j2.trans i2, fun s ss h0 => M1.bw_step_zero _ _ _ _ _ hS hs s ss (i3 s ss h0)⟩

/-- The training set spends time in `s`: some path of positive density of some trace stays in `s` for a positive time. -/
def Visited (M : CTMC ℝ L n) (S : TSet (Sym L)) (s : Fin n) : Prop :=
  ∃ w ∈ S.sequences, ∃ p : Fin ((timedSteps w).length + 1) → Fin n,
    0 < pathWeight M.initialState M.rateStep (M.lastMask w) (timedSteps w) p ∧
    ∃ k : Fin (timedSteps w).length, p k.castSucc = s ∧ 0 < ((timedSteps w).get k).2

theorem path_nonneg (M : CTMC ℝ L n) (hM : M.Valid) (w : List (Sym L)) (p : Fin ((timedSteps w).length + 1) → Fin n) :
    0 ≤ pathWeight M.initialState M.rateStep (M.lastMask w) (timedSteps w) p :=
  mul_nonneg (mul_nonneg (hM.1 _) (Finset.prod_nonneg (fun _ _ => M.rateStep_nonneg hM.2 _ _ _))) (M.lastMask_nonneg _ _)

/-- The expected time in `s` is positive exactly when the training set spends time in `s`. -/
theorem timeIn_pos_iff (M : CTMC ℝ L n) (hM : M.Valid) (S : TSet (Sym L)) (hw : WaitsNonneg S)
    (hlen : S.times.length = S.sequences.length) (ht : ∀ t ∈ S.times, 1 ≤ t) (s : Fin n) :
    0 < M.timeIn S s ↔ M.Visited S s := by
  classical
  have hterm : ∀ w ∈ S.sequences, ∀ p : Fin ((timedSteps w).length + 1) → Fin n,
      0 ≤ ∑ k : Fin (timedSteps w).length, if p k.castSucc = s then ((timedSteps w).get k).2 else 0 := by
    intro w hw' p
    refine Finset.sum_nonneg (fun k _ => ?_)
    split_ifs
    · exact hw w hw' _ (List.get_mem _ _)
    · exact le_rfl
  constructor
  · intro h
    by_contra hv
    have : M.timeIn S s = 0 := by
      apply overSet_zero
      intro w hw'
      unfold expVisits
      rw [Finset.sum_eq_zero, zero_div]
      intro p _
      by_cases hp : 0 < pathWeight M.initialState M.rateStep (M.lastMask w) (timedSteps w) p
      · rw [Finset.sum_eq_zero, mul_zero]
        intro k _
        beta_reduce
        split_ifs with h1
        · have h2 := hw w hw' _ (List.get_mem (timedSteps w) k)
          rcases h2.eq_or_lt with h3 | h3
          · exact h3.symm
          · exact absurd ⟨w, hw', p, hp, k, h1, h3⟩ hv
        · rfl
      · rw [le_antisymm (not_lt.mp hp) (M.path_nonneg hM w p), zero_mul]
    rw [this] at h
    exact absurd h (lt_irrefl _)
  · rintro ⟨w, hw', p, hp, k, hk, hk'⟩
    have hd : 0 < M.density w :=
      lt_of_lt_of_le hp (Finset.single_le_sum (fun q _ => M.path_nonneg hM w q) (Finset.mem_univ p))
    obtain ⟨t, htm⟩ := mem_zip_of_mem S hlen w hw'
    unfold timeIn overSet
    refine sum_map_pos _ _ (fun x hx => ?_) (w, t) (List.mem_filter.mpr ⟨htm, by simpa using hd.ne'⟩) ?_
    · have hx' := (List.of_mem_zip (List.mem_filter.mp hx).1).1
      refine mul_nonneg (Nat.cast_nonneg _) (div_nonneg (Finset.sum_nonneg (fun q _ => ?_)) (M.density_nonneg hM x.1))
      exact mul_nonneg (M.path_nonneg hM _ q) (hterm _ hx' q)
    · refine mul_pos (by have := ht t (List.of_mem_zip htm).2; exact_mod_cast this) (div_pos ?_ hd)
      refine lt_of_lt_of_le (mul_pos hp ?_) (Finset.single_le_sum (fun q _ => mul_nonneg (M.path_nonneg hM w q) (hterm w hw' q))
        (Finset.mem_univ p))
      refine lt_of_lt_of_le ?_ (Finset.single_le_sum (fun j _ => ?_) (Finset.mem_univ k))
      · rw [if_pos hk]; exact hk'
      · split_ifs
        · exact hw w hw' _ (List.get_mem _ _)
        · exact le_rfl

/-- A transition that a path of positive density takes has a positive expected number of uses. -/
theorem jumps_pos (M : CTMC ℝ L n) (hM : M.Valid) (S : TSet (Sym L)) (hlen : S.times.length = S.sequences.length)
    (ht : ∀ t ∈ S.times, 1 ≤ t) (w : List (Sym L)) (hw' : w ∈ S.sequences) (p : Fin ((timedSteps w).length + 1) → Fin n)
    (hp : 0 < pathWeight M.initialState M.rateStep (M.lastMask w) (timedSteps w) p) (k : Fin (timedSteps w).length) :
    0 < M.jumps S (p k.castSucc) (p k.succ) := by
  classical
  have hterm : ∀ (w : List (Sym L)) (q : Fin ((timedSteps w).length + 1) → Fin n),
      0 ≤ ∑ j : Fin (timedSteps w).length, if q j.castSucc = p k.castSucc ∧ q j.succ = p k.succ then (1:ℝ) else 0 := by
    intro w q
    refine Finset.sum_nonneg (fun j _ => ?_)
    split_ifs <;> norm_num
  have hd : 0 < M.density w :=
    lt_of_lt_of_le hp (Finset.single_le_sum (fun q _ => M.path_nonneg hM w q) (Finset.mem_univ p))
  obtain ⟨t, htm⟩ := mem_zip_of_mem S hlen w hw'
  unfold jumps overSet
  refine sum_map_pos _ _ (fun x hx => ?_) (w, t) (List.mem_filter.mpr ⟨htm, by simpa using hd.ne'⟩) ?_
  · refine mul_nonneg (Nat.cast_nonneg _) (div_nonneg (Finset.sum_nonneg (fun q _ => ?_)) (M.density_nonneg hM x.1))
    exact mul_nonneg (M.path_nonneg hM _ q) (hterm _ q)
  · refine mul_pos (by have := ht t (List.of_mem_zip htm).2; exact_mod_cast this) (div_pos ?_ hd)
    refine lt_of_lt_of_le (mul_pos hp ?_) (Finset.single_le_sum (fun q _ => mul_nonneg (M.path_nonneg hM w q) (hterm w q))
      (Finset.mem_univ p))
    refine lt_of_lt_of_le ?_ (Finset.single_le_sum (fun j _ => ?_) (Finset.mem_univ k))
    · rw [if_pos ⟨rfl, rfl⟩]; exact one_pos
    · split_ifs <;> norm_num

/-- Being visited survives an iteration: the paths of positive density stay so. -/
theorem bw_step_visited (processes : ℕ) (fixed : Fin n → Fin n → Bool) (S : TSet (Sym L)) (M M' : CTMC ℝ L n) (ll : ℝ)
    (hM : M.Valid) (hS : TimedSet S) (hw : WaitsNonneg S) (hlen : S.times.length = S.sequences.length)
    (ht : ∀ t ∈ S.times, 1 ≤ t) (h : stepTimed processes fixed S M = .ok (M', ll)) (s : Fin n) (hv : M.Visited S s) :
    M'.Visited S s := by
  obtain ⟨w, hw', p, hp, k, hk⟩ := hv
  obtain ⟨u1, u2, u3, u4, _⟩ := M.bw_update_spec _ _ _ _ _ hS h
  refine ⟨w, hw', p, ?_, k, hk⟩
  have hj := M.jumps_pos hM S hlen ht w hw' p hp
  have hm : M'.lastMask w = M.lastMask w := by unfold lastMask; rw [u1]
  unfold pathWeight at hp ⊢
  rw [hm, u2]
  have h1 : 0 < M.lastMask w (p (Fin.last _)) := by
    rcases (M.lastMask_nonneg w (p (Fin.last _))).eq_or_lt with h | h
    · rw [← h, mul_zero] at hp; exact absurd hp (lt_irrefl _)
    · exact h
  have h2 := pos_of_mul_pos_left hp h1.le
  have h3 : 0 < M.initialState (p 0) := by
    rcases (hM.1 (p 0)).eq_or_lt with h | h
    · rw [← h, zero_mul] at h2; exact absurd h2 (lt_irrefl _)
    · exact h
  refine mul_pos (mul_pos h3 (Finset.prod_pos (fun j _ => ?_))) h1
  have h4 : M.rateStep (p j.castSucc) (p j.succ) ((timedSteps w).get j) ≠ 0 := by
    intro h0
    rw [Finset.prod_eq_zero (Finset.mem_univ j) h0, mul_zero] at h2
    exact absurd h2 (lt_irrefl _)
  unfold rateStep at h4 ⊢
  rw [u1]
  split_ifs at h4 ⊢ with hlab
  · refine mul_pos ?_ (Real.exp_pos _)
    have h5 : 0 < M.matrix (p j.castSucc) (p j.succ) :=
      lt_of_le_of_ne (hM.2 _ _) (Ne.symm (left_ne_zero_of_mul h4))
    have h6 : 0 ≤ M.timeIn S (p j.castSucc) := by rw [M.timeIn_eq]; exact denCT_nonneg M hM S hw _
    cases hf : fixed (p j.castSucc) (p j.succ) with
    | true =>
      rw [u4 _ _ hf]
      split_ifs
      · linarith
      · exact h5
    | false =>
      rw [u3 _ _ hf]
      split_ifs with h7
      · exact h5
      · exact div_pos (hj j) (lt_of_le_of_ne h6 (Ne.symm h7))
  · exact absurd rfl h4

/-- C34, one iteration: the rates of a state in which the training set spends no time are kept (unless they are fixed,
see C40). -/
theorem bw_step_unvisited (processes : ℕ) (fixed : Fin n → Fin n → Bool) (S : TSet (Sym L)) (M M' : CTMC ℝ L n) (ll : ℝ)
    (hM : M.Valid) (hS : TimedSet S) (hw : WaitsNonneg S) (hlen : S.times.length = S.sequences.length)
    (ht : ∀ t ∈ S.times, 1 ≤ t) (h : stepTimed processes fixed S M = .ok (M', ll)) (s : Fin n) (hv : ¬ M.Visited S s) (ss : Fin n)
    (hf : fixed s ss = false) : M'.matrix s ss = M.matrix s ss := by
  rw [(M.bw_update_spec _ _ _ _ _ hS h).2.2.1 s ss hf, if_pos]
  rw [← M.timeIn_pos_iff hM S hw hlen ht] at hv
  refine le_antisymm (not_lt.mp hv) ?_
  rw [M.timeIn_eq]
  exact denCT_nonneg M hM S hw _

/-! ### C38: the likelihood never decreases -/

/-- C38, one iteration: the log-density of the training set does not decrease, also when some rates are fixed, and exactly
the same traces are possible. -/
theorem bw_step_monotone (processes : ℕ) (fixed : Fin n → Fin n → Bool) (S : TSet (Sym L)) (M M' : CTMC ℝ L n) (ll : ℝ)
    (hM : M.Valid) (hS : TimedSet S) (hw : WaitsNonneg S) (hlen : S.times.length = S.sequences.length)
    (ht : ∀ t ∈ S.times, 1 ≤ t) (h : stepTimed processes fixed S M = .ok (M', ll)) :
    avgLogLik M.density S ≤ avgLogLik M'.density S ∧ (∀ w ∈ S.sequences, M.density w ≠ 0 ↔ M'.density w ≠ 0) ∧
    ll = S.times.sum * avgLogLik M.density S := by
  have hM' := M.bw_step_valid processes fixed S M' ll hM hS hw h
  have hz := M.bw_step_zero processes fixed S M' ll hS h
  obtain ⟨h1, _, h3⟩ := stepTimed_ok _ _ _ _ _ _ hS h
  subst h1
  have hl := M.density_nonneg hM
  have hl' := (newCT M fixed S).density_nonneg hM'
  obtain ⟨hpos, hg⟩ := newCT_gain M hM fixed S hw ht
  have hposs : ∀ w ∈ S.sequences, M.density w ≠ 0 ↔ (newCT M fixed S).density w ≠ 0 := by
    intro w hw
    constructor
    · intro h0
      obtain ⟨t, htm⟩ := mem_zip_of_mem S hlen w hw
      exact (hpos (w, t) ((mem_possCT M S _).mpr ⟨htm, h0⟩)).ne'
    · intro h0 hz0
      apply h0
      unfold density at hz0 ⊢
      refine totalWeight_zero M.rateStep _ M.initialState _ _ (M.rateStep_nonneg hM.2) hM.1 (M.lastMask_nonneg w) ?_
        (fun s hs => hs) _ hz0
      intro s ss o hso
      unfold rateStep at hso ⊢
      have hlab : (newCT M fixed S).labelling = M.labelling := rfl
      rw [hlab]
      split_ifs at hso ⊢
      · rcases mul_eq_zero.mp hso with h | h
        · rw [hz s ss h, zero_mul]
        · exact absurd h (Real.exp_pos _).ne'
      · rfl
  have k1 := filter_sum_eq_overSet S _ _ M.density M.density (fun _ _ => rfl) (fun _ _ => rfl)
  have k2 := filter_sum_eq_overSet S _ _ M.density (newCT M fixed S).density (fun _ _ => rfl) (fun _ _ => rfl)
  refine ⟨avgLogLik_mono S _ _ hl hl' hposs ?_, hposs, ?_⟩
  · rw [← k1, ← k2]; exact hg
  · rw [h3]
    exact k1.trans (overSet_eq_avgLogLik S _ hl ht)

/-- C38: whatever the number of iterations, the log-density of the training set under the learned model is at least the
one under the initial model. -/
theorem fit_monotone (processes : ℕ) (fixed : Fin n → Fin n → Bool) (S : TSet (Sym L)) (epsilon : ℝ) (maxIt : ℕ)
    (M : CTMC ℝ L n) (hM : M.Valid) (hS : TimedSet S) (hw : WaitsNonneg S) (hlen : S.times.length = S.sequences.length)
    (ht : ∀ t ∈ S.times, 1 ≤ t)
    (st : LoopState (CTMC ℝ L n)) (h : fit (stepTimed processes fixed S) epsilon maxIt M = .ok st) :
    avgLogLik M.density S ≤ avgLogLik st.h.density S := by
  have h0 : M.Valid ∧ avgLogLik M.density S ≤ avgLogLik M.density S := ⟨hM, le_rfl⟩
  have := loop_invariant _ _ (fun M' : CTMC ℝ L n => M'.Valid ∧ avgLogLik M.density S ≤ avgLogLik M'.density S) ?_ _ _ _ h0 h
  · exact this.2
  · rintro M1 M2 ll ⟨i1, i2⟩ hs
    exact ⟨M1.bw_step_valid _ _ _ _ _ i1 hS hw hs, le_trans i2 (M1.bw_step_monotone _ _ _ _ _ i1 hS hw hlen ht hs).1⟩

/-- `fit` never fails once the initial model can generate a trace of the set (with several processes). -/
theorem fit_total (processes : ℕ) (hp : 1 < processes) (fixed : Fin n → Fin n → Bool) (S : TSet (Sym L)) (epsilon : ℝ)
    (maxIt : ℕ) (M : CTMC ℝ L n) (hM : M.Valid) (hS : TimedSet S) (hw : WaitsNonneg S)
    (hlen : S.times.length = S.sequences.length) (ht : ∀ t ∈ S.times, 1 ≤ t)
    (w : List (Sym L)) (hw' : w ∈ S.sequences) (hl : M.density w ≠ 0) :
    ∃ st, fit (stepTimed processes fixed S) epsilon maxIt M = .ok st := by
  unfold fit
  generalize (0:ℕ) = c
  generalize (none : Option ℝ) = l
  induction maxIt generalizing M c l with
  | zero => exact ⟨_, rfl⟩
  | succ fuel ih =>
    obtain ⟨⟨M', ll⟩, hr⟩ := (M.bw_step_outcome processes fixed S hS hlen).1 (Or.inl ⟨hp, w, hw', hl⟩)
    rw [loop_succ _ _ _ _ M' ll hr]
    split_ifs
    · exact ⟨_, rfl⟩
    · exact ih M' (M.bw_step_valid _ _ _ _ _ hM hS hw hr)
        (((M.bw_step_monotone _ _ _ _ _ hM hS hw hlen ht hr).2.1 w hw').mp hl) _ _

/-! ### C40: fixed rates -/

/-- C40: the fixed rates of the states in which the training set spends time are the same after any number of
iterations. Missing: the states in which it spends no time, for which the claim is false (`fixed_doubled`). -/
theorem fit_fixed_partial (processes : ℕ) (fixed : Fin n → Fin n → Bool) (S : TSet (Sym L)) (epsilon : ℝ) (maxIt : ℕ)
    (M : CTMC ℝ L n) (hM : M.Valid) (hS : TimedSet S) (hw : WaitsNonneg S) (hlen : S.times.length = S.sequences.length)
    (ht : ∀ t ∈ S.times, 1 ≤ t)
    (st : LoopState (CTMC ℝ L n)) (h : fit (stepTimed processes fixed S) epsilon maxIt M = .ok st)
    (s ss : Fin n) (hf : fixed s ss = true) (hv : M.Visited S s) : st.h.matrix s ss = M.matrix s ss := by
  have h0 : M.Valid ∧ M.Visited S s ∧ M.matrix s ss = M.matrix s ss := ⟨hM, hv, rfl⟩
  have := loop_invariant _ _ (fun M' : CTMC ℝ L n => M'.Valid ∧ M'.Visited S s ∧ M'.matrix s ss = M.matrix s ss) ?_ _ _ _ h0 h
  · exact this.2.2
  · rintro M1 M2 ll ⟨i1, i2, i3⟩ hs
    refine ⟨M1.bw_step_valid _ _ _ _ _ i1 hS hw hs, M1.bw_step_visited _ _ _ _ _ i1 hS hw hlen ht hs s i2, ?_⟩
    rw [(M1.bw_update_spec _ _ _ _ _ hS hs).2.2.2.1 s ss hf, if_neg, i3]
    exact ((M1.timeIn_pos_iff i1 S hw hlen ht s).mpr i2).ne'

/-- C40 fails for the other states: a fixed rate is doubled by every iteration if the training set spends no time in the
source. -/
theorem fixed_doubled (processes : ℕ) (fixed : Fin n → Fin n → Bool) (S : TSet (Sym L)) (M M' : CTMC ℝ L n) (ll : ℝ)
    (hM : M.Valid) (hS : TimedSet S) (hw : WaitsNonneg S) (hlen : S.times.length = S.sequences.length)
    (ht : ∀ t ∈ S.times, 1 ≤ t) (h : stepTimed processes fixed S M = .ok (M', ll)) (s ss : Fin n) (hf : fixed s ss = true)
    (hv : ¬ M.Visited S s) : M'.matrix s ss = 2 * M.matrix s ss := by
  rw [(M.bw_update_spec _ _ _ _ _ hS h).2.2.2.1 s ss hf, if_pos]
  rw [← M.timeIn_pos_iff hM S hw hlen ht] at hv
  refine le_antisymm (not_lt.mp hv) ?_
  rw [M.timeIn_eq]
  exact denCT_nonneg M hM S hw _

/-! ### C42: order and processes -/

/-- C42, order and multiplicities. -/
theorem bw_step_mult (processes : ℕ) (fixed : Fin n → Fin n → Bool) (S1 S2 : TSet (Sym L)) (M : CTMC ℝ L n)
    (hS1 : TimedSet S1) (hS2 : TimedSet S2)
    (hl1 : S1.times.length = S1.sequences.length) (hl2 : S2.times.length = S2.sequences.length)
    (ht1 : ∀ t ∈ S1.times, 1 ≤ t) (ht2 : ∀ t ∈ S2.times, 1 ≤ t) (hmult : ∀ w, S1.mult w = S2.mult w) :
    stepTimed processes fixed S1 M = stepTimed processes fixed S2 M := by
  classical
  have hmem := mem_iff_of_mult S1 S2 hl1 hl2 ht1 ht2 hmult
  have w1 := stepTimed_eq processes fixed S1 M hS1
  have w2 := stepTimed_eq processes fixed S2 M hS2
  unfold stepOf at w1 w2
  simp only [bind, Except.bind] at w1 w2
  have hc := collect_mult .typeError processes S1 S2 hl1 hl2 hmem M.density
    (fun x => if M.density x.1 = 0 then none else some (wkCT M fixed x)) (wkCT M fixed)
    (fun x => if M.density x.1 = 0 then none else some (wkCT M fixed x)) (wkCT M fixed)
    (fun x hx => rfl) (fun x hx => rfl)
  rcases hc with ⟨r1, r2, k1, k2⟩ | ⟨e, k1, k2⟩
  · rw [k1] at w1
    rw [k2] at w2
    have h1 : ∃ r, stepTimed processes fixed S1 M = .ok r := ⟨_, w1⟩
    have h2 : ∃ r, stepTimed processes fixed S2 M = .ok r := ⟨_, w2⟩
    obtain ⟨⟨M1, l1⟩, h1⟩ := h1
    obtain ⟨⟨M2, l2⟩, h2⟩ := h2
    have c4 := (M.bw_update_spec _ _ _ _ _ hS1 h1).2.2.2.2
    have d4 := (M.bw_update_spec _ _ _ _ _ hS2 h2).2.2.2.2
    obtain ⟨c1, _, _⟩ := stepTimed_ok _ _ _ _ _ _ hS1 h1
    obtain ⟨d1, _, _⟩ := stepTimed_ok _ _ _ _ _ _ hS2 h2
    have f1 : denCT M S1 = denCT M S2 := by
      funext s
      rw [← M.timeIn_eq, ← M.timeIn_eq]
      exact overSet_mult S1 S2 hl1 hl2 hmult _ _
    have f2 : numCT M S1 = numCT M S2 := by
      funext s ss
      rw [← M.jumps_eq, ← M.jumps_eq]
      exact overSet_mult S1 S2 hl1 hl2 hmult _ _
    rw [h1, h2, c1, d1, c4, d4, overSet_mult S1 S2 hl1 hl2 hmult]
    unfold newCT
    rw [f1, f2]
  · rw [k1] at w1
    rw [k2] at w2
    rw [w1, w2]

/-- C42, number of processes. -/
theorem bw_step_processes (p q : ℕ) (fixed : Fin n → Fin n → Bool) (S : TSet (Sym L)) (M : CTMC ℝ L n) (hS : TimedSet S)
    (hposs : (∀ w ∈ S.sequences, M.density w ≠ 0) ∨ (1 < p ∧ 1 < q)) : stepTimed p fixed S M = stepTimed q fixed S M := by
  rw [stepTimed_eq p fixed S M hS, stepTimed_eq q fixed S M hS]
  unfold stepOf
  simp only [bind, Except.bind]
  rw [collect_processes _ p q]
  rcases hposs with h | h
  · left
    intro x hx
    obtain ⟨y, hy, rfl⟩ := List.mem_map.mp hx
    rw [if_neg (h _ (List.of_mem_zip hy).1)]
    simp
  · exact Or.inr h

end timed

/-! ### Untimed traces: C32, C37, C60 -/

section untimed
variable {L : Type} [DecidableEq L] {n : ℕ}

theorem tau_embedded (M : CTMC ℝ L n) : M.embedded.tau = M.tau := by
  funext s s' o
  unfold MC.tau tau l embedded e
  by_cases h : M.labelling s = o
  · simp [h]
  · simp [h, Ne.symm h]

theorem updateUntimed_embedded (M : CTMC ℝ L n) (S : TSet L) :
    (updateCTMC M (fun _ _ => false) ((possMC M.embedded S).map (wkMC M.embedded))).embedded = newMC M.embedded S ∧
    ∀ s, ∑ ss, (updateCTMC M (fun _ _ => false) ((possMC M.embedded S).map (wkMC M.embedded))).matrix s ss
      = if denMC M.embedded S s = 0 then ∑ ss, M.matrix s ss else 1 := by
  set N := updateCTMC M (fun _ _ => false) ((possMC M.embedded S).map (wkMC M.embedded)) with hN
  have hm : ∀ s ss, N.matrix s ss = if denMC M.embedded S s = 0 then M.matrix s ss
      else numMC M.embedded S s ss / denMC M.embedded S s := by
    intro s ss
    simp only [hN, updateCTMC, List.map_map]
    have h1 : ((possMC M.embedded S).map ((fun w : WorkCTMC n => w.den s) ∘ wkMC M.embedded)).sum = denMC M.embedded S s := rfl
    have h2 : ((possMC M.embedded S).map ((fun w : WorkCTMC n => w.num s ss) ∘ wkMC M.embedded)).sum = numMC M.embedded S s ss := rfl
    rw [h1, h2]
    simp
  have hs : ∀ s, ∑ ss, N.matrix s ss = if denMC M.embedded S s = 0 then ∑ ss, M.matrix s ss else 1 := by
    intro s
    rw [Finset.sum_congr rfl (fun ss _ => hm s ss)]
    split_ifs with h0
    · rfl
    · rw [← Finset.sum_div, sum_numMC, div_self h0]
  refine ⟨?_, hs⟩
  have hmat : N.embedded.matrix = (newMC M.embedded S).matrix := by
    funext s ss
    change N.matrix s ss / ∑ j, N.matrix s j = _
    rw [hs, hm]
    simp only [newMC]
    split_ifs with h0
    · rfl
    · rw [div_one]
  calc N.embedded = { N.embedded with matrix := (newMC M.embedded S).matrix } := by rw [← hmat]
    _ = newMC M.embedded S := rfl

/-- Learning a CTMC from untimed traces is learning its embedded chain: one iteration fails on the CTMC exactly when it
fails on the embedded chain; if it succeeds the embedded chain of the result is the result for the embedded chain, with
the same reported log-likelihood. -/
theorem bw_untimed_refines (processes : ℕ) (S : TSet L) (M : CTMC ℝ L n) (hS : ∀ w ∈ S.sequences, 2 ≤ w.length) :
    stepMC processes S M.embedded = (stepUntimed processes (fun _ _ => false) S M).map (fun r => (r.1.embedded, r.2)) := by
  have hw : ∀ x ∈ S.sequences.zip S.times, (fun p : List L × ℕ => processWorkUntimed M (fun _ _ => false) p.1 p.2) x
      = .ok ((fun p : List L × ℕ => processWorkMC M.embedded p.1 p.2) x) := by
    intro x hx
    beta_reduce
    unfold processWorkUntimed processWorkMC
    rw [if_neg (by have := hS _ (List.of_mem_zip hx).1; omega), M.tau_embedded]
    rfl
  unfold stepMC stepUntimed stepOf workMC
  rw [List.mapM_ok _ _ _ hw]
  simp only [bind, Except.bind]
  cases hc : collect .typeError processes ((S.sequences.zip S.times).map (fun p => processWorkMC M.embedded p.1 p.2)) with
  | error e => rfl
  | ok temp =>
    obtain ⟨h1, _, _⟩ := workMC_ok processes S M.embedded temp hc
    simp only [Except.map, pure, Except.pure]
    rw [h1, (M.updateUntimed_embedded S).1, updateMC_eq]
    rfl

/-- C37, untimed CTMC: the log-likelihood of the training set (the one of the embedded chain, C31) does not decrease. -/
theorem bw_untimed_monotone (processes : ℕ) (S : TSet L) (M M' : CTMC ℝ L n) (ll : ℝ) (hM : M.Valid)
    (hi : ∑ s, M.initialState s = 1) (he : ∀ s, ∑ j, M.matrix s j ≠ 0)
    (hS : ∀ w ∈ S.sequences, 2 ≤ w.length) (hlen : S.times.length = S.sequences.length) (ht : ∀ t ∈ S.times, 1 ≤ t)
    (h : stepUntimed processes (fun _ _ => false) S M = .ok (M', ll)) :
    avgLogLik M.embedded.lik S ≤ avgLogLik M'.embedded.lik S := by
  have hr := M.bw_untimed_refines processes S hS
  rw [h] at hr
  exact (M.embedded.bw_step_monotone processes S M'.embedded ll (M.toMC_stochastic hM hi he)
    (fun w hw => by rintro rfl; simpa using hS _ hw) hlen ht hr).1

/-- C60 fails: an untimed iteration makes the exit rate of every visited state 1, whatever the model knew about its exit
rates; the other states keep theirs. -/
theorem bw_untimed_exit_rate (processes : ℕ) (S : TSet L) (M M' : CTMC ℝ L n) (ll : ℝ) (he : ∀ s, ∑ j, M.matrix s j ≠ 0)
    (hS : ∀ w ∈ S.sequences, 2 ≤ w.length) (h : stepUntimed processes (fun _ _ => false) S M = .ok (M', ll)) (s : Fin n) :
    ∑ ss, M'.matrix s ss = if M.embedded.visits S s = 0 then ∑ ss, M.matrix s ss else 1 := by
  have hw : ∀ x ∈ S.sequences.zip S.times, (fun p : List L × ℕ => processWorkUntimed M (fun _ _ => false) p.1 p.2) x
      = .ok ((fun p : List L × ℕ => processWorkMC M.embedded p.1 p.2) x) := by
    intro x hx
    beta_reduce
    unfold processWorkUntimed processWorkMC
    rw [if_neg (by have := hS _ (List.of_mem_zip hx).1; omega), M.tau_embedded]
    rfl
  unfold stepUntimed stepOf at h
  rw [List.mapM_ok _ _ _ hw] at h
  simp only [bind, Except.bind] at h
  cases hc : collect .typeError processes ((S.sequences.zip S.times).map (fun p => processWorkMC M.embedded p.1 p.2)) with
  | error e => rw [hc] at h; cases h
  | ok temp =>
    rw [hc] at h
    obtain ⟨h1, _, _⟩ := workMC_ok processes S M.embedded temp hc
    injection h with h
    injection h with h2 h3
    rw [← h2, h1, (M.updateUntimed_embedded S).2, MC.visits_eq _ _ ?_ (fun w hw => by rintro rfl; simpa using hS _ hw)]
    intro s
    change ∑ s', M.matrix s s' / ∑ j, M.matrix s j = 1
    rw [← Finset.sum_div]
    exact div_self (he s)

end untimed

/-! ### Non-vacuity -/

/-- A training set for `exCTMC` with a possible and an impossible trace. -/
noncomputable def exSetT : TSet (Sym ℕ) :=
  { sequences := [exTimed, timed [(1, 1)] 1], times := [2, 1], floatTimes := false, type := some 4 }

/-- The caller asks to keep the rates from 2 to 0 and from 1 to 0. -/
def exFixed (s ss : Fin 3) : Bool := (s = 2 ∨ s = 1) ∧ ss = 0

theorem exSetT_ok : TimedSet exSetT ∧ WaitsNonneg exSetT ∧ exSetT.times.length = exSetT.sequences.length ∧
    ∀ t ∈ exSetT.times, 1 ≤ t := by
  refine ⟨?_, ?_, rfl, by simp [exSetT]⟩
  · intro w hw
    rcases List.mem_cons.mp hw with rfl | hw
    · exact ⟨isTimed_timed _ _, by rw [exTimed, timed_length]; simp⟩
    · rw [List.mem_singleton.mp hw]
      exact ⟨isTimed_timed _ _, by rw [timed_length]; simp⟩
  · intro w hw
    rcases List.mem_cons.mp hw with rfl | hw
    · rw [exTimed, timedSteps_timed]; simp
    · rw [List.mem_singleton.mp hw, timedSteps_timed]; simp

theorem exTimed_possible : (exCTMC ℝ).density exTimed ≠ 0 := by
  rw [exCTMC_density]
  exact mul_ne_zero (by norm_num) (Real.exp_pos _).ne'

/-- `fit` succeeds on the example, whatever the budget. -/
example (epsilon : ℝ) (maxIt : ℕ) : (exCTMC ℝ).Valid ∧
    ∃ st, fit (stepTimed 2 exFixed exSetT) epsilon maxIt (exCTMC ℝ) = .ok st :=
  ⟨exCTMC_valid.1, (exCTMC ℝ).fit_total 2 (by norm_num) exFixed exSetT epsilon maxIt exCTMC_valid.1 exSetT_ok.1 exSetT_ok.2.1
    exSetT_ok.2.2.1 exSetT_ok.2.2.2 exTimed (by simp [exSetT]) exTimed_possible⟩

/-- The set spends time in the state 2 … -/
theorem exSetT_visits : (exCTMC ℝ).Visited exSetT 2 := by
  refine ⟨exTimed, by simp [exSetT], ?_⟩
  rw [exTimed, timedSteps_timed]
  refine ⟨![2, 0, 1], ?_, 0, rfl, by simp⟩
  unfold pathWeight
  simp only [List.length_cons, List.length_nil, Fin.prod_univ_two, rateStep, lastMask, observations_timed]
  simp [exCTMC]
  positivity

/-- … but not in the state 1, in which its only possible trace ends. -/
theorem exSetT_unvisited : ¬ (exCTMC ℝ).Visited exSetT 1 := by
  rintro ⟨w, hw, p, hp, k, hk, hk'⟩
  have hlab : ∀ k : Fin (timedSteps w).length, (exCTMC ℝ).labelling (p k.castSucc) = ((timedSteps w).get k).1 := by
    intro k
    by_contra hne
    unfold pathWeight at hp
    rw [Finset.prod_eq_zero (Finset.mem_univ k), mul_zero, zero_mul] at hp
    · exact absurd hp (lt_irrefl _)
    · unfold rateStep
      rw [if_neg hne]
  have h1 := hlab k
  rw [hk] at h1
  have h2 : ((timedSteps w).get k).1 = 1 := by rw [← h1]; rfl
  rcases List.mem_cons.mp hw with rfl | hw
  · have hm : (timedSteps exTimed).get k ∈ timedSteps exTimed := List.get_mem _ _
    generalize (timedSteps exTimed).get k = y at h2 hm
    rw [exTimed, timedSteps_timed] at hm
    simp only [List.mem_cons, List.not_mem_nil, or_false] at hm
    rcases hm with rfl | rfl <;> simp at h2
  · have hw' := List.mem_singleton.mp hw
    subst hw'
    unfold pathWeight at hp
    have h3 : (timedSteps (timed [((1:ℕ), (1:ℝ))] 1)).length = 1 := by rw [timedSteps_timed]; rfl
    have h4 : k.castSucc = 0 := by apply Fin.ext; simp; omega
    rw [h4] at hk
    rw [hk] at hp
    simp [exCTMC] at hp

/-- C40 fails: asked to keep the rate 2 of the transition from 1 to 0, the learner returns 4 after one iteration (and
doubles it at each further iteration). -/
theorem fixed_rate_changed : ∃ M' ll, stepTimed 2 exFixed exSetT (exCTMC ℝ) = .ok (M', ll) ∧
    exFixed 1 0 = true ∧ (exCTMC ℝ).matrix 1 0 = 2 ∧ M'.matrix 1 0 = 4 := by
  obtain ⟨⟨M', ll⟩, h⟩ := ((exCTMC ℝ).bw_step_outcome 2 exFixed exSetT exSetT_ok.1 exSetT_ok.2.2.1).1
    (Or.inl ⟨by norm_num, exTimed, by simp [exSetT], exTimed_possible⟩)
  have h2 : (exCTMC ℝ).matrix 1 0 = 2 := by simp [exCTMC]
  refine ⟨M', ll, h, by decide, h2, ?_⟩
  rw [(exCTMC ℝ).fixed_doubled 2 exFixed exSetT M' ll exCTMC_valid.1 exSetT_ok.1 exSetT_ok.2.1 exSetT_ok.2.2.1 exSetT_ok.2.2.2 h
    1 0 (by decide) exSetT_unvisited, h2]
  norm_num

/-- C60 fails: the state 1 of `exCTMC` has exit rate 3; after learning from one untimed trace that visits it, its exit rate
is 1. -/
theorem exit_rate_changed : ∃ M' ll,
    stepUntimed 2 (fun _ _ => false) { sequences := [[2, 0, 1, 0]], times := [1], floatTimes := false, type := some 0 } (exCTMC ℝ)
      = .ok (M', ll) ∧
    ∑ j, (exCTMC ℝ).matrix 1 j = 3 ∧ ∑ j, M'.matrix 1 j = 1 := by
  set S : TSet ℕ := { sequences := [[2, 0, 1, 0]], times := [1], floatTimes := false, type := some 0 } with hSd
  have hS : ∀ w ∈ S.sequences, 2 ≤ w.length := by decide
  have he : ∀ s, ∑ j, (exCTMC ℝ).matrix s j ≠ 0 := by
    intro s
    fin_cases s <;> simp [exCTMC, Fin.sum_univ_three] <;> norm_num
  have hst : (exCTMC ℝ).embedded.Stochastic :=
    (exCTMC ℝ).toMC_stochastic exCTMC_valid.1 (by simp [exCTMC, Fin.sum_univ_three]) he
  have htw : totalWeight (exCTMC ℝ).embedded.initialState (exCTMC ℝ).embedded.step (fun _ => 1) [2, 0, 1, 0] = 1/3 := by
    rw [totalWeight_eq]
    simp only [beta0, betas, bwd, List.headD, Fin.sum_univ_three, MC.step, embedded]
    simp [exCTMC]
    norm_num
  have hden : denMC (exCTMC ℝ).embedded S 1 = 1 := by
    have hposs : possMC (exCTMC ℝ).embedded S = [([2, 0, 1, 0], 1)] := by
      unfold possMC
      simp only [hSd, List.zip_cons_cons, List.zip_nil_right]
      rw [List.filter_cons_of_pos]
      · rfl
      · simp only [htw]; norm_num
    unfold denMC
    rw [hposs]
    simp only [List.map_cons, List.map_nil, wkMC, htw]
    simp only [vis, BW.visits, alphas, betas, List.dropLast, List.zip_cons_cons, List.zip_nil_right, List.zip_nil_left,
      List.map_cons, List.map_nil, List.sum_cons, List.sum_nil, List.zipWith, fwd, bwd, List.headD, Fin.sum_univ_three, MC.step, embedded]
    simp [exCTMC]
    norm_num
  have hlik : (exCTMC ℝ).embedded.lik [2, 0, 1, 0] ≠ 0 := by
    rw [MC.lik_eq _ hst.2.2.2 _ (by simp), htw]
    norm_num
  obtain ⟨r, hr⟩ := ((exCTMC ℝ).embedded.bw_step_outcome 2 S hst.2.2.2 (by decide) (by decide)).1
    (Or.inl ⟨by norm_num, _, by decide, hlik⟩)
  rw [(exCTMC ℝ).bw_untimed_refines 2 S hS] at hr
  cases h : stepUntimed 2 (fun _ _ => false) S (exCTMC ℝ) with
  | error e => rw [h] at hr; cases hr
  | ok r' =>
    obtain ⟨M', ll⟩ := r'
    refine ⟨M', ll, rfl, by simp [exCTMC, Fin.sum_univ_three]; norm_num, ?_⟩
    rw [(exCTMC ℝ).bw_untimed_exit_rate 2 S M' ll he hS h 1, if_neg]
    rw [MC.visits_eq _ _ hst.2.2.2 (by decide), hden]
    exact one_ne_zero

end CTMC
end Jajapy
