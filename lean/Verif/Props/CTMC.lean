import Verif.Lemmas.CTMC
import Verif.Props.Simulation

/-!
Properties C19-C21, C30 and C31 of continuous-time Markov chains.
-/

set_option linter.unusedSectionVars false

namespace Jajapy

open Finset Spec BW

/-- A CTMC used as an example: state 2 is the initial state, state 1 has an exit rate of 3. -/
def exCTMC (K : Type) [Field K] : CTMC K ℕ 3 where
  matrix := ![![1/2, 1/2, 0], ![2, 1, 0], ![1, 0, 0]]
  labelling := ![0, 1, 2]
  initialState := ![0, 0, 1]

namespace CTMC

/-! ### C19 -/

/-- C19, CTMC: the transition probability with an observation is rate/(exit rate) if the source carries that label, and 0
otherwise; if the exit rate is not 0 the probabilities add up to 1. -/
theorem tau_spec {K L : Type} [Field K] [DecidableEq L] {n : ℕ} (M : CTMC K L n) (s : Fin n) (he : ∑ j, M.matrix s j ≠ 0) :
    (∀ s', M.tau s s' (M.labelling s) = M.matrix s s' / ∑ j, M.matrix s j) ∧
    (∀ s' o, o ≠ M.labelling s → M.tau s s' o = 0) ∧
    (∀ A : Finset L, M.labelling s ∈ A → ∑ s', ∑ o ∈ A, M.tau s s' o = 1) ∧
    M.expectedTime s = 1 / ∑ j, M.matrix s j := by
  have h1 : ∀ s', M.tau s s' (M.labelling s) = M.matrix s s' / ∑ j, M.matrix s j := fun s' => by simp [tau, l, e]
  have h2 : ∀ s' o, o ≠ M.labelling s → M.tau s s' o = 0 := fun s' o h => by simp [tau, l, h.symm]
  refine ⟨h1, h2, fun A hA => ?_, rfl⟩
  have : ∀ s', ∑ o ∈ A, M.tau s s' o = M.matrix s s' / ∑ j, M.matrix s j := by
    intro s'
    rw [Finset.sum_eq_single (M.labelling s) (fun o _ h => h2 s' o h) (fun h => absurd hA h), h1]
  rw [Finset.sum_congr rfl (fun s' _ => this s'), ← Finset.sum_div, div_self he]

example : ∑ j, (exCTMC ℚ).matrix 1 j = 3 ∧ (exCTMC ℚ).tau 1 0 1 = 2/3 ∧ (exCTMC ℚ).tau 1 0 0 = 0 := by decide +kernel

/-- The density of staying for a time in a state: 0 for a negative time. -/
theorem lkl_spec {L : Type} {n : ℕ} (M : CTMC ℝ L n) (hM : M.Valid) (s : Fin n) (t : ℝ) :
    0 ≤ M.lkl s t ∧ (0 ≤ t → M.lkl s t = (∑ j, M.matrix s j) * Real.exp (-(∑ j, M.matrix s j) * t)) := by
  have h0 : 0 ≤ M.e s := Finset.sum_nonneg (fun j _ => hM.2 s j)
  constructor
  · unfold lkl
    split_ifs
    · exact le_refl _
    · exact mul_nonneg h0 (Real.exp_pos _).le
  · intro ht
    unfold lkl
    rw [if_neg (not_lt.mpr ht)]
    rfl

/-! ### C20, C21: simulation -/

section sim
variable {K L : Type} [Field K] [LinearOrder K] [IsStrictOrderedRing K] {n : ℕ}

/-- One step of the simulation is a race: the winner is a transition whose waiting time is minimal, the transitions of
rate 0 (or less) running with the time 1024. -/
theorem next_spec (M : CTMC K L n) (state : Fin n) (draws : Fin n → K) :
    ∃ j t, M.next state draws = .ok (M.labelling state, j, t) ∧
      t = (if M.matrix state j ≤ 0 then 1024 else 1 / M.matrix state j * draws j) ∧
      (∀ i, t ≤ if M.matrix state i ≤ 0 then 1024 else 1 / M.matrix state i * draws i) ∧
      ∀ i < j, t < if M.matrix state i ≤ 0 then 1024 else 1 / M.matrix state i * draws i := by
  set f : Fin n → K := fun j => if M.matrix state j ≤ 0 then 1024 else 1 / M.matrix state j * draws j with hf
  have hw : M.waitingTimes state draws = List.ofFn f := rfl
  unfold next
  rw [hw]
  cases h : (List.ofFn f).min? with
  | none =>
    rw [List.min?_eq_none_iff] at h
    have : (List.ofFn f).length = 0 := by rw [h]; rfl
    rw [List.length_ofFn] at this
    exact absurd state.2 (by omega)
  | some m =>
    obtain ⟨h1, h2⟩ := List.min?_eq_some_iff.mp h
    have hlt : (List.ofFn f).idxOf m < n := by
      have := List.idxOf_lt_length_iff.mpr h1
      rwa [List.length_ofFn] at this
    simp only [dif_pos hlt]
    refine ⟨⟨_, hlt⟩, m, rfl, ?_, fun i => ?_, fun i hi => ?_⟩
    · have := List.getElem_idxOf (List.idxOf_lt_length_iff.mpr h1)
      rw [List.getElem_ofFn] at this
      exact this.symm
    · exact h2 _ (by rw [List.mem_ofFn]; exact ⟨i, rfl⟩)
    · refine lt_of_le_of_ne (h2 _ (by rw [List.mem_ofFn]; exact ⟨i, rfl⟩)) ?_
      intro he
      have hi' : i.1 < (List.ofFn f).idxOf m := hi
      have := List.not_of_lt_findIdx (p := (· == m)) (xs := List.ofFn f) (i := i.1) hi'
      rw [List.getElem_ofFn] at this
      have h5 : f i = m := he.symm
      rw [show (⟨i.1, i.2⟩ : Fin n) = i from rfl] at this
      simp [h5] at this

/-- C21, CTMC, one step: if some transition of positive rate has a waiting time smaller than 1024, the step takes a
transition of positive rate, the one with the smallest waiting time. -/
theorem next_possible_partial (M : CTMC K L n) (state : Fin n) (draws : Fin n → K)
    (h : ∃ i, 0 < M.matrix state i ∧ 1 / M.matrix state i * draws i < 1024) :
    ∃ j, M.next state draws = .ok (M.labelling state, j, 1 / M.matrix state j * draws j) ∧ 0 < M.matrix state j ∧
      ∀ i, 0 < M.matrix state i → 1 / M.matrix state j * draws j ≤ 1 / M.matrix state i * draws i := by
  obtain ⟨j, t, h1, h2, h3, _⟩ := M.next_spec state draws
  obtain ⟨i, hi, hd⟩ := h
  have hti : t < 1024 := lt_of_le_of_lt (h3 i) (by rw [if_neg (not_le.mpr hi)]; exact hd)
  have hj : 0 < M.matrix state j := by
    by_contra hc
    rw [if_pos (not_lt.mp hc)] at h2
    exact absurd h2 hti.ne
  rw [if_neg (not_le.mpr hj)] at h2
  subst h2
  refine ⟨j, h1, hj, fun i hi => ?_⟩
  have := h3 i
  rwa [if_neg (not_le.mpr hi)] at this

/-- C21 fails: in a state without leaving transition the simulation jumps to state 0 after 1024 units of time, whatever
the model. -/
theorem next_absorbing (M : CTMC K L (n+1)) (state : Fin (n+1)) (h : ∀ i, M.matrix state i = 0) (draws : Fin (n+1) → K) :
    M.next state draws = .ok (M.labelling state, 0, 1024) := by
  obtain ⟨j, t, h1, h2, h3, h4⟩ := M.next_spec state draws
  have e : ∀ i, (if M.matrix state i ≤ 0 then (1024:K) else 1 / M.matrix state i * draws i) = 1024 := fun i => by rw [if_pos (by rw [h i])]
  rw [e] at h2
  subst h2
  have : j = 0 := by
    by_contra hj
    have := h4 0 (Fin.pos_iff_ne_zero.mpr hj)
    rw [e] at this
    exact absurd this (lt_irrefl _)
  rw [h1, this]

/-- C21 fails also in a state with a transition of positive rate: when the waiting times drawn are all larger than 1024 (an
event of positive probability), a transition of rate 0 is taken. -/
theorem next_impossible : ∃ (M : CTMC ℚ ℕ 2) (draws : Fin 2 → ℚ), (∀ i, 0 ≤ draws i) ∧
    M.matrix 0 1 = 1 ∧ M.matrix 0 0 = 0 ∧ M.next 0 draws = .ok (M.labelling 0, 0, 1024) :=
  ⟨{ matrix := ![![0, 1], ![1, 0]], labelling := ![0, 1], initialState := ![1, 0] }, fun _ => 2000, by decide +kernel⟩

end sim

section runs
variable {L : Type} [DecidableEq L] {n : ℕ}

theorem runTimedLoop_spec (M : CTMC ℝ L n) (hM : M.Valid) (steps : ℕ) (draws : ℕ → Fin n → ℝ) (s : Fin n)
    (hpos : ∀ s, ∃ i, 0 < M.matrix s i) (hd : ∀ k i, 0 ≤ draws k i ∧ ∀ s, 1 / M.matrix s i * draws k i < 1024) :
    ∃ ps last, M.runTimedLoop steps draws s = .ok (timed ps last) ∧ ps.length = steps ∧ (∀ p ∈ ps, 0 ≤ p.2) ∧
      (timed ps last).head? = some (.obs (M.labelling s)) ∧
      0 < beta0 M.rateStep (fun s' => if last = M.labelling s' then 1 else 0) ps s := by
  induction steps generalizing draws s with
  | zero => exact ⟨[], M.labelling s, rfl, rfl, by simp, rfl, by simp⟩
  | succ steps ih =>
    obtain ⟨i, hi⟩ := hpos s
    obtain ⟨j, h1, h2, _⟩ := M.next_possible_partial s (draws 0) ⟨i, hi, (hd 0 i).2 s⟩
    obtain ⟨ps, last, g1, g2, g3, _, g5⟩ := ih (fun k => draws (k+1)) j (fun k i => hd (k+1) i)
    refine ⟨(M.labelling s, 1 / M.matrix s j * draws 0 j) :: ps, last, ?_, by simp [g2], ?_, rfl, ?_⟩
    · simp only [runTimedLoop, h1]
      simp only [bind, Except.bind, pure, Except.pure, g1]
      rfl
    · intro p hp
      rcases List.mem_cons.mp hp with rfl | hp
      · exact mul_nonneg (by positivity) (hd 0 j).1
      · exact g3 p hp
    · rw [beta0_cons]
      unfold bwd
      refine lt_of_lt_of_le ?_ (Finset.single_le_sum (fun ss _ => ?_) (Finset.mem_univ j))
      · refine mul_pos g5 ?_
        unfold rateStep
        rw [if_pos rfl]
        exact mul_pos h2 (Real.exp_pos _)
      · exact mul_nonneg (beta0_nonneg _ _ (M.rateStep_nonneg hM.2) (fun s => by split_ifs <;> norm_num) _ _)
          (M.rateStep_nonneg hM.2 _ _ _)

/-- C20 and C21, CTMC, timed simulation: if every state has a transition of positive rate and the waiting times drawn are
smaller than 1024, the trace alternates observations and non-negative times, has `2*steps+1` symbols, starts with the label of
a state of positive initial probability, and has a positive density. -/
theorem runTimed_spec_partial (M : CTMC ℝ L n) (hM : M.Valid) (hpos : ∀ s, ∃ i, 0 < M.matrix s i) (steps : ℕ) (r : ℝ)
    (hr : 0 ≤ r) (draws : ℕ → Fin n → ℝ) (hd : ∀ k i, 0 ≤ draws k i ∧ ∀ s, 1 / M.matrix s i * draws k i < 1024) (w : List (Sym L))
    (h : M.runTimed steps r draws = .ok w) :
    IsTimed w ∧ w.length = 2 * steps + 1 ∧ (∀ p ∈ timedSteps w, 0 ≤ p.2) ∧
    (∃ s, 0 < M.initialState s ∧ w.head? = some (.obs (M.labelling s))) ∧ 0 < M.density w := by
  unfold runTimed at h
  rw [Except.bind_eq_ok] at h
  obtain ⟨c, h1, h2⟩ := h
  have hp := pick_pos _ hM.1 _ hr _ h1
  obtain ⟨ps, last, g1, g2, g3, g4, g5⟩ := M.runTimedLoop_spec hM steps draws c hpos hd
  rw [g1] at h2
  injection h2 with h2
  subst h2
  refine ⟨isTimed_timed _ _, by rw [timed_length, g2], by rw [timedSteps_timed]; exact g3, ⟨c, hp, g4⟩, ?_⟩
  unfold density
  rw [totalWeight_eq, timedSteps_timed]
  have hm : M.lastMask (timed ps last) = fun s' => if last = M.labelling s' then 1 else 0 := by
    funext s'
    unfold lastMask
    rw [observations_timed]
    simp
  rw [hm]
  refine lt_of_lt_of_le (mul_pos hp g5) (Finset.single_le_sum (f := fun s => M.initialState s * beta0 M.rateStep
    (fun s' => if last = M.labelling s' then 1 else 0) ps s) (fun s _ => ?_) (Finset.mem_univ c))
  exact mul_nonneg (hM.1 s) (beta0_nonneg _ _ (M.rateStep_nonneg hM.2) (fun s => by split_ifs <;> norm_num) _ _)

theorem exCTMC_valid : (exCTMC ℝ).Valid ∧ ∀ s, ∃ i, 0 < (exCTMC ℝ).matrix s i := by
  refine ⟨⟨fun s => ?_, fun s s' => ?_⟩, fun s => ⟨0, ?_⟩⟩
  · fin_cases s <;> simp [exCTMC]
  · fin_cases s <;> fin_cases s' <;> simp [exCTMC]
  · fin_cases s <;> simp [exCTMC]

/-- The shape of a trace, for every model and all draws. -/
theorem runTimed_shape (M : CTMC ℝ L n) (steps : ℕ) (r : ℝ) (draws : ℕ → Fin n → ℝ) (w : List (Sym L))
    (h : M.runTimed steps r draws = .ok w) : IsTimed w ∧ w.length = 2 * steps + 1 := by
  unfold runTimed at h
  rw [Except.bind_eq_ok] at h
  obtain ⟨c, _, h2⟩ := h
  have : ∀ steps (draws : ℕ → Fin n → ℝ) c w, M.runTimedLoop steps draws c = .ok w →
      ∃ ps last, w = timed ps last ∧ ps.length = steps := by
    intro steps
    induction steps with
    | zero =>
      intro draws c w h
      injection h with h
      exact ⟨[], M.labelling c, h.symm, rfl⟩
    | succ steps ih =>
      intro draws c w h
      obtain ⟨j, t, h1, _⟩ := M.next_spec c (draws 0)
      simp only [runTimedLoop, h1] at h
      simp only [bind, Except.bind, pure, Except.pure] at h
      cases hr : M.runTimedLoop steps (fun k => draws (k+1)) j with
      | error e => rw [hr] at h; cases h
      | ok rest =>
        rw [hr] at h
        obtain ⟨ps, last, g1, g2⟩ := ih _ _ _ hr
        injection h with h
        exact ⟨(M.labelling c, t) :: ps, last, by rw [← h, g1]; rfl, by simp [g2]⟩
  obtain ⟨ps, last, g1, g2⟩ := this _ _ _ _ h2
  subst g1
  exact ⟨isTimed_timed _ _, by rw [timed_length, g2]⟩

/-- The untimed simulation returns the observations of the timed one. -/
theorem run_observations (M : CTMC ℝ L n) (steps : ℕ) (r : ℝ) (draws : ℕ → Fin n → ℝ) (w : List (Sym L))
    (h : M.runTimed steps r draws = .ok w) : M.run steps r draws = .ok (observations w) := by
  unfold runTimed at h
  unfold run
  rw [Except.bind_eq_ok] at h
  obtain ⟨c, h1, h2⟩ := h
  rw [h1]
  clear h1
  have : ∀ steps (draws : ℕ → Fin n → ℝ) c w, M.runTimedLoop steps draws c = .ok w →
      M.runLoop steps draws c = .ok (observations w) := by
    intro steps
    induction steps with
    | zero =>
      intro draws c w h
      injection h with h
      subst h
      rfl
    | succ steps ih =>
      intro draws c w h
      obtain ⟨j, t, h1, _⟩ := M.next_spec c (draws 0)
      simp only [runTimedLoop, runLoop, h1] at h ⊢
      simp only [bind, Except.bind, pure, Except.pure] at h ⊢
      cases hr : M.runTimedLoop steps (fun k => draws (k+1)) j with
      | error e => rw [hr] at h; cases h
      | ok rest =>
        rw [hr] at h
        rw [ih _ _ _ hr]
        injection h with h
        subst h
        rfl
  exact this _ _ _ _ h2

/-! ### C30: the likelihood of timed traces -/

/-- C30, one trace: the number whose logarithm is reported is the density: the sum over the state paths of the product of
the rates and of the exponentials. -/
theorem timedSum_spec (M : CTMC ℝ L n) (w : List (Sym L)) (hw : IsTimed w) : M.timedSum w = .ok (M.density w) :=
  M.timedSum_eq w hw

/-- C30, whole sets: the reported value is the average log-density, except when every trace has density 0 or 1: then -9999
is reported. -/
theorem logLikelihoodTimed_spec (M : CTMC ℝ L n) (hM : M.Valid) (cpus : ℕ) (hc : 2 ≤ cpus) (S : TSet (Sym L))
    (hS : ∀ w ∈ S.sequences, IsTimed w) (hlen : S.times.length = S.sequences.length) (ht : ∀ t ∈ S.times, 1 ≤ t) :
    ((∃ w ∈ S.sequences, M.density w ≠ 0 ∧ M.density w ≠ 1) →
      M.logLikelihoodTimed cpus S = .ok (avgLogLik M.density S)) ∧
    ((∀ w ∈ S.sequences, M.density w = 0 ∨ M.density w = 1) → M.logLikelihoodTimed cpus S = .ok (-9999)) := by
  classical
  set g : List (Sym L) × ℕ → Option ℝ := fun p => if 0 < M.density p.1 then some (Real.log (M.density p.1) * p.2) else none with hg
  have hmap : (S.sequences.zip S.times).mapM (fun p => M.computeAlphasTimed p.1 p.2) = .ok ((S.sequences.zip S.times).map g) := by
    apply List.mapM_ok
    intro p hp
    unfold computeAlphasTimed
    rw [M.timedSum_eq _ (hS _ (List.of_mem_zip hp).1)]
    rfl
  have hlog : ∀ p ∈ S.sequences.zip S.times, 0 < M.density p.1 → (Real.log (M.density p.1) * p.2 = 0 ↔ M.density p.1 = 1) := by
    intro p hp h0
    have ht := ht _ (List.of_mem_zip hp).2
    have ht' : (p.2 : ℝ) ≠ 0 := by exact_mod_cast (by omega : p.2 ≠ 0)
    constructor
    · intro h
      rcases mul_eq_zero.mp h with h | h
      · rcases Real.log_eq_zero.mp h with h | h | h <;> linarith
      · exact absurd h ht'
    · intro h; rw [h]; simp
  have hkeep : ∀ l : List (List (Sym L) × ℕ), (∀ p ∈ l, p ∈ S.sequences.zip S.times) →
      (l.map g).filterMap Iface.keepResult
        = (l.filter (fun p => 0 < M.density p.1 ∧ M.density p.1 ≠ 1)).map (fun p => Real.log (M.density p.1) * p.2) := by
    intro l hl
    induction l with
    | nil => rfl
    | cons p l ih =>
      have ihl := ih (fun q hq => hl q (List.mem_cons_of_mem _ hq))
      rw [List.map_cons, List.filterMap_cons, List.filter_cons, ihl]
      by_cases h0 : 0 < M.density p.1
      · have hp := hlog p (hl p List.mem_cons_self) h0
        by_cases h1 : M.density p.1 = 1
        · simp [hg, h0, h1, Iface.keepResult]
        · have hz : ¬ Real.log (M.density p.1) * p.2 = 0 := fun h => h1 (hp.mp h)
          simp only [hg, if_pos h0, Iface.keepResult, h0, h1, hz, ne_eq, not_false_eq_true, if_true, and_self, decide_true]
          rfl
      · simp [hg, h0, Iface.keepResult]
  have hsum : ∀ l : List (List (Sym L) × ℕ), ((l.filter (fun p => 0 < M.density p.1 ∧ M.density p.1 ≠ 1)).map
      (fun p => Real.log (M.density p.1) * p.2)).sum
      = ((l.filter (fun p => 0 < M.density p.1)).map (fun p => (p.2 : ℝ) * Real.log (M.density p.1))).sum := by
    intro l
    induction l with
    | nil => rfl
    | cons p l ih =>
      rw [List.filter_cons, List.filter_cons]
      by_cases h0 : 0 < M.density p.1
      · by_cases h1 : M.density p.1 = 1
        · simp only [h1, zero_lt_one, ne_eq, not_true_eq_false, and_false, decide_false, decide_true, if_true, List.map_cons,
            List.sum_cons, Real.log_one, mul_zero, zero_add]
          exact ih
        · simp only [h0, h1, ne_eq, not_false_eq_true, and_self, decide_true, if_true, List.map_cons, List.sum_cons, ih]
          ring
      · simp only [h0, false_and, decide_false]
        exact ih
  unfold logLikelihoodTimed
  rw [if_neg (by omega), hmap]
  simp only [bind, Except.bind, pure, Except.pure]
  rw [hkeep _ (fun _ h => h)]
  constructor
  · rintro ⟨w, hw, h0, h1⟩
    have h0' : 0 < M.density w := lt_of_le_of_ne (M.density_nonneg hM w) (Ne.symm h0)
    obtain ⟨t, htm⟩ := mem_zip_of_mem S hlen w hw
    rw [if_neg]
    · rw [hsum]
      unfold avgLogLik
      rfl
    · intro hnil
      rw [List.map_eq_nil_iff, List.filter_eq_nil_iff] at hnil
      have := hnil (w, t) htm
      simp [h0', h1] at this
  · intro h
    rw [if_pos]
    rw [List.map_eq_nil_iff, List.filter_eq_nil_iff]
    intro p hp
    rcases h _ (List.of_mem_zip hp).1 with h | h <;> simp [h]

end runs

/-! ### C31: the embedded chain -/

/-- C31: `toMC` returns the embedded chain; both give the same transition probabilities, and the same log-likelihood to every
untimed training set. -/
theorem toMC_spec_partial {K L : Type} [Field K] [DecidableEq L] {n : ℕ} (M : CTMC K L n) :
    M.toMC.1 = M.embedded ∧ M.toMC.1.iface = M.iface := by
  have h1 : M.toMC.1 = M.embedded := rfl
  refine ⟨h1, ?_⟩
  unfold MC.iface iface
  have : M.toMC.1.tau = M.tau := by
    funext s s' o
    unfold MC.tau tau l toMC e
    by_cases h : M.labelling s = o
    · simp [h]
    · simp [h, Ne.symm h]
  rw [this]
  rfl

/-- C31: if the rates are not negative and no exit rate is 0, the result is a Markov chain. -/
theorem toMC_stochastic {L : Type} {n : ℕ} (M : CTMC ℝ L n) (hM : M.Valid) (hi : ∑ s, M.initialState s = 1)
    (he : ∀ s, ∑ j, M.matrix s j ≠ 0) : M.toMC.1.Stochastic := by
  refine ⟨hM.1, hi, fun s s' => div_nonneg (hM.2 _ _) (Finset.sum_nonneg (fun j _ => hM.2 s j)), fun s => ?_⟩
  change ∑ s', M.matrix s s' / M.e s = 1
  rw [← Finset.sum_div]
  exact div_self (he s)

/-- C31 fails: after `toMC` the CTMC itself has the probabilities as rates, and all its exit rates are 1. -/
theorem toMC_destroys {K L : Type} [Field K] {n : ℕ} (M : CTMC K L n) (s : Fin n) (he : ∑ j, M.matrix s j ≠ 0) :
    ∑ j, M.toMC.2.matrix s j = 1 := by
  change ∑ s', M.matrix s s' / M.e s = 1
  rw [← Finset.sum_div]
  exact div_self he

/-- … for instance the rate 2 becomes 2/3. -/
theorem toMC_destroys_example : (exCTMC ℚ).matrix 1 0 = 2 ∧ (exCTMC ℚ).toMC.2.matrix 1 0 = 2/3 ∧
    (∀ s, ∑ j, (exCTMC ℚ).matrix s j ≠ 0) := by decide +kernel

/-! ### Non-vacuity -/

/-- The timed trace `2, 0.5, 0, 0, 1` of `exCTMC` and its density. -/
noncomputable def exTimed : List (Sym ℕ) := timed [(2, 1/2), (0, 0)] 1

theorem exCTMC_density : (exCTMC ℝ).density exTimed = 1/2 * Real.exp (-(1/2)) := by
  unfold density exTimed
  rw [totalWeight_eq, timedSteps_timed]
  simp only [beta0, betas, bwd, List.headD, Fin.sum_univ_three, rateStep, lastMask, observations_timed]
  simp [exCTMC]

example : IsTimed exTimed ∧ (∀ t ∈ [3], 1 ≤ t) ∧ (exCTMC ℝ).density exTimed ≠ 0 ∧ (exCTMC ℝ).density exTimed ≠ 1 := by
  refine ⟨isTimed_timed _ _, by simp, ?_, ?_⟩
  · rw [exCTMC_density]
    exact mul_ne_zero (by norm_num) (Real.exp_pos _).ne'
  · rw [exCTMC_density]
    have : Real.exp (-(1/2)) ≤ 1 := Real.exp_le_one_iff.mpr (by norm_num)
    intro h
    linarith

/-- C30 fails for a set whose traces have density 1: the trace that starts (and stops) in the initial state is certain, and
the reported value is -9999. -/
theorem certain_scored_impossible : (exCTMC ℝ).density [.obs 2] = 1 ∧
    (exCTMC ℝ).logLikelihoodTimed 2 ⟨[[.obs 2]], [1], false, some 4⟩ = .ok (-9999) := by
  have h : (exCTMC ℝ).density [.obs 2] = 1 := by
    have : ([.obs 2] : List (Sym ℕ)) = timed [] 2 := rfl
    rw [this]
    unfold density
    rw [totalWeight_eq, timedSteps_timed]
    simp only [beta0, betas, List.headD, Fin.sum_univ_three, lastMask, observations_timed]
    simp [exCTMC]
  refine ⟨h, ?_⟩
  refine ((exCTMC ℝ).logLikelihoodTimed_spec exCTMC_valid.1 2 (le_refl _) _ ?_ rfl (by simp)).2 ?_
  · intro w hw
    simp at hw
    subst hw
    exact isTimed_timed [] 2
  · intro w hw
    simp at hw
    subst hw
    exact Or.inr h

end CTMC
end Jajapy
