import Verif.Lemmas.Draws
import Verif.Props.Likelihood

/-!
Properties C19-C22 for Markov chains and hidden Markov models: transition functions and simulation.
-/

set_option linter.unusedSectionVars false

namespace Jajapy

open MeasureTheory Spec Finset Tools

theorem Except.bind_eq_ok {ε α β : Type} (x : Except ε α) (f : α → Except ε β) (b : β) :
    (x >>= f) = .ok b ↔ ∃ a, x = .ok a ∧ f a = .ok b := by
  cases x with
  | error e => simp [bind, Except.bind]
  | ok a => simp [bind, Except.bind]

/-! ### C19: transition functions -/

/-- C19, MC: the transition probability with an observation is the matrix entry if the source carries that label, and 0
otherwise; over all targets and all labels it sums to 1. -/
theorem MC.tau_spec {K L : Type} [Field K] [DecidableEq L] {n : ℕ} (M : MC K L n) (hm : ∀ s, ∑ s', M.matrix s s' = 1)
    (s : Fin n) :
    (∀ s', M.tau s s' (M.labelling s) = M.matrix s s') ∧ (∀ s' o, o ≠ M.labelling s → M.tau s s' o = 0) ∧
    (∀ s' o, M.tau s s' o = M.matrix s s' * M.b s o) ∧
    ∀ A : Finset L, M.labelling s ∈ A → ∑ s', ∑ o ∈ A, M.tau s s' o = 1 := by
  refine ⟨fun s' => by simp [tau], fun s' o h => by simp [tau, h], fun s' o => M.tau_factor s s' o, fun A hA => ?_⟩
  rw [← hm s]
  apply Finset.sum_congr rfl
  intro s' _
  have e : ∀ o, M.tau s s' o = M.matrix s s' * M.b s o := fun o => M.tau_factor s s' o
  simp only [e, ← Finset.mul_sum]
  simp [MC.b, hA]

/-- C19, HMM. -/
theorem HMM.tau_spec {K O : Type} [Field K] [DecidableEq O] {n : ℕ} (M : HMM K O n) (hn : M.alphabet.Nodup)
    (hm : ∀ s, ∑ s', M.matrix s s' = 1) (ho : ∀ s, ∑ i, M.output s i = 1) (s : Fin n) :
    (∀ s' i, M.tau s s' M.alphabet[(i : Fin M.alphabet.length)] = M.matrix s s' * M.output s i) ∧
    (∀ s' o, o ∉ M.alphabet → M.tau s s' o = 0) ∧
    ∑ s', ∑ o ∈ M.alphabet.toFinset, M.tau s s' o = 1 := by
  refine ⟨fun s' i => by rw [tau, (M.b_spec hn s).1], fun s' o h => by rw [tau, (M.b_spec hn s).2 o h, mul_zero], ?_⟩
  have e : ∑ o ∈ M.alphabet.toFinset, M.b s o = 1 := by
    rw [← ho s, List.sum_toFinset _ hn]
    have e : ∑ i, M.output s i = ∑ i : Fin M.alphabet.length, M.b s M.alphabet[i] :=
      Finset.sum_congr rfl (fun i _ => ((M.b_spec hn s).1 i).symm)
    rw [e]
    simp
  simp only [tau, ← Finset.mul_sum, e, mul_one, hm]

/-! ### C20, C21: shape and possibility of simulated traces -/

section run
variable {K L : Type} [Field K] [LinearOrder K] [IsStrictOrderedRing K] [DecidableEq L] {n : ℕ}

theorem MC.runLoop_spec (M : MC K L n) (h0 : ∀ s s', 0 ≤ M.matrix s s') (steps : ℕ) (d : ℕ → K) (hd : ∀ k, 0 ≤ d k)
    (s : Fin n) (w : List L) (h : M.runLoop steps d s = .ok w) :
    w.length = steps + 1 ∧ w.head? = some (M.labelling s) ∧
      0 < sufProb M.matrix (fun s o => if M.labelling s = o then 1 else 0) s w := by
  induction steps generalizing d s w with
  | zero =>
    simp only [runLoop] at h
    injection h with h
    subst h
    simp [sufProb]
  | succ steps ih =>
    simp only [runLoop] at h
    rw [Except.bind_eq_ok] at h
    obtain ⟨⟨c, l⟩, h1, h2⟩ := h
    rw [Except.bind_eq_ok] at h2
    obtain ⟨rest, h2, h3⟩ := h2
    simp only [next] at h1
    rw [Except.bind_eq_ok] at h1
    obtain ⟨c', h1, h4⟩ := h1
    injection h4 with h4
    injection h4 with h4 h5
    subst h4 h5
    injection h3 with h3
    subst h3
    obtain ⟨i1, i2, i3⟩ := ih _ (fun k => hd (k+1)) c' rest h2
    refine ⟨by simp [i1], by simp, ?_⟩
    cases rest with
    | nil => simp at i1
    | cons o os =>
      simp only [sufProb, if_true, one_mul]
      have hp := pick_pos _ (h0 s) _ (hd 0) _ h1
      have hnn : ∀ (s : Fin n) (w : List L), 0 ≤ sufProb M.matrix (fun s o => if M.labelling s = o then (1:K) else 0) s w := by
        intro s w
        induction w generalizing s with
        | nil => simp [sufProb]
        | cons o w ih =>
          cases w with
          | nil => simp only [sufProb]; split_ifs <;> norm_num
          | cons o' w =>
            simp only [sufProb]
            refine mul_nonneg (by split_ifs <;> norm_num) (Finset.sum_nonneg (fun s' _ => mul_nonneg (h0 _ _) (ih s')))
      exact Finset.sum_pos' (fun s' _ => mul_nonneg (h0 _ _) (hnn _ _)) ⟨c', Finset.mem_univ _, mul_pos hp i3⟩

/-- C20 and C21, MC: for every draws, every trace returned by `run(number_steps)` has `number_steps+1` labels, starts
with the label of a state of positive initial probability, and has positive likelihood under the model. -/
theorem MC.run_spec (M : MC K L n) (hi0 : ∀ s, 0 ≤ M.initialState s) (h0 : ∀ s s', 0 ≤ M.matrix s s') (steps : ℕ)
    (d : ℕ → K) (hd : ∀ k, 0 ≤ d k) (w : List L) (h : M.run steps d = .ok w) :
    w.length = steps + 1 ∧ (∃ s, 0 < M.initialState s ∧ w.head? = some (M.labelling s)) ∧
      ∃ p, M.iface.seqProb w = .ok p ∧ 0 < p := by
  unfold run at h
  rw [Except.bind_eq_ok] at h
  obtain ⟨c, h1, h2⟩ := h
  obtain ⟨i1, i2, i3⟩ := M.runLoop_spec h0 steps _ (fun k => hd (k+1)) c w h2
  have hp := pick_pos _ hi0 _ (hd 0) _ h1
  refine ⟨i1, ⟨c, hp, i2⟩, ?_⟩
  cases w with
  | nil => simp at i1
  | cons o os =>
    refine ⟨_, M.seqProb_eq_paths _ (by simp), ?_⟩
    rw [listProb_eq_sufProb]
    have hnn : ∀ (s : Fin n) (w : List L), 0 ≤ sufProb M.matrix (fun s o => if M.labelling s = o then (1:K) else 0) s w := by
      intro s w
      induction w generalizing s with
      | nil => simp [sufProb]
      | cons o w ih =>
        cases w with
        | nil => simp only [sufProb]; split_ifs <;> norm_num
        | cons o' w =>
          simp only [sufProb]
          refine mul_nonneg (by split_ifs <;> norm_num) (Finset.sum_nonneg (fun s' _ => mul_nonneg (h0 _ _) (ih s')))
    exact Finset.sum_pos' (fun s' _ => mul_nonneg (hi0 _) (hnn _ _)) ⟨c, Finset.mem_univ _, mul_pos hp i3⟩

theorem MC.runLoop_total (M : MC K L n) (h0 : ∀ s s', 0 ≤ M.matrix s s') (hm : ∀ s, ∑ s', M.matrix s s' = 1)
    (steps : ℕ) (d : ℕ → K) (hd : ∀ k, 0 ≤ d k ∧ d k < 1) (s : Fin n) : ∃ w, M.runLoop steps d s = .ok w := by
  induction steps generalizing d s with
  | zero => exact ⟨_, rfl⟩
  | succ steps ih =>
    obtain ⟨i, hi, -⟩ := pick_total _ (h0 s) (hm s) (d 0) (hd 0).1 (hd 0).2
    obtain ⟨w, hw⟩ := ih (fun k => d (k+1)) (fun k => hd (k+1)) i
    refine ⟨M.labelling s :: w, ?_⟩
    simp only [runLoop, next, hi]
    simp only [bind, Except.bind, pure, Except.pure, hw]

/-- C20, MC: the simulation of a stochastic model never raises. -/
theorem MC.run_total (M : MC K L n) (hi0 : ∀ s, 0 ≤ M.initialState s) (hi : ∑ s, M.initialState s = 1)
    (h0 : ∀ s s', 0 ≤ M.matrix s s') (hm : ∀ s, ∑ s', M.matrix s s' = 1) (steps : ℕ) (d : ℕ → K)
    (hd : ∀ k, 0 ≤ d k ∧ d k < 1) : ∃ w, M.run steps d = .ok w := by
  obtain ⟨i, hi, -⟩ := pick_total _ hi0 hi (d 0) (hd 0).1 (hd 0).2
  obtain ⟨w, hw⟩ := M.runLoop_total h0 hm steps (fun k => d (k+1)) (fun k => hd (k+1)) i
  refine ⟨w, ?_⟩
  unfold run
  rw [hi]
  exact hw

example : (exMC ℚ).run 3 (fun k => if k = 3 then 3/4 else 1/4) = .ok [2, 0, 0, 1] := by decide +kernel

theorem sufProb_nonneg {O : Type} (a : Fin n → Fin n → K) (b : Fin n → O → K) (ha : ∀ s s', 0 ≤ a s s')
    (hb : ∀ s o, 0 ≤ b s o) (s : Fin n) (w : List O) : 0 ≤ sufProb a b s w := by
  induction w generalizing s with
  | nil => simp [sufProb]
  | cons o w ih =>
    cases w with
    | nil => exact hb _ _
    | cons o' w =>
      simp only [sufProb]
      exact mul_nonneg (hb _ _) (Finset.sum_nonneg (fun s' _ => mul_nonneg (ha _ _) (ih s')))

theorem HMM.b_nonneg (M : HMM K L n) (ho : ∀ s i, 0 ≤ M.output s i) (s : Fin n) (o : L) : 0 ≤ M.b s o := by
  unfold HMM.b
  split_ifs
  · exact ho _ _
  · exact le_rfl

theorem HMM.runLoop_spec (M : HMM K L n) (hn : M.alphabet.Nodup) (h0 : ∀ s s', 0 ≤ M.matrix s s')
    (ho : ∀ s i, 0 ≤ M.output s i) (steps : ℕ) (d : ℕ → K) (hd : ∀ k, 0 ≤ d k)
    (s : Fin n) (w : List L) (h : M.runLoop steps d s = .ok w) :
    w.length = steps ∧ (∀ o ∈ w, o ∈ M.alphabet) ∧ 0 < sufProb M.matrix M.b s w := by
  induction steps generalizing d s w with
  | zero =>
    simp only [runLoop] at h
    injection h with h
    subst h
    simp [sufProb]
  | succ steps ih =>
    simp only [runLoop] at h
    rw [Except.bind_eq_ok] at h
    obtain ⟨⟨c, l⟩, h1, h2⟩ := h
    rw [Except.bind_eq_ok] at h2
    obtain ⟨rest, h2, h3⟩ := h2
    simp only [next] at h1
    rw [Except.bind_eq_ok] at h1
    obtain ⟨c', h1, h4⟩ := h1
    rw [Except.bind_eq_ok] at h4
    obtain ⟨o, h4, h6⟩ := h4
    injection h6 with h6
    injection h6 with h6 h5
    subst h6 h5
    injection h3 with h3
    subst h3
    simp only [nextObs] at h4
    rw [Except.bind_eq_ok] at h4
    obtain ⟨i, h4, h5⟩ := h4
    injection h5 with h5
    subst h5
    obtain ⟨i1, i2, i3⟩ := ih _ (fun k => hd (k+2)) c' rest h2
    have hp := pick_pos _ (h0 s) _ (hd 0) _ h1
    have hq := pick_pos _ (ho s) _ (hd 1) _ h4
    rw [← (M.b_spec hn s).1 i] at hq
    refine ⟨by simp [i1], ?_, ?_⟩
    · intro x hx
      rcases List.mem_cons.1 hx with rfl | hx
      · exact List.getElem_mem _
      · exact i2 x hx
    · cases rest with
      | nil => exact hq
      | cons o os =>
        refine mul_pos hq ?_
        exact Finset.sum_pos' (fun s' _ => mul_nonneg (h0 _ _) (sufProb_nonneg _ _ h0 (M.b_nonneg ho) _ _))
          ⟨c', Finset.mem_univ _, mul_pos hp i3⟩

/-- C20 and C21, HMM: a trace returned by `run(number_steps)` has `number_steps` letters, all in the alphabet, and
(unless it is empty) has positive likelihood. -/
theorem HMM.run_spec (M : HMM K L n) (hn : M.alphabet.Nodup) (hi0 : ∀ s, 0 ≤ M.initialState s)
    (h0 : ∀ s s', 0 ≤ M.matrix s s') (ho : ∀ s i, 0 ≤ M.output s i) (steps : ℕ)
    (d : ℕ → K) (hd : ∀ k, 0 ≤ d k) (w : List L) (h : M.run steps d = .ok w) :
    w.length = steps ∧ (∀ o ∈ w, o ∈ M.alphabet) ∧ (0 < steps → ∃ p, M.iface.seqProb w = .ok p ∧ 0 < p) := by
  unfold run at h
  rw [Except.bind_eq_ok] at h
  obtain ⟨c, h1, h2⟩ := h
  obtain ⟨i1, i2, i3⟩ := M.runLoop_spec hn h0 ho steps _ (fun k => hd (k+1)) c w h2
  have hp := pick_pos _ hi0 _ (hd 0) _ h1
  refine ⟨i1, i2, fun hs => ?_⟩
  cases w with
  | nil => simp at i1; omega
  | cons o os =>
    refine ⟨_, M.seqProb_eq_paths _ (by simp), ?_⟩
    rw [listProb_eq_sufProb]
    exact Finset.sum_pos' (fun s' _ => mul_nonneg (hi0 _) (sufProb_nonneg _ _ h0 (M.b_nonneg ho) _ _))
      ⟨c, Finset.mem_univ _, mul_pos hp i3⟩

example : (exHMM ℚ).run 2 (fun _ => 1/2) = .ok [8, 8] := by decide +kernel

/-- C20, HMM: the simulation of a stochastic model never raises. -/
theorem HMM.run_total (M : HMM K L n) (hi0 : ∀ s, 0 ≤ M.initialState s) (hi : ∑ s, M.initialState s = 1)
    (h0 : ∀ s s', 0 ≤ M.matrix s s') (hm : ∀ s, ∑ s', M.matrix s s' = 1)
    (ho : ∀ s i, 0 ≤ M.output s i) (ho1 : ∀ s, ∑ i, M.output s i = 1) (steps : ℕ) (d : ℕ → K)
    (hd : ∀ k, 0 ≤ d k ∧ d k < 1) : ∃ w, M.run steps d = .ok w := by
  have key : ∀ (steps : ℕ) (d : ℕ → K) (s : Fin n), (∀ k, 0 ≤ d k ∧ d k < 1) → ∃ w, M.runLoop steps d s = .ok w := by
    intro steps
    induction steps with
    | zero => intro d s _; exact ⟨_, rfl⟩
    | succ steps ih =>
      intro d s hd
      obtain ⟨i, hi, -⟩ := pick_total _ (h0 s) (hm s) (d 0) (hd 0).1 (hd 0).2
      obtain ⟨j, hj, -⟩ := pick_total _ (ho s) (ho1 s) (d 1) (hd 1).1 (hd 1).2
      obtain ⟨w, hw⟩ := ih (fun k => d (k+2)) i (fun k => hd (k+2))
      refine ⟨M.alphabet[j] :: w, ?_⟩
      simp only [runLoop, next, nextObs, hi, hj]
      simp only [bind, Except.bind, pure, Except.pure, hw]
  obtain ⟨i, hi, -⟩ := pick_total _ hi0 hi (d 0) (hd 0).1 (hd 0).2
  obtain ⟨w, hw⟩ := key steps (fun k => d (k+1)) i (fun k => hd (k+1))
  refine ⟨w, ?_⟩
  unfold run
  rw [hi]
  exact hw

end run

/-! ### C22: the law of the simulator -/

section law
variable {L : Type} [DecidableEq L] {n : ℕ}

theorem MC.runLoop_succ_iff (M : MC ℝ L n) (steps : ℕ) (d : ℕ → ℝ) (s : Fin n) (o : L) (w : List L) :
    M.runLoop (steps+1) d s = .ok (o :: w) ↔
      M.labelling s = o ∧ ∃ i, pick (M.matrix s) (d 0) = .ok i ∧ M.runLoop steps (fun k => d (k+1)) i = .ok w := by
  simp only [runLoop, next]
  constructor
  · intro h
    rw [Except.bind_eq_ok] at h
    obtain ⟨⟨c, l⟩, h1, h2⟩ := h
    rw [Except.bind_eq_ok] at h1 h2
    obtain ⟨rest, h2, h3⟩ := h2
    obtain ⟨c', h1, h4⟩ := h1
    injection h4 with h4
    injection h4 with h4 h5
    subst h4 h5
    injection h3 with h3
    injection h3 with h3 h5
    subst h3 h5
    exact ⟨rfl, c', h1, h2⟩
  · rintro ⟨rfl, i, h1, h2⟩
    rw [h1]
    simp only [bind, Except.bind, pure, Except.pure, h2]

theorem MC.measurable_runLoop (M : MC ℝ L n) (steps : ℕ) (s : Fin n) (w : List L) :
    MeasurableSet {d | M.runLoop steps d s = .ok w} := by
  induction steps generalizing s w with
  | zero => simp only [runLoop]; exact MeasurableSet.const _
  | succ steps ih =>
    cases w with
    | nil =>
      convert MeasurableSet.empty
      ext d
      simp only [Set.mem_ofPred_eq, Set.mem_empty_iff_false, iff_false]
      intro h
      simp only [runLoop] at h
      rw [Except.bind_eq_ok] at h
      obtain ⟨_, _, h⟩ := h
      rw [Except.bind_eq_ok] at h
      obtain ⟨_, _, h⟩ := h
      injection h with h
      exact absurd h (by simp)
    | cons o w =>
      simp only [runLoop_succ_iff]
      refine MeasurableSet.inter (MeasurableSet.const _) ?_
      exact measurable_bind (M.matrix s) (fun i => {d | M.runLoop steps d i = .ok w}) (fun i => ih i w)

theorem MC.runLoop_law (M : MC ℝ L n) (h0 : ∀ s s', 0 ≤ M.matrix s s') (hm : ∀ s, ∑ s', M.matrix s s' = 1)
    (steps : ℕ) (s : Fin n) (w : List L) (hw : w.length = steps + 1) :
    drawsLaw {d | M.runLoop steps d s = .ok w}
      = ENNReal.ofReal (sufProb M.matrix (fun s o => if M.labelling s = o then 1 else 0) s w) := by
  induction steps generalizing s w with
  | zero =>
    obtain ⟨o, rfl⟩ := List.length_eq_one_iff.1 hw
    by_cases h : M.labelling s = o
    · have : {d : ℕ → ℝ | M.runLoop 0 d s = .ok [o]} = Set.univ := by
        ext d; simp [runLoop, h]
      rw [this, measure_univ]
      simp [sufProb, h]
    · have : {d : ℕ → ℝ | M.runLoop 0 d s = .ok [o]} = ∅ := by
        ext d; simp [runLoop, h]
      rw [this, measure_empty]
      simp [sufProb, h]
  | succ steps ih =>
    cases w with
    | nil => simp at hw
    | cons o w =>
      cases w with
      | nil => simp at hw
      | cons o' w =>
        simp only [runLoop_succ_iff]
        simp only [sufProb]
        by_cases h : M.labelling s = o
        · simp only [h, true_and, if_true, one_mul]
          rw [show {d : ℕ → ℝ | ∃ i, pick (M.matrix s) (d 0) = .ok i ∧ M.runLoop steps (fun k => d (k+1)) i = .ok (o' :: w)}
            = {d : ℕ → ℝ | ∃ i, pick (M.matrix s) (d 0) = .ok i ∧ (fun k => d (k+1)) ∈ {d | M.runLoop steps d i = .ok (o' :: w)}} from rfl]
          rw [drawsLaw_bind _ (h0 s) (hm s).le _ (fun i => M.measurable_runLoop steps i _)]
          rw [ENNReal.ofReal_sum_of_nonneg]
          · apply Finset.sum_congr rfl
            intro i _
            rw [ih i (o' :: w) (by simpa using hw), ENNReal.ofReal_mul (h0 _ _)]
          · intro i _
            exact mul_nonneg (h0 _ _) (sufProb_nonneg _ _ h0 (fun _ _ => by split_ifs <;> norm_num) _ _)
        · simp [h]

/-- C22, MC: over independent uniform draws, the probability that `run(number_steps)` returns a given trace of
`number_steps+1` labels is the likelihood of that trace. -/
theorem MC.run_law (M : MC ℝ L n) (hi0 : ∀ s, 0 ≤ M.initialState s) (hi : ∑ s, M.initialState s = 1)
    (h0 : ∀ s s', 0 ≤ M.matrix s s') (hm : ∀ s, ∑ s', M.matrix s s' = 1) (steps : ℕ) (w : List L)
    (hw : w.length = steps + 1) :
    ∃ p, M.iface.seqProb w = .ok p ∧ drawsLaw {d | M.run steps d = .ok w} = ENNReal.ofReal p := by
  cases w with
  | nil => simp at hw
  | cons o os =>
    refine ⟨_, M.seqProb_eq_paths _ (by simp), ?_⟩
    have e : {d : ℕ → ℝ | M.run steps d = .ok (o :: os)}
        = {d : ℕ → ℝ | ∃ i, pick M.initialState (d 0) = .ok i ∧ (fun k => d (k+1)) ∈ {d | M.runLoop steps d i = .ok (o :: os)}} := by
      ext d
      simp only [Set.mem_ofPred_eq, run]
      rw [Except.bind_eq_ok]
    rw [e, drawsLaw_bind _ hi0 hi.le _ (fun i => M.measurable_runLoop steps i _), listProb_eq_sufProb,
      ENNReal.ofReal_sum_of_nonneg]
    · apply Finset.sum_congr rfl
      intro i _
      rw [M.runLoop_law h0 hm steps i _ hw, ENNReal.ofReal_mul (hi0 _)]
    · intro i _
      exact mul_nonneg (hi0 _) (sufProb_nonneg _ _ h0 (fun _ _ => by split_ifs <;> norm_num) _ _)

example : ∃ p, (exMC ℝ).iface.seqProb [2, 0, 0, 1] = .ok p ∧
    drawsLaw {d | (exMC ℝ).run 3 d = .ok [2, 0, 0, 1]} = ENNReal.ofReal p := by
  apply MC.run_law
  · intro s; fin_cases s <;> simp [exMC]
  · simp [exMC, Fin.sum_univ_succ]
  · intro s s'; fin_cases s <;> fin_cases s' <;> simp [exMC]
  · intro s; fin_cases s <;> simp [exMC, Fin.sum_univ_succ]; norm_num
  · rfl

theorem HMM.runLoop_succ_iff (M : HMM ℝ L n) (hn : M.alphabet.Nodup) (steps : ℕ) (d : ℕ → ℝ) (s : Fin n) (o : L) (w : List L) :
    M.runLoop (steps+1) d s = .ok (o :: w) ↔
      ∃ i, pick (M.matrix s) (d 0) = .ok i ∧ ∃ j, pick (M.output s) (d 1) = .ok j ∧ (M.alphabet[j] = o ∧
        M.runLoop steps (fun k => d (k+2)) i = .ok w) := by
  simp only [runLoop, next, nextObs]
  constructor
  · intro h
    rw [Except.bind_eq_ok] at h
    obtain ⟨⟨c, l⟩, h1, h2⟩ := h
    rw [Except.bind_eq_ok] at h1 h2
    obtain ⟨rest, h2, h3⟩ := h2
    obtain ⟨c', h1, h4⟩ := h1
    rw [Except.bind_eq_ok] at h4
    obtain ⟨o', h4, h6⟩ := h4
    rw [Except.bind_eq_ok] at h4
    obtain ⟨j, h4, h7⟩ := h4
    injection h6 with h6
    injection h6 with h6 h5
    subst h6 h5
    injection h7 with h7
    injection h3 with h3
    injection h3 with h3 h5
    subst h3 h5
    exact ⟨c', h1, j, h4, h7, h2⟩
  · rintro ⟨i, h1, j, h2, rfl, h3⟩
    rw [h1, h2]
    simp only [bind, Except.bind, pure, Except.pure, h3]

theorem HMM.measurable_runLoop (M : HMM ℝ L n) (hn : M.alphabet.Nodup) (steps : ℕ) (s : Fin n) (w : List L) :
    MeasurableSet {d | M.runLoop steps d s = .ok w} := by
  induction steps generalizing s w with
  | zero => simp only [runLoop]; exact MeasurableSet.const _
  | succ steps ih =>
    cases w with
    | nil =>
      convert MeasurableSet.empty
      ext d
      simp only [Set.mem_ofPred_eq, Set.mem_empty_iff_false, iff_false]
      intro h
      simp only [runLoop] at h
      rw [Except.bind_eq_ok] at h
      obtain ⟨_, _, h⟩ := h
      rw [Except.bind_eq_ok] at h
      obtain ⟨_, _, h⟩ := h
      injection h with h
      exact absurd h (by simp)
    | cons o w =>
      simp only [runLoop_succ_iff M hn]
      refine measurable_bind (M.matrix s) (fun i => {d | ∃ j, pick (M.output s) (d 0) = .ok j ∧ (M.alphabet[j] = o ∧
        M.runLoop steps (fun k => d (k+1)) i = .ok w)}) (fun i => ?_)
      refine measurable_bind (M.output s) (fun j => {d | M.alphabet[j] = o ∧ M.runLoop steps d i = .ok w}) (fun j => ?_)
      exact MeasurableSet.inter (MeasurableSet.const _) (ih i w)

theorem HMM.runLoop_law (M : HMM ℝ L n) (hn : M.alphabet.Nodup) (h0 : ∀ s s', 0 ≤ M.matrix s s')
    (hm : ∀ s, ∑ s', M.matrix s s' = 1) (ho : ∀ s i, 0 ≤ M.output s i) (ho1 : ∀ s, ∑ i, M.output s i = 1)
    (steps : ℕ) (s : Fin n) (w : List L) (hw : w.length = steps) :
    drawsLaw {d | M.runLoop steps d s = .ok w} = ENNReal.ofReal (sufProb M.matrix M.b s w) := by
  induction steps generalizing s w with
  | zero =>
    obtain rfl := List.length_eq_zero_iff.1 hw
    have : {d : ℕ → ℝ | M.runLoop 0 d s = .ok []} = Set.univ := by
      ext d; simp [runLoop]
    rw [this, measure_univ]
    simp [sufProb]
  | succ steps ih =>
    cases w with
    | nil => simp at hw
    | cons o w =>
      simp only [runLoop_succ_iff M hn]
      have hms : ∀ (i : Fin n) (j : Fin M.alphabet.length),
          MeasurableSet {d : ℕ → ℝ | M.alphabet[j] = o ∧ M.runLoop steps d i = .ok w} :=
        fun i j => MeasurableSet.inter (MeasurableSet.const _) (M.measurable_runLoop hn steps i w)
      have hinner : ∀ i, drawsLaw {d | ∃ j, pick (M.output s) (d 0) = .ok j ∧ (fun k => d (k+1)) ∈ {d | M.alphabet[j] = o ∧
          M.runLoop steps d i = .ok w}} = ENNReal.ofReal (M.b s o * sufProb M.matrix M.b i w) := by
        intro i
        rw [drawsLaw_bind _ (ho s) (ho1 s).le _ (hms i)]
        by_cases h : o ∈ M.alphabet
        · obtain ⟨j, hj, hj'⟩ := List.mem_iff_getElem.1 h
          rw [Finset.sum_eq_single (⟨j, hj⟩ : Fin M.alphabet.length)]
          · have e : {d : ℕ → ℝ | M.alphabet[(⟨j, hj⟩ : Fin M.alphabet.length)] = o ∧ M.runLoop steps d i = .ok w}
                = {d : ℕ → ℝ | M.runLoop steps d i = .ok w} := by
              ext d; simp [hj']
            rw [e, ih i w (by simpa using hw), ← (M.b_spec hn s).1]
            rw [show M.alphabet[(⟨j, hj⟩ : Fin M.alphabet.length)] = o from hj']
            rw [ENNReal.ofReal_mul (M.b_nonneg ho _ _)]
          · intro k _ hk
            have e : {d : ℕ → ℝ | M.alphabet[k] = o ∧ M.runLoop steps d i = .ok w} = ∅ := by
              ext d
              simp only [Set.mem_ofPred_eq, Set.mem_empty_iff_false, iff_false, not_and]
              intro hko
              exfalso
              apply hk
              apply Fin.ext
              exact (hn.getElem_inj_iff (hi := k.2) (hj := hj)).1 (by rw [hj']; exact hko)
            rw [e, measure_empty, mul_zero]
          · intro h; exact absurd (Finset.mem_univ _) h
        · rw [(M.b_spec hn s).2 o h]
          rw [Finset.sum_eq_zero]
          · simp
          · intro k _
            have e : {d : ℕ → ℝ | M.alphabet[k] = o ∧ M.runLoop steps d i = .ok w} = ∅ := by
              ext d
              simp only [Set.mem_ofPred_eq, Set.mem_empty_iff_false, iff_false, not_and]
              intro hko
              exact absurd (hko ▸ List.getElem_mem _) h
            rw [e, measure_empty, mul_zero]
      have houter := drawsLaw_bind (M.matrix s) (h0 s) (hm s).le
        (fun i => {d | ∃ j, pick (M.output s) (d 0) = .ok j ∧ (fun k => d (k+1)) ∈ {d | M.alphabet[j] = o ∧
          M.runLoop steps d i = .ok w}})
        (fun i => measurable_bind (M.output s) _ (hms i))
      refine Eq.trans houter ?_
      simp only [hinner]
      have hnn : ∀ i, 0 ≤ M.b s o * sufProb M.matrix M.b i w := fun i =>
        mul_nonneg (M.b_nonneg ho _ _) (sufProb_nonneg _ _ h0 (M.b_nonneg ho) _ _)
      have e : ∑ i, ENNReal.ofReal (M.matrix s i) * ENNReal.ofReal (M.b s o * sufProb M.matrix M.b i w)
          = ENNReal.ofReal (∑ i, M.matrix s i * (M.b s o * sufProb M.matrix M.b i w)) := by
        rw [ENNReal.ofReal_sum_of_nonneg (fun i _ => mul_nonneg (h0 _ _) (hnn i))]
        exact Finset.sum_congr rfl (fun i _ => (ENNReal.ofReal_mul (h0 _ _)).symm)
      rw [e]
      congr 1
      cases w with
      | nil => simp [sufProb, ← Finset.sum_mul, hm]
      | cons o' w =>
        simp only [sufProb, Finset.mul_sum]
        apply Finset.sum_congr rfl; intro i _
        ring

/-- C22, HMM: over independent uniform draws, the probability that `run(number_steps)` returns a given non-empty trace
of `number_steps` letters is the likelihood of that trace. -/
theorem HMM.run_law (M : HMM ℝ L n) (hn : M.alphabet.Nodup) (hi0 : ∀ s, 0 ≤ M.initialState s)
    (hi : ∑ s, M.initialState s = 1) (h0 : ∀ s s', 0 ≤ M.matrix s s') (hm : ∀ s, ∑ s', M.matrix s s' = 1)
    (ho : ∀ s i, 0 ≤ M.output s i) (ho1 : ∀ s, ∑ i, M.output s i = 1) (steps : ℕ) (hs : 0 < steps) (w : List L)
    (hw : w.length = steps) :
    ∃ p, M.iface.seqProb w = .ok p ∧ drawsLaw {d | M.run steps d = .ok w} = ENNReal.ofReal p := by
  cases w with
  | nil => simp at hw; omega
  | cons o os =>
    refine ⟨_, M.seqProb_eq_paths _ (by simp), ?_⟩
    have e : {d : ℕ → ℝ | M.run steps d = .ok (o :: os)}
        = {d : ℕ → ℝ | ∃ i, pick M.initialState (d 0) = .ok i ∧ (fun k => d (k+1)) ∈ {d | M.runLoop steps d i = .ok (o :: os)}} := by
      ext d
      simp only [Set.mem_ofPred_eq, run]
      rw [Except.bind_eq_ok]
    rw [e, drawsLaw_bind _ hi0 hi.le _ (fun i => M.measurable_runLoop hn steps i _), listProb_eq_sufProb,
      ENNReal.ofReal_sum_of_nonneg]
    · apply Finset.sum_congr rfl
      intro i _
      rw [M.runLoop_law hn h0 hm ho ho1 steps i _ hw, ENNReal.ofReal_mul (hi0 _)]
    · intro i _
      exact mul_nonneg (hi0 _) (sufProb_nonneg _ _ h0 (M.b_nonneg ho) _ _)

end law
end Jajapy
