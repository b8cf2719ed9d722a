import Mathlib.MeasureTheory.Integral.Pi
import Verif.Lemmas.BWGoHMM
import Verif.Props.Simulation

/-!
Properties C19, C20, C21 and C25 for Gaussian-observation hidden Markov models.
-/

set_option linter.unusedSectionVars false

namespace Jajapy

open Finset Spec MeasureTheory ProbabilityTheory

section gohmm
variable {n d : ℕ}

/-- A two-state model with one distribution per state; state 1 can be left only through its loop. -/
noncomputable def exGo : GoHMM 2 1 where
  matrix := ![![1/2, 1/2], ![0, 1]]
  mu := ![![0], ![1]]
  sigma := ![![1], ![2]]
  initialState := ![1, 0]

theorem exGo_valid : exGo.Valid := by
  refine ⟨fun s => ?_, ?_, fun s s' => ?_, fun s => ?_, fun s i => ?_⟩
  · fin_cases s <;> simp [exGo]
  · simp [exGo]
  · fin_cases s <;> fin_cases s' <;> simp [exGo]
  · fin_cases s <;> simp [exGo, Fin.sum_univ_two]; norm_num
  · fin_cases s <;> fin_cases i <;> simp [exGo]

theorem exGo_sigma (s : Fin 2) (i : Fin 1) : 0 < exGo.sigma s i := by
  fin_cases s <;> fin_cases i <;> simp [exGo]

/-! ### C19 -/

/-- C19: `b_n` is the density of the normal distribution; it is 1 at the mean and 0 elsewhere when the standard deviation
is 0. -/
theorem GoHMM.bn_spec (M : GoHMM n d) (s : Fin n) (i : Fin d) (x : ℝ) :
    (0 < M.sigma s i → M.bn s i x = gaussianPDFReal (M.mu s i) (Real.toNNReal (M.sigma s i ^ 2)) x) ∧
    (M.sigma s i = 0 → M.bn s i x = if x = M.mu s i then 1 else 0) := by
  refine ⟨fun h => ?_, fun h => ?_⟩
  · rw [M.bn_eq s i x h.le]
    unfold normalWeight
    rw [if_neg h.ne']
  · unfold bn
    rw [if_pos h.le]

theorem GoHMM.integral_emit (M : GoHMM n d) (s : Fin n) (hs : ∀ i, 0 < M.sigma s i) : ∫ o, M.emit s o = 1 := by
  unfold emit
  rw [integral_fintype_prod_volume_eq_prod (fun i x => normalWeight (M.mu s i) (M.sigma s i) x)]
  refine Finset.prod_eq_one (fun i _ => ?_)
  have e : (fun x => normalWeight (M.mu s i) (M.sigma s i) x)
      = gaussianPDFReal (M.mu s i) (Real.toNNReal (M.sigma s i ^ 2)) := by
    funext x; unfold normalWeight; rw [if_neg (hs i).ne']
  rw [e]
  exact integral_gaussianPDFReal_eq_one _ (Real.toNNReal_pos.mpr (by have := hs i; positivity)).ne'

/-- C19: `tau` is the transition probability times the emission density of the state that is left; over all the
observations and all the successors it adds up to 1. -/
theorem GoHMM.tau_spec (M : GoHMM n d) (hm : ∀ s, ∑ s', M.matrix s s' = 1) (s : Fin n) (hs : ∀ i, 0 < M.sigma s i) :
    (∀ s' o, M.tau s s' o = M.matrix s s' * M.emit s o) ∧ ∑ s', ∫ o, M.tau s s' o = 1 := by
  have h1 : ∀ s' o, M.tau s s' o = M.matrix s s' * M.emit s o := by
    intro s' o
    unfold tau b emit
    rw [Finset.prod_congr rfl (fun i _ => M.bn_eq s i _ (hs i).le)]
  refine ⟨h1, ?_⟩
  simp only [h1, integral_const_mul, M.integral_emit s hs, mul_one, hm]

example : (∀ s, ∑ s', exGo.matrix s s' = 1) ∧ ∀ i, 0 < exGo.sigma 0 i := ⟨exGo_valid.2.2.2.1, exGo_sigma 0⟩

/-! ### C25 -/

/-- C25: the density reported for a trace is the sum over the state paths. -/
theorem GoHMM.seqProb_eq_paths (M : GoHMM n d) (hs : ∀ s i, 0 ≤ M.sigma s i) (w : List (Fin d → ℝ)) (hw : w ≠ []) :
    M.iface.seqProb w = .ok (M.lik w) := by
  have e := Iface.seqProb_eq M.iface M.matrix (fun _ _ _ => rfl) w hw
  rw [e]
  unfold lik
  congr 2
  funext s o
  exact M.b_eq_emit hs s o

/-- C25, whole sets. -/
theorem GoHMM.logLikelihood_spec (M : GoHMM n d) (hs : ∀ s i, 0 ≤ M.sigma s i) (cpus : ℕ) (hc : 2 ≤ cpus)
    (S : TSet (Fin d → ℝ)) (hne : ∀ w ∈ S.sequences, w ≠ []) :
    M.iface.logLikelihoodMultiproc cpus S = .ok (avgLogLik M.lik S) :=
  Iface.multiproc_eq _ _ cpus hc S (fun w hw => M.seqProb_eq_paths hs w (hne w hw))

/-- The density of a one-observation trace of the example. -/
theorem exGo_lik (x : ℝ) : exGo.lik [fun _ => x] = gaussianPDFReal 0 1 x := by
  unfold GoHMM.lik
  rw [listProb_eq_sufProb]
  simp [sufProb, Fin.sum_univ_two, exGo, GoHMM.emit, GoHMM.normalWeight]

/-! ### C20, C21 -/

theorem GoHMM.runLoop_spec (M : GoHMM n d) (h0 : ∀ s s', 0 ≤ M.matrix s s') (hs : ∀ s i, 0 ≤ M.sigma s i)
    (steps : ℕ) (r : ℕ → ℝ) (hr : ∀ k, 0 ≤ r k) (z : ℕ → Fin d → ℝ)
    (s : Fin n) (w : List (Fin d → ℝ)) (h : M.runLoop steps r z s = .ok w) :
    w.length = steps ∧ 0 < sufProb M.matrix M.emit s w := by
  induction steps generalizing r z s w with
  | zero =>
    simp only [runLoop] at h
    injection h with h
    subst h
    simp [sufProb]
  | succ steps ih =>
    simp only [runLoop] at h
    rw [Except.bind_eq_ok] at h
    obtain ⟨⟨c, l⟩, h1, h2⟩ := h
    rw [Except.bind_eq_ok] at h2
    obtain ⟨rest, h2, h3⟩ := h2
    simp only [next] at h1
    rw [Except.bind_eq_ok] at h1
    obtain ⟨c', h1, h4⟩ := h1
    injection h4 with h4
    injection h4 with h4 h5
    subst h4 h5
    injection h3 with h3
    subst h3
    obtain ⟨i1, i3⟩ := ih _ (fun k => hr (k+1)) _ c' rest h2
    have hp := pick_pos _ (h0 s) _ (hr 0) _ h1
    have he : 0 < M.emit s (M.nextObs s (z 0)) := by
      refine Finset.prod_pos (fun i _ => ?_)
      rcases (hs s i).eq_or_lt with h | h
      · unfold normalWeight nextObs
        rw [← h, if_pos rfl]
        simp
      · exact normalWeight_pos _ _ _ h
    refine ⟨by simp [i1], ?_⟩
    cases rest with
    | nil => simpa [sufProb] using he
    | cons o os =>
      simp only [sufProb] at i3 ⊢
      exact mul_pos he (Finset.sum_pos' (fun s' _ => mul_nonneg (h0 _ _) (sufProb_nonneg _ _ h0 M.emit_nonneg _ _))
          ⟨c', Finset.mem_univ _, mul_pos hp i3⟩)

/-- C20 and C21: a trace returned by `run(number_steps)` has `number_steps` observations and (unless it is empty) has
positive density. -/
theorem GoHMM.run_spec (M : GoHMM n d) (hi0 : ∀ s, 0 ≤ M.initialState s) (h0 : ∀ s s', 0 ≤ M.matrix s s')
    (hs : ∀ s i, 0 ≤ M.sigma s i) (steps : ℕ) (r : ℕ → ℝ) (hr : ∀ k, 0 ≤ r k) (z : ℕ → Fin d → ℝ)
    (w : List (Fin d → ℝ)) (h : M.run steps r z = .ok w) :
    w.length = steps ∧ (0 < steps → 0 < M.lik w) := by
  unfold run at h
  rw [Except.bind_eq_ok] at h
  obtain ⟨c, h1, h2⟩ := h
  obtain ⟨i1, i3⟩ := M.runLoop_spec h0 hs steps _ (fun k => hr (k+1)) _ c w h2
  have hp := pick_pos _ hi0 _ (hr 0) _ h1
  refine ⟨i1, fun hst => ?_⟩
  cases w with
  | nil => simp at i1; omega
  | cons o os =>
    unfold lik
    rw [listProb_eq_sufProb]
    exact Finset.sum_pos' (fun s' _ => mul_nonneg (hi0 _) (sufProb_nonneg _ _ h0 M.emit_nonneg _ _))
      ⟨c, Finset.mem_univ _, mul_pos hp i3⟩

/-- C20: the simulation of a valid model never raises. -/
theorem GoHMM.run_total (M : GoHMM n d) (hM : M.Valid) (steps : ℕ) (r : ℕ → ℝ) (hr : ∀ k, 0 ≤ r k ∧ r k < 1)
    (z : ℕ → Fin d → ℝ) : ∃ w, M.run steps r z = .ok w := by
  obtain ⟨hi0, hi, h0, hm, _⟩ := hM
  have key : ∀ (steps : ℕ) (r : ℕ → ℝ) (z : ℕ → Fin d → ℝ) (s : Fin n), (∀ k, 0 ≤ r k ∧ r k < 1) →
      ∃ w, M.runLoop steps r z s = .ok w := by
    intro steps
    induction steps with
    | zero => intro r z s _; exact ⟨_, rfl⟩
    | succ steps ih =>
      intro r z s hr
      obtain ⟨i, hi, -⟩ := pick_total _ (h0 s) (hm s) (r 0) (hr 0).1 (hr 0).2
      obtain ⟨w, hw⟩ := ih (fun k => r (k+1)) (fun k => z (k+1)) i (fun k => hr (k+1))
      refine ⟨M.nextObs s (z 0) :: w, ?_⟩
      simp only [runLoop, next, hi]
      simp only [bind, Except.bind, pure, Except.pure, hw]
  obtain ⟨i, hi, -⟩ := pick_total _ hi0 hi (r 0) (hr 0).1 (hr 0).2
  obtain ⟨w, hw⟩ := key steps (fun k => r (k+1)) z i (fun k => hr (k+1))
  refine ⟨w, ?_⟩
  unfold run
  rw [hi]
  exact hw

/-- The hypotheses are met: the example can be simulated, and what comes out has positive density. -/
example (z : ℕ → Fin 1 → ℝ) : ∃ w, exGo.run 3 (fun _ => 1/2) z = .ok w ∧ w.length = 3 ∧ 0 < exGo.lik w := by
  obtain ⟨w, hw⟩ := exGo.run_total exGo_valid 3 (fun _ => 1/2) (fun _ => by norm_num) z
  obtain ⟨h1, h2⟩ := exGo.run_spec exGo_valid.1 exGo_valid.2.2.1 (fun s i => (exGo_sigma s i).le) 3 _
    (fun _ => by norm_num) z w hw
  exact ⟨w, hw, h1, h2 (by norm_num)⟩

end gohmm
end Jajapy
