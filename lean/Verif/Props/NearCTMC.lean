import Verif.Props.Near
import Verif.Props.FoldingCTMC

/-!
Property C110, continuous-time Markov chains and timed traces.
-/

set_option linter.unusedSectionVars false
set_option autoImplicit false

namespace Jajapy

open Spec BW

namespace CTMC
variable {L : Type} [DecidableEq L] {n : ℕ} {c E : ℝ} {M M' : CTMC ℝ L n}

theorem Near.e (h : Near c M M') (s : Fin n) : Spec.Near c (M.e s) (M'.e s) := Spec.Near.sum _ _ _ (fun t _ => h.matrix s t)

/-- The factor for one step of the time `t`. -/
noncomputable def stepFactor (c E t : ℝ) : ℝ := c * Real.exp ((c - 1) * E * |t|)

theorem one_le_stepFactor (hc : 1 ≤ c) (hE : 0 ≤ E) (t : ℝ) : 1 ≤ stepFactor c E t :=
  one_le_mul_of_one_le_of_one_le hc (Real.one_le_exp (mul_nonneg (mul_nonneg (by linarith) hE) (abs_nonneg t)))

theorem exp_near (hc : 1 ≤ c) {x y : ℝ} (h : Spec.Near c x y) (hx : x ≤ E) (hy : y ≤ E) (t : ℝ) :
    Spec.Near (Real.exp ((c - 1) * E * |t|)) (Real.exp (-x * t)) (Real.exp (-y * t)) := by
  have h1 : |x - y| ≤ (c - 1) * E := by
    rw [abs_le]
    constructor
    · have := h.2.2.2
      nlinarith [h.1]
    · have := h.2.2.1
      nlinarith [h.2.1]
  have h2 : |(x - y) * t| ≤ (c - 1) * E * |t| := by
    rw [abs_mul]
    exact mul_le_mul_of_nonneg_right h1 (abs_nonneg t)
  rw [abs_le] at h2
  refine ⟨(Real.exp_pos _).le, (Real.exp_pos _).le, ?_, ?_⟩
  · rw [← Real.exp_add, Real.exp_le_exp]
    linarith [h2.1]
  · rw [← Real.exp_add, Real.exp_le_exp]
    linarith [h2.2]

theorem Near.tauTimed (hc : 1 ≤ c) (h : Near c M M') (hE : ∀ s, M.e s ≤ E) (hE' : ∀ s, M'.e s ≤ E) (s t : Fin n) (p : Sym L × ℝ) :
    Spec.Near (stepFactor c E p.2) (M.tauTimed s t p) (M'.tauTimed s t p) := by
  unfold CTMC.tauTimed stepFactor
  rw [h.labelling]
  refine Spec.Near.mul ?_ (exp_near hc (h.e s) (hE s) (hE' s) p.2) (zero_le_one.trans hc)
  split_ifs
  · exact Spec.Near.zero
  · exact h.matrix s t

theorem Near.maskTimed (h : Near c M M') (o : Sym L) (s : Fin n) : Spec.Near 1 (M.maskTimed o s) (M'.maskTimed o s) := by
  unfold CTMC.maskTimed
  rw [h.labelling]
  split_ifs
  · exact Spec.Near.refl zero_le_one le_rfl
  · exact Spec.Near.refl le_rfl le_rfl

/-- The factor for a trace: `c` for the initial state, and one for each step. -/
noncomputable def traceFactor (c E : ℝ) (ps : List ℝ) : ℝ := c ^ (ps.length + 1) * Real.exp ((c - 1) * E * (ps.map (fun t => |t|)).sum)

theorem prod_stepFactor {A : Type} (f : A → ℝ) (ps : List A) : c * (ps.map (fun p => stepFactor c E (f p))).prod = traceFactor c E (ps.map f) := by
  unfold traceFactor
  induction ps with
  | nil => simp
  | cons p ps ih =>
    have h2 : c * (stepFactor c E (f p) * (List.map (fun p => stepFactor c E (f p)) ps).prod)
        = stepFactor c E (f p) * (c * (List.map (fun p => stepFactor c E (f p)) ps).prod) := by ring
    simp only [List.map_cons, List.prod_cons, List.sum_cons, List.length_cons]
    rw [h2, ih, stepFactor, mul_add, Real.exp_add, pow_succ]
    ring

theorem one_le_traceFactor (hc : 1 ≤ c) (hE : 0 ≤ E) (ps : List ℝ) : 1 ≤ traceFactor c E ps :=
  one_le_mul_of_one_le_of_one_le (one_le_pow₀ hc) (Real.one_le_exp (mul_nonneg (mul_nonneg (by linarith) hE)
    (List.sum_nonneg (by intro x hx; obtain ⟨t, -, rfl⟩ := List.mem_map.1 hx; exact abs_nonneg t))))

/-- C110, CTMC: the density of a timed trace. `E` is a bound of the exit rates. -/
theorem density_near (hc : 1 ≤ c) (h : Near c M M') (hE : ∀ s, M.e s ≤ E) (hE' : ∀ s, M'.e s ≤ E) (w : List (Sym L)) (hw : IsTimed w) :
    Spec.Near (c ^ ((waits w).length + 1) * Real.exp ((c - 1) * E * ((waits w).map (fun t => |t|)).sum)) (M.density w) (M'.density w) := by
  obtain ⟨ps, last, rfl⟩ := exists_timed w hw
  have hn : ∀ s : Fin n, 0 ≤ E := fun s => (h.e s).1.trans (hE s)
  rcases Nat.eq_zero_or_pos n with rfl | hpos
  · unfold density
    rw [totalWeight_eq, totalWeight_eq]
    simpa using Spec.Near.zero
  have hE0 : 0 ≤ E := hn ⟨0, hpos⟩
  have key := totalWeight_near (κ := fun p : L × ℝ => stepFactor c E p.2) (fun p => one_le_stepFactor hc hE0 p.2) (tau := M.rateStep) (tau' := M'.rateStep)
    (fun s t p => by rw [← tauTimed_symStep, ← tauTimed_symStep]; exact h.tauTimed hc hE hE' s t (symStep p))
    (zero_le_one.trans hc) ps M.initialState M'.initialState (M.lastMask (timed ps last)) (M'.lastMask (timed ps last)) h.initial
    (fun s => by rw [← maskTimed_eq, ← maskTimed_eq]; exact h.maskTimed _ s)
  rw [prod_stepFactor] at key
  unfold density
  rw [timedSteps_timed]
  have : waits (timed ps last) = ps.map (fun p => p.2) := waits_timed ps last
  rw [this]
  exact key

theorem Near.valid (h : Near c M M') : M.Valid ∧ M'.Valid :=
  ⟨⟨fun s => (h.initial s).1, fun s t => (h.matrix s t).1⟩, ⟨fun s => (h.initial s).2.1, fun s t => (h.matrix s t).2.1⟩⟩

/-- C110, CTMC: the log-likelihood of a set of timed traces, if both models have a density that is neither 0 nor 1 for some trace (otherwise -9999 is
returned: C30). -/
theorem timedLikelihood_near (hc : 1 ≤ c) (h : Near c M M') (hE0 : 0 ≤ E) (hE : ∀ s, M.e s ≤ E) (hE' : ∀ s, M'.e s ≤ E) (cpus : ℕ) (h2 : 2 ≤ cpus)
    (S : TSet (Sym L)) (hS : ∀ w ∈ S.sequences, IsTimed w) (hlen : S.times.length = S.sequences.length) (ht : ∀ t ∈ S.times, 1 ≤ t)
    (hM : ∃ w ∈ S.sequences, M.density w ≠ 0 ∧ M.density w ≠ 1) (hM' : ∃ w ∈ S.sequences, M'.density w ≠ 0 ∧ M'.density w ≠ 1) :
    ∃ x x', M.logLikelihoodTimed cpus S = .ok x ∧ M'.logLikelihoodTimed cpus S = .ok x' ∧
      |x - x'| ≤ ((S.sequences.zip S.times).map (fun p => (p.2 : ℝ) * (((waits p.1).length + 1) * Real.log c
        + (c - 1) * E * ((waits p.1).map (fun t => |t|)).sum))).sum / (S.times.sum : ℕ) := by
  refine ⟨_, _, (M.logLikelihoodTimed_spec h.valid.1 cpus h2 S hS hlen ht).1 hM, (M'.logLikelihoodTimed_spec h.valid.2 cpus h2 S hS hlen ht).1 hM', ?_⟩
  refine (avgLogLik_near M.density M'.density (fun w => traceFactor c E (waits w)) (fun w => one_le_traceFactor hc hE0 _) S
    (fun w hw => density_near hc h hE hE' w (hS w hw))).trans (le_of_eq ?_)
  congr 3
  funext p
  unfold traceFactor
  rw [Real.log_mul (pow_pos (by linarith) _).ne' (Real.exp_pos _).ne', Real.log_exp, Real.log_pow]
  push_cast
  ring

/-! ### Learning -/

/-- The results of the workers agree up to a factor. -/
def WorkNear (B : ℝ) (w w' : WorkCTMC n) : Prop := (∀ s, Spec.Near B (w.den s) (w'.den s)) ∧ ∀ s t, Spec.Near B (w.num s t) (w'.num s t)

theorem stepOf_near (h : Near c M M') {B : ℝ} (hB1 : 1 ≤ B) (hB : c ≤ B) (processes : ℕ) (fixed : Fin n → Fin n → Bool)
    {res res' : Py (List (Option (WorkCTMC n)))} (hr : SameOutcome (List.Forall₂ (Option.Rel (WorkNear (B ^ 2)))) res res') :
    SameOutcome (fun x y => Near (B ^ 4) x.1 y.1) (stepOf processes M fixed res) (stepOf processes M' fixed res') := by
  unfold stepOf
  have hle : c ≤ B ^ 4 := hB.trans (le_self_pow₀ hB1 (by norm_num))
  refine SameOutcome.bind hr (fun l l' hl => SameOutcome.bind (collect_same _ _ hl) (fun l l' hl => ?_))
  refine ⟨h.labelling, fun s t => ?_, fun s => (h.initial s).mono hle⟩
  have hden : Spec.Near (B ^ 2) (l.map (fun w => w.den s)).sum (l'.map (fun w => w.den s)).sum := Spec.Near.listSum (hl.imp (fun a b hab => hab.1 s))
  have hnum : Spec.Near (B ^ 2) (l.map (fun w => w.num s t)).sum (l'.map (fun w => w.num s t)).sum := Spec.Near.listSum (hl.imp (fun a b hab => hab.2 s t))
  simp only [updateCTMC]
  refine Spec.Near.add ?_ ?_
  · split_ifs
    · simpa using (h.matrix s t).mono hle
    · simpa using Spec.Near.zero
  · by_cases h0 : (l.map (fun w => w.den s)).sum = 0
    · rw [if_pos h0, if_pos (hden.eq_zero.1 h0), div_one, div_one]
      exact (h.matrix s t).mono hle
    · rw [if_neg h0, if_neg (fun h1 => h0 (hden.eq_zero.2 h1))]
      refine (hnum.div hden (pow_nonneg (zero_le_one.trans hB1) _)).mono (le_of_eq ?_)
      rw [← pow_add]

theorem splitTimed_steps (w : List (Sym L)) (hw : IsTimed w) : ∃ r, splitTimed w = .ok r ∧ r.1.map (fun p => p.2) = waits w := by
  obtain ⟨ps, last, rfl⟩ := exists_timed w hw
  refine ⟨_, splitTimed_timed ps last, ?_⟩
  rw [waits_timed, List.map_map]
  rfl

/-- C110, CTMC, one iteration of the learning from timed traces: the new rates are the same up to a factor that only depends on `c`, on a bound `E` of the
exit rates, and on bounds of the number of steps and of the duration of the traces. -/
theorem step_near (hc : 1 ≤ c) (h : Near c M M') (hE0 : 0 ≤ E) (hE : ∀ s, M.e s ≤ E) (hE' : ∀ s, M'.e s ≤ E) (processes : ℕ) (fixed : Fin n → Fin n → Bool)
    (S : TSet (Sym L)) (hS : ∀ w ∈ S.sequences, IsTimed w ∧ ∀ t ∈ waits w, 0 ≤ t) (T : ℕ) (D : ℝ)
    (hT : ∀ w ∈ S.sequences, (waits w).length ≤ T ∧ (waits w).sum ≤ D) :
    SameOutcome (fun x y => Near ((c ^ (T + 1) * Real.exp ((c - 1) * E * D)) ^ 4) x.1 y.1) (stepTimed processes fixed S M) (stepTimed processes fixed S M') := by
  by_cases hS0 : S.sequences.zip S.times = []
  · unfold stepTimed stepOf collect
    rw [hS0]
    simp only [List.mapM_nil, pure, Except.pure, bind, Except.bind, List.filterMap_nil, List.any_nil]
    split_ifs <;> simp_all [SameOutcome]
  have hsum : ∀ l : List ℝ, (∀ t ∈ l, 0 ≤ t) → l.map (fun t => |t|) = l := by
    intro l hl
    exact (List.map_congr_left (fun t ht => abs_of_nonneg (hl t ht))).trans (List.map_id' l)
  have hD : 0 ≤ D := by
    obtain ⟨p, hp⟩ := List.exists_mem_of_ne_nil _ hS0
    have hp1 := (List.of_mem_zip hp).1
    exact (List.sum_nonneg (hS _ hp1).2).trans (hT _ hp1).2
  have hexp : 1 ≤ Real.exp ((c - 1) * E * D) := Real.one_le_exp (mul_nonneg (mul_nonneg (by linarith) hE0) hD)
  have hB1 : 1 ≤ c ^ (T + 1) * Real.exp ((c - 1) * E * D) := one_le_mul_of_one_le_of_one_le (one_le_pow₀ hc) hexp
  have hB : c ≤ c ^ (T + 1) * Real.exp ((c - 1) * E * D) :=
    (le_self_pow₀ hc (by omega)).trans (le_mul_of_one_le_right (pow_nonneg (zero_le_one.trans hc) _) hexp)
  set B := c ^ (T + 1) * Real.exp ((c - 1) * E * D) with hBdef
  unfold stepTimed
  refine stepOf_near h hB1 hB processes fixed (mapM_same (R := fun p q : List (Sym L) × ℕ => q = p ∧ p ∈ S.sequences.zip S.times)
    (List.forall₂_same.2 (fun p hp => ⟨rfl, hp⟩)) ?_)
  rintro q p ⟨rfl, hp⟩
  have hp1 := (List.of_mem_zip hp).1
  obtain ⟨r, hr, hr2⟩ := splitTimed_steps _ (hS _ hp1).1
  have hfac : c * (r.1.map (fun p => stepFactor c E p.2)).prod ≤ B := by
    rw [prod_stepFactor, hr2, traceFactor, hsum _ (hS _ hp1).2, hBdef]
    refine mul_le_mul (pow_le_pow_right₀ hc (by have := (hT _ hp1).1; omega)) ?_ (Real.exp_pos _).le (pow_nonneg (zero_le_one.trans hc) _)
    rw [Real.exp_le_exp]
    exact mul_le_mul_of_nonneg_left (hT _ hp1).2 (mul_nonneg (by linarith) hE0)
  unfold processWorkTimed
  dsimp only
  by_cases h2 : p.1.length < 2
  · rw [if_pos h2, if_pos h2]; rfl
  rw [if_neg h2, if_neg h2, hr]
  dsimp only
  by_cases h3 : p.1.length % 2 = 0
  · rw [if_pos h3, if_pos h3]; rfl
  rw [if_neg h3, if_neg h3]
  have hκ : ∀ o : Sym L × ℝ, 1 ≤ stepFactor c E o.2 := fun o => one_le_stepFactor hc hE0 o.2
  have hl : Spec.Near B (lastSum (maskLast (M.maskTimed r.2) (alphas M.tauTimed M.initialState r.1)))
      (lastSum (maskLast (M'.maskTimed r.2) (alphas M'.tauTimed M'.initialState r.1))) := by
    rw [lastSum_maskLast, lastSum_maskLast]
    exact (totalWeight_near hκ (h.tauTimed hc hE hE') (zero_le_one.trans hc) r.1 _ _ _ _ h.initial (h.maskTimed r.2)).mono hfac
  by_cases hz : lastSum (maskLast (M.maskTimed r.2) (alphas M.tauTimed M.initialState r.1)) = 0
  · rw [if_pos hz, if_pos (hl.eq_zero.1 hz)]
    exact Option.Rel.none
  · rw [if_neg hz, if_neg (fun h1 => hz (hl.eq_zero.2 h1))]
    have hC := (Spec.Near.refl (Nat.cast_nonneg (α := ℝ) p.2) le_rfl).div hl zero_le_one
    rw [one_mul] at hC
    have hpow : c * (r.1.map (fun p => stepFactor c E p.2)).prod * B ≤ B ^ 2 := by
      rw [pow_two]
      exact mul_le_mul_of_nonneg_right hfac (zero_le_one.trans hB1)
    have ht0 : ∀ o ∈ r.1, (0 : ℝ) ≤ o.2 := fun o ho => (hS _ hp1).2 _ (by rw [← hr2]; exact List.mem_map_of_mem ho)
    refine Option.Rel.some ⟨fun s => ?_, fun s t => ?_⟩
    · dsimp only
      rw [visits_mask, visits_mask]
      exact (visits_near hκ (h.tauTimed hc hE hE') (fun x => x.2) hC (M.maskTimed r.2) (M'.maskTimed r.2) (h.maskTimed r.2) r.1 ht0 s
        (zero_le_one.trans hc) _ _ h.initial).mono hpow
    · dsimp only
      split_ifs
      · exact Spec.Near.zero
      · rw [uses_mask, uses_mask]
        exact (uses_near hκ (h.tauTimed hc hE hE') (fun _ => 1) hC (M.maskTimed r.2) (M'.maskTimed r.2) (h.maskTimed r.2) r.1
          (fun _ _ => zero_le_one) s t (zero_le_one.trans hc) _ _ h.initial).mono hpow

end CTMC
end Jajapy
