import Verif.Lemmas.TimedLaw
import Verif.Lemmas.TimedDensity
import Verif.Lemmas.ConsistencyCTMC
import Verif.Spec.TimedEval

set_option linter.unusedSectionVars false

namespace Jajapy

open MeasureTheory ProbabilityTheory Spec Finset Tools BW

theorem timedTrace_inj {L : Type} {k : ℕ} (o o' : (Fin k → L) × L) (ts ts' : Fin k → ℝ) (h : timedTrace o.1 ts o.2 = timedTrace o'.1 ts' o'.2) :
    o = o' ∧ ts = ts' := by
  obtain ⟨os, l⟩ := o
  obtain ⟨os', l'⟩ := o'
  induction k with
  | zero =>
    simp only [timedTrace, List.cons.injEq, Sym.obs.injEq, and_true] at h
    subst h
    exact ⟨Prod.ext (funext (fun i => i.elim0)) rfl, funext (fun i => i.elim0)⟩
  | succ k ih =>
    simp only [timedTrace, List.cons.injEq, Sym.obs.injEq, Sym.time.injEq] at h
    obtain ⟨h1, h2, h3⟩ := h
    obtain ⟨h4, h5⟩ := ih _ _ _ _ h3
    simp only [Prod.mk.injEq] at h4
    refine ⟨Prod.ext (funext (fun i => ?_)) h4.2, funext (fun i => ?_)⟩
    · exact Fin.cases h1 (fun i => congrFun h4.1 i) i
    · exact Fin.cases h2 (fun i => congrFun h5 i) i

theorem timedTrace_ofList {L : Type} (ps : List (L × ℝ)) (last : L) :
    timed ps last = timedTrace (k := ps.length) (fun i => (ps.get i).1) (fun i => (ps.get i).2) last := by
  induction ps with
  | nil => rfl
  | cons p ps ih =>
    simp only [timed, List.length_cons, timedTrace]
    rw [ih]
    rfl

namespace CTMC
variable {L : Type} {n m : ℕ} [DecidableEq L]

theorem mem_shown (G : CTMC ℝ L n) {k : ℕ} (o : (Fin k → L) × L) : o ∈ G.shown k ↔ (∀ i, ∃ s, G.labelling s = o.1 i) ∧ ∃ s, G.labelling s = o.2 := by
  simp [shown, Finset.mem_product, Fintype.mem_piFinset]

/-- The trace of a simulation. -/
theorem run_timedTrace (G : CTMC ℝ L n) (k : ℕ) (p : ℝ × (ℕ → Fin n → ℝ)) (c : Fin n) (hc : pick G.initialState p.1 = .ok c)
    (h : ∀ k c, 0 ≤ G.timeSpent c (p.2 k)) :
    ∃ o ∈ G.shown k, ∃ ts : Fin k → ℝ, (∀ i, 0 ≤ ts i) ∧ G.runTimed k p.1 p.2 = .ok (timedTrace o.1 ts o.2) ∧
      G.total (fun _ _ t => ENNReal.ofReal t) k p.2 c = ENNReal.ofReal (∑ i, ts i) := by
  have e1 : G.runTimed k p.1 p.2 = G.runTimedLoop k p.2 c := by
    unfold runTimed
    rw [hc]
    rfl
  rw [e1]
  generalize p.2 = d at h
  clear e1 hc
  induction k generalizing d c with
  | zero =>
    refine ⟨(fun i => i.elim0, G.labelling c), (G.mem_shown _).2 ⟨fun i => i.elim0, c, rfl⟩, fun i => i.elim0, fun i => i.elim0, rfl, ?_⟩
    simp [total, pathFrom, movesOf]
  | succ k ih =>
    obtain ⟨o, ho, ts, h0, h1, h2⟩ := ih (G.nextState c (d 0)) (fun j => d (j+1)) (fun k c => h (k+1) c)
    rw [mem_shown] at ho
    refine ⟨(Fin.cons (G.labelling c) o.1, o.2), (G.mem_shown _).2 ⟨fun i => ?_, ho.2⟩, Fin.cons (G.timeSpent c (d 0)) ts, fun i => ?_, ?_, ?_⟩
    · exact Fin.cases ⟨c, rfl⟩ (fun i => ho.1 i) i
    · exact Fin.cases (h 0 c) (fun i => h0 i) i
    · simp only [runTimedLoop, next_eq, Bind.bind, Except.bind, h1, timedTrace]
      rfl
    · rw [total_succ, h2, Fin.sum_univ_succ, ENNReal.ofReal_add (by exact h 0 c) (Finset.sum_nonneg (fun i _ => by exact h0 i))]
      rfl

theorem measurable_runTimed (G : CTMC ℝ L n) {k : ℕ} (o : (Fin k → L) × L) (A : Fin k → Set ℝ) (hA : ∀ i, MeasurableSet (A i)) :
    MeasurableSet (boxSet (fun p : ℝ × (ℕ → Fin n → ℝ) => G.runTimed k p.1 p.2) timedTrace o A) := by
  have e : boxSet (fun p : ℝ × (ℕ → Fin n → ℝ) => G.runTimed k p.1 p.2) timedTrace o A
      = ⋃ i, {r | pick G.initialState r = .ok i} ×ˢ G.timedSet o.1 A o.2 i := by
    ext p
    simp only [boxSet, Set.mem_ofPred_eq, runTimed, timedSet, Set.mem_iUnion, Set.mem_prod]
    constructor
    · rintro ⟨ts, hts, h⟩
      rw [Except.bind_eq_ok] at h
      obtain ⟨i, h1, h2⟩ := h
      exact ⟨i, h1, ts, hts, h2⟩
    · rintro ⟨i, h1, ts, hts, h2⟩
      exact ⟨ts, hts, by rw [Except.bind_eq_ok]; exact ⟨i, h1, h2⟩⟩
  rw [e]
  exact MeasurableSet.iUnion (fun i => (measurable_pick _ i).prod (G.measurable_timedSet o.1 A hA o.2 i))

theorem timedRun (G : CTMC ℝ L n) (hG : G.Valid) (hi : ∑ s, G.initialState s = 1) (k : ℕ) :
    TimedRun (simLaw n) (fun p : ℝ × (ℕ → Fin n → ℝ) => G.runTimed k p.1 p.2) timedTrace (G.shown k) where
  inj := timedTrace_inj
  meas := fun o A hA => G.measurable_runTimed o A hA
  total := by
    filter_upwards [G.good_draws hG hi] with p hp
    obtain ⟨⟨c, hc, -⟩, h⟩ := hp
    obtain ⟨o, ho, ts, h0, h1, -⟩ := G.run_timedTrace k p c hc (fun k c => (h k c).2)
    exact ⟨o, ho, ts, h0, h1⟩

theorem onTrace_logOf (N : CTMC ℝ L m) (r : Py (List (Sym L))) : onTrace (fun w => Real.log (N.density w)) r = N.logOf r := by
  cases r <;> rfl

/-- The time of the simulation has a finite mean. -/
theorem lintegral_time (G : CTMC ℝ L n) (hG : G.Valid) (hi : ∑ s, G.initialState s = 1) (he : ∀ s, 0 < G.e s) (k : ℕ) :
    ∫⁻ p, G.simTotal (fun _ _ t => ENNReal.ofReal t) k p ∂simLaw n ≠ ⊤ := by
  have hg : ∀ c i : Fin n, Measurable (fun t : ℝ => ENNReal.ofReal t) := fun _ _ => ENNReal.measurable_ofReal
  rw [G.lintegral_simTotal hG hi _ hg]
  refine ENNReal.sum_ne_top.2 (fun i _ => ENNReal.mul_ne_top ENNReal.ofReal_ne_top (G.meanTotal_ne_top _ hg (fun c => ?_) k i))
  unfold meanStep
  rw [G.time_mean hG.2 c (he c)]
  exact ENNReal.ofReal_ne_top

/-- The logarithm of the density of the generated trace has a finite mean. -/
theorem integrable_value (G : CTMC ℝ L n) (hG : G.Valid) (hi : ∑ s, G.initialState s = 1) (he : ∀ s, 0 < G.e s) (N : CTMC ℝ L m) (hN : N.Valid) (k : ℕ) :
    Integrable (TimedRun.value (fun p : ℝ × (ℕ → Fin n → ℝ) => G.runTimed k p.1 p.2) timedTrace (G.shown k) (fun w => Real.log (N.density w))) (simLaw n) := by
  have R := G.timedRun hG hi k
  have hg : ∀ c i : Fin n, Measurable (fun t : ℝ => ENNReal.ofReal t) := fun _ _ => ENNReal.measurable_ofReal
  choose C E hC hE hb using fun o : (Fin k → L) × L => N.abs_logDensity hN o.1 o.2
  have hint : Integrable (fun p => (G.simTotal (fun _ _ t => ENNReal.ofReal t) k p).toReal) (simLaw n) :=
    integrable_toReal_of_lintegral_ne_top (G.measurable_simTotal _ hg k).aemeasurable (G.lintegral_time hG hi he k)
  have hm : Measurable (TimedRun.value (fun p : ℝ × (ℕ → Fin n → ℝ) => G.runTimed k p.1 p.2) timedTrace (G.shown k) (fun w => Real.log (N.density w))) :=
    R.measurable_value _ (fun o _ => (N.measurable_density o.1 o.2).log)
  refine Integrable.mono' ((integrable_const (∑ o ∈ G.shown k, C o)).add (hint.const_mul (∑ o ∈ G.shown k, E o))) hm.aestronglyMeasurable ?_
  filter_upwards [G.good_draws hG hi] with p hp
  obtain ⟨⟨c, hc, -⟩, h⟩ := hp
  obtain ⟨o, ho, ts, h0, h1, h2⟩ := G.run_timedTrace k p c hc (fun k c => (h k c).2)
  rw [R.value_eq _ p o ho ts h1, Real.norm_eq_abs]
  simp only [Pi.add_apply]
  have hS : 0 ≤ ∑ i, ts i := Finset.sum_nonneg (fun i _ => h0 i)
  rw [G.simTotal_eq _ k p c hc, h2, ENNReal.toReal_ofReal hS]
  refine (hb o ts h0).trans (add_le_add ?_ (mul_le_mul_of_nonneg_right ?_ hS))
  · exact Finset.single_le_sum (f := C) (fun o _ => hC o) ho
  · exact Finset.single_le_sum (f := E) (fun o _ => hE o) ho

theorem orthant_eq (k : ℕ) : {ts : Fin k → ℝ | ∀ i, 0 ≤ ts i} = orthant k := by
  ext ts
  exact mem_orthant.symm

/-- With positive rates, the mean is the integral of the density. -/
theorem integral_logOf (G : CTMC ℝ L n) (hG : G.Valid) (hi : ∑ s, G.initialState s = 1) (hpos : ∀ s s', 0 < G.matrix s s') (he : ∀ s, 0 < G.e s)
    (N : CTMC ℝ L m) (hN : N.Valid) (k : ℕ) : ∫ p, N.logOf (G.runTimed k p.1 p.2) ∂simLaw n = G.expectedLog N k := by
  have R := G.timedRun hG hi k
  have := (R.integral_value (fun o ts => G.density (timedTrace o.1 ts o.2)) (fun o _ => G.measurable_density o.1 o.2) (fun o _ ts => G.density_nn hG _ _ _)
    (fun o _ A hA hA0 => G.runTimed_law_partial hG hi o.1 o.2 A hA hA0 (Or.inr hpos)) (fun w => Real.log (N.density w))
    (fun o _ => (N.measurable_density o.1 o.2).log) (fun o _ => G.integrable_density_log hG he N hN o.1 o.2)).2
  simp only [onTrace_logOf] at this
  rw [this]
  unfold expectedLog
  rw [orthant_eq]
  rfl

/-- More transitions, more possible traces. -/
theorem density_support (G N : CTMC ℝ L n) (hG : G.Valid) (hN : N.Valid) (hl : N.labelling = G.labelling)
    (hi : ∀ s, 0 < G.initialState s → 0 < N.initialState s) (hm : ∀ s s', 0 < G.matrix s s' → 0 < N.matrix s s') {k : ℕ} (os : Fin k → L) (last : L)
    (ts : Fin k → ℝ) (h : 0 < G.density (timedTrace os ts last)) : 0 < N.density (timedTrace os ts last) := by
  have key : ∀ {k : ℕ} (os : Fin k → L) (ts : Fin k → ℝ) (s : Fin n), 0 < G.sufDensity os last s ts → 0 < N.sufDensity os last s ts := by
    intro k
    induction k with
    | zero => intro os ts s h; rw [sufDensity_zero] at h ⊢; rwa [hl]
    | succ k ih =>
      intro os ts s h
      rw [sufDensity_cons] at h ⊢
      obtain ⟨i, -, h⟩ := Finset.exists_lt_of_sum_lt (s := Finset.univ) (f := fun _ : Fin n => (0:ℝ)) (by simpa using h)
      refine Finset.sum_pos' (fun i _ => mul_nonneg (N.rateStep_nonneg hN.2 _ _ _) (N.sufDensity_nonneg hN.2 _ _ _ _)) ⟨i, Finset.mem_univ _, ?_⟩
      have h1 : 0 < G.rateStep s i (os 0, ts 0) := lt_of_le_of_ne (G.rateStep_nonneg hG.2 _ _ _) (left_ne_zero_of_mul h.ne').symm
      refine mul_pos ?_ (ih _ _ i (lt_of_le_of_ne (G.sufDensity_nonneg hG.2 _ _ _ _) (right_ne_zero_of_mul h.ne').symm))
      unfold rateStep at h1 ⊢
      rw [hl]
      split_ifs at h1 ⊢ with hc
      · exact mul_pos (hm _ _ (pos_of_mul_pos_left h1 (Real.exp_pos _).le)) (Real.exp_pos _)
      · exact absurd h1 (lt_irrefl _)
  rw [density_suffix] at h ⊢
  obtain ⟨i, -, h⟩ := Finset.exists_lt_of_sum_lt (s := Finset.univ) (f := fun _ : Fin n => (0:ℝ)) (by simpa using h)
  refine Finset.sum_pos' (fun i _ => mul_nonneg (hN.1 _) (N.sufDensity_nonneg hN.2 _ _ _ _)) ⟨i, Finset.mem_univ _, ?_⟩
  exact mul_pos (hi i (lt_of_le_of_ne (hG.1 i) (left_ne_zero_of_mul h.ne').symm))
    (key _ _ i (lt_of_le_of_ne (G.sufDensity_nonneg hG.2 _ _ _ _) (right_ne_zero_of_mul h.ne').symm))

/-! ### Gibbs' inequality -/

theorem gibbs_key (P Q : ℝ) (hp : 0 ≤ P) (hq : 0 ≤ Q) (hpq : 0 < P → 0 < Q) : 0 ≤ (Q - P) - (P * Real.log Q - P * Real.log P) ∧
    (0 < P → (Q - P) - (P * Real.log Q - P * Real.log P) = 0 → Q = P) := by
  rcases hp.lt_or_eq with hp | rfl
  · have hq := hpq hp
    have hr : 0 < Q / P := div_pos hq hp
    have h2 : P * (Q / P - 1) = Q - P := by field_simp
    have h3 : P * Real.log Q - P * Real.log P = P * Real.log (Q / P) := by rw [Real.log_div hq.ne' hp.ne']; ring
    rw [h3]
    constructor
    · have h1 := mul_le_mul_of_nonneg_left (Real.log_le_sub_one_of_pos hr) hp.le
      linarith
    · intro _ h
      by_contra hne
      have hr1 : Q / P ≠ 1 := by
        intro hc
        rw [div_eq_one_iff_eq hp.ne'] at hc
        exact hne hc
      have h1 := mul_lt_mul_of_pos_left (Real.log_lt_sub_one_of_pos hr hr1) hp
      linarith
  · simp [hq]

theorem sum_density_eq_one (G : CTMC ℝ L n) (hG : G.Valid) (hi : ∑ s, G.initialState s = 1) (hpos : ∀ s s', 0 < G.matrix s s') (he : ∀ s, 0 < G.e s) (k : ℕ) :
    ∑ o ∈ G.shown k, ∫ ts in orthant k, G.density (timedTrace o.1 ts o.2) = 1 := by
  have R := G.timedRun hG hi k
  have := (R.integral_value (fun o ts => G.density (timedTrace o.1 ts o.2)) (fun o _ => G.measurable_density o.1 o.2) (fun o _ ts => G.density_nn hG _ _ _)
    (fun o _ A hA hA0 => G.runTimed_law_partial hG hi o.1 o.2 A hA hA0 (Or.inr hpos)) (fun w => 1)
    (fun o _ => measurable_const) (fun o _ => by simp only [mul_one]; exact G.integrable_density hG he o.1 o.2)).2
  simp only [mul_one] at this
  refine Eq.trans ?_ (this.symm.trans ?_)
  · rfl
  · rw [integral_congr_ae (g := fun _ => (1:ℝ))]
    · simp
    · filter_upwards [R.total] with p hp
      obtain ⟨o, -, ts, -, h⟩ := hp
      rw [h]
      rfl

theorem integrable_density_sub (N : CTMC ℝ L m) (hN : N.Valid) (hi : ∑ s, N.initialState s ≤ 1) {k : ℕ} (o : (Fin k → L) × L) :
    IntegrableOn (fun ts => N.density (timedTrace o.1 ts o.2)) (orthant k) := by
  refine ⟨(N.measurable_density o.1 o.2).aestronglyMeasurable, ?_⟩
  rw [hasFiniteIntegral_iff_ofReal (Filter.Eventually.of_forall (fun ts => N.density_nn hN _ _ _))]
  have h := N.sum_lintegral_density hN hi {o}
  rw [Finset.sum_singleton] at h
  exact lt_of_le_of_lt h ENNReal.one_lt_top

theorem sum_density_le_one (N : CTMC ℝ L m) (hN : N.Valid) (hi : ∑ s, N.initialState s ≤ 1) {k : ℕ} (Q : Finset ((Fin k → L) × L)) :
    ∑ o ∈ Q, ∫ ts in orthant k, N.density (timedTrace o.1 ts o.2) ≤ 1 := by
  have h := N.sum_lintegral_density hN hi Q
  have e : ∀ o ∈ Q, ∫⁻ ts in orthant k, ENNReal.ofReal (N.density (timedTrace o.1 ts o.2))
      = ENNReal.ofReal (∫ ts in orthant k, N.density (timedTrace o.1 ts o.2)) := fun o _ =>
    (ofReal_integral_eq_lintegral_ofReal (N.integrable_density_sub hN hi o) (Filter.Eventually.of_forall (fun ts => N.density_nn hN _ _ _))).symm
  rw [Finset.sum_congr rfl e, ← ENNReal.ofReal_sum_of_nonneg (fun o _ => integral_nonneg (fun ts => N.density_nn hN _ _ _)), ← ENNReal.ofReal_one,
    ENNReal.ofReal_le_ofReal_iff zero_le_one] at h
  exact h

theorem expectedLog_lt (G : CTMC ℝ L n) (hG : G.Valid) (he : ∀ s, 0 < G.e s) (N : CTMC ℝ L m) (hN : N.Valid) (hNi : ∑ s, N.initialState s ≤ 1) (k : ℕ)
    (htot : ∑ o ∈ G.shown k, ∫ ts in orthant k, G.density (timedTrace o.1 ts o.2) = 1)
    (hac : ∀ (os : Fin k → L) last ts, 0 < G.density (timedTrace os ts last) → 0 < N.density (timedTrace os ts last))
    (os0 : Fin k → L) (last0 : L) (ts0 : Fin k → ℝ) (hts0 : ∀ i, 0 ≤ ts0 i) (hp0 : 0 < G.density (timedTrace os0 ts0 last0))
    (hne : N.density (timedTrace os0 ts0 last0) ≠ G.density (timedTrace os0 ts0 last0)) (hmem : (os0, last0) ∈ G.shown k) :
    G.expectedLog N k < G.expectedLog G k := by
  set h : (Fin k → L) × L → (Fin k → ℝ) → ℝ := fun o ts => (N.density (timedTrace o.1 ts o.2) - G.density (timedTrace o.1 ts o.2))
    - (G.density (timedTrace o.1 ts o.2) * Real.log (N.density (timedTrace o.1 ts o.2))
      - G.density (timedTrace o.1 ts o.2) * Real.log (G.density (timedTrace o.1 ts o.2))) with hh
  have i1 := fun o : (Fin k → L) × L => G.integrable_density_log hG he N hN o.1 o.2
  have i2 := fun o : (Fin k → L) × L => G.integrable_density_log hG he G hG o.1 o.2
  have i3 := fun o : (Fin k → L) × L => G.integrable_density hG he o.1 o.2
  have i4 := fun o : (Fin k → L) × L => N.integrable_density_sub hN hNi o
  have hint : ∀ o, IntegrableOn (h o) (orthant k) := fun o => ((i4 o).sub (i3 o)).sub ((i1 o).sub (i2 o))
  have h0 : ∀ o ts, 0 ≤ h o ts := fun o ts => (gibbs_key _ _ (G.density_nn hG _ _ _) (N.density_nn hN _ _ _) (hac _ _ _)).1
  have hI : ∑ o ∈ G.shown k, ∫ ts in orthant k, h o ts
      = (∑ o ∈ G.shown k, ∫ ts in orthant k, N.density (timedTrace o.1 ts o.2)) - 1 - (G.expectedLog N k - G.expectedLog G k) := by
    rw [← htot]
    unfold expectedLog
    rw [orthant_eq, ← Finset.sum_sub_distrib, ← Finset.sum_sub_distrib, ← Finset.sum_sub_distrib]
    refine Finset.sum_congr rfl (fun o _ => ?_)
    have e1 := integral_sub ((i4 o).sub (i3 o)) ((i1 o).sub (i2 o))
    have e2 := integral_sub (i4 o) (i3 o)
    have e3 := integral_sub (i1 o) (i2 o)
    simp only [Pi.sub_apply] at e1
    rw [e2, e3] at e1
    exact e1
  have hle := N.sum_density_le_one hN hNi (G.shown k)
  have hs : 0 < ∑ o ∈ G.shown k, ∫ ts in orthant k, h o ts := by
    refine Finset.sum_pos' (fun o _ => integral_nonneg (h0 o)) ⟨_, hmem, ?_⟩
    refine lt_of_le_of_ne (integral_nonneg (h0 _)) (fun hc => ?_)
    have hz := (integral_eq_zero_iff_of_nonneg (h0 _) (hint _)).1 hc.symm
    have gp : ∀ ts, 0 < G.density (timedTrace os0 ts last0) := by
      rcases G.density_ge hG os0 last0 with hz | ⟨hz, -⟩
      · rw [hz] at hp0; exact absurd hp0 (lt_irrefl _)
      · exact hz
    have np : ∀ ts, 0 < N.density (timedTrace os0 ts last0) := fun ts => hac _ _ _ (gp ts)
    have hcont : Continuous (h (os0, last0)) := by
      have c1 := G.continuous_density os0 last0
      have c2 := N.continuous_density os0 last0
      exact (c2.sub c1).sub ((c1.mul (c2.log (fun w => (np w).ne'))).sub (c1.mul (c1.log (fun w => (gp w).ne'))))
    have hcl : orthant k ⊆ closure (interior (orthant k)) := by
      unfold orthant
      rw [interior_pi_set Set.finite_univ, closure_pi_set]
      refine Set.pi_mono (fun i _ => ?_)
      rw [interior_Ici, closure_Ioi]
    have := Measure.eqOn_of_ae_eq (μ := volume) hz hcont.continuousOn continuousOn_const hcl (mem_orthant.2 hts0)
    exact hne ((gibbs_key _ _ (G.density_nn hG _ _ _) (N.density_nn hN _ _ _) (hac os0 last0 ts0)).2 hp0 this)
  linarith

end CTMC
end Jajapy
