import Verif.Props.CTMCSimTimed

set_option linter.unusedSectionVars false

/-!
Bounds on the density of the timed traces of a CTMC, as a function of the times.
-/

namespace Jajapy

open MeasureTheory ProbabilityTheory Spec Finset Tools BW

namespace CTMC
variable {L : Type} {n : ℕ} [DecidableEq L]

theorem density_suffix (M : CTMC ℝ L n) {k : ℕ} (os : Fin k → L) (last : L) (ts : Fin k → ℝ) :
    M.density (timedTrace os ts last) = ∑ s, M.initialState s * M.sufDensity os last s ts := by
  rw [timedTrace_eq]
  unfold density
  rw [totalWeight_eq, timedSteps_timed]
  have hm : M.lastMask (timed (List.ofFn (fun i => (os i, ts i))) last) = fun s' => if last = M.labelling s' then 1 else 0 := by
    funext s'
    unfold lastMask
    rw [observations_timed]
    simp
  rw [hm]
  rfl

theorem sufDensity_zero (M : CTMC ℝ L n) (os : Fin 0 → L) (last : L) (s : Fin n) (ts : Fin 0 → ℝ) :
    M.sufDensity os last s ts = if last = M.labelling s then 1 else 0 := by
  simp [sufDensity]

theorem measurable_density (M : CTMC ℝ L n) {k : ℕ} (os : Fin k → L) (last : L) : Measurable (fun ts => M.density (timedTrace os ts last)) := by
  simp only [density_suffix]
  exact Finset.measurable_sum _ (fun s _ => (M.measurable_sufDensity os last s).const_mul _)

theorem continuous_sufDensity (M : CTMC ℝ L n) {k : ℕ} (os : Fin k → L) (last : L) (s : Fin n) : Continuous (M.sufDensity os last s) := by
  induction k generalizing s with
  | zero =>
    have : M.sufDensity os last s = fun _ => if last = M.labelling s then 1 else 0 := funext (fun ts => M.sufDensity_zero os last s ts)
    rw [this]
    exact continuous_const
  | succ k ih =>
    have : M.sufDensity os last s = fun ts => ∑ i, M.rateStep s i (os 0, ts 0) *
        M.sufDensity (fun i => os i.succ) last i (fun i => ts i.succ) := funext (fun ts => M.sufDensity_cons os last s ts)
    rw [this]
    refine continuous_finsetSum _ (fun i _ => Continuous.mul ?_ ?_)
    · unfold rateStep
      simp only
      split_ifs
      · fun_prop
      · exact continuous_const
    · exact (ih (fun i => os i.succ) i).comp (continuous_pi (fun j => continuous_apply j.succ))

theorem continuous_density (M : CTMC ℝ L n) {k : ℕ} (os : Fin k → L) (last : L) : Continuous (fun ts => M.density (timedTrace os ts last)) := by
  simp only [density_suffix]
  exact continuous_finsetSum _ (fun s _ => continuous_const.mul (M.continuous_sufDensity os last s))

theorem sufDensity_le (M : CTMC ℝ L n) (h0 : ∀ s s', 0 ≤ M.matrix s s') (ε : ℝ) (hε : ∀ s, ε ≤ M.e s) (k : ℕ) :
    ∃ C, 0 ≤ C ∧ ∀ (os : Fin k → L) (last : L) (s : Fin n) (ts : Fin k → ℝ), (∀ i, 0 ≤ ts i) →
      M.sufDensity os last s ts ≤ C * Real.exp (-ε * ∑ i, ts i) := by
  induction k with
  | zero =>
    refine ⟨1, zero_le_one, fun os last s ts _ => ?_⟩
    rw [sufDensity_zero]
    simp
    split_ifs <;> norm_num
  | succ k ih =>
    obtain ⟨C, hC, ih⟩ := ih
    refine ⟨(∑ s, ∑ i, M.matrix s i) * C, mul_nonneg (Finset.sum_nonneg (fun s _ => Finset.sum_nonneg (fun i _ => h0 s i))) hC, fun os last s ts hts => ?_⟩
    rw [sufDensity_cons, Fin.sum_univ_succ]
    have step : ∀ i, M.rateStep s i (os 0, ts 0) * M.sufDensity (fun i => os i.succ) last i (fun i => ts i.succ)
        ≤ M.matrix s i * (C * Real.exp (-ε * (ts 0 + ∑ i : Fin k, ts i.succ))) := by
      intro i
      have e1 : M.rateStep s i (os 0, ts 0) ≤ M.matrix s i * Real.exp (-ε * ts 0) := by
        unfold rateStep
        simp only
        split_ifs
        · refine mul_le_mul_of_nonneg_left (Real.exp_le_exp.2 ?_) (h0 s i)
          have : ε ≤ ∑ j, M.matrix s j := hε s
          nlinarith [hts 0]
        · exact mul_nonneg (h0 s i) (Real.exp_pos _).le
      have e2 := ih (fun i => os i.succ) last i (fun i => ts i.succ) (fun i => hts i.succ)
      calc _ ≤ (M.matrix s i * Real.exp (-ε * ts 0)) * (C * Real.exp (-ε * ∑ i : Fin k, ts i.succ)) :=
            mul_le_mul e1 e2 (M.sufDensity_nonneg h0 _ _ _ _) (mul_nonneg (h0 s i) (Real.exp_pos _).le)
        _ = _ := by rw [mul_add, Real.exp_add]; ring
    refine (Finset.sum_le_sum (fun i _ => step i)).trans ?_
    rw [← Finset.sum_mul, ← mul_assoc]
    refine mul_le_mul_of_nonneg_right (mul_le_mul_of_nonneg_right ?_ hC) (Real.exp_pos _).le
    exact Finset.single_le_sum (f := fun s => ∑ i, M.matrix s i) (fun s _ => Finset.sum_nonneg (fun i _ => h0 s i)) (Finset.mem_univ s)

theorem density_le (M : CTMC ℝ L n) (hM : M.Valid) (ε : ℝ) (hε : ∀ s, ε ≤ M.e s) (k : ℕ) :
    ∃ C, 0 ≤ C ∧ ∀ (os : Fin k → L) (last : L) (ts : Fin k → ℝ), (∀ i, 0 ≤ ts i) →
      M.density (timedTrace os ts last) ≤ C * Real.exp (-ε * ∑ i, ts i) := by
  obtain ⟨C, hC, h⟩ := M.sufDensity_le hM.2 ε hε k
  refine ⟨(∑ s, M.initialState s) * C, mul_nonneg (Finset.sum_nonneg (fun s _ => hM.1 s)) hC, fun os last ts hts => ?_⟩
  rw [density_suffix, mul_assoc, Finset.sum_mul]
  exact Finset.sum_le_sum (fun s _ => mul_le_mul_of_nonneg_left (h os last s ts hts) (hM.1 s))

/-- The observations decide whether a trace is possible; if it is, its density decreases at most exponentially. -/
theorem sufDensity_ge (M : CTMC ℝ L n) (h0 : ∀ s s', 0 ≤ M.matrix s s') {k : ℕ} (os : Fin k → L) (last : L) (s : Fin n) :
    (∀ ts, M.sufDensity os last s ts = 0) ∨ ((∀ ts, 0 < M.sufDensity os last s ts) ∧
      ∃ c, 0 < c ∧ ∀ ts, (∀ i, 0 ≤ ts i) → c * Real.exp (-(∑ s, M.e s) * ∑ i, ts i) ≤ M.sufDensity os last s ts) := by
  induction k generalizing s with
  | zero =>
    simp only [sufDensity_zero]
    by_cases h : last = M.labelling s
    · right
      simp only [h, if_true]
      exact ⟨fun _ => zero_lt_one, 1, zero_lt_one, fun ts _ => by simp⟩
    · left; simp [h]
  | succ k ih =>
    simp only [sufDensity_cons]
    have hnn : ∀ i t, 0 ≤ M.rateStep s i (os 0, t) := fun i t => M.rateStep_nonneg h0 _ _ _
    by_cases hl : M.labelling s = os 0
    · have er : ∀ i t, M.rateStep s i (os 0, t) = M.matrix s i * Real.exp (-(∑ j, M.matrix s j) * t) := fun i t => by
        unfold rateStep; rw [if_pos hl]
      by_cases hi : ∃ i, 0 < M.matrix s i ∧ ∀ ts, 0 < M.sufDensity (fun i => os i.succ) last i ts
      · right
        obtain ⟨i, hi1, hi2⟩ := hi
        refine ⟨fun ts => ?_, ?_⟩
        · refine Finset.sum_pos' (fun i _ => mul_nonneg (hnn _ _) (M.sufDensity_nonneg h0 _ _ _ _)) ⟨i, Finset.mem_univ _, ?_⟩
          rw [er]
          exact mul_pos (mul_pos hi1 (Real.exp_pos _)) (hi2 _)
        · rcases ih (fun i => os i.succ) i with h | ⟨-, c, hc, h⟩
          · exact absurd (h 0) (hi2 0).ne'
          · refine ⟨M.matrix s i * c, mul_pos hi1 hc, fun ts hts => ?_⟩
            refine le_trans ?_ (Finset.single_le_sum (f := fun i => M.rateStep s i (os 0, ts 0) * M.sufDensity (fun i => os i.succ) last i (fun i => ts i.succ))
              (fun i _ => mul_nonneg (hnn _ _) (M.sufDensity_nonneg h0 _ _ _ _)) (Finset.mem_univ i))
            rw [er, Fin.sum_univ_succ, mul_add, Real.exp_add]
            have e1 : Real.exp (-(∑ s, M.e s) * ts 0) ≤ Real.exp (-(∑ j, M.matrix s j) * ts 0) := by
              refine Real.exp_le_exp.2 ?_
              have : M.e s ≤ ∑ s, M.e s := Finset.single_le_sum (f := fun s => M.e s) (fun s _ => Finset.sum_nonneg (fun i _ => h0 s i)) (Finset.mem_univ s)
              have e : M.e s = ∑ j, M.matrix s j := rfl
              nlinarith [hts 0]
            have e2 := h (fun i => ts i.succ) (fun i => hts i.succ)
            calc _ = (M.matrix s i * Real.exp (-(∑ s, M.e s) * ts 0)) * (c * Real.exp (-(∑ s, M.e s) * ∑ i : Fin k, ts i.succ)) := by ring
              _ ≤ _ := mul_le_mul (mul_le_mul_of_nonneg_left e1 hi1.le) e2 (mul_pos hc (Real.exp_pos _)).le
                (mul_nonneg hi1.le (Real.exp_pos _).le)
      · left
        intro ts
        refine Finset.sum_eq_zero (fun i _ => ?_)
        rcases ih (fun i => os i.succ) i with h | ⟨h, -⟩
        · rw [h, mul_zero]
        · have : M.matrix s i = 0 := le_antisymm (not_lt.1 (fun hp => hi ⟨i, hp, h⟩)) (h0 s i)
          rw [er, this, zero_mul, zero_mul]
    · left
      intro ts
      refine Finset.sum_eq_zero (fun i _ => ?_)
      unfold rateStep
      simp only
      rw [if_neg hl, zero_mul]

theorem density_ge (M : CTMC ℝ L n) (hM : M.Valid) {k : ℕ} (os : Fin k → L) (last : L) :
    (∀ ts, M.density (timedTrace os ts last) = 0) ∨ ((∀ ts, 0 < M.density (timedTrace os ts last)) ∧
      ∃ c, 0 < c ∧ ∀ ts, (∀ i, 0 ≤ ts i) → c * Real.exp (-(∑ s, M.e s) * ∑ i, ts i) ≤ M.density (timedTrace os ts last)) := by
  simp only [density_suffix]
  have hnn : ∀ s ts, 0 ≤ M.initialState s * M.sufDensity os last s ts := fun s ts => mul_nonneg (hM.1 s) (M.sufDensity_nonneg hM.2 _ _ _ _)
  by_cases hi : ∃ s, 0 < M.initialState s ∧ ∀ ts, 0 < M.sufDensity os last s ts
  · right
    obtain ⟨s, h1, h2⟩ := hi
    refine ⟨fun ts => Finset.sum_pos' (fun s _ => hnn s ts) ⟨s, Finset.mem_univ _, mul_pos h1 (h2 ts)⟩, ?_⟩
    rcases M.sufDensity_ge hM.2 os last s with h | ⟨-, c, hc, h⟩
    · exact absurd (h 0) (h2 0).ne'
    · refine ⟨M.initialState s * c, mul_pos h1 hc, fun ts hts => ?_⟩
      refine le_trans ?_ (Finset.single_le_sum (f := fun s => M.initialState s * M.sufDensity os last s ts) (fun s _ => hnn s ts) (Finset.mem_univ s))
      rw [mul_assoc]
      exact mul_le_mul_of_nonneg_left (h ts hts) h1.le
  · left
    intro ts
    refine Finset.sum_eq_zero (fun s _ => ?_)
    rcases M.sufDensity_ge hM.2 os last s with h | ⟨h, -⟩
    · rw [h, mul_zero]
    · rw [le_antisymm (not_lt.1 (fun hp => hi ⟨s, hp, h⟩)) (hM.1 s), zero_mul]

theorem abs_logDensity (M : CTMC ℝ L n) (hM : M.Valid) {k : ℕ} (os : Fin k → L) (last : L) :
    ∃ C E, 0 ≤ C ∧ 0 ≤ E ∧ ∀ ts, (∀ i, 0 ≤ ts i) → |Real.log (M.density (timedTrace os ts last))| ≤ C + E * ∑ i, ts i := by
  rcases M.density_ge hM os last with h | ⟨hpos, c, hc, h⟩
  · exact ⟨0, 0, le_rfl, le_rfl, fun ts _ => by rw [h]; simp⟩
  · obtain ⟨C, hC, hle⟩ := M.density_le hM 0 (fun s => Finset.sum_nonneg (fun i _ => hM.2 s i)) k
    have hE : 0 ≤ ∑ s, M.e s := Finset.sum_nonneg (fun s _ => Finset.sum_nonneg (fun i _ => hM.2 s i))
    refine ⟨|Real.log c| + |Real.log C|, ∑ s, M.e s, by positivity, hE, fun ts hts => ?_⟩
    have h1 := Real.log_le_log (mul_pos hc (Real.exp_pos _)) (h ts hts)
    rw [Real.log_mul hc.ne' (Real.exp_pos _).ne', Real.log_exp] at h1
    have h2 : Real.log (M.density (timedTrace os ts last)) ≤ Real.log C := by
      refine Real.log_le_log (hpos ts) ?_
      have := hle os last ts hts
      simpa using this
    have hS : 0 ≤ (∑ s, M.e s) * ∑ i, ts i := mul_nonneg hE (Finset.sum_nonneg (fun i _ => hts i))
    refine abs_le.2 ⟨?_, ?_⟩
    · have := neg_abs_le (Real.log c)
      have := abs_nonneg (Real.log C)
      nlinarith
    · have := le_abs_self (Real.log C)
      have := abs_nonneg (Real.log c)
      nlinarith

/-! ### Integrals over all the times -/

/-- The times that are not negative. -/
def orthant (k : ℕ) : Set (Fin k → ℝ) := Set.pi Set.univ (fun _ => Set.Ici 0)

theorem mem_orthant {k : ℕ} {ts : Fin k → ℝ} : ts ∈ orthant k ↔ ∀ i, 0 ≤ ts i := by
  simp only [orthant, Set.mem_pi, Set.mem_univ, true_implies, Set.mem_Ici]

theorem measurable_orthant (k : ℕ) : MeasurableSet (orthant k) := MeasurableSet.univ_pi (fun _ => measurableSet_Ici)

theorem integrable_exp_orthant (k : ℕ) (ε : ℝ) (hε : 0 < ε) : IntegrableOn (fun ts : Fin k → ℝ => Real.exp (-ε * ∑ i, ts i)) (orthant k) := by
  unfold IntegrableOn orthant
  rw [volume_pi, Measure.restrict_pi_pi]
  have e : (fun ts : Fin k → ℝ => Real.exp (-ε * ∑ i, ts i)) = fun ts => ∏ i, Real.exp (-ε * ts i) := by
    funext ts
    rw [Finset.mul_sum, Real.exp_sum]
  rw [e]
  refine Integrable.fin_nat_prod (f := fun _ t => Real.exp (-ε * t)) (fun i => ?_)
  exact (integrableOn_Ici_iff_integrableOn_Ioi (by simp)).2 (integrableOn_exp_mul_Ioi (a := -ε) (by linarith) 0)

theorem integrable_linear_exp (k : ℕ) (ε : ℝ) (hε : 0 < ε) (C E : ℝ) (hC : 0 ≤ C) (hE : 0 ≤ E) :
    IntegrableOn (fun ts : Fin k → ℝ => (C + E * ∑ i, ts i) * Real.exp (-ε * ∑ i, ts i)) (orthant k) := by
  have hb := (integrable_exp_orthant k (ε/2) (by linarith)).const_mul (C + E * (2/ε))
  refine Integrable.mono' hb ?_ ?_
  · exact (by fun_prop : Continuous (fun ts : Fin k → ℝ => (C + E * ∑ i, ts i) * Real.exp (-ε * ∑ i, ts i))).aestronglyMeasurable
  · filter_upwards [ae_restrict_mem (measurable_orthant k)] with ts hts
    have hS : 0 ≤ ∑ i, ts i := Finset.sum_nonneg (fun i _ => mem_orthant.1 hts i)
    set S := ∑ i, ts i with hSd
    rw [Real.norm_eq_abs, abs_of_nonneg (mul_nonneg (by positivity) (Real.exp_pos _).le)]
    have h1 : S ≤ 2/ε * Real.exp (ε/2 * S) := by
      have := Real.add_one_le_exp (ε/2 * S)
      have h2 : 2/ε * (ε/2 * S) = S := by field_simp
      have h3 : 0 < 2/ε := by positivity
      nlinarith
    have h2 : 1 ≤ Real.exp (ε/2 * S) := Real.one_le_exp (by positivity)
    have h3 : Real.exp (-ε * S) * Real.exp (ε/2 * S) = Real.exp (-(ε/2) * S) := by rw [← Real.exp_add]; congr 1; ring
    have h4 : C + E * S ≤ (C + E * (2/ε)) * Real.exp (ε/2 * S) := by
      have a1 := mul_le_mul_of_nonneg_left h1 hE
      have a2 := mul_le_mul_of_nonneg_left h2 hC
      nlinarith
    calc (C + E * S) * Real.exp (-ε * S) ≤ ((C + E * (2/ε)) * Real.exp (ε/2 * S)) * Real.exp (-ε * S) :=
          mul_le_mul_of_nonneg_right h4 (Real.exp_pos _).le
      _ = _ := by rw [mul_assoc, mul_comm (Real.exp (ε/2 * S)), h3]

theorem exists_exit (M : CTMC ℝ L n) (he : ∀ s, 0 < M.e s) : ∃ ε, 0 < ε ∧ ∀ s, ε ≤ M.e s := by
  by_cases hn : Nonempty (Fin n)
  · obtain ⟨s, hs⟩ := Finite.exists_min M.e
    exact ⟨M.e s, he s, hs⟩
  · exact ⟨1, one_pos, fun s => absurd ⟨s⟩ hn⟩

theorem density_nn (M : CTMC ℝ L n) (hM : M.Valid) {k : ℕ} (os : Fin k → L) (last : L) (ts : Fin k → ℝ) : 0 ≤ M.density (timedTrace os ts last) := by
  rw [density_suffix]
  exact Finset.sum_nonneg (fun s _ => mul_nonneg (hM.1 s) (M.sufDensity_nonneg hM.2 _ _ _ _))

theorem integrable_density_mul (M : CTMC ℝ L n) (hM : M.Valid) (he : ∀ s, 0 < M.e s) {k : ℕ} (os : Fin k → L) (last : L) (g : (Fin k → ℝ) → ℝ)
    (hg : Measurable g) (C E : ℝ) (hC : 0 ≤ C) (hE : 0 ≤ E) (hb : ∀ ts, (∀ i, 0 ≤ ts i) → |g ts| ≤ C + E * ∑ i, ts i) :
    IntegrableOn (fun ts => M.density (timedTrace os ts last) * g ts) (orthant k) := by
  obtain ⟨ε, hε, hle⟩ := M.exists_exit he
  obtain ⟨D, hD, hd⟩ := M.density_le hM ε hle k
  refine Integrable.mono' ((integrable_linear_exp k ε hε C E hC hE).const_mul D)
    ((M.measurable_density os last).mul hg).aestronglyMeasurable ?_
  filter_upwards [ae_restrict_mem (measurable_orthant k)] with ts hts
  have h0 := mem_orthant.1 hts
  rw [Real.norm_eq_abs, abs_mul, abs_of_nonneg (M.density_nn hM os last ts)]
  calc _ ≤ (D * Real.exp (-ε * ∑ i, ts i)) * (C + E * ∑ i, ts i) :=
        mul_le_mul (hd os last ts h0) (hb ts h0) (abs_nonneg _) (mul_nonneg hD (Real.exp_pos _).le)
    _ = _ := by ring

theorem integrable_density_log {m : ℕ} (M : CTMC ℝ L n) (hM : M.Valid) (he : ∀ s, 0 < M.e s) (N : CTMC ℝ L m) (hN : N.Valid) {k : ℕ} (os : Fin k → L) (last : L) :
    IntegrableOn (fun ts => M.density (timedTrace os ts last) * Real.log (N.density (timedTrace os ts last))) (orthant k) := by
  obtain ⟨C, E, hC, hE, h⟩ := N.abs_logDensity hN os last
  exact M.integrable_density_mul hM he os last _ (N.measurable_density os last).log C E hC hE h

theorem integrable_density (M : CTMC ℝ L n) (hM : M.Valid) (he : ∀ s, 0 < M.e s) {k : ℕ} (os : Fin k → L) (last : L) :
    IntegrableOn (fun ts => M.density (timedTrace os ts last)) (orthant k) := by
  have := M.integrable_density_mul hM he os last (fun _ => 1) measurable_const 1 0 zero_le_one le_rfl (fun ts _ => by simp)
  simpa using this

/-! ### The total mass -/

/-- The same rates and initial distribution, without labels. -/
def unlabelled (M : CTMC ℝ L n) : CTMC ℝ Unit n := ⟨M.matrix, fun _ => (), M.initialState⟩

theorem sum_sufDensity_le (M : CTMC ℝ L n) (h0 : ∀ s s', 0 ≤ M.matrix s s') {k : ℕ} (Q : Finset ((Fin k → L) × L)) (s : Fin n) (ts : Fin k → ℝ) :
    ∑ o ∈ Q, M.sufDensity o.1 o.2 s ts ≤ M.unlabelled.sufDensity (fun _ => ()) () s ts := by
  induction k generalizing s with
  | zero =>
    rw [sufDensity_zero, if_pos rfl]
    have hsub : ∀ o ∈ Q, M.sufDensity o.1 o.2 s ts = if o = ((fun i => i.elim0), M.labelling s) then 1 else 0 := by
      intro o _
      rw [sufDensity_zero]
      refine if_congr ?_ rfl rfl
      constructor
      · intro h; exact Prod.ext (funext (fun i => i.elim0)) h
      · intro h; rw [h]
    rw [Finset.sum_congr rfl hsub, Finset.sum_ite_eq']
    split_ifs <;> norm_num
  | succ k ih =>
    rw [sufDensity_cons]
    simp only [sufDensity_cons M]
    rw [← Finset.sum_filter_add_sum_filter_not Q (fun o => M.labelling s = o.1 0)]
    have hz : ∑ o ∈ Q with ¬ M.labelling s = o.1 0, ∑ i, M.rateStep s i (o.1 0, ts 0) * M.sufDensity (fun i => o.1 i.succ) o.2 i (fun i => ts i.succ) = 0 := by
      refine Finset.sum_eq_zero (fun o ho => Finset.sum_eq_zero (fun i _ => ?_))
      unfold rateStep
      simp only
      rw [if_neg (Finset.mem_filter.1 ho).2, zero_mul]
    rw [hz, add_zero, Finset.sum_comm]
    refine Finset.sum_le_sum (fun i _ => ?_)
    have hr : ∀ o ∈ Q.filter (fun o => M.labelling s = o.1 0), M.rateStep s i (o.1 0, ts 0) * M.sufDensity (fun i => o.1 i.succ) o.2 i (fun i => ts i.succ)
        = M.unlabelled.rateStep s i ((), ts 0) * M.sufDensity (fun i => o.1 i.succ) o.2 i (fun i => ts i.succ) := by
      intro o ho
      congr 1
      unfold rateStep
      simp only
      rw [if_pos (Finset.mem_filter.1 ho).2, if_pos trivial]
      rfl
    rw [Finset.sum_congr rfl hr, ← Finset.mul_sum]
    refine mul_le_mul_of_nonneg_left ?_ (M.unlabelled.rateStep_nonneg h0 _ _ _)
    have hinj : Set.InjOn (fun o : (Fin (k+1) → L) × L => ((fun i => o.1 i.succ, o.2) : (Fin k → L) × L)) (Q.filter (fun o => M.labelling s = o.1 0)) := by
      intro o ho o' ho' h
      have h1 := (Finset.mem_filter.1 (Finset.mem_coe.1 ho)).2
      have h2 := (Finset.mem_filter.1 (Finset.mem_coe.1 ho')).2
      simp only [Prod.mk.injEq] at h
      refine Prod.ext (funext (fun i => ?_)) h.2
      refine Fin.cases (h1.symm.trans h2) (fun i => congrFun h.1 i) i
    have := ih ((Q.filter (fun o => M.labelling s = o.1 0)).image (fun o => (fun i => o.1 i.succ, o.2))) i (fun i => ts i.succ)
    rwa [Finset.sum_image hinj] at this

theorem lintegral_unlabelled (M : CTMC ℝ Unit n) (h0 : ∀ s s', 0 ≤ M.matrix s s') (k : ℕ) (s : Fin n) :
    ∫⁻ ts in orthant k, ENNReal.ofReal (M.sufDensity (fun _ => ()) () s ts) ≤ 1 := by
  induction k generalizing s with
  | zero =>
    simp only [sufDensity_zero]
    have : volume (orthant 0) ≤ 1 := by
      unfold orthant
      rw [volume_pi_pi]
      simp
    simpa using this
  | succ k ih =>
    unfold orthant
    rw [integral_cons]
    have e : ∀ p : ℝ × (Fin k → ℝ), ENNReal.ofReal (M.sufDensity (k := k+1) (fun _ => ()) () s (Fin.cons p.1 p.2))
        = ∑ i, ENNReal.ofReal (M.rateStep s i ((), p.1)) * ENNReal.ofReal (M.sufDensity (fun _ => ()) () i p.2) := by
      intro p
      rw [sufDensity_cons, ENNReal.ofReal_sum_of_nonneg]
      · refine Finset.sum_congr rfl (fun i _ => ?_)
        rw [ENNReal.ofReal_mul (M.rateStep_nonneg h0 _ _ _)]
        rfl
      · exact fun i _ => mul_nonneg (M.rateStep_nonneg h0 _ _ _) (M.sufDensity_nonneg h0 _ _ _ _)
    simp only [e]
    rw [lintegral_finsetSum]
    · have step : ∀ i, ∫⁻ p, ENNReal.ofReal (M.rateStep s i ((), p.1)) * ENNReal.ofReal (M.sufDensity (fun _ => ()) () i p.2)
          ∂((volume.restrict (Set.Ici (0:ℝ))).prod (volume.restrict (Set.pi Set.univ (fun _ : Fin k => Set.Ici (0:ℝ)))))
          ≤ ∫⁻ t in Set.Ici (0:ℝ), ENNReal.ofReal (M.rateStep s i ((), t)) := by
        intro i
        rw [lintegral_prod_mul (M.measurable_rateStep s i ()).ennreal_ofReal.aemeasurable
          (M.measurable_sufDensity _ () i).ennreal_ofReal.aemeasurable]
        exact mul_le_of_le_one_right zero_le (ih i)
      refine (Finset.sum_le_sum (fun i _ => step i)).trans ?_
      have er : ∀ i t, M.rateStep s i ((), t) = M.matrix s i * Real.exp (-(M.e s) * t) := fun i t => by
        unfold rateStep; rw [if_pos rfl]; rfl
      simp only [er]
      have he0 : 0 ≤ M.e s := Finset.sum_nonneg (fun i _ => h0 s i)
      rcases he0.lt_or_eq with he | he
      · simp only [integral_race_top (h0 s _) he]
        rw [← ENNReal.ofReal_sum_of_nonneg (fun i _ => by have := h0 s i; positivity), ← Finset.sum_mul, ← Finset.sum_div]
        have : ∑ i, M.matrix s i = M.e s := rfl
        rw [this, div_self he.ne']
        simp
      · have hz : ∀ i, M.matrix s i = 0 := fun i => (Finset.sum_eq_zero_iff_of_nonneg (fun i _ => h0 s i)).1 he.symm i (Finset.mem_univ i)
        simp [hz]
    · intro i _
      exact ((M.measurable_rateStep s i ()).comp measurable_fst).ennreal_ofReal.mul
        ((M.measurable_sufDensity _ () i).comp measurable_snd).ennreal_ofReal

/-- The densities of the traces of a given length sum up to at most 1. -/
theorem sum_lintegral_density (M : CTMC ℝ L n) (hM : M.Valid) (hi : ∑ s, M.initialState s ≤ 1) {k : ℕ} (Q : Finset ((Fin k → L) × L)) :
    ∑ o ∈ Q, ∫⁻ ts in orthant k, ENNReal.ofReal (M.density (timedTrace o.1 ts o.2)) ≤ 1 := by
  rw [← lintegral_finsetSum _ (fun o _ => (M.measurable_density o.1 o.2).ennreal_ofReal)]
  have hp : ∀ ts, ∑ o ∈ Q, ENNReal.ofReal (M.density (timedTrace o.1 ts o.2))
      ≤ ∑ s, ENNReal.ofReal (M.initialState s) * ENNReal.ofReal (M.unlabelled.sufDensity (fun _ => ()) () s ts) := by
    intro ts
    rw [← ENNReal.ofReal_sum_of_nonneg (fun o _ => M.density_nn hM _ _ _)]
    simp only [← ENNReal.ofReal_mul (hM.1 _)]
    rw [← ENNReal.ofReal_sum_of_nonneg (fun s _ => mul_nonneg (hM.1 s) (M.unlabelled.sufDensity_nonneg hM.2 _ _ _ _))]
    refine ENNReal.ofReal_le_ofReal ?_
    simp only [density_suffix]
    rw [Finset.sum_comm]
    refine Finset.sum_le_sum (fun s _ => ?_)
    rw [← Finset.mul_sum]
    exact mul_le_mul_of_nonneg_left (M.sum_sufDensity_le hM.2 Q s ts) (hM.1 s)
  refine (lintegral_mono hp).trans ?_
  rw [lintegral_finsetSum _ (fun s _ => (M.unlabelled.measurable_sufDensity _ () s).ennreal_ofReal.const_mul _)]
  calc _ ≤ ∑ s, ENNReal.ofReal (M.initialState s) := by
        refine Finset.sum_le_sum (fun s _ => ?_)
        rw [lintegral_const_mul _ (M.unlabelled.measurable_sufDensity _ () s).ennreal_ofReal]
        exact mul_le_of_le_one_right zero_le (M.unlabelled.lintegral_unlabelled hM.2 k s)
    _ = ENNReal.ofReal (∑ s, M.initialState s) := (ENNReal.ofReal_sum_of_nonneg (fun s _ => hM.1 s)).symm
    _ ≤ 1 := by rw [← ENNReal.ofReal_one]; exact ENNReal.ofReal_le_ofReal hi

/-! ### The density is almost never 1 -/

theorem density_strictAnti (M : CTMC ℝ L n) (hM : M.Valid) {k : ℕ} (os : Fin (k+1) → L) (last : L) (hpos : ∀ ts, 0 < M.density (timedTrace os ts last))
    (r : Fin k → ℝ) : StrictAnti (fun t => M.density (timedTrace os (Fin.cons t r : Fin (k+1) → ℝ) last)) := by
  intro t t' htt
  have h1 := hpos (Fin.cons t' r)
  simp only [density_suffix, sufDensity_cons, Fin.cons_zero, Fin.cons_succ, Finset.mul_sum] at h1 ⊢
  have hnn : ∀ s i u, 0 ≤ M.initialState s * (M.rateStep s i (os 0, u) * M.sufDensity (fun i => os i.succ) last i r) := fun s i u =>
    mul_nonneg (hM.1 s) (mul_nonneg (M.rateStep_nonneg hM.2 _ _ _) (M.sufDensity_nonneg hM.2 _ _ _ _))
  have hle : ∀ s i, M.rateStep s i (os 0, t') ≤ M.rateStep s i (os 0, t) := by
    intro s i
    unfold rateStep
    simp only
    split_ifs
    · refine mul_le_mul_of_nonneg_left (Real.exp_le_exp.2 ?_) (hM.2 s i)
      have : 0 ≤ ∑ j, M.matrix s j := Finset.sum_nonneg (fun i _ => hM.2 s i)
      nlinarith
    · exact le_rfl
  have hle2 : ∀ s i, M.initialState s * (M.rateStep s i (os 0, t') * M.sufDensity (fun i => os i.succ) last i r)
      ≤ M.initialState s * (M.rateStep s i (os 0, t) * M.sufDensity (fun i => os i.succ) last i r) := fun s i =>
    mul_le_mul_of_nonneg_left (mul_le_mul_of_nonneg_right (hle s i) (M.sufDensity_nonneg hM.2 _ _ _ _)) (hM.1 s)
  obtain ⟨s, -, hs⟩ := (Finset.sum_pos_iff_of_nonneg (fun s _ => Finset.sum_nonneg (fun i _ => hnn s i t'))).1 h1
  obtain ⟨i, -, hsi⟩ := (Finset.sum_pos_iff_of_nonneg (fun i _ => hnn s i t')).1 hs
  refine Finset.sum_lt_sum (fun s _ => Finset.sum_le_sum (fun i _ => hle2 s i)) ⟨s, Finset.mem_univ _,
    Finset.sum_lt_sum (fun i _ => hle2 s i) ⟨i, Finset.mem_univ _, ?_⟩⟩
  have p1 : 0 < M.initialState s := lt_of_le_of_ne (hM.1 s) (fun h => by rw [← h, zero_mul] at hsi; exact lt_irrefl _ hsi)
  have p2 : 0 < M.rateStep s i (os 0, t') * M.sufDensity (fun i => os i.succ) last i r := (mul_pos_iff_of_pos_left p1).1 hsi
  have p3 : 0 < M.sufDensity (fun i => os i.succ) last i r :=
    lt_of_le_of_ne (M.sufDensity_nonneg hM.2 _ _ _ _) (fun h => by rw [← h, mul_zero] at p2; exact lt_irrefl _ p2)
  have p4 : 0 < M.rateStep s i (os 0, t') := (mul_pos_iff_of_pos_right p3).1 p2
  refine mul_lt_mul_of_pos_left (mul_lt_mul_of_pos_right ?_ p3) p1
  unfold rateStep at p4 ⊢
  simp only at p4 ⊢
  split_ifs at p4 ⊢ with hl
  · have p5 : 0 < M.matrix s i := (mul_pos_iff_of_pos_right (Real.exp_pos _)).1 p4
    refine mul_lt_mul_of_pos_left (Real.exp_lt_exp.2 ?_) p5
    have : M.matrix s i ≤ ∑ j, M.matrix s j := Finset.single_le_sum (f := fun j => M.matrix s j) (fun j _ => hM.2 s j) (Finset.mem_univ i)
    nlinarith
  · exact absurd p4 (lt_irrefl _)

theorem density_one_null (M : CTMC ℝ L n) (hM : M.Valid) {k : ℕ} (os : Fin (k+1) → L) (last : L) :
    volume {ts | M.density (timedTrace os ts last) = 1} = 0 := by
  rcases M.density_ge hM os last with h | ⟨hpos, -⟩
  · have : {ts | M.density (timedTrace os ts last) = 1} = ∅ := by
      ext ts
      simp [h]
    rw [this, measure_empty]
  · have hm : MeasurableSet {ts | M.density (timedTrace os ts last) = 1} := (M.measurable_density os last) (measurableSet_singleton 1)
    have e := integral_cons (fun _ : Fin (k+1) => Set.univ) ({ts | M.density (timedTrace os ts last) = 1}.indicator 1)
    rw [Set.pi_univ, Measure.restrict_univ, lintegral_indicator_one hm, Set.pi_univ, Measure.restrict_univ, Measure.restrict_univ] at e
    rw [e]
    have hmp : Measurable (fun p : ℝ × (Fin k → ℝ) => (Fin.cons p.1 p.2 : Fin (k+1) → ℝ)) := by
      refine measurable_pi_iff.2 (fun j => ?_)
      refine Fin.cases ?_ (fun j => ?_) j
      · exact measurable_fst
      · exact (measurable_pi_apply j).comp measurable_snd
    refine (lintegral_prod_symm' (μ := (volume : Measure ℝ)) (ν := (volume : Measure (Fin k → ℝ)))
      (fun p => {ts | M.density (timedTrace os ts last) = 1}.indicator 1 (Fin.cons p.1 p.2 : Fin (k+1) → ℝ)) ((measurable_one.indicator hm).comp hmp)).trans ?_
    refine (lintegral_congr (fun r => ?_)).trans lintegral_zero
    have hs : Measurable (fun t : ℝ => (Fin.cons t r : Fin (k+1) → ℝ)) := hmp.comp (measurable_id.prodMk measurable_const)
    have : ∫⁻ t : ℝ, {ts | M.density (timedTrace os ts last) = 1}.indicator 1 (Fin.cons t r : Fin (k+1) → ℝ)
        = volume ((fun t : ℝ => (Fin.cons t r : Fin (k+1) → ℝ)) ⁻¹' {ts | M.density (timedTrace os ts last) = 1}) := by
      rw [← lintegral_indicator_one (hs hm)]
      rfl
    refine this.trans (Set.Subsingleton.measure_zero ?_ _)
    intro t ht t' ht'
    exact (M.density_strictAnti hM os last hpos r).injective (show M.density _ = M.density _ from (ht : _ = _).trans (ht' : _ = _).symm)

end CTMC
end Jajapy
