import Verif.Lemmas.BWHMM
import Verif.Spec.GoHMM

set_option linter.unusedSectionVars false

namespace Jajapy

open Finset Spec BW ProbabilityTheory

section
variable {n d : ℕ}

namespace GoHMM

theorem normalWeight_pos (m σ x : ℝ) (h : 0 < σ) : 0 < normalWeight m σ x := by
  unfold normalWeight
  rw [if_neg h.ne']
  apply gaussianPDFReal_pos
  exact (Real.toNNReal_pos.mpr (by positivity)).ne'

theorem normalWeight_nonneg (m σ x : ℝ) : 0 ≤ normalWeight m σ x := by
  unfold normalWeight
  split_ifs
  · exact Set.indicator_nonneg (fun _ _ => zero_le_one) _
  · exact gaussianPDFReal_nonneg _ _ _

theorem normalWeight_formula (m σ x : ℝ) (h : 0 < σ) :
    normalWeight m σ x = Real.exp (-(x - m) ^ 2 / (2 * σ ^ 2)) / (σ * Real.sqrt (2 * Real.pi)) := by
  unfold normalWeight
  rw [if_neg h.ne']
  unfold gaussianPDFReal
  have e : Real.sqrt (2 * Real.pi * σ ^ 2) = σ * Real.sqrt (2 * Real.pi) := by
    rw [Real.sqrt_mul (by positivity), Real.sqrt_sq h.le, mul_comm]
  rw [Real.coe_toNNReal _ (sq_nonneg σ), e]
  ring

theorem normalWeight_log (m σ x : ℝ) (h : 0 < σ) :
    Real.log (normalWeight m σ x) = -(x - m) ^ 2 / (2 * σ ^ 2) - Real.log σ - Real.log (Real.sqrt (2 * Real.pi)) := by
  have hs : 0 < Real.sqrt (2 * Real.pi) := Real.sqrt_pos.mpr (by positivity)
  rw [normalWeight_formula m σ x h, Real.log_div (Real.exp_pos _).ne' (by positivity), Real.log_exp,
    Real.log_mul h.ne' hs.ne']
  ring

theorem bn_eq (M : GoHMM n d) (s : Fin n) (i : Fin d) (x : ℝ) (h : 0 ≤ M.sigma s i) :
    M.bn s i x = normalWeight (M.mu s i) (M.sigma s i) x := by
  rcases h.eq_or_lt with h | h
  · unfold bn normalWeight
    rw [if_pos h.symm.le, if_pos h.symm]
    by_cases hx : x = M.mu s i
    · rw [if_pos hx, hx]; simp
    · rw [if_neg hx]; simp [hx]
  · rw [normalWeight_formula _ _ _ h]
    unfold bn
    rw [if_neg (not_le.mpr h)]
    congr 2
    field_simp
    ring

theorem b_eq_emit (M : GoHMM n d) (hs : ∀ s i, 0 ≤ M.sigma s i) (s : Fin n) (o : Fin d → ℝ) : M.b s o = M.emit s o :=
  Finset.prod_congr rfl (fun i _ => M.bn_eq s i _ (hs s i))

theorem tau_eq_step (M : GoHMM n d) (hs : ∀ s i, 0 ≤ M.sigma s i) : M.tau = M.step := by
  funext s s' o
  unfold tau step
  rw [M.b_eq_emit hs, mul_comm]

theorem emit_nonneg (M : GoHMM n d) (s : Fin n) (o : Fin d → ℝ) : 0 ≤ M.emit s o :=
  Finset.prod_nonneg (fun _ _ => normalWeight_nonneg _ _ _)

theorem emit_pos (M : GoHMM n d) (s : Fin n) (hs : ∀ i, 0 < M.sigma s i) (o : Fin d → ℝ) : 0 < M.emit s o :=
  Finset.prod_pos (fun i _ => normalWeight_pos _ _ _ (hs i))

theorem step_nonneg (M : GoHMM n d) (h : ∀ s s', 0 ≤ M.matrix s s') (s ss : Fin n) (o : Fin d → ℝ) : 0 ≤ M.step s ss o :=
  mul_nonneg (M.emit_nonneg s o) (h s ss)

theorem lik_eq (M : GoHMM n d) (hm : ∀ s, ∑ s', M.matrix s s' = 1) (w : List (Fin d → ℝ)) (hw : w ≠ []) :
    M.lik w = totalWeight M.initialState M.step (fun _ => 1) w := by
  rw [totalWeight_eq, ← lastSum_eq]
  exact (lastSum_eq_listProb _ _ _ (fun s s' o => by unfold step; ring) hm w hw _).symm

end GoHMM

/-- The density of a trace, as a sum over the paths that go on after the last observation. -/
noncomputable def twGo (M : GoHMM n d) (w : List (Fin d → ℝ)) : ℝ := totalWeight M.initialState M.step (fun _ => 1) w

/-- The result of one worker, without the test. -/
noncomputable def wkGo (M : GoHMM n d) (x : List (Fin d → ℝ) × ℕ) : WorkGoHMM n d where
  den := vis M.step M.initialState (fun _ => 1) (fun _ => 1) (x.2 / twGo M x.1) x.1
  numA := use M.step M.initialState (fun _ => 1) (fun _ => 1) (x.2 / twGo M x.1) x.1
  numMu := fun s i => vis M.step M.initialState (fun _ => 1) (fun o => o i) (x.2 / twGo M x.1) x.1 s
  numVa := fun s i => vis M.step M.initialState (fun _ => 1) (fun o => (o i - M.mu s i) ^ 2) (x.2 / twGo M x.1) x.1 s
  proba := twGo M x.1
  times := x.2
  numInit := fun s => M.initialState s * beta0 M.step (fun _ => 1) x.1 s * x.2 / twGo M x.1

theorem processWorkGo_eq (M : GoHMM n d) (hs : ∀ s i, 0 ≤ M.sigma s i) (x : List (Fin d → ℝ) × ℕ) :
    processWorkGoHMM M x.1 x.2 = if twGo M x.1 = 0 then none else some (wkGo M x) := by
  unfold processWorkGoHMM wkGo twGo
  simp only [lastSum_eq, ← totalWeight_eq, M.tau_eq_step hs, alphas_headD, betas_headD]
  rfl

/-- The possible entries of a set. -/
noncomputable def possGo (M : GoHMM n d) (S : TSet (Fin d → ℝ)) : List (List (Fin d → ℝ) × ℕ) :=
  (S.sequences.zip S.times).filter (fun x => ¬ twGo M x.1 = 0)

theorem workGo_ok (processes : ℕ) (S : TSet (Fin d → ℝ)) (M : GoHMM n d) (hs : ∀ s i, 0 ≤ M.sigma s i)
    (temp : List (WorkGoHMM n d)) (h : workGoHMM processes S M = .ok temp) :
    temp = (possGo M S).map (wkGo M) ∧ possGo M S ≠ [] ∧
      (processes ≤ 1 → ∀ x ∈ S.sequences.zip S.times, twGo M x.1 ≠ 0) := by
  obtain ⟨h1, h2, h3⟩ := collect_ok _ _ _ _ h
  have e : (S.sequences.zip S.times).map (fun p => processWorkGoHMM M p.1 p.2)
      = (S.sequences.zip S.times).map (fun x => if twGo M x.1 = 0 then none else some (wkGo M x)) :=
    List.map_congr_left (fun x _ => processWorkGo_eq M hs x)
  rw [e, filterMap_ite] at h1
  refine ⟨h1, ?_, ?_⟩
  · intro h0
    apply h2
    rw [h1]
    unfold possGo at h0
    rw [h0]; rfl
  · intro hp x hx h0
    apply h3 hp none _ rfl
    rw [e]
    exact List.mem_map.mpr ⟨x, hx, by rw [if_pos h0]⟩

/-- The expected counts of the training set. -/
noncomputable def denGo (M : GoHMM n d) (S : TSet (Fin d → ℝ)) (s : Fin n) : ℝ := ((possGo M S).map (fun x => (wkGo M x).den s)).sum
noncomputable def numAGo (M : GoHMM n d) (S : TSet (Fin d → ℝ)) (s ss : Fin n) : ℝ := ((possGo M S).map (fun x => (wkGo M x).numA s ss)).sum
noncomputable def numMuGo (M : GoHMM n d) (S : TSet (Fin d → ℝ)) (s : Fin n) (i : Fin d) : ℝ := ((possGo M S).map (fun x => (wkGo M x).numMu s i)).sum
noncomputable def numVaGo (M : GoHMM n d) (S : TSet (Fin d → ℝ)) (s : Fin n) (i : Fin d) : ℝ := ((possGo M S).map (fun x => (wkGo M x).numVa s i)).sum
noncomputable def initGo (M : GoHMM n d) (S : TSet (Fin d → ℝ)) (s : Fin n) : ℝ := ((possGo M S).map (fun x => (wkGo M x).numInit s)).sum

/-- The model after one iteration. -/
noncomputable def newGo (M : GoHMM n d) (S : TSet (Fin d → ℝ)) : GoHMM n d where
  matrix := fun s ss => if denGo M S s = 0 then M.matrix s ss else numAGo M S s ss / denGo M S s
  mu := fun s i => if denGo M S s = 0 then M.mu s i else numMuGo M S s i / denGo M S s
  sigma := fun s i => Real.sqrt (if denGo M S s = 0 then M.sigma s i else numVaGo M S s i / denGo M S s)
  initialState := fun s => initGo M S s / ∑ s', initGo M S s'

theorem updateGo_eq (M : GoHMM n d) (S : TSet (Fin d → ℝ)) :
    updateGoHMM M ((possGo M S).map (wkGo M)) = newGo M S := by
  unfold updateGoHMM newGo denGo numAGo numMuGo numVaGo initGo
  simp only [List.map_map]
  rfl

theorem stepGo_ok (processes : ℕ) (S : TSet (Fin d → ℝ)) (M M' : GoHMM n d) (hs : ∀ s i, 0 ≤ M.sigma s i) (ll : ℝ)
    (h : stepGoHMM processes S M = .ok (M', ll)) :
    M' = newGo M S ∧ possGo M S ≠ [] ∧
    ll = ((possGo M S).map (fun x => Real.log (twGo M x.1) * x.2)).sum ∧
    (processes ≤ 1 → ∀ x ∈ S.sequences.zip S.times, twGo M x.1 ≠ 0) := by
  unfold stepGoHMM at h
  cases hw : workGoHMM processes S M with
  | error e => rw [hw] at h; cases h
  | ok temp =>
    rw [hw] at h
    obtain ⟨h1, h2, h3⟩ := workGo_ok _ _ _ hs _ hw
    have h' : (updateGoHMM M temp, logLik (temp.map (fun w => (w.proba, w.times)))) = (M', ll) := by
      injection h
    rw [h1, updateGo_eq] at h'
    injection h' with ha hb
    refine ⟨ha.symm, h2, ?_, h3⟩
    rw [← hb]
    unfold logLik
    simp only [List.map_map]
    rfl

theorem sum_numAGo (M : GoHMM n d) (S : TSet (Fin d → ℝ)) (s : Fin n) : ∑ ss, numAGo M S s ss = denGo M S s := by
  unfold numAGo denGo
  rw [sum_map_comm]
  congr 1
  exact List.map_congr_left (fun x _ => by simp only [wkGo]; exact sum_use _ _ _ _ _ _ _)

theorem sum_initGo (M : GoHMM n d) (S : TSet (Fin d → ℝ)) :
    ∑ s, initGo M S s = ((possGo M S).map (fun x => (x.2 : ℝ))).sum := by
  unfold initGo
  rw [sum_map_comm]
  congr 1
  refine List.map_congr_left (fun x hx => ?_)
  have h0 : twGo M x.1 ≠ 0 := by
    have := (List.mem_filter.mp hx).2
    simpa using this
  simp only [wkGo]
  rw [← Finset.sum_div, ← Finset.sum_mul, ← totalWeight_eq]
  change twGo M x.1 * _ / _ = _
  field_simp

theorem numAGo_zero (M : GoHMM n d) (S : TSet (Fin d → ℝ)) (s ss : Fin n) (h : M.matrix s ss = 0) : numAGo M S s ss = 0 := by
  unfold numAGo
  rw [List.sum_eq_zero]
  intro a ha
  obtain ⟨x, _, rfl⟩ := List.mem_map.mp ha
  simp only [wkGo]
  exact use_zero _ _ _ _ _ _ _ _ (fun o _ => by simp [GoHMM.step, h])

theorem initGo_zero (M : GoHMM n d) (S : TSet (Fin d → ℝ)) (s : Fin n) (h : M.initialState s = 0) : initGo M S s = 0 := by
  unfold initGo
  rw [List.sum_eq_zero]
  intro a ha
  obtain ⟨x, _, rfl⟩ := List.mem_map.mp ha
  simp [wkGo, h]

/-- The weighted sum of `φ` over the observations made in `s`. -/
noncomputable def avGo (M : GoHMM n d) (S : TSet (Fin d → ℝ)) (s : Fin n) (φ : (Fin d → ℝ) → ℝ) : ℝ :=
  ((possGo M S).map (fun x => vis M.step M.initialState (fun _ => 1) φ (x.2 / twGo M x.1) x.1 s)).sum

theorem avGo_add (M : GoHMM n d) (S : TSet (Fin d → ℝ)) (s : Fin n) (φ ψ : (Fin d → ℝ) → ℝ) :
    avGo M S s (fun o => φ o + ψ o) = avGo M S s φ + avGo M S s ψ := by
  unfold avGo
  simp only [vis_add]
  rw [← List.sum_map_add]

theorem avGo_smul (M : GoHMM n d) (S : TSet (Fin d → ℝ)) (s : Fin n) (c : ℝ) (φ : (Fin d → ℝ) → ℝ) :
    avGo M S s (fun o => c * φ o) = c * avGo M S s φ := by
  unfold avGo
  simp only [vis_smul]
  exact sum_map_mul _ _ _

theorem avGo_const (M : GoHMM n d) (S : TSet (Fin d → ℝ)) (s : Fin n) (c : ℝ) :
    avGo M S s (fun _ => c) = c * denGo M S s := by
  have := avGo_smul M S s c (fun _ => 1)
  simp only [mul_one] at this
  exact this

theorem avGo_finsum (M : GoHMM n d) (S : TSet (Fin d → ℝ)) (s : Fin n) (φ : Fin d → (Fin d → ℝ) → ℝ) :
    avGo M S s (fun o => ∑ i, φ i o) = ∑ i, avGo M S s (φ i) := by
  unfold avGo
  simp only [vis_finsum]
  rw [sum_map_comm]

section order
variable (M : GoHMM n d) (S : TSet (Fin d → ℝ)) (hi0 : ∀ s, 0 ≤ M.initialState s) (hm0 : ∀ s s', 0 ≤ M.matrix s s')
include hi0 hm0

theorem twGo_nonneg (w : List (Fin d → ℝ)) : 0 ≤ twGo M w :=
  totalWeight_nonneg _ _ _ (M.step_nonneg hm0) hi0 (fun _ => zero_le_one) _

theorem numAGo_nonneg (s ss : Fin n) : 0 ≤ numAGo M S s ss := by
  refine sum_map_nonneg _ _ (fun x _ => use_nonneg _ _ _ (M.step_nonneg hm0) hi0 (fun _ => zero_le_one) _ _ ?_ _
    (fun _ _ => zero_le_one) _ _)
  exact div_nonneg (Nat.cast_nonneg _) (twGo_nonneg M hi0 hm0 _)

theorem avGo_nonneg (s : Fin n) (φ : (Fin d → ℝ) → ℝ) (hφ : ∀ w ∈ S.sequences, ∀ o ∈ w, 0 ≤ φ o) : 0 ≤ avGo M S s φ := by
  refine sum_map_nonneg _ _ (fun x hx => ?_)
  refine vis_nonneg _ _ _ (M.step_nonneg hm0) hi0 (fun _ => zero_le_one) _ _ ?_ _ (fun o ho => ?_) _
  · exact div_nonneg (Nat.cast_nonneg _) (twGo_nonneg M hi0 hm0 _)
  · exact hφ _ (List.of_mem_zip (List.mem_filter.mp hx).1).1 o ho

theorem numVaGo_nonneg (s : Fin n) (i : Fin d) : 0 ≤ numVaGo M S s i :=
  avGo_nonneg M S hi0 hm0 s (fun o => (o i - M.mu s i) ^ 2) (fun _ _ _ _ => sq_nonneg _)

theorem initGo_nonneg (s : Fin n) : 0 ≤ initGo M S s := by
  refine sum_map_nonneg _ _ (fun x _ => div_nonneg (mul_nonneg (mul_nonneg (hi0 s)
    (beta0_nonneg _ _ (M.step_nonneg hm0) (fun _ => zero_le_one) _ _)) (Nat.cast_nonneg _)) ?_)
  exact twGo_nonneg M hi0 hm0 _

theorem denGo_nonneg (s : Fin n) : 0 ≤ denGo M S s := by
  rw [← sum_numAGo]; exact Finset.sum_nonneg (fun ss _ => numAGo_nonneg M S hi0 hm0 s ss)

end order

/-- The mean deviation from another point: the weighted sum of the squares around the new mean is the one around the old
mean minus the square of the shift. -/
theorem avGo_shift (M : GoHMM n d) (S : TSet (Fin d → ℝ)) (s : Fin n) (i : Fin d) (h : denGo M S s ≠ 0) :
    avGo M S s (fun o => (o i - numMuGo M S s i / denGo M S s) ^ 2)
      = numVaGo M S s i - denGo M S s * (numMuGo M S s i / denGo M S s - M.mu s i) ^ 2 := by
  set m' := numMuGo M S s i / denGo M S s with hm'
  set m := M.mu s i with hm
  have h1 : avGo M S s (fun o => o i) = m' * denGo M S s := by
    rw [hm']; field_simp; rfl
  have e : (fun o : Fin d → ℝ => (o i - m') ^ 2)
      = fun o => (o i - m) ^ 2 + (2 * (m - m') * o i + (m' ^ 2 - m ^ 2)) := by funext o; ring
  rw [e, avGo_add M S s (fun o => (o i - m) ^ 2) (fun o => 2 * (m - m') * o i + (m' ^ 2 - m ^ 2)),
    avGo_add M S s (fun o => 2 * (m - m') * o i) (fun _ => m' ^ 2 - m ^ 2), avGo_smul M S s _ (fun o => o i), avGo_const, h1]
  have h2 : avGo M S s (fun o => (o i - m) ^ 2) = numVaGo M S s i := rfl
  rw [h2]
  ring

theorem useGo_zero (M : GoHMM n d) (S : TSet (Fin d → ℝ)) (hi0 : ∀ s, 0 ≤ M.initialState s)
    (hm0 : ∀ s s', 0 ≤ M.matrix s s') (s ss : Fin n) (h : numAGo M S s ss = 0) (φ : (Fin d → ℝ) → ℝ) :
    ((possGo M S).map (fun y => use M.step M.initialState (fun _ => 1) φ ((y.2 : ℝ) / twGo M y.1) y.1 s ss)).sum = 0 := by
  have hc : ∀ y : List (Fin d → ℝ) × ℕ, 0 ≤ (y.2 : ℝ) / twGo M y.1 := fun y =>
    div_nonneg (Nat.cast_nonneg _) (twGo_nonneg M hi0 hm0 _)
  rw [List.sum_eq_zero]
  intro a ha
  obtain ⟨x, hx, rfl⟩ := List.mem_map.mp ha
  refine use_zero_of_one _ _ _ (M.step_nonneg hm0) hi0 (fun _ => zero_le_one) _ (hc x) _ _ _ ?_ _
  by_contra hne
  have hnn : ∀ y ∈ possGo M S, 0 ≤ (wkGo M y).numA s ss := fun y hy => use_nonneg _ _ _ (M.step_nonneg hm0) hi0
    (fun _ => zero_le_one) _ _ (hc y) _ (fun _ _ => zero_le_one) _ _
  have := sum_map_pos (possGo M S) (fun y => (wkGo M y).numA s ss) hnn x hx (lt_of_le_of_ne (hnn x hx) (Ne.symm hne))
  exact absurd h this.ne'

/-- The observations made in a state are not less likely for the new normal distribution. -/
theorem avGo_gain (M : GoHMM n d) (S : TSet (Fin d → ℝ)) (hi0 : ∀ s, 0 ≤ M.initialState s)
    (hm0 : ∀ s s', 0 ≤ M.matrix s s') (s : Fin n) (i : Fin d) (hd : 0 < denGo M S s) (hs : 0 < M.sigma s i)
    (hs' : 0 < (newGo M S).sigma s i) :
    0 ≤ avGo M S s (fun o => Real.log (GoHMM.normalWeight ((newGo M S).mu s i) ((newGo M S).sigma s i) (o i))
      - Real.log (GoHMM.normalWeight (M.mu s i) (M.sigma s i) (o i))) := by
  set σ := M.sigma s i with hσ
  set σ' := (newGo M S).sigma s i with hσ'
  set m := M.mu s i with hm
  set m' := (newGo M S).mu s i with hm'
  set D := denGo M S s with hD
  have em' : m' = numMuGo M S s i / D := by rw [hm']; simp only [newGo]; rw [if_neg hd.ne']
  have ev : numVaGo M S s i = D * σ' ^ 2 := by
    rw [hσ']
    simp only [newGo]
    rw [if_neg hd.ne', Real.sq_sqrt (div_nonneg (numVaGo_nonneg M S hi0 hm0 s i) hd.le)]
    field_simp
  have hsh := avGo_shift M S s i hd.ne'
  rw [← hD, ← em', ← hm, ev] at hsh
  have hva : avGo M S s (fun o => (o i - m) ^ 2) = D * σ' ^ 2 := ev
  have e : (fun o : Fin d → ℝ => Real.log (GoHMM.normalWeight m' σ' (o i)) - Real.log (GoHMM.normalWeight m σ (o i)))
      = fun o => (-(1 / (2 * σ' ^ 2))) * (o i - m') ^ 2 + ((1 / (2 * σ ^ 2)) * (o i - m) ^ 2 + (Real.log σ - Real.log σ')) := by
    funext o
    rw [GoHMM.normalWeight_log _ _ _ hs, GoHMM.normalWeight_log _ _ _ hs']
    ring
  rw [e, avGo_add M S s (fun o => (-(1 / (2 * σ' ^ 2))) * (o i - m') ^ 2)
      (fun o => (1 / (2 * σ ^ 2)) * (o i - m) ^ 2 + (Real.log σ - Real.log σ')),
    avGo_add M S s (fun o => (1 / (2 * σ ^ 2)) * (o i - m) ^ 2) (fun _ => Real.log σ - Real.log σ'),
    avGo_smul M S s _ (fun o => (o i - m') ^ 2), avGo_smul M S s _ (fun o => (o i - m) ^ 2), avGo_const, hsh, hva]
  have hr : 0 < σ' ^ 2 / σ ^ 2 := by positivity
  have hl := Real.log_le_sub_one_of_pos hr
  rw [Real.log_div (by positivity) (by positivity), Real.log_pow, Real.log_pow] at hl
  push_cast at hl
  have e2 : -(1 / (2 * σ' ^ 2)) * (D * σ' ^ 2 - D * (m' - m) ^ 2) + (1 / (2 * σ ^ 2) * (D * σ' ^ 2) + (Real.log σ - Real.log σ') * D)
      = D * ((m' - m) ^ 2 / (2 * σ' ^ 2)) + D / 2 * (σ' ^ 2 / σ ^ 2 - 1 - (2 * Real.log σ' - 2 * Real.log σ)) := by
    field_simp
    ring
  rw [e2]
  refine add_nonneg (by positivity) (mul_nonneg (by positivity) (by linarith))

theorem newGo_gain (M : GoHMM n d) (S : TSet (Fin d → ℝ)) (hi0 : ∀ s, 0 ≤ M.initialState s)
    (hi1 : ∑ s, M.initialState s ≤ 1)
    (hm0 : ∀ s s', 0 ≤ M.matrix s s') (hm1 : ∀ s, ∑ s', M.matrix s s' ≤ 1)
    (hs : ∀ s i, 0 < M.sigma s i) (hs' : ∀ s i, 0 < (newGo M S).sigma s i) (ht : ∀ t ∈ S.times, 1 ≤ t) :
    (∀ x ∈ possGo M S, 0 < twGo (newGo M S) x.1) ∧
    ((possGo M S).map (fun x => Real.log (twGo M x.1) * x.2)).sum ≤
    ((possGo M S).map (fun x => Real.log (twGo (newGo M S) x.1) * x.2)).sum := by
  have hn := numAGo_nonneg M S hi0 hm0
  have hI := initGo_nonneg M S hi0 hm0
  have hd := denGo_nonneg M S hi0 hm0
  have hst := M.step_nonneg hm0
  have hIs : 0 ≤ ∑ s, initGo M S s := Finset.sum_nonneg (fun s _ => hI s)
  have hm0' : ∀ s s', 0 ≤ (newGo M S).matrix s s' := by
    intro s s'
    simp only [newGo]
    split_ifs
    · exact hm0 _ _
    · exact div_nonneg (hn _ _) (hd _)
  have hi0' : ∀ s, 0 ≤ (newGo M S).initialState s := fun s => div_nonneg (hI s) hIs
  have hposs : ∀ x ∈ possGo M S, twGo M x.1 ≠ 0 ∧ x.2 ∈ S.times := by
    intro x hx
    obtain ⟨h1, h2⟩ := List.mem_filter.mp hx
    exact ⟨by simpa using h2, (List.of_mem_zip h1).2⟩
  have hp0 : ∀ x ∈ possGo M S, 0 < twGo M x.1 := fun x hx =>
    lt_of_le_of_ne (twGo_nonneg M hi0 hm0 _) (hposs x hx).1.symm
  have ht0 : ∀ x ∈ possGo M S, (0:ℝ) < x.2 := fun x hx => by have := ht _ (hposs x hx).2; exact_mod_cast this
  have key := em_total (possGo M S) (fun x => x.1) (fun _ _ => 1) (fun x => (x.2 : ℝ))
    (fun x => twGo M x.1) (fun x => twGo (newGo M S) x.1)
    M.step (newGo M S).step M.initialState (newGo M S).initialState hst ((newGo M S).step_nonneg hm0')
    (fun _ _ _ => zero_le_one) hi0 hi0' (fun x _ => totalWeight_eq _ _ _ _) (fun x _ => totalWeight_eq _ _ _ _)
    hp0 ht0
    (by
      intro s ss x hx o ho hpos hu
      have h1 := hu (fun _ => 1) (fun _ _ _ _ => zero_le_one) zero_lt_one
      have h2 : 0 < numAGo M S s ss := h1
      have h3 : 0 < denGo M S s := by
        rw [← sum_numAGo]; exact lt_of_lt_of_le h2 (Finset.single_le_sum (fun ss _ => hn s ss) (Finset.mem_univ ss))
      refine mul_pos ((newGo M S).emit_pos s (hs' s) o) ?_
      simp only [newGo, if_neg h3.ne']
      exact div_pos h2 h3)
    (by
      intro s hs
      exact div_pos hs (lt_of_lt_of_le hs (Finset.single_le_sum (f := fun s => initGo M S s) (fun s _ => hI s) (Finset.mem_univ s))))
  refine ⟨key.1, ?_⟩
  have k2 := key.2
  -- initial distribution
  have g1 : 0 ≤ ∑ s, ((possGo M S).map (fun y => M.initialState s * beta0 M.step (fun _ => 1) y.1 s * (y.2 : ℝ)
      / twGo M y.1)).sum * Real.log ((newGo M S).initialState s / M.initialState s) := by
    change 0 ≤ ∑ s, initGo M S s * Real.log (initGo M S s / (∑ s', initGo M S s') / M.initialState s)
    rcases hIs.eq_or_lt with h | h
    · have hz := (Finset.sum_eq_zero_iff_of_nonneg (fun s _ => hI s)).mp h.symm
      exact le_of_eq (Finset.sum_eq_zero (fun s hs => by rw [hz s hs, zero_mul])).symm
    · refine gibbs Finset.univ (initGo M S) M.initialState (fun s _ => hI s) (fun s _ => hi0 s) hi1 (fun s _ hpos => ?_) h
      rcases (hi0 s).eq_or_lt with h' | h'
      · rw [initGo_zero M S s h'.symm] at hpos; exact absurd hpos (lt_irrefl _)
      · exact h'
  -- transitions and emissions
  have g2 : 0 ≤ ∑ s, ∑ ss, ((possGo M S).map (fun y => use M.step M.initialState (fun _ => 1)
      (fun o => Real.log ((newGo M S).step s ss o / M.step s ss o))
      ((y.2 : ℝ) / twGo M y.1) y.1 s ss)).sum := by
    refine Finset.sum_nonneg (fun s _ => ?_)
    by_cases h0 : denGo M S s = 0
    · -- nothing was observed in this state
      refine le_of_eq (Finset.sum_eq_zero (fun ss _ => ?_)).symm
      rw [List.sum_eq_zero]
      intro a ha
      obtain ⟨x, hx, rfl⟩ := List.mem_map.mp ha
      have hc : 0 ≤ (x.2 : ℝ) / twGo M x.1 := div_nonneg (Nat.cast_nonneg _) (hp0 x hx).le
      refine use_zero_of_one _ _ _ hst hi0 (fun _ => zero_le_one) _ hc _ _ _ ?_ _
      have hz : numAGo M S s ss = 0 :=
        (Finset.sum_eq_zero_iff_of_nonneg (fun ss _ => hn s ss)).mp ((sum_numAGo M S s).trans h0) ss (Finset.mem_univ ss)
      by_contra hne
      have hnn : ∀ y ∈ possGo M S, 0 ≤ (wkGo M y).numA s ss := fun y hy => use_nonneg _ _ _ hst hi0 (fun _ => zero_le_one) _ _
        (div_nonneg (Nat.cast_nonneg _) (hp0 y hy).le) _ (fun _ _ => zero_le_one) _ _
      have := sum_map_pos (possGo M S) (fun y => (wkGo M y).numA s ss) hnn x hx (lt_of_le_of_ne (hnn x hx) (Ne.symm hne))
      exact absurd hz this.ne'
    · have hdpos : 0 < denGo M S s := lt_of_le_of_ne (hd s) (Ne.symm h0)
      -- the gain splits in a part for the transition and a part for the observation
      let ψ : (Fin d → ℝ) → ℝ := fun o => ∑ i, (Real.log (GoHMM.normalWeight ((newGo M S).mu s i) ((newGo M S).sigma s i) (o i)) - Real.log (GoHMM.normalWeight (M.mu s i) (M.sigma s i) (o i)))
      have e1 : ∀ ss, ((possGo M S).map (fun y => use M.step M.initialState (fun _ => 1)
          (fun o => Real.log ((newGo M S).step s ss o / M.step s ss o)) ((y.2 : ℝ) / twGo M y.1) y.1 s ss)).sum
          = numAGo M S s ss * Real.log ((newGo M S).matrix s ss / M.matrix s ss)
            + ((possGo M S).map (fun y => use M.step M.initialState (fun _ => 1) ψ ((y.2 : ℝ) / twGo M y.1) y.1 s ss)).sum := by
        intro ss
        rcases (hn s ss).eq_or_lt with h | h
        · -- the transition is never used
          have hz : ∀ φ : (Fin d → ℝ) → ℝ, ((possGo M S).map (fun y => use M.step M.initialState (fun _ => 1) φ
              ((y.2 : ℝ) / twGo M y.1) y.1 s ss)).sum = 0 := fun φ => useGo_zero M S hi0 hm0 s ss h.symm φ
          rw [hz, hz, ← h, zero_mul, zero_add]
        · have hpos : 0 < M.matrix s ss := by
            rcases (hm0 s ss).eq_or_lt with h' | h'
            · rw [numAGo_zero M S s ss h'.symm] at h; exact absurd h (lt_irrefl _)
            · exact h'
          have hpos' : 0 < (newGo M S).matrix s ss := by
            simp only [newGo, if_neg h0]; exact div_pos h hdpos
          unfold numAGo
          rw [mul_comm, ← sum_map_mul, ← List.sum_map_add]
          congr 1
          refine List.map_congr_left (fun y _ => ?_)
          simp only [wkGo]
          rw [← use_const, ← use_add]
          refine use_congr _ _ _ _ _ _ _ _ _ (fun o _ _ => ?_)
          unfold GoHMM.step
          rw [mul_div_mul_comm, Real.log_mul (div_pos ((newGo M S).emit_pos s (hs' s) o) (M.emit_pos s (hs s) o)).ne'
            (div_pos hpos' hpos).ne', add_comm]
          congr 1
          rw [Real.log_div ((newGo M S).emit_pos s (hs' s) o).ne' (M.emit_pos s (hs s) o).ne']
          unfold GoHMM.emit
          rw [Real.log_prod (fun i _ => (GoHMM.normalWeight_pos _ _ _ (hs' s i)).ne'),
            Real.log_prod (fun i _ => (GoHMM.normalWeight_pos _ _ _ (hs s i)).ne'), ← Finset.sum_sub_distrib]
      rw [Finset.sum_congr rfl (fun ss _ => e1 ss), Finset.sum_add_distrib]
      refine add_nonneg ?_ ?_
      · have hg := gibbs Finset.univ (numAGo M S s) (M.matrix s) (fun ss _ => hn s ss) (fun ss _ => hm0 s ss) (hm1 s)
          (fun ss _ hpos => by
            rcases (hm0 s ss).eq_or_lt with h | h
            · rw [numAGo_zero M S s ss h.symm] at hpos; exact absurd hpos (lt_irrefl _)
            · exact h)
          (by rw [sum_numAGo]; exact hdpos)
        rw [sum_numAGo] at hg
        simpa only [newGo, if_neg h0] using hg
      · rw [sum_map_comm]
        simp only [sum_use]
        change 0 ≤ avGo M S s ψ
        simp only [ψ]
        rw [avGo_finsum]
        exact Finset.sum_nonneg (fun i _ => avGo_gain M S hi0 hm0 s i hdpos (hs s i) (hs' s i))
  linarith

end
end Jajapy
