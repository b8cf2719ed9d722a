import Verif.Lemmas.LimitMC

/-!
Lemmas for the limits of Baum-Welch on CTMCs and timed traces.
-/

set_option linter.unusedSectionVars false

namespace Jajapy

open Finset Spec BW Filter Topology

/-- An average of logarithms of numbers below `C` is below `log C`. -/
theorem avgLogLik_le {O : Type} (P : List O → ℝ) (S : TSet O) (C : ℝ) (hC : 1 ≤ C) (h : ∀ w ∈ S.sequences, P w ≤ C) :
    avgLogLik P S ≤ Real.log C := by
  have hc0 : 0 ≤ Real.log C := Real.log_nonneg hC
  unfold avgLogLik
  refine div_le_of_le_mul₀ (Nat.cast_nonneg _) hc0 ?_
  have : ∀ (l1 : List (List O)) (l2 : List ℕ), (∀ w ∈ l1, P w ≤ C) →
      (((l1.zip l2).filter (fun p => 0 < P p.1)).map (fun p => p.2 * Real.log (P p.1))).sum ≤ Real.log C * (l2.sum : ℕ) := by
    intro l1
    induction l1 with
    | nil => intro l2 _; simp only [List.zip_nil_left, List.filter_nil, List.map_nil, List.sum_nil]; positivity
    | cons w l1 ih =>
      intro l2 hl
      cases l2 with
      | nil => simp
      | cons t l2 =>
        have h1 := ih l2 (fun v hv => hl v (List.mem_cons_of_mem _ hv))
        have h0 : (0:ℝ) ≤ t := Nat.cast_nonneg _
        rw [List.zip_cons_cons, List.filter_cons, List.sum_cons]
        push_cast at h1 ⊢
        split_ifs with hp
        · rw [List.map_cons, List.sum_cons]
          have := mul_le_mul_of_nonneg_left (Real.log_le_log (by simpa using hp) (hl w List.mem_cons_self)) h0
          simp only at this ⊢
          linarith
        · have := mul_nonneg hc0 h0
          linarith
  exact this _ _ h

/-- Weights below `c` at every step give backward weights below `c ^ length`. -/
theorem beta0_le_pow {O : Type} {n : ℕ} (tau : Fin n → Fin n → O → ℝ) (f : Fin n → ℝ) (c : ℝ) (hc : 0 ≤ c) (h0 : ∀ s ss o, 0 ≤ tau s ss o)
    (hf : ∀ s, f s ≤ 1) (os : List O) (h1 : ∀ s, ∀ o ∈ os, ∑ ss, tau s ss o ≤ c) (s : Fin n) : beta0 tau f os s ≤ c ^ os.length := by
  induction os generalizing s with
  | nil => simpa using hf s
  | cons o os ih =>
    rw [beta0_cons, List.length_cons, pow_succ']
    have hp : 0 ≤ c ^ os.length := pow_nonneg hc _
    calc ∑ ss, beta0 tau f os ss * tau s ss o ≤ ∑ ss, c ^ os.length * tau s ss o :=
          Finset.sum_le_sum (fun ss _ => mul_le_mul_of_nonneg_right (ih (fun s o ho => h1 s o (List.mem_cons_of_mem _ ho)) ss) (h0 _ _ _))
      _ = c ^ os.length * ∑ ss, tau s ss o := by rw [Finset.mul_sum]
      _ ≤ c ^ os.length * c := mul_le_mul_of_nonneg_left (h1 s o List.mem_cons_self) hp
      _ = c * c ^ os.length := mul_comm _ _

section ct
variable {L : Type} {n : ℕ} [DecidableEq L]

theorem WaitsPos.nonneg {S : TSet (Sym L)} (h : WaitsPos S) : WaitsNonneg S := fun w hw p hp => (h w hw p hp).le

/-- The waiting times of a set are bounded from below by a positive number. -/
theorem WaitsPos.least {S : TSet (Sym L)} (h : WaitsPos S) : ∃ δ > 0, δ ≤ 1 ∧ ∀ w ∈ S.sequences, ∀ p ∈ timedSteps w, δ ≤ p.2 := by
  have h1 : ∀ l : List (L × ℝ), (∀ p ∈ l, 0 < p.2) → ∃ δ > 0, δ ≤ 1 ∧ ∀ p ∈ l, δ ≤ p.2 := by
    intro l hl
    induction l with
    | nil => exact ⟨1, one_pos, le_rfl, by simp⟩
    | cons q l ih =>
      obtain ⟨δ, a, b, c⟩ := ih (fun p hp => hl p (List.mem_cons_of_mem _ hp))
      refine ⟨min δ q.2, lt_min a (hl q List.mem_cons_self), (min_le_left _ _).trans b, fun p hp => ?_⟩
      rcases List.mem_cons.mp hp with rfl | hp
      · exact min_le_right _ _
      · exact (min_le_left _ _).trans (c p hp)
  have h2 : ∀ l : List (List (Sym L)), (∀ w ∈ l, ∀ p ∈ timedSteps w, 0 < p.2) →
      ∃ δ > 0, δ ≤ 1 ∧ ∀ w ∈ l, ∀ p ∈ timedSteps w, δ ≤ p.2 := by
    intro l hl
    induction l with
    | nil => exact ⟨1, one_pos, le_rfl, by simp⟩
    | cons v l ih =>
      obtain ⟨δ, a, b, c⟩ := ih (fun w hw => hl w (List.mem_cons_of_mem _ hw))
      obtain ⟨δ', a', b', c'⟩ := h1 (timedSteps v) (hl v List.mem_cons_self)
      refine ⟨min δ δ', lt_min a a', (min_le_left _ _).trans b, fun w hw p hp => ?_⟩
      rcases List.mem_cons.mp hw with rfl | hw
      · exact (min_le_right _ _).trans (c' p hp)
      · exact (min_le_left _ _).trans (c w hw p hp)
  exact h2 _ h

theorem sum_rateStep_le (M : CTMC ℝ L n) (hM : M.Valid) (δ : ℝ) (hδ : 0 < δ) (s : Fin n) (p : L × ℝ) (hp : δ ≤ p.2) :
    ∑ ss, M.rateStep s ss p ≤ 1 / δ := by
  unfold CTMC.rateStep
  split_ifs
  · rw [← Finset.sum_mul]
    have hE : 0 ≤ ∑ j, M.matrix s j := Finset.sum_nonneg (fun j _ => hM.2 s j)
    set E := ∑ j, M.matrix s j
    have h1 : E * Real.exp (-E * p.2) ≤ E * Real.exp (-E * δ) :=
      mul_le_mul_of_nonneg_left (Real.exp_le_exp.mpr (by nlinarith)) hE
    refine le_trans h1 ?_
    rw [le_div_iff₀ hδ, neg_mul, Real.exp_neg]
    have h2 := Real.add_one_le_exp (E * δ)
    rw [mul_assoc, mul_comm, mul_assoc, ← div_eq_inv_mul, div_le_one (Real.exp_pos _)]
    linarith [mul_comm δ E]
  · simp only [Finset.sum_const_zero]; positivity

/-- The densities of the traces of a set are bounded, whatever the rates. -/
theorem density_bound (v : Fin n → ℝ) (S : TSet (Sym L)) (hS : WaitsPos S) :
    ∃ C, 1 ≤ C ∧ ∀ N : CTMC ℝ L n, N.Valid → N.initialState = v → ∀ w ∈ S.sequences, N.density w ≤ C := by
  obtain ⟨δ, h1, h2, h3⟩ := hS.least
  have hd : 1 ≤ 1 / δ := by rw [le_div_iff₀ h1]; linarith
  obtain ⟨m, hm⟩ : ∃ m : ℕ, ∀ w ∈ S.sequences, (timedSteps w).length ≤ m := by
    have : ∀ l : List (List (Sym L)), ∃ m : ℕ, ∀ w ∈ l, (timedSteps w).length ≤ m := by
      intro l
      induction l with
      | nil => exact ⟨0, by simp⟩
      | cons w l ih =>
        obtain ⟨m, hm⟩ := ih
        refine ⟨max m (timedSteps w).length, fun u hu => ?_⟩
        rcases List.mem_cons.mp hu with rfl | hu
        · exact le_max_right _ _
        · exact (hm u hu).trans (le_max_left _ _)
    exact this _
  have hmx : 1 ≤ (1 / δ) ^ m := one_le_pow₀ hd
  refine ⟨max 1 (∑ s, v s) * (1 / δ) ^ m, ?_, fun N hN hv w hw => ?_⟩
  · have : (1:ℝ) ≤ max 1 (∑ s, v s) := le_max_left _ _
    nlinarith
  · unfold CTMC.density
    rw [totalWeight_eq, hv]
    have hb : ∀ s, beta0 N.rateStep (N.lastMask w) (timedSteps w) s ≤ (1 / δ) ^ m := fun s =>
      (beta0_le_pow _ _ (1 / δ) (by positivity) (N.rateStep_nonneg hN.2) (fun s => by unfold CTMC.lastMask; split_ifs <;> simp)
        _ (fun s p hp => sum_rateStep_le N hN δ h1 s p (h3 w hw p hp)) s).trans (pow_le_pow_right₀ hd (hm w hw))
    have hv0 : ∀ s, 0 ≤ v s := hv ▸ hN.1
    calc ∑ s, v s * beta0 N.rateStep (N.lastMask w) (timedSteps w) s ≤ ∑ s, v s * (1 / δ) ^ m :=
          Finset.sum_le_sum (fun s _ => mul_le_mul_of_nonneg_left (hb s) (hv0 s))
      _ = (∑ s, v s) * (1 / δ) ^ m := by rw [Finset.sum_mul]
      _ ≤ _ := mul_le_mul_of_nonneg_right (le_max_right _ _) (by positivity)

/-- The expected time in a state is at least the least waiting time times the expected number of jumps. -/
theorem denCT_ge (M : CTMC ℝ L n) (hM : M.Valid) (S : TSet (Sym L)) (δ : ℝ)
    (h : ∀ w ∈ S.sequences, ∀ p ∈ timedSteps w, δ ≤ p.2) (s : Fin n) : δ * ∑ ss, numCT M S s ss ≤ denCT M S s := by
  rw [denCT_eq_sum, Finset.mul_sum]
  refine Finset.sum_le_sum (fun ss _ => ?_)
  unfold numCT
  rw [← sum_map_mul]
  have h0 : 0 ≤ ((possCT M S).map (fun x => use M.rateStep M.initialState (M.lastMask x.1) (fun p => p.2 + (-δ) * 1)
      ((x.2 : ℝ) / M.density x.1) (timedSteps x.1) s ss)).sum := by
    refine sum_map_nonneg _ _ (fun x hx => use_nonneg _ _ _ (M.rateStep_nonneg hM.2) hM.1 (M.lastMask_nonneg _) _ _
      (div_nonneg (Nat.cast_nonneg _) (M.density_nonneg hM _)) _ (fun p hp => ?_) _ _)
    have := h x.1 (List.of_mem_zip ((mem_possCT M S x).mp hx).1).1 p hp
    linarith
  simp only [use_add, use_smul _ _ _ (fun _ => (1:ℝ))] at h0
  rw [List.sum_map_add] at h0
  simp only [neg_mul] at h0
  have e : ((possCT M S).map (fun x => -(δ * use M.rateStep M.initialState (M.lastMask x.1) (fun _ => 1)
      ((x.2 : ℝ) / M.density x.1) (timedSteps x.1) s ss))).sum = - ((possCT M S).map (fun x => δ * use M.rateStep M.initialState
        (M.lastMask x.1) (fun _ => 1) ((x.2 : ℝ) / M.density x.1) (timedSteps x.1) s ss)).sum := by
    generalize possCT M S = l
    induction l with
    | nil => simp
    | cons x l ih => simp only [List.map_cons, List.sum_cons, ih]; ring
  rw [e] at h0
  linarith

/-- No fixed rate. -/
def noFixed (_ _ : Fin n) : Bool := false

/-- The distance covered by an iteration, weighted by the times. -/
noncomputable def moveCT (M : CTMC ℝ L n) (S : TSet (Sym L)) : ℝ :=
  ∑ s, ∑ ss, (Real.sqrt (numCT M S s ss) - Real.sqrt (denCT M S s * M.matrix s ss)) ^ 2

theorem numCT_of_den (M : CTMC ℝ L n) (hM : M.Valid) (S : TSet (Sym L)) (hS : WaitsPos S) (s ss : Fin n) (h : denCT M S s = 0) :
    numCT M S s ss = 0 := by
  obtain ⟨δ, h1, _, h3⟩ := hS.least
  have h4 := denCT_ge M hM S δ h3 s
  rw [h] at h4
  have h5 := Finset.single_le_sum (f := fun ss => numCT M S s ss) (fun ss _ => numCT_nonneg M hM S s ss) (Finset.mem_univ ss)
  have h6 := numCT_nonneg M hM S s ss
  nlinarith

theorem moveCT_eq_zero (M : CTMC ℝ L n) (hM : M.Valid) (S : TSet (Sym L)) (hw : WaitsNonneg S)
    (h : moveCT M S ≤ 0) (s ss : Fin n) : numCT M S s ss = denCT M S s * M.matrix s ss := by
  have h0 : ∀ s, 0 ≤ ∑ ss, (Real.sqrt (numCT M S s ss) - Real.sqrt (denCT M S s * M.matrix s ss)) ^ 2 :=
    fun s => Finset.sum_nonneg (fun ss _ => sq_nonneg _)
  have h1 := (Finset.sum_eq_zero_iff_of_nonneg (fun s _ => h0 s)).mp (le_antisymm h (Finset.sum_nonneg (fun s _ => h0 s))) s
    (Finset.mem_univ s)
  have h2 := (Finset.sum_eq_zero_iff_of_nonneg (fun ss _ => sq_nonneg _)).mp h1 ss (Finset.mem_univ ss)
  have h3 := sub_eq_zero.mp (pow_eq_zero_iff (by norm_num) |>.mp h2)
  exact (Real.sqrt_inj (numCT_nonneg M hM S s ss) (mul_nonneg (denCT_nonneg M hM S hw s) (hM.2 s ss))).mp h3

/-- The CTMC is left unchanged exactly when the expected counts agree with it. -/
theorem newCT_eq_iff (M : CTMC ℝ L n) (hM : M.Valid) (S : TSet (Sym L)) (hS : WaitsPos S) :
    newCT M noFixed S = M ↔ ∀ s ss, numCT M S s ss = denCT M S s * M.matrix s ss := by
  constructor
  · intro h s ss
    have h1 : (newCT M noFixed S).matrix s ss = M.matrix s ss := by rw [h]
    simp only [newCT, noFixed, Bool.false_eq_true, if_false] at h1
    split_ifs at h1 with h0
    · rw [numCT_of_den M hM S hS s ss h0, h0, zero_mul]
    · rw [← h1]; field_simp
  · intro h
    have : (newCT M noFixed S).matrix = M.matrix := by
      funext s ss
      simp only [newCT, noFixed, Bool.false_eq_true, if_false]
      split_ifs with h0
      · rfl
      · rw [h s ss]; field_simp
    cases M
    simp only [newCT, CTMC.mk.injEq, and_true] at this ⊢
    exact this

/-- An iteration gains at least the distance it covers. -/
theorem newCT_gain_sq (M : CTMC ℝ L n) (hM : M.Valid) (S : TSet (Sym L)) (hS : WaitsPos S) (ht : ∀ t ∈ S.times, 1 ≤ t) :
    ((possCT M S).map (fun x => Real.log (M.density x.1) * x.2)).sum + moveCT M S ≤
    ((possCT M S).map (fun x => Real.log ((newCT M noFixed S).density x.1) * x.2)).sum := by
  have hn := numCT_nonneg M hM S
  have hd := denCT_nonneg M hM S hS.nonneg
  have hden : ∀ s ss, 0 < numCT M S s ss → 0 < denCT M S s := fun s ss h => by
    refine lt_of_le_of_ne (hd s) (fun h0 => ?_)
    rw [numCT_of_den M hM S hS s ss h0.symm] at h
    exact lt_irrefl _ h
  have hmat : ∀ s ss, 0 < numCT M S s ss → 0 < M.matrix s ss := by
    intro s ss h
    rcases (hM.2 s ss).eq_or_lt with h0 | h0
    · rw [numCT_zero M S s ss h0.symm] at h; exact absurd h (lt_irrefl _)
    · exact h0
  have hnew : ∀ s ss, (newCT M noFixed S).matrix s ss = if denCT M S s = 0 then M.matrix s ss else numCT M S s ss / denCT M S s := by
    intro s ss
    simp only [newCT, noFixed, Bool.false_eq_true, if_false]
  have hg := (rates_gain_le M (newCT M noFixed S) hM (newCT_valid M hM noFixed S hS.nonneg) rfl rfl S ht (fun s ss _ h => by
    have := hden s ss h
    rw [hnew, if_neg this.ne']
    exact div_pos h this)).2
  refine le_trans (add_le_add le_rfl ?_) hg
  unfold moveCT
  rw [← Finset.sum_sub_distrib]
  refine Finset.sum_le_sum (fun s _ => ?_)
  have h1 : ∀ ss, (Real.sqrt (numCT M S s ss) - Real.sqrt (denCT M S s * M.matrix s ss)) ^ 2 ≤
      Real.log ((newCT M noFixed S).matrix s ss / M.matrix s ss) * numCT M S s ss
        - denCT M S s * ((newCT M noFixed S).matrix s ss - M.matrix s ss) := by
    intro ss
    refine le_trans (sq_le_gain _ _ (hn s ss) (mul_nonneg (hd s) (hM.2 s ss)) (fun h => mul_pos (hden s ss h) (hmat s ss h))) ?_
    rw [hnew]
    by_cases h0 : denCT M S s = 0
    · rw [numCT_of_den M hM S hS s ss h0, h0]; simp
    · rw [if_neg h0, div_div, mul_comm (Real.log _), mul_sub, mul_div_cancel₀ _ h0]
      linarith
  refine le_trans (Finset.sum_le_sum (fun ss _ => h1 ss)) ?_
  rw [Finset.sum_sub_distrib, ← Finset.mul_sum, Finset.sum_sub_distrib]

theorem rateStep_tendsto {J : Type} {l : Filter J} (M : J → CTMC ℝ L n) (N : CTMC ℝ L n)
    (hl : ∀ j, (M j).labelling = N.labelling)
    (hm : ∀ s ss, Tendsto (fun j => (M j).matrix s ss) l (𝓝 (N.matrix s ss))) (s ss : Fin n) (p : L × ℝ) :
    Tendsto (fun j => (M j).rateStep s ss p) l (𝓝 (N.rateStep s ss p)) := by
  unfold CTMC.rateStep
  simp only [hl]
  split_ifs
  · exact (hm s ss).mul ((Real.continuous_exp.tendsto _).comp (((tendsto_finsetSum _ (fun j _ => hm s j)).neg).mul_const _))
  · exact tendsto_const_nhds

theorem density_tendsto {J : Type} {l : Filter J} (M : J → CTMC ℝ L n) (N : CTMC ℝ L n)
    (hl : ∀ j, (M j).labelling = N.labelling) (hi : ∀ j, (M j).initialState = N.initialState)
    (hm : ∀ s ss, Tendsto (fun j => (M j).matrix s ss) l (𝓝 (N.matrix s ss))) (w : List (Sym L)) :
    Tendsto (fun j => (M j).density w) l (𝓝 (N.density w)) := by
  have hmask : ∀ j, (M j).lastMask w = N.lastMask w := fun j => by funext s; unfold CTMC.lastMask; rw [hl]
  have e : ∀ j, (M j).density w = totalWeight N.initialState (M j).rateStep (N.lastMask w) (timedSteps w) := by
    intro j
    unfold CTMC.density
    rw [hmask, hi]
  simp only [e]
  exact tendsto_totalWeight (fun j => (M j).rateStep) N.rateStep (fun _ => N.initialState) N.initialState _
    (rateStep_tendsto M N hl hm) (fun _ => tendsto_const_nhds) _

/-- The expected counts depend continuously on the rates, as long as the same traces are possible. -/
theorem useCT_tendsto {J : Type} {l : Filter J} (M : J → CTMC ℝ L n) (N : CTMC ℝ L n) (S : TSet (Sym L))
    (hl : ∀ j, (M j).labelling = N.labelling) (hi : ∀ j, (M j).initialState = N.initialState)
    (hm : ∀ s ss, Tendsto (fun j => (M j).matrix s ss) l (𝓝 (N.matrix s ss))) (hp : ∀ j, possCT (M j) S = possCT N S)
    (φ : L × ℝ → ℝ) (s ss : Fin n) :
    Tendsto (fun j => ((possCT (M j) S).map (fun x => use (M j).rateStep (M j).initialState ((M j).lastMask x.1) φ
      (x.2 / (M j).density x.1) (timedSteps x.1) s ss)).sum) l
      (𝓝 ((possCT N S).map (fun x => use N.rateStep N.initialState (N.lastMask x.1) φ
      (x.2 / N.density x.1) (timedSteps x.1) s ss)).sum) := by
  have hmask : ∀ j w, (M j).lastMask w = N.lastMask w := fun j w => by funext s; unfold CTMC.lastMask; rw [hl]
  have e : ∀ j, ((possCT (M j) S).map (fun x => use (M j).rateStep (M j).initialState ((M j).lastMask x.1) φ
      (x.2 / (M j).density x.1) (timedSteps x.1) s ss)).sum = ((possCT N S).map (fun x => use (M j).rateStep N.initialState
        (N.lastMask x.1) φ ((x.2 : ℝ) / (M j).density x.1) (timedSteps x.1) s ss)).sum := by
    intro j
    rw [hp j, hi j]
    congr 1
    exact List.map_congr_left (fun x _ => by rw [hmask])
  simp only [e]
  refine tendsto_list_sum (possCT N S) _ _ (fun x hx => ?_)
  have hne : N.density x.1 ≠ 0 := ((mem_possCT N S x).mp hx).2
  exact tendsto_use (fun j => (M j).rateStep) N.rateStep (fun _ => N.initialState) N.initialState (N.lastMask x.1) _ _
    (rateStep_tendsto M N hl hm) (fun _ => tendsto_const_nhds)
    (Tendsto.div tendsto_const_nhds (density_tendsto M N hl hi hm x.1) hne) _ _ _ _

theorem moveCT_tendsto {J : Type} {l : Filter J} (M : J → CTMC ℝ L n) (N : CTMC ℝ L n) (S : TSet (Sym L))
    (hl : ∀ j, (M j).labelling = N.labelling) (hi : ∀ j, (M j).initialState = N.initialState)
    (hm : ∀ s ss, Tendsto (fun j => (M j).matrix s ss) l (𝓝 (N.matrix s ss))) (hp : ∀ j, possCT (M j) S = possCT N S) :
    Tendsto (fun j => moveCT (M j) S) l (𝓝 (moveCT N S)) := by
  unfold moveCT
  refine tendsto_finsetSum _ (fun s _ => tendsto_finsetSum _ (fun ss _ => ?_))
  refine Tendsto.pow (Tendsto.sub (Tendsto.sqrt ?_) (Tendsto.sqrt (Tendsto.mul ?_ (hm s ss)))) 2
  · exact useCT_tendsto M N S hl hi hm hp _ s ss
  · simp only [denCT_eq_sum]
    exact tendsto_finsetSum _ (fun ss _ => useCT_tendsto M N S hl hi hm hp _ s ss)

end ct
end Jajapy
