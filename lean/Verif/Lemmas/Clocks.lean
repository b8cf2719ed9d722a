import Verif.Spec.CTMCSim
import Verif.Lemmas.CTMC
import Verif.Lemmas.Race
import Verif.Lemmas.Draws
import Verif.Props.CTMC

set_option linter.unusedSectionVars false

namespace Jajapy

open MeasureTheory ProbabilityTheory Spec Finset Tools BW

/-! ### The first step of a sequence of independent draws -/

section cons
variable {X : Type} [MeasurableSpace X]

/-- Putting the draws of a step in front of the draws of the following steps. -/
def consStep (p : X × (ℕ → X)) : ℕ → X
  | 0 => p.1
  | k + 1 => p.2 k

/-- The same as a measurable equivalence. -/
def stepEquiv : (X × (ℕ → X)) ≃ᵐ (ℕ → X) where
  toFun := consStep
  invFun d := (d 0, fun k => d (k+1))
  left_inv p := rfl
  right_inv d := by funext k; cases k <;> rfl
  measurable_toFun := by
    refine measurable_pi_iff.2 (fun k => ?_)
    cases k with
    | zero => exact measurable_fst
    | succ k => exact (measurable_pi_apply k).comp measurable_snd
  measurable_invFun := by
    refine Measurable.prodMk (measurable_pi_apply 0) ?_
    exact measurable_pi_iff.2 (fun k => measurable_pi_apply (k+1))

theorem map_consStep (μ : Measure X) [IsProbabilityMeasure μ] :
    (μ.prod (Measure.infinitePi (fun _ : ℕ => μ))).map stepEquiv = Measure.infinitePi (fun _ : ℕ => μ) := by
  refine Measure.eq_infinitePi _ ?_
  intro s t ht
  classical
  rw [MeasurableEquiv.map_apply]
  have : (stepEquiv ⁻¹' ((s : Set ℕ).pi t))
      = (if 0 ∈ s then t 0 else Set.univ) ×ˢ (Set.pi ((s.preimage Nat.succ (Nat.succ_injective.injOn) : Finset ℕ) : Set ℕ) (fun k => t (k+1))) := by
    ext p
    simp only [Set.mem_preimage, Set.mem_pi, Set.mem_prod, Finset.coe_preimage, Finset.mem_coe]
    constructor
    · intro h
      refine ⟨?_, fun k hk => h (k+1) hk⟩
      split_ifs with h0
      · exact h 0 h0
      · trivial
    · rintro ⟨h0, h1⟩ k hk
      cases k with
      | zero => rw [if_pos hk] at h0; exact h0
      | succ k => exact h1 k hk
  rw [this, Measure.prod_prod, Measure.infinitePi_pi _ (fun i _ => ht _ )]
  have e2 : ∏ i ∈ s.preimage Nat.succ Nat.succ_injective.injOn, μ (t (i + 1)) = ∏ i ∈ s.erase 0, μ (t i) := by
    refine Finset.prod_bij (fun i _ => i + 1) ?_ ?_ ?_ ?_
    · intro i hi; simpa using hi
    · intro i _ j _ h; simpa using h
    · intro j hj
      rw [Finset.mem_erase] at hj
      obtain ⟨k, rfl⟩ := Nat.exists_eq_succ_of_ne_zero hj.1
      exact ⟨k, by simpa using hj.2, rfl⟩
    · intro i _; rfl
  rw [e2]
  split_ifs with h0
  · exact Finset.mul_prod_erase s (fun i => μ (t i)) h0
  · rw [Finset.erase_eq_of_notMem h0]; simp

end cons

variable {n : ℕ}

theorem clocks_cons (A : Set (Fin n → ℝ)) (B : Set (ℕ → Fin n → ℝ)) :
    clocksLaw n {d | d 0 ∈ A ∧ (fun k => d (k+1)) ∈ B} = stepLaw n A * clocksLaw n B := by
  unfold clocksLaw
  conv_lhs => rw [← map_consStep]
  rw [MeasurableEquiv.map_apply, ← Measure.prod_prod]
  rfl

theorem measurable_clocks_cons {A : Set (Fin n → ℝ)} (hA : MeasurableSet A) {B : Set (ℕ → Fin n → ℝ)} (hB : MeasurableSet B) :
    MeasurableSet {d : ℕ → Fin n → ℝ | d 0 ∈ A ∧ (fun k => d (k+1)) ∈ B} := by
  refine MeasurableSet.inter ((measurable_pi_apply (X := fun _ : ℕ => Fin n → ℝ) 0) hA) ?_
  have : Measurable (fun (d : ℕ → Fin n → ℝ) (k : ℕ) => d (k+1)) := measurable_pi_iff.2 (fun k => measurable_pi_apply (k+1))
  exact this hB

theorem clocks_bind (W : Fin n → Set (Fin n → ℝ)) (hW : ∀ i, MeasurableSet (W i)) (hd : ∀ i j, i ≠ j → Disjoint (W i) (W j))
    (B : Fin n → Set (ℕ → Fin n → ℝ)) (hB : ∀ i, MeasurableSet (B i)) :
    clocksLaw n {d | ∃ i, d 0 ∈ W i ∧ (fun k => d (k+1)) ∈ B i} = ∑ i, stepLaw n (W i) * clocksLaw n (B i) := by
  have : {d : ℕ → Fin n → ℝ | ∃ i, d 0 ∈ W i ∧ (fun k => d (k+1)) ∈ B i}
      = ⋃ i, {d : ℕ → Fin n → ℝ | d 0 ∈ W i ∧ (fun k => d (k+1)) ∈ B i} := by
    ext d; simp
  rw [this, measure_iUnion]
  · rw [tsum_fintype]
    exact Finset.sum_congr rfl (fun i _ => clocks_cons (W i) (B i))
  · intro i j hij
    rw [Function.onFun, Set.disjoint_left]
    rintro d ⟨h1, -⟩ ⟨h2, -⟩
    exact Set.disjoint_left.1 (hd i j hij) h1 h2
  · exact fun i => measurable_clocks_cons (hW i) (hB i)

theorem measurable_clocks_bind (W : Fin n → Set (Fin n → ℝ)) (hW : ∀ i, MeasurableSet (W i))
    (B : Fin n → Set (ℕ → Fin n → ℝ)) (hB : ∀ i, MeasurableSet (B i)) :
    MeasurableSet {d : ℕ → Fin n → ℝ | ∃ i, d 0 ∈ W i ∧ (fun k => d (k+1)) ∈ B i} := by
  have : {d : ℕ → Fin n → ℝ | ∃ i, d 0 ∈ W i ∧ (fun k => d (k+1)) ∈ B i}
      = ⋃ i, {d : ℕ → Fin n → ℝ | d 0 ∈ W i ∧ (fun k => d (k+1)) ∈ B i} := by
    ext d; simp
  rw [this]
  exact MeasurableSet.iUnion (fun i => measurable_clocks_cons (hW i) (hB i))

/-- The choice of the initial state, then the steps. -/
theorem sim_bind (row : Fin n → ℝ) (h0 : ∀ i, 0 ≤ row i) (hs : ∑ i, row i ≤ 1) (B : Fin n → Set (ℕ → Fin n → ℝ))
    (hB : ∀ i, MeasurableSet (B i)) :
    simLaw n {p | ∃ i, pick row p.1 = .ok i ∧ p.2 ∈ B i} = ∑ i, ENNReal.ofReal (row i) * clocksLaw n (B i) := by
  have : {p : ℝ × (ℕ → Fin n → ℝ) | ∃ i, pick row p.1 = .ok i ∧ p.2 ∈ B i} = ⋃ i, {r | pick row r = .ok i} ×ˢ B i := by
    ext d; simp
  rw [this, measure_iUnion]
  · rw [tsum_fintype]
    refine Finset.sum_congr rfl (fun i _ => ?_)
    unfold simLaw
    rw [Measure.prod_prod, pick_law row h0 hs i]
  · intro i j hij
    rw [Function.onFun, Set.disjoint_left]
    rintro d ⟨h1, -⟩ ⟨h2, -⟩
    simp only [Set.mem_ofPred_eq] at h1 h2
    rw [h1] at h2
    injection h2 with h2
    exact hij h2
  · exact fun i => (measurable_pick row i).prod (hB i)

/-! ### One step -/

section step
variable {L : Type}

/-- The draws with which the simulator goes from `s` to `i` after a time of `A`. -/
def CTMC.stepSet (M : CTMC ℝ L n) (s i : Fin n) (A : Set ℝ) : Set (Fin n → ℝ) := ringTimes (M.matrix s) ⁻¹' Wins i A

theorem CTMC.measurable_stepSet (M : CTMC ℝ L n) (s i : Fin n) {A : Set ℝ} (hA : MeasurableSet A) : MeasurableSet (M.stepSet s i A) :=
  measurable_ringTimes _ (measurable_wins i hA)

theorem wins_unique {i j : Fin n} {A B : Set ℝ} {x : Fin n → ℝ} (hi : x ∈ Wins i A) (hj : x ∈ Wins j B) : i = j := by
  rcases lt_trichotomy i j with h | h | h
  · exact absurd (hj.2.2 i h) (not_lt.2 (hi.2.1 j))
  · exact h
  · exact absurd (hi.2.2 j h) (not_lt.2 (hj.2.1 i))

theorem CTMC.stepSet_disjoint (M : CTMC ℝ L n) (s : Fin n) (A : Set ℝ) (i j : Fin n) (h : i ≠ j) :
    Disjoint (M.stepSet s i A) (M.stepSet s j A) :=
  Set.disjoint_left.2 (fun _ h1 h2 => h (wins_unique h1 h2))

theorem CTMC.next_iff (M : CTMC ℝ L n) (s : Fin n) (d : Fin n → ℝ) (o : L) (i : Fin n) (t : ℝ) :
    M.next s d = .ok (o, i, t) ↔ M.labelling s = o ∧ d ∈ M.stepSet s i {t} := by
  obtain ⟨j, u, h1, h2, h3, h4⟩ := M.next_spec s d
  have hw : d ∈ M.stepSet s j {u} := ⟨h2.symm, fun k => by rw [show ringTimes (M.matrix s) d j = u from h2.symm]; exact h3 k,
    fun k hk => by rw [show ringTimes (M.matrix s) d j = u from h2.symm]; exact h4 k hk⟩
  rw [h1]
  constructor
  · intro h
    injection h with h
    simp only [Prod.mk.injEq] at h
    obtain ⟨rfl, rfl, rfl⟩ := h
    exact ⟨rfl, hw⟩
  · rintro ⟨rfl, h⟩
    obtain rfl := wins_unique hw h
    have : u = t := hw.1.symm.trans h.1
    rw [this]

theorem CTMC.stepLaw_stepSet (M : CTMC ℝ L n) (s i : Fin n) {A : Set ℝ} (hA : MeasurableSet A) :
    stepLaw n (M.stepSet s i A) = Measure.pi (fun j => clock (M.matrix s j)) (Wins i A) := by
  rw [← map_ringTimes, Measure.map_apply (measurable_ringTimes _) (measurable_wins i hA)]
  rfl

end step
end Jajapy
