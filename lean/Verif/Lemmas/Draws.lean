import Mathlib.MeasureTheory.Measure.Prod
import Verif.Spec.Draws
import Verif.Model.MC
import Verif.Props.Tools
import Verif.Lemmas.Paths

set_option linter.unusedSectionVars false

namespace Jajapy

open MeasureTheory Spec Finset Tools

/-- Putting a number in front of a sequence. -/
def consDraw (p : ℝ × (ℕ → ℝ)) : ℕ → ℝ
  | 0 => p.1
  | k + 1 => p.2 k

/-- The same as a measurable equivalence. -/
def consEquiv : (ℝ × (ℕ → ℝ)) ≃ᵐ (ℕ → ℝ) where
  toFun := consDraw
  invFun d := (d 0, fun k => d (k+1))
  left_inv p := rfl
  right_inv d := by funext k; cases k <;> rfl
  measurable_toFun := by
    refine measurable_pi_iff.2 (fun k => ?_)
    cases k with
    | zero => exact measurable_fst
    | succ k => exact (measurable_pi_apply k).comp measurable_snd
  measurable_invFun := by
    refine Measurable.prodMk (measurable_pi_apply 0) ?_
    exact measurable_pi_iff.2 (fun k => measurable_pi_apply (k+1))

theorem map_consDraw : (uniform.prod drawsLaw).map consEquiv = drawsLaw := by
  unfold drawsLaw
  refine Measure.eq_infinitePi _ ?_
  intro s t ht
  classical
  rw [MeasurableEquiv.map_apply]
  have : (consEquiv ⁻¹' ((s : Set ℕ).pi t))
      = (if 0 ∈ s then t 0 else Set.univ) ×ˢ (Set.pi ((s.preimage Nat.succ (Nat.succ_injective.injOn) : Finset ℕ) : Set ℕ) (fun k => t (k+1))) := by
    ext p
    simp only [Set.mem_preimage, Set.mem_pi, Set.mem_prod, Finset.coe_preimage, Finset.mem_coe]
    constructor
    · intro h
      refine ⟨?_, fun k hk => h (k+1) hk⟩
      split_ifs with h0
      · exact h 0 h0
      · trivial
    · rintro ⟨h0, h1⟩ k hk
      cases k with
      | zero => rw [if_pos hk] at h0; exact h0
      | succ k => exact h1 k hk
  rw [this, Measure.prod_prod, Measure.infinitePi_pi _ (fun i _ => ht _ )]
  have e2 : ∏ i ∈ s.preimage Nat.succ Nat.succ_injective.injOn, uniform (t (i + 1)) = ∏ i ∈ s.erase 0, uniform (t i) := by
    refine Finset.prod_bij (fun i _ => i + 1) ?_ ?_ ?_ ?_
    · intro i hi; simpa using hi
    · intro i _ j _ h; simpa using h
    · intro j hj
      rw [Finset.mem_erase] at hj
      obtain ⟨k, rfl⟩ := Nat.exists_eq_succ_of_ne_zero hj.1
      exact ⟨k, by simpa using hj.2, rfl⟩
    · intro i _; rfl
  rw [e2]
  split_ifs with h0
  · exact Finset.mul_prod_erase s (fun i => uniform (t i)) h0
  · rw [Finset.erase_eq_of_notMem h0]; simp

/-- The first draw is uniform and independent of the following ones. -/
theorem drawsLaw_cons (A : Set ℝ) (B : Set (ℕ → ℝ)) :
    drawsLaw {d | d 0 ∈ A ∧ (fun k => d (k+1)) ∈ B} = uniform A * drawsLaw B := by
  conv_lhs => rw [← map_consDraw]
  rw [MeasurableEquiv.map_apply, ← Measure.prod_prod]
  rfl

/-! ### pick -/

section pick
variable {K : Type} [Field K] [LinearOrder K] [IsStrictOrderedRing K] {n : ℕ}

theorem pick_eq_ok_iff (row : Fin n → K) (r : K) (i : Fin n) :
    pick row r = .ok i ↔ resolveRandom (List.ofFn row) r = .ok i.1 := by
  unfold pick
  cases h : resolveRandom (List.ofFn row) r with
  | error e => simp
  | ok j =>
    by_cases hj : j < n
    · simp only [hj, dif_pos]
      constructor
      · intro h; injection h with h; rw [← h]
      · intro h; injection h with h; congr 1; exact Fin.ext h
    · simp only [hj, dif_neg, not_false_eq_true]
      constructor
      · intro h; cases h
      · intro h; injection h with h; exact absurd (h ▸ i.2) hj

theorem pick_pos (row : Fin n → K) (h0 : ∀ i, 0 ≤ row i) (r : K) (hr : 0 ≤ r) (i : Fin n) (h : pick row r = .ok i) :
    0 < row i := by
  rw [pick_eq_ok_iff] at h
  obtain ⟨hi, hp, -⟩ := (resolveRandom_ok_iff _ (by intro x hx; obtain ⟨i, rfl⟩ := (List.mem_ofFn' _ _).1 hx; exact h0 i) r hr _).1 h
  simpa using hp

theorem pick_total (row : Fin n → K) (h0 : ∀ i, 0 ≤ row i) (hs : ∑ i, row i = 1) (r : K) (hr : 0 ≤ r) (hr1 : r < 1) :
    ∃ i, pick row r = .ok i ∧ 0 < row i := by
  obtain ⟨i, hi, h1, h2⟩ := resolveRandom_total (List.ofFn row)
    (by intro x hx; obtain ⟨i, rfl⟩ := (List.mem_ofFn' _ _).1 hx; exact h0 i) (by rw [List.sum_ofFn, hs]) r hr hr1
  have hi' : i < n := by simpa using hi
  exact ⟨⟨i, hi'⟩, (pick_eq_ok_iff _ _ _).2 h1, by simpa using h2⟩

end pick

theorem measurable_resolveLoop (l : List (ℝ × ℕ)) (x : Py ℕ) : MeasurableSet {r | resolveLoop r l = x} := by
  induction l with
  | nil => simp [resolveLoop]
  | cons q l ih =>
    obtain ⟨c, i⟩ := q
    have : {r | resolveLoop r ((c, i) :: l) = x} = ({r | c < r} ∩ {r | resolveLoop r l = x}) ∪ ({r | r ≤ c} ∩ {_r | Except.ok i = x}) := by
      ext r
      simp only [resolveLoop, Set.mem_ofPred_eq, Set.mem_union, Set.mem_inter_iff]
      by_cases h : c < r
      · simp [h, not_le.2 h]
      · simp [h, not_lt.1 h]
    rw [this]
    exact (measurableSet_Ioi.inter ih).union (measurableSet_Iic.inter (MeasurableSet.const _))

theorem measurable_pick {n : ℕ} (row : Fin n → ℝ) (i : Fin n) : MeasurableSet {r | pick row r = .ok i} := by
  simp only [pick_eq_ok_iff]
  exact measurable_resolveLoop _ _

/-- Over a uniform draw, `pick` returns each index with its probability. -/
theorem pick_law {n : ℕ} (row : Fin n → ℝ) (h0 : ∀ i, 0 ≤ row i) (hs : ∑ i, row i ≤ 1) (i : Fin n) :
    uniform {r | pick row r = .ok i} = ENNReal.ofReal (row i) := by
  have := resolveRandom_law (List.ofFn row)
    (by intro x hx; obtain ⟨i, rfl⟩ := (List.mem_ofFn' _ _).1 hx; exact h0 i) (by rw [List.sum_ofFn]; exact hs) i.1 (by simp)
  simp only [List.getElem_ofFn] at this
  rw [show row i = row ⟨i.1, i.2⟩ from rfl, ← this]
  unfold uniform
  rw [Measure.restrict_apply (measurable_pick row i)]
  congr 1
  ext r
  simp only [Set.mem_inter_iff, Set.mem_ofPred_eq, Set.mem_Ico, pick_eq_ok_iff]
  tauto

/-! ### sums over the first state of a path -/

section suffix
variable {K O : Type} [CommSemiring K] {n : ℕ}

/-- The probability of generating the trace from a given state. -/
def sufProb (a : Fin n → Fin n → K) (b : Fin n → O → K) : Fin n → List O → K
  | _, [] => 1
  | s, o :: [] => b s o
  | s, o :: o' :: os => b s o * ∑ s', a s s' * sufProb a b s' (o' :: os)

theorem listProb_eq_sufProb (init : Fin n → K) (a : Fin n → Fin n → K) (b : Fin n → O → K) (o : O) (os : List O) :
    listProb init a b (o :: os) = ∑ s, init s * sufProb a b s (o :: os) := by
  induction os generalizing init o with
  | nil => simp only [listProb, sufProb]; rw [traceProb_zero]; rfl
  | cons o' os ih =>
    have h : listProb init a b (o :: o' :: os) = listProb (fun s => ∑ ss, init ss * (a ss s * b ss o)) a b (o' :: os) :=
      traceProb_succ init a b (t := os.length) (fun k => (o :: o' :: os).get k)
    rw [h, ih]
    simp only [sufProb, Finset.mul_sum, Finset.sum_mul]
    rw [Finset.sum_comm]
    apply Finset.sum_congr rfl; intro s _
    apply Finset.sum_congr rfl; intro s' _
    ring

end suffix
end Jajapy

namespace Jajapy

open MeasureTheory Spec Finset Tools

/-- Events of the form "the first draw selects `i`, and the rest of the draws are in `B i`". -/
theorem measurable_bind {n : ℕ} (row : Fin n → ℝ) (B : Fin n → Set (ℕ → ℝ)) (hB : ∀ i, MeasurableSet (B i)) :
    MeasurableSet {d : ℕ → ℝ | ∃ i, pick row (d 0) = .ok i ∧ (fun k => d (k+1)) ∈ B i} := by
  have : {d : ℕ → ℝ | ∃ i, pick row (d 0) = .ok i ∧ (fun k => d (k+1)) ∈ B i}
      = ⋃ i, {d : ℕ → ℝ | pick row (d 0) = .ok i ∧ (fun k => d (k+1)) ∈ B i} := by
    ext d; simp
  rw [this]
  refine MeasurableSet.iUnion (fun i => MeasurableSet.inter ?_ ?_)
  · exact (measurable_pi_apply (X := fun _ : ℕ => ℝ) 0) (measurable_pick row i)
  · have : Measurable (fun (d : ℕ → ℝ) (k : ℕ) => d (k+1)) := measurable_pi_iff.2 (fun k => measurable_pi_apply (k+1))
    exact this (hB i)

theorem drawsLaw_bind {n : ℕ} (row : Fin n → ℝ) (h0 : ∀ i, 0 ≤ row i) (hs : ∑ i, row i ≤ 1) (B : Fin n → Set (ℕ → ℝ))
    (hB : ∀ i, MeasurableSet (B i)) :
    drawsLaw {d : ℕ → ℝ | ∃ i, pick row (d 0) = .ok i ∧ (fun k => d (k+1)) ∈ B i}
      = ∑ i, ENNReal.ofReal (row i) * drawsLaw (B i) := by
  have : {d : ℕ → ℝ | ∃ i, pick row (d 0) = .ok i ∧ (fun k => d (k+1)) ∈ B i}
      = ⋃ i, {d : ℕ → ℝ | pick row (d 0) = .ok i ∧ (fun k => d (k+1)) ∈ B i} := by
    ext d; simp
  rw [this, measure_iUnion]
  · rw [tsum_fintype]
    apply Finset.sum_congr rfl
    intro i _
    rw [← pick_law row h0 hs i]
    exact drawsLaw_cons {r | pick row r = .ok i} (B i)
  · intro i j hij
    rw [Function.onFun, Set.disjoint_left]
    rintro d ⟨h1, -⟩ ⟨h2, -⟩
    rw [h1] at h2
    injection h2 with h2
    exact hij h2
  · intro i
    refine MeasurableSet.inter ?_ ?_
    · exact (measurable_pi_apply (X := fun _ : ℕ => ℝ) 0) (measurable_pick row i)
    · have : Measurable (fun (d : ℕ → ℝ) (k : ℕ) => d (k+1)) := measurable_pi_iff.2 (fun k => measurable_pi_apply (k+1))
      exact this (hB i)

end Jajapy
