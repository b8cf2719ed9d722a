import Verif.Spec.PLearn
import Verif.Lemmas.PStep
import Verif.Props.BWPCTMC
import Verif.Props.ObservableCTMC

set_option linter.unusedSectionVars false

/-!
One iteration of the estimation of the parameters of a PCTMC whose states have pairwise different labels.
-/

namespace Jajapy.PCTMC

open Spec BW Finset

variable {M : PCTMC ℝ} {fixed : List String} {C : Cats ℝ} {p : String}

theorem here_injective (hM : M.WF) (hl : M.labelling.Nodup) : Function.Injective M.here.labelling := by
  intro s s' h
  have h' : M.labelling.getD s "" = M.labelling.getD s' "" := h
  have hs : (s : ℕ) < M.labelling.length := by rw [hM.labels]; exact s.2
  have hs' : (s' : ℕ) < M.labelling.length := by rw [hM.labels]; exact s'.2
  rw [List.getD_eq_getElem?_getD, List.getD_eq_getElem?_getD, List.getElem?_eq_getElem hs, List.getElem?_eq_getElem hs'] at h'
  exact Fin.ext ((List.Nodup.getElem_inj_iff hl).1 h')

theorem rateAtOne_eq (h : M.Estimable fixed) (hp : p ∈ M.estimated fixed) {i j : ℕ} (hi : i < M.matrix.length) (hj : j < M.matrix.length) :
    (M.rateExpr i j).den (valOf M.values) = M.rateAtOne p i j * valOf M.values p ^ (M.rateExpr i j).degree p := by
  have := Expr.den_scale (M.estimated fixed) (h.mono hi hj) (Function.update (valOf M.values) p 1) (valOf M.values)
    (fun q => if q = p then valOf M.values p else 1)
    (fun q _ => by
      by_cases hq : q = p
      · subst hq; simp
      · simp [hq])
    (fun q hq => by
      have : q ≠ p := fun h' => hq (h' ▸ hp)
      simp [this])
  rw [this]
  congr 1
  rw [Finset.prod_eq_single p]
  · rw [if_pos rfl]
  · intro b _ hb
    rw [if_neg hb, one_pow]
  · intro h'; exact absurd hp h'

theorem rateAtOne_congr {v : Valuation ℝ} (hv : ∀ q, q ∉ M.estimated fixed → v.lookup q = M.values.lookup q)
    (ha : ∀ i j, i < M.matrix.length → j < M.matrix.length → (M.rateExpr i j).Occurs p → ∀ q ∈ M.estimated fixed, (M.rateExpr i j).Occurs q → q = p)
    {i j : ℕ} (hi : i < M.matrix.length) (hj : j < M.matrix.length) (ho : (M.rateExpr i j).Occurs p) :
    ({ M with values := v } : PCTMC ℝ).rateAtOne p i j = M.rateAtOne p i j := by
  refine Expr.den_congr _ _ _ (fun q hq => ?_)
  by_cases h : q = p
  · subst h; simp
  · rw [Function.update_of_ne h, Function.update_of_ne h]
    rw [hv q (fun hq' => h (ha i j hi hj ho q hq' hq))]

theorem totalDegree_alone (hp : p ∈ M.estimated fixed)
    (ha : ∀ i j, i < M.matrix.length → j < M.matrix.length → (M.rateExpr i j).Occurs p → ∀ q ∈ M.estimated fixed, (M.rateExpr i j).Occurs q → q = p)
    {i j : ℕ} (hi : i < M.matrix.length) (hj : j < M.matrix.length) (ho : (M.rateExpr i j).Occurs p) :
    M.totalDegree (M.estimated fixed) i j = (M.rateExpr i j).degree p := by
  unfold totalDegree
  rw [Finset.sum_eq_single p]
  · intro b hb hne
    exact Expr.degree_zero _ _ (fun hob => hne (ha i j hi hj ho b hb hob))
  · intro h'; exact absurd hp h'

theorem sum_pairs {n : ℕ} (f : Fin n → Fin n → ℝ) : ∑ x : Fin n × Fin n, f x.1 x.2 = ∑ i, ∑ j, f i j := Fintype.sum_prod_type _

theorem spent_eq (h : M.Estimable fixed) (hp : p ∈ M.estimated fixed) (S : TSet (Sym String)) :
    M.spent (fun s => totalTime S (M.here.labelling s)) p = M.expectedUses S p (valOf M.values p) := by
  unfold spent expectedUses
  refine Eq.trans ?_ (sum_pairs (fun i j : Fin M.nb => ((M.rateExpr i j).degree p : ℝ) * (totalTime S (M.labelling.getD i "") *
    (M.rateAtOne p i j * valOf M.values p ^ (M.rateExpr i j).degree p))))
  refine Finset.sum_congr rfl (fun x _ => ?_)
  rw [← rateAtOne_eq h hp x.1.2 x.2.2]
  rfl

theorem balance_eq (h : M.Estimable fixed) (hp : p ∈ M.estimated fixed) (S : TSet (Sym String))
    (ha : ∀ i j, i < M.matrix.length → j < M.matrix.length → (M.rateExpr i j).Occurs p → ∀ q ∈ M.estimated fixed, (M.rateExpr i j).Occurs q → q = p)
    (u : ℝ) (hb : Balance M (M.estimated fixed) (fun s => totalTime S (M.here.labelling s))
      (fun s ss => (jumpCount S (M.here.labelling s) (M.here.labelling ss) : ℝ)) p u) :
    M.expectedUses S p (valOf M.values p * u) = M.observedUses S p := by
  unfold Balance at hb
  unfold expectedUses observedUses
  refine Eq.trans (sum_pairs (fun i j : Fin M.nb => ((M.rateExpr i j).degree p : ℝ) * (totalTime S (M.labelling.getD i "") *
    (M.rateAtOne p i j * (valOf M.values p * u) ^ (M.rateExpr i j).degree p)))).symm (Eq.trans ?_
    (sum_pairs (fun i j : Fin M.nb => ((M.rateExpr i j).degree p : ℝ) * (jumpCount S (M.labelling.getD i "") (M.labelling.getD j "") : ℝ))))
  refine Eq.trans (Finset.sum_congr rfl (fun x _ => ?_)) hb.symm
  by_cases ho : (M.rateExpr x.1 x.2).Occurs p
  · have hm : M.here.matrix x.1 x.2 = (M.rateExpr x.1 x.2).den (valOf M.values) := rfl
    rw [totalDegree_alone hp ha x.1.2 x.2.2 ho, hm, rateAtOne_eq h hp x.1.2 x.2.2, mul_pow]
    show _ * (totalTime S (M.labelling.getD x.1 "") * _) = _ * (totalTime S (M.labelling.getD x.1 "") * _ * _)
    ring
  · rw [Expr.degree_zero _ _ ho]; simp

/-- One iteration on traces that are possible. -/
theorem step_observed (processes : ℕ) (h : M.Estimable fixed) (hC : Sorted M fixed C) (hl : M.labelling.Nodup) (S : TSet (Sym String))
    (hS : CTMC.TimedSet S) (hw : WaitsNonneg S) (hpos : ∀ w ∈ S.sequences, M.density w ≠ 0)
    (M' : PCTMC ℝ) (ll : ℝ) (hu : estimateStep processes C (.timed S) M = .ok (M', ll)) :
    ∃ v u, M' = { M with values := v } ∧ Scaled M fixed v u ∧ ∀ p ∈ M.estimated fixed,
      (u p = 1 ∧ M.expectedUses S p (valOf M.values p) = 0) ∨ (M.expectedUses S p (valOf M.values p) ≠ 0 ∧
        Balance M (M.estimated fixed) (fun s => totalTime S (M.here.labelling s))
          (fun s ss => (jumpCount S (M.here.labelling s) (M.here.labelling ss) : ℝ)) p (u p)) := by
  obtain ⟨ts, hc, hu⟩ := estimateStep_ok processes h _ (tables_timed M.here S hS) M' ll hu
  obtain ⟨h1, _, _⟩ := collect_ok _ _ _ _ hc
  rw [filterMap_ite] at h1
  have hts : ts = (possCT M.here S).map (tbCT M.here) := h1
  have hgood : ∀ t ∈ ts, t.Good M.here := by
    intro t htm
    rw [hts] at htm
    obtain ⟨x, hx, rfl⟩ := List.mem_map.1 htm
    exact tbCT_good _ h.here_valid x (hw _ (List.of_mem_zip ((mem_possCT _ _ _).1 hx).1).1)
  obtain ⟨v, u, rfl, hsc, hb, hll⟩ := step_spec h hC hgood M' ll hu
  have hinj := here_injective h.wf hl
  have hT : timeSum ts = fun s => totalTime S (M.here.labelling s) := funext fun s => by
    rw [hts, timeSum_timed, ← M.here.timeIn_eq]
    exact M.here.timeIn_det hinj S hS hpos s
  have hN : usesSum ts = fun s ss => (jumpCount S (M.here.labelling s) (M.here.labelling ss) : ℝ) := funext fun s => funext fun ss => by
    rw [hts, usesSum_timed, ← M.here.jumps_eq]
    exact M.here.jumps_det hinj S hS hpos s ss
  refine ⟨v, u, rfl, hsc, fun p hp => ?_⟩
  have := hb p hp
  rw [hT, hN, spent_eq h hp] at this
  exact this

theorem expectedUses_congr {v : Valuation ℝ} (hv : ∀ q, q ∉ M.estimated fixed → v.lookup q = M.values.lookup q)
    (ha : ∀ i j, i < M.matrix.length → j < M.matrix.length → (M.rateExpr i j).Occurs p → ∀ q ∈ M.estimated fixed, (M.rateExpr i j).Occurs q → q = p)
    (S : TSet (Sym String)) (x : ℝ) : ({ M with values := v } : PCTMC ℝ).expectedUses S p x = M.expectedUses S p x := by
  unfold expectedUses
  refine Finset.sum_congr rfl (fun i _ => Finset.sum_congr rfl (fun j _ => ?_))
  show ((M.rateExpr i j).degree p : ℝ) * _ = _
  by_cases ho : (M.rateExpr i j).Occurs p
  · have := rateAtOne_congr hv ha i.2 j.2 ho
    rw [this]
    rfl
  · rw [Expr.degree_zero _ _ ho]; simp

theorem rateAtOne_nonneg (h : M.Estimable fixed) (hp : p ∈ M.estimated fixed) (h0 : 0 < valOf M.values p) (i j : Fin M.matrix.length) :
    0 ≤ M.rateAtOne p i j := by
  have h1 := h.here_valid.2 i j
  have h2 : M.here.matrix i j = (M.rateExpr i j).den (valOf M.values) := rfl
  rw [h2, rateAtOne_eq h hp i.2 j.2] at h1
  exact nonneg_of_mul_nonneg_left h1 (pow_pos h0 _)

theorem expectedUses_zero (S : TSet (Sym String)) : M.expectedUses S p 0 = 0 := by
  unfold expectedUses
  refine Finset.sum_eq_zero (fun i _ => Finset.sum_eq_zero (fun j _ => ?_))
  rcases Nat.eq_zero_or_pos ((M.rateExpr i j).degree p) with hd | hd
  · rw [hd]; simp
  · rw [zero_pow (by omega)]; simp

/-- The expected number is 0 for one value iff it is for all. -/
theorem expectedUses_eq_zero (hc : ∀ i j : Fin M.matrix.length, 0 ≤ M.rateAtOne p i j) (S : TSet (Sym String)) (hw : WaitsNonneg S) (x : ℝ) (hx : 0 < x) :
    M.expectedUses S p x = 0 ↔ M.expectedUses S p 1 = 0 := by
  have hnn : ∀ y : ℝ, 0 < y → ∀ i j : Fin M.matrix.length,
      0 ≤ ((M.rateExpr i j).degree p : ℝ) * (totalTime S (M.labelling.getD i "") * (M.rateAtOne p i j * y ^ (M.rateExpr i j).degree p)) :=
    fun y hy i j => mul_nonneg (Nat.cast_nonneg _) (mul_nonneg (CTMC.totalTime_nonneg S hw _) (mul_nonneg (hc i j) (pow_nonneg hy.le _)))
  unfold expectedUses
  rw [Finset.sum_eq_zero_iff_of_nonneg (fun i _ => Finset.sum_nonneg (fun j _ => hnn x hx i j)),
    Finset.sum_eq_zero_iff_of_nonneg (fun i _ => Finset.sum_nonneg (fun j _ => hnn 1 one_pos i j))]
  refine forall_congr' (fun i => forall_congr' (fun _ => ?_))
  rw [Finset.sum_eq_zero_iff_of_nonneg (fun j _ => hnn x hx i j), Finset.sum_eq_zero_iff_of_nonneg (fun j _ => hnn 1 one_pos i j)]
  refine forall_congr' (fun j => forall_congr' (fun _ => ?_))
  have h1 : x ^ (M.rateExpr i j).degree p ≠ 0 := (pow_pos hx _).ne'
  simp only [one_pow, mul_eq_zero, h1, one_ne_zero, or_false]

theorem expectedUses_strictMono (hc : ∀ i j : Fin M.matrix.length, 0 ≤ M.rateAtOne p i j) (S : TSet (Sym String)) (hw : WaitsNonneg S)
    (h1 : M.expectedUses S p 1 ≠ 0) (x y : ℝ) (hx : 0 ≤ x) (hxy : x < y) : M.expectedUses S p x < M.expectedUses S p y := by
  have hle : ∀ i j : Fin M.matrix.length,
      ((M.rateExpr i j).degree p : ℝ) * (totalTime S (M.labelling.getD i "") * (M.rateAtOne p i j * x ^ (M.rateExpr i j).degree p))
      ≤ ((M.rateExpr i j).degree p : ℝ) * (totalTime S (M.labelling.getD i "") * (M.rateAtOne p i j * y ^ (M.rateExpr i j).degree p)) := fun i j =>
    mul_le_mul_of_nonneg_left (mul_le_mul_of_nonneg_left (mul_le_mul_of_nonneg_left (pow_le_pow_left₀ hx hxy.le _) (hc i j))
      (CTMC.totalTime_nonneg S hw _)) (Nat.cast_nonneg _)
  obtain ⟨i, -, hi⟩ := Finset.exists_ne_zero_of_sum_ne_zero h1
  obtain ⟨j, -, hj⟩ := Finset.exists_ne_zero_of_sum_ne_zero hi
  refine Finset.sum_lt_sum (fun i _ => Finset.sum_le_sum (fun j _ => hle i j)) ⟨i, Finset.mem_univ _, ?_⟩
  refine Finset.sum_lt_sum (fun j _ => hle i j) ⟨j, Finset.mem_univ _, ?_⟩
  have hd : (M.rateExpr i j).degree p ≠ 0 := fun h => hj (by rw [h]; simp)
  have ht : totalTime S (M.labelling.getD i "") ≠ 0 := fun h => hj (by rw [h]; simp)
  have hr : M.rateAtOne p i j ≠ 0 := fun h => hj (by rw [h]; simp)
  refine mul_lt_mul_of_pos_left (mul_lt_mul_of_pos_left (mul_lt_mul_of_pos_left (pow_lt_pow_left₀ hxy hx hd) (lt_of_le_of_ne (hc i j) hr.symm))
    (lt_of_le_of_ne (CTMC.totalTime_nonneg S hw _) ht.symm)) (by positivity)

end Jajapy.PCTMC
