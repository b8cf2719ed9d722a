import Mathlib.Algebra.Order.Floor.Semiring
import Verif.Lemmas.Tools

/-!
Properties of `base/tools.py`: C01 (random choice), C02 (normalisation), C03 (acceptance of rows), C04 (Hoeffding test).
-/

namespace Jajapy.Tools

variable {K : Type*} [Field K] [LinearOrder K] [IsStrictOrderedRing K]

/-! ### C01 -/

/-- C01. The index `i` is returned exactly when its weight is positive and the draw lies in the `i`-th cumulative
interval `(m₀+…+mᵢ₋₁, m₀+…+mᵢ]` (closed on the left for the first positive weight). -/
theorem resolveRandom_ok_iff (m : List K) (hm : ∀ x ∈ m, 0 ≤ x) (r : K) (hr : 0 ≤ r) (i : ℕ) :
    resolveRandom m r = .ok i ↔
      ∃ h : i < m.length, 0 < m[i] ∧ r ≤ (m.take (i+1)).sum ∧
        ((m.take i).sum < r ∨ (r = 0 ∧ (m.take i).sum = 0)) := by
  have h := resolve_aux m hm 0 le_rfl r (by rcases hr.lt_or_eq with h | h; exacts [Or.inl h, Or.inr ⟨h.symm, rfl⟩]) 0 i
  simpa [resolveRandom, cumsum] using h

example : (∀ x ∈ [(1/4 : ℚ), 0, 3/4], 0 ≤ x) ∧ resolveRandom [(1/4 : ℚ), 0, 3/4] (1/2) = .ok 2 := by
  constructor
  · intro x hx; simp at hx; rcases hx with h | h | h <;> subst h <;> norm_num
  · decide +kernel

/-- C01. It raises (an IndexError) exactly when the draw exceeds the total weight or the total weight is 0. -/
theorem resolveRandom_raises_iff (m : List K) (hm : ∀ x ∈ m, 0 ≤ x) (r : K) :
    resolveRandom m r = .error .indexError ↔ (m.sum < r ∨ m.sum = 0) := by
  have h := resolve_error_aux m hm 0 le_rfl r 0
  have h' : resolveRandom m r = .error .indexError ↔ ∃ e, resolveRandom m r = .error e := by
    constructor
    · intro h; exact ⟨_, h⟩
    · rintro ⟨e, he⟩
      have := resolveLoop_error _ _ _ he
      rw [he, this]
  rw [h']
  simp only [resolveRandom, cumsum]
  rw [h]
  constructor
  · rintro (h | h | h)
    · right; simp [h]
    · left; simpa using h
    · right; simpa using h
  · rintro (h | h)
    · right; left; simpa using h
    · right; right; simpa using h

/-- C01. For a distribution and a draw in `[0,1)`, an index of positive weight is always returned. -/
theorem resolveRandom_total (m : List K) (hm : ∀ x ∈ m, 0 ≤ x) (hs : m.sum = 1) (r : K) (hr0 : 0 ≤ r) (hr1 : r < 1) :
    ∃ i, ∃ h : i < m.length, resolveRandom m r = .ok i ∧ 0 < m[i] := by
  have hne : ¬ resolveRandom m r = .error .indexError := by
    rw [resolveRandom_raises_iff m hm r, hs]
    rintro (h | h)
    · exact absurd hr1 (not_lt.mpr h.le)
    · exact one_ne_zero h
  cases hres : resolveRandom m r with
  | error e =>
    have := resolveLoop_error _ _ _ hres
    exact absurd (this ▸ hres) hne
  | ok i =>
    obtain ⟨h, hp, _⟩ := (resolveRandom_ok_iff m hm r hr0 i).1 hres
    exact ⟨i, h, rfl, hp⟩

example : ([(1/4 : ℚ), 0, 3/4].sum = 1) := by norm_num

open MeasureTheory in
/-- C01. Over a uniform draw in `[0,1)`, the probability of the index `i` is its weight. -/
theorem resolveRandom_law (m : List ℝ) (hm : ∀ x ∈ m, 0 ≤ x) (hs : m.sum ≤ 1) (i : ℕ) (hi : i < m.length) :
    volume {r : ℝ | 0 ≤ r ∧ r < 1 ∧ resolveRandom m r = .ok i} = ENNReal.ofReal m[i] := by
  have hsum : ((m.take (i+1)).sum : ℝ) = (m.take i).sum + m[i] := by
    rw [List.sum_take_succ]
  have ha : 0 ≤ (m.take i).sum := List.sum_nonneg (fun y hy => hm y (List.mem_of_mem_take hy))
  have hmi : 0 ≤ m[i] := hm _ (List.getElem_mem hi)
  have hle : (m.take (i+1)).sum ≤ 1 := by
    have := List.sum_take_add_sum_drop m (i+1)
    have h2 : 0 ≤ (m.drop (i+1)).sum := List.sum_nonneg (fun y hy => hm y (List.mem_of_mem_drop hy))
    linarith
  apply le_antisymm
  · have : {r : ℝ | 0 ≤ r ∧ r < 1 ∧ resolveRandom m r = .ok i} ⊆ Set.Icc (m.take i).sum ((m.take i).sum + m[i]) := by
      rintro r ⟨h0, h1, h2⟩
      obtain ⟨_, _, h3, h4⟩ := (resolveRandom_ok_iff m hm r h0 i).1 h2
      refine ⟨?_, by linarith⟩
      rcases h4 with h | ⟨h, h'⟩ <;> linarith
    calc _ ≤ volume (Set.Icc (m.take i).sum ((m.take i).sum + m[i])) := measure_mono this
      _ = _ := by rw [Real.volume_Icc]; congr 1; ring
  · have : Set.Ioo (m.take i).sum ((m.take i).sum + m[i]) ⊆ {r : ℝ | 0 ≤ r ∧ r < 1 ∧ resolveRandom m r = .ok i} := by
      rintro r ⟨h0, h1⟩
      refine ⟨by linarith, by linarith, ?_⟩
      rw [resolveRandom_ok_iff m hm r (by linarith) i]
      exact ⟨hi, by linarith, by linarith, Or.inl h0⟩
    calc ENNReal.ofReal m[i] = volume (Set.Ioo (m.take i).sum ((m.take i).sum + m[i])) := by
          rw [Real.volume_Ioo]; congr 1; ring
      _ ≤ _ := measure_mono this

example : (∀ x ∈ [(1/4 : ℝ), 0, 3/4], 0 ≤ x) ∧ ([(1/4 : ℝ), 0, 3/4].sum ≤ 1) := by
  constructor
  · intro x hx; simp at hx; rcases hx with h | h | h <;> subst h <;> norm_num
  · norm_num

/-! ### C02 -/

omit [IsStrictOrderedRing K] in
/-- C02. `normalize` keeps the length and the ratios and makes the sum 1, for every list of non-zero sum. -/
theorem normalize_spec (l : List K) (h : l.sum ≠ 0) :
    ∃ res, normalize l = .ok res ∧ res.length = l.length ∧ res.sum = 1 ∧
      ∀ i (hi : i < l.length) (hi' : i < res.length), res[i] * l.sum = l[i] := by
  refine ⟨l.map (fun i => i / l.sum), ?_, by simp, ?_, ?_⟩
  · simp [normalize, h]
  · have : ∀ (l : List K) (c : K), (l.map (fun i => i / c)).sum = l.sum / c := by
      intro l c
      induction l with
      | nil => simp
      | cons x xs ih => simp [ih, add_div]
    rw [this, div_self h]
  · intro i hi hi'
    simp [div_mul_cancel₀ _ h]

example : ([(1 : ℚ), 2, 5].sum ≠ 0) := by norm_num

omit [IsStrictOrderedRing K] in
/-- C02. A non-empty list of sum 0 cannot be normalised. -/
theorem normalize_raises (l : List K) (hne : l ≠ []) (h : l.sum = 0) : normalize l = .error .zeroDivisionError := by
  simp [normalize, h, hne]

/-- C02. `randomProbabilities(n)` for `n ≥ 1`: `n` strictly positive numbers of sum 1, whatever the draws in 1..10. -/
theorem randomProbabilities_spec (draws : ℕ → ℕ) (hd : ∀ k, 1 ≤ draws k ∧ draws k ≤ 10) (n : ℕ) (hn : 1 ≤ n) :
    ∃ res : List K, randomProbabilities draws (.int n) = .ok res ∧ res.length = n ∧ res.sum = 1 ∧ ∀ x ∈ res, 0 < x := by
  have hn' : ¬ ((n : ℤ) ≤ 0) := by omega
  set l : List K := (List.range n).map (fun k => ((draws k : ℕ) : K)) with hl
  have hpos : ∀ x ∈ l, 0 < x := by
    intro x hx
    simp only [hl, List.mem_map] at hx
    obtain ⟨k, _, rfl⟩ := hx
    exact_mod_cast (hd k).1
  have hsum : 0 < l.sum := by
    apply List.sum_pos l hpos
    intro h
    have : l.length = n := by simp [hl]
    rw [h] at this; simp at this; omega
  obtain ⟨res, h1, h2, h3, h4⟩ := normalize_spec l hsum.ne'
  refine ⟨res, ?_, ?_, h3, ?_⟩
  · simp only [randomProbabilities, hn', if_false, Int.toNat_natCast]
    exact h1
  · rw [h2]; simp [hl]
  · intro x hx
    obtain ⟨i, hi, rfl⟩ := List.getElem_of_mem hx
    have hi' : i < l.length := h2 ▸ hi
    have := h4 i hi' hi
    have hp := hpos _ (List.getElem_mem hi')
    rw [← this] at hp
    exact pos_of_mul_pos_left hp hsum.le

example : ∀ k, 1 ≤ (fun k => k % 10 + 1) k ∧ (fun k => k % 10 + 1) k ≤ 10 := by intro k; simp; omega

omit [IsStrictOrderedRing K] in
/-- C02. Non-positive sizes raise ValueError (even when they are not integers), other non-integers raise TypeError. -/
theorem randomProbabilities_raises (draws : ℕ → ℕ) :
    (∀ n : ℤ, n ≤ 0 → (randomProbabilities draws (.int n) : Py (List K)) = .error .valueError) ∧
    (∀ x : ℚ, x ≤ 0 → (randomProbabilities draws (.nonInt x) : Py (List K)) = .error .valueError) ∧
    (∀ x : ℚ, 0 < x → (randomProbabilities draws (.nonInt x) : Py (List K)) = .error .typeError) := by
  refine ⟨?_, ?_, ?_⟩ <;> intro x hx <;> simp [randomProbabilities, hx]

/-! ### C03 -/

/-- C03. A row is accepted exactly when its sum is within 0.0005 of 1 or of 0. -/
theorem checkProbabilities_iff [FloorRing K] (l : List K) :
    checkProbabilities l = true ↔ (|l.sum - 1| ≤ 1/2000 ∨ |l.sum| ≤ 1/2000) := by
  have key : ∀ (x : K) (n : ℤ), n % 2 = 0 → (round3 x = (n : K) / 1000 ↔ |x - (n : K) / 1000| ≤ 1 / 2000) := by
    intro x n hn
    have h1000 : (1000 : K) ≠ 0 := by norm_num
    unfold round3
    rw [div_left_inj' h1000, Int.cast_inj, roundHalfEven_eq_iff_even _ _ hn, abs_le]
    constructor
    · rintro ⟨h1, h2⟩; constructor <;> linarith
    · rintro ⟨h1, h2⟩; constructor <;> linarith
  have k1 := key l.sum 1000 (by norm_num)
  have k0 := key l.sum 0 (by norm_num)
  have e1 : ((1000 : ℤ) : K) / 1000 = 1 := by norm_num
  rw [e1] at k1
  simp only [Int.cast_zero, zero_div, sub_zero] at k0
  simp only [checkProbabilities, decide_eq_true_eq, k1, k0]

example : checkProbabilities [(1/3 : ℚ), 667/1000] = true ∧ checkProbabilities [(1/2 : ℚ), 1/4] = false := by
  constructor
  · rw [checkProbabilities_iff]; left; norm_num [abs_le]
  · rw [← Bool.not_eq_true, checkProbabilities_iff]; norm_num [abs_le]

/-- C03 (disagreement). The test does not look at signs: a "row" with a negative entry is accepted. -/
theorem checkProbabilities_accepts_negative :
    ∃ l : List ℚ, checkProbabilities l = true ∧ ∃ x ∈ l, x < 0 := 
  ⟨[2, -1], by rw [checkProbabilities_iff]; left; norm_num, -1, by simp, by norm_num⟩

/-! ### C04 -/

/-- C04. The test is symmetric in the two samples. -/
theorem hoeffdingBound_symm (f1 n1 f2 n2 alpha : ℝ) :
    hoeffdingBound f1 n1 f2 n2 alpha = hoeffdingBound f2 n2 f1 n1 alpha := by
  simp only [hoeffdingBound, mul_comm n2 n1, or_comm (a := n2 < 0), abs_sub_comm (f2 / n2),
    add_comm (Real.sqrt (1 / n2))]

/-- C04. Two samples with the same frequency are compatible, whatever their sizes. -/
theorem hoeffdingBound_same_frequency (f1 n1 f2 n2 alpha : ℝ) (h1 : 0 < n1) (h2 : 0 < n2) (ha : 0 < alpha)
    (ha2 : alpha < 2) (hf : f1 / n1 = f2 / n2) : hoeffdingBound f1 n1 f2 n2 alpha = .ok true := by
  have hlog : 0 < Real.log (2 / alpha) := Real.log_pos (by rw [lt_div_iff₀ ha]; linarith)
  have : 0 < (Real.sqrt (1 / n1) + Real.sqrt (1 / n2)) * Real.sqrt (1/2 * Real.log (2 / alpha)) := by
    apply mul_pos
    · apply add_pos <;> exact Real.sqrt_pos.2 (by positivity)
    · exact Real.sqrt_pos.2 (by positivity)
  simp only [hoeffdingBound, mul_eq_zero, h1.ne', h2.ne', or_self, if_false, not_lt.2 h1.le, not_lt.2 h2.le,
    ha.ne', not_lt.2 ha.le, not_lt.2 ha2.le, hf, sub_self, abs_zero]
  simpa using this

example : (0:ℝ) < 10 ∧ (0:ℝ) < 20 ∧ (3:ℝ)/10 = 6/20 := by norm_num

/-- C04. An empty sample is compatible with everything. -/
theorem hoeffdingBound_empty (f1 f2 n2 alpha : ℝ) : hoeffdingBound f1 0 f2 n2 alpha = .ok true := by
  simp [hoeffdingBound]

/-- C04. Samples accepted at level `a` are accepted at every smaller level `b`. -/
theorem hoeffdingBound_antitone (f1 n1 f2 n2 a b : ℝ) (hb : 0 < b) (hab : b ≤ a)
    (h : hoeffdingBound f1 n1 f2 n2 a = .ok true) : hoeffdingBound f1 n1 f2 n2 b = .ok true := by
  unfold hoeffdingBound at *
  have ha : 0 < a := lt_of_lt_of_le hb hab
  split_ifs at h ⊢ with h3 h4 h5 h6 h7 h8
  all_goals try rfl
  all_goals try (exfalso; first | linarith | (rcases h4 with h | h <;> linarith) | (rcases h8 with h | h <;> push Not at * <;> linarith))
  have hmono : Real.log (2 / a) ≤ Real.log (2 / b) := by
    apply Real.log_le_log (by positivity)
    exact div_le_div_of_nonneg_left (by norm_num) hb hab
  simp only [Except.ok.injEq, decide_eq_true_eq] at h ⊢
  refine lt_of_lt_of_le h ?_
  apply mul_le_mul_of_nonneg_left _ (by positivity)
  apply Real.sqrt_le_sqrt
  linarith

/-- C04. The test always answers on counts and a level in `(0,2]`. -/
theorem hoeffdingBound_total (f1 n1 f2 n2 alpha : ℝ) (h1 : 0 ≤ n1) (h2 : 0 ≤ n2) (ha : 0 < alpha) (ha2 : alpha ≤ 2) :
    ∃ b, hoeffdingBound f1 n1 f2 n2 alpha = .ok b := by
  unfold hoeffdingBound
  split_ifs with h3 h4 h5 h6
  · exact ⟨_, rfl⟩
  · rcases h4 with h | h <;> linarith
  · linarith
  · rcases h6 with h | h <;> linarith
  · exact ⟨_, rfl⟩

/-- C04 (boundary). At level 2 the bound is 0 and non-empty samples are never compatible, not even with themselves. -/
theorem hoeffdingBound_two (f1 n1 f2 n2 : ℝ) (h1 : 0 < n1) (h2 : 0 < n2) :
    hoeffdingBound f1 n1 f2 n2 2 = .ok false := by
  have : ¬ ((2:ℝ) < 0) := by norm_num
  simp [hoeffdingBound, h1.ne', h2.ne', not_lt.2 h1.le, not_lt.2 h2.le, this]

end Jajapy.Tools
