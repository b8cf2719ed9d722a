import Mathlib.Algebra.Order.BigOperators.Group.List
import Mathlib.MeasureTheory.Measure.Lebesgue.Basic
import Mathlib.Tactic.Linarith
import Mathlib.Tactic.NormNum
import Mathlib.Tactic.FieldSimp
import Mathlib.Tactic.Ring
import Verif.Model.Tools

namespace Jajapy.Tools

variable {K : Type*} [Field K] [LinearOrder K]

theorem resolve_aux [IsStrictOrderedRing K] (m : List K) (hm : ∀ x ∈ m, 0 ≤ x) (acc : K) (hacc : 0 ≤ acc) (r : K)
    (hr : acc < r ∨ (r = 0 ∧ acc = 0)) (k i : ℕ) :
    resolveLoop r (((cumsumFrom acc m).zipIdx k).filter (fun p => p.1 ≠ 0)) = .ok (k + i) ↔
      ∃ h : i < m.length, 0 < m[i] ∧ r ≤ acc + (m.take (i+1)).sum ∧
        (acc + (m.take i).sum < r ∨ (r = 0 ∧ acc + (m.take i).sum = 0)) := by
  induction m generalizing acc k i with
  | nil => simp [cumsumFrom, resolveLoop]
  | cons x xs ih =>
    have hx : 0 ≤ x := hm x (by simp)
    have hxs : ∀ y ∈ xs, 0 ≤ y := fun y hy => hm y (by simp [hy])
    simp only [cumsumFrom, List.zipIdx_cons]
    by_cases h0 : acc + x = 0
    · have hacc0 : acc = 0 := by linarith
      have hx0 : x = 0 := by linarith
      subst hacc0; subst hx0
      rw [List.filter_cons_of_neg (by simp)]
      cases i with
      | zero =>
        simp only [List.length_cons, List.getElem_cons_zero, lt_irrefl, false_and, exists_false, iff_false]
        intro hc
        have := (ih hxs (0+0) (by simp) (by simpa using hr) (k+1) 0)
        -- the index returned is at least k+1
        have hge : ∀ (l : List K) (a : K) (j : ℕ) (q : ℕ), resolveLoop r ((((cumsumFrom a l).zipIdx j)).filter (fun p => p.1 ≠ 0)) = .ok q → j ≤ q := by
          intro l
          induction l with
          | nil => intro a j q h; simp [cumsumFrom, resolveLoop] at h
          | cons y ys ih2 =>
            intro a j q h
            simp only [cumsumFrom, List.zipIdx_cons] at h
            by_cases hy : a + y = 0
            · rw [List.filter_cons_of_neg (by simp [hy])] at h
              exact Nat.le_of_succ_le (ih2 _ _ _ h)
            · rw [List.filter_cons_of_pos (by simp [hy])] at h
              simp only [resolveLoop] at h
              split at h
              · exact Nat.le_of_succ_le (ih2 _ _ _ h)
              · simp at h; omega
        have := hge _ _ _ _ hc
        omega
      | succ i =>
        have := ih hxs (0+0) (by simp) (by simpa using hr) (k+1) i
        rw [show k + (i+1) = k + 1 + i by ring, this]
        simp
    · rw [List.filter_cons_of_pos (by simp [h0])]
      have hpos : 0 < acc + x := lt_of_le_of_ne (by linarith) (Ne.symm h0)
      simp only [resolveLoop]
      by_cases hgt : r > acc + x
      · rw [if_pos hgt]
        cases i with
        | zero =>
          simp only [List.length_cons, List.getElem_cons_zero, zero_add, List.take_succ_cons, List.take_zero, List.sum_cons, List.sum_nil, add_zero]
          constructor
          · intro hc
            have hge : ∀ (l : List K) (a : K) (j : ℕ) (q : ℕ), resolveLoop r ((((cumsumFrom a l).zipIdx j)).filter (fun p => p.1 ≠ 0)) = .ok q → j ≤ q := by
              intro l
              induction l with
              | nil => intro a j q h; simp [cumsumFrom, resolveLoop] at h
              | cons y ys ih2 =>
                intro a j q h
                simp only [cumsumFrom, List.zipIdx_cons] at h
                by_cases hy : a + y = 0
                · rw [List.filter_cons_of_neg (by simp [hy])] at h
                  exact Nat.le_of_succ_le (ih2 _ _ _ h)
                · rw [List.filter_cons_of_pos (by simp [hy])] at h
                  simp only [resolveLoop] at h
                  split at h
                  · exact Nat.le_of_succ_le (ih2 _ _ _ h)
                  · simp at h; omega
            have := hge _ _ _ _ hc
            omega
          · rintro ⟨_, _, h, _⟩
            exact absurd hgt (not_lt.mpr h)
        | succ i =>
          have := ih hxs (acc + x) (by linarith) (Or.inl hgt) (k+1) i
          rw [show k + (i+1) = k + 1 + i by ring, this]
          simp [add_assoc]
      · rw [if_neg hgt]
        have hle : r ≤ acc + x := not_lt.mp hgt
        cases i with
        | zero =>
          simp only [List.length_cons, List.getElem_cons_zero, zero_add, List.take_succ_cons, List.take_zero, List.sum_cons, List.sum_nil, add_zero, true_iff]
          refine ⟨by simp, ?_, hle, hr⟩
          rcases hr with h | ⟨h1, h2⟩
          · linarith
          · linarith
        | succ i =>
          constructor
          · intro h; simp at h
          · rintro ⟨h1, h2, h3, h4⟩
            exfalso
            have hs : 0 ≤ (xs.take i).sum := List.sum_nonneg (fun y hy => hxs y (List.mem_of_mem_take hy))
            simp only [List.take_succ_cons, List.sum_cons] at h4
            rcases h4 with h | ⟨_, h⟩ <;> linarith

theorem resolve_error_aux [IsStrictOrderedRing K] (m : List K) (hm : ∀ x ∈ m, 0 ≤ x) (acc : K) (hacc : 0 ≤ acc) (r : K)
    (k : ℕ) :
    (∃ e, resolveLoop r (((cumsumFrom acc m).zipIdx k).filter (fun p => p.1 ≠ 0)) = .error e) ↔
      (m = [] ∨ acc + m.sum < r ∨ acc + m.sum = 0) := by
  induction m generalizing acc k with
  | nil => simp [cumsumFrom, resolveLoop]
  | cons x xs ih =>
    have hx : 0 ≤ x := hm x (by simp)
    have hxs : ∀ y ∈ xs, 0 ≤ y := fun y hy => hm y (by simp [hy])
    have hs : 0 ≤ xs.sum := List.sum_nonneg hxs
    simp only [cumsumFrom, List.zipIdx_cons]
    have ih' := ih hxs (acc + x) (by linarith) (k+1)
    by_cases h0 : acc + x = 0
    · rw [List.filter_cons_of_neg (by simp [h0]), ih']
      cases xs with
      | nil => simp [h0]
      | cons y ys => simp [add_assoc]
    · rw [List.filter_cons_of_pos (by simp [h0])]
      have hpos : 0 < acc + x := lt_of_le_of_ne (by linarith) (Ne.symm h0)
      simp only [resolveLoop]
      by_cases hgt : r > acc + x
      · rw [if_pos hgt, ih']
        cases xs with
        | nil => simp [hgt, h0]
        | cons y ys => simp [add_assoc]
      · rw [if_neg hgt]
        simp only [reduceCtorEq, exists_false, List.sum_cons, false_or, false_iff, not_or, not_lt]
        constructor <;> [skip; intro h] <;> linarith

omit [Field K] in
theorem resolveLoop_error (r : K) (l : List (K × ℕ)) (e : Err) (h : resolveLoop r l = .error e) : e = .indexError := by
  induction l with
  | nil => simp [resolveLoop] at h; exact h.symm
  | cons p l ih =>
    obtain ⟨c, i⟩ := p
    simp only [resolveLoop] at h
    split at h
    · exact ih h
    · simp at h

theorem roundHalfEven_eq_iff_even [IsStrictOrderedRing K] [FloorRing K] (x : K) (n : ℤ) (hn : n % 2 = 0) :
    roundHalfEven x = n ↔ (n : K) - 1/2 ≤ x ∧ x ≤ n + 1/2 := by
  have h1 : (⌊x⌋ : K) ≤ x := Int.floor_le x
  have h2 : x < ⌊x⌋ + 1 := Int.lt_floor_add_one x
  unfold roundHalfEven
  simp only
  constructor
  · intro h
    split_ifs at h with ha hb hc
    · subst h; constructor <;> linarith
    · subst h; push_cast; constructor <;> linarith
    · subst h; constructor <;> linarith
    · subst h; push_cast; constructor <;> linarith
  · rintro ⟨h3, h4⟩
    split_ifs with ha hb hc
    · rw [Int.floor_eq_iff]
      have hlt : (⌊x⌋ : K) < n + 1 := by linarith
      have hlt' : ⌊x⌋ < n + 1 := by exact_mod_cast hlt
      have hgt : (n : K) - 1 < ⌊x⌋ := by linarith
      have hgt' : n - 1 < ⌊x⌋ := by exact_mod_cast hgt
      have : ⌊x⌋ = n := by omega
      rw [← this]; exact ⟨h1, h2⟩
    · have hlt : (⌊x⌋ : K) < n := by linarith
      have hlt' : ⌊x⌋ < n := by exact_mod_cast hlt
      have hgt : (n : K) - 2 < ⌊x⌋ := by linarith
      have hgt' : n - 2 < ⌊x⌋ := by exact_mod_cast hgt
      omega
    · have hlt : (⌊x⌋ : K) < n + 1 := by linarith
      have hlt' : ⌊x⌋ < n + 1 := by exact_mod_cast hlt
      have hgt : (n : K) - 2 < ⌊x⌋ := by linarith
      have hgt' : n - 2 < ⌊x⌋ := by exact_mod_cast hgt
      omega
    · have hlt : (⌊x⌋ : K) < n + 1 := by linarith
      have hlt' : ⌊x⌋ < n + 1 := by exact_mod_cast hlt
      have hgt : (n : K) - 2 < ⌊x⌋ := by linarith
      have hgt' : n - 2 < ⌊x⌋ := by exact_mod_cast hgt
      omega

theorem roundHalfEven_eq_iff_odd [IsStrictOrderedRing K] [FloorRing K] (x : K) (n : ℤ) (hn : n % 2 = 1) :
    roundHalfEven x = n ↔ (n : K) - 1/2 < x ∧ x < n + 1/2 := by
  have h1 : (⌊x⌋ : K) ≤ x := Int.floor_le x
  have h2 : x < ⌊x⌋ + 1 := Int.lt_floor_add_one x
  unfold roundHalfEven
  simp only
  constructor
  · intro h
    split_ifs at h with ha hb hc
    · subst h; constructor <;> linarith
    · subst h; push_cast; constructor <;> linarith
    · omega
    · omega
  · rintro ⟨h3, h4⟩
    have hlt : (⌊x⌋ : K) < n + 1 := by linarith
    have hlt' : ⌊x⌋ < n + 1 := by exact_mod_cast hlt
    have hgt : (n : K) - 2 < ⌊x⌋ := by linarith
    have hgt' : n - 2 < ⌊x⌋ := by exact_mod_cast hgt
    have hcase : ⌊x⌋ = n ∨ ⌊x⌋ = n - 1 := by omega
    rcases hcase with h | h
    · have hk : (⌊x⌋ : K) = n := by exact_mod_cast h
      rw [if_pos (by linarith)]; exact h
    · have hk : (⌊x⌋ : K) = n - 1 := by exact_mod_cast h
      rw [if_neg (by linarith), if_pos (by linarith)]; omega

end Jajapy.Tools
