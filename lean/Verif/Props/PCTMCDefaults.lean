import Verif.Props.PCTMC
import Verif.Props.StateArgs

/-!
C45 and C93 for parametric CTMCs: the default bounds of `randomInstantiation`, and what the methods raise.
-/

set_option autoImplicit false

namespace Jajapy
namespace PCTMC
variable {K : Type} [Field K] [LinearOrder K]

/-- C45: without bounds, `randomInstantiation` does what it does with the smallest and the largest known value, or with 0.01 and 0.3 if fewer than two values
are known. -/
theorem randomInstantiation_default (M : PCTMC K) (parameters : Option (List String)) (rounds : List (List K)) :
    ∃ lo hi, (2 ≤ M.values.length → IsLeast {x | ∃ p, (p, x) ∈ M.values} lo ∧ IsGreatest {x | ∃ p, (p, x) ∈ M.values} hi) ∧
      (M.values.length < 2 → lo = 1/100 ∧ hi = 3/10) ∧
      M.randomInstantiation parameters none none rounds = M.randomInstantiation parameters (some lo) (some hi) rounds ∧
      (∀ h, M.randomInstantiation parameters none (some h) rounds = M.randomInstantiation parameters (some lo) (some h) rounds) ∧
      ∀ l, M.randomInstantiation parameters (some l) none rounds = M.randomInstantiation parameters (some l) (some hi) rounds := by
  refine ⟨M.defaultBounds.1, M.defaultBounds.2, fun h => ?_, fun h => ?_, rfl, fun _ => rfl, fun _ => rfl⟩
  · have hne : M.values.map (·.2) ≠ [] := by
      intro h0
      rw [List.map_eq_nil_iff] at h0
      rw [h0] at h
      simp at h
    unfold defaultBounds
    rw [if_pos (by omega)]
    obtain ⟨a, ha⟩ := Option.ne_none_iff_exists'.1 (fun h0 => hne (List.min?_eq_none_iff.1 h0))
    obtain ⟨b, hb⟩ := Option.ne_none_iff_exists'.1 (fun h0 => hne (List.max?_eq_none_iff.1 h0))
    simp only [ha, hb, Option.getD_some]
    rw [List.min?_eq_some_iff] at ha
    rw [List.max?_eq_some_iff] at hb
    refine ⟨⟨?_, ?_⟩, ⟨?_, ?_⟩⟩
    · obtain ⟨q, hq, e⟩ := List.mem_map.1 ha.1
      exact ⟨q.1, by rw [← e]; exact hq⟩
    · rintro x ⟨p, hp⟩
      exact ha.2 x (List.mem_map.2 ⟨(p, x), hp, rfl⟩)
    · obtain ⟨q, hq, e⟩ := List.mem_map.1 hb.1
      exact ⟨q.1, by rw [← e]; exact hq⟩
    · rintro x ⟨p, hp⟩
      exact hb.2 x (List.mem_map.2 ⟨(p, x), hp, rfl⟩)
  · unfold defaultBounds
    rw [if_neg (by omega)]
    exact ⟨rfl, rfl⟩

/-- With two known values, a draw of 1/2 gives the middle. -/
example : (match (exModel ℚ [("x", 1), ("z", 3)]).randomInstantiation none none none [[1/2]] with
    | .ok (some M) => decide (M.values.lookup "y" = some 2) | _ => false) = true := by decide +kernel

/-- With one, a draw of 0 gives 0.01: less than the 0.1 of the documentation. -/
theorem randomInstantiation_below_documented : ∃ M', (exModel ℚ [("x", 1)]).randomInstantiation none none none [[0]] = .ok (some M') ∧
    M'.values.lookup "y" = some (1/100) ∧ (1/100 : ℚ) < 1/10 := by
  have h : (match (exModel ℚ [("x", 1)]).randomInstantiation none none none [[0]] with
      | .ok (some M) => decide (M.values.lookup "y" = some (1/100)) | _ => false) = true := by decide +kernel
  split at h
  · rename_i M' hM
    exact ⟨M', hM, of_decide_eq_true h, by norm_num⟩
  · cases h

/-- C93: a state that does not exist is refused, whatever is instantiated. -/
theorem methods_refuse (M : PCTMC K) (s : ℕ) (hs : M.nb ≤ s) (s' : ℕ) (obs : String) :
    M.e s = .error .indexError ∧ M.tau s s' obs = .error .indexError ∧ M.expectedTime s = .error .indexError ∧
      M.l s s' obs = .error .indexError := by
  have h : M.e s = .error .indexError := by
    unfold e isInstantiatedState checkState
    rw [if_pos hs]
    rfl
  refine ⟨h, ?_, ?_, ?_⟩
  · unfold tau orNothing
    rw [h]
  · unfold expectedTime orNothing
    rw [h]
  · unfold l checkState
    rw [if_pos hs]
    rfl

theorem lkl_refuses (M : PCTMC ℝ) (s : ℕ) (hs : M.nb ≤ s) (t : ℝ) (ht : 0 ≤ t) : M.lkl s t = .error .indexError := by
  unfold lkl orNothing
  rw [if_neg (not_lt.2 ht), (M.methods_refuse s hs 0 "").1]

/-- C93: a float that is a state number passes the check of `getLabel` and `l` but is refused by the list of labels. -/
theorem float_refused (M : PCTMC K) (q : ℚ) (hq : M.checkArg (.float q) = .ok ()) (j : Fin M.nb) (obs : String) :
    M.getLabelArg (.float q) = .error .typeError ∧ M.lArg (.float q) (.int (j : ℕ)) obs = .error .typeError := by
  have hj : M.checkArg (.int (j : ℕ)) = .ok () := by
    have h1 : ¬ ((j : ℕ) : ℤ) < 0 := by omega
    have h2 : ¬ ((j : ℕ) : ℤ) ≥ (M.nb : ℤ) := by
      have := j.2
      omega
    simp only [checkArg, h1, h2, if_false]
  constructor
  · unfold getLabelArg
    rw [hq]
    rfl
  · unfold lArg
    rw [hq, hj]
    rfl

/-- It passes: 3/2 is cut down to 1. -/
example : (exModel ℚ [("x", 1)]).checkArg (.float (3/2)) = .ok () := by decide +kernel

end PCTMC
end Jajapy
