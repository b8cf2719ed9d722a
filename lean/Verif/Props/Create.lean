import Verif.Lemmas.Create
import Verif.Spec.Models
import Verif.Spec.MDP
import Verif.Props.Simulation

/-!
Property theorems for the constructors (C13), the creation functions (C14, C15) and `updateLabelling` (C18).
-/

set_option linter.unusedSectionVars false

namespace Jajapy.Create

open Finset Tools Spec

variable {K : Type} [Field K] [LinearOrder K] [IsStrictOrderedRing K] [FloorRing K]

/-! ### C13: constructors -/

/-- "Labels `lab` come from the list, and `init` gives the same probability to each state labelled 'init' and 0 to the
others." -/
def FromLabels {n : ℕ} (labelling : List String) (lab : Fin n → String) (init : Fin n → K) : Prop :=
  (∀ s : Fin n, labelling[s]? = some (lab s)) ∧
  ∀ s, init s = if lab s = "init" then 1 / ((univ.filter (fun s => lab s = "init")).card : K) else 0

/-- "A row is accepted": its sum is within 1/2000 of 1 or of 0. -/
def RowOK {n : ℕ} (row : Fin n → K) : Prop := |∑ j, row j - 1| ≤ 1/2000 ∨ |∑ j, row j| ≤ 1/2000

instance {n : ℕ} (row : Fin n → K) : Decidable (RowOK row) := inferInstanceAs (Decidable (_ ∨ _))

theorem checkRow' {n : ℕ} (f : Fin n → K) : checkProbabilities (List.ofFn f) = true ↔ RowOK f := checkRow f

theorem baseMCInit_iff (n : ℕ) (labelling : List String) (li : (Fin n → String) × (Fin n → K)) :
    baseMCInit n labelling = .ok li ↔ "init" ∈ labelling ∧ labelling.length = n ∧ FromLabels labelling li.1 li.2 := by
  constructor
  · intro h
    by_cases hc : "init" ∈ labelling ∧ labelling.length = n
    · refine ⟨hc.1, hc.2, ?_⟩
      rw [baseMCInit_ok n labelling hc.1 hc.2] at h
      injection h with h
      subst h
      have h1 : ∀ s : Fin n, labelling[s]? = some (labelling[s]'(by rw [hc.2]; exact s.2)) := by
        intro s
        simp
      exact ⟨h1, fun s => initFromLabels_getD labelling hc.2 _ h1 s⟩
    · rw [baseMCInit_error n labelling hc] at h
      cases h
  · rintro ⟨h1, h2, h3, h4⟩
    rw [baseMCInit_ok n labelling h1 h2]
    congr 1
    have e1 : (fun s : Fin n => labelling[s]'(by rw [h2]; exact s.2)) = li.1 := by
      funext s
      have := h3 s
      simp only [Fin.getElem?_fin, List.getElem?_eq_getElem (show (s : ℕ) < labelling.length by omega)] at this
      simpa using this
    have e2 : (fun s : Fin n => (initFromLabels labelling : List K).getD s 0) = li.2 := by
      funext s
      rw [initFromLabels_getD labelling h2 li.1 h3 s, h4 s]
    rw [e1, e2]

/-- C13. `MC(matrix,labelling)` succeeds exactly when some state is labelled 'init', there is one label per state and
every row is accepted; the object then has the given matrix and labels and the uniform distribution on the states
labelled 'init'. -/
theorem mkMC_ok_iff {n : ℕ} (matrix : Fin n → Fin n → K) (labelling : List String) (M : MC K String n) :
    mkMC matrix labelling = .ok M ↔
      "init" ∈ labelling ∧ labelling.length = n ∧ (∀ i, RowOK (matrix i)) ∧
      M.matrix = matrix ∧ FromLabels labelling M.labelling M.initialState := by
  unfold mkMC
  simp only [checkRow', Except.bind_eq_ok]
  constructor
  · rintro ⟨li, h1, h2⟩
    obtain ⟨a, b, c⟩ := (baseMCInit_iff n labelling li).1 h1
    split_ifs at h2 with h3
    injection h2 with h2
    subst h2
    exact ⟨a, b, h3, rfl, c⟩
  · rintro ⟨a, b, c, d, e⟩
    refine ⟨(M.labelling, M.initialState), (baseMCInit_iff n labelling _).2 ⟨a, b, e⟩, ?_⟩
    rw [if_pos c]
    cases M
    simp only at d
    subst d
    rfl

theorem mkMC_total {n : ℕ} (matrix : Fin n → Fin n → K) (labelling : List String) (h1 : "init" ∈ labelling)
    (h2 : labelling.length = n) (h3 : ∀ i, RowOK (matrix i)) : ∃ M, mkMC matrix labelling = .ok M := by
  have hb := (baseMCInit_iff _ _ _).1 (baseMCInit_ok (K := K) n labelling h1 h2)
  exact ⟨{ matrix := matrix, labelling := _, initialState := _ }, (mkMC_ok_iff _ _ _).2 ⟨h1, h2, h3, rfl, hb.2.2⟩⟩

/-- C13. In every other case it raises ValueError. -/
theorem mkMC_raises {n : ℕ} (matrix : Fin n → Fin n → K) (labelling : List String)
    (h : ¬ ("init" ∈ labelling ∧ labelling.length = n ∧ ∀ i, RowOK (matrix i))) :
    mkMC matrix labelling = .error .valueError := by
  unfold mkMC
  by_cases hc : "init" ∈ labelling ∧ labelling.length = n
  · rw [baseMCInit_ok n labelling hc.1 hc.2]
    simp only [bind, Except.bind, checkRow']
    rw [if_neg (fun hr => h ⟨hc.1, hc.2, hr⟩)]
  · rw [baseMCInit_error n labelling hc]
    rfl

/-- C13. `CTMC(matrix,labelling)`: the same without any condition on the rates. -/
theorem mkCTMC_ok_iff {n : ℕ} (matrix : Fin n → Fin n → K) (labelling : List String) (M : CTMC K String n) :
    mkCTMC matrix labelling = .ok M ↔
      "init" ∈ labelling ∧ labelling.length = n ∧ M.matrix = matrix ∧ FromLabels labelling M.labelling M.initialState := by
  unfold mkCTMC
  simp only [Except.bind_eq_ok]
  constructor
  · rintro ⟨li, h1, h2⟩
    obtain ⟨a, b, c⟩ := (baseMCInit_iff n labelling li).1 h1
    injection h2 with h2
    subst h2
    exact ⟨a, b, rfl, c⟩
  · rintro ⟨a, b, d, e⟩
    refine ⟨(M.labelling, M.initialState), (baseMCInit_iff n labelling _).2 ⟨a, b, e⟩, ?_⟩
    cases M
    simp only at d
    subst d
    rfl

theorem mkCTMC_total {n : ℕ} (matrix : Fin n → Fin n → K) (labelling : List String) (h1 : "init" ∈ labelling)
    (h2 : labelling.length = n) : ∃ M, mkCTMC matrix labelling = .ok M := by
  have hb := (baseMCInit_iff _ _ _).1 (baseMCInit_ok (K := K) n labelling h1 h2)
  exact ⟨{ matrix := matrix, labelling := _, initialState := _ }, (mkCTMC_ok_iff _ _ _).2 ⟨h1, h2, rfl, hb.2.2⟩⟩

theorem mkCTMC_raises {n : ℕ} (matrix : Fin n → Fin n → K) (labelling : List String)
    (h : ¬ ("init" ∈ labelling ∧ labelling.length = n)) : mkCTMC matrix labelling = .error .valueError := by
  unfold mkCTMC
  rw [baseMCInit_error n labelling h]
  rfl

/-- C13. `MDP(matrix,labelling,actions)`: every row of every action must be accepted. -/
theorem mkMDP_ok_iff {n : ℕ} (actions : List String) (matrix : Fin n → Fin actions.length → Fin n → K)
    (labelling : List String) (M : MDP K String n) :
    mkMDP actions matrix labelling = .ok M ↔
      "init" ∈ labelling ∧ labelling.length = n ∧ (∀ i a, RowOK (matrix i a)) ∧
      (∃ h : M.actions = actions, ∀ i a j, M.matrix i a j = matrix i (a.cast (by rw [h])) j) ∧
      FromLabels labelling M.labelling M.initialState := by
  unfold mkMDP
  simp only [checkRow', Except.bind_eq_ok]
  constructor
  · rintro ⟨li, h1, h2⟩
    obtain ⟨a, b, c⟩ := (baseMCInit_iff n labelling li).1 h1
    split_ifs at h2 with h3
    injection h2 with h2
    subst h2
    exact ⟨a, b, h3, ⟨rfl, fun _ _ _ => rfl⟩, c⟩
  · rintro ⟨a, b, c, ⟨d, d'⟩, e⟩
    refine ⟨(M.labelling, M.initialState), (baseMCInit_iff n labelling _).2 ⟨a, b, e⟩, ?_⟩
    rw [if_pos c]
    cases M
    simp only at d
    subst d
    have : matrix = _ := funext fun i => funext fun a => funext fun j => (d' i a j).symm
    subst this
    rfl

theorem mkMDP_total {n : ℕ} (actions : List String) (matrix : Fin n → Fin actions.length → Fin n → K)
    (labelling : List String) (h1 : "init" ∈ labelling)
    (h2 : labelling.length = n) (h3 : ∀ i a, RowOK (matrix i a)) : ∃ M, mkMDP actions matrix labelling = .ok M := by
  have hb := (baseMCInit_iff _ _ _).1 (baseMCInit_ok (K := K) n labelling h1 h2)
  exact ⟨{ actions := actions, matrix := matrix, labelling := _, initialState := _ },
    (mkMDP_ok_iff _ _ _ _).2 ⟨h1, h2, h3, ⟨rfl, fun _ _ _ => rfl⟩, hb.2.2⟩⟩

theorem mkMDP_raises {n : ℕ} (actions : List String) (matrix : Fin n → Fin actions.length → Fin n → K)
    (labelling : List String) (h : ¬ ("init" ∈ labelling ∧ labelling.length = n ∧ ∀ i a, RowOK (matrix i a))) :
    mkMDP actions matrix labelling = .error .valueError := by
  unfold mkMDP
  by_cases hc : "init" ∈ labelling ∧ labelling.length = n
  · rw [baseMCInit_ok n labelling hc.1 hc.2]
    simp only [bind, Except.bind, checkRow']
    rw [if_neg (fun hr => h ⟨hc.1, hc.2, hr⟩)]
  · rw [baseMCInit_error n labelling hc]
    rfl

/-- C13. The initial distribution computed from the labels is a probability distribution. -/
theorem fromLabels_distribution {n : ℕ} (labelling : List String) (lab : Fin n → String) (init : Fin n → K)
    (hi : "init" ∈ labelling) (hl : labelling.length = n) (h : FromLabels labelling lab init) :
    (∀ s, 0 ≤ init s) ∧ ∑ s, init s = 1 := by
  have hcard : (univ.filter (fun s => lab s = "init")).card ≠ 0 := by
    rw [← count_init labelling hl lab h.1]
    exact (List.count_pos_iff.2 hi).ne'
  have hc : ((univ.filter (fun s => lab s = "init")).card : K) ≠ 0 := by exact_mod_cast hcard
  constructor
  · intro s
    rw [h.2 s]
    split_ifs
    · positivity
    · exact le_rfl
  · rw [sum_congr rfl (fun s _ => h.2 s), ← sum_filter, sum_const, nsmul_eq_mul]
    field_simp

/-- C13, HMM: an `int` gives the corresponding state; a list is accepted when its sum lies strictly between 1/2 and 3/2
(it should be refused unless the sum is 1: `hmm_accepts_bad_sum`), whatever its length (`hmm_accepts_bad_length`). -/
theorem mkHMM_ok_iff_partial {n : ℕ} (matrix : Fin n → Fin n → K) (alphabet : List String)
    (output : Fin n → Fin alphabet.length → K) (initial : InitArg K) :
    (∃ M, mkHMM matrix alphabet output initial = .ok M) ↔
      (∀ i, RowOK (matrix i)) ∧ (∀ i, RowOK (output i)) ∧
      match initial with
      | .int i => -(n : ℤ) ≤ i ∧ i < n
      | .list l => 1/2 < l.sum ∧ l.sum < 3/2 := by
  have key : (∃ init, modelInit n initial = .ok init) ↔
      match initial with
      | .int i => -(n : ℤ) ≤ i ∧ i < n
      | .list l => 1/2 < l.sum ∧ l.sum < 3/2 := by
    cases initial with
    | int i =>
      simp only [modelInit, Except.bind_eq_ok]
      constructor
      · rintro ⟨_, k, hk, _⟩
        have := (pyIndex_ok i k).1 hk
        have := k.2
        omega
      · intro h
        by_cases h0 : 0 ≤ i
        · exact ⟨_, ⟨i.toNat, by omega⟩, (pyIndex_ok i _).2 (Or.inl (by simp; omega)), rfl⟩
        · exact ⟨_, ⟨(i + n).toNat, by omega⟩, (pyIndex_ok i _).2 (Or.inr (by simp; omega)), rfl⟩
    | list l =>
      simp only [modelInit]
      rw [← roundHalfEven_eq_one]
      by_cases h : roundHalfEven l.sum = 1 <;> simp [h]
  rw [← key]
  unfold mkHMM
  simp only [checkRow', Except.bind_eq_ok]
  constructor
  · rintro ⟨M, init, h1, h2⟩
    split_ifs at h2 with h3 h4
    exact ⟨h3, h4, init, h1⟩
  · rintro ⟨h3, h4, init, h1⟩
    refine ⟨{ matrix := matrix, alphabet := alphabet, output := output, initialState := init }, init, h1, ?_⟩
    rw [if_neg (not_not.2 h3), if_neg (not_not.2 h4)]
    rfl

/-- C13, HMM: an accepted object has the given matrices, and the given initial distribution, or the point distribution
on the given state. -/
theorem mkHMM_spec {n : ℕ} (matrix : Fin n → Fin n → K) (alphabet : List String)
    (output : Fin n → Fin alphabet.length → K) (initial : InitArg K) (M : HMMObj K n)
    (h : mkHMM matrix alphabet output initial = .ok M) :
    M.matrix = matrix ∧ (∃ h : M.alphabet = alphabet, ∀ i k, M.output i k = output i (k.cast (by rw [h]))) ∧
    (∀ l, initial = .list l → M.initialState = l) ∧
    (∀ k : Fin n, initial = .int k → M.initialState.length = n ∧ ∀ s : Fin n, M.initialState[s]? = some (if s = k then 1 else 0)) := by
  unfold mkHMM at h
  simp only [Except.bind_eq_ok] at h
  obtain ⟨init, h1, h2⟩ := h
  split_ifs at h2 with h3 h4
  injection h2 with h2
  subst h2
  refine ⟨rfl, ⟨rfl, fun _ _ => rfl⟩, ?_, ?_⟩
  · rintro l rfl
    simp only [modelInit] at h1
    split_ifs at h1
    injection h1 with h1
    exact h1.symm
  · rintro k rfl
    simp only [modelInit, Except.bind_eq_ok] at h1
    obtain ⟨k', hk', h1⟩ := h1
    injection h1 with h1
    subst h1
    rw [show ((k : ℕ) : ℤ) = ((k : ℕ) : ℤ) from rfl, pyIndex_nat k.2] at hk'
    injection hk' with hk'
    subst hk'
    constructor
    · simp
    · intro s
      simp

/-- C13 fails for HMMs: an initial "distribution" of total 3/5 is accepted. -/
theorem hmm_accepts_bad_sum :
    ∃ (matrix : Fin 2 → Fin 2 → ℚ) (output : Fin 2 → Fin ["a"].length → ℚ) (M : HMMObj ℚ 2),
      mkHMM matrix ["a"] output (.list [1/5, 2/5]) = .ok M ∧ M.initialState.sum ≠ 1 := by
  have h := (mkHMM_ok_iff_partial (K := ℚ) (n := 2) (fun _ _ => 1/2) ["a"] (fun _ _ => 1) (.list [1/5, 2/5])).2
    ⟨fun i => by left; simp, fun i => by left; simp, by norm_num⟩
  obtain ⟨M, hM⟩ := h
  refine ⟨_, _, M, hM, ?_⟩
  rw [(mkHMM_spec _ _ _ _ M hM).2.2.1 _ rfl]
  norm_num

/-- C13 fails for HMMs: an initial distribution over three states is accepted for a model with two states. -/
theorem hmm_accepts_bad_length :
    ∃ (matrix : Fin 2 → Fin 2 → ℚ) (output : Fin 2 → Fin ["a"].length → ℚ) (M : HMMObj ℚ 2),
      mkHMM matrix ["a"] output (.list [0, 0, 1]) = .ok M ∧ M.initialState.length ≠ 2 := by
  have h := (mkHMM_ok_iff_partial (K := ℚ) (n := 2) (fun _ _ => 1/2) ["a"] (fun _ _ => 1) (.list [0, 0, 1])).2
    ⟨fun i => by left; simp, fun i => by left; simp, by norm_num⟩
  obtain ⟨M, hM⟩ := h
  refine ⟨_, _, M, hM, ?_⟩
  rw [(mkHMM_spec _ _ _ _ M hM).2.2.1 _ rfl]
  simp

/-- C13, GoHMM: no negative sigma, accepted rows, and the same condition on the initial distribution. Sigma 0 is accepted. -/
theorem mkGoHMM_ok_iff {n d : ℕ} (hn : 0 < n) (hd : 0 < d) (matrix : Fin n → Fin n → K) (mu sigma : Fin n → Fin d → K)
    (l : List K) :
    (∃ M, mkGoHMM matrix mu sigma (.list l) = .ok M) ↔
      (∀ i, RowOK (matrix i)) ∧ (∀ i j, 0 ≤ sigma i j) ∧ 1/2 < l.sum ∧ l.sum < 3/2 := by
  unfold mkGoHMM
  rw [if_neg hn.ne']
  simp only [checkRow']
  rw [← roundHalfEven_eq_one]
  by_cases hs : ∃ i j, sigma i j < 0
  · rw [if_pos (Or.inr hs)]
    constructor
    · rintro ⟨M, h⟩; cases h
    · rintro ⟨_, h, _⟩
      obtain ⟨i, j, hij⟩ := hs
      exact absurd hij (not_lt.2 (h i j))
  · rw [if_neg (by rintro (h | h); exacts [hd.ne' h, hs h])]
    have hs' : ∀ i j, 0 ≤ sigma i j := fun i j => not_lt.1 (fun h => hs ⟨i, j, h⟩)
    by_cases hr : roundHalfEven l.sum = 1
    · by_cases hm : ∀ i, RowOK (matrix i)
      · simp only [modelInit, hr, ne_eq, not_true_eq_false, if_false, bind, Except.bind]
        rw [if_neg (not_not.2 hm)]
        exact ⟨fun _ => ⟨hm, hs', trivial⟩, fun _ => ⟨_, rfl⟩⟩
      · simp only [modelInit, hr, ne_eq, not_true_eq_false, if_false, bind, Except.bind]
        rw [if_pos hm]
        constructor
        · rintro ⟨M, h⟩; cases h
        · rintro ⟨h, _⟩; exact absurd h hm
    · simp only [modelInit, hr, ne_eq, not_false_eq_true, if_true, bind, Except.bind]
      constructor
      · rintro ⟨M, h⟩; cases h
      · rintro ⟨_, _, h⟩; exact h.elim

/-- A concrete accepted MC: two states, one of them initial. -/
example : ∃ M : MC ℚ String 2, mkMC (fun i j => if i = 0 then 1/2 else if j = 0 then 1 else 0) ["a", "init"] = .ok M ∧
    M.initialState 0 = 0 ∧ M.initialState 1 = 1 := by
  refine ⟨_, ((mkMC_ok_iff _ _ { matrix := _, labelling := ![ "a", "init"], initialState := ![(0 : ℚ), 1] }).2
    ⟨by simp, rfl, ?_, rfl, ?_, ?_⟩), rfl, rfl⟩
  · intro i; left; fin_cases i <;> simp [Fin.sum_univ_two]
  · intro s; fin_cases s <;> rfl
  · intro s
    have : (univ.filter (fun s : Fin 2 => ![ "a", "init"] s = "init")).card = 1 := by decide
    simp only [this]
    fin_cases s <;> simp

/-! ### C14: creation functions -/

/-- C14. The states of the created models are the state ids that occur in the transitions, in increasing order. -/
theorem stateIds_spec (tr : List (ℤ × ℤ × K)) :
    (stateIds tr).Pairwise (· < ·) ∧ ∀ x, x ∈ stateIds tr ↔ ∃ t ∈ tr, x = t.1 ∨ x = t.2.1 := by
  refine ⟨sorted_sortedSet _, fun x => ?_⟩
  rw [stateIds, mem_sortedSet, List.mem_append, List.mem_map, List.mem_map]
  constructor
  · rintro (⟨t, ht, rfl⟩ | ⟨t, ht, rfl⟩)
    exacts [⟨t, ht, Or.inl rfl⟩, ⟨t, ht, Or.inr rfl⟩]
  · rintro ⟨t, ht, rfl | rfl⟩
    exacts [Or.inl ⟨t, ht, rfl⟩, Or.inr ⟨t, ht, rfl⟩]

theorem stateIdsCTMC_spec (tr : List (ℤ × ℤ × K)) (sync : List (ℤ × String × ℤ × K)) :
    (stateIdsCTMC tr sync).Pairwise (· < ·) ∧
    ∀ x, x ∈ stateIdsCTMC tr sync ↔ (∃ t ∈ tr, x = t.1 ∨ x = t.2.1) ∨ ∃ t ∈ sync, x = t.1 ∨ x = t.2.2.1 := by
  refine ⟨sorted_sortedSet _, fun x => ?_⟩
  simp only [stateIdsCTMC, mem_sortedSet, List.mem_append, List.mem_map]
  constructor
  · rintro ((⟨t, ht, rfl⟩ | ⟨t, ht, rfl⟩) | (⟨t, ht, rfl⟩ | ⟨t, ht, rfl⟩))
    exacts [Or.inl ⟨t, ht, Or.inl rfl⟩, Or.inl ⟨t, ht, Or.inr rfl⟩, Or.inr ⟨t, ht, Or.inl rfl⟩, Or.inr ⟨t, ht, Or.inr rfl⟩]
  · rintro (⟨t, ht, rfl | rfl⟩ | ⟨t, ht, rfl | rfl⟩)
    exacts [Or.inl (Or.inl ⟨t, ht, rfl⟩), Or.inl (Or.inr ⟨t, ht, rfl⟩), Or.inr (Or.inl ⟨t, ht, rfl⟩), Or.inr (Or.inr ⟨t, ht, rfl⟩)]

theorem stateIdsMDP_spec (tr : List (ℤ × String × ℤ × K)) :
    (stateIdsMDP tr).Pairwise (· < ·) ∧ (∀ x, x ∈ stateIdsMDP tr ↔ ∃ t ∈ tr, x = t.1 ∨ x = t.2.2.1) ∧
    (actionsMDP tr).Pairwise (· < ·) ∧ ∀ a, a ∈ actionsMDP tr ↔ ∃ t ∈ tr, a = t.2.1 := by
  refine ⟨sorted_sortedSet _, fun x => ?_, sorted_sortedSet _, fun a => ?_⟩
  · simp only [stateIdsMDP, mem_sortedSet, List.mem_append, List.mem_map]
    constructor
    · rintro (⟨t, ht, rfl⟩ | ⟨t, ht, rfl⟩)
      exacts [⟨t, ht, Or.inl rfl⟩, ⟨t, ht, Or.inr rfl⟩]
    · rintro ⟨t, ht, rfl | rfl⟩
      exacts [Or.inl ⟨t, ht, rfl⟩, Or.inr ⟨t, ht, rfl⟩]
  · simp only [actionsMDP, mem_sortedSet, List.mem_map]
    constructor
    · rintro ⟨t, ht, rfl⟩; exact ⟨t, ht, rfl⟩
    · rintro ⟨t, ht, rfl⟩; exact ⟨t, ht, rfl⟩

/-- "The labels of a created model": those of the caller, then 'init'. -/
def LabelsOf {nb : ℕ} (labelling : List String) (lab : Fin (nb + 1) → String) : Prop :=
  labelling.length = nb ∧ "init" ∉ labelling ∧
  (∀ i : Fin nb, labelling[i]? = some (lab i.castSucc)) ∧ lab (Fin.last nb) = "init"

/-- "The row of the added state is what the caller asked for": the list, or state number `k`. -/
def Requested {nb : ℕ} (initial : InitArg K) (row : Fin (nb + 1) → K) : Prop :=
  (∀ l, initial = .list l → l.length = nb ∧ (∀ j : Fin nb, l[j]? = some (row j.castSucc)) ∧ row (Fin.last nb) = 0) ∧
  (∀ k : ℕ, initial = .int k → k ≤ nb ∧ ∀ j, row j = if (j : ℕ) = k then 1 else 0)

theorem nb_of_length {nb : ℕ} {labelling : List String} (h : (labelling ++ ["init"]).length = nb + 1) :
    labelling.length = nb := by simpa using h

theorem labels_of {nb : ℕ} {labelling : List String} {lab : Fin (nb + 1) → String} {init : Fin (nb + 1) → K}
    (hl : (labelling ++ ["init"]).length = nb + 1) (hn : "init" ∉ labelling)
    (h : FromLabels (labelling ++ ["init"]) lab init) :
    LabelsOf labelling lab ∧ ∀ s, init s = if s = Fin.last nb then 1 else 0 := by
  have hl' := nb_of_length hl
  have h1 : ∀ i : Fin nb, labelling[i]? = some (lab i.castSucc) := by
    intro i
    have := h.1 i.castSucc
    simp only [Fin.getElem?_fin, Fin.val_castSucc] at this ⊢
    rwa [List.getElem?_append_left (by omega)] at this
  have h2 : lab (Fin.last nb) = "init" := by
    have := h.1 (Fin.last nb)
    simp only [Fin.getElem?_fin, Fin.val_last] at this
    rw [List.getElem?_append_right (by omega)] at this
    simpa [hl'] using this.symm
  have h3 : ∀ s, lab s = "init" ↔ s = Fin.last nb := by
    intro s
    refine ⟨fun hs => ?_, fun hs => hs ▸ h2⟩
    by_contra hne
    obtain ⟨i, rfl⟩ := Fin.exists_castSucc_eq.2 hne
    have := h1 i
    rw [hs] at this
    exact hn (List.mem_of_getElem? this)
  refine ⟨⟨hl', hn, h1, h2⟩, fun s => ?_⟩
  rw [h.2 s]
  simp only [h3, Finset.filter_eq', Finset.mem_univ, if_true, Finset.card_singleton, Nat.cast_one, div_one]

theorem initRowMC_requested {nb : ℕ} {initial : InitArg K} {row : Fin (nb + 1) → K}
    (h : initRowMC nb initial = .ok row) : Requested initial row := by
  constructor
  · rintro l rfl
    simp only [initRowMC] at h
    split_ifs at h with hl
    injection h with h
    subst h
    have hl := not_not.1 hl
    refine ⟨hl, fun j => ?_, ?_⟩
    · have : (j : ℕ) < l.length := by have := j.2; omega
      simp [List.getD_eq_getElem?_getD, List.getElem?_append_left this, this]
    · beta_reduce
      rw [List.getD_eq_getElem?_getD, Fin.val_last, List.getElem?_append_right (by omega)]
      simp [hl]
  · rintro k rfl
    simp only [initRowMC, Except.bind_eq_ok] at h
    obtain ⟨k', hk, h⟩ := h
    injection h with h
    subst h
    have := k'.2
    rcases (pyIndex_ok _ _).1 hk with hk | hk
    · have hk : k = k' := by exact_mod_cast hk
      exact ⟨by omega, fun j => by simp only [Fin.ext_iff, hk]⟩
    · exfalso; push_cast at hk; omega

theorem initRow_requested {nb : ℕ} {initial : InitArg K} {row : Fin (nb + 1) → K} (hne : initial ≠ .list [])
    (h : initRow nb initial = .ok row) : Requested initial row := by
  apply initRowMC_requested
  rw [← h]
  cases initial with
  | int i => rfl
  | list l =>
    have : l.length ≠ 0 := fun h0 => hne (by rw [List.length_eq_zero_iff.1 h0])
    simp [initRowMC, initRow, this]

/-- C14. What `createMC` returns: states, labels, initial distribution, transitions (the last probability given for a
pair of ids, 0 if there is none), no transition from a state to the added state, and the row of the added state. -/
theorem createMC_spec (tr : List (ℤ × ℤ × K)) (labelling : List String) (initial : InitArg K)
    (M : MC K String ((stateIds tr).length + 1)) (h : (createMC tr labelling initial).2 = .ok M) :
    LabelsOf labelling M.labelling ∧
    (∀ s, M.initialState s = if s = Fin.last _ then 1 else 0) ∧
    (∀ i j : Fin (stateIds tr).length, M.matrix i.castSucc j.castSucc =
      lastGiven (tr.map (fun t => ((t.1, t.2.1), t.2.2))) ((stateIds tr)[i], (stateIds tr)[j])) ∧
    (∀ i : Fin (stateIds tr).length, M.matrix i.castSucc (Fin.last _) = 0) ∧
    Requested initial (M.matrix (Fin.last _)) := by
  unfold createMC at h
  simp only at h
  split_ifs at h with h1 h2
  simp only [Except.bind_eq_ok] at h
  obtain ⟨last, hlast, h⟩ := h
  obtain ⟨_, hl, _, hm, hf⟩ := (mkMC_ok_iff _ _ _).1 h
  obtain ⟨e1, e2⟩ := labels_of hl h1 hf
  refine ⟨e1, e2, ?_, ?_, ?_⟩
  · intro i j
    rw [hm]
    simp only [extend, Fin.val_castSucc, i.2, j.2, if_true]
    exact fill_eq _ (nodup_sortedSet _) tr i j i.2 j.2
  · intro i
    rw [hm]
    simp [extend]
  · rw [hm]
    have : (extend (stateIds tr).length (fill (stateIds tr) tr) last (Fin.last _)) = last := by
      funext j
      simp [extend]
    rw [this]
    exact initRowMC_requested hlast

/-- C14. `createCTMC`, likewise (an empty list of initial probabilities is accepted and gives a row of zeros:
`createCTMC_empty_initial`). -/
theorem createCTMC_spec (tr : List (ℤ × ℤ × K)) (sync : List (ℤ × String × ℤ × K)) (labelling : List String)
    (initial : InitArg K) (hne : initial ≠ .list [])
    (M : CTMC K String ((stateIdsCTMC tr sync).length + 1)) (h : (createCTMC tr sync labelling initial).2 = .ok M) :
    LabelsOf labelling M.labelling ∧
    (∀ s, M.initialState s = if s = Fin.last _ then 1 else 0) ∧
    (∀ i j : Fin (stateIdsCTMC tr sync).length, M.matrix i.castSucc j.castSucc =
      lastGiven (tr.map (fun t => ((t.1, t.2.1), t.2.2))) ((stateIdsCTMC tr sync)[i], (stateIdsCTMC tr sync)[j])) ∧
    (∀ i : Fin (stateIdsCTMC tr sync).length, M.matrix i.castSucc (Fin.last _) = 0) ∧
    Requested initial (M.matrix (Fin.last _)) := by
  unfold createCTMC at h
  simp only at h
  split_ifs at h with h1 h2
  simp only [Except.bind_eq_ok] at h
  obtain ⟨last, hlast, h⟩ := h
  obtain ⟨_, hl, hm, hf⟩ := (mkCTMC_ok_iff _ _ _).1 h
  obtain ⟨e1, e2⟩ := labels_of hl h1 hf
  refine ⟨e1, e2, ?_, ?_, ?_⟩
  · intro i j
    rw [hm]
    simp only [extend, Fin.val_castSucc, i.2, j.2, if_true]
    exact fill_eq _ (nodup_sortedSet _) tr i j i.2 j.2
  · intro i
    rw [hm]
    simp [extend]
  · rw [hm]
    have : (extend (stateIdsCTMC tr sync).length (fill (stateIdsCTMC tr sync) tr) last (Fin.last _)) = last := by
      funext j
      simp [extend]
    rw [this]
    exact initRow_requested hne hlast

/-- C14. `createMDP`, likewise; the initial row is the same for every action. -/
theorem createMDP_spec (tr : List (ℤ × String × ℤ × K)) (labelling : List String)
    (initial : InitArg K) (hne : initial ≠ .list [])
    (M : MDP K String ((stateIdsMDP tr).length + 1)) (h : (createMDP tr labelling initial).2 = .ok M) :
    LabelsOf labelling M.labelling ∧
    (∀ s, M.initialState s = if s = Fin.last _ then 1 else 0) ∧
    M.actions = actionsMDP tr ∧
    (∀ (i : Fin (stateIdsMDP tr).length) (a : Fin M.actions.length) (j : Fin (stateIdsMDP tr).length),
      M.matrix i.castSucc a j.castSucc =
        lastGiven (tr.map (fun t => ((t.1, t.2.1, t.2.2.1), t.2.2.2)))
          ((stateIdsMDP tr)[i], M.actions[a], (stateIdsMDP tr)[j])) ∧
    (∀ (i : Fin (stateIdsMDP tr).length) a, M.matrix i.castSucc a (Fin.last _) = 0) ∧
    ∀ a, Requested initial (M.matrix (Fin.last _) a) := by
  unfold createMDP at h
  simp only at h
  split_ifs at h with h1 h2 h3
  · obtain ⟨_, hl, _, ⟨ha, hm⟩, hf⟩ := (mkMDP_ok_iff _ _ _ _).1 h
    obtain ⟨e1, e2⟩ := labels_of hl h1 hf
    have hno : ∀ a : Fin M.actions.length, False := by
      intro a
      have := a.2
      have := congrArg List.length ha
      omega
    exact ⟨e1, e2, ha, fun _ a _ => (hno a).elim, fun _ a => (hno a).elim, fun a => (hno a).elim⟩
  · simp only [Except.bind_eq_ok] at h
    obtain ⟨last, hlast, h⟩ := h
    obtain ⟨_, hl, _, ⟨ha, hm⟩, hf⟩ := (mkMDP_ok_iff _ _ _ _).1 h
    obtain ⟨e1, e2⟩ := labels_of hl h1 hf
    refine ⟨e1, e2, ha, ?_, ?_, ?_⟩
    · intro i a j
      rw [hm]
      simp only [extend, Fin.val_castSucc, i.2, j.2, if_true, Fin.val_cast]
      have := fillMDP_eq (stateIdsMDP tr) (actionsMDP tr) (nodup_sortedSet _) (nodup_sortedSet _) tr i a j i.2
        (lt_of_lt_of_eq a.2 (congrArg List.length ha)) j.2
      rw [this]
      simp [ha]
    · intro i a
      rw [hm]
      simp [extend]
    · intro a
      have : M.matrix (Fin.last _) a = last := by
        funext j
        rw [hm]
        simp [extend]
      rw [this]
      exact initRow_requested hne hlast

/-- The probabilities given for the transitions leaving the i-th state. -/
def givenRow (tr : List (ℤ × ℤ × K)) (i : Fin (stateIds tr).length) : Fin (stateIds tr).length → K :=
  fun j => lastGiven (tr.map (fun t => ((t.1, t.2.1), t.2.2))) ((stateIds tr)[i], (stateIds tr)[j])

theorem extend_rowOK (nb : ℕ) (m : ℕ → ℕ → K) (last : Fin (nb + 1) → K) :
    (∀ i, RowOK (extend nb m last i)) ↔ (∀ i : Fin nb, RowOK (fun j : Fin nb => m i j)) ∧ RowOK last := by
  have h1 : extend nb m last (Fin.last nb) = last := by funext j; simp [extend]
  have h2 : ∀ i : Fin nb, ∑ j, extend nb m last i.castSucc j = ∑ j : Fin nb, m i j := by
    intro i
    rw [Fin.sum_univ_castSucc]
    simp [extend]
  constructor
  · intro h
    refine ⟨fun i => ?_, h1 ▸ h (Fin.last nb)⟩
    have := h i.castSucc
    unfold RowOK at this ⊢
    rwa [h2] at this
  · rintro ⟨h, h'⟩ i
    induction i using Fin.lastCases with
    | last => rw [h1]; exact h'
    | cast i =>
      have := h i
      unfold RowOK at this ⊢
      rwa [h2]

theorem fill_row (tr : List (ℤ × ℤ × K)) (i : Fin (stateIds tr).length) :
    (fun j : Fin (stateIds tr).length => fill (stateIds tr) tr i j) = givenRow tr i := by
  funext j
  exact fill_eq _ (nodup_sortedSet _) tr i j i.2 j.2

/-- "An initial state argument is acceptable for `nb` states." -/
def InitOK (nb : ℕ) : InitArg K → Prop
  | .int k => -((nb : ℤ) + 1) ≤ k ∧ k ≤ nb
  | .list l => l.length = nb ∧ (|l.sum - 1| ≤ 1/2000 ∨ |l.sum| ≤ 1/2000)

theorem initRowMC_ok_iff (nb : ℕ) (initial : InitArg K) :
    (∃ row, initRowMC nb initial = .ok row ∧ RowOK row) ↔ InitOK nb initial := by
  cases initial with
  | int k =>
    simp only [initRowMC, Except.bind_eq_ok, InitOK]
    constructor
    · rintro ⟨row, ⟨k', hk, _⟩, _⟩
      have := (pyIndex_ok _ _).1 hk
      have := k'.2
      push_cast at *
      omega
    · intro h
      have : ∃ k' : Fin (nb + 1), pyIndex (nb + 1) k = .ok k' := by
        by_cases h0 : 0 ≤ k
        · exact ⟨⟨k.toNat, by omega⟩, (pyIndex_ok _ _).2 (Or.inl (by simp; omega))⟩
        · exact ⟨⟨(k + (nb + 1)).toNat, by omega⟩, (pyIndex_ok _ _).2 (Or.inr (by push_cast; omega))⟩
      obtain ⟨k', hk⟩ := this
      refine ⟨_, ⟨k', hk, rfl⟩, Or.inl ?_⟩
      simp
  | list l =>
    simp only [initRowMC, InitOK]
    by_cases hl : l.length = nb
    · subst hl
      have hsum : ∑ j : Fin (l.length + 1), (l ++ [(0 : K)]).getD j 0 = l.sum := by
        rw [sum_getD _ (by simp)]
        simp
      simp only [ne_eq, not_true_eq_false, if_false, true_and]
      constructor
      · rintro ⟨row, h, hr⟩
        injection h with h
        subst h
        unfold RowOK at hr
        rwa [hsum] at hr
      · intro h
        refine ⟨_, rfl, ?_⟩
        unfold RowOK
        rwa [hsum]
    · simp [hl]

/-- C14. `createMC` succeeds exactly for: no label 'init', one label per state, accepted rows, acceptable initial state. -/
theorem createMC_ok_iff (tr : List (ℤ × ℤ × K)) (labelling : List String) (initial : InitArg K) :
    (∃ M, (createMC tr labelling initial).2 = .ok M) ↔
      "init" ∉ labelling ∧ labelling.length = (stateIds tr).length ∧ (∀ i, RowOK (givenRow tr i)) ∧
      InitOK (stateIds tr).length initial := by
  unfold createMC
  simp only
  constructor
  · rintro ⟨M, h⟩
    split_ifs at h with h1 h2
    simp only [Except.bind_eq_ok] at h
    obtain ⟨last, hlast, h⟩ := h
    obtain ⟨_, hl, hr, hm, hf⟩ := (mkMC_ok_iff _ _ _).1 h
    rw [extend_rowOK] at hr
    simp only [fill_row] at hr
    exact ⟨h1, nb_of_length hl, hr.1, (initRowMC_ok_iff _ _).1 ⟨last, hlast, hr.2⟩⟩
  · rintro ⟨h1, h2, h3, h4⟩
    obtain ⟨last, hlast, hr⟩ := (initRowMC_ok_iff _ _).2 h4
    have hli : (labelling ++ ["init"]).length = (stateIds tr).length + 1 := by simp [h2]
    have hmem : "init" ∈ labelling ++ ["init"] := by simp
    obtain ⟨M, hM⟩ := mkMC_total (extend _ (fill (stateIds tr) tr) last) _ hmem hli (by
      rw [extend_rowOK]
      simp only [fill_row]
      exact ⟨h3, hr⟩)
    refine ⟨M, ?_⟩
    rw [if_neg h1, if_neg (by omega)]
    simp only [Except.bind_eq_ok]
    exact ⟨last, hlast, hM⟩

/-- C14. A complete description (non-negative probabilities, of sum 1 for each state, and an initial distribution or the
number of a state) gives a Markov chain. -/
theorem createMC_stochastic (tr : List (ℤ × ℤ × K)) (labelling : List String) (initial : InitArg K)
    (h0 : ∀ t ∈ tr, 0 ≤ t.2.2) (h1 : ∀ i, ∑ j, givenRow tr i j = 1)
    (hl : "init" ∉ labelling) (hn : labelling.length = (stateIds tr).length)
    (hi : match initial with
      | .int k => 0 ≤ k ∧ k < (stateIds tr).length
      | .list l => l.length = (stateIds tr).length ∧ (∀ x ∈ l, 0 ≤ x) ∧ l.sum = 1) :
    ∃ M, (createMC tr labelling initial).2 = .ok M ∧ M.Stochastic := by
  obtain ⟨M, hM⟩ := (createMC_ok_iff tr labelling initial).2 ⟨hl, hn, fun i => Or.inl (by rw [h1 i]; norm_num), by
    cases initial with
    | int k => simp only at hi; simp only [InitOK]; omega
    | list l => exact ⟨hi.1, Or.inl (by rw [hi.2.2]; norm_num)⟩⟩
  obtain ⟨_, s2, s3, s4, s5⟩ := createMC_spec tr labelling initial M hM
  have hgiven : ∀ key, 0 ≤ lastGiven (tr.map (fun t => ((t.1, t.2.1), t.2.2))) key := by
    intro key
    unfold lastGiven
    split
    · rename_i x hx
      have := List.mem_of_getLast? hx
      have := (List.mem_filter.1 this).1
      obtain ⟨t, ht, rfl⟩ := List.mem_map.1 this
      exact h0 t ht
    · exact le_rfl
  refine ⟨M, hM, ?_, ?_, ?_, ?_⟩
  · intro s; rw [s2]; split_ifs; exacts [zero_le_one, le_rfl]
  · rw [sum_congr rfl (fun s _ => s2 s)]; simp
  · intro s s'
    induction s using Fin.lastCases with
    | last =>
      cases initial with
      | int k =>
        simp only at hi
        have := (s5.2 k.toNat (by congr; omega)).2 s'
        rw [this]; split_ifs; exacts [zero_le_one, le_rfl]
      | list l =>
        obtain ⟨a, b, c⟩ := s5.1 l rfl
        induction s' using Fin.lastCases with
        | last => exact c.ge
        | cast j => exact hi.2.1 _ (List.mem_of_getElem? (b j))
    | cast i =>
      induction s' using Fin.lastCases with
      | last => exact (s4 i).ge
      | cast j => rw [s3]; exact hgiven _
  · intro s
    induction s using Fin.lastCases with
    | last =>
      cases initial with
      | int k =>
        simp only at hi
        rw [sum_congr rfl (fun j _ => (s5.2 k.toNat (by congr; omega)).2 j)]
        rw [Finset.sum_eq_single (⟨k.toNat, by omega⟩ : Fin _)]
        · simp
        · intro b _ hb
          rw [if_neg (fun h => hb (Fin.ext h))]
        · simp
      | list l =>
        obtain ⟨a, b, c⟩ := s5.1 l rfl
        rw [Fin.sum_univ_castSucc, c, add_zero, ← hi.2.2]
        have : l = List.ofFn (fun j : Fin (stateIds tr).length => M.matrix (Fin.last _) j.castSucc) := by
          apply List.ext_getElem (by simp [a])
          intro i h1 h2
          have := b ⟨i, by omega⟩
          simp only [Fin.getElem?_fin, List.getElem?_eq_getElem h1] at this
          simpa using this
        rw [this, List.sum_ofFn]
    | cast i =>
      rw [Fin.sum_univ_castSucc, s4, add_zero]
      simp only [s3]
      exact h1 i

/-- C14, partial: an `int` names the state with this id when the ids are 0, 1, 2, … (missing: other ids, for which the
`int` is taken as a position: `createMC_wrong_initial_state`; and `createMC_enters_init`). -/
theorem createMC_initial_partial (tr : List (ℤ × ℤ × K)) (labelling : List String) (k : ℤ)
    (hids : stateIds tr = (List.range (stateIds tr).length).map (fun i : ℕ => (i : ℤ))) (hk : k ∈ stateIds tr)
    (M : MC K String ((stateIds tr).length + 1)) (h : (createMC tr labelling (.int k)).2 = .ok M) :
    (∀ j : Fin (stateIds tr).length, M.matrix (Fin.last _) j.castSucc = if (stateIds tr)[j] = k then 1 else 0) ∧
    M.matrix (Fin.last _) (Fin.last _) = 0 := by
  obtain ⟨_, _, _, _, s5⟩ := createMC_spec tr labelling (.int k) M h
  have hk' := hk
  rw [hids] at hk'
  obtain ⟨m, hm, rfl⟩ := List.mem_map.1 hk'
  rw [List.mem_range] at hm
  have s := (s5.2 m rfl).2
  constructor
  · intro j
    rw [s]
    have : (stateIds tr)[j] = ((j : ℕ) : ℤ) := by
      have h1 : (stateIds tr)[(j : ℕ)]? = ((List.range (stateIds tr).length).map (fun i : ℕ => (i : ℤ)))[(j : ℕ)]? := by
        rw [← hids]
      simpa using h1
    rw [this]
    simp
  · rw [s, if_neg (by simp; omega)]

/-- C14 fails: with the ids 1 and 2, asking for the initial state 1 gives the state of id 2. -/
theorem createMC_wrong_initial_state :
    ∃ M, (createMC ([(1, 2, 1), (2, 1, 1)] : List (ℤ × ℤ × ℚ)) ["a", "b"] (.int 1)).2 = .ok M ∧
      (stateIds ([(1, 2, 1), (2, 1, 1)] : List (ℤ × ℤ × ℚ)))[(1 : Fin 2)] = 2 ∧
      M.matrix (Fin.last _) (1 : Fin 3) = 1 ∧ M.matrix (Fin.last _) (0 : Fin 3) = 0 := by
  obtain ⟨M, hM⟩ := (createMC_ok_iff ([(1, 2, 1), (2, 1, 1)] : List (ℤ × ℤ × ℚ)) ["a", "b"] (.int 1)).2
    ⟨by decide, by decide +kernel, by decide +kernel, by unfold InitOK; decide +kernel⟩
  have := ((createMC_spec _ _ _ M hM).2.2.2.2.2 1 rfl).2
  refine ⟨M, hM, by decide +kernel, ?_, ?_⟩
  · exact (this _).trans (by decide +kernel)
  · exact (this _).trans (by decide +kernel)

/-- C14 fails: asking for a state just out of range is not refused; the added state then loops on itself. -/
theorem createMC_enters_init :
    ∃ M, (createMC ([(0, 1, 1), (1, 0, 1)] : List (ℤ × ℤ × ℚ)) ["a", "b"] (.int 2)).2 = .ok M ∧
      M.matrix (Fin.last _) (Fin.last _) = 1 := by
  obtain ⟨M, hM⟩ := (createMC_ok_iff ([(0, 1, 1), (1, 0, 1)] : List (ℤ × ℤ × ℚ)) ["a", "b"] (.int 2)).2
    ⟨by decide, by decide +kernel, by decide +kernel, by unfold InitOK; decide +kernel⟩
  have := ((createMC_spec _ _ _ M hM).2.2.2.2.2 2 rfl).2
  exact ⟨M, hM, (this _).trans (by decide +kernel)⟩

/-- C14 fails: `createCTMC` accepts an empty list of initial probabilities; the added state then has no successor. -/
theorem createCTMC_empty_initial :
    ∃ M, (createCTMC ([(0, 1, 1), (1, 0, 1)] : List (ℤ × ℤ × ℚ)) [] ["a", "b"] (.list [])).2 = .ok M ∧
      M.e (Fin.last _) = 0 := by
  have hli : (["a", "b"] ++ ["init"] : List String).length =
      (stateIdsCTMC ([(0, 1, 1), (1, 0, 1)] : List (ℤ × ℤ × ℚ)) []).length + 1 := by decide +kernel
  obtain ⟨M, hM⟩ := mkCTMC_total (extend _ (fill (stateIdsCTMC ([(0, 1, 1), (1, 0, 1)] : List (ℤ × ℤ × ℚ)) [])
    ([(0, 1, 1), (1, 0, 1)] : List (ℤ × ℤ × ℚ))) (fun _ => 0)) _ (by decide) hli
  refine ⟨M, ?_, ?_⟩
  · unfold createCTMC
    simp only
    rw [if_neg (by decide), if_neg (by decide +kernel)]
    simp only [Except.bind_eq_ok]
    exact ⟨fun _ => 0, rfl, hM⟩
  · obtain ⟨_, _, hm, _⟩ := (mkCTMC_ok_iff _ _ _).1 hM
    simp [CTMC.e, hm, extend]

theorem output_eq (states : List ℤ) (order : List String) (hs : states.Nodup) (ho : order.Nodup)
    (em : List (ℤ × String × K)) (i k : ℕ) (hi : i < states.length) (hk : k < order.length) :
    em.foldl (fun (m : ℕ → ℕ → K) t => fun i k => if i = states.idxOf t.1 ∧ k = order.idxOf t.2.1 then t.2.2 else m i k)
      (fun _ _ => 0) i k = lastGiven (em.map (fun t => ((t.1, t.2.1), t.2.2))) (states[i], order[k]) := by
  induction em using List.reverseRecOn with
  | nil => simp [lastGiven_nil]
  | append_singleton l t ih =>
    rw [List.foldl_append, List.map_append, List.map_singleton, lastGiven_append, ← ih]
    simp only [List.foldl_cons, List.foldl_nil, Prod.mk.injEq, idx_iff hs i hi, idx_iff ho k hk, eq_comm]

/-- C14. `createHMM`: the states are the ids of the transitions, the alphabet the emitted labels (in any order), and the
two matrices contain the last probability given for each pair, 0 if there is none. The initial distribution is the
given one, or the point distribution on the state at the given position. -/
theorem createHMM_spec (tr : List (ℤ × ℤ × K)) (em : List (ℤ × String × K)) (order : List String)
    (ho : order.Nodup) (initial : InitArg K)
    (M : HMMObj K (stateIds tr).length) (h : createHMM tr em order initial = .ok M) :
    (∀ i j : Fin (stateIds tr).length, M.matrix i j =
      lastGiven (tr.map (fun t => ((t.1, t.2.1), t.2.2))) ((stateIds tr)[i], (stateIds tr)[j])) ∧
    M.alphabet = order ∧
    (∀ (i : Fin (stateIds tr).length) (k : Fin M.alphabet.length), M.output i k =
      lastGiven (em.map (fun t => ((t.1, t.2.1), t.2.2))) ((stateIds tr)[i], M.alphabet[k])) ∧
    (∀ l, initial = .list l → M.initialState = l) ∧
    (∀ k : Fin (stateIds tr).length, initial = .int k → M.initialState.length = (stateIds tr).length ∧
      ∀ s : Fin (stateIds tr).length, M.initialState[s]? = some (if s = k then 1 else 0)) ∧
    ∀ t ∈ em, t.1 ∈ stateIds tr := by
  unfold createHMM at h
  simp only at h
  split_ifs at h with h1
  obtain ⟨e1, ⟨e2, e2'⟩, e3, e4⟩ := mkHMM_spec _ _ _ _ M h
  refine ⟨?_, e2, ?_, e3, e4, ?_⟩
  · intro i j
    rw [e1]
    exact fill_eq _ (nodup_sortedSet _) tr i j i.2 j.2
  · intro i k
    rw [e2']
    simp only [Fin.val_cast]
    have := output_eq (stateIds tr) order (nodup_sortedSet _) ho em i k i.2 (lt_of_lt_of_eq k.2 (congrArg List.length e2))
    rw [this]
    simp [e2]
  · intro t ht
    by_contra hc
    exact h1 ⟨t, ht, hc⟩

/-- C14. `createHMM` raises ValueError when an emission is given for a state without transitions. -/
theorem createHMM_unknown_state (tr : List (ℤ × ℤ × K)) (em : List (ℤ × String × K)) (order : List String)
    (initial : InitArg K) (h : ∃ t ∈ em, t.1 ∉ stateIds tr) : createHMM tr em order initial = .error .valueError := by
  unfold createHMM
  simp only
  rw [if_pos h]

/-- The documented example of `createHMM`. -/
example : ∃ M, createHMM ([(0, 1, 1), (1, 0, 3/5), (1, 1, 2/5)] : List (ℤ × ℤ × ℚ))
    [(0, "a", 4/5), (0, "b", 1/5), (1, "b", 1)] ["b", "a"] (.int 0) = .ok M := by
  unfold createHMM
  simp only
  rw [if_neg (by decide +kernel)]
  refine (mkHMM_ok_iff_partial _ _ _ _).2 ⟨by decide +kernel, by decide +kernel, ?_⟩
  simp only
  decide +kernel

/-- C14 fails for `createGoHMM`: it raises for every argument. -/
theorem createGoHMM_always_raises {n d : ℕ} (tr : List (ℤ × ℤ × K)) (output : List (List (K × K))) (initial : InitArg K) :
    ∃ e, (createGoHMM tr output initial : Py (GoHMMObj K n d)) = .error e := by
  unfold createGoHMM
  split_ifs
  exacts [⟨_, rfl⟩, ⟨_, rfl⟩]

/-- The documented example of `createMC` meets the hypotheses of the theorems above. -/
example : ∃ M, (createMC ([(0, 1, 1), (1, 0, 3/5), (1, 1, 2/5)] : List (ℤ × ℤ × ℚ)) ["b", "a"] (.int 0)).2 = .ok M ∧
    M.Stochastic := by
  refine createMC_stochastic _ _ _ (by decide +kernel) (by decide +kernel) (by decide) (by decide +kernel) ?_
  simp only
  decide +kernel

/-! ### C15: the caller's data -/

/-- C15, partial: `createMC` leaves the caller's labelling unchanged exactly when it raises one of its first two errors. -/
theorem createMC_labelling_partial (tr : List (ℤ × ℤ × K)) (labelling : List String) (initial : InitArg K) :
    (createMC tr labelling initial).1 = labelling ↔
      "init" ∈ labelling ∨ labelling.length < (stateIds tr).length := by
  unfold createMC
  simp only
  split_ifs with h1 h2
  · simp [h1]
  · simp [h2]
  · simp [h1, h2]

/-- C15 fails: after a successful call the caller's list ends with 'init', and repeating the call raises SyntaxError. -/
theorem createMC_not_repeatable (tr : List (ℤ × ℤ × K)) (labelling : List String) (initial : InitArg K) (M)
    (h : (createMC tr labelling initial).2 = .ok M) :
    (createMC tr labelling initial).1 = labelling ++ ["init"] ∧
    (createMC tr (createMC tr labelling initial).1 initial).2 = .error .syntaxError := by
  have h1 : (createMC tr labelling initial).1 = labelling ++ ["init"] := by
    unfold createMC at h ⊢
    simp only at h ⊢
    split_ifs at h ⊢
    rfl
  refine ⟨h1, ?_⟩
  rw [h1]
  simp [createMC]

/-- C15 fails even for a refused call: with a labelling that is too long the call raises ValueError, and the caller's
list has become longer. -/
theorem createMC_refused_mutates (tr : List (ℤ × ℤ × K)) (labelling : List String) (initial : InitArg K)
    (hi : "init" ∉ labelling) (hl : (stateIds tr).length < labelling.length) :
    (createMC tr labelling initial).1 = labelling ++ ["init"] ∧
    ∃ e, (createMC tr labelling initial).2 = .error e := by
  constructor
  · unfold createMC
    simp only
    rw [if_neg hi, if_neg (by omega)]
  · cases h : (createMC tr labelling initial).2 with
    | error e => exact ⟨e, rfl⟩
    | ok M =>
      have := ((createMC_ok_iff tr labelling initial).1 ⟨M, h⟩).2.1
      omega

theorem createCTMC_not_repeatable (tr : List (ℤ × ℤ × K)) (sync : List (ℤ × String × ℤ × K)) (labelling : List String)
    (initial : InitArg K) (M) (h : (createCTMC tr sync labelling initial).2 = .ok M) :
    (createCTMC tr sync labelling initial).1 = labelling ++ ["init"] ∧
    (createCTMC tr sync (createCTMC tr sync labelling initial).1 initial).2 = .error .syntaxError := by
  have h1 : (createCTMC tr sync labelling initial).1 = labelling ++ ["init"] := by
    unfold createCTMC at h ⊢
    simp only at h ⊢
    split_ifs at h ⊢
    rfl
  refine ⟨h1, ?_⟩
  rw [h1]
  simp [createCTMC]

theorem createMDP_not_repeatable (tr : List (ℤ × String × ℤ × K)) (labelling : List String) (initial : InitArg K) (M)
    (h : (createMDP tr labelling initial).2 = .ok M) :
    (createMDP tr labelling initial).1 = labelling ++ ["init"] ∧
    (createMDP tr (createMDP tr labelling initial).1 initial).2 = .error .syntaxError := by
  have h1 : (createMDP tr labelling initial).1 = labelling ++ ["init"] := by
    unfold createMDP at h ⊢
    simp only at h ⊢
    split_ifs at h ⊢ <;> rfl
  refine ⟨h1, ?_⟩
  rw [h1]
  simp [createMDP]

/-! ### C18: relabelling -/

/-- "The initial distribution is the one of a model constructed with these labels." -/
def Consistent (M : Labelled K) : Prop :=
  M.labelling.length = M.nbStates ∧ M.initialState.length = M.nbStates ∧
  ∀ (i : ℕ) (x : String), M.labelling[i]? = some x →
    M.initialState[i]? = some (if x = "init" then 1 / (M.labelling.count "init" : K) else 0)

/-- C18, partial: after `updateLabelling(l)` with one label per state, the labels are `l`, and the model is consistent if
the states labelled 'init' are the same as before (missing: a change of the states labelled 'init'). -/
theorem updateLabelling_partial (M : Labelled K) (l : List String) (hM : Consistent M) (hi : "init" ∈ l)
    (hl : l.length = M.nbStates)
    (hsame : ∀ i : ℕ, l[i]? = some "init" ↔ M.labelling[i]? = some "init") :
    (updateLabelling M l).1 = l ∧ (updateLabelling M l).2.labelling = l ∧ Consistent (updateLabelling M l).2 := by
  have hne : ¬ (l.length + 1 = M.nbStates) := by omega
  unfold updateLabelling
  simp only [if_neg hne, if_pos hi]
  refine ⟨trivial, trivial, hl, hM.2.1, ?_⟩
  have hpos : ∀ (l1 l2 : List String), l1.length = l2.length →
      (∀ i : ℕ, l1[i]? = some "init" ↔ l2[i]? = some "init") → l1.count "init" = l2.count "init" := by
    intro l1
    induction l1 with
    | nil => intro l2 h _; rw [List.length_nil] at h; rw [List.length_eq_zero_iff.1 h.symm]
    | cons a l1 ih =>
      intro l2 h hs
      cases l2 with
      | nil => simp at h
      | cons b l2 =>
        have h0 := hs 0
        simp only [List.getElem?_cons_zero, Option.some.injEq] at h0
        have := ih l2 (by simpa using h) (fun i => by simpa using hs (i + 1))
        rw [List.count_cons, List.count_cons, this]
        simp [h0]
  have hcount := hpos l M.labelling (by rw [hl, hM.1]) hsame
  intro i x hx
  have hlt : i < M.labelling.length := by
    have := (List.getElem?_eq_some_iff.1 hx).1
    rw [hM.1, ← hl]; exact this
  have h2 := hM.2.2 i _ (List.getElem?_eq_getElem hlt)
  have hs := hsame i
  rw [hx, List.getElem?_eq_getElem hlt, Option.some.injEq, Option.some.injEq] at hs
  simp only at hx ⊢
  rw [h2, hcount]
  simp only [hs]

/-- C18. Without the label 'init' the model is left unchanged. -/
theorem updateLabelling_refused (M : Labelled K) (l : List String) (hi : "init" ∉ l) (hl : l.length + 1 ≠ M.nbStates) :
    updateLabelling M l = (l, M) := by
  simp [updateLabelling, hi, hl]

/-- C18. When only the label of the last state is missing, 'init' is added to the caller's list too. -/
theorem updateLabelling_appends (M : Labelled K) (l : List String) (hl : l.length + 1 = M.nbStates) :
    (updateLabelling M l).1 = l ++ ["init"] ∧ (updateLabelling M l).2.labelling = l ++ ["init"] := by
  simp [updateLabelling, hl]

/-- C18 fails: moving the label 'init' to another state leaves the initial distribution on the old one. -/
theorem updateLabelling_inconsistent :
    ∃ (M : Labelled ℚ) (l : List String), Consistent M ∧ l.length = M.nbStates ∧ "init" ∈ l ∧
      ¬ Consistent (updateLabelling M l).2 := by
  refine ⟨⟨2, ["a", "init"], [0, 1]⟩, ["init", "a"], ⟨rfl, rfl, ?_⟩, rfl, by decide, ?_⟩
  · intro i x hx
    match i, hx with
    | 0, hx => simp only [List.getElem?_cons_zero, Option.some.injEq] at hx; subst hx; simp
    | 1, hx =>
      simp only [List.getElem?_cons_succ, List.getElem?_cons_zero, Option.some.injEq] at hx
      subst hx
      simp only [List.getElem?_cons_succ, List.getElem?_cons_zero]
      decide +kernel
    | i + 2, hx => simp at hx
  · intro h
    have := h.2.2 0 "init" (by decide)
    revert this
    decide +kernel

/-- C18 fails: a list of a wrong length is accepted. -/
theorem updateLabelling_wrong_length :
    ∃ (M : Labelled ℚ) (l : List String), M.nbStates = 3 ∧ (updateLabelling M l).2.labelling.length = 1 :=
  ⟨⟨3, ["a", "b", "init"], [0, 0, 1]⟩, ["init"], rfl, by decide⟩

end Jajapy.Create
