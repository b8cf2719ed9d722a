import Mathlib.Algebra.Order.Round
import Mathlib.Tactic.Linarith
import Mathlib.Tactic.Ring
import Mathlib.Tactic.NormNum
import Verif.Model.Create
import Verif.Spec.Create
import Verif.Lemmas.Tools
import Verif.Props.Tools

/-! Helper lemmas for the constructors and creation functions. -/

set_option linter.unusedSectionVars false

namespace Jajapy

open Finset Tools Spec

variable {K : Type} [Field K] [LinearOrder K]

section sorted
variable {α : Type} [LinearOrder α]

theorem mem_sortedSet (l : List α) (x : α) : x ∈ sortedSet l ↔ x ∈ l := by
  simp [sortedSet]

theorem nodup_sortedSet (l : List α) : (sortedSet l).Nodup :=
  (List.perm_insertionSort (· ≤ ·) l.dedup).nodup_iff.2 (List.nodup_dedup l)

theorem sorted_sortedSet (l : List α) : (sortedSet l).Pairwise (· < ·) := by
  have h1 : (sortedSet l).Pairwise (· ≤ ·) := List.pairwise_insertionSort (· ≤ ·) _
  have h2 := nodup_sortedSet l
  rw [List.Nodup] at h2
  exact (h1.and h2).imp (fun h => lt_of_le_of_ne h.1 h.2)

end sorted

theorem idx_iff {α : Type} [DecidableEq α] {states : List α} (hn : states.Nodup) (i : ℕ) (hi : i < states.length) (a : α) :
    i = states.idxOf a ↔ states[i] = a := by
  constructor
  · intro h
    subst h
    exact List.getElem_idxOf hi
  · intro h
    subst h
    exact (hn.idxOf_getElem i hi).symm

theorem lastGiven_nil {A : Type} [DecidableEq A] (k : A) : lastGiven ([] : List (A × K)) k = 0 := rfl

theorem lastGiven_append {A : Type} [DecidableEq A] (l : List (A × K)) (x : A × K) (k : A) :
    lastGiven (l ++ [x]) k = if x.1 = k then x.2 else lastGiven l k := by
  unfold lastGiven
  rw [List.filter_append]
  by_cases h : x.1 = k
  · simp [h]
  · simp [h]

theorem fill_eq (states : List ℤ) (hn : states.Nodup) (tr : List (ℤ × ℤ × K)) (i j : ℕ) (hi : i < states.length)
    (hj : j < states.length) :
    fill states tr i j = lastGiven (tr.map (fun t => ((t.1, t.2.1), t.2.2))) (states[i], states[j]) := by
  induction tr using List.reverseRecOn with
  | nil => simp [fill, lastGiven_nil]
  | append_singleton l t ih =>
    unfold fill at ih ⊢
    rw [List.foldl_append, List.map_append, List.map_singleton, lastGiven_append, ← ih]
    simp only [List.foldl_cons, List.foldl_nil, Prod.mk.injEq, idx_iff hn i hi, idx_iff hn j hj, eq_comm]

theorem fillMDP_eq (states : List ℤ) (actions : List String) (hn : states.Nodup) (ha : actions.Nodup)
    (tr : List (ℤ × String × ℤ × K)) (i a j : ℕ) (hi : i < states.length) (ha' : a < actions.length)
    (hj : j < states.length) :
    fillMDP states actions tr i a j =
      lastGiven (tr.map (fun t => ((t.1, t.2.1, t.2.2.1), t.2.2.2))) (states[i], actions[a], states[j]) := by
  induction tr using List.reverseRecOn with
  | nil => simp [fillMDP, lastGiven_nil]
  | append_singleton l t ih =>
    unfold fillMDP at ih ⊢
    rw [List.foldl_append, List.map_append, List.map_singleton, lastGiven_append, ← ih]
    simp only [List.foldl_cons, List.foldl_nil, Prod.mk.injEq, idx_iff hn i hi, idx_iff ha a ha', idx_iff hn j hj, eq_comm]

theorem roundHalfEven_eq_one [IsStrictOrderedRing K] [FloorRing K] (x : K) :
    roundHalfEven x = 1 ↔ 1/2 < x ∧ x < 3/2 := by
  unfold roundHalfEven
  have h1 := Int.floor_le x
  have h2 := Int.lt_floor_add_one x
  set f := ⌊x⌋ with hf
  simp only
  constructor
  · intro h
    split_ifs at h with h3 h4 h5
    · have : (f : K) = 1 := by exact_mod_cast h
      constructor <;> linarith
    · have : f = 0 := by omega
      have : (f : K) = 0 := by exact_mod_cast this
      constructor <;> linarith
    · omega
    · have : f = 0 := by omega
      omega
  · rintro ⟨h3, h4⟩
    have hf1 : f < 2 := by
      have : (f : K) < 2 := by linarith
      exact_mod_cast this
    have hf0 : -1 < f := by
      have : (-1 : K) < f := by linarith
      exact_mod_cast this
    have : f = 0 ∨ f = 1 := by omega
    rcases this with h | h
    · have hf' : (f : K) = 0 := by exact_mod_cast h
      rw [if_neg (by rw [hf']; linarith), if_pos (by rw [hf']; linarith), h]; rfl
    · have hf' : (f : K) = 1 := by exact_mod_cast h
      rw [if_pos (by rw [hf']; linarith), h]

theorem initFromLabels_sum [CharZero K] (l : List String) (h : "init" ∈ l) : (initFromLabels l : List K).sum = 1 := by
  unfold initFromLabels
  have key : ∀ (l : List String) (c : K), (l.map (fun i => if i = "init" then c else 0)).sum = (l.count "init" : K) * c := by
    intro l c
    induction l with
    | nil => simp
    | cons a l ih =>
      rw [List.map_cons, List.sum_cons, ih, List.count_cons]
      by_cases ha : a = "init"
      · simp [ha]; ring
      · simp [ha]
  rw [key]
  have : (l.count "init" : K) ≠ 0 := by
    have := List.count_pos_iff.2 h
    exact_mod_cast this.ne'
  field_simp

theorem baseMCInit_ok [IsStrictOrderedRing K] [FloorRing K] (n : ℕ) (labelling : List String) (h : "init" ∈ labelling)
    (hl : labelling.length = n) :
    (baseMCInit n labelling : Py ((Fin n → String) × (Fin n → K))) =
      .ok (fun s => labelling[s]'(by rw [hl]; exact s.2), fun s => (initFromLabels labelling).getD s 0) := by
  unfold baseMCInit
  rw [if_neg (not_not.2 h)]
  simp only [modelInit, initFromLabels_sum labelling h]
  rw [if_neg (by rw [not_not, roundHalfEven_eq_one]; norm_num)]
  simp only [bind, Except.bind, dif_pos hl]
  rfl

theorem baseMCInit_error [IsStrictOrderedRing K] [FloorRing K] (n : ℕ) (labelling : List String)
    (h : ¬ ("init" ∈ labelling ∧ labelling.length = n)) :
    (baseMCInit n labelling : Py ((Fin n → String) × (Fin n → K))) = .error .valueError := by
  unfold baseMCInit
  by_cases hi : "init" ∈ labelling
  · rw [if_neg (not_not.2 hi)]
    simp only [modelInit, initFromLabels_sum labelling hi]
    rw [if_neg (by rw [not_not, roundHalfEven_eq_one]; norm_num)]
    simp only [bind, Except.bind, dif_neg (fun hl => h ⟨hi, hl⟩)]
  · rw [if_pos hi]

/-- The number of states labelled 'init'. -/
theorem count_init {n : ℕ} (labelling : List String) (hl : labelling.length = n) (f : Fin n → String)
    (hf : ∀ s : Fin n, labelling[s]? = some (f s)) :
    labelling.count "init" = (univ.filter (fun s => f s = "init")).card := by
  have : labelling = List.ofFn f := by
    apply List.ext_getElem (by simp [hl])
    intro i h1 h2
    have := hf ⟨i, by omega⟩
    simp only [Fin.getElem?_fin, List.getElem?_eq_getElem h1] at this
    simpa using this
  rw [this]
  clear this hf hl
  rw [List.count_eq_countP, List.countP_eq_length_filter, List.ofFn_eq_map, List.filter_map, List.length_map]
  rw [Finset.card_def]
  simp only [Finset.filter_val]
  rw [show (univ : Finset (Fin n)).val = ((List.finRange n : List (Fin n)) : Multiset (Fin n)) from rfl]
  rw [Multiset.filter_coe, Multiset.coe_card]
  congr 2

theorem initFromLabels_getD {n : ℕ} (labelling : List String) (hl : labelling.length = n) (f : Fin n → String)
    (hf : ∀ s : Fin n, labelling[s]? = some (f s)) (s : Fin n) :
    (initFromLabels labelling : List K).getD s 0 =
      if f s = "init" then 1 / ((univ.filter (fun s => f s = "init")).card : K) else 0 := by
  rw [← count_init labelling hl f hf]
  have := hf s
  simp only [Fin.getElem?_fin] at this
  simp [initFromLabels, List.getD_eq_getElem?_getD, this]

theorem pyIndex_ok {m : ℕ} (i : ℤ) (k : Fin m) : pyIndex m i = .ok k ↔ i = k ∨ i = (k : ℤ) - m := by
  have hk := k.2
  unfold pyIndex
  split_ifs with h1 h2
  · constructor
    · intro h; injection h with h; subst h; left; simp; omega
    · rintro (h | h)
      · congr 1; apply Fin.ext; simp [h]
      · omega
  · constructor
    · intro h; injection h with h; subst h; right; simp; omega
    · rintro (h | h)
      · omega
      · congr 1; apply Fin.ext; simp [h]
  · constructor
    · intro h; cases h
    · rintro (h | h) <;> omega

theorem pyIndex_nat {m i : ℕ} (h : i < m) : pyIndex m (i : ℤ) = .ok ⟨i, h⟩ := (pyIndex_ok _ _).2 (Or.inl rfl)

theorem checkRow [IsStrictOrderedRing K] [FloorRing K] {n : ℕ} (f : Fin n → K) :
    checkProbabilities (List.ofFn f) = true ↔ (|∑ j, f j - 1| ≤ 1/2000 ∨ |∑ j, f j| ≤ 1/2000) := by
  rw [checkProbabilities_iff, List.sum_ofFn]

theorem sum_getD {m : ℕ} (l : List K) (h : l.length = m) : ∑ j : Fin m, l.getD j 0 = l.sum := by
  subst h
  conv_rhs => rw [← List.ofFn_getElem (xs := l), List.sum_ofFn]
  refine Finset.sum_congr rfl (fun j _ => ?_)
  simp [List.getD_eq_getElem?_getD]

end Jajapy
