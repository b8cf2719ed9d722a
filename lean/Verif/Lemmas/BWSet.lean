import Verif.Lemmas.BWMC
import Verif.Lemmas.BWHMM
import Verif.Spec.TSet

/-!
The sums over a training set depend only on the multiplicities of the traces.
-/

set_option linter.unusedSectionVars false

namespace Jajapy

open Finset Spec BW

section
variable {K O : Type} [Field K] [DecidableEq K]

theorem overSet_congr (S : TSet O) (P P' g g' : List O → K) (h : ∀ w ∈ S.sequences, P w = P' w)
    (hg : ∀ w ∈ S.sequences, P w ≠ 0 → g w = g' w) : overSet S P g = overSet S P' g' := by
  unfold overSet
  have e : (S.sequences.zip S.times).filter (fun x => P x.1 ≠ 0) = (S.sequences.zip S.times).filter (fun x => P' x.1 ≠ 0) := by
    refine List.filter_congr (fun x hx => ?_)
    rw [h x.1 (List.of_mem_zip hx).1]
  rw [← e]
  congr 1
  refine List.map_congr_left (fun x hx => ?_)
  obtain ⟨h1, h2⟩ := List.mem_filter.mp hx
  rw [hg x.1 (List.of_mem_zip h1).1 (by simpa using h2)]

theorem denMC_eq [DecidableEq O] {n : ℕ} (M : MC K O n) (S : TSet O) (s : Fin n) :
    denMC M S s = overSet S (totalWeight M.initialState M.step (fun _ => 1))
      (fun w => expVisits M.initialState M.step (fun _ => 1) (fun _ => 1) w s) := by
  unfold denMC possMC overSet
  congr 1
  refine List.map_congr_left (fun x _ => ?_)
  simp only [wkMC]
  rw [expVisits_eq _ _ _ _ _ _ _ (totalWeight_eq _ _ _ _)]

theorem numMC_eq [DecidableEq O] {n : ℕ} (M : MC K O n) (S : TSet O) (s ss : Fin n) :
    numMC M S s ss = overSet S (totalWeight M.initialState M.step (fun _ => 1))
      (fun w => expUses M.initialState M.step (fun _ => 1) (fun _ => 1) w s ss) := by
  unfold numMC possMC overSet
  congr 1
  refine List.map_congr_left (fun x _ => ?_)
  simp only [wkMC]
  rw [expUses_eq _ _ _ _ _ _ _ _ (totalWeight_eq _ _ _ _)]

theorem denHMM_eq [DecidableEq O] {n : ℕ} (M : HMM K O n) (S : TSet O) (s : Fin n) :
    denHMM M S s = overSet S (totalWeight M.initialState M.step (fun _ => 1))
      (fun w => expVisits M.initialState M.step (fun _ => 1) (fun _ => 1) w s) := by
  unfold denHMM possHMM overSet
  congr 1
  refine List.map_congr_left (fun x _ => ?_)
  simp only [wkHMM]
  rw [expVisits_eq _ _ _ _ _ _ _ (totalWeight_eq _ _ _ _)]

theorem numAHMM_eq [DecidableEq O] {n : ℕ} (M : HMM K O n) (S : TSet O) (s ss : Fin n) :
    numAHMM M S s ss = overSet S (totalWeight M.initialState M.step (fun _ => 1))
      (fun w => expUses M.initialState M.step (fun _ => 1) (fun _ => 1) w s ss) := by
  unfold numAHMM possHMM overSet
  congr 1
  refine List.map_congr_left (fun x _ => ?_)
  simp only [wkHMM]
  rw [expUses_eq _ _ _ _ _ _ _ _ (totalWeight_eq _ _ _ _)]

theorem numBHMM_eq [DecidableEq O] {n : ℕ} (M : HMM K O n) (S : TSet O) (s : Fin n) (i : Fin M.alphabet.length) :
    numBHMM M S s i = overSet S (totalWeight M.initialState M.step (fun _ => 1))
      (fun w => expVisits M.initialState M.step (fun _ => 1) (fun o => if o = M.alphabet[i] then 1 else 0) w s) := by
  unfold numBHMM possHMM overSet
  congr 1
  refine List.map_congr_left (fun x _ => ?_)
  simp only [wkHMM]
  rw [expVisits_eq _ _ _ _ _ _ _ (totalWeight_eq _ _ _ _)]

theorem initHMM_eq [DecidableEq O] {n : ℕ} (M : HMM K O n) (S : TSet O) (s : Fin n) :
    initHMM M S s = overSet S (totalWeight M.initialState M.step (fun _ => 1))
      (fun w => expStart M.initialState M.step (fun _ => 1) w s) := by
  unfold initHMM possHMM overSet
  congr 1
  refine List.map_congr_left (fun x _ => ?_)
  simp only [wkHMM]
  rw [expStart_eq _ _ _ _ _ _ (totalWeight_eq _ _ _ _)]

end

section
variable {O : Type} [DecidableEq O]

theorem overSet_eq_mult (S : TSet O) (hlen : S.times.length = S.sequences.length) (P g : List O → ℝ) (F : Finset (List O))
    (hF : ∀ w ∈ S.sequences, w ∈ F) :
    overSet S P g = ∑ w ∈ F, (S.mult w : ℝ) * (if P w ≠ 0 then g w else 0) := by
  rw [← TSet.sum_zip_eq S hlen _ F hF]
  unfold overSet
  induction S.sequences.zip S.times with
  | nil => simp
  | cons q l ih =>
    rw [List.filter_cons, List.map_cons, List.sum_cons, ← ih]
    by_cases h : P q.1 = 0 <;> simp [h]

/-- Two sets with the same multiplicities give the same sums. -/
theorem overSet_mult (S1 S2 : TSet O) (h1 : S1.times.length = S1.sequences.length) (h2 : S2.times.length = S2.sequences.length)
    (h : ∀ w, S1.mult w = S2.mult w) (P g : List O → ℝ) : overSet S1 P g = overSet S2 P g := by
  have hF1 : ∀ w ∈ S1.sequences, w ∈ S1.sequences.toFinset ∪ S2.sequences.toFinset := by intro w hw; simp [hw]
  have hF2 : ∀ w ∈ S2.sequences, w ∈ S1.sequences.toFinset ∪ S2.sequences.toFinset := by intro w hw; simp [hw]
  rw [overSet_eq_mult S1 h1 P g _ hF1, overSet_eq_mult S2 h2 P g _ hF2]
  exact Finset.sum_congr rfl (fun w _ => by rw [h])

theorem mult_pos_iff (S : TSet O) (hlen : S.times.length = S.sequences.length) (hpos : ∀ t ∈ S.times, 1 ≤ t) (w : List O) :
    w ∈ S.sequences ↔ 0 < S.mult w := by
  unfold TSet.mult
  rw [List.sum_pos_iff_exists_pos_nat]
  constructor
  · intro hw
    obtain ⟨i, hi, rfl⟩ := List.mem_iff_getElem.mp hw
    have hi' : i < S.times.length := by omega
    refine ⟨S.times[i], List.mem_map.mpr ⟨(S.sequences[i], S.times[i]), List.mem_filter.mpr ⟨?_, by simp⟩, rfl⟩,
      hpos _ (List.getElem_mem _)⟩
    rw [List.mem_iff_getElem]
    exact ⟨i, by simp; omega, by simp⟩
  · rintro ⟨t, ht, _⟩
    obtain ⟨x, hx, rfl⟩ := List.mem_map.mp ht
    obtain ⟨hx1, hx2⟩ := List.mem_filter.mp hx
    have : x.1 = w := by simpa using hx2
    rw [← this]
    exact (List.of_mem_zip hx1).1

/-- `log`-likelihood sums over the possible entries. -/
theorem avgLogLik_overSet (P : List O → ℝ) (hP : ∀ w, 0 ≤ P w) (S : TSet O) :
    avgLogLik P S = overSet S P (fun w => Real.log (P w)) / (S.times.sum : ℕ) := by
  unfold avgLogLik overSet
  congr 3
  refine List.filter_congr (fun x _ => ?_)
  have := hP x.1
  by_cases h : P x.1 = 0
  · simp [h]
  · simp [h, lt_of_le_of_ne this (Ne.symm h)]

end
end Jajapy
