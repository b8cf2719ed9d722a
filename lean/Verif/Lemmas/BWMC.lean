import Verif.Lemmas.EM
import Verif.Lemmas.Likelihood
import Verif.Spec.Models

set_option linter.unusedSectionVars false

namespace Jajapy

open Finset Spec BW

section
variable {K L : Type} {n : ℕ} [Field K] [DecidableEq L]

theorem MC.tau_eq_step (M : MC K L n) : M.tau = M.step := by
  funext s s' o
  unfold tau step
  by_cases h : M.labelling s = o
  · simp [h]
  · rw [if_pos (fun h' => h h'.symm), if_neg h, zero_mul]

theorem MC.step_nonneg [LinearOrder K] [IsStrictOrderedRing K] (M : MC K L n) (h : ∀ s s', 0 ≤ M.matrix s s') (s ss : Fin n) (o : L) :
    0 ≤ M.step s ss o := by
  unfold step
  split_ifs
  · rw [one_mul]; exact h s ss
  · rw [zero_mul]

theorem MC.lik_eq (M : MC K L n) (hm : ∀ s, ∑ s', M.matrix s s' = 1) (w : List L) (hw : w ≠ []) :
    M.lik w = totalWeight M.initialState M.step (fun _ => 1) w := by
  rw [totalWeight_eq, ← lastSum_eq]
  exact (lastSum_eq_listProb _ _ _ (fun s s' o => by unfold step; ring) hm w hw _).symm

/-- The result of one worker, without the test. -/
def wkMC (M : MC K L n) (x : List L × ℕ) : WorkMC K n where
  den := vis M.step M.initialState (fun _ => 1) (fun _ => 1) (x.2 / totalWeight M.initialState M.step (fun _ => 1) x.1) x.1
  num := use M.step M.initialState (fun _ => 1) (fun _ => 1) (x.2 / totalWeight M.initialState M.step (fun _ => 1) x.1) x.1
  proba := totalWeight M.initialState M.step (fun _ => 1) x.1
  times := x.2

theorem processWorkMC_eq [DecidableEq K] (M : MC K L n) (x : List L × ℕ) :
    processWorkMC M x.1 x.2 = if totalWeight M.initialState M.step (fun _ => 1) x.1 = 0 then none else some (wkMC M x) := by
  unfold processWorkMC
  simp only [lastSum_eq, ← totalWeight_eq, M.tau_eq_step]
  rfl

/-- The possible entries of a set. -/
def possMC [DecidableEq K] (M : MC K L n) (S : TSet L) : List (List L × ℕ) :=
  (S.sequences.zip S.times).filter (fun x => ¬ totalWeight M.initialState M.step (fun _ => 1) x.1 = 0)

theorem workMC_ok [DecidableEq K] (processes : ℕ) (S : TSet L) (M : MC K L n) (temp : List (WorkMC K n))
    (h : workMC processes S M = .ok temp) :
    temp = (possMC M S).map (wkMC M) ∧ possMC M S ≠ [] ∧
      (processes ≤ 1 → ∀ x ∈ S.sequences.zip S.times, totalWeight M.initialState M.step (fun _ => 1) x.1 ≠ 0) := by
  obtain ⟨h1, h2, h3⟩ := collect_ok _ _ _ _ h
  have e : (S.sequences.zip S.times).map (fun p => processWorkMC M p.1 p.2)
      = (S.sequences.zip S.times).map (fun x => if totalWeight M.initialState M.step (fun _ => 1) x.1 = 0 then none else some (wkMC M x)) :=
    List.map_congr_left (fun x _ => processWorkMC_eq M x)
  rw [e, filterMap_ite] at h1
  refine ⟨h1, ?_, ?_⟩
  · intro h0
    apply h2
    rw [h1]
    unfold possMC at h0
    rw [h0]; rfl
  · intro hp x hx h0
    apply h3 hp none _ rfl
    rw [e]
    exact List.mem_map.mpr ⟨x, hx, by rw [if_pos h0]⟩

/-- The expected counts of the training set. -/
def denMC [DecidableEq K] (M : MC K L n) (S : TSet L) (s : Fin n) : K := ((possMC M S).map (fun x => (wkMC M x).den s)).sum
def numMC [DecidableEq K] (M : MC K L n) (S : TSet L) (s ss : Fin n) : K := ((possMC M S).map (fun x => (wkMC M x).num s ss)).sum

theorem updateMC_eq [DecidableEq K] (M : MC K L n) (S : TSet L) :
    updateMC M ((possMC M S).map (wkMC M)) =
      { M with matrix := fun s ss => if denMC M S s = 0 then M.matrix s ss else numMC M S s ss / denMC M S s } := by
  unfold updateMC denMC numMC
  simp only [List.map_map]
  rfl

theorem sum_numMC [DecidableEq K] (M : MC K L n) (S : TSet L) (s : Fin n) : ∑ ss, numMC M S s ss = denMC M S s := by
  unfold numMC denMC
  rw [sum_map_comm]
  congr 1
  exact List.map_congr_left (fun x _ => by simp only [wkMC]; exact sum_use _ _ _ _ _ _ _)

theorem numMC_nonneg [LinearOrder K] [IsStrictOrderedRing K] (M : MC K L n) (S : TSet L)
    (hi0 : ∀ s, 0 ≤ M.initialState s) (hm0 : ∀ s s', 0 ≤ M.matrix s s') (s ss : Fin n) : 0 ≤ numMC M S s ss := by
  refine sum_map_nonneg _ _ (fun x _ => use_nonneg _ _ _ (M.step_nonneg hm0) hi0 (fun _ => zero_le_one) _ _ ?_ _
    (fun _ _ => zero_le_one) _ _)
  exact div_nonneg (Nat.cast_nonneg _) (totalWeight_nonneg _ _ _ (M.step_nonneg hm0) hi0 (fun _ => zero_le_one) _)

theorem numMC_zero [DecidableEq K] (M : MC K L n) (S : TSet L) (s ss : Fin n) (h : M.matrix s ss = 0) : numMC M S s ss = 0 := by
  unfold numMC
  rw [List.sum_eq_zero]
  intro a ha
  obtain ⟨x, _, rfl⟩ := List.mem_map.mp ha
  simp only [wkMC]
  exact use_zero _ _ _ _ _ _ _ _ (fun o _ => by simp [MC.step, h])

/-- The matrix after one iteration. -/
def newMC [DecidableEq K] (M : MC K L n) (S : TSet L) : MC K L n :=
  { M with matrix := fun s ss => if denMC M S s = 0 then M.matrix s ss else numMC M S s ss / denMC M S s }

theorem stepMC_ok (processes : ℕ) (S : TSet L) (M M' : MC ℝ L n) (ll : ℝ)
    (h : stepMC processes S M = .ok (M', ll)) :
    M' = newMC M S ∧ possMC M S ≠ [] ∧
    ll = ((possMC M S).map (fun x => Real.log (totalWeight M.initialState M.step (fun _ => 1) x.1) * x.2)).sum ∧
    (processes ≤ 1 → ∀ x ∈ S.sequences.zip S.times, totalWeight M.initialState M.step (fun _ => 1) x.1 ≠ 0) := by
  unfold stepMC at h
  cases hw : workMC processes S M with
  | error e => rw [hw] at h; cases h
  | ok temp =>
    rw [hw] at h
    obtain ⟨h1, h2, h3⟩ := workMC_ok _ _ _ _ hw
    have h' : (updateMC M temp, logLik (temp.map (fun w => (w.proba, w.times)))) = (M', ll) := by
      injection h
    rw [h1, updateMC_eq] at h'
    injection h' with ha hb
    refine ⟨ha.symm, h2, ?_, h3⟩
    rw [← hb]
    unfold logLik
    simp only [List.map_map]
    rfl

theorem newMC_gain (M : MC ℝ L n) (S : TSet L) (hi0 : ∀ s, 0 ≤ M.initialState s) (hm0 : ∀ s s', 0 ≤ M.matrix s s')
    (hm1 : ∀ s, ∑ s', M.matrix s s' ≤ 1) (ht : ∀ t ∈ S.times, 1 ≤ t) :
    (∀ x ∈ possMC M S, 0 < totalWeight M.initialState (newMC M S).step (fun _ => 1) x.1) ∧
    ((possMC M S).map (fun x => Real.log (totalWeight M.initialState M.step (fun _ => 1) x.1) * x.2)).sum ≤
    ((possMC M S).map (fun x => Real.log (totalWeight M.initialState (newMC M S).step (fun _ => 1) x.1) * x.2)).sum := by
  have hn := numMC_nonneg M S hi0 hm0
  have hd : ∀ s, 0 ≤ denMC M S s := fun s => by rw [← sum_numMC]; exact Finset.sum_nonneg (fun ss _ => hn s ss)
  have hm0' : ∀ s s', 0 ≤ (newMC M S).matrix s s' := by
    intro s s'
    simp only [newMC]
    split_ifs
    · exact hm0 _ _
    · exact div_nonneg (hn _ _) (hd _)
  have hposs : ∀ x ∈ possMC M S, totalWeight M.initialState M.step (fun _ => 1) x.1 ≠ 0 ∧ x.2 ∈ S.times := by
    intro x hx
    obtain ⟨h1, h2⟩ := List.mem_filter.mp hx
    exact ⟨by simpa using h2, (List.of_mem_zip h1).2⟩
  have key := em_total (possMC M S) (fun x => x.1) (fun _ _ => 1) (fun x => (x.2 : ℝ))
    (fun x => totalWeight M.initialState M.step (fun _ => 1) x.1)
    (fun x => totalWeight M.initialState (newMC M S).step (fun _ => 1) x.1)
    M.step (newMC M S).step M.initialState M.initialState (M.step_nonneg hm0) ((newMC M S).step_nonneg hm0')
    (fun _ _ _ => zero_le_one) hi0 hi0 (fun x _ => totalWeight_eq _ _ _ _) (fun x _ => totalWeight_eq _ _ _ _)
    (fun x hx => lt_of_le_of_ne (totalWeight_nonneg _ _ _ (M.step_nonneg hm0) hi0 (fun _ => zero_le_one) _) (hposs x hx).1.symm)
    (fun x hx => by have := ht _ (hposs x hx).2; exact_mod_cast this)
    (by
      intro s ss x hx o ho hpos hu
      have h1 : 0 < numMC M S s ss := hu (fun _ => 1) (fun _ _ _ _ => zero_le_one) zero_lt_one
      have h2 : 0 < denMC M S s := lt_of_lt_of_le h1 (by
        rw [← sum_numMC]; exact Finset.single_le_sum (fun ss _ => hn s ss) (Finset.mem_univ ss))
      unfold MC.step at hpos ⊢
      have hl : (newMC M S).labelling = M.labelling := rfl
      rw [hl]
      split_ifs at hpos ⊢ with hlab
      · rw [one_mul]
        simp only [newMC, if_neg h2.ne']
        exact div_pos h1 h2
      · rw [zero_mul] at hpos; exact absurd hpos (lt_irrefl _))
    (by
      intro s hs
      rcases (hi0 s).eq_or_lt with h | h
      · rw [← h] at hs; simp at hs
      · exact h)
  refine ⟨key.1, ?_⟩
  have hz : ∀ x : ℝ, Real.log (x / x) = 0 := by
    intro x
    by_cases h : x = 0
    · simp [h]
    · simp [div_self h]
  have k2 := key.2
  simp only [hz, mul_zero, Finset.sum_const_zero, zero_add] at k2
  have hgain : 0 ≤ ∑ s, ∑ ss, ((possMC M S).map (fun y => use M.step M.initialState (fun _ => 1)
      (fun o => Real.log ((newMC M S).step s ss o / M.step s ss o))
      ((y.2 : ℝ) / totalWeight M.initialState M.step (fun _ => 1) y.1) y.1 s ss)).sum := by
    refine Finset.sum_nonneg (fun s _ => ?_)
    have e : ∀ ss, ((possMC M S).map (fun y => use M.step M.initialState (fun _ => 1)
        (fun o => Real.log ((newMC M S).step s ss o / M.step s ss o))
        ((y.2 : ℝ) / totalWeight M.initialState M.step (fun _ => 1) y.1) y.1 s ss)).sum
        = numMC M S s ss * Real.log ((newMC M S).matrix s ss / M.matrix s ss) := by
      intro ss
      rw [mul_comm, numMC, ← sum_map_mul]
      congr 1
      refine List.map_congr_left (fun y _ => ?_)
      rw [wkMC, ← use_const]
      refine use_congr _ _ _ _ _ _ _ _ _ (fun o _ ho => ?_)
      unfold MC.step at ho ⊢
      have hl : (newMC M S).labelling = M.labelling := rfl
      rw [hl]
      split_ifs at ho ⊢ with hlab
      · rw [one_mul, one_mul]
      · simp at ho
    rw [Finset.sum_congr rfl (fun ss _ => e ss)]
    by_cases h0 : denMC M S s = 0
    · refine le_of_eq (Finset.sum_eq_zero (fun ss _ => ?_)).symm
      have := (Finset.sum_eq_zero_iff_of_nonneg (fun ss _ => hn s ss)).mp ((sum_numMC M S s).trans h0) ss (Finset.mem_univ ss)
      rw [this, zero_mul]
    · have hg := gibbs Finset.univ (numMC M S s) (M.matrix s) (fun ss _ => hn s ss) (fun ss _ => hm0 s ss) (hm1 s)
        (fun ss _ hpos => by
          rcases (hm0 s ss).eq_or_lt with h | h
          · rw [numMC_zero M S s ss h.symm] at hpos; exact absurd hpos (lt_irrefl _)
          · exact h)
        (by rw [sum_numMC]; exact lt_of_le_of_ne (hd s) (Ne.symm h0))
      rw [sum_numMC] at hg
      simpa only [newMC, if_neg h0] using hg
  linarith

end
end Jajapy
