import Verif.Lemmas.BWSet
import Verif.Lemmas.Loop

/-!
Lemmas shared by the learning theorems of all model types.
-/

namespace Jajapy

open Finset Spec BW

theorem mem_zip_of_mem {O : Type} (S : TSet O) (hlen : S.times.length = S.sequences.length) (w : List O)
    (hw : w ∈ S.sequences) : ∃ t, (w, t) ∈ S.sequences.zip S.times := by
  obtain ⟨i, hi, rfl⟩ := List.mem_iff_getElem.mp hw
  refine ⟨S.times[i]'(by omega), ?_⟩
  rw [List.mem_iff_getElem]
  exact ⟨i, by simp; omega, by simp⟩

/-- When the workers succeed. -/
theorem collect_outcome {O K R : Type} [Zero K] [DecidableEq K] (e : Err) (processes : ℕ) (S : TSet O)
    (hlen : S.times.length = S.sequences.length) (P : List O → K) (res : List O × ℕ → Option R) (g : List O × ℕ → R)
    (hres : ∀ x ∈ S.sequences.zip S.times, res x = if P x.1 = 0 then none else some (g x)) :
    ((1 < processes ∧ ∃ w ∈ S.sequences, P w ≠ 0) ∨ (processes ≤ 1 ∧ S.sequences ≠ [] ∧ ∀ w ∈ S.sequences, P w ≠ 0) →
      ∃ r, collect e processes ((S.sequences.zip S.times).map res) = .ok r) ∧
    (1 < processes ∧ (∀ w ∈ S.sequences, P w = 0) → collect e processes ((S.sequences.zip S.times).map res) = .error e) ∧
    (processes ≤ 1 ∧ (∃ w ∈ S.sequences, P w = 0) →
      collect e processes ((S.sequences.zip S.times).map res) = .error .typeError) := by
  have e1 : (S.sequences.zip S.times).map res
      = (S.sequences.zip S.times).map (fun x => if P x.1 = 0 then none else some (g x)) :=
    List.map_congr_left (fun x hx => hres x hx)
  rw [e1]
  refine ⟨?_, ?_, ?_⟩
  · rintro (⟨hp, w, hw, hl⟩ | ⟨hp, h0, hl⟩)
    · obtain ⟨t, ht⟩ := mem_zip_of_mem S hlen w hw
      refine ⟨_, collect_many _ _ hp _ ?_⟩
      rw [filterMap_ite]
      intro hcon
      have : (w, t) ∈ (S.sequences.zip S.times).filter (fun x => ¬ P x.1 = 0) :=
        List.mem_filter.mpr ⟨ht, by simpa using hl⟩
      rw [List.map_eq_nil_iff] at hcon
      rw [hcon] at this
      simp at this
    · refine ⟨_, collect_one _ _ hp _ ?_ ?_⟩
      · intro hcon
        rw [List.map_eq_nil_iff] at hcon
        obtain ⟨w, hw⟩ := List.exists_mem_of_ne_nil _ h0
        obtain ⟨t, ht⟩ := mem_zip_of_mem S hlen w hw
        rw [hcon] at ht
        simp at ht
      · intro x hx
        obtain ⟨y, hy, rfl⟩ := List.mem_map.mp hx
        rw [if_neg (hl _ (List.of_mem_zip hy).1)]
        simp
  · rintro ⟨hp, hl⟩
    have : ((S.sequences.zip S.times).map (fun x => if P x.1 = 0 then none else some (g x))).filterMap id = [] := by
      rw [filterMap_ite, List.map_eq_nil_iff, List.filter_eq_nil_iff]
      intro x hx
      simp [hl _ (List.of_mem_zip hx).1]
    unfold collect
    rw [if_pos hp, this]
  · rintro ⟨hp, w, hw, hl⟩
    obtain ⟨t, ht⟩ := mem_zip_of_mem S hlen w hw
    unfold collect
    rw [if_neg (by omega), if_pos]
    rw [List.any_eq_true]
    exact ⟨none, List.mem_map.mpr ⟨(w, t), ht, by rw [if_pos hl]⟩, rfl⟩

/-- What the workers return does not depend on the number of processes if both numbers are at least 2, or if all traces
are possible. -/
theorem collect_processes {R : Type} (e : Err) (p q : ℕ) (l : List (Option R))
    (h : (∀ x ∈ l, x ≠ none) ∨ (1 < p ∧ 1 < q)) : collect e p l = collect e q l := by
  rcases h with h | ⟨hp, hq⟩
  · have hf : l.any Option.isNone = false := by
      rw [List.any_eq_false]
      intro x hx
      have := h x hx
      cases x <;> simp_all
    unfold collect
    rw [hf]
    split_ifs <;> simp_all
  · unfold collect
    rw [if_pos hp, if_pos hq]

theorem filter_sum_eq_overSet {O : Type} (S : TSet O) (Q Q' P P' : List O → ℝ) (hQ : ∀ w ∈ S.sequences, P w = Q w)
    (hQ' : ∀ w ∈ S.sequences, P' w = Q' w) :
    (((S.sequences.zip S.times).filter (fun x => ¬ Q x.1 = 0)).map (fun x => Real.log (Q' x.1) * x.2)).sum
      = overSet S P (fun w => Real.log (P' w)) := by
  rw [overSet_congr S P Q _ (fun w => Real.log (Q' w)) hQ (fun w hw _ => by rw [hQ' w hw])]
  unfold overSet
  congr 1
  exact List.map_congr_left (fun x _ => mul_comm _ _)

theorem avgLogLik_mono {O : Type} [DecidableEq O] (S : TSet O) (P P' : List O → ℝ) (h0 : ∀ w, 0 ≤ P w) (h0' : ∀ w, 0 ≤ P' w)
    (hposs : ∀ w ∈ S.sequences, P w ≠ 0 ↔ P' w ≠ 0)
    (h : overSet S P (fun w => Real.log (P w)) ≤ overSet S P (fun w => Real.log (P' w))) :
    avgLogLik P S ≤ avgLogLik P' S := by
  rw [avgLogLik_overSet P h0, avgLogLik_overSet P' h0']
  refine div_le_div_of_nonneg_right (h.trans (le_of_eq ?_)) (Nat.cast_nonneg _)
  unfold overSet
  congr 2
  refine List.filter_congr (fun x hx => ?_)
  rw [decide_eq_decide]
  exact hposs x.1 (List.of_mem_zip hx).1

theorem overSet_eq_avgLogLik {O : Type} [DecidableEq O] (S : TSet O) (P : List O → ℝ) (h0 : ∀ w, 0 ≤ P w) (ht : ∀ t ∈ S.times, 1 ≤ t) :
    overSet S P (fun w => Real.log (P w)) = S.times.sum * avgLogLik P S := by
  by_cases h : S.times = []
  · simp [h, overSet]
  · rw [avgLogLik_overSet P h0]
    obtain ⟨t, hx⟩ := List.exists_mem_of_ne_nil _ h
    have htot : 0 < (S.times.sum : ℕ) := List.sum_pos_iff_exists_pos_nat.mpr ⟨_, hx, ht _ hx⟩
    have : ((S.times.sum : ℕ) : ℝ) ≠ 0 := by exact_mod_cast htot.ne'
    field_simp

theorem overSet_zero {O K : Type} [Field K] [DecidableEq K] (S : TSet O) (P g : List O → K)
    (h : ∀ w ∈ S.sequences, g w = 0) : overSet S P g = 0 := by
  unfold overSet
  rw [List.sum_eq_zero]
  intro a ha
  obtain ⟨x, hx, rfl⟩ := List.mem_map.mp ha
  rw [h x.1 (List.of_mem_zip (List.mem_filter.mp hx).1).1, mul_zero]

/-- If no path of positive weight leaves `s`, the expected number of visits is 0. -/
theorem expVisits_zero {O K : Type} [Field K] [LinearOrder K] [IsStrictOrderedRing K] {n : ℕ} (init : Fin n → K)
    (tau : Fin n → Fin n → O → K) (f : Fin n → K) (φ : O → K) (w : List O) (s : Fin n)
    (hi : ∀ s, 0 ≤ init s) (ht : ∀ s ss o, 0 ≤ tau s ss o) (hf : ∀ s, 0 ≤ f s)
    (h : ∀ p : Fin (w.length + 1) → Fin n, 0 < pathWeight init tau f w p → ∀ k : Fin w.length, p k.castSucc ≠ s) :
    expVisits init tau f φ w s = 0 := by
  unfold expVisits
  rw [Finset.sum_eq_zero, zero_div]
  intro p _
  by_cases hp : 0 < pathWeight init tau f w p
  · rw [Finset.sum_eq_zero, mul_zero]
    intro k _
    rw [if_neg (h p hp k)]
  · have h0 : 0 ≤ pathWeight init tau f w p :=
      mul_nonneg (mul_nonneg (hi _) (Finset.prod_nonneg (fun _ _ => ht _ _ _))) (hf _)
    rw [le_antisymm (not_lt.mp hp) h0, zero_mul]

theorem mem_iff_of_mult {O : Type} [DecidableEq O] (S1 S2 : TSet O) (hl1 : S1.times.length = S1.sequences.length)
    (hl2 : S2.times.length = S2.sequences.length) (ht1 : ∀ t ∈ S1.times, 1 ≤ t) (ht2 : ∀ t ∈ S2.times, 1 ≤ t)
    (hmult : ∀ w, S1.mult w = S2.mult w) (w : List O) : w ∈ S1.sequences ↔ w ∈ S2.sequences := by
  rw [mult_pos_iff S1 hl1 ht1, mult_pos_iff S2 hl2 ht2, hmult]

/-- Two sets with the same members: the workers succeed on both or fail on both with the same error. -/
theorem collect_mult {O K R1 R2 : Type} [Zero K] [DecidableEq K] (e : Err) (processes : ℕ) (S1 S2 : TSet O)
    (hl1 : S1.times.length = S1.sequences.length) (hl2 : S2.times.length = S2.sequences.length)
    (hmem : ∀ w, w ∈ S1.sequences ↔ w ∈ S2.sequences) (P : List O → K)
    (res1 : List O × ℕ → Option R1) (g1 : List O × ℕ → R1) (res2 : List O × ℕ → Option R2) (g2 : List O × ℕ → R2)
    (h1 : ∀ x ∈ S1.sequences.zip S1.times, res1 x = if P x.1 = 0 then none else some (g1 x))
    (h2 : ∀ x ∈ S2.sequences.zip S2.times, res2 x = if P x.1 = 0 then none else some (g2 x)) :
    (∃ r1 r2, collect e processes ((S1.sequences.zip S1.times).map res1) = .ok r1 ∧
      collect e processes ((S2.sequences.zip S2.times).map res2) = .ok r2) ∨
    (∃ err, collect e processes ((S1.sequences.zip S1.times).map res1) = .error err ∧
      collect e processes ((S2.sequences.zip S2.times).map res2) = .error err) := by
  obtain ⟨a1, a2, a3⟩ := collect_outcome e processes S1 hl1 P res1 g1 h1
  obtain ⟨b1, b2, b3⟩ := collect_outcome e processes S2 hl2 P res2 g2 h2
  by_cases hp : 1 < processes
  · by_cases hex : ∃ w ∈ S1.sequences, P w ≠ 0
    · obtain ⟨r1, k1⟩ := a1 (Or.inl ⟨hp, hex⟩)
      obtain ⟨w, hw, hl⟩ := hex
      obtain ⟨r2, k2⟩ := b1 (Or.inl ⟨hp, w, (hmem w).mp hw, hl⟩)
      exact Or.inl ⟨r1, r2, k1, k2⟩
    · push Not at hex
      exact Or.inr ⟨e, a2 ⟨hp, hex⟩, b2 ⟨hp, fun w hw => hex w ((hmem w).mpr hw)⟩⟩
  · have hp' : processes ≤ 1 := by omega
    by_cases hex : ∃ w ∈ S1.sequences, P w = 0
    · refine Or.inr ⟨.typeError, a3 ⟨hp', hex⟩, ?_⟩
      obtain ⟨w, hw, hl⟩ := hex
      exact b3 ⟨hp', w, (hmem w).mp hw, hl⟩
    · push Not at hex
      by_cases h0 : S1.sequences = []
      · have h0' : S2.sequences = [] := by
          rw [List.eq_nil_iff_forall_not_mem]
          intro w hw
          have := (hmem w).mpr hw
          rw [h0] at this
          simp at this
        right
        refine ⟨e, ?_, ?_⟩ <;>
        · simp only [h0, h0', List.zip_nil_left, List.map_nil]
          unfold collect
          rw [if_neg hp]; rfl
      · have h0' : S2.sequences ≠ [] := by
          obtain ⟨w, hw⟩ := List.exists_mem_of_ne_nil _ h0
          exact List.ne_nil_of_mem ((hmem w).mp hw)
        obtain ⟨r1, k1⟩ := a1 (Or.inr ⟨hp', h0, hex⟩)
        obtain ⟨r2, k2⟩ := b1 (Or.inr ⟨hp', h0', fun w hw => hex w ((hmem w).mpr hw)⟩)
        exact Or.inl ⟨r1, r2, k1, k2⟩

end Jajapy
