import Mathlib.LinearAlgebra.FiniteDimensional.Basic
import Mathlib.LinearAlgebra.FiniteDimensional.Lemmas
import Mathlib.LinearAlgebra.Dimension.Constructions
import Verif.Lemmas.Renaming

/-!
A vector moved by the words over a set of linear maps: the words that are shorter than the dimension give everything.
-/

set_option linter.unusedSectionVars false
set_option autoImplicit false

namespace Jajapy

section span
variable {K V O : Type} [Field K] [AddCommGroup V] [Module K V] (F : O → V →ₗ[K] V) (u : V)

/-- The span of the vectors reached with at most `k` maps. -/
def reach : ℕ → Submodule K V
  | 0 => Submodule.span K {u}
  | k + 1 => Submodule.span K {u} ⊔ ⨆ o, (reach k).map (F o)

theorem reach_mono (k : ℕ) : reach F u k ≤ reach F u (k + 1) := by
  induction k with
  | zero => exact le_sup_left
  | succ k ih =>
    show Submodule.span K {u} ⊔ ⨆ o, (reach F u k).map (F o) ≤ Submodule.span K {u} ⊔ ⨆ o, (reach F u (k + 1)).map (F o)
    exact sup_le_sup_left (iSup_mono (fun o => Submodule.map_mono ih)) _

theorem reach_stable (k : ℕ) (h : reach F u (k + 1) ≤ reach F u k) (j : ℕ) : reach F u j ≤ reach F u k := by
  induction j with
  | zero =>
    clear h
    induction k with
    | zero => exact le_rfl
    | succ k ih => exact ih.trans (reach_mono F u k)
  | succ j ih =>
    refine le_trans ?_ h
    show Submodule.span K {u} ⊔ ⨆ o, (reach F u j).map (F o) ≤ Submodule.span K {u} ⊔ ⨆ o, (reach F u k).map (F o)
    exact sup_le_sup_left (iSup_mono (fun o => Submodule.map_mono ih)) _

theorem reach_grows [FiniteDimensional K V] (hu : u ≠ 0) (k : ℕ) : (∀ j, reach F u j ≤ reach F u k) ∨ k < Module.finrank K (reach F u k) := by
  induction k with
  | zero =>
    right
    show 0 < Module.finrank K (Submodule.span K {u})
    rw [finrank_span_singleton hu]
    exact Nat.one_pos
  | succ k ih =>
    rcases ih with ih | ih
    · exact Or.inl (fun j => (ih j).trans (reach_mono F u k))
    · by_cases h : reach F u (k + 1) ≤ reach F u k
      · exact Or.inl (fun j => (reach_stable F u k h j).trans (reach_mono F u k))
      · right
        have : reach F u k < reach F u (k + 1) := lt_of_le_not_ge (reach_mono F u k) h
        have := Submodule.finrank_lt_finrank_of_lt this
        omega

/-- Words with fewer letters than the dimension are enough. -/
theorem reach_all [FiniteDimensional K V] (d : ℕ) (hd : Module.finrank K V ≤ d + 1) (j : ℕ) : reach F u j ≤ reach F u d := by
  by_cases hu : u = 0
  · have : ∀ k, reach F u k = ⊥ := by
      intro k
      subst hu
      induction k with
      | zero => exact Submodule.span_zero_singleton K
      | succ k ih =>
        rw [reach, ih]
        simp
    rw [this]
    exact bot_le
  · rcases reach_grows F u hu d with h | h
    · exact h j
    · have h1 : Module.finrank K (reach F u d) = Module.finrank K V := by
        have := Submodule.finrank_le (reach F u d)
        omega
      rw [Submodule.eq_top_of_finrank_eq h1]
      exact le_top

theorem mem_reach (w : List O) : ∀ k, w.length ≤ k → w.foldl (fun v o => F o v) u ∈ reach F u k := by
  induction w using List.reverseRecOn with
  | nil =>
    intro k _
    have h0 : u ∈ reach F u 0 := Submodule.mem_span_singleton_self u
    induction k with
    | zero => exact h0
    | succ k ih => exact reach_mono F u k (ih (by simp))
  | append_singleton w o ih =>
    intro k hk
    rw [List.length_append, List.length_singleton] at hk
    obtain ⟨k, rfl⟩ : ∃ k', k = k' + 1 := ⟨k - 1, by omega⟩
    rw [List.foldl_append]
    refine Submodule.mem_sup_right (Submodule.mem_iSup_of_mem o ?_)
    exact Submodule.mem_map_of_mem (ih k (by omega))

theorem reach_le (p : Submodule K V) (k : ℕ) (h : ∀ w : List O, w.length ≤ k → w.foldl (fun v o => F o v) u ∈ p) : reach F u k ≤ p := by
  have key : ∀ k, reach F u k ≤ Submodule.span K {x | ∃ w : List O, w.length ≤ k ∧ x = w.foldl (fun v o => F o v) u} := by
    intro k
    induction k with
    | zero =>
      show Submodule.span K {u} ≤ _
      rw [Submodule.span_singleton_le_iff_mem]
      exact Submodule.subset_span ⟨[], by simp, rfl⟩
    | succ k ih =>
      refine sup_le ?_ (iSup_le (fun o => ?_))
      · rw [Submodule.span_singleton_le_iff_mem]
        exact Submodule.subset_span ⟨[], by simp, rfl⟩
      · refine (Submodule.map_mono ih).trans ?_
        rw [Submodule.map_span, Submodule.span_le]
        rintro x ⟨y, ⟨w, hw, rfl⟩, rfl⟩
        exact Submodule.subset_span ⟨w ++ [o], by simpa using hw, by rw [List.foldl_append]; rfl⟩
  refine (key k).trans (Submodule.span_le.2 ?_)
  rintro x ⟨w, hw, rfl⟩
  exact h w hw

end span

namespace BW

section two
variable {K O : Type} [Field K] {m n : ℕ} (tau : Fin m → Fin m → O → K) (tau' : Fin n → Fin n → O → K)

/-- The forward step of both models together. -/
def fwdBoth (o : O) : (Fin m → K) × (Fin n → K) →ₗ[K] (Fin m → K) × (Fin n → K) where
  toFun x := (fwd tau x.1 o, fwd tau' x.2 o)
  map_add' x y := by
    ext s <;> simp [fwd, add_mul, Finset.sum_add_distrib]
  map_smul' c x := by
    ext s <;> simp [fwd, Finset.mul_sum, mul_assoc]

theorem foldl_both (w : List O) (x : (Fin m → K) × (Fin n → K)) :
    w.foldl (fun v o => fwdBoth tau tau' o v) x = (w.foldl (fwd tau) x.1, w.foldl (fwd tau') x.2) := by
  induction w generalizing x with
  | nil => rfl
  | cons o w ih =>
    rw [List.foldl_cons, ih]
    rfl

/-- The difference of two weighted sums. -/
def diffBoth (g : Fin m → K) (g' : Fin n → K) : (Fin m → K) × (Fin n → K) →ₗ[K] K where
  toFun x := ∑ s, x.1 s * g s - ∑ s, x.2 s * g' s
  map_add' x y := by
    simp only [Prod.fst_add, Prod.snd_add, Pi.add_apply, add_mul, Finset.sum_add_distrib]
    ring
  map_smul' c x := by
    simp only [Prod.smul_fst, Prod.smul_snd, Pi.smul_apply, smul_eq_mul, RingHom.id_apply, mul_sub, Finset.mul_sum, mul_assoc]

/-- Two forward recursions that agree on the words with fewer than `m + n` letters agree on all words. -/
theorem agree_of_short (v : Fin m → K) (v' : Fin n → K) (g : Fin m → K) (g' : Fin n → K)
    (h : ∀ w : List O, w.length < m + n → ∑ s, w.foldl (fwd tau) v s * g s = ∑ s, w.foldl (fwd tau') v' s * g' s) (w : List O) :
    ∑ s, w.foldl (fwd tau) v s * g s = ∑ s, w.foldl (fwd tau') v' s * g' s := by
  rcases Nat.eq_zero_or_pos (m + n) with h0 | h0
  · obtain ⟨rfl, rfl⟩ : m = 0 ∧ n = 0 := by omega
    simp
  have hfin : Module.finrank K ((Fin m → K) × (Fin n → K)) ≤ (m + n - 1) + 1 := by
    rw [Module.finrank_prod, Module.finrank_fin_fun, Module.finrank_fin_fun]
    omega
  have h1 : reach (fwdBoth tau tau') (v, v') (m + n - 1) ≤ LinearMap.ker (diffBoth g g') := by
    refine reach_le _ _ _ _ (fun w hw => ?_)
    rw [LinearMap.mem_ker, foldl_both]
    exact sub_eq_zero.2 (h w (by omega))
  have h2 := h1 (reach_all (fwdBoth tau tau') (v, v') (m + n - 1) hfin w.length (mem_reach (fwdBoth tau tau') (v, v') w _ le_rfl))
  rw [LinearMap.mem_ker, foldl_both] at h2
  exact sub_eq_zero.1 h2

end two
end BW
end Jajapy
