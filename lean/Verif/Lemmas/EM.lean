import Verif.Lemmas.Counts

/-!
The inequality behind Baum-Welch for a whole training set, and the lemmas that relate `_runProcesses` to it.
-/

set_option linter.unusedSectionVars false

namespace Jajapy.BW

open Finset Spec

theorem sum_map_comm {X ι R : Type} [AddCommMonoid R] (I : Finset ι) (L : List X) (g : ι → X → R) :
    ∑ i ∈ I, (L.map (g i)).sum = (L.map (fun x => ∑ i ∈ I, g i x)).sum := by
  induction L with
  | nil => simp
  | cons x L ih => simp [Finset.sum_add_distrib, ih]

theorem sum_map_mul {X : Type} {R : Type} [Semiring R] (L : List X) (g : X → R) (c : R) :
    (L.map (fun x => c * g x)).sum = c * (L.map g).sum := by
  induction L with
  | nil => simp
  | cons x L ih => simp [mul_add, ih]

theorem sum_map_pos {X : Type} (L : List X) (g : X → ℝ) (h0 : ∀ x ∈ L, 0 ≤ g x) (x : X) (hx : x ∈ L) (hpos : 0 < g x) :
    0 < (L.map g).sum := by
  induction L with
  | nil => simp at hx
  | cons y L ih =>
    have hn : 0 ≤ (L.map g).sum := List.sum_nonneg (by
      intro a ha
      obtain ⟨z, hz, rfl⟩ := List.mem_map.mp ha
      exact h0 z (List.mem_cons_of_mem _ hz))
    rw [List.map_cons, List.sum_cons]
    rcases List.mem_cons.mp hx with rfl | hx
    · linarith
    · have := ih (fun z hz => h0 z (List.mem_cons_of_mem _ hz)) hx
      have := h0 y List.mem_cons_self
      linarith

theorem sum_map_nonneg {X : Type} {K : Type} [Field K] [LinearOrder K] [IsStrictOrderedRing K] (L : List X) (g : X → K)
    (h0 : ∀ x ∈ L, 0 ≤ g x) : 0 ≤ (L.map g).sum :=
  List.sum_nonneg (by
    intro a ha
    obtain ⟨z, hz, rfl⟩ := List.mem_map.mp ha
    exact h0 z hz)

section
variable {O X : Type} {n : ℕ}

/-- The gain of log-likelihood of a training set is at least the gain of the expected complete log-likelihood. -/
theorem em_total (L : List X) (os : X → List O) (f : X → Fin n → ℝ) (t p p' : X → ℝ)
    (τ τ' : Fin n → Fin n → O → ℝ) (v v' : Fin n → ℝ)
    (hτ : ∀ s ss o, 0 ≤ τ s ss o) (hτ' : ∀ s ss o, 0 ≤ τ' s ss o) (hf : ∀ x ∈ L, ∀ s, 0 ≤ f x s)
    (hv : ∀ s, 0 ≤ v s) (hv' : ∀ s, 0 ≤ v' s)
    (hp : ∀ x ∈ L, p x = ∑ s, v s * beta0 τ (f x) (os x) s)
    (hp' : ∀ x ∈ L, p' x = ∑ s, v' s * beta0 τ' (f x) (os x) s)
    (hpos : ∀ x ∈ L, 0 < p x) (ht : ∀ x ∈ L, 0 < t x)
    (hsupp : ∀ s ss, ∀ x ∈ L, ∀ o ∈ os x, 0 < τ s ss o →
      (∀ φ : O → ℝ, (∀ y ∈ L, ∀ o' ∈ os y, 0 ≤ φ o') → 0 < φ o →
        0 < (L.map (fun y => use τ v (f y) φ (t y / p y) (os y) s ss)).sum) → 0 < τ' s ss o)
    (hvv : ∀ s, 0 < (L.map (fun y => v s * beta0 τ (f y) (os y) s * t y / p y)).sum → 0 < v' s) :
    (∀ x ∈ L, 0 < p' x) ∧
    ∑ s, (L.map (fun y => v s * beta0 τ (f y) (os y) s * t y / p y)).sum * Real.log (v' s / v s)
      + ∑ s, ∑ ss, (L.map (fun y => use τ v (f y) (fun o => Real.log (τ' s ss o / τ s ss o)) (t y / p y) (os y) s ss)).sum
      ≤ (L.map (fun y => Real.log (p' y) * t y)).sum - (L.map (fun y => Real.log (p y) * t y)).sum := by
  have hone : ∀ x ∈ L, 0 < p' x ∧
      ∑ s, v s * beta0 τ (f x) (os x) s * t x / p x * Real.log (v' s / v s)
        + ∑ s, ∑ ss, use τ v (f x) (fun o => Real.log (τ' s ss o / τ s ss o)) (t x / p x) (os x) s ss
        ≤ Real.log (p' x) * t x - Real.log (p x) * t x := by
    intro x hx
    refine em_gain τ τ' (f x) hτ hτ' (hf x hx) (os x) v v' hv hv' ?_ ?_ (p x) (p' x) (hp x hx) (hp' x hx) (hpos x hx)
      (t x) (ht x hx).le
    · refine supp_of τ τ' (f x) hτ (hf x hx) (os x) v hv (fun s ss o ho hto hu => hsupp s ss x hx o ho hto (fun φ hφ hφo => ?_))
      refine sum_map_pos L _ (fun y hy => use_nonneg _ _ _ hτ hv (hf y hy) _ _ (div_nonneg (ht y hy).le (hpos y hy).le) _
        (hφ y hy) _ _) x hx ?_
      rw [use_c]
      exact mul_pos (div_pos (ht x hx) (hpos x hx)) (hu φ (hφ x hx) hφo)
    · intro s hs
      refine hvv s (sum_map_pos L _ (fun y hy => div_nonneg (mul_nonneg (mul_nonneg (hv s)
        (beta0_nonneg _ _ hτ (hf y hy) _ _)) (ht y hy).le) (hpos y hy).le) x hx ?_)
      exact div_pos (mul_pos hs (ht x hx)) (hpos x hx)
  refine ⟨fun x hx => (hone x hx).1, ?_⟩
  have hsum : ∀ (L' : List X), (∀ x ∈ L', x ∈ L) →
      ∑ s, (L'.map (fun y => v s * beta0 τ (f y) (os y) s * t y / p y)).sum * Real.log (v' s / v s)
      + ∑ s, ∑ ss, (L'.map (fun y => use τ v (f y) (fun o => Real.log (τ' s ss o / τ s ss o)) (t y / p y) (os y) s ss)).sum
      ≤ (L'.map (fun y => Real.log (p' y) * t y)).sum - (L'.map (fun y => Real.log (p y) * t y)).sum := by
    intro L' hL'
    induction L' with
    | nil => simp
    | cons x L' ih =>
      have h1 := ih (fun y hy => hL' y (List.mem_cons_of_mem _ hy))
      have h2 := (hone x (hL' x List.mem_cons_self)).2
      simp only [List.map_cons, List.sum_cons, add_mul, Finset.sum_add_distrib]
      linarith
  exact hsum L (fun x hx => hx)

end

/-! ### Collecting the results of the workers -/

theorem collect_ok {R : Type} (e : Err) (processes : ℕ) (results : List (Option R)) (r : List R)
    (h : collect e processes results = .ok r) :
    r = results.filterMap id ∧ r ≠ [] ∧ (processes ≤ 1 → ∀ x ∈ results, x ≠ none) := by
  unfold collect at h
  split_ifs at h with h1 h2
  · cases hr : results.filterMap id with
    | nil => rw [hr] at h; simp at h
    | cons a l => rw [hr] at h; injection h with h; subst h; simp; omega
  · cases hr : results.filterMap id with
    | nil => rw [hr] at h; simp at h
    | cons a l =>
      rw [hr] at h; injection h with h; subst h
      refine ⟨rfl, by simp, fun _ x hx hn => h2 ?_⟩
      rw [List.any_eq_true]
      exact ⟨x, hx, by simp [hn]⟩

theorem collect_many {R : Type} (e : Err) (processes : ℕ) (hp : 1 < processes) (results : List (Option R))
    (h : results.filterMap id ≠ []) : collect e processes results = .ok (results.filterMap id) := by
  unfold collect
  rw [if_pos hp]
  cases hr : results.filterMap id with
  | nil => exact absurd hr h
  | cons a l => rfl

theorem collect_one {R : Type} (e : Err) (processes : ℕ) (hp : processes ≤ 1) (results : List (Option R))
    (hn : results ≠ []) (h : ∀ x ∈ results, x ≠ none) : collect e processes results = .ok (results.filterMap id) := by
  unfold collect
  rw [if_neg (by omega), if_neg]
  · cases hr : results.filterMap id with
    | nil =>
      cases results with
      | nil => exact absurd rfl hn
      | cons a l =>
        cases a with
        | none => exact absurd rfl (h none List.mem_cons_self)
        | some a => simp at hr
    | cons a l => rfl
  · simp only [List.any_eq_true, not_exists, not_and]
    intro x hx hnone
    exact h x hx (by simpa using hnone)

theorem filterMap_ite {X R : Type} (L : List X) (c : X → Prop) [DecidablePred c] (g : X → R) :
    (L.map (fun x => if c x then none else some (g x))).filterMap id = (L.filter (fun x => ¬ c x)).map g := by
  induction L with
  | nil => rfl
  | cons x L ih =>
    rw [List.map_cons, List.filterMap_cons, List.filter_cons, ih]
    by_cases h : c x <;> simp [h]

/-! ### Likelihood -/

/-- If nothing of probability 0 becomes possible, an impossible trace stays impossible. -/
theorem totalWeight_zero {K O : Type} [Field K] [LinearOrder K] [IsStrictOrderedRing K] {n : ℕ}
    (τ τ' : Fin n → Fin n → O → K) (v v' f : Fin n → K)
    (hτ : ∀ s ss o, 0 ≤ τ s ss o) (hv : ∀ s, 0 ≤ v s) (hf : ∀ s, 0 ≤ f s)
    (h1 : ∀ s ss o, τ s ss o = 0 → τ' s ss o = 0) (h2 : ∀ s, v s = 0 → v' s = 0) (w : List O)
    (h : totalWeight v τ f w = 0) : totalWeight v' τ' f w = 0 := by
  have hn : ∀ p ∈ (Finset.univ : Finset (Fin (w.length + 1) → Fin n)), 0 ≤ pathWeight v τ f w p := fun p _ =>
    mul_nonneg (mul_nonneg (hv _) (Finset.prod_nonneg (fun k _ => hτ _ _ _))) (hf _)
  have hz := (Finset.sum_eq_zero_iff_of_nonneg hn).mp h
  refine Finset.sum_eq_zero (fun p hp => ?_)
  have := hz p hp
  unfold pathWeight at this ⊢
  rcases mul_eq_zero.mp this with h' | h'
  · rcases mul_eq_zero.mp h' with h' | h'
    · rw [h2 _ h']; simp
    · obtain ⟨k, hk, h'⟩ := Finset.prod_eq_zero_iff.mp h'
      rw [Finset.prod_eq_zero hk (h1 _ _ _ h')]; simp
  · rw [h']; simp

theorem totalWeight_nonneg {K O : Type} [Field K] [LinearOrder K] [IsStrictOrderedRing K] {n : ℕ}
    (τ : Fin n → Fin n → O → K) (v f : Fin n → K)
    (hτ : ∀ s ss o, 0 ≤ τ s ss o) (hv : ∀ s, 0 ≤ v s) (hf : ∀ s, 0 ≤ f s) (w : List O) : 0 ≤ totalWeight v τ f w :=
  Finset.sum_nonneg (fun _ _ => mul_nonneg (mul_nonneg (hv _) (Finset.prod_nonneg (fun _ _ => hτ _ _ _))) (hf _))

theorem sum_beta0_foldl {K O : Type} [Field K] {n : ℕ} (tau : Fin n → Fin n → O → K) (f : Fin n → K) (os : List O)
    (v : Fin n → K) : ∑ s, v s * beta0 tau f os s = ∑ s, os.foldl (fwd tau) v s * f s := by
  induction os generalizing v with
  | nil => simp
  | cons o os ih =>
    rw [List.foldl_cons, ← ih]
    simp only [beta0_cons, fwd, bwd, Finset.sum_mul, Finset.mul_sum]
    rw [Finset.sum_comm]
    refine Finset.sum_congr rfl (fun s _ => Finset.sum_congr rfl (fun ss _ => ?_))
    ring

theorem lastSum_eq {K O : Type} [Field K] {n : ℕ} (tau : Fin n → Fin n → O → K) (os : List O) (v : Fin n → K) :
    lastSum (alphas tau v os) = ∑ s, v s * beta0 tau (fun _ => 1) os s := by
  rw [← last_sum]
  simp [lastSum]

/-- With rows of sum 1, the last forward row sums to the probability of the trace. -/
theorem lastSum_eq_listProb {K O : Type} [Field K] {n : ℕ} (tau : Fin n → Fin n → O → K) (a : Fin n → Fin n → K)
    (b : Fin n → O → K) (h : ∀ s s' o, tau s s' o = a s s' * b s o) (ha : ∀ s, ∑ s', a s s' = 1) (os : List O)
    (hos : os ≠ []) (v : Fin n → K) : lastSum (alphas tau v os) = listProb v a b os := by
  cases os with
  | nil => exact absurd rfl hos
  | cons o os =>
    rw [lastSum_eq, sum_beta0_foldl]
    simp only [mul_one]
    let M : Iface K O n := { tau := tau, b := b, init := v }
    have h1 := Iface.foldl_sum_eq_seqLoop M a h ha o os v
    rw [Iface.seqLoop_sum M a h] at h1
    exact h1

end Jajapy.BW
