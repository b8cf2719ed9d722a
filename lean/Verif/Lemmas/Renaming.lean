import Verif.Spec.Renaming
import Verif.Lemmas.BWMDP
import Verif.Lemmas.BWHMM

/-!
The tables of the forward and backward recursions for a model with other numbers, names and units.
-/

set_option linter.unusedSectionVars false

namespace Jajapy

open Spec

namespace Spec

theorem SameOutcome.bind {A B A' B' : Type} {R : A → A' → Prop} {Q : B → B' → Prop} {x : Py A} {x' : Py A'} {g : A → Py B} {g' : A' → Py B'}
    (h : SameOutcome R x x') (hg : ∀ a a', R a a' → SameOutcome Q (g a) (g' a')) : SameOutcome Q (x >>= g) (x' >>= g') := by
  cases x <;> cases x'
  · exact h
  · exact absurd h (by simp [SameOutcome])
  · exact absurd h (by simp [SameOutcome])
  · exact hg _ _ h

theorem SameOutcome.mono {A A' : Type} {R Q : A → A' → Prop} {x : Py A} {x' : Py A'}
    (h : SameOutcome R x x') (hg : ∀ a a', R a a' → Q a a') : SameOutcome Q x x' := by
  cases x <;> cases x'
  · exact h
  · exact h
  · exact h
  · exact hg _ _ h

theorem SameOutcome.eq {A : Type} {x x' : Py A} (h : SameOutcome (fun a b => b = a) x x') : x' = x := by
  cases x <;> cases x'
  · exact congrArg _ (Eq.symm h)
  · exact absurd h (by simp [SameOutcome])
  · exact absurd h (by simp [SameOutcome])
  · exact congrArg _ h

theorem mapM_same {A B A' B' : Type} {R : A → A' → Prop} {Q : B → B' → Prop} {l : List A} {l' : List A'} {g : A → Py B} {g' : A' → Py B'}
    (h : List.Forall₂ R l l') (hg : ∀ a a', R a a' → SameOutcome Q (g a) (g' a')) : SameOutcome (List.Forall₂ Q) (l.mapM g) (l'.mapM g') := by
  induction h with
  | nil => exact List.Forall₂.nil
  | cons hab _ ih =>
    rw [List.mapM_cons, List.mapM_cons]
    refine (hg _ _ hab).bind (fun b b' hb => ih.bind (fun r r' hr => ?_))
    exact List.Forall₂.cons hb hr

theorem filterMap_same {R R' : Type} {Q : R → R' → Prop} {l : List (Option R)} {l' : List (Option R')}
    (h : List.Forall₂ (Option.Rel Q) l l') : List.Forall₂ Q (l.filterMap id) (l'.filterMap id) := by
  induction h with
  | nil => exact List.Forall₂.nil
  | cons hab _ ih =>
    cases hab with
    | none => simpa using ih
    | some hq => simpa using ⟨hq, ih⟩

theorem any_same {R R' : Type} {Q : R → R' → Prop} {l : List (Option R)} {l' : List (Option R')}
    (h : List.Forall₂ (Option.Rel Q) l l') : l'.any Option.isNone = l.any Option.isNone := by
  induction h with
  | nil => rfl
  | cons hab _ ih =>
    cases hab with
    | none => simp
    | some hq => simpa using ih

end Spec

namespace BW

theorem collect_same {R R' : Type} {Q : R → R' → Prop} (e : Err) (processes : ℕ) {l : List (Option R)} {l' : List (Option R')}
    (h : List.Forall₂ (Option.Rel Q) l l') : SameOutcome (List.Forall₂ Q) (collect e processes l) (collect e processes l') := by
  have h1 := filterMap_same h
  unfold collect
  rw [any_same h]
  split_ifs
  · cases ha : l.filterMap id <;> cases hb : l'.filterMap id <;> rw [ha, hb] at h1
    · rfl
    · cases h1
    · cases h1
    · exact h1
  · rfl
  · cases ha : l.filterMap id <;> cases hb : l'.filterMap id <;> rw [ha, hb] at h1
    · rfl
    · cases h1
    · cases h1
    · exact h1

/-- The results of the loop: the same number of iterations, related values and related models. -/
structure LoopSame {H H' : Type} (R : H → H' → Prop) (c : ℝ) (st : LoopState H) (st' : LoopState H') : Prop where
  h : R st.h st'.h
  counter : st'.counter = st.counter
  ll : st'.ll = st.ll.map (· + c)

theorem loop_same {H H' : Type} {R : H → H' → Prop} {c : ℝ} {step : H → Py (H × ℝ)} {step' : H' → Py (H' × ℝ)}
    (hstep : ∀ h h', R h h' → SameOutcome (fun a b => R a.1 b.1 ∧ b.2 = a.2 + c) (step h) (step' h')) (epsilon : ℝ) (fuel : ℕ) :
    ∀ st st', LoopSame R c st st' → SameOutcome (LoopSame R c) (loop step epsilon fuel st) (loop step' epsilon fuel st') := by
  induction fuel with
  | zero => intro st st' h; exact h
  | succ k ih =>
    intro st st' h
    unfold loop
    refine (hstep _ _ h.h).bind ?_
    rintro ⟨g, x⟩ ⟨g', x'⟩ ⟨h1, h2⟩
    simp only at h1 h2
    subst h2
    dsimp only
    have hl := h.ll
    have hn : LoopSame R c { h := g, counter := st.counter + 1, ll := some x } { h := g', counter := st'.counter + 1, ll := some (x + c) } :=
      ⟨h1, by simp [h.counter], rfl⟩
    cases hs : st.ll with
    | none =>
      rw [hs] at hl
      rw [hl]
      exact ih _ _ hn
    | some prev =>
      rw [hs] at hl
      rw [hl]
      simp only [Option.map_some, add_sub_add_right_eq_sub]
      split_ifs
      · exact hn
      · exact ih _ _ hn

theorem fit_same {H H' : Type} {R : H → H' → Prop} {c : ℝ} {step : H → Py (H × ℝ)} {step' : H' → Py (H' × ℝ)}
    (hstep : ∀ h h', R h h' → SameOutcome (fun a b => R a.1 b.1 ∧ b.2 = a.2 + c) (step h) (step' h')) (epsilon : ℝ) (maxIt : ℕ)
    {h : H} {h' : H'} (hh : R h h') : SameOutcome (LoopSame R c) (fit step epsilon maxIt h) (fit step' epsilon maxIt h') :=
  loop_same hstep epsilon maxIt _ _ ⟨hh, rfl, rfl⟩

section tables
variable {K O O' : Type} {n : ℕ} [Field K] {σ : Equiv.Perm (Fin n)} {f : O → O'} {c : K} {tau : Fin n → Fin n → O → K}
  {tau' : Fin n → Fin n → O' → K} (ht : ∀ s ss o, tau' s ss (f o) = c * tau (σ s) (σ ss) o)

include ht in
theorem fwd_ren (a : K) (v v' : Fin n → K) (hv : ∀ s, v' s = a * v (σ s)) (o : O) (s : Fin n) :
    fwd tau' v' (f o) s = a * c * fwd tau v o (σ s) := by
  unfold fwd
  rw [Finset.mul_sum]
  exact ((Equiv.sum_comp σ _).symm.trans (Finset.sum_congr rfl (fun ss _ => by rw [hv, ht]; ring))).symm

include ht in
theorem bwd_ren (a : K) (v v' : Fin n → K) (hv : ∀ s, v' s = a * v (σ s)) (o : O) (s : Fin n) :
    bwd tau' v' (f o) s = a * c * bwd tau v o (σ s) := by
  unfold bwd
  rw [Finset.mul_sum]
  exact ((Equiv.sum_comp σ _).symm.trans (Finset.sum_congr rfl (fun ss _ => by rw [hv, ht]; ring))).symm

include ht in
theorem foldl_ren (os : List O) : ∀ (a : K) (v v' : Fin n → K), (∀ s, v' s = a * v (σ s)) → ∀ s,
    (os.map f).foldl (fwd tau') v' s = a * c ^ os.length * os.foldl (fwd tau) v (σ s) := by
  induction os with
  | nil => intro a v v' hv s; simpa using hv s
  | cons o os ih =>
    intro a v v' hv s
    rw [List.map_cons, List.foldl_cons, List.foldl_cons, ih (a * c) _ _ (fwd_ren ht a v v' hv o), List.length_cons, pow_succ]
    ring

include ht in
theorem beta0_ren (os : List O) (g g' : Fin n → K) (hg : ∀ s, g' s = g (σ s)) (s : Fin n) :
    beta0 tau' g' (os.map f) s = c ^ os.length * beta0 tau g os (σ s) := by
  induction os generalizing s with
  | nil => simpa using hg s
  | cons o os ih =>
    rw [List.map_cons, beta0_cons, beta0_cons, bwd_ren ht _ _ _ ih, List.length_cons, pow_succ]

theorem visits_cons (φ : O → K) (C : K) (v g : Fin n → K) (o : O) (os : List O) (s : Fin n) :
    visits φ C (alphas tau v (o :: os)) (betas tau g (o :: os)) (o :: os) s
      = v s * beta0 tau g (o :: os) s * φ o * C + visits φ C (alphas tau (fwd tau v o) os) (betas tau g os) os s := by
  unfold visits
  rw [alphas, betas, List.dropLast_cons_of_ne_nil (alphas_ne_nil _ _ _), List.dropLast_cons_of_ne_nil (betas_ne_nil _ _ _), beta0_cons]
  simp [beta0]

theorem uses_cons (φ : O → K) (C : K) (v g : Fin n → K) (o : O) (os : List O) (s ss : Fin n) :
    uses tau φ C (alphas tau v (o :: os)) (betas tau g (o :: os)) (o :: os) s ss
      = v s * tau s ss o * beta0 tau g os ss * φ o * C + uses tau φ C (alphas tau (fwd tau v o) os) (betas tau g os) os s ss := by
  have hb : ∀ os : List O, betas tau g os = beta0 tau g os :: (betas tau g os).tail := by intro os; cases os <;> rfl
  unfold uses
  rw [alphas, betas, List.dropLast_cons_of_ne_nil (alphas_ne_nil _ _ _), List.tail_cons]
  conv_lhs => rw [hb os]
  simp

theorem visits_nil (φ : O → K) (C : K) (v g : Fin n → K) (s : Fin n) : visits φ C (alphas tau v []) (betas tau g []) [] s = 0 := by
  simp [visits, alphas, betas]

theorem uses_nil (φ : O → K) (C : K) (v g : Fin n → K) (s ss : Fin n) : uses tau φ C (alphas tau v []) (betas tau g []) [] s ss = 0 := by
  simp [uses, alphas, betas]

include ht in
theorem visits_ren (φ : O → K) (φ' : O' → K) (k l : K) (hφ : ∀ o, φ' (f o) = k * φ o + l) (C C' : K) (g g' : Fin n → K)
    (hg : ∀ s, g' s = g (σ s)) (os : List O) (s : Fin n) : ∀ (a : K) (v v' : Fin n → K), (∀ s, v' s = a * v (σ s)) →
    C = a * c ^ os.length * C' →
    visits φ' C' (alphas tau' v' (os.map f)) (betas tau' g' (os.map f)) (os.map f) s
      = k * visits φ C (alphas tau v os) (betas tau g os) os (σ s) + l * visits (fun _ => 1) C (alphas tau v os) (betas tau g os) os (σ s) := by
  induction os with
  | nil => intro a v v' hv _; simp only [List.map_nil, visits_nil]; ring
  | cons o os ih =>
    intro a v v' hv hC
    rw [List.map_cons, visits_cons, visits_cons, visits_cons, ih (a * c) _ _ (fwd_ren ht a v v' hv o) (by rw [hC, List.length_cons, pow_succ]; ring),
      hv, ← List.map_cons (f := f), beta0_ren ht (o :: os) g g' hg, hφ, hC]
    ring

include ht in
theorem uses_ren (φ : O → K) (φ' : O' → K) (hφ : ∀ o, φ' (f o) = φ o) (C C' : K) (g g' : Fin n → K)
    (hg : ∀ s, g' s = g (σ s)) (os : List O) (s ss : Fin n) : ∀ (a : K) (v v' : Fin n → K), (∀ s, v' s = a * v (σ s)) →
    C = a * c ^ os.length * C' →
    uses tau' φ' C' (alphas tau' v' (os.map f)) (betas tau' g' (os.map f)) (os.map f) s ss
      = uses tau φ C (alphas tau v os) (betas tau g os) os (σ s) (σ ss) := by
  induction os with
  | nil => intro a v v' hv _; simp only [List.map_nil, uses_nil]
  | cons o os ih =>
    intro a v v' hv hC
    rw [List.map_cons, uses_cons, uses_cons, ih (a * c) _ _ (fwd_ren ht a v v' hv o) (by rw [hC, List.length_cons, pow_succ]; ring),
      hv, ht, beta0_ren ht os g g' hg, hφ, hC, List.length_cons, pow_succ]
    ring

include ht in
theorem lastSum_ren (os : List O) (v v' : Fin n → K) (hv : ∀ s, v' s = v (σ s)) :
    lastSum (alphas tau' v' (os.map f)) = c ^ os.length * lastSum (alphas tau v os) := by
  rw [lastSum_eq, lastSum_eq, Finset.mul_sum]
  refine ((Equiv.sum_comp σ _).symm.trans (Finset.sum_congr rfl (fun s _ => ?_))).symm
  rw [hv, beta0_ren ht os (fun _ => 1) (fun _ => 1) (fun _ => rfl)]
  ring

include ht in
theorem lastSum_mask_ren (os : List O) (v v' : Fin n → K) (hv : ∀ s, v' s = v (σ s)) (g g' : Fin n → K) (hg : ∀ s, g' s = g (σ s)) :
    lastSum (maskLast g' (alphas tau' v' (os.map f))) = c ^ os.length * lastSum (maskLast g (alphas tau v os)) := by
  rw [lastSum_maskLast, lastSum_maskLast, totalWeight_eq, totalWeight_eq, Finset.mul_sum]
  refine ((Equiv.sum_comp σ _).symm.trans (Finset.sum_congr rfl (fun s _ => ?_))).symm
  rw [hv, beta0_ren ht os g g' hg]
  ring

theorem visits_mask (φ : O → K) (C : K) (g : Fin n → K) (al be : List (Fin n → K)) (os : List O) (s : Fin n) :
    visits φ C (maskLast g al) be os s = visits φ C al be os s := by
  unfold visits
  rw [maskLast_dropLast]

theorem uses_mask (φ : O → K) (C : K) (g : Fin n → K) (al be : List (Fin n → K)) (os : List O) (s ss : Fin n) :
    uses tau φ C (maskLast g al) be os s ss = uses tau φ C al be os s ss := by
  unfold uses
  rw [maskLast_dropLast]

end tables
end BW
end Jajapy
