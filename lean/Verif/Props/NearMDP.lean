import Verif.Props.Near
import Verif.Props.FoldingMDP

/-!
Property C110, Markov decision processes.
-/

set_option linter.unusedSectionVars false
set_option autoImplicit false

namespace Jajapy

open Spec BW

namespace MDP
variable {L : Type} [DecidableEq L] {n : ℕ} {c : ℝ} {M M' : MDP ℝ L n}

theorem Near.nodup (h : Near c M M') (hn : M.actions.Nodup) : M'.actions.Nodup := h.actions.nodup_iff.2 hn

theorem Near.step (h : Near c M M') (s t : Fin n) (p : L × L) : Spec.Near c (M.step s t p) (M'.step s t p) := by
  unfold MDP.step
  rw [h.labelling]
  split_ifs
  · simpa using h.prob s p.2 t
  · simpa using Spec.Near.zero

theorem Near.tau (h : Near c M M') (hn : M.actions.Nodup) (s t : Fin n) (p : L × L) : Spec.Near c (M.tauP s t p) (M'.tauP s t p) := by
  rw [M.tauP_eq_step hn, M'.tauP_eq_step (h.nodup hn)]
  exact h.step s t p

theorem Near.mask (h : Near c M M') (o : L) (s : Fin n) : Spec.Near 1 (M.mask o s) (M'.mask o s) := by
  unfold MDP.mask
  rw [h.labelling]
  split_ifs
  · exact Spec.Near.refl zero_le_one le_rfl
  · exact Spec.Near.refl le_rfl le_rfl

/-- C110, MDP: a trace of `k` actions uses one initial probability and `k` transitions. -/
theorem likelihood_near (hc : 1 ≤ c) (h : Near c M M') (hn : M.actions.Nodup) (w : List L) :
    Spec.Near (c ^ (w.length / 2 + 1)) (M.lik w) (M'.lik w) := by
  by_cases hw : w.length % 2 = 1
  · obtain ⟨ps, last, rfl⟩ := exists_alternate w hw
    rw [lik_alternate, lik_alternate]
    unfold stepWeight
    have := totalWeight_near (κ := fun _ : L × L => c) (fun _ => hc) h.step (zero_le_one.trans hc) ps M.initialState M'.initialState
      (M.mask last) (M'.mask last) h.initial (h.mask last)
    rw [List.map_const', List.prod_replicate, ← pow_succ'] at this
    rw [alternate_length]
    have e : (2 * ps.length + 1) / 2 = ps.length := by omega
    rw [e]
    exact this
  · unfold lik
    rw [dif_neg hw, dif_neg hw]
    exact Spec.Near.zero

theorem Near.nonneg (h : Near c M M') (hn : M.actions.Nodup) : (∀ s i t, 0 ≤ M.matrix s i t) ∧ ∀ s i t, 0 ≤ M'.matrix s i t := by
  have key : ∀ M : MDP ℝ L n, M.actions.Nodup → (∀ s x t, 0 ≤ M.prob s x t) → ∀ s i t, 0 ≤ M.matrix s i t := by
    intro M hn hp s i t
    have := hp s (M.actions[i.1]'i.2) t
    rw [M.prob_mem hn s _ t (List.getElem_mem _)] at this
    convert this using 2
    exact Fin.ext (hn.idxOf_getElem i.1 i.2).symm
  exact ⟨key M hn (fun s x t => (h.prob s x t).1), key M' (h.nodup hn) (fun s x t => (h.prob s x t).2.1)⟩

/-- C110, MDP: the log-likelihood of a set. -/
theorem logLikelihood_near (hc : 1 ≤ c) (h : Near c M M') (hn : M.actions.Nodup) (cpus : ℕ) (h2 : 2 ≤ cpus) (S : TSet L) (hs : S.times.sum ≠ 0)
    (hlen : S.times.length = S.sequences.length) (ho : ∀ w ∈ S.sequences, w.length % 2 = 1) :
    ∃ x x', M.logLikelihoodMultiproc cpus S = .ok x ∧ M'.logLikelihoodMultiproc cpus S = .ok x' ∧
      |x - x'| ≤ symbols S * Real.log c / (S.times.sum : ℕ) := by
  obtain ⟨h1, h1'⟩ := h.nonneg hn
  refine ⟨_, _, M.logLikelihood_spec hn (fun s => (h.initial s).1) h1 cpus h2 S hs ho,
    M'.logLikelihood_spec (h.nodup hn) (fun s => (h.initial s).2.1) h1' cpus h2 S hs ho, ?_⟩
  have := avgLogLik_near_pow M.lik M'.lik c hc 1 0 S hlen (fun w hw => (likelihood_near hc h hn w).mono (pow_le_pow_right₀ hc (by have := ho w hw; omega)))
  simp only [Nat.cast_one, one_mul, Nat.cast_zero, zero_mul, add_zero] at this
  exact this

/-- The results of the workers agree up to a factor. -/
def WorkNear (B : ℝ) (A A' : List L) (w : WorkMDP ℝ n A.length) (w' : WorkMDP ℝ n A'.length) : Prop :=
  ∀ s (i : Fin A.length) (i' : Fin A'.length), A'[i'] = A[i] → Spec.Near B (w.den s i) (w'.den s i') ∧ ∀ t, Spec.Near B (w.num s i t) (w'.num s i' t)

/-- C110, MDP, one iteration of the learning; `T` bounds the number of actions of the traces. -/
theorem step_near (hc : 1 ≤ c) (h : Near c M M') (hn : M.actions.Nodup) (processes : ℕ) (S : TSet L) (T : ℕ) (hT : ∀ w ∈ S.sequences, w.length / 2 ≤ T) :
    SameOutcome (fun a b => Near (c ^ (4 * (T + 1))) a.1 b.1 ∧ a.1.actions = M.actions) (stepMDP processes S M) (stepMDP processes S M') := by
  have hc0 := zero_le_one.trans hc
  have hc1 : ∀ _ : L × L, 1 ≤ c := fun _ => hc
  have ht := h.tau hn
  have hn' := h.nodup hn
  have hp : ∀ k : ℕ, 0 ≤ c ^ k := fun k => pow_nonneg hc0 k
  unfold stepMDP workMDP
  refine SameOutcome.bind (R := List.Forall₂ (WorkNear (c ^ (2 * (T + 1))) M.actions M'.actions))
    (SameOutcome.bind (mapM_same (R := fun p q : List L × ℕ => q = p ∧ p ∈ S.sequences.zip S.times)
      (Q := Option.Rel (WorkNear (c ^ (2 * (T + 1))) M.actions M'.actions)) (List.forall₂_same.2 (fun p hp => ⟨rfl, hp⟩)) ?_)
      (fun a a' ha => collect_same _ _ ha)) ?_
  · rintro q p ⟨rfl, hpS⟩
    have hlT : (pairs p.1).length ≤ T := by
      rw [pairs_length]
      exact hT _ (List.of_mem_zip hpS).1
    unfold processWorkMDP
    dsimp only
    cases hlast : p.1.getLast? with
    | none => rfl
    | some last =>
      simp only [SameOutcome]
      have hl : Spec.Near (c ^ ((pairs p.1).length + 1)) (lastSum (maskLast (M.mask last) (alphas M.tauP M.initialState (pairs p.1))))
          (lastSum (maskLast (M'.mask last) (alphas M'.tauP M'.initialState (pairs p.1)))) := by
        rw [lastSum_maskLast, lastSum_maskLast]
        have := totalWeight_near (κ := fun _ : L × L => c) hc1 ht hc0 (pairs p.1) _ _ _ _ h.initial (h.mask last)
        rwa [List.map_const', List.prod_replicate, ← pow_succ'] at this
      by_cases h0 : lastSum (maskLast (M.mask last) (alphas M.tauP M.initialState (pairs p.1))) = 0
      · rw [if_pos h0, if_pos (hl.eq_zero.1 h0)]
        exact Option.Rel.none
      · rw [if_neg h0, if_neg (fun h1 => h0 (hl.eq_zero.2 h1))]
        have hC := (Spec.Near.refl (Nat.cast_nonneg (α := ℝ) p.2) le_rfl).div hl zero_le_one
        rw [one_mul] at hC
        have hpow : c * ((pairs p.1).map (fun _ => c)).prod * c ^ ((pairs p.1).length + 1) ≤ c ^ (2 * (T + 1)) := by
          rw [List.map_const', List.prod_replicate, ← pow_succ', ← pow_add]
          exact pow_le_pow_right₀ hc (by omega)
        refine Option.Rel.some (fun s i i' hi => ⟨?_, fun t => ?_⟩)
        · dsimp only
          rw [visits_mask, visits_mask, hi]
          exact (visits_near (κ := fun _ : L × L => c) hc1 ht _ hC (M.mask last) (M'.mask last) (h.mask last) (pairs p.1)
            (fun _ _ => by split_ifs <;> norm_num) s hc0 _ _ h.initial).mono hpow
        · dsimp only
          rw [uses_mask, uses_mask, hi]
          exact (uses_near (κ := fun _ : L × L => c) hc1 ht _ hC (M.mask last) (M'.mask last) (h.mask last) (pairs p.1)
            (fun _ _ => by split_ifs <;> norm_num) s t hc0 _ _ h.initial).mono hpow
  · intro l l' hl
    have hle : c ≤ c ^ (4 * (T + 1)) := le_self_pow₀ hc (by omega)
    have hpw : c ^ (2 * (T + 1)) * c ^ (2 * (T + 1)) = c ^ (4 * (T + 1)) := by
      rw [← pow_add]
      congr 1
      ring
    refine ⟨⟨h.actions, h.labelling, fun s x t => ?_, fun s => (h.initial s).mono hle⟩, rfl⟩
    by_cases hx : x ∈ M.actions
    · have hx' : x ∈ M'.actions := h.actions.mem_iff.2 hx
      have hpr := h.prob s x t
      rw [M.prob_mem hn _ _ _ hx, M'.prob_mem hn' _ _ _ hx'] at hpr
      rw [(updateMDP M l).prob_mem hn _ _ _ hx, (updateMDP M' l').prob_mem hn' _ _ _ hx']
      simp only [updateMDP]
      have hden : Spec.Near (c ^ (2 * (T + 1))) (l.map (fun w => w.den s ⟨M.actions.idxOf x, List.idxOf_lt_length_iff.mpr hx⟩)).sum
          (l'.map (fun w => w.den s ⟨M'.actions.idxOf x, List.idxOf_lt_length_iff.mpr hx'⟩)).sum :=
        Spec.Near.listSum (hl.imp (fun a b hab => (hab s _ _ (by simp)).1))
      by_cases h0 : (l.map (fun w => w.den s ⟨M.actions.idxOf x, List.idxOf_lt_length_iff.mpr hx⟩)).sum = 0
      · rw [if_pos h0, if_pos (hden.eq_zero.1 h0)]
        exact hpr.mono hle
      · rw [if_neg h0, if_neg (fun h1 => h0 (hden.eq_zero.2 h1))]
        exact ((Spec.Near.listSum (hl.imp (fun a b hab => (hab s _ _ (by simp)).2 t))).div hden (hp _)).mono (le_of_eq hpw)
    · rw [(updateMDP M l).prob_not_mem _ _ _ hx, (updateMDP M' l').prob_not_mem _ _ _ (fun hc => hx (h.actions.mem_iff.1 hc))]
      exact Spec.Near.zero

/-- C110, MDP, any number of iterations. -/
theorem rounds_near (processes : ℕ) (S : TSet L) (T : ℕ) (hT : ∀ w ∈ S.sequences, w.length / 2 ≤ T) (k : ℕ) : ∀ {c : ℝ}, 1 ≤ c → ∀ {M M' : MDP ℝ L n}, Near c M M' →
    M.actions.Nodup → SameOutcome (Near (c ^ ((4 * (T + 1)) ^ k))) (rounds (stepMDP processes S) k M) (rounds (stepMDP processes S) k M') := by
  induction k with
  | zero =>
    intro c _ M M' h _
    rw [pow_zero, pow_one]
    exact h
  | succ k ih =>
    intro c hc M M' h hn
    refine SameOutcome.bind (step_near hc h hn processes S T hT) (fun a b hab => ?_)
    have := ih (one_le_pow₀ hc) hab.1 (by rw [hab.2]; exact hn)
    rwa [← pow_mul, ← pow_succ'] at this

end MDP
end Jajapy
